import Verif.Lemmas.IntervalTree
import Verif.Lemmas.Trace

/-!
# C81: the one dimensional segment tree
-/
namespace Props
open Py Model Spec

set_option linter.unusedSectionVars false
variable {α : Type} [DecidableEq α]

/-- The closed interval between the two ends, given in either order, contains the value. -/
def SegCovers (lt : α → α → Bool) (g : α × α) (q : α) : Bool :=
  (!lt q g.1 && !lt g.2 q) || (!lt q g.2 && !lt g.1 q)

/-- The calls. -/
inductive IvOp (α : Type) where
  | build
  | query (q : α)

inductive SegOut where
  | done
  | found (l : List Nat)
  | raised (e : PyErr)
  deriving DecidableEq

/-- The program; `extra` is any additional number of iterations granted to the loops. -/
def ivStep (lt : α → α → Bool) (dec inc : α → α) (extra : Nat) (s : IvTree α) : IvOp α → IvTree α × SegOut
  | .build =>
    match ivBuild lt dec inc (8 * s.segments.length + 2 + extra) s with
    | .ok s' => (s', .done)
    | .error e => (s, .raised e)
  | .query q =>
    match ivQuery lt dec inc (8 * s.segments.length + 2 + extra) s q with
    | .ok (s', l) => (s', .found l)
    | .error e => (s, .raised e)

/-- The answer that is right: `build` returns nothing; `query` returns the positions of the segments that contain the value, each once. -/
def SegRight (lt : α → α → Bool) (segs : List (α × α)) : IvOp α → SegOut → Prop
  | .build, out => out = .done
  | .query q, out => ∃ l, out = .found l ∧
      l.Perm ((List.range segs.length).filter fun i => (segs[i]?.map fun g => SegCovers lt g q).getD false)

theorem Seg.size_eq : ∀ S : Seg α, S.size + 1 = 2 * S.leaves.length
  | .leaf _ => rfl
  | .node _ _ _ l r => by
    have := Seg.size_eq l
    have := Seg.size_eq r
    simp only [Seg.size, Seg.leaves, List.length_append]
    omega

/-- The tree is ready for queries. -/
def SegReady (lt : α → α → Bool) (segs : List (α × α)) (t : List (IvNode α)) : Prop :=
  ∃ p S, Sits t (-1) p S ∧ S.size ≤ 8 * segs.length + 1 ∧ ∀ q x,
    x ∈ collected lt (dataAt t) { lc := true, lo := q, hi := q, rc := true } p S ↔ ∃ g, segs[x]? = some g ∧ Leq lt g.1 q ∧ Leq lt q g.2

theorem place_all {lt : α → α → Bool} {S : Seg α} {p : Nat} {fuel : Nat} (hf : S.size + 1 ≤ fuel) : ∀ (segs : List (α × α)) (name : Nat) (t : List (IvNode α)), Sits t (-1) p S →
    ∃ t', ivPlaceAll lt fuel name segs t = .ok t' ∧ SameLinks t t' ∧ ∀ p' x, x ∈ dataAt t' p' ↔ x ∈ dataAt t p' ∨
      ∃ j g, x = name + j ∧ segs[j]? = some g ∧ p' ∈ storedAt lt { lc := true, lo := g.1, hi := g.2, rc := true } p S
  | [], name, t, _ => ⟨t, rfl, .refl t, by intro p' x; simp⟩
  | g :: segs, name, t, h => by
    obtain ⟨c, t1, hc, h1, h2, h3⟩ := place_steps (lt := lt) (I := { lc := true, lo := g.1, hi := g.2, rc := true }) (name := name) h
    obtain ⟨t2, e2, l2, d2⟩ := place_all hf segs (name + 1) t1 (h1.sits h)
    refine ⟨t2, ?_, h1.trans l2, ?_⟩
    · have e1 : ivPlace lt fuel name g t = .ok t1 := by
        simp only [ivPlace]
        have e := h3 (fuel - c) []
        rw [show fuel - c + c = fuel by omega] at e
        have e' : whileLoop fuel (fun st => Except.ok (!st.1.isEmpty)) (ivPlaceBody lt { lc := true, lo := g.1, hi := g.2, rc := true } name) ([some (-1)], t)
            = .ok ([], t1) := by
          refine Eq.trans e ?_
          obtain ⟨m, hm⟩ : ∃ m, fuel - c = m + 1 := ⟨fuel - c - 1, by omega⟩
          rw [hm]
          simp [whileLoop, callsLeft]
        rw [e']
        rfl
      simp only [ivPlaceAll, e1, ok_bind]
      exact e2
    · intro p' x
      rw [d2, h2]
      constructor
      · rintro ((h | ⟨rfl, h⟩) | ⟨j, g', rfl, h, h'⟩)
        · exact .inl h
        · exact .inr ⟨0, g, rfl, rfl, h⟩
        · exact .inr ⟨j + 1, g', by omega, h, h'⟩
      · rintro (h | ⟨j, g', rfl, h, h'⟩)
        · exact .inl (.inl h)
        · cases j with
          | zero =>
            simp only [List.getElem?_cons_zero, Option.some.injEq] at h
            subst h
            exact .inl (.inr ⟨by omega, h'⟩)
          | succ j => exact .inr ⟨j, g', by omega, h, h'⟩

theorem ivElems_blank (inc : α → α) : ∀ (rest : List α) (x : α), ∀ n ∈ ivElems inc x rest, n.data = none
  | [], x, n, hn => by
    simp only [ivElems, List.mem_cons, List.not_mem_nil, or_false] at hn
    rcases hn with rfl | rfl <;> rfl
  | y :: rest, x, n, hn => by
    simp only [ivElems, List.mem_cons] at hn
    rcases hn with rfl | rfl | hn
    · rfl
    · rfl
    · exact ivElems_blank inc rest y n hn

theorem bare_forest {lt : α → α → Bool} (ho : StrictTotal fun a b => lt a b = true) {dec inc : α → α} (hdec : ∀ x, lt (dec x) x = true)
    (hinc : ∀ x, lt x (inc x) = true) {x : α} {rest : List α} (hs : (x :: rest).Pairwise (Leq lt)) :
    ForestOk lt [] ((({ lc := false, lo := dec x, hi := x, rc := false } : IvNode α) :: ivElems inc x rest).map bare) := by
  have hall := ivElems_lo ho hinc rest x hs
  refine ⟨?_, ?_, ?_⟩
  · intro z hz
    obtain ⟨n, hn, rfl⟩ := List.mem_map.1 hz
    rcases List.mem_cons.1 hn with rfl | hn
    · exact ⟨rfl, rfl, rfl⟩
    · exact ⟨rfl, (hall n hn).2.2⟩
  · intro z hz
    obtain ⟨n, hn, rfl⟩ := List.mem_map.1 hz
    rcases List.mem_cons.1 hn with rfl | hn
    · exact leq_of_lt ho (hdec x)
    · exact (hall n hn).2.1
  · rw [List.pairwise_map]
    refine List.pairwise_cons.2 ⟨?_, ivElems_chain ho hinc rest x hs⟩
    intro n hn
    exact (hall n hn).1

theorem ivBuild_spec {lt : α → α → Bool} (ho : StrictTotal fun a b => lt a b = true) {dec inc : α → α} (hdec : ∀ x, lt (dec x) x = true)
    (hinc : ∀ x, lt x (inc x) = true) {s : IvTree α} (hc : s.cache = false) (hne : s.segments ≠ []) (hord : ∀ g ∈ s.segments, Leq lt g.1 g.2) {fuel : Nat}
    (hf : 8 * s.segments.length + 2 ≤ fuel) :
    ∃ t, ivBuild lt dec inc fuel s = .ok ⟨s.segments, t, true⟩ ∧ SegReady lt s.segments t := by
  have hperm := ivSort_perm lt (s.segments.flatMap fun g => [g.1, g.2])
  have hsort := ivSort_sorted ho (s.segments.flatMap fun g => [g.1, g.2])
  have hlen : (s.segments.flatMap fun g => [g.1, g.2]).length = 2 * s.segments.length := by
    clear hperm hsort hf hord hne
    induction s.segments with
    | nil => rfl
    | cons a l ih => simp only [List.flatMap_cons, List.length_append, ih, List.length_cons, List.length_nil]; omega
  have hpos : 0 < s.segments.length := List.length_pos_iff.2 hne
  unfold ivBuild
  rw [hc]
  cases hE : ivSort lt (s.segments.flatMap fun g => [g.1, g.2]) with
  | nil =>
    rw [hE] at hperm
    have := hperm.length_eq
    rw [hlen] at this
    simp only [List.length_nil] at this
    omega
  | cons x rest =>
    rw [hE] at hperm hsort
    have hl := hperm.length_eq
    rw [hlen] at hl
    simp only [List.length_cons] at hl
    have hmem : ∀ g ∈ s.segments, g.1 ∈ x :: rest ∧ g.2 ∈ x :: rest := fun g hg =>
      ⟨hperm.mem_iff.2 (List.mem_flatMap.2 ⟨g, hg, by simp⟩), hperm.mem_iff.2 (List.mem_flatMap.2 ⟨g, hg, by simp⟩)⟩
    have hF := bare_forest ho hdec hinc hsort
    have hLen : (({ lc := false, lo := dec x, hi := x, rc := false } : IvNode α) :: ivElems inc x rest).length = 2 * rest.length + 3 := by
      rw [List.length_cons, ivElems_length]
    obtain ⟨u, v, t', e1, hrep, hgeo, hleaves⟩ := ivRounds_spec ho (2 * rest.length + 3) _ [] (by rw [List.length_map]; exact hLen) (by omega) hF (by
      rw [List.map_map]
      exact ivElems_round hinc rest x _) fuel (by omega)
    have hmapfst : (((({ lc := false, lo := dec x, hi := x, rc := false } : IvNode α) :: ivElems inc x rest).map bare).map Prod.fst)
        = ({ lc := false, lo := dec x, hi := x, rc := false } : IvNode α) :: ivElems inc x rest := by
      rw [List.map_map]; exact List.map_id _
    rw [hmapfst] at e1
    have hfl : forestLeaves ((({ lc := false, lo := dec x, hi := x, rc := false } : IvNode α) :: ivElems inc x rest).map bare)
        = (({ lc := false, lo := dec x, hi := x, rc := false } : IvNode α) :: ivElems inc x rest).map keyAt := by
      generalize (({ lc := false, lo := dec x, hi := x, rc := false } : IvNode α) :: ivElems inc x rest) = L
      induction L with
      | nil => rfl
      | cons a l ih =>
        simp only [forestLeaves, List.map_cons, List.flatMap_cons] at ih ⊢
        rw [ih]; rfl
    rw [hfl] at hleaves
    have hsize : (ivJoin t' u v).2.size ≤ 8 * s.segments.length + 1 := by
      have h1 := Seg.size_eq (ivJoin t' u v).2
      rw [hleaves, List.length_map, hLen] at h1
      omega
    -- the finished tree
    generalize hroot : ({ (ivJoin t' u v).1 with left := some (-3), right := some (-2) } : IvNode α) = root
    have hsits : Sits (t' ++ [u.1, v.1] ++ [root]) (-1) (t'.length + 2) (ivJoin t' u v).2 := by
      have hl3 : (t' ++ [u.1, v.1] ++ [root]).length = t'.length + 3 := by simp
      have pos : ∀ d : Nat, 1 ≤ d → d ≤ 3 → ivPos (t' ++ [u.1, v.1] ++ [root]) (-(d : Int)) = .ok (t'.length + 3 - d) := by
        intro d h1 h3
        unfold ivPos
        have e : (if (-(d : Int)) < 0 then (-(d : Int)) + (t' ++ [u.1, v.1] ++ [root]).length else (-(d : Int))) = ((t'.length + 3 - d : Nat) : Int) := by
          rw [if_pos (by omega), hl3]; omega
        simp only [e]
        rw [if_pos (by rw [hl3]; omega)]
        simp
      have hpre : t' ++ [u.1, v.1] <+: t' ++ [u.1, v.1] ++ [root] := List.prefix_append _ _
      have hrep' := hrep.mono hpre
      obtain ⟨k1, k2, k3, ⟨m, k4, k5⟩, m', k6, k7⟩ := hrep'
      have s1 := k5.sits k4
      have s2 := k7.sits k6
      have move : ∀ {S : Seg α} {i j : Int} {p : Nat}, Sits (t' ++ [u.1, v.1] ++ [root]) i p S → ivPos (t' ++ [u.1, v.1] ++ [root]) j = .ok p →
          Sits (t' ++ [u.1, v.1] ++ [root]) j p S := by
        intro S i j p h hj
        cases S with
        | leaf k => exact ⟨hj, h.2⟩
        | node k a b l r => exact ⟨hj, h.2⟩
      refine ⟨pos 1 (by omega) (by omega), root, -3, -2, ?_, ?_, ?_, ?_, move s1 (pos 3 (by omega) (by omega)), move s2 (pos 2 (by omega) (by omega))⟩
      · simp
      · rw [← hroot]; exact k1
      · rw [← hroot]
      · rw [← hroot]
    obtain ⟨t2, e2, l2, d2⟩ := place_all (lt := lt) (fuel := fuel) (by omega) s.segments 0 _ hsits
    refine ⟨t2, ?_, ?_⟩
    · simp only [Bool.false_eq_true, if_false, e1, ok_bind]
      rw [hroot, e2]
      simp
    have hblank := ivRounds_blank fuel _ [] _ _ e1 (by
      intro n hn
      rcases List.mem_cons.1 hn with rfl | hn
      · rfl
      · exact ivElems_blank inc rest x n hn) (by simp)
    have hbare : ∀ p', dataAt (t' ++ [u.1, v.1] ++ [root]) p' = [] := by
      intro p'
      unfold dataAt
      cases hp : (t' ++ [u.1, v.1] ++ [root])[p']? with
      | none => rfl
      | some n =>
        have hn := List.mem_of_getElem? hp
        have : n.data = none := by
          rcases List.mem_append.1 hn with hn | hn
          · exact hblank.2 n hn
          · rw [List.mem_singleton.1 hn, ← hroot]
            rfl
        simp [this]
    refine ⟨_, _, l2.sits hsits, hsize, ?_⟩
    intro q y
    have hd : ∀ p', y ∈ dataAt t2 p' ↔ ∃ g, s.segments[y]? = some g ∧ p' ∈ storedAt lt { lc := true, lo := g.1, hi := g.2, rc := true } (t'.length + 2) (ivJoin t' u v).2 := by
      intro p'
      rw [d2, hbare]
      simp
    constructor
    · intro hy
      have hloc : ∃ p' n, t2[p']? = some n ∧ y ∈ dataAt t2 p' ∧ Leq lt n.lo q ∧ Leq lt q n.hi := by
        rcases collected_mem (l2.sits hsits) hy with h | h
        · exfalso
          obtain ⟨g, hg, hst⟩ := (hd _).1 h
          obtain ⟨n, hn, h1, h2⟩ := stored_contains ho (l2.sits hsits) hst
          obtain ⟨n', _, hk, hn'⟩ := (l2.sits hsits).key
          rw [hn] at hn'
          cases hn'
          have hlo : n.lo = dec x := by
            have h3 : (keyAt n).lo = _ := congrArg SegKey.lo hk
            exact h3.trans (hgeo.first hleaves)
          rw [hlo] at h1
          have hg' := (hmem g (List.mem_of_getElem? hg)).1
          have : Leq lt x g.1 := by
            rcases List.mem_cons.1 hg' with h | h
            · rw [h]; exact leq_refl ho _
            · exact (List.pairwise_cons.1 hsort).1 _ h
          exact not_leq_of_lt (hdec x) (leq_trans ho this h1)
        · exact h
      obtain ⟨p', n, hn, hyp, h1, h2⟩ := hloc
      obtain ⟨g, hg, hst⟩ := (hd _).1 hyp
      obtain ⟨n', hn', h3, h4⟩ := stored_contains ho (l2.sits hsits) hst
      rw [hn] at hn'
      cases hn'
      exact ⟨g, hg, leq_trans ho h3 h1, leq_trans ho h2 h4⟩
    · rintro ⟨g, hg, h1, h2⟩
      have hgm := hmem g (List.mem_of_getElem? hg)
      obtain ⟨n, hn, c1, c2, c3, c4, c5⟩ := ivElems_cover' (inc := inc) ho h1 h2 rest x hsort hgm.1 hgm.2
      refine collected_of_leaf ho (e := keyAt n) c1 c2 c3 c4 c5 hgeo ?_ (fun p' hp' => (hd p').2 ⟨g, hg, hp'⟩)
      rw [hleaves]
      exact List.mem_map_of_mem (List.mem_cons_of_mem _ hn)

/-- The object in use: not yet built, or ready. -/
def SegHolds (lt : α → α → Bool) (segs : List (α × α)) (s : IvTree α) : Prop :=
  s.segments = (ivNew lt segs).segments ∧ (s.cache = false ∨ s.cache = true ∧ SegReady lt s.segments s.tree)

theorem ivNew_ordered {lt : α → α → Bool} (ho : StrictTotal fun a b => lt a b = true) (segs : List (α × α)) :
    ∀ g ∈ (ivNew lt segs).segments, Leq lt g.1 g.2 := by
  intro g hg
  obtain ⟨g', _, rfl⟩ := List.mem_map.1 hg
  split
  · next h => exact leq_of_lt ho h
  · next h => exact Bool.eq_false_iff.2 h

theorem ivNew_covers {lt : α → α → Bool} (ho : StrictTotal fun a b => lt a b = true) (segs : List (α × α)) (q : α) (x : Nat) :
    (∃ g, (ivNew lt segs).segments[x]? = some g ∧ Leq lt g.1 q ∧ Leq lt q g.2) ↔ (segs[x]?.map fun g => SegCovers lt g q).getD false = true := by
  simp only [ivNew, List.getElem?_map]
  cases h : segs[x]? with
  | none => simp
  | some g =>
    simp only [Option.map_some, Option.some.injEq, exists_eq_left', Option.getD_some, SegCovers, Bool.or_eq_true, Bool.and_eq_true, Bool.not_eq_true']
    unfold Leq
    split
    · next hlt =>
      constructor
      · intro hh; exact .inr hh
      · rintro (⟨h1, h2⟩ | hh)
        · exact absurd (leq_trans ho (show Leq lt g.1 q from h1) (show Leq lt q g.2 from h2)) (not_leq_of_lt hlt)
        · exact hh
    · next hlt =>
      constructor
      · intro hh; exact .inl hh
      · rintro (hh | ⟨h1, h2⟩)
        · exact hh
        · have e : g.1 = g.2 := leq_antisymm ho (Bool.eq_false_iff.2 hlt) (leq_trans ho (show Leq lt g.2 q from h1) (show Leq lt q g.1 from h2))
          rw [e] at h2 ⊢
          exact ⟨h1, h2⟩

theorem ivBuild_holds {lt : α → α → Bool} (ho : StrictTotal fun a b => lt a b = true) {dec inc : α → α} (hdec : ∀ x, lt (dec x) x = true)
    (hinc : ∀ x, lt x (inc x) = true) {segs : List (α × α)} (hne : segs ≠ []) {s : IvTree α} (h : SegHolds lt segs s) {fuel : Nat}
    (hf : 8 * s.segments.length + 2 ≤ fuel) :
    ∃ s', ivBuild lt dec inc fuel s = .ok s' ∧ s'.segments = s.segments ∧ s'.cache = true ∧ SegReady lt s'.segments s'.tree := by
  obtain ⟨h1, h2 | ⟨h2, h3⟩⟩ := h
  · obtain ⟨t, e, hr⟩ := ivBuild_spec ho hdec hinc h2 (by rw [h1]; simpa [ivNew] using hne) (by rw [h1]; exact ivNew_ordered ho segs) hf
    exact ⟨_, e, rfl, rfl, hr⟩
  · exact ⟨s, by simp [ivBuild, h2], rfl, h2, h3⟩

theorem nodup_eraseDups' : ∀ l : List Nat, l.eraseDups.Nodup
  | [] => by simp
  | a :: l => by
    rw [List.eraseDups_cons]
    refine List.nodup_cons.2 ⟨?_, nodup_eraseDups' _⟩
    intro h
    have := List.mem_filter.1 (List.mem_eraseDups.1 h)
    simp at this
termination_by l => l.length
decreasing_by
  have := List.length_filter_le (fun b => !b == a) l
  simp only [List.length_cons]
  omega

theorem ivStep_spec {lt : α → α → Bool} (ho : StrictTotal fun a b => lt a b = true) {dec inc : α → α} (hdec : ∀ x, lt (dec x) x = true)
    (hinc : ∀ x, lt x (inc x) = true) {segs : List (α × α)} (hne : segs ≠ []) (extra : Nat) (s : IvTree α) (op : IvOp α) (h : SegHolds lt segs s) :
    SegHolds lt segs (ivStep lt dec inc extra s op).1 ∧ SegRight lt segs op (ivStep lt dec inc extra s op).2 := by
  obtain ⟨s', e, g1, g2, g3⟩ := ivBuild_holds ho hdec hinc hne h (fuel := 8 * s.segments.length + 2 + extra) (by omega)
  have hh : SegHolds lt segs s' := ⟨g1.trans h.1, .inr ⟨g2, g3⟩⟩
  cases op with
  | build =>
    simp only [ivStep, e]
    exact ⟨hh, rfl⟩
  | query q =>
    obtain ⟨p, S, k1, k2, k3⟩ := g3
    obtain ⟨c, hc, hw⟩ := query_steps (lt := lt) (q := { lc := true, lo := q, hi := q, rc := true }) k1
    rw [g1] at k2
    have ew : whileLoop (8 * s.segments.length + 2 + extra) (fun st => Except.ok (!st.1.isEmpty))
        (ivQueryBody lt s'.tree { lc := true, lo := q, hi := q, rc := true }) ([some (-1)], [])
          = .ok ([], collected lt (dataAt s'.tree) { lc := true, lo := q, hi := q, rc := true } p S) := by
      have e' := hw (8 * s.segments.length + 2 + extra - c) [] []
      rw [show 8 * s.segments.length + 2 + extra - c + c = 8 * s.segments.length + 2 + extra by omega] at e'
      refine Eq.trans e' ?_
      obtain ⟨m, hm⟩ : ∃ m, 8 * s.segments.length + 2 + extra - c = m + 1 := ⟨8 * s.segments.length + 2 + extra - c - 1, by omega⟩
      rw [hm]
      simp [whileLoop, callsLeft]
    have eq : ivQuery lt dec inc (8 * s.segments.length + 2 + extra) s q
        = .ok (s', (collected lt (dataAt s'.tree) { lc := true, lo := q, hi := q, rc := true } p S).eraseDups) := by
      simp only [ivQuery, e, ok_bind]
      rw [ew]
      rfl
    simp only [ivStep, eq]
    refine ⟨hh, _, rfl, ?_⟩
    refine (List.perm_ext_iff_of_nodup (nodup_eraseDups' _) (List.nodup_range.filter _)).2 ?_
    intro x
    rw [List.mem_eraseDups, k3, g1, h.1, ivNew_covers ho, List.mem_filter, List.mem_range]
    constructor
    · intro hx
      refine ⟨?_, hx⟩
      cases hg : segs[x]? with
      | none => rw [hg] at hx; cases hx
      | some g => exact (List.getElem?_eq_some_iff.1 hg).1
    · exact fun hx => hx.2

/-- **C81.** For every non-empty list of intervals, every history of `build` and `query` calls and every ordered type of numbers in which `x - 1 < x < x + 1`:
every query returns exactly the intervals that contain the value, each interval once, and no call raises. Intervals are told apart
by their positions in the list, so equal intervals are both returned. -/
theorem C81_query {lt : α → α → Bool} (ho : StrictTotal fun a b => lt a b = true) {dec inc : α → α} (hdec : ∀ x, lt (dec x) x = true)
    (hinc : ∀ x, lt x (inc x) = true) (segs : List (α × α)) (hne : segs ≠ []) (extra : Nat) (ops : List (IvOp α)) :
    ∀ (i : Nat) op out, ops[i]? = some op → (trace (ivStep lt dec inc extra) (ivNew lt segs) ops)[i]? = some out → SegRight lt segs op out := by
  have key : ∀ (ops : List (IvOp α)) (s : IvTree α), SegHolds lt segs s → ∀ (i : Nat) op out, ops[i]? = some op →
      (trace (ivStep lt dec inc extra) s ops)[i]? = some out → SegRight lt segs op out := by
    intro ops
    induction ops with
    | nil => intro s _ i op out h; simp at h
    | cons op ops ih =>
      intro s hs i op' out h1 h2
      obtain ⟨g1, g2⟩ := ivStep_spec ho hdec hinc hne extra s op hs
      cases i with
      | zero =>
        simp only [List.getElem?_cons_zero, Option.some.injEq, trace] at h1 h2
        subst h1
        rw [← h2]
        exact g2
      | succ i => exact ih _ g1 i op' out h1 h2
  exact key ops _ ⟨rfl, .inl rfl⟩

/-- The trace has one answer for every call. -/
theorem C81_length {lt : α → α → Bool} {dec inc : α → α} (segs : List (α × α)) (extra : Nat) (ops : List (IvOp α)) :
    (trace (ivStep lt dec inc extra) (ivNew lt segs) ops).length = ops.length := by
  generalize ivNew lt segs = s
  induction ops generalizing s with
  | nil => rfl
  | cons op ops ih => simp [trace, ih]

/-- **C81, no intervals.** With an empty list every call raises `IndexError`. -/
theorem C81_empty {lt : α → α → Bool} {dec inc : α → α} (fuel : Nat) (q : α) :
    ivBuild lt dec inc fuel (ivNew lt []) = .error .indexError ∧ ivQuery lt dec inc fuel (ivNew lt []) q = .error .indexError := ⟨rfl, rfl⟩

/-- Integers meet the hypotheses. -/
example : StrictTotal (fun a b : Int => decide (a < b) = true) ∧ (∀ x : Int, decide (x - 1 < x) = true) ∧ ∀ x : Int, decide (x < x + 1) = true := by
  refine ⟨⟨?_, ?_, ?_⟩, ?_, ?_⟩ <;> intros <;> simp_all <;> omega

/-- Overlapping, reversed, one-point and equal intervals. -/
example : trace (ivStep (fun a b : Int => decide (a < b)) (· - 1) (· + 1) 0) (ivNew (fun a b : Int => decide (a < b)) [(8, 3), (9, 20), (5, 5), (5, 5), (1, 30)])
    [.query 5, .build, .query 20, .query 0, .query 8] = [.found [0, 4, 2, 3], .done, .found [4, 1], .found [], .found [4, 0]] := by
  decide +kernel

end Props
