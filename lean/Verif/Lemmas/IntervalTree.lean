import Verif.Spec
import Verif.Lemmas.Py
import Verif.Model.IntervalTree

/-!
# Lemmas about the one dimensional segment tree
-/
namespace Props
open Py Model Spec

variable {α : Type}

section order
variable {lt : α → α → Bool}

/-- At most. -/
def Leq (lt : α → α → Bool) (a b : α) : Prop := lt b a = false

theorem leq_refl (ho : StrictTotal fun a b => lt a b = true) (a : α) : Leq lt a a := by
  unfold Leq
  cases h : lt a a with
  | false => rfl
  | true => exact absurd h (ho.irrefl a)

theorem leq_of_lt (ho : StrictTotal fun a b => lt a b = true) {a b : α} (h : lt a b = true) : Leq lt a b := by
  unfold Leq
  cases h' : lt b a with
  | false => rfl
  | true => exact absurd (ho.trans _ _ _ h h') (ho.irrefl a)

theorem leq_iff (ho : StrictTotal fun a b => lt a b = true) {a b : α} : Leq lt a b ↔ lt a b = true ∨ a = b := by
  constructor
  · intro h
    rcases ho.tri a b with h1 | h1 | h1
    · exact .inl h1
    · exact .inr h1
    · unfold Leq at h; rw [h] at h1; cases h1
  · rintro (h | rfl)
    · exact leq_of_lt ho h
    · exact leq_refl ho _

theorem leq_trans (ho : StrictTotal fun a b => lt a b = true) {a b c : α} (h1 : Leq lt a b) (h2 : Leq lt b c) : Leq lt a c := by
  rw [leq_iff ho] at *
  rcases h1 with h1 | rfl
  · rcases h2 with h2 | rfl
    · exact .inl (ho.trans _ _ _ h1 h2)
    · exact .inl h1
  · exact h2

theorem leq_antisymm (ho : StrictTotal fun a b => lt a b = true) {a b : α} (h1 : Leq lt a b) (h2 : Leq lt b a) : a = b := by
  rcases (leq_iff ho).1 h1 with h | h
  · unfold Leq at h2; rw [h] at h2; cases h2
  · exact h

theorem lt_of_leq_of_lt (ho : StrictTotal fun a b => lt a b = true) {a b c : α} (h1 : Leq lt a b) (h2 : lt b c = true) : lt a c = true := by
  rcases (leq_iff ho).1 h1 with h | rfl
  · exact ho.trans _ _ _ h h2
  · exact h2

theorem lt_of_lt_of_leq (ho : StrictTotal fun a b => lt a b = true) {a b c : α} (h1 : lt a b = true) (h2 : Leq lt b c) : lt a c = true := by
  rcases (leq_iff ho).1 h2 with h | rfl
  · exact ho.trans _ _ _ h1 h
  · exact h1

theorem not_leq_of_lt {a b : α} (h : lt a b = true) : ¬ Leq lt b a := by
  intro h'; unfold Leq at h'; rw [h] at h'; cases h'

theorem leq_or_lt (a b : α) : Leq lt a b ∨ lt b a = true := by
  unfold Leq; cases lt b a <;> simp

end order

/-! ## Sorting the end points -/

theorem ivInsert_perm (lt : α → α → Bool) (x : α) : ∀ l : List α, (ivInsert lt x l).Perm (x :: l)
  | [] => .refl _
  | y :: ys => by
    simp only [ivInsert]
    split
    · exact ((ivInsert_perm lt x ys).cons y).trans (.swap x y ys)
    · exact .refl _

theorem ivSort_perm (lt : α → α → Bool) : ∀ l : List α, (ivSort lt l).Perm l
  | [] => .refl _
  | x :: l => (ivInsert_perm lt x _).trans ((ivSort_perm lt l).cons x)

theorem ivInsert_sorted {lt : α → α → Bool} (ho : StrictTotal fun a b => lt a b = true) (x : α) : ∀ l : List α, l.Pairwise (Leq lt) →
    (ivInsert lt x l).Pairwise (Leq lt)
  | [], _ => by simp [ivInsert]
  | y :: ys, h => by
    obtain ⟨h1, h2⟩ := List.pairwise_cons.1 h
    simp only [ivInsert]
    split
    · next hyx =>
      refine List.pairwise_cons.2 ⟨?_, ivInsert_sorted ho x ys h2⟩
      intro z hz
      rcases List.mem_cons.1 ((ivInsert_perm lt x ys).mem_iff.1 hz) with rfl | hz
      · exact leq_of_lt ho hyx
      · exact h1 z hz
    · next hyx =>
      have hyx : Leq lt x y := by unfold Leq; simpa using hyx
      refine List.pairwise_cons.2 ⟨?_, h⟩
      intro z hz
      rcases List.mem_cons.1 hz with rfl | hz
      · exact hyx
      · exact leq_trans ho hyx (h1 z hz)

theorem ivSort_sorted {lt : α → α → Bool} (ho : StrictTotal fun a b => lt a b = true) : ∀ l : List α, (ivSort lt l).Pairwise (Leq lt)
  | [] => List.Pairwise.nil
  | x :: l => ivInsert_sorted ho x _ (ivSort_sorted ho l)

/-! ## Shapes -/

/-- The interval of a node. -/
structure SegKey (α : Type) where
  lc : Bool
  lo : α
  hi : α
  rc : Bool

def keyAt (n : IvNode α) : SegKey α := ⟨n.lc, n.lo, n.hi, n.rc⟩

/-- A tree of intervals; `a` and `b` are the positions of the children. -/
inductive Seg (α : Type) where
  | leaf (k : SegKey α)
  | node (k : SegKey α) (a b : Nat) (l r : Seg α)

def Seg.key : Seg α → SegKey α
  | .leaf k => k
  | .node k _ _ _ _ => k

def Seg.leaves : Seg α → List (SegKey α)
  | .leaf k => [k]
  | .node _ _ _ l r => l.leaves ++ r.leaves

def Seg.size : Seg α → Nat
  | .leaf _ => 1
  | .node _ _ _ l r => l.size + r.size + 1

/-- The node `n` is the root of the tree, whose other nodes are in `t`. -/
def SegRep (t : List (IvNode α)) (n : IvNode α) : Seg α → Prop
  | .leaf k => keyAt n = k ∧ n.left = none ∧ n.right = none
  | .node k a b l r => keyAt n = k ∧ n.left = some (a : Int) ∧ n.right = some (b : Int) ∧
      (∃ m, t[a]? = some m ∧ SegRep t m l) ∧ ∃ m, t[b]? = some m ∧ SegRep t m r

theorem SegRep.mono {t t' : List (IvNode α)} (h : t <+: t') : ∀ {S : Seg α} {n : IvNode α}, SegRep t n S → SegRep t' n S
  | .leaf _, _, hr => hr
  | .node _ _ _ _ _, _, ⟨h1, h2, h3, ⟨m, h4, h5⟩, m', h6, h7⟩ => by
    refine ⟨h1, h2, h3, ⟨m, ?_, h5.mono h⟩, m', ?_, h7.mono h⟩
    · obtain ⟨u, rfl⟩ := h
      rw [List.getElem?_append_left (List.getElem?_eq_some_iff.1 h4).1, h4]
    · obtain ⟨u, rfl⟩ := h
      rw [List.getElem?_append_left (List.getElem?_eq_some_iff.1 h6).1, h6]

/-- The interval is not the empty interval between two equal open ends. -/
def Solid (lt : α → α → Bool) (k : SegKey α) : Prop := k.rc = true ∨ lt k.lo k.hi = true

/-- A tree of intervals as `build` makes it: a node is the union of its children, which follow each other. -/
def Geo (lt : α → α → Bool) : Seg α → Prop
  | .leaf k => Leq lt k.lo k.hi
  | .node k _ _ l r => k = ⟨l.key.lc, l.key.lo, r.key.hi, r.key.rc⟩ ∧ Leq lt l.key.hi r.key.lo ∧ Solid lt k ∧ Geo lt l ∧ Geo lt r

theorem Geo.le {lt : α → α → Bool} (ho : StrictTotal fun a b => lt a b = true) : ∀ {S : Seg α}, Geo lt S → Leq lt S.key.lo S.key.hi
  | .leaf _, h => h
  | .node k _ _ l r, h => by
    obtain ⟨rfl, h1, _, hl, hr⟩ := h
    exact leq_trans ho (hl.le ho) (leq_trans ho h1 (hr.le ho))

theorem Geo.bounds {lt : α → α → Bool} (ho : StrictTotal fun a b => lt a b = true) : ∀ {S : Seg α}, Geo lt S → ∀ {k}, k ∈ S.leaves →
    Leq lt S.key.lo k.lo ∧ Leq lt k.hi S.key.hi
  | .leaf k, _, k', hk => by
    simp only [Seg.leaves, List.mem_singleton] at hk
    subst hk
    exact ⟨leq_refl ho _, leq_refl ho _⟩
  | .node k _ _ l r, h, k', hk => by
    obtain ⟨rfl, h1, _, hl, hr⟩ := h
    rcases List.mem_append.1 hk with hk | hk
    · obtain ⟨i1, i2⟩ := hl.bounds ho hk
      exact ⟨i1, leq_trans ho i2 (leq_trans ho h1 (hr.le ho))⟩
    · obtain ⟨i1, i2⟩ := hr.bounds ho hk
      exact ⟨leq_trans ho (leq_trans ho (hl.le ho) h1) i1, i2⟩

/-! ## The rounds -/

/-- What is needed of a queue for one round: of each pair the second interval is solid, and so is a last one without a partner. -/
def RoundOk (lt : α → α → Bool) : List (SegKey α) → Prop
  | [] => True
  | [a] => Solid lt a
  | _ :: b :: rest => Solid lt b ∧ RoundOk lt rest

theorem roundOk_of_all {lt : α → α → Bool} : ∀ {l : List (SegKey α)}, (∀ k ∈ l, Solid lt k) → RoundOk lt l
  | [], _ => trivial
  | [_], h => h _ (by simp)
  | _ :: _ :: _, h => ⟨h _ (by simp), roundOk_of_all (fun k hk => h k (by simp [hk]))⟩

/-- The queue: each node with the tree that it is the root of. -/
abbrev SegForest (α : Type) := List (IvNode α × Seg α)

structure ForestOk (lt : α → α → Bool) (t : List (IvNode α)) (Q : SegForest α) : Prop where
  rep : ∀ x ∈ Q, SegRep t x.1 x.2
  geo : ∀ x ∈ Q, Geo lt x.2
  chain : Q.Pairwise fun x y => Leq lt x.2.key.hi y.2.key.lo

def forestLeaves (Q : SegForest α) : List (SegKey α) := Q.flatMap fun x => x.2.leaves

theorem SegRep.key {t : List (IvNode α)} {n : IvNode α} {S : Seg α} (h : SegRep t n S) : keyAt n = S.key := by
  cases S with
  | leaf k => exact h.1
  | node k a b l r => exact h.1

/-- The union of two nodes that are put at the end of the list. -/
def ivJoin (t : List (IvNode α)) (x y : IvNode α × Seg α) : IvNode α × Seg α :=
  ({ ivUnion x.1 y.1 with left := some t.length, right := some (t.length + 1) },
    .node ⟨x.2.key.lc, x.2.key.lo, y.2.key.hi, y.2.key.rc⟩ t.length (t.length + 1) x.2 y.2)

theorem ivJoin_ok {lt : α → α → Bool} (ho : StrictTotal fun a b => lt a b = true) {t : List (IvNode α)} {x y : IvNode α × Seg α} (hx : SegRep t x.1 x.2)
    (hy : SegRep t y.1 y.2) (gx : Geo lt x.2) (gy : Geo lt y.2) (hc : Leq lt x.2.key.hi y.2.key.lo) (hs : Solid lt y.2.key) :
    SegRep (t ++ [x.1, y.1]) (ivJoin t x y).1 (ivJoin t x y).2 ∧ Geo lt (ivJoin t x y).2 ∧ Solid lt (ivJoin t x y).2.key := by
  have hs' : Solid lt (⟨x.2.key.lc, x.2.key.lo, y.2.key.hi, y.2.key.rc⟩ : SegKey α) := by
    rcases hs with hs | hs
    · exact .inl hs
    · exact .inr (lt_of_leq_of_lt ho (leq_trans ho (gx.le ho) hc) hs)
  refine ⟨⟨?_, rfl, rfl, ⟨x.1, ?_, hx.mono (List.prefix_append _ _)⟩, y.1, ?_, hy.mono (List.prefix_append _ _)⟩, ⟨rfl, hc, hs', gx, gy⟩, hs'⟩
  · have e1 := hx.key
    have e2 := hy.key
    simp only [keyAt, ivJoin, ivUnion]
    rw [← e1, ← e2]; rfl
  · simp
  · simp

theorem ivPair_spec {lt : α → α → Bool} (ho : StrictTotal fun a b => lt a b = true) : ∀ (m : Nat) (Q D : SegForest α) (t : List (IvNode α)), Q.length = m →
    ForestOk lt t (D ++ Q) → RoundOk lt (Q.map fun x => x.2.key) → (∀ x ∈ D, Solid lt x.2.key) →
    ∃ D' t', ivPair m ((Q ++ D).map Prod.fst) t = .ok (D'.map Prod.fst, t') ∧ ForestOk lt t' D' ∧ (∀ x ∈ D', Solid lt x.2.key) ∧
      forestLeaves D' = forestLeaves (D ++ Q) ∧ D'.length = D.length + (m + 1) / 2
  | 0, Q, D, t, hm, h, _, hD => by
    have : Q = [] := List.length_eq_zero_iff.1 hm
    subst this
    rw [List.append_nil] at h
    exact ⟨D, t, rfl, h, hD, by simp, by simp⟩
  | 1, Q, D, t, hm, h, hr, hD => by
    match Q, hm with
    | [x], _ =>
      refine ⟨D ++ [x], t, by simp [ivPair], h, ?_, rfl, by simp⟩
      intro y hy
      rcases List.mem_append.1 hy with hy | hy
      · exact hD y hy
      · rw [List.mem_singleton.1 hy]; exact hr
  | m + 2, Q, D, t, hm, h, hr, hD => by
    match Q, hm with
    | x :: y :: Q, hm =>
      have hp := List.pairwise_append.1 h.chain
      have hxy : Leq lt x.2.key.hi y.2.key.lo := (List.pairwise_cons.1 hp.2.1).1 y (by simp)
      obtain ⟨j1, j2, j3⟩ := ivJoin_ok ho (h.rep x (by simp)) (h.rep y (by simp)) (h.geo x (by simp)) (h.geo y (by simp)) hxy hr.1
      have hok : ForestOk lt (t ++ [x.1, y.1]) ((D ++ [ivJoin t x y]) ++ Q) := by
        refine ⟨?_, ?_, ?_⟩
        · intro z hz
          simp only [List.append_assoc, List.mem_append, List.mem_singleton] at hz
          rcases hz with hz | hz | hz
          · exact (h.rep z (by simp [hz])).mono (List.prefix_append _ _)
          · subst hz; exact j1
          · exact (h.rep z (by simp [hz])).mono (List.prefix_append _ _)
        · intro z hz
          simp only [List.append_assoc, List.mem_append, List.mem_singleton] at hz
          rcases hz with hz | hz | hz
          · exact h.geo z (by simp [hz])
          · subst hz; exact j2
          · exact h.geo z (by simp [hz])
        · rw [List.append_assoc]
          obtain ⟨p1, p2⟩ := List.pairwise_cons.1 hp.2.1
          obtain ⟨p3, p4⟩ := List.pairwise_cons.1 p2
          refine List.pairwise_append.2 ⟨hp.1, List.pairwise_cons.2 ⟨?_, p4⟩, ?_⟩
          · intro z hz; exact p3 z hz
          · intro z hz w hw
            rcases List.mem_append.1 hw with hw | hw
            · rw [List.mem_singleton.1 hw]
              exact hp.2.2 z hz x (by simp)
            · exact hp.2.2 z hz w (by simp [hw])
      obtain ⟨D', t', e, r1, r2, r3, r4⟩ := ivPair_spec ho m Q (D ++ [ivJoin t x y]) (t ++ [x.1, y.1]) (by simpa using hm) hok hr.2 (by
        intro z hz
        rcases List.mem_append.1 hz with hz | hz
        · exact hD z hz
        · rw [List.mem_singleton.1 hz]; exact j3)
      refine ⟨D', t', ?_, r1, r2, ?_, ?_⟩
      · rw [← e]
        simp only [List.map_append, List.map_cons, List.cons_append, ivPair, List.map_nil, List.append_assoc]
        rfl
      · rw [r3]
        simp [forestLeaves, ivJoin, Seg.leaves]
      · rw [r4]
        simp only [List.length_append, List.length_singleton]
        omega

/-- The result of the rounds: the root, and the list that ends with its two children. -/
theorem ivRounds_spec {lt : α → α → Bool} (ho : StrictTotal fun a b => lt a b = true) : ∀ (n : Nat) (Q : SegForest α) (t : List (IvNode α)), Q.length = n → 2 ≤ n →
    ForestOk lt t Q → RoundOk lt (Q.map fun x => x.2.key) → ∀ fuel, n ≤ fuel →
    ∃ (x y : IvNode α × Seg α) (t' : List (IvNode α)), ivRounds fuel (Q.map Prod.fst) t = .ok ([(ivJoin t' x y).1], t' ++ [x.1, y.1]) ∧
      SegRep (t' ++ [x.1, y.1]) (ivJoin t' x y).1 (ivJoin t' x y).2 ∧ Geo lt (ivJoin t' x y).2 ∧ (ivJoin t' x y).2.leaves = forestLeaves Q := by
  intro n
  induction n using Nat.strongRecOn with
  | ind n ih =>
    intro Q t hn h2 h hr fuel hf
    obtain ⟨fuel, rfl⟩ : ∃ f, fuel = f + 1 := ⟨fuel - 1, by omega⟩
    by_cases h3 : n = 2
    · subst h3
      match Q, hn with
      | [x, y], _ =>
        have hxy : Leq lt x.2.key.hi y.2.key.lo := (List.pairwise_cons.1 h.chain).1 y (by simp)
        obtain ⟨j1, j2, _⟩ := ivJoin_ok ho (h.rep x (by simp)) (h.rep y (by simp)) (h.geo x (by simp)) (h.geo y (by simp)) hxy hr.1
        refine ⟨x, y, t, ?_, j1, j2, by simp [forestLeaves, ivJoin, Seg.leaves]⟩
        obtain ⟨fuel, rfl⟩ : ∃ f, fuel = f + 1 := ⟨fuel - 1, by omega⟩
        rfl
    · obtain ⟨D', t', e, r1, r2, r3, r4⟩ := ivPair_spec ho n Q [] t hn (by simpa using h) hr (by simp)
      simp only [List.length_nil, Nat.zero_add] at r4
      obtain ⟨x, y, t'', i1, i2, i3, i4⟩ := ih D'.length (by omega) D' t' rfl (by omega) r1
        (roundOk_of_all (by
          intro k hk
          obtain ⟨z, hz, rfl⟩ := List.mem_map.1 hk
          exact r2 z hz)) fuel (by omega)
      refine ⟨x, y, t'', ?_, i2, i3, ?_⟩
      · rw [← i1]
        simp only [List.append_nil] at e
        have hl : (Q.map Prod.fst).length = n := by simpa using hn
        unfold ivRounds
        have hc : (decide ((Q.map Prod.fst).length > 1)) = true := by rw [hl]; exact decide_eq_true (by omega)
        simp only [whileLoop, hl, e, hc, ok_bind]
        simp only [show decide (n > 1) = true from decide_eq_true (by omega), if_true, ok_bind]
      · rw [i4, r3]; rfl

theorem Geo.first {lt : α → α → Bool} : ∀ {S : Seg α}, Geo lt S → ∀ {k ks}, S.leaves = k :: ks → S.key.lo = k.lo
  | .leaf _, _, k', ks, hk => by
    simp only [Seg.leaves, List.cons.injEq] at hk
    rw [← hk.1]; rfl
  | .node k _ _ l r, h, k', ks, hk => by
    obtain ⟨rfl, _, _, hl, _⟩ := h
    simp only [Seg.leaves] at hk
    cases hL : l.leaves with
    | nil =>
      exfalso
      have : ∀ S : Seg α, S.leaves ≠ [] := by
        intro S
        induction S with
        | leaf k => simp [Seg.leaves]
        | node k a b l r ih _ => simp [Seg.leaves, ih]
      exact this l hL
    | cons m ms =>
      rw [hL] at hk
      simp only [List.cons_append, List.cons.injEq] at hk
      have := hl.first hL
      rw [← hk.1]
      exact this

/-- Nothing is stored while the tree is built. -/
theorem ivPair_blank : ∀ (m : Nat) (q t q' t' : List (IvNode α)), ivPair m q t = .ok (q', t') → (∀ n ∈ q, n.data = none) → (∀ n ∈ t, n.data = none) →
    (∀ n ∈ q', n.data = none) ∧ ∀ n ∈ t', n.data = none
  | 0, q, t, q', t', h, hq, ht => by
    simp only [ivPair, Except.ok.injEq, Prod.mk.injEq] at h
    obtain ⟨rfl, rfl⟩ := h
    exact ⟨hq, ht⟩
  | 1, q, t, q', t', h, hq, ht => by
    cases q with
    | nil => simp [ivPair] at h
    | cons x q =>
      simp only [ivPair, Except.ok.injEq, Prod.mk.injEq] at h
      obtain ⟨rfl, rfl⟩ := h
      refine ⟨fun n hn => hq n ?_, ht⟩
      simp only [List.mem_append, List.mem_singleton] at hn
      rcases hn with h | h <;> simp [h]
  | m + 2, q, t, q', t', h, hq, ht => by
    match q with
    | [] => simp [ivPair] at h
    | [_] => simp [ivPair] at h
    | x :: y :: q =>
      simp only [ivPair] at h
      refine ivPair_blank m _ _ q' t' h ?_ ?_
      · intro n hn
        rcases List.mem_append.1 hn with hn | hn
        · exact hq n (by simp [hn])
        · rw [List.mem_singleton.1 hn]; rfl
      · intro n hn
        rcases List.mem_append.1 hn with hn | hn
        · exact ht n hn
        · simp only [List.mem_cons, List.not_mem_nil, or_false] at hn
          rcases hn with rfl | rfl
          · exact hq _ (by simp)
          · exact hq _ (by simp)

theorem ivRounds_blank : ∀ (fuel : Nat) (q t q' t' : List (IvNode α)), ivRounds fuel q t = .ok (q', t') → (∀ n ∈ q, n.data = none) → (∀ n ∈ t, n.data = none) →
    (∀ n ∈ q', n.data = none) ∧ ∀ n ∈ t', n.data = none
  | 0, q, t, q', t', h, _, _ => by simp [ivRounds, whileLoop] at h
  | fuel + 1, q, t, q', t', h, hq, ht => by
    unfold ivRounds at h
    simp only [whileLoop, ok_bind] at h
    split at h
    · cases e : ivPair q.length q t with
      | error e' => rw [e] at h; cases h
      | ok st =>
        rw [e] at h
        obtain ⟨h1, h2⟩ := ivPair_blank _ q t st.1 st.2 e hq ht
        exact ivRounds_blank fuel st.1 st.2 q' t' h h1 h2
    · simp only [Except.ok.injEq, Prod.mk.injEq] at h
      obtain ⟨rfl, rfl⟩ := h
      exact ⟨hq, ht⟩

/-! ## The elementary intervals -/

/-- A node without children. -/
def bare (n : IvNode α) : IvNode α × Seg α := (n, .leaf (keyAt n))

theorem ivElems_lo {lt : α → α → Bool} (ho : StrictTotal fun a b => lt a b = true) {inc : α → α} (hinc : ∀ x, lt x (inc x) = true) :
    ∀ (rest : List α) (x : α), (x :: rest).Pairwise (Leq lt) → ∀ n ∈ ivElems inc x rest, Leq lt x n.lo ∧ Leq lt n.lo n.hi ∧ n.left = none ∧ n.right = none
  | [], x, _, n, hn => by
    simp only [ivElems, List.mem_cons, List.not_mem_nil, or_false] at hn
    rcases hn with rfl | rfl
    · exact ⟨leq_refl ho _, leq_refl ho _, rfl, rfl⟩
    · exact ⟨leq_refl ho _, leq_of_lt ho (hinc x), rfl, rfl⟩
  | y :: rest, x, h, n, hn => by
    obtain ⟨h1, h2⟩ := List.pairwise_cons.1 h
    simp only [ivElems, List.mem_cons] at hn
    rcases hn with rfl | rfl | hn
    · exact ⟨leq_refl ho _, leq_refl ho _, rfl, rfl⟩
    · exact ⟨leq_refl ho _, h1 y (by simp), rfl, rfl⟩
    · obtain ⟨i1, i2⟩ := ivElems_lo ho hinc rest y h2 n hn
      exact ⟨leq_trans ho (h1 y (by simp)) i1, i2⟩

theorem ivElems_chain {lt : α → α → Bool} (ho : StrictTotal fun a b => lt a b = true) {inc : α → α} (hinc : ∀ x, lt x (inc x) = true) :
    ∀ (rest : List α) (x : α), (x :: rest).Pairwise (Leq lt) → (ivElems inc x rest).Pairwise fun a b => Leq lt a.hi b.lo
  | [], x, _ => by
    simp only [ivElems]
    refine List.pairwise_cons.2 ⟨?_, List.pairwise_singleton _ _⟩
    intro b hb
    rw [List.mem_singleton.1 hb]
    exact leq_refl ho _
  | y :: rest, x, h => by
    obtain ⟨h1, h2⟩ := List.pairwise_cons.1 h
    have hall := ivElems_lo ho hinc rest y h2
    simp only [ivElems]
    refine List.pairwise_cons.2 ⟨?_, List.pairwise_cons.2 ⟨?_, ivElems_chain ho hinc rest y h2⟩⟩
    · intro b hb
      rcases List.mem_cons.1 hb with rfl | hb
      · exact leq_refl ho _
      · exact leq_trans ho (h1 y (by simp)) (hall b hb).1
    · intro b hb
      exact (hall b hb).1

theorem ivElems_round {lt : α → α → Bool} {inc : α → α} (hinc : ∀ x, lt x (inc x) = true) :
    ∀ (rest : List α) (x : α) (n : IvNode α), RoundOk lt ((n :: ivElems inc x rest).map keyAt)
  | [], x, n => ⟨.inl rfl, .inr (hinc x)⟩
  | y :: rest, x, n => ⟨.inl rfl, ivElems_round hinc rest y _⟩

theorem ivElems_length (inc : α → α) : ∀ (rest : List α) (x : α), (ivElems inc x rest).length = 2 * rest.length + 2
  | [], _ => rfl
  | y :: rest, x => by simp only [ivElems, List.length_cons, ivElems_length inc rest y]; omega

/-- Between two end points every value is in an elementary interval that lies between them. -/
theorem ivElems_cover {lt : α → α → Bool} (ho : StrictTotal fun a b => lt a b = true) {inc : α → α} {a b q : α} (haq : Leq lt a q)
    (hqb : Leq lt q b) : ∀ (rest : List α) (x : α), (x :: rest).Pairwise (Leq lt) → b ∈ x :: rest → Leq lt a x → (lt q x = true → False) →
    ∃ n ∈ ivElems inc x rest, Leq lt a n.lo ∧ Leq lt n.lo q ∧ Leq lt q n.hi ∧ Leq lt n.hi b ∧ Solid lt (keyAt n) := by
  intro rest
  induction rest with
  | nil =>
    intro x _ hb ha hq
    have hb : b = x := by simpa using hb
    subst hb
    have hqx : q = b := leq_antisymm ho hqb (by unfold Leq; cases h : lt q b with | false => rfl | true => exact (hq h).elim)
    subst hqx
    exact ⟨_, List.mem_cons_self, ha, leq_refl ho _, leq_refl ho _, leq_refl ho _, .inl rfl⟩
  | cons y rest ih =>
    intro x h hb ha hq
    obtain ⟨h1, h2⟩ := List.pairwise_cons.1 h
    have hxq : Leq lt x q := by unfold Leq; cases h : lt q x with | false => rfl | true => exact (hq h).elim
    by_cases hqx : q = x
    · subst hqx
      exact ⟨_, List.mem_cons_self, ha, leq_refl ho _, leq_refl ho _, hqb, .inl rfl⟩
    · have hxq' : lt x q = true := by
        rcases (leq_iff ho).1 hxq with h | h
        · exact h
        · exact absurd h.symm hqx
      have hb' : b ∈ y :: rest := by
        rcases List.mem_cons.1 hb with rfl | hb
        · exact absurd hqb (not_leq_of_lt hxq')
        · exact hb
      by_cases hqy : lt q y = true
      · refine ⟨_, List.mem_cons_of_mem _ List.mem_cons_self, ha, hxq, leq_of_lt ho hqy, ?_, .inr (ho.trans _ _ _ hxq' hqy)⟩
        rcases List.mem_cons.1 hb' with rfl | hb'
        · exact leq_refl ho _
        · exact (List.pairwise_cons.1 h2).1 b hb'
      · obtain ⟨n, hn, hr⟩ := ih y h2 hb' (leq_trans ho ha (h1 y (by simp))) hqy
        exact ⟨n, List.mem_cons_of_mem _ (List.mem_cons_of_mem _ hn), hr⟩

/-- The same without knowing where `a` is. -/
theorem ivElems_cover' {lt : α → α → Bool} (ho : StrictTotal fun a b => lt a b = true) {inc : α → α} {a b q : α} (haq : Leq lt a q)
    (hqb : Leq lt q b) : ∀ (rest : List α) (x : α), (x :: rest).Pairwise (Leq lt) → a ∈ x :: rest → b ∈ x :: rest →
    ∃ n ∈ ivElems inc x rest, Leq lt a n.lo ∧ Leq lt n.lo q ∧ Leq lt q n.hi ∧ Leq lt n.hi b ∧ Solid lt (keyAt n) := by
  intro rest
  induction rest with
  | nil =>
    intro x h ha hb
    have ha : a = x := by simpa using ha
    subst ha
    exact ivElems_cover ho haq hqb [] a h hb (leq_refl ho _) (fun h => not_leq_of_lt h haq)
  | cons y rest ih =>
    intro x h ha hb
    obtain ⟨h1, h2⟩ := List.pairwise_cons.1 h
    by_cases hax : a = x
    · subst hax
      exact ivElems_cover ho haq hqb (y :: rest) a h hb (leq_refl ho _) (fun h => not_leq_of_lt h haq)
    · have ha : a ∈ y :: rest := by
        rcases List.mem_cons.1 ha with h | h
        · exact absurd h hax
        · exact h
      by_cases hbx : b ∈ y :: rest
      · obtain ⟨n, hn, hr⟩ := ih y h2 ha hbx
        exact ⟨n, List.mem_cons_of_mem _ (List.mem_cons_of_mem _ hn), hr⟩
      · have hbx : b = x := by
          rcases List.mem_cons.1 hb with h | h
          · exact h
          · exact absurd h hbx
        rw [hbx] at hqb
        exact absurd (leq_antisymm ho (leq_trans ho haq hqb) (h1 a ha)) hax

/-! ## Walking over the tree -/

/-- The tree is in the list, its root at the index `i`, which means the position `p`. -/
def Sits (t : List (IvNode α)) (i : Int) (p : Nat) : Seg α → Prop
  | .leaf k => ivPos t i = .ok p ∧ ∃ n, t[p]? = some n ∧ keyAt n = k ∧ n.left = none ∧ n.right = none
  | .node k a b l r => ivPos t i = .ok p ∧ ∃ n il ir, t[p]? = some n ∧ keyAt n = k ∧ n.left = some il ∧ n.right = some ir ∧ Sits t il a l ∧ Sits t ir b r

theorem ivPos_nat {t : List (IvNode α)} {p : Nat} (h : p < t.length) : ivPos t (p : Int) = .ok p := by
  unfold ivPos
  have e : (if (p : Int) < 0 then (p : Int) + t.length else (p : Int)) = p := if_neg (by omega)
  simp only [e]
  rw [if_pos (by omega)]
  simp

theorem SegRep.sits {t : List (IvNode α)} : ∀ {S : Seg α} {n : IvNode α} {p : Nat}, SegRep t n S → t[p]? = some n → Sits t p p S
  | .leaf k, n, p, h, hp => ⟨ivPos_nat (List.getElem?_eq_some_iff.1 hp).1, n, hp, h⟩
  | .node k a b l r, n, p, ⟨h1, h2, h3, ⟨m, h4, h5⟩, m', h6, h7⟩, hp =>
    ⟨ivPos_nat (List.getElem?_eq_some_iff.1 hp).1, n, a, b, hp, h1, h2, h3, h5.sits h4, h7.sits h6⟩

/-- The lists differ in the data only. -/
def SameLinks (t t' : List (IvNode α)) : Prop :=
  t'.map (fun n => { n with data := none }) = t.map (fun n => { n with data := none })

theorem SameLinks.length {t t' : List (IvNode α)} (h : SameLinks t t') : t'.length = t.length := by
  have := congrArg List.length h
  simpa using this

theorem SameLinks.get {t t' : List (IvNode α)} (h : SameLinks t t') {p : Nat} {n : IvNode α} (hp : t[p]? = some n) :
    ∃ n', t'[p]? = some n' ∧ keyAt n' = keyAt n ∧ n'.left = n.left ∧ n'.right = n.right := by
  have e := congrArg (fun l => l[p]?) h
  simp only [List.getElem?_map, hp, Option.map_some] at e
  cases hq : t'[p]? with
  | none => rw [hq] at e; cases e
  | some n' =>
    rw [hq] at e
    simp only [Option.map_some, Option.some.injEq, IvNode.mk.injEq] at e
    obtain ⟨e1, e2, e3, e4, e5, e6, _⟩ := e
    exact ⟨n', rfl, by simp [keyAt, e1, e2, e3, e4], e5, e6⟩

theorem SameLinks.pos {t t' : List (IvNode α)} (h : SameLinks t t') (i : Int) : ivPos t' i = ivPos t i := by
  unfold ivPos
  rw [h.length]

theorem SameLinks.sits {t t' : List (IvNode α)} (h : SameLinks t t') : ∀ {S : Seg α} {i : Int} {p : Nat}, Sits t i p S → Sits t' i p S
  | .leaf k, i, p, ⟨h1, n, h2, h3, h4, h5⟩ => by
    obtain ⟨n', g1, g2, g3, g4⟩ := h.get h2
    exact ⟨by rw [h.pos]; exact h1, n', g1, g2.trans h3, g3.trans h4, g4.trans h5⟩
  | .node k a b l r, i, p, ⟨h1, n, il, ir, h2, h3, h4, h5, h6, h7⟩ => by
    obtain ⟨n', g1, g2, g3, g4⟩ := h.get h2
    exact ⟨by rw [h.pos]; exact h1, n', il, ir, g1, g2.trans h3, g3.trans h4, g4.trans h5, h.sits h6, h.sits h7⟩

theorem SameLinks.refl (t : List (IvNode α)) : SameLinks t t := rfl
theorem SameLinks.trans {t t' t'' : List (IvNode α)} (h : SameLinks t t') (h' : SameLinks t' t'') : SameLinks t t'' := Eq.trans h' h

/-- The data at a position. -/
def dataAt (t : List (IvNode α)) (p : Nat) : List Nat := (t[p]?.bind (·.data)).getD []

def kNode (k : SegKey α) : IvNode α := { lc := k.lc, lo := k.lo, hi := k.hi, rc := k.rc }

section walk
variable [DecidableEq α] {lt : α → α → Bool}

/-- `_intersect` looks at the keys only. -/
theorem intersect_key {q n : IvNode α} : ivIntersect lt q (some n) = ivIntersect lt q (some (kNode (keyAt n))) := rfl
theorem contains_key {q n : IvNode α} : ivContains lt q n = ivContains lt q (kNode (keyAt n)) := rfl

theorem Sits.key {t : List (IvNode α)} {S : Seg α} {i : Int} {p : Nat} (h : Sits t i p S) : ∃ n, ivAt t i = .ok n ∧ keyAt n = S.key ∧ t[p]? = some n := by
  cases S with
  | leaf k =>
    obtain ⟨h1, n, h2, h3, _⟩ := h
    exact ⟨n, by simp [ivAt, h1, rd, h2], h3, h2⟩
  | node k a b l r =>
    obtain ⟨h1, n, _, _, h2, h3, _⟩ := h
    exact ⟨n, by simp [ivAt, h1, rd, h2], h3, h2⟩

/-- The next calls. -/
def nextCalls (lt : α → α → Bool) (q : IvNode α) (il ir : Int) (l r : Seg α) (calls : List (Option Int)) : List (Option Int) :=
  let calls := if ivIntersect lt q (some (kNode r.key)) then some ir :: calls else calls
  if ivIntersect lt q (some (kNode l.key)) then some il :: calls else calls

theorem iterate_leaf {t : List (IvNode α)} {k : SegKey α} {i : Int} {p : Nat} (h : Sits t i p (.leaf k)) (q : IvNode α) (calls : List (Option Int)) :
    ivIterate lt t calls q i = .ok calls := by
  obtain ⟨h1, n, h2, h3, h4, h5⟩ := h
  simp [ivIterate, ivAt, h1, rd, h2, h4, h5, ivChild, ivIntersect]

theorem iterate_node {t : List (IvNode α)} {n : IvNode α} {il ir : Int} {i : Int} {p a b : Nat} {l r : Seg α} (h1 : ivPos t i = .ok p) (h2 : t[p]? = some n)
    (h4 : n.left = some il) (h5 : n.right = some ir) (h6 : Sits t il a l) (h7 : Sits t ir b r) (q : IvNode α) (calls : List (Option Int)) :
    ivIterate lt t calls q i = .ok (nextCalls lt q il ir l r calls) := by
  obtain ⟨n1, e1, k1, _⟩ := h6.key
  obtain ⟨n2, e2, k2, _⟩ := h7.key
  have hn : ivAt t i = .ok n := by simp [ivAt, h1, rd, h2]
  simp only [ivIterate, hn, ok_bind, h4, h5, ivChild, e1, e2, nextCalls]
  rw [intersect_key (n := n1), intersect_key (n := n2), k1, k2]

/-- Where the segment is stored. -/
def storedAt (lt : α → α → Bool) (I : IvNode α) (p : Nat) : Seg α → List Nat
  | .leaf k => if ivContains lt I (kNode k) then [p] else []
  | .node k a b l r =>
    if ivContains lt I (kNode k) then [p]
    else (if ivIntersect lt I (some (kNode l.key)) then storedAt lt I a l else []) ++
      (if ivIntersect lt I (some (kNode r.key)) then storedAt lt I b r else [])

/-- What a query collects. -/
def collected (lt : α → α → Bool) (D : Nat → List Nat) (q : IvNode α) (p : Nat) : Seg α → List Nat
  | .leaf _ => D p
  | .node _ a b l r => D p ++ ((if ivIntersect lt q (some (kNode l.key)) then collected lt D q a l else []) ++
      (if ivIntersect lt q (some (kNode r.key)) then collected lt D q b r else []))

def callsLeft {β : Type} (st : List (Option Int) × β) : PyM Bool := .ok (!st.1.isEmpty)

theorem query_steps {t : List (IvNode α)} {q : IvNode α} : ∀ {S : Seg α} {i : Int} {p : Nat}, Sits t i p S → ∃ c, c ≤ S.size ∧ ∀ fuel calls out,
    whileLoop (fuel + c) callsLeft (ivQueryBody lt t q) (some i :: calls, out)
      = whileLoop fuel callsLeft (ivQueryBody lt t q) (calls, out ++ collected lt (dataAt t) q p S) := by
  intro S
  induction S with
  | leaf k =>
    intro i p h
    refine ⟨1, Nat.le_refl 1, fun fuel calls out => ?_⟩
    obtain ⟨n, e1, e2, e3⟩ := h.key
    have hit := iterate_leaf (lt := lt) h q calls
    simp only [whileLoop, callsLeft, List.isEmpty_cons, Bool.not_false, ok_bind, if_true, ivQueryBody, ivIdx, e1, hit]
    congr 2
    simp only [collected, dataAt, e3, Option.bind_some]
    cases n.data <;> simp
  | node k a b l r ihl ihr =>
    intro i p h
    obtain ⟨h1, n, il, ir, h2, h3, h4, h5, h6, h7⟩ := h
    have hn : ivAt t i = .ok n := by simp [ivAt, h1, rd, h2]
    obtain ⟨cl, hl1, hl2⟩ := ihl h6
    obtain ⟨cr, hr1, hr2⟩ := ihr h7
    refine ⟨1 + (if ivIntersect lt q (some (kNode l.key)) then cl else 0) + (if ivIntersect lt q (some (kNode r.key)) then cr else 0), ?_, ?_⟩
    · simp only [Seg.size]; split <;> split <;> omega
    intro fuel calls out
    have hit := iterate_node (lt := lt) h1 h2 h4 h5 h6 h7 q calls
    have hd : (match n.data with | some d => out ++ d | none => out) = out ++ dataAt t p := by
      simp only [dataAt, h2, Option.bind_some]
      cases n.data <;> simp
    have step : ∀ f, whileLoop (f + 1) callsLeft (ivQueryBody lt t q) (some i :: calls, out)
        = whileLoop f callsLeft (ivQueryBody lt t q) (nextCalls lt q il ir l r calls, out ++ dataAt t p) := by
      intro f
      simp only [whileLoop, callsLeft, List.isEmpty_cons, Bool.not_false, ok_bind, if_true, ivQueryBody, ivIdx, hn, hit]
      rw [← hd]
      rfl
    cases b1 : ivIntersect lt q (some (kNode l.key)) <;> cases b2 : ivIntersect lt q (some (kNode r.key))
    · simp only [collected, b1, b2, Bool.false_eq_true, if_false, Nat.add_zero]
      rw [step]
      simp [nextCalls, b1, b2]
    · simp only [collected, b1, b2, Bool.false_eq_true, if_false, if_true, Nat.add_zero]
      rw [show fuel + (1 + cr) = fuel + cr + 1 by omega, step]
      simp only [nextCalls, b1, b2, Bool.false_eq_true, if_false, if_true]
      rw [hr2]
      simp
    · simp only [collected, b1, b2, Bool.false_eq_true, if_false, if_true, Nat.add_zero]
      rw [show fuel + (1 + cl) = fuel + cl + 1 by omega, step]
      simp only [nextCalls, b1, b2, Bool.false_eq_true, if_false, if_true]
      rw [hl2]
      simp
    · simp only [collected, b1, b2, if_true]
      rw [show fuel + (1 + cl + cr) = fuel + cr + cl + 1 by omega, step]
      simp only [nextCalls, b1, b2, if_true]
      rw [hl2, hr2]
      simp

/-- Storing one name. -/
theorem store_spec {t : List (IvNode α)} {i : Int} {p : Nat} {n : IvNode α} (h1 : ivPos t i = .ok p) (h2 : t[p]? = some n) (name : Nat) :
    ∃ t', ivStore t i name = .ok t' ∧ SameLinks t t' ∧ ∀ p' x, x ∈ dataAt t' p' ↔ x ∈ dataAt t p' ∨ (x = name ∧ p' = p) := by
  have hlt := (List.getElem?_eq_some_iff.1 h2).1
  refine ⟨t.set p { n with data := some (n.data.getD [] ++ [name]) }, ?_, ?_, ?_⟩
  · simp only [ivStore, h1, rd, h2, ok_bind, wr, if_pos hlt]
  · unfold SameLinks
    rw [List.map_set]
    apply List.ext_getElem?
    intro j
    rw [List.getElem?_set]
    by_cases hj : p = j
    · subst hj
      have e : t[p] = n := by
        have := List.getElem?_eq_some_iff.1 h2
        exact this.2
      simp [hlt, e]
    · simp [hj]
  · intro p' x
    unfold dataAt
    by_cases hp : p = p'
    · subst hp
      rw [List.getElem?_set_self hlt, h2]
      simp only [Option.bind_some, Option.getD_some, List.mem_append, List.mem_singleton, and_true]
    · rw [List.getElem?_set_ne hp]
      constructor
      · exact .inl
      · rintro (h | ⟨_, h⟩)
        · exact h
        · exact absurd h.symm hp

theorem place_steps {I : IvNode α} {name : Nat} : ∀ {S : Seg α} {t : List (IvNode α)} {i : Int} {p : Nat}, Sits t i p S → ∃ c t', c ≤ S.size ∧ SameLinks t t' ∧
    (∀ p' x, x ∈ dataAt t' p' ↔ x ∈ dataAt t p' ∨ (x = name ∧ p' ∈ storedAt lt I p S)) ∧
    ∀ fuel calls, whileLoop (fuel + c) callsLeft (ivPlaceBody lt I name) (some i :: calls, t) = whileLoop fuel callsLeft (ivPlaceBody lt I name) (calls, t') := by
  intro S
  induction S with
  | leaf k =>
    intro t i p h
    obtain ⟨n, e1, e2, e3⟩ := h.key
    by_cases hc : ivContains lt I (kNode k) = true
    · obtain ⟨t', g1, g2, g3⟩ := store_spec h.1 e3 name
      refine ⟨1, t', Nat.le_refl 1, g2, ?_, fun fuel calls => ?_⟩
      · intro p' x
        rw [g3]
        simp [storedAt, hc]
      · have hc' : ivContains lt I n = true := by rw [contains_key, e2]; exact hc
        simp only [whileLoop, callsLeft, List.isEmpty_cons, Bool.not_false, ok_bind, if_true, ivPlaceBody, ivIdx, e1, hc', g1]
    · refine ⟨1, t, Nat.le_refl 1, .refl t, ?_, fun fuel calls => ?_⟩
      · intro p' x
        simp [storedAt, hc]
      · have hc' : ivContains lt I n = false := by rw [contains_key, e2]; exact Bool.eq_false_iff.2 hc
        have hit := iterate_leaf (lt := lt) h I calls
        simp [whileLoop, callsLeft, ivPlaceBody, ivIdx, e1, hc', hit]
  | node k a b l r ihl ihr =>
    intro t i p h
    obtain ⟨n, e1, e2, e3⟩ := h.key
    by_cases hc : ivContains lt I (kNode k) = true
    · obtain ⟨t', g1, g2, g3⟩ := store_spec h.1 e3 name
      refine ⟨1, t', by simp [Seg.size], g2, ?_, fun fuel calls => ?_⟩
      · intro p' x
        rw [g3]
        simp [storedAt, hc]
      · have hc' : ivContains lt I n = true := by rw [contains_key, e2]; exact hc
        simp only [whileLoop, callsLeft, List.isEmpty_cons, Bool.not_false, ok_bind, if_true, ivPlaceBody, ivIdx, e1, hc', g1]
    · have hc' : ivContains lt I n = false := by rw [contains_key, e2]; exact Bool.eq_false_iff.2 hc
      obtain ⟨h1, n', il, ir, h2, h3, h4, h5, h6, h7⟩ := h
      have hit := fun calls => iterate_node (lt := lt) h1 h2 h4 h5 h6 h7 I calls
      have step : ∀ f calls, whileLoop (f + 1) callsLeft (ivPlaceBody lt I name) (some i :: calls, t)
          = whileLoop f callsLeft (ivPlaceBody lt I name) (nextCalls lt I il ir l r calls, t) := by
        intro f calls
        simp [whileLoop, callsLeft, ivPlaceBody, ivIdx, e1, hc', hit]
      by_cases b1 : ivIntersect lt I (some (kNode l.key)) = true <;> by_cases b2 : ivIntersect lt I (some (kNode r.key)) = true
      · obtain ⟨cl, t1, l1, l2, l3, l4⟩ := ihl h6
        obtain ⟨cr, t2, r1, r2, r3, r4⟩ := ihr (l2.sits h7)
        refine ⟨1 + cl + cr, t2, by simp only [Seg.size]; omega, l2.trans r2, ?_, ?_⟩
        · intro p' x
          rw [r3, l3]
          simp only [storedAt, hc, b1, b2, if_true, if_false, Bool.false_eq_true, List.mem_append]
          constructor
          · rintro ((h | h) | h)
            · exact .inl h
            · exact .inr ⟨h.1, .inl h.2⟩
            · exact .inr ⟨h.1, .inr h.2⟩
          · rintro (h | ⟨h, h' | h'⟩)
            · exact .inl (.inl h)
            · exact .inl (.inr ⟨h, h'⟩)
            · exact .inr ⟨h, h'⟩
        · intro fuel calls
          rw [show fuel + (1 + cl + cr) = fuel + cr + cl + 1 by omega, step]
          simp only [nextCalls, b1, b2, if_true]
          rw [l4, r4]
      · obtain ⟨cl, t1, l1, l2, l3, l4⟩ := ihl h6
        refine ⟨1 + cl, t1, by simp only [Seg.size]; omega, l2, ?_, ?_⟩
        · intro p' x
          rw [l3]
          simp [storedAt, hc, b1, b2]
        · intro fuel calls
          rw [show fuel + (1 + cl) = fuel + cl + 1 by omega, step]
          simp only [nextCalls, b1, b2, if_true]
          rw [if_neg (by simp), l4]
      · obtain ⟨cr, t1, l1, l2, l3, l4⟩ := ihr h7
        refine ⟨1 + cr, t1, by simp only [Seg.size]; omega, l2, ?_, ?_⟩
        · intro p' x
          rw [l3]
          simp [storedAt, hc, b1, b2]
        · intro fuel calls
          rw [show fuel + (1 + cr) = fuel + cr + 1 by omega, step]
          simp only [nextCalls, b1, b2, if_true]
          rw [if_neg (by simp), l4]
      · refine ⟨1, t, by simp only [Seg.size]; omega, .refl t, ?_, ?_⟩
        · intro p' x
          simp [storedAt, hc, b1, b2]
        · intro fuel calls
          rw [step]
          simp only [nextCalls, b1, b2]
          rw [if_neg (by simp), if_neg (by simp)]

/-! ## What the two functions mean -/

/-- A closed interval contains a node's interval exactly when it contains both ends. -/
theorem contains_iff (ho : StrictTotal fun a b => lt a b = true) {a b : α} {k : SegKey α} :
    ivContains lt { lc := true, lo := a, hi := b, rc := true } (kNode k) = true ↔ Leq lt a k.lo ∧ Leq lt k.hi b := by
  have hlt : ∀ {x y : α}, lt x y = true → x ≠ y := by
    rintro x y h rfl; exact ho.irrefl _ h
  rw [leq_iff ho, leq_iff ho]
  unfold ivContains
  simp only [kNode, Bool.not_true, Bool.false_and, Bool.or_false, Bool.true_or, Bool.not_false]
  by_cases h1 : lt a k.lo = true <;> by_cases h2 : lt k.hi b = true
  · simp [h1, h2]
  · have := hlt h1
    simp only [h1, h2, this, Bool.and_false, Bool.false_eq_true, if_false, decide_false, Bool.true_and, Bool.false_and]
    by_cases h3 : b = k.hi
    · simp [h3]
    · simp [h3, Ne.symm h3]
  · have := hlt h2
    by_cases h3 : a = k.lo
    · simp [h1, h2, h3]
    · simp [h1, h2, h3]
  · by_cases h3 : a = k.lo <;> by_cases h4 : b = k.hi
    · simp [h1, h2, h3, h4]
    · simp [h1, h2, h3, h4, Ne.symm h4]
    · simp [h1, h2, h3, h4]
    · simp [h1, h2, h3, h4]

/-- `_intersect` of a closed interval with a node: sound. -/
theorem intersect_sound {a b : α} {k : SegKey α}
    (h : ivIntersect lt { lc := true, lo := a, hi := b, rc := true } (some (kNode k)) = true) : Leq lt k.lo b ∧ Leq lt a k.hi := by
  cases h1 : lt b k.lo with
  | true => simp [ivIntersect, kNode, h1] at h
  | false =>
    cases h2 : lt k.hi a with
    | true => simp [ivIntersect, kNode, h1, h2] at h
    | false => exact ⟨h1, h2⟩

theorem intersect_complete (ho : StrictTotal fun a b => lt a b = true) {a b : α} {k : SegKey α} (h1 : Leq lt k.lo b) (h2 : Leq lt a k.hi) (hab : Leq lt a b)
    (hk : Leq lt k.lo k.hi) (hs : Solid lt k) :
    ivIntersect lt { lc := true, lo := a, hi := b, rc := true } (some (kNode k)) = true := by
  unfold Leq at h1 h2
  by_cases e1 : b = k.lo
  · by_cases e2 : k.hi = a
    · rcases hs with hs | hs
      · subst e1
        rw [e2] at h2
        simp [ivIntersect, kNode, h1, h2, e2, hs]
      · rw [← e1, e2] at hs
        exact absurd hab (not_leq_of_lt hs)
    · simp [ivIntersect, kNode, h1, h2, e2]
  · simp [ivIntersect, kNode, h1, h2, e1]

/-! ## Which segments are collected -/

theorem collected_mem {D : Nat → List Nat} {q : α} {t : List (IvNode α)} {x : Nat} : ∀ {S : Seg α} {i : Int} {p : Nat}, Sits t i p S →
    x ∈ collected lt D { lc := true, lo := q, hi := q, rc := true } p S → x ∈ D p ∨ ∃ p' n, t[p']? = some n ∧ x ∈ D p' ∧ Leq lt n.lo q ∧ Leq lt q n.hi := by
  intro S
  induction S with
  | leaf k => intro i p _ hx; exact .inl hx
  | node k a b l r ihl ihr =>
    intro i p h hx
    obtain ⟨h1, n, il, ir, h2, h3, h4, h5, h6, h7⟩ := h
    simp only [collected, List.mem_append] at hx
    rcases hx with hx | hx | hx
    · exact .inl hx
    · right
      split at hx
      · next hi =>
        rcases ihl h6 hx with hd | hd
        · obtain ⟨m, _, e2, e3⟩ := h6.key
          have := intersect_sound hi
          rw [← e2] at this
          exact ⟨a, m, e3, hd, this⟩
        · exact hd
      · simp at hx
    · right
      split at hx
      · next hi =>
        rcases ihr h7 hx with hd | hd
        · obtain ⟨m, _, e2, e3⟩ := h7.key
          have := intersect_sound hi
          rw [← e2] at this
          exact ⟨b, m, e3, hd, this⟩
        · exact hd
      · simp at hx

theorem stored_contains (ho : StrictTotal fun a b => lt a b = true) {a b : α} {t : List (IvNode α)} : ∀ {S : Seg α} {i : Int} {p p' : Nat}, Sits t i p S →
    p' ∈ storedAt lt { lc := true, lo := a, hi := b, rc := true } p S → ∃ n, t[p']? = some n ∧ Leq lt a n.lo ∧ Leq lt n.hi b := by
  intro S
  induction S with
  | leaf k =>
    intro i p p' h hx
    simp only [storedAt] at hx
    split at hx
    · next hc =>
      rw [List.mem_singleton.1 hx]
      obtain ⟨m, _, e2, e3⟩ := h.key
      have := (contains_iff ho).1 hc
      rw [show k = keyAt m from e2.symm] at this
      exact ⟨m, e3, this⟩
    · simp at hx
  | node k u v l r ihl ihr =>
    intro i p p' h hx
    simp only [storedAt] at hx
    split at hx
    · next hc =>
      rw [List.mem_singleton.1 hx]
      obtain ⟨m, _, e2, e3⟩ := h.key
      have := (contains_iff ho).1 hc
      rw [show k = keyAt m from e2.symm] at this
      exact ⟨m, e3, this⟩
    · obtain ⟨h1, n, il, ir, h2, h3, h4, h5, h6, h7⟩ := h
      rcases List.mem_append.1 hx with hx | hx
      · split at hx
        · exact ihl h6 hx
        · simp at hx
      · split at hx
        · exact ihr h7 hx
        · simp at hx

/-- A segment that covers an elementary interval is collected by the queries in it. -/
theorem collected_of_leaf (ho : StrictTotal fun a b => lt a b = true) {D : Nat → List Nat} {a b q : α} {x : Nat} {e : SegKey α} (hae : Leq lt a e.lo) (hlq : Leq lt e.lo q)
    (hqh : Leq lt q e.hi) (heb : Leq lt e.hi b) (hes : Solid lt e) : ∀ {S : Seg α} {p : Nat}, Geo lt S → e ∈ S.leaves →
    (∀ p' ∈ storedAt lt { lc := true, lo := a, hi := b, rc := true } p S, x ∈ D p') →
    x ∈ collected lt D { lc := true, lo := q, hi := q, rc := true } p S := by
  have hab : Leq lt a b := leq_trans ho hae (leq_trans ho hlq (leq_trans ho hqh heb))
  have meets : ∀ {S : Seg α}, Geo lt S → e ∈ S.leaves →
      ivIntersect lt { lc := true, lo := a, hi := b, rc := true } (some (kNode S.key)) = true ∧
      ivIntersect lt { lc := true, lo := q, hi := q, rc := true } (some (kNode S.key)) = true := by
    intro S hg he
    obtain ⟨g1, g2⟩ := hg.bounds ho he
    have hs : Solid lt S.key := by
      cases S with
      | leaf k =>
        simp only [Seg.leaves, List.mem_singleton] at he
        subst he
        exact hes
      | node k u v l r => exact hg.2.2.1
    have l1 := leq_trans ho g1 hlq
    have l2 := leq_trans ho hqh g2
    exact ⟨intersect_complete ho (leq_trans ho l1 (leq_trans ho hqh heb)) (leq_trans ho hae (leq_trans ho hlq l2)) hab (hg.le ho) hs,
      intersect_complete ho l1 l2 (leq_refl ho _) (hg.le ho) hs⟩
  intro S
  induction S with
  | leaf k =>
    intro p hg he hD
    simp only [Seg.leaves, List.mem_singleton] at he
    subst he
    apply hD
    simp only [storedAt]
    rw [if_pos ((contains_iff ho).2 ⟨hae, heb⟩)]
    simp
  | node k u v l r ihl ihr =>
    intro p hg he hD
    simp only [storedAt] at hD
    simp only [collected, List.mem_append]
    split at hD
    · exact .inl (hD p (by simp))
    · right
      rcases List.mem_append.1 he with he | he
      · left
        obtain ⟨m1, m2⟩ := meets hg.2.2.2.1 he
        rw [if_pos m2]
        rw [if_pos m1] at hD
        exact ihl hg.2.2.2.1 he (fun p' hp' => hD p' (by simp [hp']))
      · right
        obtain ⟨m1, m2⟩ := meets hg.2.2.2.2 he
        rw [if_pos m2]
        rw [if_pos m1] at hD
        exact ihr hg.2.2.2.2 he (fun p' hp' => hD p' (by simp [hp']))

end walk

end Props
