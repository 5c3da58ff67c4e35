import Verif.Props.RedBlack

/-!
# C78, exactly: which insertions keep the colouring

`insert` paints the node of the key red even if the key is present already. That is harmless if the node is red or the root, and spoils the
black heights otherwise, whatever the repair does afterwards.
-/
namespace Props
open Py Model Spec
set_option linter.unusedSectionVars false
variable {κ δ : Type} [DecidableEq κ]

/-- The tree is a red-black tree: black root, no red child of a red node, equal black heights. -/
def Coloured (t : BTree κ δ) : Prop :=
  ∃ T, HoldsTree t t.rootIdx T ∧ BlackRoot t.at T ∧ RedOk t.at T ∧ ∃ N, BlackHeight t.at T N

/-- `search(k)` finds a black node that is not the root. -/
def BlackInside (lt : κ → κ → Bool) (t : BTree κ δ) (k : κ) : Prop :=
  ∃ i n, EndsWith (fun fuel => bstSearch lt fuel t k) (.ok (some i)) ∧ t.at i = some n ∧ n.color = some 0 ∧ i ≠ t.rootIdx

theorem linked_shape {h : Cells κ δ} {up up' : Bool} : ∀ {T T' : Shape} {p p' : Option Nat}, T.root = T'.root → Linked up h p T → Linked up' h p' T' → T = T' := by
  intro T
  induction T with
  | leaf =>
    intro T' _ _ e _ _
    cases T' with
    | leaf => rfl
    | node _ _ _ => cases e
  | node A i B ihA ihB =>
    intro T' _ _ e h1 h2
    cases T' with
    | leaf => cases e
    | node A' j B' =>
      simp only [root_node, Option.some.injEq] at e
      subst e
      obtain ⟨⟨n, en, n1, n2, _⟩, a1, a2⟩ := h1
      obtain ⟨⟨n', en', n1', n2', _⟩, b1, b2⟩ := h2
      rw [en] at en'
      cases en'
      rw [ihA (n1.symm.trans n1') a1 b1, ihB (n2.symm.trans n2') a2 b2]

theorem holds_unique {t : BTree κ δ} {i : Nat} {T T' : Shape} (h : HoldsTree t i T) (h' : HoldsTree t i T') : T = T' :=
  linked_shape (h.root.trans h'.root.symm) h.linked h'.linked

theorem RbState.coloured {lt : κ → κ → Bool} {os : Bool} {t : BTree κ δ} {m : κ → Option (Option δ)} (h : RbState lt os True t m) {k : κ} (hk : m k ≠ none) : Coloured t := by
  cases h with
  | empty _ hm => exact absurd (hm k) hk
  | tree T ok car rb black colour =>
    obtain ⟨x1, x2⟩ := colour trivial
    exact ⟨T, ⟨ok.tree.root, ok.tree.linked.weaken, ok.tree.nodup⟩, (by intro j hj; rw [ok.tree.root] at hj; cases hj; exact black), x1, x2⟩

/-- One `insert` into a red-black tree. -/
theorem rb_again {lt : κ → κ → Bool} (ht : StrictTotal (ltRel lt)) {os : Bool} {t : BTree κ δ} {m : κ → Option (Option δ)} (h : RbState lt os True t m)
    (k : κ) (d : Option δ) :
    ∃ t', EndsWith (fun fuel => rbInsert lt fuel t k d) (.ok t') ∧
      (¬ BlackInside lt t k → RbState lt os True t' (fun k' => if k' = k then some d else m k')) ∧ (BlackInside lt t k → ¬ Coloured t') := by
  by_cases hm : m k = none
  · obtain ⟨t', h', n0, hrun⟩ := rbState_insert ht h k d
    have nb : ¬ BlackInside lt t k := by
      rintro ⟨i, n, hs, _⟩
      cases h with
      | empty h _ =>
        subst h
        obtain ⟨n1, h1⟩ := hs
        have := h1 n1 (Nat.le_refl _)
        cases n1 <;> cases this
      | tree T ok car rb black colour =>
        obtain ⟨r, e, ha⟩ := search_map ht ok.tree ok.srt car k
        rw [hm] at ha
        cases ha
        obtain ⟨n1, h1⟩ := hs
        obtain ⟨n2, h2⟩ := e
        have a := h1 (n1 + n2) (by omega)
        have b := h2 (n1 + n2) (by omega)
        dsimp only at a b
        rw [a] at b
        cases b
    refine ⟨t', ⟨n0, hrun⟩, fun _ => ?_, fun hb => absurd hb nb⟩
    cases h' with
    | empty a b => exact .empty a b
    | tree T a b c d e => exact .tree T a b c d (fun _ => e ⟨trivial, hm⟩)
  · cases h with
    | empty _ hm' => exact absurd (hm' k) hm
    | tree T ok car rb black colour =>
      rcases bstInsert_steps ht ok k d with ⟨i, t1, hi, hk, hr, hrun⟩ | ⟨f, c, t1, rfl, habs, hI, hrun⟩
      · have ok1 := hr.bstOk ok
        have car1 := hr.carries ht ok hi hk car
        obtain ⟨n, en⟩ := Option.isSome_iff_exists.mp (linked_isSome ok.tree.linked i hi)
        have e1 : t1.at i = some { n with data := d } := by rw [hr.cells]; exact mapAt_same en
        have hnk : n.key = some k := by simpa [keyOf, en] using hk
        have hcol : ∀ j, colOf t1.at j = colOf t.at j := by
          intro j; unfold colOf; rw [hr.cells]; unfold mapAt; split
          · cases t.at j <;> rfl
          · rfl
        have hflg : ∀ j, flagOf t1.at j = flagOf t.at j := by
          intro j; unfold flagOf; rw [hr.cells]; unfold mapAt; split
          · cases t.at j <;> rfl
          · rfl
        obtain ⟨x1, N, x2⟩ := colour trivial
        obtain ⟨c, A, B, rfl⟩ := plug_of_mem T i hi
        obtain ⟨t', T', M, R, hfin⟩ := rb_finish_steps (H := False) ok1.tree e1 hnk rfl
          (by intro j hj; rw [hflg, hr.rootIdx]; exact rb.flags j hj)
          (by intro j hj _; rw [hcol]; exact rb.cols j hj)
          (by intro _; rw [hcol, hr.rootIdx]; exact black)
          False.elim
        have y1 := redOk_congr (h' := t1.at) (fun j _ => hcol j) x1
        have y2 := blackHeight_congr (h' := t1.at) (fun j _ => hcol j) x2
        have hcl := around_depth (c := c) (S := .node A i B) rfl
        simp only [Shape.depth] at hcl
        have hs : EndsWith (fun fuel => bstSearch lt fuel t k) (.ok (some i)) := ⟨_, fun fuel hf => search_steps ht ok hi hk fuel hf⟩
        have hb : BlackInside lt t k ↔ colOf t.at i = some 0 ∧ i ≠ t.rootIdx := by
          constructor
          · rintro ⟨j, n', ⟨n1, h1⟩, ej, h3, h4⟩
            obtain ⟨n2, h2⟩ := hs
            have a := h1 (n1 + n2) (by omega)
            have b := h2 (n1 + n2) (by omega)
            dsimp only at a b
            rw [a] at b
            cases b
            rw [en] at ej
            cases ej
            exact ⟨by simpa [colOf, en] using h3, h4⟩
          · rintro ⟨h1, h2⟩
            exact ⟨i, n, hs, en, by simpa [colOf, en] using h1, h2⟩
        refine ⟨t', ⟨(Around.plug c (.node A i B)).depth + 2, fun fuel hf => ?_⟩, fun hnb => ?_, fun hbi => ?_⟩
        · exact rbInsert_eq (hrun fuel (by omega)) (search_steps ht ok1 hi (by rw [hr.sameKey, hk]) fuel (by omega)) (hfin fuel (by omega))
        · refine .tree T' (M.ent.bstOk ok1 M.tree M.ids) (M.ent.carries M.ids car1) M.rb M.black fun _ => ?_
          refine R.keep y1 ⟨N, y2⟩ (fun e => ?_) (fun e => ?_)
          · rw [hcol, e, hr.rootIdx]; exact black
          · rw [hr.rootIdx] at e
            rw [hcol]
            rcases rb.cols i hi with h0 | h0
            · exact absurd (hb.mpr ⟨h0, e⟩) hnb
            · exact h0
        · obtain ⟨h0, hne⟩ := hb.mp hbi
          rintro ⟨T2, hT2, _, _, hN⟩
          have : T2 = T' := holds_unique hT2 ⟨M.tree.root, M.tree.linked.weaken, M.tree.nodup⟩
          subst this
          exact R.spoil y1 ⟨N, y2⟩ (by rw [hr.rootIdx]; exact hne) (by rw [hcol]; exact h0) hN
      · exfalso
        cases e : m k with
        | none => exact hm e
        | some d' =>
          obtain ⟨j, hj, n, en, hn, _⟩ := (car k d').mp e
          exact habs j hj (by simp [keyOf, en, hn])

/-- The tree a history leaves. -/
def Left (lt : κ → κ → Bool) (os : Bool) (ops : List (κ × Option δ)) (t : BTree κ δ) : Prop :=
  EndsWith (fun n => rbInserts lt n (btEmpty os) ops) (.ok t)

theorem Left.unique {lt : κ → κ → Bool} {os : Bool} {ops : List (κ × Option δ)} {t t' : BTree κ δ} (h : Left lt os ops t) (h' : Left lt os ops t') : t = t' := by
  obtain ⟨n1, h1⟩ := h
  obtain ⟨n2, h2⟩ := h'
  have a := h1 (n1 + n2) (by omega)
  have b := h2 (n1 + n2) (by omega)
  dsimp only at a b
  rw [a] at b
  exact Except.ok.inj b

theorem left_snoc {lt : κ → κ → Bool} {os : Bool} {p : List (κ × Option δ)} {k : κ} {d : Option δ} {t t' : BTree κ δ} (h : Left lt os p t)
    (h' : EndsWith (fun fuel => rbInsert lt fuel t k d) (.ok t')) : Left lt os (p ++ [(k, d)]) t' := by
  obtain ⟨n1, h1⟩ := h
  obtain ⟨n2, h2⟩ := h'
  refine ⟨n1 + n2, fun n hn => ?_⟩
  have a := h1 n (by omega)
  have b := h2 n (by omega)
  dsimp only at a b
  simp only [rbInserts] at a ⊢
  rw [List.foldlM_append, a]
  simp only [ok_bind, List.foldlM_cons, List.foldlM_nil, b]
  rfl

theorem lastData_snoc (p : List (κ × Option δ)) (k : κ) (d : Option δ) :
    lastData (p ++ [(k, d)]) = fun k' => if k' = k then some d else lastData p k' := by
  funext k'
  rw [lastData_append]
  by_cases h : k' = k
  · simp [lastData, h]
  · simp [lastData, h, Ne.symm h]

/-- **C78** The tree is a red-black tree after every call of a history if and only if no call inserts a key whose node is at that time black and not
the root. -/
theorem C78_exact {lt : κ → κ → Bool} (ht : StrictTotal (ltRel lt)) (os : Bool) (ops : List (κ × Option δ)) :
    (∀ p, p <+: ops → p ≠ [] → ∃ t, Left lt os p t ∧ Coloured t) ↔
      ∀ p k d, p ++ [(k, d)] <+: ops → ∃ t, Left lt os p t ∧ ¬ BlackInside lt t k := by
  have fwd : (∀ p k d, p ++ [(k, d)] <+: ops → ∃ t, Left lt os p t ∧ ¬ BlackInside lt t k) → ∀ l p, p.length = l → p <+: ops →
      ∃ t, Left lt os p t ∧ RbState lt os True t (lastData p) := by
    intro hno l
    induction l with
    | zero =>
      intro p hp _
      rw [List.length_eq_zero_iff] at hp
      subst hp
      exact ⟨btEmpty os, ⟨0, fun _ _ => rfl⟩, .empty rfl (fun _ => rfl)⟩
    | succ l ih =>
      intro p hp hpre
      obtain ⟨q, ⟨k, d⟩, rfl⟩ : ∃ q a, p = q ++ [a] := ⟨p.dropLast, p.getLast (by rintro rfl; simp at hp), (List.dropLast_concat_getLast _).symm⟩
      obtain ⟨t, hL, hs⟩ := ih q (by simpa using hp) ((List.prefix_append _ _).trans hpre)
      obtain ⟨t0, hL0, hnb⟩ := hno q k d hpre
      rw [hL0.unique hL] at hnb
      obtain ⟨t', e, h1, _⟩ := rb_again ht hs k d
      refine ⟨t', left_snoc hL e, ?_⟩
      rw [lastData_snoc]
      exact h1 hnb
  constructor
  · intro h
    have key : ∀ l p, p.length = l → p <+: ops → ∃ t, Left lt os p t ∧ RbState lt os True t (lastData p) ∧ ∀ k d, p ++ [(k, d)] <+: ops → ¬ BlackInside lt t k := by
      intro l
      induction l with
      | zero =>
        intro p hp _
        rw [List.length_eq_zero_iff] at hp
        subst hp
        refine ⟨btEmpty os, ⟨0, fun _ _ => rfl⟩, .empty rfl (fun _ => rfl), fun k d _ => ?_⟩
        rintro ⟨i, n, ⟨n1, h1⟩, _⟩
        have := h1 n1 (Nat.le_refl _)
        cases n1 <;> cases this
      | succ l ih =>
        intro p hp hpre
        obtain ⟨q, ⟨k, d⟩, rfl⟩ : ∃ q a, p = q ++ [a] := ⟨p.dropLast, p.getLast (by rintro rfl; simp at hp), (List.dropLast_concat_getLast _).symm⟩
        obtain ⟨t, hL, hs, hnb⟩ := ih q (by simpa using hp) ((List.prefix_append _ _).trans hpre)
        obtain ⟨t', e, h1, _⟩ := rb_again ht hs k d
        have hs' := h1 (hnb k d hpre)
        rw [← lastData_snoc] at hs'
        refine ⟨t', left_snoc hL e, hs', fun k' d' hpre' hb => ?_⟩
        obtain ⟨t2, e2, _, h3⟩ := rb_again ht hs' k' d'
        obtain ⟨t3, hL3, hc⟩ := h _ hpre' (by simp)
        have := hL3.unique (left_snoc (left_snoc hL e) e2)
        subst this
        exact h3 hb hc
    intro p k d hpre
    obtain ⟨t, hL, _, hnb⟩ := key _ p rfl ((List.prefix_append _ _).trans hpre)
    exact ⟨t, hL, hnb k d hpre⟩
  · intro hno p hpre hne
    obtain ⟨t, hL, hs⟩ := fwd hno _ p rfl hpre
    obtain ⟨q, ⟨k, d⟩, rfl⟩ : ∃ q a, p = q ++ [a] := ⟨p.dropLast, p.getLast hne, (List.dropLast_concat_getLast _).symm⟩
    exact ⟨t, hL, hs.coloured (k := k) (by rw [lastData_snoc]; simp)⟩

/-- 1, 2, 3 and again 3: the node of 3 is red, the tree stays a red-black tree … -/
example : ∃ t : BTree Nat Char, Left (fun a b => decide (a < b)) false [(1, none), (2, none), (3, none)] t ∧ ¬ BlackInside (fun a b => decide (a < b)) t 3 := by
  refine ⟨⟨[some { key := some 1, data := none, parent := some 1, color := some 1 },
    some { key := some 2, data := none, left := some 0, right := some 2, color := some 0, isRoot := true },
    some { key := some 3, data := none, parent := some 1, color := some 1 }], 3, 3, 1, 3, false⟩, ⟨30, fun n hn => ?_⟩, ?_⟩
  · obtain ⟨m, rfl⟩ : ∃ m, n = m + 30 := ⟨n - 30, by omega⟩
    rfl
  · rintro ⟨i, n, ⟨n0, h1⟩, h2, h3, h4⟩
    have := h1 (n0 + 9) (by omega)
    cases this
    cases h2
    cases h3

/-- … 1, 2, 3, 4 and again 1: the node of 1 is black and not the root. -/
example : ∃ t : BTree Nat Char, Left (fun a b => decide (a < b)) false [(1, none), (2, none), (3, none), (4, none)] t ∧ BlackInside (fun a b => decide (a < b)) t 1 := by
  refine ⟨⟨[some { key := some 1, data := none, parent := some 1, color := some 0 },
    some { key := some 2, data := none, left := some 0, right := some 2, color := some 0, isRoot := true },
    some { key := some 3, data := none, right := some 3, parent := some 1, color := some 0 },
    some { key := some 4, data := none, parent := some 2, color := some 1 }, none, none, none], 4, 4, 1, 4, false⟩, ⟨30, fun n hn => ?_⟩, ?_⟩
  · obtain ⟨m, rfl⟩ : ∃ m, n = m + 30 := ⟨n - 30, by omega⟩
    rfl
  · exact ⟨0, _, ⟨9, fun n hn => (by obtain ⟨m, rfl⟩ : ∃ m, n = m + 9 := ⟨n - 9, by omega⟩; rfl)⟩, rfl, rfl, by decide⟩
end Props
