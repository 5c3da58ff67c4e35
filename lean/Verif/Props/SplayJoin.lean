import Verif.Lemmas.SplayJoin

/-!
# C90: joining two splay trees
-/
namespace Props
open Py Model Spec
set_option linter.unusedSectionVars false
variable {κ δ : Type} [DecidableEq κ]

/-! ## Specification -/

/-- Every key of `D` is less than every key of `D'`. -/
def AllLess (lt : κ → κ → Bool) (D D' : List (κ × Option δ)) : Prop := ∀ a ∈ D, ∀ b ∈ D', lt a.1 b.1 = true

/-- **C90**, in full: two trees that are not empty, built from distinct keys; if all keys of the first are less than those of the second, `join` makes the
first tree serve all entries, otherwise it raises `ValueError`. -/
def C90_full (lt : κ → κ → Bool) (δ : Type) : Prop :=
  ∀ (os os' : Bool) (ins ins' : List (κ × Option δ)), ins ≠ [] → ins' ≠ [] → (ins.map (·.1)).Nodup → (ins'.map (·.1)).Nodup →
    ∃ t o, EndsWith (fun n => splayRun lt n (btEmpty os) (insertsOf ins)) (.ok (t, bstReturns [] (insertsOf ins))) ∧
      EndsWith (fun n => splayRun lt n (btEmpty os') (insertsOf ins')) (.ok (o, bstReturns [] (insertsOf ins'))) ∧
      (AllLess lt ins ins' → ∃ t', EndsWith (fun n => splayJoin lt n t o) (.ok t') ∧ ServesEntries lt t' (ins ++ ins')) ∧
      (¬ AllLess lt ins ins' → EndsWith (fun n => splayJoin lt n t o) (.error .valueError))

/-! ## The array after insertions -/

theorem splay_fill_pow {lt : κ → κ → Bool} (ht : StrictTotal (ltRel lt)) : ∀ (ins : List (κ × Option δ)) (t : BTree κ δ) (D : List (κ × Option δ)),
    SplayHas lt t D → FullOf t D.length → (∃ p, t.arr.length + 1 = 2 ^ p) → (ins.map (·.1)).Nodup → (∀ e ∈ ins, ¬ Has D e.1) →
    ∃ t', SplayHas lt t' (ins.reverse ++ D) ∧ FullOf t' (ins.reverse ++ D).length ∧ (∃ p, t'.arr.length + 1 = 2 ^ p) ∧
      EndsWith (fun n => splayRun lt n t (insertsOf ins)) (.ok (t', bstReturns D (insertsOf ins))) := by
  intro ins
  induction ins with
  | nil => intro t D h hf hp _ _; exact ⟨t, h, hf, hp, 0, fun _ _ => rfl⟩
  | cons e ins ih =>
    intro t D h hf hp hnd hab
    simp only [List.map_cons, List.nodup_cons] at hnd
    have hk := hab e (by simp)
    have hspec : bstSpec D (.insert e.1 e.2) = e :: D := by simp only [bstSpec, filter_absent hk]
    have hcop : CopesSplay lt t D (.insert e.1 e.2) := by
      obtain ⟨f1, f2, f3, f4, f5⟩ := hf
      refine ⟨hk, f1, .inr ?_⟩
      unfold grown; split <;> omega
    obtain ⟨t1, h1, c1, _, n1, r1⟩ := splayHas_step ht h (.insert e.1 e.2) hcop
    have hf1 := full_insert (h.nodup_keys ht) e.1 e.2 hf c1
    have hp1 : ∃ p, t1.arr.length + 1 = 2 ^ p := by
      obtain ⟨p, hp⟩ := hp
      unfold Counts at c1
      by_cases hD : D = [] ∨ Has D e.1
      · exact ⟨p, by rw [(c1.1 hD).len, hp]⟩
      · obtain ⟨_, _, _, hl⟩ := c1.2 hD
        rw [hl]; unfold grown
        split
        · exact ⟨p + 1, by rw [Nat.pow_succ, ← hp]; omega⟩
        · exact ⟨p, hp⟩
    rw [hspec] at h1 hf1
    obtain ⟨t2, h2, f2, p2, n2, r2⟩ := ih t1 _ h1 hf1 hp1 hnd.2 (by
      rintro e' he' ⟨d, hd⟩
      rcases List.mem_cons.mp hd with h | h
      · exact hnd.1 (by rw [← h]; exact List.mem_map_of_mem (f := (·.1)) he')
      · exact hab e' (by simp [he']) ⟨d, h⟩)
    refine ⟨t2, by simpa using h2, by simpa using f2, p2, max n1 n2, fun fuel hfu => ?_⟩
    have e1 := r1 fuel (by omega)
    have e2 := r2 fuel (by omega)
    simp only at e2
    rw [← hspec] at e2
    simp only [insertsOf, List.map_cons, splayRun, e1, ok_bind, bstReturns] at e2 ⊢
    rw [e2]; rfl

/-- The tree built by inserting distinct keys. -/
theorem splay_made {lt : κ → κ → Bool} (ht : StrictTotal (ltRel lt)) (os : Bool) (ins : List (κ × Option δ)) (hd : (ins.map (·.1)).Nodup) :
    ∃ t, SplayHas lt t ins ∧ FullOf t ins.length ∧ (∃ p, t.arr.length + 1 = 2 ^ p) ∧
      EndsWith (fun n => splayRun lt n (btEmpty os) (insertsOf ins)) (.ok (t, bstReturns [] (insertsOf ins))) := by
  have hfe : FullOf (btEmpty os : BTree κ δ) ([] : List (κ × Option δ)).length := by refine ⟨rfl, rfl, rfl, ?_, ?_⟩ <;> simp [btEmpty]
  obtain ⟨t, h1, h2, h3, h4⟩ := splay_fill_pow ht ins (btEmpty os) [] (SplayHas.empty lt os) hfe ⟨1, rfl⟩ hd (by rintro e _ ⟨_, h⟩; cases h)
  simp only [List.append_nil, List.length_reverse] at h1 h2
  exact ⟨t, splayHas_perm h1 (List.reverse_perm ins), h2, h3, h4⟩

theorem SplayHas.stored {lt : κ → κ → Bool} {t : BTree κ δ} {D : List (κ × Option δ)} (h : SplayHas lt t D) (hne : D ≠ []) :
    ∃ T E, E.Perm D ∧ Stored t T E ∧ E.Pairwise fun a b => lt a.1 b.1 = true := by
  obtain ⟨E, hp, ⟨rfl, _⟩ | ⟨T, st, hs⟩⟩ := h
  · exact absurd (List.nil_perm.mp hp) hne
  · exact ⟨T, E, hp, st, hs⟩

/-! ## The claims -/

/-- `join` raises `ValueError` whenever some key of the first tree is not less than some key of the second: after any histories the trees cope with (C88). -/
theorem C90_refuses {lt : κ → κ → Bool} (ht : StrictTotal (ltRel lt)) (os os' : Bool) (ops ops' : List (BstOp κ δ))
    (hc : ∃ n0, ∀ fuel, n0 ≤ fuel → CopesSplayAll lt fuel (btEmpty os) [] ops) (hc' : ∃ n0, ∀ fuel, n0 ≤ fuel → CopesSplayAll lt fuel (btEmpty os') [] ops')
    (hno : ∃ a ∈ bstContents [] ops, ∃ b ∈ bstContents [] ops', lt a.1 b.1 = false) :
    ∃ t o, EndsWith (fun n => splayRun lt n (btEmpty os) ops) (.ok (t, bstReturns [] ops)) ∧ EndsWith (fun n => splayRun lt n (btEmpty os') ops') (.ok (o, bstReturns [] ops')) ∧
      EndsWith (fun n => splayJoin lt n t o) (.error .valueError) := by
  obtain ⟨a, ha, b, hb, hab⟩ := hno
  obtain ⟨t, h1, _, h2⟩ := splayHas_run ht ops _ [] (SplayHas.empty lt os) hc
  obtain ⟨o, g1, _, g2⟩ := splayHas_run ht ops' _ [] (SplayHas.empty lt os') hc'
  obtain ⟨T, E, p1, st, hs⟩ := h1.stored (by rintro e; rw [e] at ha; cases ha)
  obtain ⟨S, F, p2, so, hS⟩ := g1.stored (by rintro e; rw [e] at hb; cases hb)
  exact ⟨t, o, h2, g2, splayJoin_refuses ht st so hs hS ⟨a, p1.mem_iff.mpr ha, b, p2.mem_iff.mpr hb, hab⟩⟩

/-- **C90** when the first tree was built from `2 ^ m - 1` distinct keys (its array is then full) and the second by any history it copes with (C88): after
`join` searches and the in-order traversal answer as the entries of both trees demand, and the greatest key of the first tree is at the root. Missing: first
trees whose array has free positions (`C90_gap`), the empty trees (`C90_empty`), and further calls that change the joined tree (`C90_insert_after`). -/
theorem C90_full_array_partial {lt : κ → κ → Bool} (ht : StrictTotal (ltRel lt)) (os os' : Bool) (ins : List (κ × Option δ)) (ops' : List (BstOp κ δ))
    (hne : ins ≠ []) (hd : (ins.map (·.1)).Nodup) (m : Nat) (hm : ins.length + 1 = 2 ^ m)
    (hc' : ∃ n0, ∀ fuel, n0 ≤ fuel → CopesSplayAll lt fuel (btEmpty os') [] ops') (hne' : bstContents [] ops' ≠ [])
    (hall : AllLess lt ins (bstContents [] ops')) :
    ∃ t o t', EndsWith (fun n => splayRun lt n (btEmpty os) (insertsOf ins)) (.ok (t, bstReturns [] (insertsOf ins))) ∧
      EndsWith (fun n => splayRun lt n (btEmpty os') ops') (.ok (o, bstReturns [] ops')) ∧
      EndsWith (fun n => splayJoin lt n t o) (.ok t') ∧ ServesEntries lt t' (ins ++ bstContents [] ops') ∧
      ∃ g ∈ ins, (∀ a ∈ ins, a = g ∨ lt a.1 g.1 = true) ∧ rootKey t' = some g.1 := by
  obtain ⟨t, h1, ⟨f1, f2, f3, f4, f5⟩, ⟨p, hp⟩, h2⟩ := splay_made ht os ins hd
  obtain ⟨o, g1, _, g2⟩ := splayHas_run ht ops' _ [] (SplayHas.empty lt os') hc'
  obtain ⟨T, E, p1, st, hs⟩ := h1.stored hne
  obtain ⟨S, F, p2, so, hS⟩ := g1.stored hne'
  have hpos : 1 ≤ ins.length := by cases ins with | nil => exact absurd rfl hne | cons _ _ => simp
  have htop : t.top = ins.length := by omega
  have hfull : t.arr.length = t.top := by
    have hle : m ≤ p := by
      rcases Nat.lt_or_ge p m with h | h
      · have := Nat.pow_lt_pow_right (a := 2) (by omega) h; omega
      · exact h
    have hge : p ≤ m := by
      rcases Nat.lt_or_ge m p with h | h
      · have := Nat.pow_le_pow_right (n := 2) (by omega) (show m + 1 ≤ p from h)
        rw [Nat.pow_succ] at this; omega
      · exact h
    have : p = m := by omega
    subst this; omega
  obtain ⟨t', T', k1, k2, k3, k4, _, k6⟩ := splayJoin_full ht st so hs hS (fun a ha b hb => hall a (p1.mem_iff.mp ha) b (p2.mem_iff.mp hb)) hfull f2
  refine ⟨t, o, t', h2, g2, k6, serves_of_tree ht k1 k2 k3 (p1.append p2), ?_⟩
  have hE : E ≠ [] := by rintro rfl; exact hne (List.nil_perm.mp p1)
  obtain ⟨E', e, rfl⟩ : ∃ E' e, E = E' ++ [e] := ⟨E.dropLast, E.getLast hE, (List.dropLast_concat_getLast hE).symm⟩
  refine ⟨e, p1.mem_iff.mp (by simp), fun a ha => ?_, by rw [k4]; simp⟩
  rcases List.mem_append.mp (p1.mem_iff.mpr ha) with h | h
  · exact .inr ((List.pairwise_append.mp hs).2.2 a h e (by simp))
  · exact .inl (List.mem_singleton.mp h)

/-- If one of the trees is empty, `join` raises `TypeError`: the comparator is given `None`. -/
theorem C90_empty {lt : κ → κ → Bool} (os os' : Bool) (ops : List (BstOp κ δ)) (ht : StrictTotal (ltRel lt)) (hc : ∃ n0, ∀ fuel, n0 ≤ fuel → CopesSplayAll lt fuel (btEmpty os) [] ops) :
    ∃ t, EndsWith (fun n => splayRun lt n (btEmpty os) ops) (.ok (t, bstReturns [] ops)) ∧
      EndsWith (fun n => splayJoin lt n t (btEmpty os')) (.error .typeError) ∧ EndsWith (fun n => splayJoin lt n (btEmpty os') t) (.error .typeError) := by
  obtain ⟨t, h1, _, h2⟩ := splayHas_run ht ops _ [] (SplayHas.empty lt os) hc
  have z1 : ∀ fuel, whileLoop (fuel + 1) (joinMaxCond (btEmpty os' : BTree κ δ)) (joinMaxBody (btEmpty os' : BTree κ δ)) (btEmpty os' : BTree κ δ).rootIdx = .ok 0 := fun _ => rfl
  have z2 : ∀ fuel, whileLoop (fuel + 1) (joinMinCond (btEmpty os' : BTree κ δ)) (joinMinBody (btEmpty os' : BTree κ δ)) (btEmpty os' : BTree κ δ).rootIdx = .ok 0 := fun _ => rfl
  obtain ⟨z, zk, z3⟩ : ∃ z : BNode κ δ, z.key = none ∧ getNode (btEmpty os' : BTree κ δ) 0 = .ok z := ⟨_, rfl, rfl⟩
  have hw : (∃ j n, getNode t j = .ok n ∧ ∃ n0, ∀ fuel, n0 ≤ fuel → whileLoop fuel (joinMaxCond t) (joinMaxBody t) t.rootIdx = .ok j) ∧
      ∃ j n, getNode t j = .ok n ∧ ∃ n0, ∀ fuel, n0 ≤ fuel → whileLoop fuel (joinMinCond t) (joinMinBody t) t.rootIdx = .ok j := by
    obtain ⟨E, hp, ⟨rfl, hcl⟩ | ⟨T, st, hs⟩⟩ := h1
    · obtain ⟨n, en, _, n1, n2, _⟩ := hcl.root
      refine ⟨⟨t.rootIdx, n, getNode_ok en, 1, fun fuel hf => ?_⟩, ⟨t.rootIdx, n, getNode_ok en, 1, fun fuel hf => ?_⟩⟩
      · obtain ⟨f, rfl⟩ : ∃ f, fuel = f + 1 := ⟨fuel - 1, by omega⟩
        exact while_stop _ (by simp only [joinMaxCond, getNode_ok en, ok_bind, n2]; rfl)
      · obtain ⟨f, rfl⟩ : ∃ f, fuel = f + 1 := ⟨fuel - 1, by omega⟩
        exact while_stop _ (by simp only [joinMinCond, getNode_ok en, ok_bind, n1]; rfl)
    · obtain ⟨c, l, j, e, E', rfl, rfl, he, hrun⟩ := stored_max st
      obtain ⟨i, f, F', _, hf, hrun'⟩ := stored_min st
      obtain ⟨n, en, _⟩ := entryAt_some.mp he
      obtain ⟨m, em, _⟩ := entryAt_some.mp hf
      exact ⟨⟨j, n, getNode_ok en, _, fun fuel hf => hrun fuel hf⟩, ⟨i, m, getNode_ok em, _, fun fuel hf => hrun' fuel hf⟩⟩
  obtain ⟨⟨j, n, g1, n1, r1⟩, ⟨i, m, g2, n2, r2⟩⟩ := hw
  refine ⟨t, h2, ⟨n1 + 1, fun fuel hf => ?_⟩, ⟨n2 + 1, fun fuel hf => ?_⟩⟩
  · obtain ⟨f, rfl⟩ : ∃ f, fuel = f + 1 := ⟨fuel - 1, by omega⟩
    simp only [splayJoin, r1 (f + 1) (by omega), z2, ok_bind, g1, z3, zk]
    cases n.key <;> rfl
  · obtain ⟨f, rfl⟩ : ∃ f, fuel = f + 1 := ⟨fuel - 1, by omega⟩
    simp only [splayJoin, r2 (f + 1) (by omega), z1, ok_bind, g2, z3, zk]
    cases m.key <;> rfl

/-! ### What goes wrong -/

/-- Build two trees, join them, and search for a key. -/
def joinedSearch (lt : κ → κ → Bool) (fuel : Nat) (ins ins' : List (κ × Option δ)) (k : κ) : PyM (Option Nat) := do
  let r ← splayRun lt fuel (btEmpty false) (insertsOf ins)
  let q ← splayRun lt fuel (btEmpty false) (insertsOf ins')
  let t ← splayJoin lt fuel r.1 q.1
  bstSearch lt fuel t k

/-- Build two trees, join them, and insert a key. -/
def joinedInsert (lt : κ → κ → Bool) (fuel : Nat) (ins ins' : List (κ × Option δ)) (k : κ) : PyM (BTree κ δ) := do
  let r ← splayRun lt fuel (btEmpty false) (insertsOf ins)
  let q ← splayRun lt fuel (btEmpty false) (insertsOf ins')
  let t ← splayJoin lt fuel r.1 q.1
  splayInsert lt fuel t k none

/-- Two keys joined with one: the copies are linked by the capacity of the array, 3, but appended after its last element, at position 2. -/
theorem C90_gap : EndsWith (fun n => joinedSearch (fun a b : Nat => decide (a < b)) n [(1, none), (2, none)] [(5, (none : Option Unit))] 5) (.error .indexError) := by
  refine ⟨20, fun n hn => ?_⟩
  obtain ⟨m, rfl⟩ : ∃ m, n = m + 20 := ⟨n - 20, by omega⟩
  rfl

/-- The tree after 4 has been hung into the join of 1, 2, 3 with 12: `size` still counted three, so the link to the new node leads to 12 itself. -/
def loopTree : BTree Nat Unit :=
  ⟨[some { key := some 1, data := none, parent := some 1, isRoot := true }, some { key := some 2, data := none, left := some 0, parent := some 2 },
    some { key := some 3, data := none, left := some 1, right := some 3 }, some { key := some 12, data := none, left := some 3 },
    some { key := some 4, data := none, parent := some 3 }, none, none], 5, 5, 2, 4, false⟩

theorem loopTree_search : ∀ fuel, whileLoop fuel bstSearchCond (bstSearchBody (fun a b : Nat => decide (a < b)) loopTree 4) ⟨some 3, some 3, false⟩ = .error .outOfFuel := by
  intro fuel
  induction fuel with
  | zero => rfl
  | succ n ih => exact (while_step n (by rfl) (by rfl)).trans ih

/-- Three keys joined with one: the joined tree is searched correctly, but `size` still counts three, and inserting a key between them never ends. -/
theorem C90_insert_after : EndsWith (fun n => joinedInsert (fun a b : Nat => decide (a < b)) n [(1, none), (2, none), (3, none)] [(12, (none : Option Unit))] 4) (.error .outOfFuel) := by
  refine ⟨20, fun n hn => ?_⟩
  obtain ⟨m, rfl⟩ : ∃ m, n = m + 20 := ⟨n - 20, by omega⟩
  have h1 : joinedInsert (fun a b : Nat => decide (a < b)) (m + 20) [(1, none), (2, none), (3, none)] [(12, (none : Option Unit))] 4 =
      (do let (e, p) ← searchPair (fun a b : Nat => decide (a < b)) (m + 20) loopTree 4
          let t ← modNode loopTree (loopTree.size - 1) (fun n => { n with parent := p })
          let e ← asIdx e
          splay (m + 20) t e p) := rfl
  have h2 : whileLoop (m + 20) bstSearchCond (bstSearchBody (fun a b : Nat => decide (a < b)) loopTree 4) ⟨some 2, none, false⟩ = .error .outOfFuel :=
    (while_step (m + 19) (by rfl) (by rfl)).trans ((while_step (m + 18) (by rfl) (by rfl)).trans (loopTree_search (m + 18)))
  have h3 : searchPair (fun a b : Nat => decide (a < b)) (m + 20) loopTree 4 = .error .outOfFuel := by
    have h4 : getNode loopTree loopTree.rootIdx = .ok { key := some 3, data := none, left := some 1, right := some 3 } := rfl
    have h5 : loopTree.rootIdx = 2 := rfl
    simp only [searchPair, bstSearchP, h4, ok_bind, reduceCtorEq, if_false, h5, h2]
    rfl
  show joinedInsert _ _ _ _ _ = _
  rw [h1, h3]
  rfl

theorem C90_full_false : ¬ C90_full (fun a b : Nat => decide (a < b)) Unit := by
  intro h
  obtain ⟨t, o, ⟨n1, h1⟩, ⟨n2, h2⟩, h3, _⟩ := h false false [(1, none), (2, none)] [(5, none)] (by simp) (by simp) (by decide) (by decide)
  obtain ⟨t', ⟨n3, h4⟩, h5, _⟩ := h3 (by unfold AllLess; decide)
  obtain ⟨r, ⟨n4, h6⟩, _⟩ := h5 5
  obtain ⟨n5, h7⟩ := C90_gap
  have e1 := h1 (n1 + n2 + n3 + n4 + n5) (by omega)
  have e2 := h2 (n1 + n2 + n3 + n4 + n5) (by omega)
  have e3 := h4 (n1 + n2 + n3 + n4 + n5) (by omega)
  have e4 := h6 (n1 + n2 + n3 + n4 + n5) (by omega)
  have e5 := h7 (n1 + n2 + n3 + n4 + n5) (by omega)
  dsimp only at e1 e2 e3 e4 e5
  simp only [joinedSearch, e1, e2, e3, e4, ok_bind] at e5
  cases e5

/-- Seven keys joined with four. -/
example : ([(1, none), (2, some 7), (3, none), (4, none), (6, none), (7, none), (5, none)] : List (Nat × Option Nat)).length + 1 = 2 ^ 3 ∧
    AllLess (fun a b : Nat => decide (a < b)) ([(1, none), (2, some 7), (3, none), (4, none), (6, none), (7, none), (5, none)] : List (Nat × Option Nat))
      (bstContents [] (insertsOf [(12, none), (10, some 4), (15, none), (11, none)])) := by unfold AllLess; decide

example : ((splayRun (fun a b : Nat => decide (a < b)) 60 (btEmpty true) (insertsOf [(1, none), (2, some 7), (3, none), (4, none), (6, none), (7, none), (5, none)])).bind fun r => do
      let q ← splayRun (fun a b : Nat => decide (a < b)) 60 (btEmpty true) (insertsOf [(12, none), (10, some 4), (15, none), (11, none)])
      let t ← splayJoin (fun a b : Nat => decide (a < b)) 60 r.1 q.1
      let l ← treeDfs 60 t .ino none
      .ok (l.map (fun n => (n.key, n.data)))) =
    .ok [(some 1, none), (some 2, some 7), (some 3, none), (some 4, none), (some 5, none), (some 6, none), (some 7, none), (some 10, some 4), (some 11, none), (some 12, none),
      (some 15, none)] := by decide +kernel

end Props
