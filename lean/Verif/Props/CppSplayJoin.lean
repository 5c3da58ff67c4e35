import Verif.Props.CppSplayDelete
import Verif.Props.SplaySplit
import Verif.Props.SplayJoin

/-!
# C117, C118: splitting and joining C++ splay trees
-/
namespace Props
open Py Model Model.Cpp Spec
set_option linter.unusedSectionVars false
variable {κ δ : Type} [DecidableEq κ]

/-! ## C117: split -/

/-- `split(x)` leaves the entries up to `x` in the tree and returns a tree with the greater ones. -/
def CSplits (lt : κ → κ → Bool) (c : CTree κ δ) (D : List (κ × Option δ)) (x : κ) : Prop :=
  ∃ c' o, EndsWith (fun n => cSplaySplit (ofLt lt) n c x) (.ok (c', some o)) ∧ CServes lt c'.t (splitLow lt x D) ∧ CServes lt o.t (splitHigh lt x D)

/-- **C117**, in full: any distinct keys, inserted in any order, and any `x`. -/
def C117_full (lt : κ → κ → Bool) (δ : Type) : Prop :=
  ∀ (os : Bool) (ins : List (κ × Option δ)) (x : κ), (ins.map (·.1)).Nodup →
    ∃ c, EndsWith (fun n => cSplayHistory (ofLt lt) n os (insertsOf ins)) (.ok (c, bstReturns [] (insertsOf ins))) ∧ CSplits lt c (bstContents [] (insertsOf ins)) x

theorem cSplit_run {lt : κ → κ → Bool} {t t' : BTree κ δ} {o : Option (BTree κ δ)} {x : κ} (h : EndsWith (fun n => splaySplit lt n t x) (.ok (t', o))) :
    EndsWith (fun n => cSplaySplit (ofLt lt) n (onC t) x) (.ok (onC t', o.map onC)) := by
  obtain ⟨n0, h⟩ := h
  exact ⟨n0, fun n hn => le_splaySplit lt n t x _ (h n hn)⟩

/-- **C117** after any history the splay tree copes with (C116), for a key `x` of the tree: the tree keeps the entries up to `x`, with `x` at the root, and `split` returns a splay tree
with the greater entries, on which any further history it copes with does what C116 says. Missing: absent keys (`C117_absent`), the empty tree (`C117_empty`), and the `size` of the
tree, which is not adjusted. -/
theorem C117_copes_partial {lt : κ → κ → Bool} (ht : StrictTotal (ltRel lt)) (os : Bool) (ops : List (BstOp κ δ))
    (hc : ∃ n0, ∀ fuel, n0 ≤ fuel → CopesSplayAll lt fuel (btEmpty os) [] ops) (x : κ) (hx : Has (bstContents [] ops) x) :
    ∃ c c' o, EndsWith (fun n => cSplayHistory (ofLt lt) n os ops) (.ok (c, bstReturns [] ops)) ∧ EndsWith (fun n => cSplaySplit (ofLt lt) n c x) (.ok (c', some o)) ∧
      CServes lt c'.t (splitLow lt x (bstContents [] ops)) ∧ rootKey c'.t = some x ∧ c'.t.size = c.t.size ∧ CServes lt o.t (splitHigh lt x (bstContents [] ops)) ∧
      ∀ more, (∃ n0, ∀ fuel, n0 ≤ fuel → CopesSplayAll lt fuel o.t (splitHigh lt x (bstContents [] ops)) more) →
        ∃ o', EndsWith (fun n => cSplayRun (ofLt lt) n o more) (.ok (o', bstReturns (splitHigh lt x (bstContents [] ops)) more)) ∧
          CServesSplay lt o'.t (bstContents (splitHigh lt x (bstContents [] ops)) more) more := by
  obtain ⟨t, h, _, hr⟩ := splayHas_run ht ops _ [] (SplayHas.empty lt os) hc
  obtain ⟨t', o, h1, h2, h3, h4, _, h6⟩ := splaySplit_present ht h hx
  refine ⟨onC t, onC t', onC o, cSplayHistory_run ht os ops hc hr, cSplit_run h6, h1.c, h2, h3, (h4.serves ht).c, fun more hm => ?_⟩
  obtain ⟨o', g1, g2, g3⟩ := splayHas_run ht more o _ h4 hm
  exact ⟨onC o', le_splayRun ht more o _ h4 hm g3, (g1.serves ht).c, g2⟩

/-- **C117** for distinct keys, inserted in any order, when `x` is one of them; fresh keys may then be inserted into the new tree. Missing: see `C117_copes_partial`. -/
theorem C117_inserts_partial {lt : κ → κ → Bool} (ht : StrictTotal (ltRel lt)) (os : Bool) (ins : List (κ × Option δ)) (hd : (ins.map (·.1)).Nodup) (x : κ)
    (hx : Has (bstContents [] (insertsOf ins)) x) :
    ∃ c c' o, EndsWith (fun n => cSplayHistory (ofLt lt) n os (insertsOf ins)) (.ok (c, bstReturns [] (insertsOf ins))) ∧
      EndsWith (fun n => cSplaySplit (ofLt lt) n c x) (.ok (c', some o)) ∧
      CServes lt c'.t (splitLow lt x (bstContents [] (insertsOf ins))) ∧ CServes lt o.t (splitHigh lt x (bstContents [] (insertsOf ins))) ∧
        ∀ new : List (κ × Option δ), (new.map (·.1)).Nodup → (∀ e ∈ new, ¬ Has (splitHigh lt x (bstContents [] (insertsOf ins))) e.1) →
          ∃ o', EndsWith (fun n => cSplayRun (ofLt lt) n o (insertsOf new)) (.ok (o', bstReturns (splitHigh lt x (bstContents [] (insertsOf ins))) (insertsOf new))) ∧
            CServes lt o'.t (bstContents (splitHigh lt x (bstContents [] (insertsOf ins))) (insertsOf new)) := by
  have hc := copesSplay_inserts (δ := δ) ht os ins hd
  obtain ⟨t, h, _, hr⟩ := splayHas_run ht _ _ [] (SplayHas.empty lt os) hc
  obtain ⟨t', o, h1, h2, h3, h4, h5, h6⟩ := splaySplit_present ht h hx
  refine ⟨onC t, onC t', onC o, cSplayHistory_run ht os _ hc hr, cSplit_run h6, h1.c, (h4.serves ht).c, fun new hn hab => ?_⟩
  have hm := copesSplay_fill ht [] new o _ h4 h5 hn hab (fun _ _ _ => ⟨0, fun _ _ => trivial⟩)
  rw [List.append_nil] at hm
  obtain ⟨o', g1, g2, g3⟩ := splayHas_run ht _ o _ h4 hm
  exact ⟨onC o', le_splayRun ht _ o _ h4 hm g3, (g1.serves ht).c⟩

/-- For a key that is absent, `split` returns `None` and the tree is as before. -/
theorem C117_absent {lt : κ → κ → Bool} (ht : StrictTotal (ltRel lt)) (os : Bool) (ops : List (BstOp κ δ))
    (hc : ∃ n0, ∀ fuel, n0 ≤ fuel → CopesSplayAll lt fuel (btEmpty os) [] ops) (x : κ) (hne : bstContents [] ops ≠ []) (hx : ¬ Has (bstContents [] ops) x) :
    ∃ c, EndsWith (fun n => cSplayHistory (ofLt lt) n os ops) (.ok (c, bstReturns [] ops)) ∧ EndsWith (fun n => cSplaySplit (ofLt lt) n c x) (.ok (c, none)) := by
  obtain ⟨t, h1, h2⟩ := C89_absent ht os ops hc x hne hx
  exact ⟨onC t, cSplayHistory_run ht os ops hc h1, cSplit_run h2⟩

/-- `split` of an empty tree takes the items of a tuple that is `None`. -/
theorem C117_empty (lt : κ → κ → Bool) (os : Bool) (x : κ) : EndsWith (fun n => ctNew (δ := δ) os none none >>= fun c => cSplaySplit (ofLt lt) n c x) (.error .undefined) :=
  ⟨0, fun _ _ => by simp only [ctNew_empty, ok_bind]; rfl⟩

/-- **C117** in full is false: 3 is not among the keys 1 and 5. -/
theorem C117_full_false : ¬ C117_full (fun a b : Nat => decide (a < b)) Unit := by
  intro h
  obtain ⟨c, ⟨n1, h1⟩, c', o, ⟨n2, h2⟩, _⟩ := h false [(1, none), (5, none)] 3 (by decide)
  obtain ⟨d, ⟨n3, h3⟩, ⟨n4, h4⟩⟩ := C117_absent (δ := Unit) nat_strict false (insertsOf [(1, none), (5, none)]) (copesSplay_inserts nat_strict false _ (by decide)) 3 (by decide)
    (by rintro ⟨d, hd⟩; simp [bstContents, insertsOf, bstSpec] at hd)
  have e1 := h1 (max (max n1 n2) (max n3 n4)) (by omega)
  have e2 := h2 (max (max n1 n2) (max n3 n4)) (by omega)
  have e3 := h3 (max (max n1 n2) (max n3 n4)) (by omega)
  have e4 := h4 (max (max n1 n2) (max n3 n4)) (by omega)
  dsimp only at e1 e2 e3 e4
  rw [e3] at e1
  cases e1
  rw [e4] at e2
  cases e2

/-- Seven keys, split at the fourth; the new tree takes two more. -/
example : Has (bstContents [] (insertsOf ((List.range 7).map fun i => (3 * i % 7, some i)))) 3 := ⟨some 1, by decide⟩

example : ((cSplayHistory (ofLt fun a b : Nat => decide (a < b)) 60 true (insertsOf ((List.range 7).map fun i => (3 * i % 7, some i)))).bind fun r => do
      let s ← cSplaySplit (ofLt fun a b : Nat => decide (a < b)) 60 r.1 3
      let q ← cSplayRun (ofLt fun a b : Nat => decide (a < b)) 60 (s.2.getD (onC (btEmpty true))) (insertsOf [(9, none), (2, some 8)])
      let l1 ← ctDfs 60 s.1.t .ino none
      let l2 ← ctDfs 60 q.1.t .ino none
      .ok (l1.map (fun n => (n.key, n.data)), l2.map (fun n => (n.key, n.data)))) =
    .ok ([(some 0, some 0), (some 1, some 5), (some 2, some 3), (some 3, some 1)], [(some 2, some 8), (some 4, some 6), (some 5, some 4), (some 6, some 2), (some 9, none)]) := by decide +kernel

/-! ## C118: join -/

/-- **C118**, in full: two trees that are not empty, built from distinct keys; if all keys of the first are less than those of the second, `join` makes the first tree serve all entries,
otherwise it raises `ValueError`. -/
def C118_full (lt : κ → κ → Bool) (δ : Type) : Prop :=
  ∀ (os os' : Bool) (ins ins' : List (κ × Option δ)), ins ≠ [] → ins' ≠ [] → (ins.map (·.1)).Nodup → (ins'.map (·.1)).Nodup →
    ∃ c o, EndsWith (fun n => cSplayHistory (ofLt lt) n os (insertsOf ins)) (.ok (c, bstReturns [] (insertsOf ins))) ∧
      EndsWith (fun n => cSplayHistory (ofLt lt) n os' (insertsOf ins')) (.ok (o, bstReturns [] (insertsOf ins'))) ∧
      (AllLess lt ins ins' → ∃ c', EndsWith (fun n => cSplayJoin (ofLt lt) n c o) (.ok c') ∧ CServes lt c'.t (ins ++ ins')) ∧
      (¬ AllLess lt ins ins' → EndsWith (fun n => cSplayJoin (ofLt lt) n c o) (.error .valueError))

theorem last_not_less {lt : κ → κ → Bool} (ht : StrictTotal (ltRel lt)) {E' F' : List (κ × Option δ)} {e f : κ × Option δ} (hs : (E' ++ [e]).Pairwise fun a b => lt a.1 b.1 = true)
    (hS : (f :: F').Pairwise fun a b => lt a.1 b.1 = true) (hno : ∃ a ∈ E' ++ [e], ∃ b ∈ f :: F', lt a.1 b.1 = false) : lt e.1 f.1 = false := by
  cases hb : lt e.1 f.1 with
  | false => rfl
  | true =>
    obtain ⟨a, ha, b, hb', hab⟩ := hno
    have h1 : a = e ∨ lt a.1 e.1 = true := by
      rcases List.mem_append.mp ha with h | h
      · exact .inr ((List.pairwise_append.mp hs).2.2 a h e (by simp))
      · exact .inl (List.mem_singleton.mp h)
    have h2 : b = f ∨ lt f.1 b.1 = true := by
      rcases List.mem_cons.mp hb' with h | h
      · exact .inl h
      · exact .inr ((List.pairwise_cons.mp hS).1 b h)
    have h3 : lt e.1 b.1 = true := by
      rcases h2 with rfl | h2
      · exact hb
      · exact ht.trans _ _ _ hb h2
    have h4 : lt a.1 b.1 = true := by
      rcases h1 with rfl | h1
      · exact h3
      · exact ht.trans _ _ _ h1 h3
    rw [h4] at hab; cases hab

theorem tight_splayRun (lt : κ → κ → Bool) (fuel : Nat) : ∀ (ins : List (κ × Option δ)) (t : BTree κ δ) (r : BTree κ δ × List Bool), Tight t →
    splayRun lt fuel t (insertsOf ins) = .ok r → Tight r.1 := by
  intro ins
  induction ins with
  | nil => intro t r h e; cases e; exact h
  | cons op ins ih =>
    intro t r h e
    simp only [insertsOf, List.map_cons, splayRun, splayStep] at e
    obtain ⟨q, e1, e⟩ := Py.bind_ok e
    obtain ⟨t1, e2, e1⟩ := Py.bind_ok e1
    cases e1
    obtain ⟨p, e3, e⟩ := Py.bind_ok e
    cases e
    exact ih t1 p (le_splayInsert_tight h e2).2 e3

/-- `join` raises `ValueError` whenever some key of the first tree is not less than some key of the second: after any histories the trees cope with (C116). -/
theorem C118_refuses {lt : κ → κ → Bool} (ht : StrictTotal (ltRel lt)) (os os' : Bool) (ops ops' : List (BstOp κ δ))
    (hc : ∃ n0, ∀ fuel, n0 ≤ fuel → CopesSplayAll lt fuel (btEmpty os) [] ops) (hc' : ∃ n0, ∀ fuel, n0 ≤ fuel → CopesSplayAll lt fuel (btEmpty os') [] ops')
    (hno : ∃ a ∈ bstContents [] ops, ∃ b ∈ bstContents [] ops', lt a.1 b.1 = false) :
    ∃ c o, EndsWith (fun n => cSplayHistory (ofLt lt) n os ops) (.ok (c, bstReturns [] ops)) ∧ EndsWith (fun n => cSplayHistory (ofLt lt) n os' ops') (.ok (o, bstReturns [] ops')) ∧
      EndsWith (fun n => cSplayJoin (ofLt lt) n c o) (.error .valueError) := by
  obtain ⟨a, ha, b, hb, hab⟩ := hno
  obtain ⟨t, h1, _, h2⟩ := splayHas_run ht ops _ [] (SplayHas.empty lt os) hc
  obtain ⟨o, g1, _, g2⟩ := splayHas_run ht ops' _ [] (SplayHas.empty lt os') hc'
  obtain ⟨T, E, p1, st, hs⟩ := h1.stored (by rintro e; rw [e] at ha; cases ha)
  obtain ⟨S, F, p2, so, hS⟩ := g1.stored (by rintro e; rw [e] at hb; cases hb)
  refine ⟨onC t, onC o, cSplayHistory_run ht os ops hc h2, cSplayHistory_run ht os' ops' hc' g2, ?_⟩
  obtain ⟨c, l, j, e, E', rfl, rfl, he, hrun⟩ := stored_max st
  obtain ⟨i, f, F', rfl, hf, hrun'⟩ := stored_min so
  obtain ⟨n, en, nk, _⟩ := entryAt_some.mp he
  obtain ⟨m, em, mk, _⟩ := entryAt_some.mp hf
  have hlt := last_not_less ht hs hS ⟨a, p1.mem_iff.mpr ha, b, p2.mem_iff.mpr hb, hab⟩
  refine ⟨(Around.plug c (.node l j .leaf)).depth + S.depth + 1, fun fuel hfu => ?_⟩
  refine le_splayJoin_refused lt fuel t o (hrun fuel (by omega)) (hrun' fuel (by omega)) (getNode_ok en) (getNode_ok em) ?_
  simp only [nk, mk, cmpKey, hlt]

/-- **C118** when the first tree was built from `2 ^ m - 1` distinct keys (its array is then full) and the second by any history it copes with (C116): after `join` searches and the
in-order traversal answer as the entries of both trees demand, and the greatest key of the first tree is at the root. Missing: first trees whose array has free positions (`C118_gap`),
the empty trees (`C118_empty`), and further calls that change the joined tree (`C118_insert_after`). -/
theorem C118_full_array_partial {lt : κ → κ → Bool} (ht : StrictTotal (ltRel lt)) (os os' : Bool) (ins : List (κ × Option δ)) (ops' : List (BstOp κ δ))
    (hne : ins ≠ []) (hd : (ins.map (·.1)).Nodup) (m : Nat) (hm : ins.length + 1 = 2 ^ m)
    (hc' : ∃ n0, ∀ fuel, n0 ≤ fuel → CopesSplayAll lt fuel (btEmpty os') [] ops') (hne' : bstContents [] ops' ≠ [])
    (hall : AllLess lt ins (bstContents [] ops')) :
    ∃ c o c', EndsWith (fun n => cSplayHistory (ofLt lt) n os (insertsOf ins)) (.ok (c, bstReturns [] (insertsOf ins))) ∧
      EndsWith (fun n => cSplayHistory (ofLt lt) n os' ops') (.ok (o, bstReturns [] ops')) ∧
      EndsWith (fun n => cSplayJoin (ofLt lt) n c o) (.ok c') ∧ CServes lt c'.t (ins ++ bstContents [] ops') ∧
      ∃ g ∈ ins, (∀ a ∈ ins, a = g ∨ lt a.1 g.1 = true) ∧ rootKey c'.t = some g.1 := by
  obtain ⟨t, o, t', h1, h2, h3, h4, h5⟩ := C90_full_array_partial ht os os' ins ops' hne hd m hm hc' hne' hall
  refine ⟨onC t, onC o, onC t', cSplayHistory_run ht os _ (copesSplay_inserts ht os ins hd) h1, cSplayHistory_run ht os' _ hc' h2, ?_, h4.c, h5⟩
  obtain ⟨n1, h1⟩ := h1
  obtain ⟨n3, h3⟩ := h3
  refine ⟨n3, fun n hn => le_splayJoin lt n t o ?_ _ (h3 n hn)⟩
  exact tight_splayRun lt n1 ins _ _ (Tight.empty os) (h1 n1 (Nat.le_refl _))

/-- If one of the trees is empty, the comparator is given `None` (with the default comparator this raises; the result is then not checked). -/
theorem C118_empty (os os' : Bool) : EndsWith (fun n => (do
    let c ← ctNew (κ := Nat) (δ := Unit) os none none
    let o ← cSplayHistory (ofLt fun a b : Nat => decide (a < b)) n os' [.insert 1 none]
    cSplayJoin (ofLt fun a b : Nat => decide (a < b)) n c o.1)) (.error .undefined) := by
  refine ⟨20, fun n hn => ?_⟩
  obtain ⟨m, rfl⟩ : ∃ m, n = m + 20 := ⟨n - 20, by omega⟩
  rfl

/-- Build two trees, join them, and search for a key. -/
def cJoinedSearch (cmp : κ → κ → Int) (fuel : Nat) (ins ins' : List (κ × Option δ)) (k : κ) : PyM (Option Nat) := do
  let r ← cSplayHistory cmp fuel false (insertsOf ins)
  let q ← cSplayHistory cmp fuel false (insertsOf ins')
  let c ← cSplayJoin cmp fuel r.1 q.1
  cSearch cmp fuel c.t k

/-- Two keys joined with one: the copies are linked by the capacity of the array, 3, but appended after its last element, at position 2; the search reads behind the array. -/
theorem C118_gap : EndsWith (fun n => cJoinedSearch (ofLt fun a b : Nat => decide (a < b)) n [(1, none), (2, none)] [(5, (none : Option Unit))] 5) (.error .undefined) := by
  refine ⟨20, fun n hn => ?_⟩
  obtain ⟨m, rfl⟩ : ∃ m, n = m + 20 := ⟨n - 20, by omega⟩
  rfl

/-- Build two trees, join them, and insert a key. -/
def cJoinedInsert (cmp : κ → κ → Int) (fuel : Nat) (ins ins' : List (κ × Option δ)) (k : κ) : PyM (CTree κ δ) := do
  let r ← cSplayHistory cmp fuel false (insertsOf ins)
  let q ← cSplayHistory cmp fuel false (insertsOf ins')
  let c ← cSplayJoin cmp fuel r.1 q.1
  cSplayInsert cmp fuel c k none

theorem cLoopTree_search : ∀ fuel, whileLoop fuel bstSearchCond (cSearchBody (ofLt fun a b : Nat => decide (a < b)) loopTree 4) ⟨some 3, some 3, false⟩ = .error .outOfFuel := by
  intro fuel
  induction fuel with
  | zero => rfl
  | succ n ih => exact (while_step n (by rfl) (by rfl)).trans ih

/-- Three keys joined with one: `size` still counts three, and inserting a key between them never ends. -/
theorem C118_insert_after : EndsWith (fun n => cJoinedInsert (ofLt fun a b : Nat => decide (a < b)) n [(1, none), (2, none), (3, none)] [(12, (none : Option Unit))] 4) (.error .outOfFuel) := by
  refine ⟨20, fun n hn => ?_⟩
  obtain ⟨m, rfl⟩ : ∃ m, n = m + 20 := ⟨n - 20, by omega⟩
  have h1 : cJoinedInsert (ofLt fun a b : Nat => decide (a < b)) (m + 20) [(1, none), (2, none), (3, none)] [(12, (none : Option Unit))] 4 =
      (do let (e, p) ← cSearchPair (ofLt fun a b : Nat => decide (a < b)) (m + 20) loopTree 4
          let t ← cMod loopTree (loopTree.size - 1) (fun n => { n with parent := p })
          let e ← cIdx e
          let t ← cSplay (m + 20) t e p
          .ok { t := t, oda := 7 }) := rfl
  have h2 : whileLoop (m + 20) bstSearchCond (cSearchBody (ofLt fun a b : Nat => decide (a < b)) loopTree 4) ⟨some 2, none, false⟩ = .error .outOfFuel :=
    (while_step (m + 19) (by rfl) (by rfl)).trans ((while_step (m + 18) (by rfl) (by rfl)).trans (cLoopTree_search (m + 18)))
  have h3 : cSearchPair (ofLt fun a b : Nat => decide (a < b)) (m + 20) loopTree 4 = .error .outOfFuel := by
    have h4 : cNode loopTree loopTree.rootIdx = .ok { key := some 3, data := none, left := some 1, right := some 3 } := rfl
    have h5 : loopTree.rootIdx = 2 := rfl
    simp only [cSearchPair, cSearchP, h4, ok_bind, reduceCtorEq, if_false, h5, h2]
    rfl
  show cJoinedInsert _ _ _ _ _ = _
  rw [h1, h3]
  rfl

theorem C118_full_false : ¬ C118_full (fun a b : Nat => decide (a < b)) Unit := by
  intro h
  obtain ⟨t, o, ⟨n1, h1⟩, ⟨n2, h2⟩, h3, _⟩ := h false false [(1, none), (2, none)] [(5, none)] (by simp) (by simp) (by decide) (by decide)
  obtain ⟨t', ⟨n3, h4⟩, h5, _⟩ := h3 (by unfold AllLess; decide)
  obtain ⟨r, ⟨n4, h6⟩, _⟩ := h5 5
  obtain ⟨n5, h7⟩ := C118_gap
  have e1 := h1 (n1 + n2 + n3 + n4 + n5) (by omega)
  have e2 := h2 (n1 + n2 + n3 + n4 + n5) (by omega)
  have e3 := h4 (n1 + n2 + n3 + n4 + n5) (by omega)
  have e4 := h6 (n1 + n2 + n3 + n4 + n5) (by omega)
  have e5 := h7 (n1 + n2 + n3 + n4 + n5) (by omega)
  dsimp only at e1 e2 e3 e4 e5
  simp only [cJoinedSearch, e1, e2, e3, e4, ok_bind] at e5
  cases e5

/-- Seven keys joined with four; the hypotheses are shown in C90. -/
example : ((cSplayHistory (ofLt fun a b : Nat => decide (a < b)) 60 true (insertsOf [(1, none), (2, some 7), (3, none), (4, none), (6, none), (7, none), (5, none)])).bind fun r => do
      let q ← cSplayHistory (ofLt fun a b : Nat => decide (a < b)) 60 true (insertsOf [(12, none), (10, some 4), (15, none), (11, none)])
      let c ← cSplayJoin (ofLt fun a b : Nat => decide (a < b)) 60 r.1 q.1
      let l ← ctDfs 60 c.t .ino none
      .ok (l.map (fun n => (n.key, n.data)))) =
    .ok [(some 1, none), (some 2, some 7), (some 3, none), (some 4, none), (some 5, none), (some 6, none), (some 7, none), (some 10, some 4), (some 11, none), (some 12, none),
      (some 15, none)] := by decide +kernel

example : ([(1, none), (2, some 7), (3, none), (4, none), (6, none), (7, none), (5, none)] : List (Nat × Option Nat)).length + 1 = 2 ^ 3 ∧
    AllLess (fun a b : Nat => decide (a < b)) ([(1, none), (2, some 7), (3, none), (4, none), (6, none), (7, none), (5, none)] : List (Nat × Option Nat))
      (bstContents [] (insertsOf [(12, none), (10, some 4), (15, none), (11, none)])) := by unfold AllLess; decide

end Props
