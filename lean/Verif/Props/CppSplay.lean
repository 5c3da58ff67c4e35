import Verif.Lemmas.CppSplay
import Verif.Props.Splay
import Verif.Props.CppBst

/-!
# C115: the C++ splay tree, insertions
-/
namespace Props
open Py Model Model.Cpp Spec
set_option linter.unusedSectionVars false
variable {κ δ : Type} [DecidableEq κ]

/-- A history of `insert(key, data)` calls on a new C++ splay tree. -/
def cSplayBuild (cmp : κ → κ → Int) (fuel : Nat) (os : Bool) (ops : List (κ × Option δ)) : PyM (CTree κ δ) := do
  let c ← ctNew os none none
  ops.foldlM (fun c op => cSplayInsert cmp fuel c op.1 op.2) c

theorem cSplay_inserts (lt : κ → κ → Bool) (fuel : Nat) : ∀ (ops : List (κ × Option δ)) (t r : BTree κ δ), Tight t → splayInserts lt fuel t ops = .ok r →
    ops.foldlM (fun c op => cSplayInsert (ofLt lt) fuel c op.1 op.2) (onC t) = .ok (onC r) ∧ Tight r := by
  intro ops
  induction ops with
  | nil => intro t r h e; cases e; exact ⟨rfl, h⟩
  | cons op ops ih =>
    intro t r h e
    simp only [splayInserts, List.foldlM_cons] at e
    obtain ⟨t1, e1, e⟩ := Py.bind_ok e
    obtain ⟨h1, h2⟩ := le_splayInsert_tight h e1
    rw [List.foldlM_cons, h1, ok_bind]
    exact ih t1 r h2 e

/-- The C++ tree does what the Python tree does whenever the latter does not raise. -/
theorem cSplayBuild_run (lt : κ → κ → Bool) (os : Bool) (ops : List (κ × Option δ)) {t : BTree κ δ}
    (h : EndsWith (fun n => splayInserts lt n (btEmpty os) ops) (.ok t)) : EndsWith (fun n => cSplayBuild (ofLt lt) n os ops) (.ok (onC t)) := by
  obtain ⟨n0, h⟩ := h
  refine ⟨n0, fun n hn => ?_⟩
  simp only [cSplayBuild, ctNew_empty, ok_bind]
  exact (cSplay_inserts lt n ops _ _ (Tight.empty os) (h n hn)).1

/-- What is claimed of a C++ splay tree after the insertions `ops`: it is a binary tree whose root holds the key inserted last, the in-order traversal lists the inserted keys in
increasing order with the data inserted last, and `search` finds exactly those keys. -/
def CSplayTreeOf (lt : κ → κ → Bool) (t : BTree κ δ) (ops : List (κ × Option δ)) : Prop :=
  (∃ T ns n, HoldsTree t t.rootIdx T ∧ EndsWith (fun n => ctDfs n t .ino none) (.ok ns) ∧ NodesAt t T.ids ns ∧ ListsKeys lt (lastData ops) ns ∧
    t.at t.rootIdx = some n ∧ n.key = (ops.map (·.1)).getLast? ∧ n.parent = none) ∧
  ∀ k, ∃ r, EndsWith (fun n => cSearch (ofLt lt) n t k) (.ok r) ∧ Answers t k (lastData ops k) r

theorem SplayTreeOf.c {lt : κ → κ → Bool} {t : BTree κ δ} {ops : List (κ × Option δ)} (h : SplayTreeOf lt t ops) : CSplayTreeOf lt t ops := by
  obtain ⟨⟨T, ns, n, a, b, c⟩, h2⟩ := h
  refine ⟨⟨T, ns, n, a, Le.endsWith (fun n => le_dfs n t .ino none) b, c⟩, fun k => ?_⟩
  obtain ⟨r, h3, h4⟩ := h2 k
  exact ⟨r, Le.endsWith (fun n => le_search lt n t k) h3, h4⟩

/-- **C115**, in full: every history of insertions ends and leaves such a tree. -/
def C115_full : Prop :=
  ∀ ops : List (Nat × Option Char), ops ≠ [] → ∃ c, EndsWith (fun n => cSplayBuild (ofLt fun a b => decide (a < b)) n false ops) (.ok c) ∧
    CSplayTreeOf (fun a b => decide (a < b)) c.t ops

/-- **C115** for the histories that insert a key again only right after inserting it, with key objects no two of which have the same value. Missing: the other histories
(`C115_full_false`) and several objects with one value (`C115_other_object`). -/
theorem C115_tree_partial {lt : κ → κ → Bool} (ht : StrictTotal (ltRel lt)) (os : Bool) (ops : List (κ × Option δ)) (hne : ops ≠ []) (hf : SplayFine [] (ops.map (·.1))) :
    ∃ c, EndsWith (fun n => cSplayBuild (ofLt lt) n os ops) (.ok c) ∧ CSplayTreeOf lt c.t ops := by
  obtain ⟨t, h1, h2⟩ := C79_tree_partial ht os ops hne hf
  exact ⟨onC t, cSplayBuild_run lt os ops h1, h2.c⟩

/-- **C115** for distinct keys. -/
theorem C115_distinct_partial {lt : κ → κ → Bool} (ht : StrictTotal (ltRel lt)) (os : Bool) (ops : List (κ × Option δ)) (hne : ops ≠ []) (hf : (ops.map (·.1)).Nodup) :
    ∃ c, EndsWith (fun n => cSplayBuild (ofLt lt) n os ops) (.ok c) ∧ CSplayTreeOf lt c.t ops :=
  C115_tree_partial ht os ops hne (splayFine_of_nodup _ _ hf (by simp))

/-- **C115**, under the same condition: lower and upper bounds. -/
theorem C115_bounds_partial {lt : κ → κ → Bool} (ht : StrictTotal (ltRel lt)) (os : Bool) (ops : List (κ × Option δ)) (hne : ops ≠ []) (hf : SplayFine [] (ops.map (·.1))) :
    ∃ c, EndsWith (fun n => cSplayBuild (ofLt lt) n os ops) (.ok c) ∧ ∀ k,
      (∃ r, EndsWith (fun n => cLower (ofLt lt) n c.t k) (.ok r) ∧ LeastOf lt (fun a => a ∈ ops.map (·.1) ∧ lt a k = false) r) ∧
      (∃ r, EndsWith (fun n => cUpper (ofLt lt) n c.t k) (.ok r) ∧ LeastOf lt (fun a => a ∈ ops.map (·.1) ∧ lt k a = true) r) := by
  obtain ⟨t, hrun, h⟩ := C79_bounds_partial ht os ops hne hf
  refine ⟨onC t, cSplayBuild_run lt os ops hrun, fun k => ?_⟩
  obtain ⟨⟨r, h1, h2⟩, ⟨r', h3, h4⟩⟩ := h k
  exact ⟨⟨r, Le.endsWith (fun n => le_bound lt t k false n _) h1, h2⟩, ⟨r', Le.endsWith (fun n => le_bound lt t k true n _) h3, h4⟩⟩

/-- `insert(1)`, `insert(2)`, `insert(1)`: a parent that is `None` is taken for a position, which is undefined behaviour. -/
theorem C115_again : EndsWith (fun n => cSplayBuild (κ := Nat) (δ := Char) (ofLt fun a b => decide (a < b)) n false [(1, none), (2, none), (1, none)]) (.error .undefined) :=
  ⟨30, fun n hn => by obtain ⟨m, rfl⟩ : ∃ m, n = m + 30 := ⟨n - 30, by omega⟩; rfl⟩

theorem C115_full_false : ¬ C115_full := by
  intro h
  obtain ⟨c, ⟨n0, h0⟩, _⟩ := h [(1, none), (2, none), (1, none)] nofun
  obtain ⟨n1, h1⟩ := C115_again
  have e0 := h0 (max n0 n1) (by omega)
  have e1 := h1 (max n0 n1) (by omega)
  dsimp only at e0 e1
  rw [e0] at e1
  cases e1

/-- Two key objects with the same value (the second component tells the objects apart): the second becomes a node of its own, and a search with a third object of that value finds
nothing. -/
theorem C115_other_object : EndsWith (fun n => cSplayBuild (δ := String) (ofLt fun a b : Nat × Nat => decide (a.1 < b.1)) n false [((1, 0), some "a"), ((1, 1), some "b")] >>= fun c => do
    let r ← cSearch (ofLt fun a b : Nat × Nat => decide (a.1 < b.1)) n c.t (1, 1)
    let s ← cSearch (ofLt fun a b : Nat × Nat => decide (a.1 < b.1)) n c.t (1, 2)
    .ok (r, s, c.t.num)) (.ok (some 1, none, 2)) := by
  refine ⟨30, fun n hn => ?_⟩
  obtain ⟨m, rfl⟩ : ∃ m, n = m + 30 := ⟨n - 30, by omega⟩
  rfl

/-- A history the theorems speak about: it repeats a key right away. -/
example : SplayFine [] ([(2, some 'a'), (1, none), (1, some 'b'), (3, none)] : List (Nat × Option Char)).unzip.1 := by
  simp [SplayFine]

/-- The tree after it. -/
example : (cSplayBuild (ofLt fun a b : Nat => decide (a < b)) 40 false [(2, some 'a'), (1, none), (1, some 'b'), (3, none), (7, none), (5, none)]).bind (fun c => do
      let l ← ctDfs 40 c.t .pre none
      .ok (c.t.rootIdx, l.map (fun n => (n.key, n.data)))) =
    .ok (4, [(some 5, none), (some 3, none), (some 2, some 'a'), (some 1, some 'b'), (some 7, none)]) := by decide +kernel

end Props
