import Verif.Props.CppSort
import Verif.Props.CppSearch
import Verif.Props.CppDoda
import Verif.Props.CppFenwick
import Verif.Props.CppBst
import Verif.Props.CppAvlDelete
import Verif.Props.CppRbDelete
import Verif.Props.CppSplayDelete
import Verif.Props.CppCartDelete
import Verif.Props.SplaySplit

/-!
# C125: the choice of the back end does not change the answers
-/
namespace Props
open Py Model Model.Cpp Spec
set_option linter.unusedSectionVars false

/-- Both programs end, with the same value and without exception. The argument is the number of steps a loop may take; `EndsWith` says that the value is the same whenever it is large enough. -/
def SameAnswer {α : Type _} (py cpp : Nat → PyM α) : Prop := ∃ r, EndsWith py (.ok r) ∧ EndsWith cpp (.ok r)

theorem SameAnswer.unique {α : Type _} {py cpp : Nat → PyM α} (h : SameAnswer py cpp) {r : α} (hr : EndsWith cpp (.ok r)) : EndsWith py (.ok r) := by
  obtain ⟨r', h1, n2, h2⟩ := h
  obtain ⟨n, h3⟩ := hr
  have e := (h2 (max n2 n) (by omega)).symm.trans (h3 (max n2 n) (by omega))
  cases e
  exact h1

/-! ## Sorting -/
section
variable {α : Type}

/-- `bubble_sort`, any consistent comparator, any range of a non-empty array, with `None` cells. (The Python functions get the end of the range plus one.) Missing: `C125_full_false`. -/
theorem C125_bubble_sort_partial (comp : α → α → Bool) (le : α → α → Prop) (ho : TotalPreorder le) (hc : Compat comp le)
    (a : List (Option α)) (h0 : a ≠ []) (hl : a.length < 2 ^ 63) (start stop : Option Nat) (hs : ∀ s, stop = some s → s < a.length) :
    ∃ b, Model.bubbleSort comp a (start.getD 0) (stop.getD (a.length - 1) + 1) = .ok b ∧ Cpp.bubbleSort comp a start stop = .ok b := by
  obtain ⟨h1, h2⟩ := cppStop h0 hl hs
  obtain ⟨b, e, -⟩ := C01_bubble_sort comp le ho hc a (start.getD 0) (stop.getD (a.length - 1) + 1) h2
  refine ⟨b, e, ?_⟩
  unfold Cpp.bubbleSort
  rw [h1, Cpp.bubble_sim comp a b _ _ h2 (by omega) e]
  rfl

theorem C125_selection_sort_partial (comp : α → α → Bool) (le : α → α → Prop) (ho : TotalPreorder le) (hc : Compat comp le)
    (a : List (Option α)) (h0 : a ≠ []) (hl : a.length < 2 ^ 63) (start stop : Option Nat) (hs : ∀ s, stop = some s → s < a.length) :
    ∃ b, Model.selectionSort comp a (start.getD 0) (stop.getD (a.length - 1) + 1) = .ok b ∧ Cpp.selectionSort comp a start stop = .ok b := by
  obtain ⟨h1, h2⟩ := cppStop h0 hl hs
  obtain ⟨b, e, -⟩ := C02_selection_sort comp le ho hc a (start.getD 0) (stop.getD (a.length - 1) + 1) h2
  refine ⟨b, e, ?_⟩
  unfold Cpp.selectionSort
  rw [h1, Cpp.selection_sim comp a b _ _ h2 (by omega) e]
  rfl

theorem C125_insertion_sort_partial (comp : α → α → Bool) (le : α → α → Prop) (ho : TotalPreorder le) (hc : Compat comp le)
    (a : List (Option α)) (h0 : a ≠ []) (hl : a.length < 2 ^ 63) (start stop : Option Nat) (hs : ∀ s, stop = some s → s < a.length) (hst : start.getD 0 < 2 ^ 63) :
    ∃ b, Model.insertionSort comp a (start.getD 0) (stop.getD (a.length - 1) + 1) = .ok b ∧ Cpp.insertionSort comp a start stop = .ok b := by
  obtain ⟨h1, h2⟩ := cppStop h0 hl hs
  obtain ⟨b, e, -⟩ := C03_insertion_sort comp le ho hc a (start.getD 0) (stop.getD (a.length - 1) + 1) h2
  refine ⟨b, e, ?_⟩
  unfold Cpp.insertionSort
  rw [h1, Cpp.insertion_sim comp a b _ _ h2 (by omega) (by omega) e]
  rfl

/-- `quick_sort` with the default pivot: the C++ function gives the array that the Python function gives, or never ends (when it does not: C97). -/
theorem C125_quick_sort_partial (comp : α → α → Bool) (le : α → α → Prop) (ho : TotalPreorder le) (hc : Compat comp le)
    (a : List (Option α)) (start stop : Nat) (h1 : start ≤ stop) (h2 : stop < a.length) (hl : a.length < 2 ^ 63) :
    ∃ b, EndsWith (fun fuel => Model.quickSort comp fuel a start stop) (.ok b) ∧
      (EndsWith (fun fuel => Cpp.quickSort comp fuel a (some start) (some stop)) (.ok b) ∨
        ∀ fuel, Cpp.quickSort comp fuel a (some start) (some stop) = .error .outOfFuel) := by
  obtain ⟨b, ⟨n, hn⟩, -⟩ := C05_quick_sort comp le ho hc a start stop h1 h2
  refine ⟨b, ⟨n, hn⟩, ?_⟩
  have e := hn n (Nat.le_refl _)
  unfold Model.quickSort quickSortPick quickSortC at e
  obtain ⟨⟨b', st⟩, e, e'⟩ := bind_ok e
  cases e'
  rcases Cpp.quick_same_or_never comp n a b _ st hl e with h | h
  · exact .inl (quickCpp_ends h)
  · exact .inr (quickCpp_never h)

/-! ## Searching -/

theorem C125_linear_search_partial [DecidableEq α] (a : List (Option α)) (value : Option α) (h0 : a ≠ []) (hl : a.length < 2 ^ 63) (start stop : Option Nat)
    (hs : ∀ s, stop = some s → s < a.length) :
    ∃ r, Model.linearSearch a value (start.getD 0) (stop.getD (a.length - 1) + 1) = .ok r ∧ Cpp.linearSearch a value start stop = .ok r := by
  obtain ⟨h1, h2⟩ := cppStop_lt h0 hl hs
  have key : ∀ r, Model.linearSearch a value (start.getD 0) (stop.getD (a.length - 1) + 1) = .ok r → Cpp.linearSearch a value start stop = .ok r := by
    intro r e
    unfold Cpp.linearSearch
    simp only [h1, Cpp.sz_succ (show stop.getD (a.length - 1) + 1 < 2 ^ 64 by omega)]
    rw [Cpp_linear_sim a value _ _ _ e]
    rfl
  rcases C15_linear_search a value (start.getD 0) (stop.getD (a.length - 1) + 1) h2 with ⟨k, e, -⟩ | ⟨e, -⟩
  · exact ⟨_, e, key _ e⟩
  · exact ⟨_, e, key _ e⟩

/-- `binary_search` on any array whose range is sorted (`None` cells last): the same position, also if several cells hold the value. -/
theorem C125_binary_search_partial [DecidableEq α] (comp : α → α → Bool) (le : α → α → Prop)
    (anti : ∀ x y, le x y → le y x → x = y) (hc : Compat comp le) (a : List (Option α)) (value : Option α) (h0 : a ≠ []) (hl : a.length < 2 ^ 31)
    (start stop : Option Nat) (hst : start.getD 0 < 2 ^ 31) (hstop : ∀ s, stop = some s → s < a.length)
    (hs : SortedRange (noneLast le) a (start.getD 0) (stop.getD (a.length - 1) + 1)) :
    SameAnswer (fun fuel => Model.binarySearch (pyComp comp) fuel a value (start.getD 0) (stop.getD (a.length - 1) + 1))
      (fun fuel => Cpp.binarySearch comp fuel a value start stop) := by
  obtain ⟨h1, h2⟩ := cppStop_lt h0 (by omega) hstop
  obtain ⟨r, ⟨n, hn⟩, -⟩ := C16_binary_search (pyComp comp) (noneLast le) (noneLast_anti anti) (pyComp_compat hc) a value
    (start.getD 0) (stop.getD (a.length - 1) + 1) h2 hs
  refine ⟨r, ⟨n, hn⟩, ⟨n, fun m hm => ?_⟩⟩
  have := Cpp_binary_sim comp a value hl m _ _ r h2 (hn m hm)
  dsimp only
  unfold Cpp.binarySearch
  rw [h1, toInt32_nat hst, toInt32_nat (by omega)]
  rw [show (((stop.getD (a.length - 1) + 1 : Nat) : Int) - 1) = ((stop.getD (a.length - 1) : Nat) : Int) by omega] at this
  rw [this]
  rfl

/-- `is_ordered`, any comparator and any non-empty array. -/
theorem C125_is_ordered_partial (comp : α → α → Bool) (a : List (Option α)) (h0 : a ≠ []) (hl : a.length < 2 ^ 63) (start stop : Option Nat)
    (hst : start.getD 0 < 2 ^ 63) (hs : ∀ s, stop = some s → s < a.length) :
    ∃ b, Model.isOrdered comp a (start.getD 0) (stop.getD (a.length - 1) + 1) = .ok b ∧ Cpp.isOrdered comp a start stop = .ok b := by
  obtain ⟨h1, h2⟩ := cppStop_lt h0 hl hs
  obtain ⟨b, e, -⟩ := C20_exact comp a (start.getD 0) (stop.getD (a.length - 1) + 1) h2
  exact ⟨b, e, Cpp_isOrdered_eq comp a h0 hl start stop hst hs b e⟩

/-! ## Stack and binary indexed tree -/

/-- The array stack, in every history of calls that pushes no `None`, for every load factor. -/
theorem C125_stack_partial (low : Nat → Nat → Bool) (items : Option (List α)) (ops : List (StackOp (Option α))) (hops : none ∉ pushed ops) :
    trace arrayStackStep (stackNew (items.map (·.map some))) ops = trace (csStep low) (csNew (items.map (·.map some))) ops := by
  rw [C105_stack_partial low items ops hops, C29_array_stack]
  cases items <;> rfl
end

/-- The binary indexed tree, in every history of updates and sums inside a non-empty array of small numbers. -/
theorem C125_fenwick_partial (a : List Int) (ha : a ≠ []) (hn : a.length < 2 ^ 62) (ops : List BitOp) (hin : ∀ o ∈ ops, o.Inside a.length)
    (hb : SmallSums a ops) : ∃ s s', bitNew a = .ok s ∧ cbNew a = .ok s' ∧ trace bitStep s ops = trace cbStep s' ops := by
  obtain ⟨s, e, hs⟩ := C48_fenwick a ha ops fun o ho => by
    have := hin o ho
    cases o <;> first | exact this | trivial
  obtain ⟨s', e', hs'⟩ := C110_fenwick_partial a ha hn ops hin hb
  exact ⟨s, s', e, e', hs.trans hs'.symm⟩

/-! ## Trees -/
section
variable {κ δ : Type} [DecidableEq κ]

/-- The two trees have the same nodes in the same positions; `search` (the position found), `lower_bound`, `upper_bound` and, on a tree that is not empty, the in-order traversal give the
same; and whatever `rank` and the traversals answer in Python, they answer in C++. -/
def SameTree (lt : κ → κ → Bool) (t : BTree κ δ) (c : CTree κ δ) (D : List (κ × Option δ)) : Prop :=
  c.t = t ∧
  (∀ k, SameAnswer (fun n => bstSearch lt n t k) (fun n => cSearch (ofLt lt) n c.t k) ∧
    SameAnswer (fun n => bstLower lt n t k) (fun n => cLower (ofLt lt) n c.t k) ∧
    SameAnswer (fun n => bstUpper lt n t k) (fun n => cUpper (ofLt lt) n c.t k) ∧
    ∀ r, EndsWith (fun n => bstRank lt n t k) (.ok r) → EndsWith (fun n => cRank (ofLt lt) n c.t k) (.ok r)) ∧
  (D ≠ [] → SameAnswer (fun n => treeDfs n t .ino none) (fun n => ctDfs n c.t .ino none)) ∧
  ∀ (node : Option Nat) (ns : List (BNode κ δ)),
    (∀ order, EndsWith (fun n => treeDfs n t order node) (.ok ns) → EndsWith (fun n => ctDfs n c.t order node) (.ok ns)) ∧
    (EndsWith (fun n => treeBfs n t node) (.ok ns) → EndsWith (fun n => ctBfs n c.t node) (.ok ns))

theorem ServesEntries.same {lt : κ → κ → Bool} {t : BTree κ δ} {D : List (κ × Option δ)} (h : ServesEntries lt t D) (o : Nat) : SameTree lt t ⟨t, o⟩ D := by
  refine ⟨rfl, fun k => ⟨?_, ?_, ?_, ?_⟩, fun hne => ?_, fun node ns => ⟨fun order h1 => ?_, fun h1 => ?_⟩⟩
  · obtain ⟨r, h1, _⟩ := h.1 k
    exact ⟨r, h1, Le.endsWith (fun n => le_search lt n t k) h1⟩
  · obtain ⟨⟨r, h1, _⟩, _⟩ := h.2.2 k
    exact ⟨r, h1, Le.endsWith (fun n => le_bound lt t k false n _) h1⟩
  · obtain ⟨_, r, h1, _⟩ := h.2.2 k
    exact ⟨r, h1, Le.endsWith (fun n => le_bound lt t k true n _) h1⟩
  · exact fun r h1 => Le.endsWith (fun n => le_rank lt n t k) h1
  · obtain ⟨ns, h1, _⟩ := h.2.1 hne
    exact ⟨ns, h1, Le.endsWith (fun n => le_dfs n t .ino none) h1⟩
  · exact Le.endsWith (fun n => le_dfs n t order node) h1
  · exact Le.endsWith (fun n => le_bfs n t node) h1

/-- Both back ends carry out the history, the calls return the same, and the trees they leave behind are the same. -/
def SameRun (lt : κ → κ → Bool) (py : Nat → PyM (BTree κ δ × List Bool)) (cpp : Nat → PyM (CTree κ δ × List Bool)) (D : List (κ × Option δ)) : Prop :=
  ∃ t c rs, EndsWith py (.ok (t, rs)) ∧ EndsWith cpp (.ok (c, rs)) ∧ SameTree lt t c D

/-- The binary search tree, in the histories of `insert` and `delete` that the array copes with (as in C73). -/
theorem C125_bst_partial {lt : κ → κ → Bool} (ht : StrictTotal (ltRel lt)) (ops : List (BstOp κ δ))
    (hc : ∃ n0, ∀ fuel, n0 ≤ fuel → CopesAll lt fuel (btEmpty false) [] ops) :
    SameRun lt (fun n => bstRun lt n (btEmpty false) ops) (fun n => cHistory (ofLt lt) n ops) (bstContents [] ops) := by
  obtain ⟨t, ⟨n1, hr⟩, hs⟩ := C73_copes_partial ht ops hc
  obtain ⟨n2, h2⟩ := le_run ht ops _ [] (BstHas.empty lt) hc
  refine ⟨t, onC t, _, ⟨n1, hr⟩, ⟨max n1 n2, fun n hn => ?_⟩, hs.same _⟩
  simp only [cHistory, ctNew_empty, ok_bind]
  exact h2 n (by omega) _ (hr n (by omega))

/-- The same for insertions only: every history of them. -/
theorem C125_bst_inserts_partial {lt : κ → κ → Bool} (ht : StrictTotal (ltRel lt)) (os : Bool) (ops : List (κ × Option δ)) :
    ∃ t c, EndsWith (fun n => bstInserts lt n (btEmpty os) ops) (.ok t) ∧ EndsWith (fun n => cBuild (ofLt lt) n os ops) (.ok c) ∧ c.t = t ∧
      ∀ k, SameAnswer (fun n => bstSearch lt n t k) (fun n => cSearch (ofLt lt) n c.t k) ∧
        SameAnswer (fun n => bstLower lt n t k) (fun n => cLower (ofLt lt) n c.t k) ∧
        SameAnswer (fun n => bstUpper lt n t k) (fun n => cUpper (ofLt lt) n c.t k) := by
  obtain ⟨t, hrun, h⟩ := C72_search ht os ops
  obtain ⟨t', ⟨n1, h1⟩, hb⟩ := C75_bounds ht os ops
  have e : t = t' := by
    obtain ⟨n2, h2⟩ := hrun
    have e := (h2 (max n1 n2) (by omega)).symm.trans (h1 (max n1 n2) (by omega))
    cases e; rfl
  subst e
  refine ⟨t, onC t, hrun, cBuild_run ht os ops hrun, rfl, fun k => ⟨?_, ?_, ?_⟩⟩
  · obtain ⟨r, h1, _⟩ := h k
    exact ⟨r, h1, Le.endsWith (fun n => le_search lt n t k) h1⟩
  · obtain ⟨⟨r, h1, _⟩, _⟩ := hb k
    exact ⟨r, h1, Le.endsWith (fun n => le_bound lt t k false n _) h1⟩
  · obtain ⟨_, r, h1, _⟩ := hb k
    exact ⟨r, h1, Le.endsWith (fun n => le_bound lt t k true n _) h1⟩

theorem sameAvl_run {lt : κ → κ → Bool} (ht : StrictTotal (ltRel lt)) {os : Bool} : ∀ (ops : List (BstOp κ δ)) (t : BTree κ δ) (D : List (κ × Option δ)),
    AvlHas lt os t D → (∃ n0, ∀ fuel, n0 ≤ fuel → CopesCAvl lt fuel t D ops) →
    ∃ t', AvlHas lt os t' (bstContents D ops) ∧ EndsWith (fun n => avlRun lt n t ops) (.ok (t', ops.map avlReturn)) ∧
      EndsWith (fun n => cAvlRun (ofLt lt) n (onC t) ops) (.ok (onC t', ops.map avlReturn)) := by
  intro ops
  induction ops with
  | nil => intro t D h _; exact ⟨t, h, ⟨0, fun _ _ => rfl⟩, 0, fun _ _ => rfl⟩
  | cons op ops ih =>
    rintro t D h ⟨n0, hc⟩
    have hc0 := (hc n0 (Nat.le_refl _)).1
    obtain ⟨t1, h1, _, n1, r1⟩ := avlHas_step ht h op hc0
    obtain ⟨n3, r3⟩ := le_avlStep ht h op hc0
    obtain ⟨t2, h2, ⟨n4, r4⟩, n2, r2⟩ := ih t1 _ h1 ⟨max n0 n1, fun fuel hf => ((hc fuel (by omega)).2 _ (r1 fuel (by omega))).2⟩
    have hs : SmallAfter t1 op := ((hc (max n0 n1) (by omega)).2 _ (r1 (max n0 n1) (by omega))).1
    refine ⟨t2, h2, ⟨max n1 n4, fun fuel hf => ?_⟩, max n1 (max n2 n3), fun fuel hf => ?_⟩
    · have e1 := r1 fuel (by omega)
      have e2 := r4 fuel (by omega)
      simp only at e2
      simp only [avlRun, e1, e2, ok_bind, List.map_cons]
    · have e1 := r3 fuel (by omega) _ (r1 fuel (by omega)) hs
      have e2 := r2 fuel (by omega)
      simp only at e2
      simp only [cAvlRun, e1, e2, ok_bind, List.map_cons]

/-- The AVL tree, in the histories that the array copes with (as in C85) and in which it never has more than 257 positions. -/
theorem C125_avl_partial {lt : κ → κ → Bool} (ht : StrictTotal (ltRel lt)) (os : Bool) (ops : List (BstOp κ δ))
    (hc : ∃ n0, ∀ fuel, n0 ≤ fuel → CopesCAvl lt fuel (btEmpty os) [] ops) :
    SameRun lt (fun n => avlRun lt n (btEmpty os) ops) (fun n => cAvlHistory (ofLt lt) n os ops) (bstContents [] ops) := by
  obtain ⟨t, h, hp, n0, hr⟩ := sameAvl_run ht ops _ [] (AvlHas.empty lt os) hc
  refine ⟨t, onC t, _, hp, ⟨n0, fun n hn => ?_⟩, (h.serves ht).1.same _⟩
  simp only [cAvlHistory, ctNew_empty, ok_bind]
  exact hr n hn

theorem sameRb_run {lt : κ → κ → Bool} (ht : StrictTotal (ltRel lt)) : ∀ (ops : List (BstOp κ δ)) (t : BTree κ δ) (D : List (κ × Option δ)),
    RbHas lt t D → (∃ n0, ∀ fuel, n0 ≤ fuel → CopesRbAll lt fuel t D ops) →
    ∃ t', RbHas lt t' (bstContents D ops) ∧ EndsWith (fun n => rbRun lt n t ops) (.ok (t', bstReturns D ops)) ∧
      EndsWith (fun n => cRbRun (ofLt lt) n (onC t) ops) (.ok (onC t', bstReturns D ops)) := by
  intro ops
  induction ops with
  | nil => intro t D h _; exact ⟨t, h, ⟨0, fun _ _ => rfl⟩, 0, fun _ _ => rfl⟩
  | cons op ops ih =>
    rintro t D h ⟨n0, hc⟩
    have hc0 := (hc n0 (Nat.le_refl _)).1
    obtain ⟨t1, h1, _, n1, r1⟩ := rbHas_step ht h op hc0
    obtain ⟨n3, r3⟩ := le_rbStep ht h op hc0
    obtain ⟨t2, h2, ⟨n4, r4⟩, n2, r2⟩ := ih t1 _ h1 ⟨max n0 n1, fun fuel hf => (hc fuel (by omega)).2 _ (r1 fuel (by omega))⟩
    refine ⟨t2, h2, ⟨max n1 n4, fun fuel hf => ?_⟩, max n1 (max n2 n3), fun fuel hf => ?_⟩
    · have e1 := r1 fuel (by omega)
      have e2 := r4 fuel (by omega)
      simp only at e2
      simp only [rbRun, e1, e2, ok_bind, bstReturns]
    · have e1 := r3 fuel (by omega) _ (r1 fuel (by omega))
      have e2 := r2 fuel (by omega)
      simp only at e2
      simp only [cRbRun, e1, e2, ok_bind, bstReturns]

/-- The red-black tree, in the histories that the array copes with (as in C84). -/
theorem C125_red_black_partial {lt : κ → κ → Bool} (ht : StrictTotal (ltRel lt)) (ops : List (BstOp κ δ))
    (hc : ∃ n0, ∀ fuel, n0 ≤ fuel → CopesRbAll lt fuel (btEmpty false) [] ops) :
    SameRun lt (fun n => rbRun lt n (btEmpty false) ops) (fun n => cRbHistory (ofLt lt) n ops) (bstContents [] ops) := by
  obtain ⟨t, h, hp, n0, hr⟩ := sameRb_run ht ops _ [] (RbHas.empty lt) hc
  refine ⟨t, onC t, _, hp, ⟨n0, fun n hn => ?_⟩, (h.serves ht).1.same _⟩
  simp only [cRbHistory, ctNew_empty, ok_bind]
  exact hr n hn

/-- The splay tree, in the histories it copes with (as in C88). -/
theorem C125_splay_partial {lt : κ → κ → Bool} (ht : StrictTotal (ltRel lt)) (os : Bool) (ops : List (BstOp κ δ))
    (hc : ∃ n0, ∀ fuel, n0 ≤ fuel → CopesSplayAll lt fuel (btEmpty os) [] ops) :
    SameRun lt (fun n => splayRun lt n (btEmpty os) ops) (fun n => cSplayHistory (ofLt lt) n os ops) (bstContents [] ops) := by
  obtain ⟨t, h1, h2, _⟩ := C88_copes_partial ht os ops hc
  exact ⟨t, onC t, _, h1, cSplayHistory_run ht os ops hc h1, h2.same _⟩

/-- Cartesian trees and treaps, in the histories they cope with (as in C86) and for priorities that are exact in a C++ `double`. -/
theorem C125_cartesian_partial {lt : κ → κ → Bool} (ht : StrictTotal (ltRel lt)) (os : Bool) (ops : List (CartOp κ δ)) (hsm : ∀ op ∈ ops, SmallPrio op)
    (hc : ∃ n0, ∀ fuel, n0 ≤ fuel → CopesCartAll lt fuel (btEmpty os) [] ops) :
    SameRun lt (fun n => cartRun lt n (btEmpty os) ops) (fun n => cCartHistory (ofLt lt) n os ops) (bstContents [] (ops.map CartOp.plain)) := by
  obtain ⟨t, h1, h2, _⟩ := C86_copes_partial ht os ops hc
  obtain ⟨o', n0, hr⟩ := le_cartRun ht ops _ [] _ (CartHas.empty lt os fun _ => none) hsm hc (.inl rfl) h1
  refine ⟨t, ⟨t, o'⟩, _, h1, ⟨n0, fun n hn => ?_⟩, h2.same _⟩
  simp only [cCartHistory, ctNew_empty, ok_bind]
  exact hr n hn

/-! ### Histories that are easy to recognise: the keys are first all inserted, then some are deleted -/

theorem C125_bst_fill_and_thin_partial {lt : κ → κ → Bool} (ht : StrictTotal (ltRel lt)) (ins : List (κ × Option δ)) (ops : List (BstOp κ δ))
    (hg : Gentle (bstContents [] (insertsOf ins)).length (bstContents [] (insertsOf ins)) ops) :
    SameRun lt (fun n => bstRun lt n (btEmpty false) (insertsOf ins ++ ops)) (fun n => cHistory (ofLt lt) n (insertsOf ins ++ ops)) (bstContents [] (insertsOf ins ++ ops)) := by
  refine C125_bst_partial ht _ (copes_fill ht ops ins (btEmpty false) [] (BstHas.empty lt) fullOf_empty ?_)
  rintro t' h ⟨g1, g2, g3, g4, g5⟩
  exact copes_thin ht (n := (bstContents [] (insertsOf ins)).length) ops t' _ h (by omega) hg

theorem C125_avl_fill_and_thin_partial {lt : κ → κ → Bool} (ht : StrictTotal (ltRel lt)) (os : Bool) (ins : List (κ × Option δ)) (hne : ins ≠ []) (ks : List κ)
    (hsmall : (bstContents [] (insertsOf ins)).length ≤ 257) (hg : KeepsHalf (bstContents [] (insertsOf ins)).length (bstContents [] (insertsOf ins)) ks) :
    SameRun lt (fun n => avlRun lt n (btEmpty os) (insertsOf ins ++ ks.map .delete)) (fun n => cAvlHistory (ofLt lt) n os (insertsOf ins ++ ks.map .delete))
      (bstContents [] (insertsOf ins ++ ks.map .delete)) := by
  have hfe : FullOf (btEmpty os : BTree κ δ) 0 := by refine ⟨rfl, rfl, rfl, ?_, ?_⟩ <;> simp [btEmpty]
  have hpos := contents_pos ins hne
  exact C125_avl_partial ht os _ (cavl_fill ht (ks.map .delete) ins (btEmpty os) [] (AvlHas.empty lt os) hfe hsmall (fun t' ht' hf' => by
      obtain ⟨g1, g2, g3, g4, g5⟩ := hf'
      exact cavl_thin ht hpos ks t' _ ht' (by omega) hg))

theorem C125_red_black_fill_and_thin_partial {lt : κ → κ → Bool} (ht : StrictTotal (ltRel lt)) (ins : List (κ × Option δ)) (hd : (ins.map (·.1)).Nodup) (ks : List κ)
    (hg : KeepsHalf (bstContents [] (insertsOf ins)).length (bstContents [] (insertsOf ins)) ks) :
    SameRun lt (fun n => rbRun lt n (btEmpty false) (insertsOf ins ++ ks.map .delete)) (fun n => cRbHistory (ofLt lt) n (insertsOf ins ++ ks.map .delete))
      (bstContents [] (insertsOf ins ++ ks.map .delete)) := by
  refine C125_red_black_partial ht _ (copesRb_fill ht (ks.map .delete) ins (btEmpty false) [] (RbHas.empty lt) fullOf_empty hd (by rintro e _ ⟨_, h⟩; cases h) ?_)
  rintro t' h ⟨g1, g2, g3, g4, g5⟩
  exact copesRb_thin ht (n := (bstContents [] (insertsOf ins)).length) ks t' _ h (by omega) hg

theorem C125_splay_inserts_partial {lt : κ → κ → Bool} (ht : StrictTotal (ltRel lt)) (os : Bool) (ins : List (κ × Option δ)) (hd : (ins.map (·.1)).Nodup) :
    SameRun lt (fun n => splayRun lt n (btEmpty os) (insertsOf ins)) (fun n => cSplayHistory (ofLt lt) n os (insertsOf ins)) (bstContents [] (insertsOf ins)) :=
  C125_splay_partial ht os _ (copesSplay_inserts ht os ins hd)

theorem C125_cartesian_fill_and_delete_partial {lt : κ → κ → Bool} (ht : StrictTotal (ltRel lt)) (os : Bool) (ins : List (κ × Int × Option δ)) (hd : (ins.map (·.1)).Nodup)
    (hsm : ∀ e ∈ ins, e.2.1.natAbs ≤ 2 ^ 53) (ks : List κ) :
    SameRun lt (fun n => cartRun lt n (btEmpty os) (cartInsertsOf ins ++ cartDeletesOf ks)) (fun n => cCartHistory (ofLt lt) n os (cartInsertsOf ins ++ cartDeletesOf ks))
      (bstContents [] ((cartInsertsOf ins ++ cartDeletesOf ks).map CartOp.plain)) := by
  have hfe : FullOf (btEmpty os : BTree κ δ) 0 := by refine ⟨rfl, rfl, rfl, ?_, ?_⟩ <;> simp [btEmpty]
  obtain ⟨n1, h1⟩ := cart_fill ht ins (btEmpty os) [] (fun _ => none) (CartHas.empty lt os _) hfe (fun _ => ⟨_, rfl, rfl⟩) hd (by rintro e _ ⟨_, h⟩; cases h)
  exact C125_cartesian_partial ht os (cartInsertsOf ins ++ cartDeletesOf ks : List (CartOp κ δ)) (by
    intro op ho
    simp only [cartInsertsOf, cartDeletesOf, List.mem_append, List.mem_map] at ho
    rcases ho with ⟨e, he, rfl⟩ | ⟨k, _, rfl⟩
    · exact hsm e he
    · trivial) ⟨n1, fun fuel hf => copesCart_append _ _ _ _ (h1 fuel hf).1 fun r _ => cart_deletes _ _ _⟩

end

/-! ## What does not hold -/

/-- C125, as one would state it, for one function: on every array `bubble_sort` gives the same with both back ends. -/
def C125_full : Prop := ∀ a : List (Option Int), a.length < 2 ^ 63 →
  ∃ b, Model.bubbleSort (fun u v => decide (u ≤ v)) a 0 a.length = .ok b ∧ Cpp.bubbleSort (fun u v => decide (u ≤ v)) a none none = .ok b

theorem C125_full_false : ¬ C125_full := by
  intro h
  obtain ⟨b, _, e⟩ := h [] (by decide)
  rw [C96_bubble_empty] at e
  cases e

/-- On a tree that is empty, `delete` raises `TypeError` in Python and is undefined behaviour in C++. -/
theorem C125_empty_delete : bstRun (fun a b : Nat => decide (a < b)) 9 (btEmpty false) ([.delete 1] : List (BstOp Nat String)) = .error .typeError ∧
    cHistory (ofLt fun a b : Nat => decide (a < b)) 9 ([.delete 1] : List (BstOp Nat String)) = .error .undefined := ⟨rfl, rfl⟩

/-! Cases -/

example : ∃ b, Model.bubbleSort (fun u v : Int => decide (u ≤ v)) [some 3, none, some 1, some 2] 0 4 = .ok b ∧
    Cpp.bubbleSort (fun u v : Int => decide (u ≤ v)) [some 3, none, some 1, some 2] none none = .ok b :=
  C125_bubble_sort_partial _ _ intLe_total intLe_compat [some 3, none, some 1, some 2] (by decide) (by decide) none none (by intro s h; cases h)

/-- Seven keys, three of them deleted, one key replaced. -/
example := C125_bst_fill_and_thin_partial nat_strict [(50, some "a"), (30, none), (70, some "b"), (60, none), (20, some "c"), (80, none), (30, some "d")]
  [.delete 50, .delete 99, .delete 30, .insert 70 none, .delete 80]
  ⟨by decide, by decide, ⟨by decide, by decide, ⟨by decide, by decide, ⟨⟨some "b", by decide⟩, ⟨by decide, by decide, trivial⟩⟩⟩⟩⟩

example := C125_avl_fill_and_thin_partial nat_strict true ((List.range 12).map fun i => (7 * i % 12, some i)) (by decide) [3, 99, 7, 0, 5, 11, 2] (by decide +kernel)
  (by unfold KeepsHalf; decide)

example := C125_red_black_fill_and_thin_partial nat_strict ((List.range 12).map fun i => (7 * i % 12, some i)) (by decide) [3, 99, 7, 0, 5, 11, 2] (by unfold KeepsHalf; decide)

example := C125_splay_inserts_partial nat_strict true [(3, some 'x'), (1, none), (2, none), (9, none)] (by decide)

example := C125_cartesian_fill_and_delete_partial nat_strict true ((List.range 10).map fun i => (7 * i % 10, ((3 * i % 11 : Nat) : Int), some i)) (by decide) (by decide) [0, 99, 7, 3]

example := C125_stack_partial (fun a b => decide (2 * a < b)) (some [1, 2]) [.push (some 3), .pop, .pop, .push (some 4), .pop, .pop, .pop] (by decide)

example := C125_fenwick_partial [5, -3, 7] (by decide) (by decide) [.update 1 10, .sum 0 2] (by simp [BitOp.Inside]) (by
  intro k
  rcases k with _ | _ | k <;> simp <;> decide)

end Props
