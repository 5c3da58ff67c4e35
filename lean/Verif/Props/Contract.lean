import Verif.Lemmas.ContractTree
import Verif.Lemmas.CppContract

/-!
# C121: removing a node from the array of a tree
-/
namespace Props
open Py Model Model.Cpp Spec
set_option linter.unusedSectionVars false
variable {κ δ : Type} [DecidableEq κ]

/-! ## Specification -/

/-- The array of a tree of which the node at `i` has been cut off: the nodes are below the end of the array, no two have the same key, no other node is
linked to `i` or to an empty cell, and `_num` counts the nodes. -/
structure CutOff (t : BTree κ δ) (i : Nat) : Prop where
  here : (t.at i).isSome
  below : ∀ j, (t.at j).isSome → j < t.top
  keys : ∀ j j' m n, t.at j = some m → t.at j' = some n → m.key = n.key → j = j'
  links : ∀ j n, j ≠ i → t.at j = some n → ∀ l, n.left = some l ∨ n.right = some l ∨ n.parent = some l → l ≠ i ∧ (t.at l).isSome
  count : t.num = t.arr.countP Option.isSome

/-- Every node but the one at `i` is kept and moved from its position `j` to `pos j`, in the same order; its links lead to the same nodes as before;
nothing else about it changes and there are no other nodes. -/
structure MovedTo (t t' : BTree κ δ) (i : Nat) (pos : Nat → Nat) : Prop where
  node : ∀ j n, j ≠ i → t.at j = some n →
    t'.at (pos j) = some { n with left := n.left.map pos, right := n.right.map pos, parent := n.parent.map pos }
  only : ∀ j', (t'.at j').isSome → ∃ j, j ≠ i ∧ (t.at j).isSome ∧ pos j = j'
  order : ∀ j l, j ≠ i → l ≠ i → (t.at j).isSome → (t.at l).isSome → j < l → pos j < pos l
  num : t'.num + 1 = t.num
  rest : t'.size = t.size ∧ t'.rootIdx = t.rootIdx ∧ t'.orderStat = t.orderStat

/-- What `delete(i)` of the array has to do: if after that less than a quarter of the cells is in use, the nodes are moved to the front of an array of
twice as many cells plus one, and the answer says where each key is now; otherwise no node moves and there is no answer. -/
def Removes (t t' : BTree κ δ) (i : Nat) (answer : Option (List (Option κ × Nat))) : Prop :=
  (4 * t'.num < t.arr.length → ∃ ixs pos, answer = some ixs ∧ MovedTo t t' i pos ∧ t'.arr.length = 2 * t'.num + 1 ∧ t'.top = t'.num ∧
    (∀ j, (t'.at j).isSome ↔ j < t'.num) ∧ ∀ j n, j ≠ i → t.at j = some n → ixs.lookup n.key = some (pos j)) ∧
  (t.arr.length ≤ 4 * t'.num → answer = none ∧ MovedTo t t' i id ∧ t'.arr.length = t.arr.length)

/-! ## Proofs -/

/-- **C121** for the Python array. -/
theorem C121_delete {t : BTree κ δ} {i : Nat} (h : CutOff t i) : ∃ t' answer, atDelete t i = .ok (t', answer) ∧ Removes t t' i answer := by
  have hi : i < t.arr.length := by
    refine Decidable.by_contra fun hi => ?_
    have := h.here
    unfold BTree.at at this
    rw [List.getElem?_eq_none (by omega)] at this
    cases this
  have hcnt : (t.arr.set i none).countP Option.isSome + 1 = t.arr.countP Option.isSome := by
    have : (t.arr[i]).isSome := by
      have := h.here
      unfold BTree.at at this
      rwa [List.getElem?_eq_getElem hi] at this
    rw [List.countP_set hi]
    have : 0 < t.arr.countP Option.isSome := List.countP_pos_iff.mpr ⟨_, List.getElem_mem hi, this⟩
    simp [*]
    omega
  have hnum : 1 ≤ t.num := by rw [h.count]; omega
  obtain ⟨t3, e3, a3, f3, q3, o3⟩ := atDelete_modify h.here (h.below i h.here) hnum
  have hat : ∀ j, j ≠ i → t3.at j = t.at j := fun j hj => by rw [a3]; simp only; rw [if_neg hj]
  have hno : t3.at i = none := by rw [a3]; simp
  have hne : ∀ {j n}, t3.at j = some n → j ≠ i := by rintro j n e rfl; rw [hno] at e; cases e
  have hself : ∀ {pos : Nat → Nat}, (∀ j, pos j = j) → ∀ n : BNode κ δ, { n with left := n.left.map pos, right := n.right.map pos, parent := n.parent.map pos } = n := by
    intro pos hp n
    have : pos = id := funext hp
    subst this
    simp
  by_cases h4 : 4 * t3.num < t3.arr.length
  · have hC : Compactable t3 := by
      refine ⟨fun j n e => ?_, fun j j' m n e e' hk => ?_, fun j n e l hl => ?_, ?_⟩
      · have h1 := hne e
        rw [hat j h1] at e
        have := h.below j (by rw [e]; rfl)
        rw [f3.top]; split <;> omega
      · rw [hat j (hne e)] at e
        rw [hat j' (hne e')] at e'
        exact h.keys j j' m n e e' hk
      · have h1 := hne e
        rw [hat j h1] at e
        obtain ⟨a, b⟩ := h.links j n h1 e l hl
        rw [hat l a]; exact b
      · have h1 : t3.arr.countP Option.isSome + 1 = t.arr.countP Option.isSome := by
          have hn3 := f3.num
          have : t3.arr = t.arr.set i none := by
            refine List.ext_getElem (by rw [f3.len]; simp) fun j h1 h2 => ?_
            have e := congrFun a3 j
            unfold BTree.at at e
            rw [List.getElem?_eq_getElem h1, List.getElem?_eq_getElem (by rw [f3.len] at h1; exact h1)] at e
            rw [List.getElem_set]
            by_cases hj : j = i
            · subst hj; simpa using e
            · rw [if_neg hj] at e; rw [if_neg (fun q => hj q.symm)]; exact e
          rw [this]; exact hcnt
        have := f3.num
        have := h.count
        omega
    obtain ⟨t', ixs, em, K, hix⟩ := modify_contracts hC h4
    have hrest := K.rest
    refine ⟨t', some ixs, by rw [e3, em], fun _ => ⟨ixs, newPos t3, rfl, ⟨?_, ?_, ?_, ?_, ?_⟩, ?_, ?_, ?_, ?_⟩, fun hh => ?_⟩
    · intro j n hj e; exact K.node j n (by rw [hat j hj]; exact e)
    · intro j' hj'
      obtain ⟨n, en⟩ := Option.isSome_iff_exists.mp hj'
      obtain ⟨j, m, em, rfl⟩ := K.front j' (K.only j' n en)
      exact ⟨j, hne em, by rw [← hat j (hne em), em]; rfl, rfl⟩
    · intro j l hj hl hj' _ hlt
      obtain ⟨n, en⟩ := Option.isSome_iff_exists.mp hj'
      exact newPos_lt (by rw [hat j hj]; exact en) hlt
    · rw [hrest.1]; exact f3.num
    · exact ⟨by rw [hrest.2.1, f3.size], by rw [hrest.2.2.1, q3], by rw [hrest.2.2.2, o3]⟩
    · rw [K.len, hrest.1]
    · rw [K.top, hrest.1]
    · intro j
      rw [hrest.1]
      refine ⟨fun hj => ?_, fun hj => ?_⟩
      · obtain ⟨n, en⟩ := Option.isSome_iff_exists.mp hj
        exact K.only j n en
      · obtain ⟨l, m, em, rfl⟩ := K.front j hj
        rw [K.node l m em]; rfl
    · intro j n hj e; exact hix j n (by rw [hat j hj]; exact e)
    · rw [hrest.1, ← f3.len] at hh; omega
  · refine ⟨t3, none, by rw [e3]; unfold atModify; rw [if_neg h4], fun hh => ?_, fun _ => ⟨rfl, ⟨?_, ?_, ?_, f3.num, f3.size, q3, o3⟩, f3.len⟩⟩
    · rw [f3.len] at h4; exact absurd hh h4
    · intro j n hj e
      rw [hself (pos := id) (fun _ => rfl) n]
      show t3.at j = _
      rw [hat j hj, e]
    · intro j hj
      obtain ⟨n, en⟩ := Option.isSome_iff_exists.mp hj
      exact ⟨j, hne en, by rw [← hat j (hne en), en]; rfl, rfl⟩
    · intro j l _ _ _ _ hlt; exact hlt

/-- **C121** for the C++ array; the recorded size `o` of the underlying array is not touched. -/
theorem C121_cpp_delete {t : BTree κ δ} {i : Nat} (h : CutOff t i) (o : Nat) :
    ∃ t' answer, cDelete ⟨t, o⟩ i = .ok (⟨t', o⟩, answer) ∧ Removes t t' i answer := by
  obtain ⟨t', a, e, r⟩ := C121_delete h
  exact ⟨t', a, le_delete_at t o i _ e, r⟩

/-- Deleting an empty cell, or one behind the end, changes nothing. -/
theorem C121_delete_nothing {t : BTree κ δ} {i : Nat} (h : t.top ≤ i ∨ t.at i = none) : atDelete t i = .ok (t, none) ∧ ∀ o, cDelete ⟨t, o⟩ i = .ok (⟨t, o⟩, none) := by
  have hn : ¬ (i < t.top ∧ (t.arr[i]?).join.isSome) := by
    rintro ⟨h1, h2⟩
    rcases h with h | h
    · omega
    · unfold BTree.at at h; rw [h] at h2; cases h2
  refine ⟨?_, fun o => ?_⟩
  · unfold atDelete; rw [if_neg hn]
  · unfold cDelete; exact if_neg hn

/-- Every tree of the binary trees meets the hypotheses when a node has been cut off that no other node is linked to. -/
theorem cutOff_of_stored {t : BTree κ δ} {T : Shape} {E : List (κ × Option δ)} {i : Nat} (h : Stored t T E) (hn : (E.map (·.1)).Nodup) (hi : i ∈ T.ids)
    (hl : ∀ j n, j ≠ i → t.at j = some n → n.left ≠ some i ∧ n.right ≠ some i ∧ n.parent ≠ some i) : CutOff t i := by
  have hC := h.compactable hn
  refine ⟨h.isSome hi, fun j hj => h.low j (h.occ j hj), hC.keys, fun j n hj e l hl' => ⟨?_, hC.links j n e l hl'⟩, hC.num⟩
  obtain ⟨a, b, c⟩ := hl j n hj e
  rintro rfl
  rcases hl' with h | h | h
  · exact a h
  · exact b h
  · exact c h

/-- A concrete array: five keys, three deleted already, in 15 cells; the node at 6, a leaf, has been cut off. -/
def contractExample : BTree Nat String where
  arr := [none, some { key := some 1, data := some "a", left := none, right := some 5, parent := none, isRoot := true }, none, none, none,
    some { key := some 7, data := some "b", left := some 7, right := none, parent := some 1 }, some { key := some 9, data := none, parent := some 5 },
    some { key := some 4, data := some "c", parent := some 5 }] ++ List.replicate 7 none
  num := 4
  top := 8
  rootIdx := 1
  size := 8
  orderStat := false

example : CutOff contractExample 6 := by
  have key : ∀ j n, contractExample.at j = some n → j = 1 ∨ j = 5 ∨ j = 6 ∨ j = 7 := by
    intro j n e
    rcases Nat.lt_or_ge j 15 with hj | hj
    · have : ∀ j < 15, (contractExample.at j).isSome → j = 1 ∨ j = 5 ∨ j = 6 ∨ j = 7 := by decide
      exact this j hj (by rw [e]; rfl)
    · unfold BTree.at at e
      rw [List.getElem?_eq_none (by exact hj)] at e
      cases e
  refine ⟨by decide, fun j hj => ?_, fun j j' m n e e' hk => ?_, fun j n hj e l hl => ?_, by decide⟩
  · obtain ⟨n, en⟩ := Option.isSome_iff_exists.mp hj
    show j < 8
    have := key j n en
    omega
  · rcases key j m e with rfl | rfl | rfl | rfl <;> rcases key j' n e' with rfl | rfl | rfl | rfl <;> first | rfl | (cases e; cases e'; simp at hk)
  · rcases key j n e with rfl | rfl | rfl | rfl <;> cases e <;> simp at hl hj <;> (try rcases hl with hl | hl) <;> subst_vars <;> decide

/-- The other three nodes move to the front of an array of seven cells. -/
example : atDelete contractExample 6 = .ok ({ contractExample with
    arr := [some { key := some 1, data := some "a", left := none, right := some 1, parent := none, isRoot := true },
      some { key := some 7, data := some "b", left := some 2, right := none, parent := some 0 }, some { key := some 4, data := some "c", parent := some 1 }] ++ List.replicate 4 none,
    num := 3, top := 3 }, some [(some 4, 2), (some 7, 1), (some 1, 0)]) := by rfl

end Props
