import Verif.Props.CppAvl

/-!
# C111: a C++ AVL tree that is out of balance

The tree first grows to a full tree of eight levels, level by level, without any rotation. The run is evaluated in pieces, from one level-by-level tree to the next.
-/
namespace Props
open Py Model Model.Cpp Spec

/-- The keys of the level `d` of a full search tree of eight levels. -/
def fullLevel (d : Nat) : List Nat := (List.range (2 ^ d)).map fun j => (2 * j + 1) * 2 ^ (8 - d)

/-- The keys of the full tree, level by level. -/
def fullKeys : List Nat := (List.range 8).flatMap fullLevel

/-- The history that loses the balance: 259 keys. -/
def longRun : List (Nat × Option Char) := (fullKeys ++ [505, 1, 511, 512]).map fun k => (k, none)

/-- The height of the position `i` in a tree of `n` nodes filled level by level. -/
def heapHeight (n : Nat) : Nat → Nat → Int
  | 0, _ => 0
  | f + 1, i => if 2 * i + 1 < n then heapHeight n f (2 * i + 1) + 1 else 0

/-- The node at the position `i`. -/
def heapNode (n i k : Nat) : BNode Nat Char where
  key := some k
  data := none
  left := if 2 * i + 1 < n then some (2 * i + 1) else none
  right := if 2 * i + 2 < n then some (2 * i + 2) else none
  parent := if i = 0 then none else some ((i - 1) / 2)
  height := heapHeight n 8 i
  isRoot := decide (i = 0)

/-- The tree after the first `n` keys. -/
def heapTree (n : Nat) : CTree Nat Char :=
  onC ⟨(fullKeys.take n).mapIdx (fun i k => some (heapNode n i k)) ++ List.replicate (2 ^ (n.log2 + 1) - 1 - n) none, n, n, 0, n, false⟩

/-- Insertions, with fuel for 400 steps each. -/
def insKeys (c : CTree Nat Char) (ks : List Nat) : PyM (CTree Nat Char) :=
  ks.foldlM (fun c k => cAvlInsert (ofLt fun a b : Nat => decide (a < b)) 400 c k none) c

theorem longRun_1 : insKeys (onC (btEmpty false)) (fullKeys.take 127) = .ok (heapTree 127) := by decide +kernel
theorem longRun_2 : insKeys (heapTree 127) ((fullKeys.take 175).drop 127) = .ok (heapTree 175) := by decide +kernel
theorem longRun_3 : insKeys (heapTree 175) ((fullKeys.take 215).drop 175) = .ok (heapTree 215) := by decide +kernel
theorem longRun_4 : insKeys (heapTree 215) (fullKeys.drop 215) = .ok (heapTree 255) := by decide +kernel
theorem longRun_5 : (insKeys (heapTree 255) [505, 1, 511, 512]).bind
    (fun c => .ok (c.t.arr.length, balancedB (shapeAt 511 c.t (some c.t.rootIdx)))) = .ok (511, false) := by decide +kernel

theorem insKeys_append {c c' : CTree Nat Char} {a b : List Nat} (h : insKeys c a = .ok c') : insKeys c (a ++ b) = insKeys c' b := by
  simp only [insKeys, List.foldlM_append] at h ⊢
  rw [h]
  rfl

/-- After it the tree is not balanced. -/
theorem C111_long_run : ∃ c, cAvlBuild (ofLt fun a b : Nat => decide (a < b)) 400 false longRun = .ok c ∧ c.t.arr.length = 511 ∧
    balancedB (shapeAt 511 c.t (some c.t.rootIdx)) = false := by
  obtain ⟨c, e, h⟩ := Py.bind_ok longRun_5
  simp only [Except.ok.injEq, Prod.mk.injEq] at h
  refine ⟨c, ?_, h⟩
  have hk : ∀ (ks : List Nat) (c : CTree Nat Char), insKeys c ks = (ks.map fun k => (k, none)).foldlM
      (fun c op => cAvlInsert (ofLt fun a b : Nat => decide (a < b)) 400 c op.1 op.2) c := by
    intro ks c
    rw [List.foldlM_map]
    rfl
  unfold cAvlBuild
  rw [ctNew_empty, ok_bind]
  unfold longRun
  rw [← hk]
  have e1 : fullKeys = fullKeys.take 127 ++ ((fullKeys.take 175).drop 127 ++ ((fullKeys.take 215).drop 175 ++ fullKeys.drop 215)) := by decide +kernel
  rw [e1]
  simp only [List.append_assoc]
  rw [insKeys_append longRun_1, insKeys_append longRun_2, insKeys_append longRun_3, insKeys_append longRun_4]
  exact e

theorem C111_full_false : ¬ C111_full (fun a b : Nat => decide (a < b)) Char := by
  intro h
  obtain ⟨c, T, ⟨n0, hc⟩, hT, hb⟩ := h longRun (by decide +kernel)
  obtain ⟨c', e, hlen, hbal⟩ := C111_long_run
  have := cAvlBuild_mono _ _ _ 400 c' e (max n0 400) (by omega)
  have h2 := hc (max n0 400) (by omega)
  dsimp only at this h2
  rw [this] at h2
  cases h2
  have hd : T.depth ≤ 511 := by
    refine Nat.le_trans (Shape.depth_le T) ?_
    have := nodup_length_le (a := T.ids) (b := List.range 511) hT.nodup (by
      intro i hi
      obtain ⟨n, en⟩ := Option.isSome_iff_exists.mp (linked_isSome hT.linked i hi)
      have := at_some.mp en
      have := (List.getElem?_eq_some_iff.mp this).1
      rw [hlen] at this
      simpa using this)
    simpa using this
  have e2 := shapeAt_eq 511 T none hT.linked hd
  rw [hT.root] at e2
  rw [e2] at hbal
  rw [(balancedB_iff T).mpr hb] at hbal
  cases hbal

end Props
