import Verif.Model.TreeNew
import Verif.Props.CppBst
import Verif.Props.Bst
import Verif.Model.Avl
import Verif.Model.Splay
import Verif.Model.Cartesian
import Verif.Model.RedBlack
import Verif.Model.CppAvl
import Verif.Model.CppSplay

/-!
# C155: a search tree constructed with a key is the tree into which it was inserted
-/
namespace Props
open Py Model Model.Cpp Spec
variable {κ δ : Type} [DecidableEq κ]

/-- The insertions of the three classes whose nodes are plain. -/
def plainInserts (lt : κ → κ → Bool) : List (Nat → BTree κ δ → κ → Option δ → PyM (BTree κ δ)) :=
  [bstInsert lt, avlInsert lt, splayInsert lt]

/-- The same in C++; `cmp` is the comparator. -/
def cppPlainInserts (cmp : κ → κ → Int) : List (Nat → CTree κ δ → κ → Option δ → PyM (CTree κ δ)) :=
  [cInsert cmp, cAvlInsert cmp, cSplayInsert cmp]

/-- The property for Python: the tree constructed with a key, and data or not, is the one that the insertion into a new tree gives, so
that everything done afterwards goes the same way. -/
def C155_full : Prop := ∀ (lt : Nat → Nat → Bool) (os : Bool) (k : Nat) (d : Option Nat), ∀ ins ∈ plainInserts lt,
  EndsWith (fun n => treeNew os none none >>= fun t => ins n t k d) (treeNew os (some k) d)

theorem treeNew_none (os : Bool) : (treeNew os none none : PyM (BTree κ δ)) = .ok (btEmpty os) := rfl

theorem treeNew_some (os : Bool) (k : κ) (d : δ) : treeNew os (some k) (some d) = .ok (btFirst os k (some d)) := rfl

theorem avlInsert_first {lt : κ → κ → Bool} (os : Bool) (k : κ) (d : Option δ) :
    EndsWith (fun n => avlInsert lt n (btEmpty os) k d) (.ok (btFirst os k d)) := by
  refine ⟨3, fun n hn => ?_⟩
  obtain ⟨m, rfl⟩ : ∃ m, n = m + 3 := ⟨n - 3, by omega⟩
  rfl

theorem bstSearchP_first (lt : κ → κ → Bool) (os : Bool) (k : κ) (d : Option δ) (m : Nat) :
    bstSearchP lt (m + 2) (btFirst os k d) k = .ok (some (some 0, none)) := by
  have hb : bstSearchBody lt (btFirst os k d) k ⟨some 0, none, false⟩ = .ok ⟨some 0, none, true⟩ := by
    show (if (some k = some k) then _ else _) = _
    rw [if_pos rfl]
  show (whileLoop (m + 2) bstSearchCond (bstSearchBody lt (btFirst os k d) k) ⟨some 0, none, false⟩ >>= fun s => .ok (some (s.walk, s.parent))) = _
  have : whileLoop (m + 2) bstSearchCond (bstSearchBody lt (btFirst os k d) k) ⟨some 0, none, false⟩ = .ok ⟨some 0, none, true⟩ := by
    show (bstSearchBody lt (btFirst os k d) k ⟨some 0, none, false⟩ >>= fun s => whileLoop (m + 1) bstSearchCond _ s) = _
    rw [hb]
    rfl
  rw [this]
  rfl

theorem splayInsert_first {lt : κ → κ → Bool} (os : Bool) (k : κ) (d : Option δ) :
    EndsWith (fun n => splayInsert lt n (btEmpty os) k d) (.ok (btFirst os k d)) := by
  refine ⟨3, fun n hn => ?_⟩
  obtain ⟨m, rfl⟩ : ∃ m, n = m + 3 := ⟨n - 3, by omega⟩
  simp only [splayInsert, bstInsert_first, ok_bind, searchPair, bstSearchP_first lt os k d (m + 1)]
  rfl

theorem cSearchP_first (cmp : κ → κ → Int) (os : Bool) (k : κ) (d : Option δ) (m : Nat) :
    cSearchP cmp (m + 2) (btFirst os k d) k = .ok (some (some 0, none)) := by
  have hb : cSearchBody cmp (btFirst os k d) k ⟨some 0, none, false⟩ = .ok ⟨some 0, none, true⟩ := by
    show (if (some k = some k) then _ else _) = _
    rw [if_pos rfl]
  show (whileLoop (m + 2) bstSearchCond (cSearchBody cmp (btFirst os k d) k) ⟨some 0, none, false⟩ >>= fun s => .ok (some (s.walk, s.parent))) = _
  have : whileLoop (m + 2) bstSearchCond (cSearchBody cmp (btFirst os k d) k) ⟨some 0, none, false⟩ = .ok ⟨some 0, none, true⟩ := by
    show (cSearchBody cmp (btFirst os k d) k ⟨some 0, none, false⟩ >>= fun s => whileLoop (m + 1) bstSearchCond _ s) = _
    rw [hb]
    rfl
  rw [this]
  rfl

/-- **C155** (partial). Constructed with a key and data, a binary search tree, an AVL tree and a splay tree of the Python back end are exactly what the insertion
into a new tree gives. Missing: a key without data, and the trees whose nodes are not plain. -/
theorem C155_rooted_partial (lt : κ → κ → Bool) (os : Bool) (k : κ) (d : δ) : ∀ ins ∈ plainInserts (κ := κ) (δ := δ) lt,
    EndsWith (fun n => treeNew os none none >>= fun t => ins n t k (some d)) (treeNew os (some k) (some d)) := by
  intro ins hi
  simp only [plainInserts, List.mem_cons, List.not_mem_nil, or_false] at hi
  rcases hi with rfl | rfl | rfl
  · exact ⟨0, fun n _ => rfl⟩
  · exact avlInsert_first (lt := lt) os k (some d)
  · exact splayInsert_first (lt := lt) os k (some d)

/-- **C155**, exactly: a key is dropped when no data comes with it, and then the tree is empty. -/
theorem C155_rooted_exact (lt : κ → κ → Bool) (os : Bool) (k : κ) (d : Option δ) : (∀ ins ∈ plainInserts (κ := κ) (δ := δ) lt,
    EndsWith (fun n => treeNew os none none >>= fun t => ins n t k d) (treeNew os (some k) d)) ↔ d.isSome := by
  constructor
  · intro h
    cases d with
    | some d => rfl
    | none =>
      obtain ⟨n0, hn⟩ := h (bstInsert lt) (List.mem_cons_self ..)
      have hn := hn n0 (Nat.le_refl _)
      have e : (treeNew os none none >>= fun t => bstInsert lt n0 t k (none : Option δ)) = .ok (btFirst os k none) := rfl
      dsimp only at hn
      rw [e] at hn
      have hk := congrArg (fun r : PyM (BTree κ δ) => r.toOption.bind fun t => (t.at 0).bind fun n => n.key) hn
      cases hk
  · intro h
    cases d with
    | none => cases h
    | some d => exact C155_rooted_partial lt os k d

theorem C155_key_dropped (lt : κ → κ → Bool) (os : Bool) (k : κ) (n : Nat) :
    (treeNew os (some k) (none : Option δ) >>= fun t => bstSearch lt n t k) = .ok none := rfl

theorem C155_full_false : ¬ C155_full := by
  intro h
  have := (C155_rooted_exact (δ := Nat) (fun a b => decide (a < b)) false (0 : Nat) none).1 (h _ false 0 none)
  cases this

/-- **C155**: data without a key is refused by both back ends. -/
theorem C155_key_required (os : Bool) (d : δ) :
    treeNew os (none : Option κ) (some d) = .error .valueError ∧ ctNew os (none : Option κ) (some d) = .error .valueError := ⟨rfl, rfl⟩

/-- **C155** for C++, with data or without. -/
theorem C155_cpp_rooted (cmp : κ → κ → Int) (os : Bool) (k : κ) (d : Option δ) : ∀ ins ∈ cppPlainInserts (κ := κ) (δ := δ) cmp,
    EndsWith (fun n => ctNew os none none >>= fun c => ins n c k d) (ctNew os (some k) d) := by
  have h0 : (ctNew os (none : Option κ) (none : Option δ)) = .ok ⟨btEmpty os, 1⟩ := by simp [ctNew, btEmpty]
  have h1 : ctNew os (some k) d = .ok ⟨btFirst os k d, 1⟩ := by simp [ctNew, btFirst]
  have hi : ∀ n, cInsert cmp n ⟨btEmpty os, 1⟩ k d = .ok ⟨btFirst os k d, 1⟩ := fun _ => rfl
  intro ins hm
  rw [h1]
  simp only [h0, ok_bind]
  simp only [cppPlainInserts, List.mem_cons, List.not_mem_nil, or_false] at hm
  rcases hm with rfl | rfl | rfl
  · exact ⟨0, fun n _ => hi n⟩
  · refine ⟨3, fun n hn => ?_⟩
    obtain ⟨m, rfl⟩ : ∃ m, n = m + 3 := ⟨n - 3, by omega⟩
    rfl
  · refine ⟨3, fun n hn => ?_⟩
    obtain ⟨m, rfl⟩ : ∃ m, n = m + 3 := ⟨n - 3, by omega⟩
    dsimp only
    simp only [cSplayInsert, hi, ok_bind, cSearchPair, cSearchP_first cmp os k d (m + 1)]
    rfl

/-- **C155**: the back ends differ when no data comes with the key. -/
theorem C155_backends_differ (cmp : κ → κ → Int) (lt : κ → κ → Bool) (os : Bool) (k : κ) :
    EndsWith (fun n => ctNew os (some k) (none : Option δ) >>= fun c => cSearch cmp n c.t k) (.ok (some 0)) ∧
    EndsWith (fun n => treeNew os (some k) (none : Option δ) >>= fun t => bstSearch lt n t k) (.ok none) := by
  refine ⟨⟨2, fun n hn => ?_⟩, 0, fun n _ => rfl⟩
  obtain ⟨m, rfl⟩ : ∃ m, n = m + 2 := ⟨n - 2, by omega⟩
  have h1 : ctNew os (some k) (none : Option δ) = .ok ⟨btFirst os k none, 1⟩ := by simp [ctNew, btFirst]
  simp only [h1, ok_bind, cSearch, cSearchP_first]
  rfl

/-- **C155** fails for red-black trees: the root has no colour, and the first insertion of another key raises; it does not when the root was
inserted. -/
theorem C155_red_black :
    EndsWith (fun n => treeNew false (some 5) (some 0) >>= fun t => rbInsert (fun a b : Nat => decide (a < b)) n t 3 none) (.error .attributeError) ∧
    EndsWith (fun n => (treeNew false (none : Option Nat) (none : Option Nat) >>= fun t => rbInsert (fun a b : Nat => decide (a < b)) n t 5 (some 0)
      >>= fun t => rbInsert (fun a b : Nat => decide (a < b)) n t 3 none).map fun t => (t.at 1).bind BNode.key) (.ok (some 3)) := by
  constructor <;>
  · refine ⟨9, fun n hn => ?_⟩
    obtain ⟨m, rfl⟩ : ∃ m, n = m + 9 := ⟨n - 9, by omega⟩
    rfl

/-- **C155** fails for Cartesian trees and treaps in the same way: the root has no priority. -/
theorem C155_cartesian :
    EndsWith (fun n => treeNew false (some 5) (some 0) >>= fun t => cartInsert (fun a b : Nat => decide (a < b)) n t 3 7 none) (.error .attributeError) ∧
    EndsWith (fun n => (treeNew false (none : Option Nat) (none : Option Nat) >>= fun t => cartInsert (fun a b : Nat => decide (a < b)) n t 5 9 (some 0)
      >>= fun t => cartInsert (fun a b : Nat => decide (a < b)) n t 3 7 none).map fun t => (t.at 1).bind BNode.key) (.ok (some 3)) := by
  constructor <;>
  · refine ⟨9, fun n hn => ?_⟩
    obtain ⟨m, rfl⟩ : ∃ m, n = m + 9 := ⟨n - 9, by omega⟩
    rfl

end Props
