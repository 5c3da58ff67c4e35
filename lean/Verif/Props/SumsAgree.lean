import Verif.Props.SegmentTree
import Verif.Props.Fenwick
import Verif.Props.CppFenwick
/-!
# C146: the structures for range sums agree
-/
namespace Props
open Py Spec Model

/-- The call of a dynamic range query object that a call of a binary indexed tree corresponds to. -/
def asRq : BitOp → RqOp Int
  | .update i v => .update i v
  | .sum l r => .query l r

private theorem foldl_sum (l : List Int) (x : Int) : l.foldl (fun a b => a + b) x = x + l.sum := by
  induction l generalizing x with
  | nil => simp
  | cons y l ih => rw [List.foldl_cons, ih, List.sum_cons]; omega

private theorem foldOf_sum {l : List Int} (h : l ≠ []) : foldOf (fun x y : Int => x + y) l = some l.sum := by
  cases l with
  | nil => exact absurd rfl h
  | cons x l => rw [foldOf, foldl_sum, List.sum_cons]

private theorem sum_eq {a : List Int} {l r : Nat} (h1 : l ≤ r) (h2 : r < a.length) :
    rangeAnswer (fun x y : Int => x + y) a l r = .ok (some ((a.take (r + 1)).drop l).sum) := by
  rw [rangeAnswer, if_neg (by omega), if_neg (by omega)]
  have e : slice a l (r + 1 - l) = (a.take (r + 1)).drop l := by rw [slice, List.drop_take]
  simp only [Int.toNat_natCast]
  rw [e, foldOf_sum]
  intro h
  have := congrArg List.length h
  simp at this
  omega

private theorem spec_agree (ops : List BitOp) : ∀ a : List Int, (∀ o ∈ ops, o.InRange a.length) →
    trace bitSpec a ops = trace (rqSpec fun x y : Int => x + y) a (ops.map asRq) := by
  induction ops with
  | nil => intro a _; rfl
  | cons o ops ih =>
    intro a h
    have ho := h o List.mem_cons_self
    have ht : ∀ o ∈ ops, o.InRange a.length := fun o' h' => h o' (List.mem_cons_of_mem _ h')
    have key : bitSpec a o = rqSpec (fun x y : Int => x + y) a (asRq o) ∧ (bitSpec a o).1.length = a.length := by
      cases o with
      | update i v =>
        simp only [bitSpec, asRq, rqSpec, setAt]
        by_cases hi : i < a.length
        · rw [if_pos hi, show listIndex a.length (i : Int) = some i by simp [listIndex, hi]]
          dsimp only
          rw [wr_of_lt _ hi]
          exact ⟨rfl, by simp⟩
        · rw [if_neg hi]
          have : listIndex a.length (i : Int) = none := by
            simp [listIndex, hi]
          rw [this]
          exact ⟨rfl, rfl⟩
      | sum l r =>
        simp only [bitSpec, asRq, rqSpec]
        rw [sum_eq ho.1 ho.2]
        exact ⟨rfl, trivial⟩
    rw [List.map_cons]
    show (bitSpec a o).2 :: trace bitSpec (bitSpec a o).1 ops = _ :: trace _ (rqSpec (fun x y : Int => x + y) a (asRq o)).1 (ops.map asRq)
    rw [← key.1, ih _ (by rw [key.2]; exact ht)]

/-- **C146** for objects that can be updated: after any history of updates, at any index and with any value, and sums of ranges of the array, a binary indexed tree, a dynamic range query
object with a segment tree and one with the array itself have given the same answers. -/
theorem C146_updates (a : List Int) (ha : a ≠ []) (fuel : Nat) (hfu : 3 * a.length ≤ fuel) (ops : List BitOp)
    (hops : ∀ o ∈ ops, o.InRange a.length) :
    ∃ s t, bitNew a = .ok s ∧ segBuild qSum fuel a = .ok t ∧
      trace bitStep s ops = trace (rqSegStep qSum fuel a.length) t (ops.map asRq) ∧
      trace bitStep s ops = trace (rqArrayStep qSum) a (ops.map asRq) := by
  obtain ⟨s, e, hs⟩ := C48_fenwick a ha ops hops
  obtain ⟨t, e', ht⟩ := C47_dynamic_partial summation_isFold a ha fuel hfu (ops.map asRq) (by
    intro o ho
    obtain ⟨o', _, rfl⟩ := List.mem_map.1 ho
    cases o' with
    | update i v => exact Int.natCast_nonneg _
    | sum l r => exact trivial)
  refine ⟨s, t, e, e', ?_, ?_⟩
  · rw [hs, ht, spec_agree ops a hops]
  · rw [hs, C47_dynamic_array summation_isFold, spec_agree ops a hops]

/-- **C146** for a fixed array: a binary indexed tree, a sparse table and the array itself give the same sum for every range of the array. -/
theorem C146_static (a : List Int) (ha : a ≠ []) : ∃ s t, bitNew a = .ok s ∧ stNew qSum a = .ok t ∧ ∀ l r : Nat, l ≤ r → r < a.length →
    ∃ x, bitSum s l r = .ok x ∧ rqSparseQuery qSum t a.length l r = .ok (some x) ∧ rqArrayQuery qSum a l r = .ok (some x) := by
  obtain ⟨s, e, _⟩ := C48_fenwick a ha [] (by simp)
  obtain ⟨t, e', ht⟩ := C47_static summation_isFold a ha
  refine ⟨s, t, e, e', fun l r h1 h2 => ?_⟩
  obtain ⟨s', e2, hs⟩ := C48_fenwick a ha [.sum l r] (by simp [BitOp.InRange]; omega)
  rw [e] at e2
  cases e2
  refine ⟨((a.take (r + 1)).drop l).sum, ?_, ?_, ?_⟩
  · have h := (List.cons.inj hs).1
    simp only [bitStep, bitSpec] at h
    cases hb : bitSum s l r with
    | ok x => rw [hb] at h; simp at h; rw [h]
    | error x => rw [hb] at h; simp at h
  · rw [(ht l r).1, sum_eq h1 h2]
  · rw [(ht l r).2, sum_eq h1 h2]

/-- **C146** with the C++ back end: the binary indexed trees of both back ends answer alike while no sum can leave the range of a `long`. -/
theorem C146_cpp (a : List Int) (ha : a ≠ []) (hn : a.length < 2 ^ 62) (ops : List BitOp) (hin : ∀ o ∈ ops, o.Inside a.length)
    (hb : SmallSums a ops) (fuel : Nat) (hfu : 3 * a.length ≤ fuel) (hops : ∀ o ∈ ops, o.InRange a.length) :
    ∃ s t, Cpp.cbNew a = .ok s ∧ segBuild qSum fuel a = .ok t ∧
      trace cbStep s ops = trace (rqSegStep qSum fuel a.length) t (ops.map asRq) := by
  obtain ⟨s, e, hs⟩ := C110_fenwick_partial a ha hn ops hin hb
  obtain ⟨s', t, e1, e2, h, -⟩ := C146_updates a ha fuel hfu ops hops
  obtain ⟨s2, e3, hs2⟩ := C48_fenwick a ha ops hops
  rw [e1] at e3; cases e3
  exact ⟨s, t, e, e2, by rw [hs, ← hs2, h]⟩

/-! The hypotheses are met: three updates, one of them outside the array, and sums in between. -/

example := C146_updates [4, -6, 1, 5] (by simp) 12 (by decide) [.sum 1 3, .update 2 7, .update 9 1, .sum 0 3, .update 0 0, .sum 0 2]
  (by simp [BitOp.InRange])

example : trace bitSpec [4, -6, 1, 5] [.sum 1 3, .update 2 7, .update 9 1, .sum 0 3, .update 0 0, .sum 0 2] =
    [.elem 0, .done, .raised .indexError, .elem 10, .done, .elem 1] := by decide

example := C146_static [4, -6, 1, 5] (by simp)

example := C146_cpp [4, -6] (by simp) (by decide) [.update 1 3] (by simp [BitOp.Inside]) (fun k => by
  rcases k with _ | k
  · exact (by decide : absSum [4, -6] < 2 ^ 62)
  · rw [List.take_of_length_le (by simp)]
    exact (by decide : absSum [4, 3] < 2 ^ 62)) 6 (by decide) (by simp [BitOp.InRange])

end Props
