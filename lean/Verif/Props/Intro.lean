import Verif.Lemmas.Intro

/-!
# C08: `intro_sort`
-/
namespace Props
open Py Spec Model
variable {α : Type}

/-- C08: for every depth limit (also negative) and every insertion-sort threshold; a recursion depth of `stop - start + 1` always suffices.
-/
theorem C08_intro_sort (comp : α → α → Bool) (le : α → α → Prop) (ho : TotalPreorder le) (hc : Compat comp le)
    (a : List (Option α)) (start stop : Nat) (h : stop ≤ a.length) (maxdepth threshold : Int) (fuel : Nat) (hf : stop - start < fuel) :
    ∃ b, introSort comp threshold fuel a start stop maxdepth = .ok b ∧ SortsTo (noneLast le) a b start stop :=
  introSort_spec ho hc threshold fuel a start stop maxdepth h (by omega) (by omega)

example : introSort (fun u v : Int => decide (u ≤ v)) 2 9 [some 9, some 3, none, some (-2), some 3, some 0] 0 6 2
    = .ok [some (-2), some 0, some 3, some 3, some 9, none] := by decide

end Props
