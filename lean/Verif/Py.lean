/-!
# The fragment of Python used by the model

Exceptions are values, lists are read and written with bounds checks, loops are bounded recursions.
Nothing in this file is specific to pydatastructs.
-/
namespace Py

/-- Exceptions raised by the modelled code; `outOfFuel` is not a Python exception: it marks a `while`
loop (or an unbounded recursion) that has not ended within the given number of iterations. Nor is `undefined`: it marks
undefined behaviour of the C++ and LLVM back ends (a load or store outside the array, a register without value). -/
inductive PyErr where
  | indexError | valueError | keyError | typeError | attributeError | zeroDivision | notImplemented
  | overflowError | runtimeError | systemError
  | outOfFuel | undefined
  deriving DecidableEq, Repr

/-- A computation that returns a value or raises. -/
abbrev PyM (α : Type _) := Except PyErr α

instance {α : Type _} [DecidableEq α] : DecidableEq (PyM α) := fun a b =>
  match a, b with
  | .ok x, .ok y => if h : x = y then isTrue (by rw [h]) else isFalse (by intro e; cases e; exact h rfl)
  | .error x, .error y =>
      if h : x = y then isTrue (by rw [h]) else isFalse (by intro e; cases e; exact h rfl)
  | .ok _, .error _ => isFalse (by intro e; cases e)
  | .error _, .ok _ => isFalse (by intro e; cases e)

/-- `array[i]` for a non-negative index: `IndexError` past the end. -/
def rd {α : Type _} (l : List α) (i : Nat) : PyM α :=
  match l[i]? with
  | some x => .ok x
  | none => .error .indexError

/-- `array[i] = x` for a non-negative index: `IndexError` past the end. -/
def wr {α : Type _} (l : List α) (i : Nat) (x : α) : PyM (List α) :=
  if i < l.length then .ok (l.set i x) else .error .indexError

/-- `array[i], array[j] = array[j], array[i]`. -/
def swp {α : Type _} (l : List α) (i j : Nat) : PyM (List α) := do
  let y ← rd l j
  let x ← rd l i
  let l ← wr l i y
  wr l j x

/-- `n` iterations of `body`, the loop variable taking the values `i, i+1, …`. -/
def loop {σ : Type _} (body : Nat → σ → PyM σ) : Nat → Nat → σ → PyM σ
  | 0, _, s => .ok s
  | n + 1, i, s => do
    let s ← body i s
    loop body n (i + 1) s

/-- `for i in range(lo, hi): body`. -/
def forRange {σ : Type _} (lo hi : Nat) (s : σ) (body : Nat → σ → PyM σ) : PyM σ :=
  loop body (hi - lo) lo s

/-- `n` iterations of `body`, the loop variable taking the values `i+n-1, …, i+1, i`. -/
def loopDown {σ : Type _} (body : Nat → σ → PyM σ) : Nat → Nat → σ → PyM σ
  | 0, _, s => .ok s
  | n + 1, i, s => do
    let s ← body (i + n) s
    loopDown body n i s

/-- `for i in range(hi - 1, lo - 1, -1): body`, i.e. `i` runs down from `hi - 1` to `lo`. -/
def forDown {σ : Type _} (lo hi : Nat) (s : σ) (body : Nat → σ → PyM σ) : PyM σ :=
  loopDown body (hi - lo) lo s

/-- `for x in xs: body`. -/
def forList {α : Type _} {σ : Type _} (xs : List α) (s : σ) (body : α → σ → PyM σ) : PyM σ :=
  match xs with
  | [] => .ok s
  | x :: xs => do
    let s ← body x s
    forList xs s body

/-- `while cond: body`, at most `fuel` evaluations of the condition. -/
def whileLoop {σ : Type _} (fuel : Nat) (cond : σ → PyM Bool) (body : σ → PyM σ) (s : σ) : PyM σ :=
  match fuel with
  | 0 => .error .outOfFuel
  | fuel + 1 => do
    if ← cond s then
      let s ← body s
      whileLoop fuel cond body s
    else
      .ok s

/-- The list of values of `range(lo, hi, step)` for a positive step. -/
def rangeStep (lo hi step : Nat) : List Nat :=
  (List.range ((hi - lo + step - 1) / step)).map fun t => lo + step * t

end Py
