import Verif.Model.CppArray
import Verif.Props.Array
import Verif.Props.CppDoda

/-!
# C133, C134: the C++ one-dimensional array stores what it is given; its references
-/
namespace Props
open Py Model Model.Cpp Spec
set_option linter.unusedSectionVars false
variable {α : Type} [DecidableEq α]

/-! ## Calls -/

/-- The calls of a client. -/
inductive ArrOp (α : Type)
  | get (i : Int)
  | set (i : Int) (v : Option α)
  | fill (v : Option α)
  | len

/-- A call on a C++ array; a call that raises leaves the array alone. -/
def caStep (inst : Option α → Bool) (a : RArr α) : ArrOp α → RArr α × Out (Option α)
  | .get i => match caGet a i with
    | .ok x => (a, .elem x)
    | .error e => (a, .raised e)
  | .set i v => match caSet inst a i v with
    | .ok a' => (a', .done)
    | .error e => (a, .raised e)
  | .fill v => match caFill inst a v with
    | .ok a' => (a', .done)
    | .error e => (a, .raised e)
  | .len => (a, .count (caLen a))

theorem vget_of_lt {β : Type} {l : List β} {i : Nat} (h : i < l.length) : vget l i = .ok l[i] := by
  simp [vget, h]

theorem vset_of_lt {β : Type} {l : List β} {i : Nat} (h : i < l.length) (x : β) : vset l i x = .ok (l.set i x) := by
  simp [vset, h]

/-! ## C133: values -/

/-- What a client expects of an array of `l.length` cells: an index is valid from 0 to the length; only instances of the type and `None` can be stored. -/
def arraySpec (inst : Option α → Bool) (l : List (Option α)) : ArrOp α → List (Option α) × Out (Option α)
  | .get i => if h : 0 ≤ i ∧ i < l.length then (l, .elem l[i.toNat]) else (l, .raised .indexError)
  | .set i v => if 0 ≤ i ∧ i < l.length then if v = none ∨ inst v = true then (l.set i.toNat v, .done) else (l, .raised .systemError)
      else (l, .raised .indexError)
  | .fill v => if v = none ∨ inst v = true then (List.replicate l.length v, .done) else (l, .raised .typeError)
  | .len => (l, .count l.length)

/-- The index can be read as a C `long long`. -/
def ArrOp.Fits : ArrOp α → Prop
  | .get i => -2 ^ 63 ≤ i ∧ i < 2 ^ 63
  | .set i _ => -2 ^ 63 ≤ i ∧ i < 2 ^ 63
  | _ => True

theorem caFillLoop_ok (v : Option α) : ∀ (k i : Nat) (a : RArr α), i + k = a.data.length →
    ∃ owns, caFillLoop v k i a = .ok ⟨a.data.take i ++ List.replicate k v, owns⟩ := by
  intro k
  induction k with
  | zero =>
    intro i a h
    refine ⟨a.owns, ?_⟩
    rw [caFillLoop, List.take_of_length_le (by omega)]
    simp
  | succ k ih =>
    intro i a h
    obtain ⟨owns, e⟩ := ih (i + 1) ⟨a.data.set i v, decref (incref a.owns v) (a.data[i]'(by omega))⟩ (by simp; omega)
    refine ⟨owns, ?_⟩
    rw [caFillLoop, vget_of_lt (by omega), ok_bind, vset_of_lt (by omega)]
    dsimp only
    rw [ok_bind, e]
    congr 2
    dsimp only
    rw [List.take_succ_eq_append_getElem (by simp; omega), List.replicate_succ]
    simp [List.take_set_of_le]

theorem caStep_spec (inst : Option α → Bool) (a : RArr α) (op : ArrOp α) (h : op.Fits) :
    (caStep inst a op).1.data = (arraySpec inst a.data op).1 ∧ (caStep inst a op).2 = (arraySpec inst a.data op).2 := by
  cases op with
  | get i =>
    have hf : fitsLongLong i = true := by simpa [fitsLongLong, ArrOp.Fits] using h
    simp only [caStep, caGet, arraySpec, hf]
    by_cases hi : 0 ≤ i ∧ i < a.data.length
    · rw [if_neg (by decide), if_neg (by omega), vget_of_lt (by omega), dif_pos hi]
      exact ⟨rfl, rfl⟩
    · rw [if_neg (by decide), if_pos (by omega), dif_neg hi]
      exact ⟨rfl, rfl⟩
  | set i v =>
    have hf : fitsLongLong i = true := by simpa [fitsLongLong, ArrOp.Fits] using h
    simp only [caStep, caSet, arraySpec, hf]
    by_cases hi : 0 ≤ i ∧ i < a.data.length
    · rw [if_neg (by decide), if_neg (by omega), if_pos hi]
      by_cases hv : v = none ∨ inst v = true
      · rw [if_neg (by rintro ⟨h1, h2⟩; rcases hv with hv | hv; exact h1 hv; rw [hv] at h2; cases h2), if_pos hv, vget_of_lt (by omega), ok_bind]
        dsimp only
        rw [vset_of_lt (by omega)]
        exact ⟨rfl, rfl⟩
      · rw [if_pos ⟨fun h => hv (.inl h), by cases hb : inst v; rfl; exact absurd (.inr hb) hv⟩, if_neg hv]
        exact ⟨rfl, rfl⟩
    · rw [if_neg (by decide), if_pos (by omega), if_neg hi]
      exact ⟨rfl, rfl⟩
  | fill v =>
    simp only [caStep, caFill, arraySpec]
    by_cases hv : v = none ∨ inst v = true
    · rw [if_neg (by rintro ⟨h1, h2⟩; rcases hv with hv | hv; exact h1 hv; rw [hv] at h2; cases h2), if_pos hv]
      obtain ⟨owns, e⟩ := caFillLoop_ok v a.data.length 0 a (by omega)
      rw [e]
      exact ⟨by simp, rfl⟩
    · rw [if_pos ⟨fun h => hv (.inl h), by cases hb : inst v; rfl; exact absurd (.inr hb) hv⟩, if_neg hv]
      exact ⟨rfl, rfl⟩
  | len => exact ⟨rfl, rfl⟩

theorem caLoad_ok (inst : Option α → Bool) : ∀ (l cells : List (Option α)) (owns : α → Int),
    ((∀ x ∈ l, inst x = true) → (caLoad inst l cells owns).2 = .ok (cells ++ l)) ∧
    ((∃ x ∈ l, inst x = false) → (caLoad inst l cells owns).2 = .error .typeError) := by
  intro l
  induction l with
  | nil => intro cells owns; exact ⟨fun _ => by simp [caLoad], fun ⟨x, hx, _⟩ => by simp at hx⟩
  | cons y l ih =>
    intro cells owns
    by_cases hy : inst y = true
    · rw [caLoad, if_pos hy]
      obtain ⟨h1, h2⟩ := ih (cells ++ [y]) (incref owns y)
      refine ⟨fun h => by rw [h1 (fun x hx => h x (List.mem_cons_of_mem _ hx))]; simp, ?_⟩
      rintro ⟨x, hx, hf⟩
      rcases List.mem_cons.mp hx with rfl | hx
      · rw [hy] at hf; cases hf
      · exact h2 ⟨x, hx, hf⟩
    · rw [caLoad, if_neg hy]
      exact ⟨fun h => absurd (h y (by simp)) hy, fun _ => rfl⟩

/-- **C133**: a constructor makes the cells it is given, or raises `TypeError` (an object is not an instance of the type) or `ValueError` (the size
is not the number of elements). -/
theorem C133_constructors (inst : Option α → Bool) :
    (∀ l : List (Option α), (∀ x ∈ l, inst x = true) → (caOfList inst l).2 = .ok l ∧ (caOfListSize inst l l.length).2 = .ok l) ∧
    (∀ (l : List (Option α)) (x : Option α), x ∈ l → inst x = false → (caOfList inst l).2 = .error .typeError ∧ (caOfListSize inst l l.length).2 = .error .typeError) ∧
    (∀ (l : List (Option α)) (n : Nat), n ≠ l.length → (caOfListSize inst l n).2 = .error .valueError) ∧
    (∀ n : Nat, (caOfSize inst n none).2 = .ok (List.replicate n none)) ∧
    (∀ (n : Nat) (x : Option α), x = none ∨ inst x = true → (caOfSize inst n (some x)).2 = .ok (List.replicate n x)) ∧
    (∀ (n : Nat) (x : α), inst (some x) = false → (caOfSize inst n (some (some x))).2 = .error .typeError) := by
  refine ⟨fun l h => ?_, fun l x hx hf => ?_, fun l n h => by simp [caOfListSize, h], fun n => rfl, fun n x h => ?_, fun n x h => by simp [caOfSize, h]⟩
  · have := (caLoad_ok inst l [] fun _ => 0).1 h
    exact ⟨by simpa [caOfList] using this, by simpa [caOfListSize, caOfList] using this⟩
  · have := (caLoad_ok inst l [] fun _ => 0).2 ⟨x, hx, hf⟩
    exact ⟨by simpa [caOfList] using this, by simpa [caOfListSize, caOfList] using this⟩
  · rcases h with rfl | h
    · simp [caOfSize]
    · simp [caOfSize, h]

/-- **C133**: every history of calls whose indices are C integers answers as the list of cells does. -/
theorem C133_array (inst : Option α → Bool) (ops : List (ArrOp α)) (hops : ∀ op ∈ ops, op.Fits) (a : RArr α) :
    trace (caStep inst) a ops = trace (arraySpec inst) a.data ops := by
  induction ops generalizing a with
  | nil => rfl
  | cons op ops ih =>
    obtain ⟨h1, h2⟩ := caStep_spec inst a op (hops op (by simp))
    rw [trace, trace, h2, ih (fun op h => hops op (List.mem_cons_of_mem _ h)), h1]

/-- Any other index raises `OverflowError` and changes nothing. -/
theorem C133_overflow (inst : Option α → Bool) (a : RArr α) (i : Int) (h : ¬ (-2 ^ 63 ≤ i ∧ i < 2 ^ 63)) (v : Option α) :
    caStep inst a (.get i) = (a, .raised .overflowError) ∧ caStep inst a (.set i v) = (a, .raised .overflowError) := by
  have hf : fitsLongLong i = false := by simpa [fitsLongLong] using h
  simp [caStep, caGet, caSet, hf]

/-! ### The same calls in Python -/

/-- A call on a Python array. (What `fill(None)` does depends on the type; `C133_same_as_python` does not speak of it.) -/
def pyArrStep (conv : α → PyM α) (a : Oda α) : ArrOp α → Oda α × Out (Option α)
  | .get i => match a.get i with
    | .ok x => (a, .elem x)
    | .error e => (a, .raised e)
  | .set i v => match a.set conv i v with
    | .ok a' => (a', .done)
    | .error e => (a, .raised e)
  | .fill v => match v with
    | some x => match a.fill conv x with
      | .ok a' => (a', .done)
      | .error e => (a, .raised e)
    | none => (a, .raised .typeError)
  | .len => (a, .count a.len)

/-- A call on which the two back ends agree: no write below index 0, instances only, and no `fill(None)`. -/
def ArrOp.Alike (inst : Option α → Bool) : ArrOp α → Prop
  | .get i => -2 ^ 63 ≤ i ∧ i < 2 ^ 63
  | .set i v => 0 ≤ i ∧ i < 2 ^ 63 ∧ (v = none ∨ inst v = true)
  | .fill v => v ≠ none ∧ inst v = true
  | .len => True

theorem oda_fill_data (conv : α → PyM α) (n : Nat) (l : List (Option α)) (hl : l.length = n) (x y : α) (hy : conv x = .ok y) :
    (⟨n, l⟩ : Oda α).fill conv x = .ok ⟨n, List.replicate n (some y)⟩ := by
  obtain ⟨d, hd, h1, h2⟩ := forRange_spec
    (fun k (d : List (Option α)) => d.length = n ∧ ∀ j, j < k → d[j]? = some (some y))
    (body := fun i d => wr d i (some y)) (lo := 0) (hi := n) (s := l) (by omega) ⟨hl, by intro j h; omega⟩
    (by
      intro k d _ hk ⟨h1, h2⟩
      refine ⟨_, wr_of_lt _ (by omega), by simpa using h1, ?_⟩
      intro j hj
      by_cases hjk : j = k
      · subst hjk; rw [List.getElem?_set_self (by omega)]
      · rw [List.getElem?_set_ne (by omega)]; exact h2 j (by omega))
  simp only [Oda.fill, hy, ok_bind, hd]
  congr 2
  apply List.ext_getElem?
  intro i
  by_cases hi : i < n
  · rw [h2 i hi, List.getElem?_replicate_of_lt hi]
  · rw [List.getElem?_eq_none (by omega), List.getElem?_eq_none (by simp; omega)]

theorem pyArrStep_spec (inst : Option α → Bool) (conv : α → PyM α) (hconv : ∀ x, inst (some x) = true → conv x = .ok x) (l : List (Option α)) (op : ArrOp α)
    (h : op.Alike inst) : pyArrStep conv ⟨l.length, l⟩ op = (⟨(arraySpec inst l op).1.length, (arraySpec inst l op).1⟩, (arraySpec inst l op).2) := by
  cases op with
  | get i =>
    simp only [pyArrStep, Oda.get, arraySpec]
    by_cases hi : 0 ≤ i ∧ i < l.length
    · rw [if_neg (by omega), listIndex_of (by omega) (by omega), dif_pos hi]
      dsimp only
      rw [rd_of_lt (by omega)]
    · rw [if_pos (by omega), dif_neg hi]
  | set i v =>
    obtain ⟨h1, h2, h3⟩ := h
    have hset : (⟨l.length, l⟩ : Oda α).set conv i v = match listIndex l.length i with
        | some k => do
          let data ← wr l k v
          .ok ⟨l.length, data⟩
        | none => .error .indexError := by
      cases v with
      | none => rfl
      | some x =>
        have := hconv x (by rcases h3 with h3 | h3; cases h3; exact h3)
        simp only [Oda.set, this, ok_bind]
        rfl
    simp only [pyArrStep, hset, arraySpec, if_pos h3]
    by_cases hi : i < l.length
    · rw [listIndex_of (by omega) (by omega), if_pos ⟨h1, hi⟩]
      dsimp only
      rw [wr_of_lt _ (by omega), ok_bind]
      simp
    · have : listIndex l.length i = none := by
        rw [listIndex, if_pos h1, if_neg hi]
      rw [this, if_neg (by omega)]
  | fill v =>
    obtain ⟨h1, h2⟩ := h
    cases v with
    | none => exact absurd rfl h1
    | some x =>
      simp only [pyArrStep, arraySpec, if_pos (Or.inr h2), oda_fill_data conv l.length l rfl x x (hconv x h2)]
      simp
  | len => rfl

/-- **C133**: if the type leaves its own instances as they are, the two back ends answer alike on every history of such calls. -/
theorem C133_same_as_python (inst : Option α → Bool) (conv : α → PyM α) (hconv : ∀ x, inst (some x) = true → conv x = .ok x) (ops : List (ArrOp α))
    (hops : ∀ op ∈ ops, op.Alike inst) (l : List (Option α)) (owns : α → Int) :
    trace (pyArrStep conv) ⟨l.length, l⟩ ops = trace (caStep inst) ⟨l, owns⟩ ops := by
  rw [C133_array inst ops (fun op h => by have := hops op h; cases op <;> simp only [ArrOp.Alike, ArrOp.Fits] at this ⊢ <;> omega)]
  dsimp only
  induction ops generalizing l with
  | nil => rfl
  | cons op ops ih =>
    rw [trace, trace, pyArrStep_spec inst conv hconv l op (hops op (by simp))]
    exact congrArg _ (ih (fun op h => hops op (List.mem_cons_of_mem _ h)) _)

/-- Writing at index -1: Python writes the last cell, C++ raises `IndexError`. -/
theorem C133_negative_write : trace (pyArrStep fun x : Int => .ok x) ⟨2, [none, none]⟩ [.set (-1) (some 5), .get 1] = [.done, .elem (some 5)] ∧
    trace (caStep fun _ => true) (⟨[none, none], fun _ => 0⟩ : RArr Int) [.set (-1) (some 5), .get 1] = [.raised .indexError, .elem none] := by
  constructor <;> rfl

/-- A history with a failing read, a failing write and a fill; objects below 100 are instances. -/
example : trace (caStep fun x : Option Nat => x.any (· < 100)) ⟨[some 1, some 2, none], fun _ => 0⟩
    [.get 3, .set 1 (some 7), .get 1, .set 0 (some 100), .fill (some 4), .get 2, .len] =
    [.raised .indexError, .done, .elem (some 7), .raised .systemError, .done, .elem (some 4), .count 3] := rfl
end Props
