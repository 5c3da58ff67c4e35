import Verif.Props.Array
import Verif.Model.ArrayNew

/-! # C26: histories, writes at every index, and what the constructor does to its argument -/
namespace Props
open Py Model Spec
variable {α : Type}

/-! ## Writes outside the array -/

/-- What is stored for a written value: `None` as it is, anything else converted by the dtype. -/
def Stored1 (conv : α → PyM α) (v w : Option α) : Prop := v = none ∧ w = none ∨ ∃ x y, v = some x ∧ conv x = .ok y ∧ w = some y

/-- **C26**, writes at the other indices: from `-len` to `-1` they write the cell counted from the end, everything else raises `IndexError`. -/
theorem C26_set_outside (conv : α → PyM α) (a : Oda α) (hw : OdaWf a) (i : Int) (v w : Option α) (hv : Stored1 conv v w) :
    (i < 0 → -a.len ≤ i → a.set conv i v = a.set conv (i + a.len) v) ∧ (i < -a.len ∨ a.len ≤ i → a.set conv i v = .error .indexError) := by
  unfold OdaWf at hw
  simp only [Oda.len]
  rcases hv with ⟨rfl, rfl⟩ | ⟨x, y, rfl, hy, rfl⟩
  · refine ⟨fun h1 h2 => ?_, fun h => ?_⟩
    · have e1 : listIndex a.data.length i = some (i + a.size).toNat := by unfold listIndex; rw [if_neg (by omega), if_pos (by omega), hw]
      have e2 : listIndex a.data.length (i + a.size) = some (i + a.size).toNat := by unfold listIndex; rw [if_pos (by omega), if_pos (by omega)]
      simp only [Oda.set, e1, e2]
    · have e : listIndex a.data.length i = none := by
        unfold listIndex
        split
        · rw [if_neg (by omega)]
        · rw [if_neg (by omega)]
      simp only [Oda.set, e, ok_bind]
  · refine ⟨fun h1 h2 => ?_, fun h => ?_⟩
    · have e1 : listIndex a.data.length i = some (i + a.size).toNat := by unfold listIndex; rw [if_neg (by omega), if_pos (by omega), hw]
      have e2 : listIndex a.data.length (i + a.size) = some (i + a.size).toNat := by unfold listIndex; rw [if_pos (by omega), if_pos (by omega)]
      simp only [Oda.set, e1, e2]
    · have e : listIndex a.data.length i = none := by
        unfold listIndex
        split
        · rw [if_neg (by omega)]
        · rw [if_neg (by omega)]
      simp only [Oda.set, e, hy, ok_bind]

/-! ## Histories -/

/-- Calls on an array. -/
inductive OdaOp (α : Type) where
  | write (i : Nat) (v : Option α)
  | fill (v : α)

def odaStep (conv : α → PyM α) (a : Oda α) : OdaOp α → PyM (Oda α)
  | .write i v => a.set conv i v
  | .fill v => a.fill conv v

/-- The calls in order, each raising or returning the array it leaves. -/
def odaRun (conv : α → PyM α) : Oda α → List (OdaOp α) → PyM (Oda α)
  | a, [] => .ok a
  | a, o :: ops => do
    let a ← odaStep conv a o
    odaRun conv a ops

/-- The cells `0 .. n-1` go from `c` to `c'` by calls inside the array with values the dtype takes: a write changes its own cell, a fill all of them. -/
def OdaAfter (conv : α → PyM α) (n : Nat) : List (OdaOp α) → (Nat → Option α) → (Nat → Option α) → Prop
  | [], c, c' => c = c'
  | .write i v :: ops, c, c' => i < n ∧ ∃ w, Stored1 conv v w ∧ OdaAfter conv n ops (fun j => if j = i then w else c j) c'
  | .fill v :: ops, _, c' => ∃ w, conv v = .ok w ∧ OdaAfter conv n ops (fun _ => some w) c'

theorem oda_history (conv : α → PyM α) (n : Nat) : ∀ (ops : List (OdaOp α)) (a : Oda α) (c c' : Nat → Option α), OdaWf a → a.len = n →
    (∀ i : Nat, i < n → a.get i = .ok (c i)) → OdaAfter conv n ops c c' →
    ∃ a', odaRun conv a ops = .ok a' ∧ OdaWf a' ∧ a'.len = n ∧ ∀ i : Nat, i < n → a'.get i = .ok (c' i) := by
  intro ops
  induction ops with
  | nil => intro a c c' hw hn hg hs; cases hs; exact ⟨a, rfl, hw, hn, hg⟩
  | cons o ops ih =>
    intro a c c' hw hn hg hs
    cases o with
    | write i v =>
      obtain ⟨hi, w, hv, hs⟩ := hs
      obtain ⟨a1, e1, hw1, hn1, g1, g2⟩ := (C26_set conv a hw i (by omega) v).2 w hv
      have hg1 : ∀ j : Nat, j < n → a1.get j = .ok ((fun j => if j = i then w else c j) j) := by
        intro j hj
        dsimp only
        split
        · rename_i h; subst h; exact g1
        · rename_i h; rw [g2 j (by omega)]; exact hg j hj
      obtain ⟨a', e', r⟩ := ih a1 _ c' hw1 (hn1.trans hn) hg1 hs
      exact ⟨a', by simp only [odaRun, odaStep, e1, ok_bind, e'], r⟩
    | fill v =>
      obtain ⟨w, hv, hs⟩ := hs
      obtain ⟨a1, e1, hw1, hn1, g1⟩ := C26_fill conv a hw v w hv
      obtain ⟨a', e', r⟩ := ih a1 _ c' hw1 (hn1.trans hn) (fun j hj => g1 j (by omega) (by omega)) hs
      exact ⟨a', by simp only [odaRun, odaStep, e1, ok_bind, e'], r⟩

/-- **C26**, every history: an array of `n` cells, after any writes inside it and fills with values the dtype takes, has length `n`, and each cell reads the last
value written there or filled in since. -/
theorem C26_history (conv : α → PyM α) (n : Nat) (init : Option α) (ops : List (OdaOp α)) (c : Nat → Option α) (h : OdaAfter conv n ops (fun _ => init) c) :
    ∃ a, odaRun conv (Oda.ofSize n init) ops = .ok a ∧ a.len = n ∧ (∀ i : Nat, i < n → a.get i = .ok (c i)) ∧
      ∀ i : Int, i < 0 ∨ (n : Int) ≤ i → a.get i = .error .indexError := by
  obtain ⟨h1, h2, h3⟩ := C26_constructors.1 n init
  obtain ⟨a, e, hw, hl, hg⟩ := oda_history conv n ops _ _ c h1 h2 h3 h
  exact ⟨a, e, hl, hg, fun i hi => (C26_get a hw i).1 (by omega)⟩

/-- Three cells, a write, a fill and another write. -/
example : OdaAfter (fun x : Nat => .ok x) 3 [.write 0 (some 7), .fill 2, .write 1 none] (fun _ => none) (fun j => if j = 1 then none else some 2) :=
  ⟨by omega, some 7, .inr ⟨7, 7, rfl, rfl, rfl⟩, 2, rfl, by omega, none, .inl ⟨rfl, rfl⟩, rfl⟩

/-! ## The constructor and its argument -/

/-- What becomes of one element: an element of the dtype stays, another is converted. -/
def Becomes (isT : α → Bool) (conv : α → PyM α) (x y : α) : Prop := isT x = true ∧ y = x ∨ isT x = false ∧ conv x = .ok y

theorem convInPlace_spec (isT : α → Bool) (conv : α → PyM α) : ∀ l : List α,
    (convInPlace isT conv l).1.length = l.length ∧
    ((convInPlace isT conv l).2 = none → ∀ (i : Nat) (x : α), l[i]? = some x → ∃ y, (convInPlace isT conv l).1[i]? = some y ∧ Becomes isT conv x y) ∧
    ((convInPlace isT conv l).2 = none ↔ ∀ x ∈ l, isT x = true ∨ ∃ y, conv x = .ok y) := by
  intro l
  induction l with
  | nil => exact ⟨rfl, fun _ i x h => by simp at h, by simp [convInPlace]⟩
  | cons x l ih =>
    obtain ⟨i1, i2, i3⟩ := ih
    cases hx : isT x with
    | true =>
      simp only [convInPlace, hx, if_true]
      refine ⟨by simp [i1], ?_, ?_⟩
      · intro h i z hz
        cases i with
        | zero => simp at hz; subst hz; exact ⟨x, rfl, .inl ⟨hx, rfl⟩⟩
        | succ i => exact i2 h i z (by simpa using hz)
      · rw [i3]; simp [hx]
    | false =>
      cases hc : conv x with
      | error e =>
        simp only [convInPlace, hx, hc]
        refine ⟨rfl, fun h => by simp at h, by simp [hx, hc]⟩
      | ok y =>
        simp only [convInPlace, hx, hc]
        refine ⟨by simp [i1], ?_, ?_⟩
        · intro h i z hz
          cases i with
          | zero => simp at hz; subst hz; exact ⟨y, rfl, .inr ⟨hx, hc⟩⟩
          | succ i => exact i2 h i z (by simpa using hz)
        · simp [i3, hx, hc]

/-- **C26**, the constructor from a list, and its argument: it succeeds exactly when every element is of the dtype or can be converted; the array then holds
the elements, converted where needed, and *so does the list of the caller*. -/
theorem C26_from_list (isT : α → Bool) (conv : α → PyM α) (l : List α) :
    ((∃ a, (odaFromList isT conv l).1 = .ok a) ↔ ∀ x ∈ l, isT x = true ∨ ∃ y, conv x = .ok y) ∧
    ∀ a, (odaFromList isT conv l).1 = .ok a → OdaWf a ∧ a.len = l.length ∧ (odaFromList isT conv l).2.length = l.length ∧
      ∀ (i : Nat) (x : α), l[i]? = some x → ∃ y, Becomes isT conv x y ∧ a.get i = .ok (some y) ∧ (odaFromList isT conv l).2[i]? = some y := by
  obtain ⟨h1, h2, h3⟩ := convInPlace_spec isT conv l
  generalize hr : convInPlace isT conv l = r at h1 h2 h3
  obtain ⟨l', oe⟩ := r
  cases oe with
  | some e =>
    have e0 : odaFromList isT conv l = (.error e, l') := by simp only [odaFromList, hr]
    rw [e0]
    refine ⟨⟨fun ⟨a, h⟩ => (nomatch h), fun h => (nomatch h3.2 h)⟩, fun a h => (nomatch h)⟩
  | none =>
    have e0 : odaFromList isT conv l = (.ok ⟨l'.length, l'.map some⟩, l') := by simp only [odaFromList, hr]
    rw [e0]
    refine ⟨⟨fun _ => h3.1 rfl, fun _ => ⟨_, rfl⟩⟩, fun a h => ?_⟩
    obtain rfl := Except.ok.inj h
    refine ⟨by simp [OdaWf], by simpa [Oda.len] using h1, h1, fun i x hx => ?_⟩
    obtain ⟨y, hy, hb⟩ := h2 rfl i x hx
    have hi : i < l'.length := (List.getElem?_eq_some_iff.1 hy).1
    have h1 : ¬ ((i : Int) ≥ (l'.length : Int) ∨ (i : Int) < 0) := by omega
    have h2 : listIndex l'.length (i : Int) = some i := by simp [listIndex]; omega
    exact ⟨y, hb, by simp only [Oda.get, List.length_map, h2, if_neg h1, rd, List.getElem?_map, hy, Option.map_some], hy⟩

/-- The caller's list is not left as it was: `l = [1, 2]` (integers, with a dtype that turns `n` into `n + 10`) is `[11, 12]` after the call. -/
theorem C26_argument_changed : ¬ ∀ (isT : Nat → Bool) (conv : Nat → PyM Nat) (l : List Nat) (a : Oda Nat),
    (odaFromList isT conv l).1 = .ok a → (odaFromList isT conv l).2 = l := by
  intro h
  have := h (fun n => decide (10 ≤ n)) (fun n => .ok (n + 10)) [1, 2] ⟨2, [some 11, some 12]⟩ rfl
  exact absurd this (by decide)

/-- **C26**, the constructor from a tuple: when the dtype can convert every element, the call raises `TypeError` exactly when some element is not of the dtype
already (a tuple cannot be assigned to); otherwise the array holds the elements of the tuple. -/
theorem C26_from_tuple (isT : α → Bool) (conv : α → PyM α) (l : List α) (hc : ∀ x ∈ l, ∃ y, conv x = .ok y) :
    ((∃ x ∈ l, isT x = false) → odaFromTuple isT conv l = .error .typeError) ∧
    ((∀ x ∈ l, isT x = true) → ∃ a, odaFromTuple isT conv l = .ok a ∧ OdaWf a ∧ a.len = l.length ∧ ∀ (i : Nat) (x : α), l[i]? = some x → a.get i = .ok (some x)) := by
  constructor
  · rintro ⟨x, hx, hf⟩
    cases hr : l.find? (fun x => !isT x) with
    | none => have := List.find?_eq_none.1 hr x hx; simp [hf] at this
    | some z =>
      obtain ⟨y, hy⟩ := hc z (List.mem_of_find?_eq_some hr)
      simp only [odaFromTuple, hr, hy, ok_bind]
  · intro h
    have hr : l.find? (fun x => !isT x) = none := List.find?_eq_none.2 fun x hx => by simp [h x hx]
    refine ⟨⟨l.length, l.map some⟩, by simp only [odaFromTuple, hr], by simp [OdaWf], rfl, fun i x hx => ?_⟩
    have hi := (List.getElem?_eq_some_iff.1 hx).1
    have h1 : ¬ ((i : Int) ≥ (l.length : Int) ∨ (i : Int) < 0) := by omega
    have h2 : listIndex l.length (i : Int) = some i := by simp [listIndex]; omega
    simp only [Oda.get, List.length_map, h2, if_neg h1, rd, List.getElem?_map, hx, Option.map_some]

/-- **C26**, the constructor from a list and a size: it is the one from the list when the size is its length, and raises `ValueError` for every other size. -/
theorem C26_from_list_size (isT : α → Bool) (conv : α → PyM α) (l : List α) (hc : ∀ x ∈ l, isT x = true ∨ ∃ y, conv x = .ok y) (n : Int) :
    (n = l.length → odaFromListSize isT conv l n = odaFromList isT conv l) ∧
    (n ≠ l.length → (odaFromListSize isT conv l n).1 = .error .valueError) := by
  obtain ⟨h1, h2, h3⟩ := convInPlace_spec isT conv l
  generalize hr : convInPlace isT conv l = r at h1 h2 h3
  obtain ⟨l', oe⟩ := r
  cases oe with
  | some e => exact nomatch h3.2 hc
  | none =>
    dsimp only at h1
    refine ⟨fun hn => ?_, fun hn => ?_⟩
    · simp only [odaFromListSize, odaFromList, hr]; rw [if_neg (by omega)]
    · simp only [odaFromListSize, hr]; rw [if_pos (by omega)]

end Props
