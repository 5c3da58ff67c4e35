import Verif.Model.FreeNode
import Verif.Spec

/-!
# C152: a C++ graph node or edge keeps the data it is given
-/
namespace Props
open Py Model Model.Cpp Spec

/-! ## Specification -/

/-- What a user does with the field `data` of a node or `value` of an edge. -/
inductive FieldOp where
  | assign (v : PVal)
  | read

/-- Is the object a value for the field? An edge takes `None`, ints, floats and strings only, and says so. -/
def Accepts (k : CKind) (v : PVal) : Prop := k = .edge → ∀ o, v ≠ .obj o

open Classical in
/-- A field holds the last value that was assigned; a value that is not accepted is refused with `TypeError`. -/
noncomputable def fieldSpec (k : CKind) (held : PVal) : FieldOp → PVal × Out PVal
  | .assign v => if Accepts k v then (v, .done) else (held, .raised .typeError)
  | .read => (held, .elem held)

open Classical in
/-- Constructing the object with a value and then using the field. -/
noncomputable def fieldSpecHistory (k : CKind) (v : PVal) (ops : List FieldOp) : List (Out PVal) :=
  if Accepts k v then .done :: trace (fieldSpec k) v ops else [.raised .typeError]

/-! ## The code -/

def fieldStep (k : CKind) (c : CCell) : FieldOp → CCell × Out PVal
  | .assign v =>
    match cellSet k c v with
    | (none, c') => (c', .done)
    | (some e, c') => (c', .raised e)
  | .read =>
    match cellGet c with
    | .ok v => (c, .elem v)
    | .error e => (c, .raised e)

def fieldHistory (k : CKind) (v : PVal) (ops : List FieldOp) : List (Out PVal) :=
  match cellNew k v with
  | .ok c => .done :: trace (fieldStep k) c ops
  | .error e => [.raised e]

/-! ## The property -/

/-- The full property. -/
def C152_full : Prop := ∀ (k : CKind) (v : PVal) (ops : List FieldOp), fieldHistory k v ops = fieldSpecHistory k v ops

/-- The values that are kept: ints that fit into 64 bits, strings without null characters and lone surrogates, and everything that is
neither an int nor a string. -/
def PlainData : PVal → Prop
  | .int i => -2 ^ 63 ≤ i ∧ i < 2 ^ 63
  | .str s => ∀ c ∈ s, c ≠ 0 ∧ ¬ (0xD800 ≤ c ∧ c ≤ 0xDFFF)
  | _ => True

def FieldOp.Keepable : FieldOp → Prop
  | .assign v => PlainData v
  | .read => True

theorem cString_of {s : List Nat} (h : ∀ c ∈ s, c ≠ 0) : cString s = s := by
  induction s with
  | nil => rfl
  | cons c s ih =>
    have hc : (decide (c ≠ 0)) = true := decide_eq_true (h c (List.mem_cons_self ..))
    have := ih fun d hd => h d (List.mem_cons_of_mem _ hd)
    unfold cString at this ⊢
    rw [List.takeWhile_cons, hc, if_pos rfl, this]

theorem cString_mem {s : List Nat} (h : cString s = s) : ∀ c ∈ s, c ≠ 0 := by
  induction s with
  | nil => intro c hc; cases hc
  | cons d s ih =>
    unfold cString at h
    rw [List.takeWhile_cons] at h
    split at h
    · next hd =>
      have hs := ih (List.cons.inj h).2
      intro c hc
      rcases List.mem_cons.1 hc with rfl | hc
      · exact of_decide_eq_true hd
      · exact hs c hc
    · cases h

theorem surrogate_iff {s : List Nat} : surrogate s = false ↔ ∀ c ∈ s, ¬ (0xD800 ≤ c ∧ c ≤ 0xDFFF) := by
  unfold surrogate
  rw [List.any_eq_false]
  constructor
  · intro h c hc hb; exact h c hc (decide_eq_true hb)
  · intro h c hc hb; exact h c hc (of_decide_eq_true hb)

theorem plain_str {s : List Nat} : PlainData (.str s) ↔ surrogate s = false ∧ cString s = s := by
  rw [surrogate_iff]
  exact ⟨fun h => ⟨fun c hc => (h c hc).2, cString_of fun c hc => (h c hc).1⟩,
    fun h c hc => ⟨cString_mem h.2 c hc, h.1 c hc⟩⟩

/-- The cell in which a value rests. -/
def restsIn : PVal → CCell
  | .none => .none
  | .int i => .int i
  | .float b => .double b
  | .str s => .str s
  | .obj o => .obj o

theorem cellGet_rests (v : PVal) : cellGet (restsIn v) = .ok v := by cases v <;> rfl

theorem cellSet_plain {k : CKind} {c : CCell} {v : PVal} (hv : PlainData v) (ha : Accepts k v) :
    cellSet k c v = (none, restsIn v) := by
  cases v with
  | none => rfl
  | float b => rfl
  | int i =>
    have : fits64 (some i) = true := decide_eq_true hv
    simp only [cellSet, this, if_true]; rfl
  | str s =>
    obtain ⟨h1, h2⟩ := plain_str.1 hv
    simp only [cellSet, h1, h2]; rfl
  | obj o =>
    have : k ≠ .edge := fun hk => ha hk o rfl
    simp only [cellSet, if_neg this]; rfl

theorem cellNew_plain {k : CKind} {v : PVal} (hv : PlainData v) (ha : Accepts k v) : cellNew k v = .ok (restsIn v) := by
  cases v with
  | none => rfl
  | float b => rfl
  | int i =>
    have : fits64 (some i) = true := decide_eq_true hv
    simp only [cellNew, this, if_true]; rfl
  | str s =>
    obtain ⟨h1, h2⟩ := plain_str.1 hv
    simp only [cellNew, h1, h2]; rfl
  | obj o =>
    have : k ≠ .edge := fun hk => ha hk o rfl
    simp only [cellNew, if_neg this]; rfl

theorem not_accepts {k : CKind} {v : PVal} (h : ¬ Accepts k v) : k = .edge ∧ ∃ o, v = .obj o := by
  refine Classical.byContradiction fun hc => h fun hk o ho => hc ⟨hk, o, ho⟩

theorem fieldTrace {k : CKind} : ∀ (ops : List FieldOp), (∀ op ∈ ops, op.Keepable) → ∀ v : PVal,
    trace (fieldStep k) (restsIn v) ops = trace (fieldSpec k) v ops := by
  intro ops
  induction ops with
  | nil => intro _ v; rfl
  | cons op ops ih =>
    intro hp v
    have hop := hp op (List.mem_cons_self ..)
    have ih := ih fun o ho => hp o (List.mem_cons_of_mem _ ho)
    unfold trace
    cases op with
    | read =>
      simp only [fieldStep, cellGet_rests, fieldSpec]
      rw [ih]
    | assign w =>
      by_cases ha : Accepts k w
      · simp only [fieldStep, cellSet_plain hop ha, fieldSpec, if_pos ha]
        rw [ih]
      · obtain ⟨rfl, o, rfl⟩ := not_accepts ha
        simp only [fieldStep, fieldSpec, if_neg ha, cellSet, if_pos]
        rw [ih]

/-- **C152** (partial). As long as only plain values are used, a node (of an adjacency list or not) and an edge hold, after any history,
exactly the last value they were given, and an edge refuses other objects. Missing: ints that do not fit into 64 bits, strings with
null characters, strings with lone surrogates. -/
theorem C152_keeps_data_partial (k : CKind) (v : PVal) (ops : List FieldOp) (hv : PlainData v) (ho : ∀ op ∈ ops, op.Keepable) :
    fieldHistory k v ops = fieldSpecHistory k v ops := by
  unfold fieldHistory fieldSpecHistory
  by_cases ha : Accepts k v
  · rw [cellNew_plain hv ha, if_pos ha]
    exact congrArg _ (fieldTrace ops ho v)
  · obtain ⟨rfl, o, rfl⟩ := not_accepts ha
    rw [if_neg ha]
    rfl

/-- **C152**, exactly, for one assignment: whatever the field holds, an accepted value is stored without complaint and read back unchanged
if and only if it is plain. -/
theorem C152_assignment_exact (k : CKind) (c : CCell) (v : PVal) (ha : Accepts k v) :
    trace (fieldStep k) c [.assign v, .read] = [.done, .elem v] ↔ PlainData v := by
  constructor
  · intro h
    cases v with
    | none => trivial
    | float b => trivial
    | obj o => trivial
    | int i =>
      by_cases hf : fits64 (some i) = true
      · have h : -2 ^ 63 ≤ i ∧ i < 2 ^ 63 := of_decide_eq_true hf
        exact h
      · simp only [trace, fieldStep, cellSet, if_neg hf] at h
        cases (List.cons.inj h).1
    | str s =>
      by_cases hs : surrogate s = true
      · simp only [trace, fieldStep, cellSet, if_pos hs] at h
        cases k <;> cases (List.cons.inj h).1
      · simp only [trace, fieldStep, cellSet, if_neg hs, cellGet] at h
        have h2 := (List.cons.inj (List.cons.inj h).2).1
        exact plain_str.2 ⟨Bool.eq_false_iff.2 hs, PVal.str.inj (Out.elem.inj h2)⟩
  · intro hv
    simp only [trace, fieldStep, cellSet_plain hv ha, cellGet_rests]

/-- **C152**, exactly, for the constructor. -/
theorem C152_constructor_exact (k : CKind) (v : PVal) (ha : Accepts k v) :
    fieldHistory k v [.read] = [.done, .elem v] ↔ PlainData v := by
  constructor
  · intro h
    cases v with
    | none => trivial
    | float b => trivial
    | obj o => trivial
    | int i =>
      by_cases hf : fits64 (some i) = true
      · have h : -2 ^ 63 ≤ i ∧ i < 2 ^ 63 := of_decide_eq_true hf
        exact h
      · simp only [fieldHistory, cellNew, if_neg hf] at h
        cases (List.cons.inj h).1
    | str s =>
      by_cases hs : surrogate s = true
      · simp only [fieldHistory, cellNew, if_pos hs] at h
        cases (List.cons.inj h).1
      · simp only [fieldHistory, cellNew, if_neg hs, trace, fieldStep, cellGet] at h
        have h2 := (List.cons.inj (List.cons.inj h).2).1
        exact plain_str.2 ⟨Bool.eq_false_iff.2 hs, PVal.str.inj (Out.elem.inj h2)⟩
  · intro hv
    simp only [fieldHistory, cellNew_plain hv ha, trace, fieldStep, cellGet_rests]

/-- **C152** fails: a string is cut at its first null character, without a word. -/
theorem C152_full_false : ¬ C152_full := by
  intro h
  have h := h .node (.str [97, 0, 98]) [.read]
  have ha : Accepts .node (.str [97, 0, 98]) := fun hk => nomatch hk
  simp only [fieldSpecHistory, if_pos ha, trace, fieldSpec] at h
  revert h
  decide +kernel

/-- **C152**: a failed assignment of a string with a lone surrogate to the data of a node of an adjacency list gives back the reference to the
old data but keeps the pointer: reading the data afterwards uses an object that is gone. -/
theorem C152_failed_assignment_frees (o : Nat) :
    fieldHistory .listNode (.obj o) [.assign (.str [0xD800]), .read] = [.done, .raised .valueError, .raised .undefined] := rfl

/-- **C152**: an int that does not fit raises, and yet changes the value to -1. -/
theorem C152_large_int_becomes_minus_one (k : CKind) (v : PVal) (hv : PlainData v) (ha : Accepts k v) :
    fieldHistory k v [.assign (.int (2 ^ 63)), .read] = [.done, .raised .systemError, .elem (.int (-1))] := by
  simp only [fieldHistory, cellNew_plain hv ha]
  rfl

example : fieldHistory .edge (.int 5) [.read, .assign (.str [97, 98]), .read, .assign (.obj 3), .read, .assign (.float 7), .read] =
    [.done, .elem (.int 5), .done, .elem (.str [97, 98]), .raised .typeError, .elem (.str [97, 98]), .done, .elem (.float 7)] := by decide +kernel

example : PlainData (.str [97, 98]) ∧ PlainData (.int (-2 ^ 63)) ∧ PlainData (.obj 3) ∧ ¬ PlainData (.int (2 ^ 63)) ∧ ¬ PlainData (.str [0xD800]) := by
  refine ⟨plain_str.2 (by decide), ?_, trivial, ?_, fun h => ?_⟩
  · unfold PlainData; omega
  · unfold PlainData; omega
  · exact absurd (plain_str.1 h).1 (by decide)

end Props
