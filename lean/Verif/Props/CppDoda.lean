import Verif.Model.CppDoda
import Verif.Props.Doda
import Verif.Props.ArrayStack
import Verif.Lemmas.Bind

/-!
# C105: the dynamic array and the array stack of the C++ back end
-/
namespace Props
open Py Model Model.Cpp Spec
variable {α : Type}

theorem vget_ok {β : Type} {l : List β} {i : Nat} {x : β} : vget l i = .ok x ↔ l[i]? = some x := by
  unfold vget
  cases l[i]? <;> simp

theorem dcCompact_ok : ∀ {src : List (Option α)} {j : Nat} {new : List (Option α)} {r : List (Option α) × Nat},
    dodaCompact src j new = .ok r → dcCompact src j new = .ok r := by
  intro src
  induction src with
  | nil => intro j new r h; exact h
  | cons c src ih =>
    intro j new r h
    cases c with
    | none => exact ih h
    | some x =>
      obtain ⟨n2, e1, e2⟩ := Py.bind_ok h
      have hlt : j < new.length := by
        by_cases hj : j < new.length
        · exact hj
        · rw [wr, if_neg hj] at e1; cases e1
      rw [wr_of_lt _ hlt] at e1; cases e1
      show (vset new j (some x) >>= fun n => dcCompact src (j + 1) n) = _
      rw [vset, if_pos hlt, ok_bind, ih e2]

theorem dcModify_ok {low : Nat → Nat → Bool} {d d' : Doda α} (hc : d.cnt ≤ d.data.length) (h : d.modify low = .ok d') :
    dcModify low false d = .ok d' := by
  unfold Doda.modify at h
  unfold dcModify
  simp only [Bool.false_eq_true, if_false, ok_bind]
  by_cases hz : d.size = 0
  · rw [if_pos hz] at h; cases h
  rw [if_neg hz] at h
  by_cases hl : low d.num d.size = true
  · rw [if_pos hl] at h
    rw [if_pos ⟨hz, hl⟩, if_pos hc]
    obtain ⟨⟨new, j⟩, e1, e2⟩ := Py.bind_ok h
    rw [dcCompact_ok e1]; exact e2
  · rw [if_neg hl] at h
    rw [if_neg (fun hh => hl hh.2), ← h]

theorem dcAppend_ok {low : Nat → Nat → Bool} {d d' : Doda α} (hi : d.Inv) {x : α} (h : d.append low x = .ok d') :
    dcAppend low d (some x) = .ok d' := by
  obtain ⟨data, e, k, hk, hkk⟩ := Doda.append_raw' low hi x
  have hle : d.cnt ≤ d.data.length := hi.le
  have htl : (d.data.take d.cnt).length = d.cnt := by simp; omega
  rw [e] at h
  have hd : (if d.cnt = d.data.length then vset (d.data.take d.cnt ++ List.replicate (2 * d.data.length + 1 - d.cnt) none) d.cnt (some x)
      else vset d.data d.cnt (some x)) = .ok data := by
    by_cases hf : d.cnt = d.data.length
    · rw [if_pos (show d.cnt = d.size from hf)] at hkk
      rw [if_pos hf, vset, if_pos (by simp; omega), List.set_append_right _ _ (by omega), htl, Nat.sub_self,
        show 2 * d.data.length + 1 - d.cnt = d.data.length + 1 by omega, List.replicate_succ, List.set_cons_zero, hk, hkk]
      rfl
    · rw [if_neg (show ¬ d.cnt = d.size from hf)] at hkk
      rw [if_neg hf, vset, if_pos (by omega)]
      conv => lhs; rw [← List.take_append_drop d.cnt d.data, hi.drop]
      obtain ⟨m, hm⟩ : ∃ m, d.size - d.cnt = m + 1 := ⟨d.size - d.cnt - 1, by unfold Doda.size; omega⟩
      rw [List.set_append_right _ _ (by omega), htl, Nat.sub_self, hm, List.replicate_succ, List.set_cons_zero, hk, hkk, hm]
      rfl
  have hm := dcModify_ok (low := low) (d := ⟨data, d.num + 1, d.cnt + 1⟩)
    (by simp only [hk, List.length_append, List.length_cons, htl]; omega) h
  unfold dcAppend
  by_cases hf : d.cnt = d.data.length
  · rw [if_pos hf] at hd
    simp only [if_pos hf, hd, ok_bind, hm]
  · rw [if_neg hf] at hd
    simp only [if_neg hf, hd, ok_bind, hm]

theorem dcDelete_ok {low : Nat → Nat → Bool} {d d' : Doda α} (hi : d.Inv) {i : Int} (h : d.delete low i = .ok d') :
    dcDelete low d i = .ok d' := by
  have hle : d.cnt ≤ d.data.length := hi.le
  unfold Doda.delete at h
  unfold dcDelete
  by_cases hc : i ≤ (d.cnt : Int) - 1 ∧ 0 ≤ i
  · rw [if_pos hc] at h ⊢
    have hlt : i.toNat < d.data.length := by omega
    have hg : d.get i = .ok d.data[i.toNat] := by
      rw [Doda.get, if_neg (by unfold Doda.size; omega), rd_of_lt hlt]
    rw [hg, ok_bind] at h
    rw [vget_ok.2 (List.getElem?_eq_getElem hlt), ok_bind]
    cases hx : d.data[i.toNat] with
    | none => rw [hx] at h; exact h
    | some x =>
      rw [hx] at h
      simp only [Doda.set, wr_of_lt _ hlt, ok_bind] at h
      simp only [vset, if_pos hlt, ok_bind]
      apply dcModify_ok
      · dsimp only; rw [List.length_set]; split <;> omega
      · rw [← h]
        by_cases hl : (d.cnt : Int) - 1 = i
        · simp only [hl, if_true]
        · simp only [hl, if_false]
  · rw [if_neg hc] at h ⊢; exact h

theorem dcGet_eq (d : Doda α) (i : Int) : dcGet d i = d.get i := by
  unfold dcGet Doda.get
  by_cases h : i < 0 ∨ i ≥ d.data.length
  · rw [if_pos h, if_pos (by unfold Doda.size; omega)]
  · have hlt : i.toNat < d.data.length := by omega
    rw [if_neg h, if_neg (by unfold Doda.size; omega), rd_of_lt hlt, vget_ok.2 (List.getElem?_eq_getElem hlt)]

theorem dcOfList_some (l : List α) : dcOfList (l.map some) = Doda.ofList l := by
  cases l <;> simp [dcOfList, Doda.ofList]

theorem dcOfList_none (n : Nat) : dcOfList (List.replicate n (none : Option α)) = Doda.ofSize n := by
  cases n <;> simp [dcOfList, Doda.ofSize, List.replicate_succ]

/-! ## The array -/

/-- The C++ dynamic arrays a user can hold whose appended objects are not `None`: built from a size or from a list, then changed by `append` and `delete`. -/
inductive CppDodaReachable (low : Nat → Nat → Bool) : Doda α → Prop
  | size (n : Nat) : CppDodaReachable low (dcOfList (List.replicate n none))
  | list (l : List α) : CppDodaReachable low (dcOfList (l.map some))
  | append {d d' : Doda α} (x : α) : CppDodaReachable low d → dcAppend low d (some x) = .ok d' → CppDodaReachable low d'
  | delete {d d' : Doda α} (i : Int) : CppDodaReachable low d → dcDelete low d i = .ok d' → CppDodaReachable low d'

theorem CppDodaReachable.inv {low : Nat → Nat → Bool} {d : Doda α} (h : CppDodaReachable low d) : d.Inv := by
  induction h with
  | size n => rw [dcOfList_none]; exact (Doda.ofSize_dense n).inv.1
  | list l => rw [dcOfList_some]; exact (Doda.ofList_dense l).inv.1
  | append x _ e ih =>
    obtain ⟨d', e', h1, -⟩ := Doda.append_spec low ih x
    rw [dcAppend_ok ih e'] at e; cases e; exact h1
  | @delete d d1 i _ e ih =>
    by_cases hd : ∃ x, 0 ≤ i ∧ d.data[i.toNat]? = some (some x)
    · obtain ⟨x, h0, hx⟩ := hd
      obtain ⟨d', e', h1, -⟩ := Doda.delete_live low ih i.toNat x hx
      rw [show ((i.toNat : Nat) : Int) = i by omega] at e'
      rw [dcDelete_ok ih e'] at e; cases e; exact h1
    · have := Doda.delete_dead low ih i (by intro x hx; exact hd ⟨x, hx⟩)
      rw [dcDelete_ok ih this] at e; cases e; exact ih

/-- C105, the array. For every history without appended `None` and every load factor (`low` is any predicate): the counter is the number of cells that
are not `None`; `append x` succeeds and puts `x` after the live elements, whose order is kept; `delete i` succeeds, does nothing when cell `i` is not
live, and otherwise removes just that element. No step reads or writes outside the buffer. -/
theorem C105_array_partial (low : Nat → Nat → Bool) (d : Doda α) (h : CppDodaReachable low d) :
    d.num = (d.data.filterMap id).length ∧
    (∀ x, ∃ d', dcAppend low d (some x) = .ok d' ∧ d'.data.filterMap id = d.data.filterMap id ++ [x]) ∧
    (∀ i : Int, (∀ x, dcGet d i ≠ .ok (some x)) → dcDelete low d i = .ok d) ∧
    (∀ (i : Int) x, dcGet d i = .ok (some x) → ∃ d', dcDelete low d i = .ok d' ∧
      d.data.filterMap id = (d.data.take i.toNat).filterMap id ++ x :: (d.data.drop (i.toNat + 1)).filterMap id ∧
      d'.data.filterMap id = (d.data.take i.toNat).filterMap id ++ (d.data.drop (i.toNat + 1)).filterMap id) := by
  have hi := h.inv
  obtain ⟨h1, -, h3, h4, h5⟩ := doda_facts low d hi
  refine ⟨h1, fun x => ?_, fun i hx => ?_, fun i x hx => ?_⟩
  · obtain ⟨d', e, r⟩ := h3 x
    exact ⟨d', dcAppend_ok hi e, r⟩
  · exact dcDelete_ok hi (h4 i (fun x => by rw [← dcGet_eq]; exact hx x))
  · rw [dcGet_eq] at hx
    obtain ⟨d', e, r⟩ := h5 i x hx
    exact ⟨d', dcDelete_ok hi e, r⟩

/-- A history with a growth, a deletion in the middle and a contraction. -/
example : (do
      let d ← dcAppend quarter (dcOfList ([] : List (Option Nat))) (some 1)
      let d ← dcAppend quarter d (some 2)
      let d ← dcAppend quarter d (some 3)
      let d ← dcAppend quarter d (some 4)
      let d ← dcDelete quarter d 1
      let d ← dcDelete quarter d 0
      dcDelete quarter d 3) = (.ok ⟨[some 3, none, none], 1, 1⟩ : PyM (Doda Nat)) := by decide

/-- `_modify(True)` first moves the last filled position to the last live cell `j`, whatever it was, and then does what `_modify(False)` does. -/
theorem C105_force (low : Nat → Nat → Bool) (d : Doda α) (j : Nat) (x : α) (hx : d.data[j]? = some (some x))
    (hlast : ∀ k, j < k → k < d.data.length → d.data[k]? = some none) :
    dcModify low true d = dcModify low false { d with cnt := j + 1 } ∧
      (low d.num d.data.length = false → dcModify low true d = .ok { d with cnt := j + 1 }) := by
  have hj : j < d.data.length := (List.getElem?_eq_some_iff.mp hx).1
  have key : ∀ m, j + 1 ≤ m → m ≤ d.data.length → dcLast d.data m = .ok (j + 1) := by
    intro m
    induction m with
    | zero => intro h; omega
    | succ m ih =>
      intro h1 h2
      by_cases hm : m = j
      · subst hm
        rw [dcLast, vget_ok.2 hx, ok_bind]
      · rw [dcLast, vget_ok.2 (hlast m (by omega) (by omega)), ok_bind]
        exact ih (by omega) (by omega)
  have e : dcModify low true d = dcModify low false { d with cnt := j + 1 } := by
    unfold dcModify
    simp only [if_true, Bool.false_eq_true, if_false, key d.data.length (by omega) (Nat.le_refl _), ok_bind]
  refine ⟨e, fun hl => ?_⟩
  rw [e]
  unfold dcModify
  simp only [Bool.false_eq_true, if_false, ok_bind, hl, and_false]

example : dcModify quarter true (⟨[some 3, none, some 5, none], 2, 4⟩ : Doda Nat) = .ok ⟨[some 3, none, some 5, none], 2, 3⟩ := by decide

/-- `_modify(True)` on an array without live cell reads in front of the buffer. -/
theorem C105_force_undefined (low : Nat → Nat → Bool) (n num cnt : Nat) :
    dcModify low true (⟨List.replicate n none, num, cnt⟩ : Doda α) = .error .undefined := by
  have : ∀ m, m ≤ n → dcLast (List.replicate n (none : Option α)) m = .error .undefined := by
    intro m
    induction m with
    | zero => intro _; rfl
    | succ m ih =>
      intro hm
      rw [dcLast, vget_ok.2 (List.getElem?_replicate_of_lt (by omega)), ok_bind]
      exact ih (by omega)
  simp only [dcModify, if_true, List.length_replicate, this n (Nat.le_refl _)]
  rfl

/-! ## The stack -/

/-- The calls on the model. A method that raises leaves the stack as it was. -/
def csStep (low : Nat → Nat → Bool) (s : Doda α) : StackOp (Option α) → Doda α × Out (Option α)
  | .push x => match csPush low s x with
    | .ok s' => (s', .done)
    | .error e => (s, .raised e)
  | .pop => match csPop low s with
    | .ok (x, s') => (s', .elem x)
    | .error e => (s, .raised e)
  | .peek => match csPeek s with
    | .ok x => (s, .elem x)
    | .error e => (s, .raised e)
  | .len => (s, .count (csLen s))
  | .isEmpty => (s, .flag (csIsEmpty s))

/-- The objects of a history that are put into the stack. -/
def pushed : List (StackOp (Option α)) → List (Option α)
  | [] => []
  | .push x :: ops => x :: pushed ops
  | _ :: ops => pushed ops

/-- C105 in full: the stack of the C++ back end answers as a list, for objects of every kind. -/
def C105_full : Prop := ∀ (low : Nat → Nat → Bool) (items : Option (List (Option Nat))) (ops : List (StackOp (Option Nat))),
  trace (csStep low) (csNew items) ops = trace stackSpec (items.getD []) ops

/-- A `None` on top of the stack is never removed: every `pop` returns it again. -/
theorem C105_full_false : ¬ C105_full := by
  intro h
  have := h quarter none [.push (some 1), .push none, .pop, .pop]
  revert this
  decide

theorem cs_step (low : Nat → Nat → Bool) (s : Doda α) (l : List α) (op : StackOp (Option α)) (h : s.Dense l)
    (hop : ∀ x, op = .push x → x ≠ none) :
    ∃ l', (csStep low s op).1.Dense l' ∧ (stackSpec (l.map some) op).1 = l'.map some ∧ (csStep low s op).2 = (stackSpec (l.map some) op).2 := by
  have hc := h.cnt
  have hinv := h.inv.1
  cases op with
  | push x =>
    cases x with
    | none => exact absurd rfl (hop none rfl)
    | some x =>
      obtain ⟨s', e, h'⟩ := Doda.append_dense low h x
      simp only [csStep, csPush, dcAppend_ok hinv e, stackSpec]
      exact ⟨l ++ [x], h', by simp, trivial⟩
  | pop =>
    rcases List.eq_nil_or_concat l with rfl | ⟨l, x, rfl⟩
    · have : csPop low s = .error .indexError := by
        rw [csPop, if_pos (by simpa [csIsEmpty] using hc)]
      simp only [csStep, this, stackSpec, List.map_nil, List.getLast?_nil]
      exact ⟨[], h, rfl, trivial⟩
    · rw [List.concat_eq_append] at *
      simp only [List.length_append, List.length_singleton] at hc
      obtain ⟨s', e, h'⟩ := Doda.delete_last_dense low h
      have hg := h.get (i := l.length) (by simp)
      have hi : (s.cnt : Int) - 1 = (l.length : Nat) := by omega
      have : csPop low s = .ok (some x, s') := by
        rw [csPop, if_neg (by simp [csIsEmpty]; omega), hi, dcGet_eq, hg, ok_bind, dcDelete_ok hinv e, ok_bind]
        simp
      simp only [csStep, this, stackSpec, List.map_append, List.map_cons, List.map_nil, List.getLast?_concat, List.dropLast_concat]
      exact ⟨l, h', rfl, trivial⟩
  | peek =>
    rcases List.eq_nil_or_concat l with rfl | ⟨l, x, rfl⟩
    · have : csPeek s = .error .indexError := by
        simp only [csPeek, dcGet]; rw [if_pos (by simp at hc; omega)]
      simp only [csStep, this, stackSpec, List.map_nil, List.getLast?_nil]
      exact ⟨[], h, rfl, trivial⟩
    · rw [List.concat_eq_append] at *
      simp only [List.length_append, List.length_singleton] at hc
      have hg := h.get (i := l.length) (by simp)
      have hi : (s.cnt : Int) - 1 = (l.length : Nat) := by omega
      have : csPeek s = .ok (some x) := by
        simp only [csPeek, dcGet_eq]
        rw [hi, hg]; simp
      simp only [csStep, this, stackSpec, List.map_append, List.map_cons, List.map_nil, List.getLast?_concat]
      exact ⟨l ++ [x], h, by simp, trivial⟩
  | len =>
    simp only [csStep, csLen, stackSpec, h.num]
    exact ⟨l, h, rfl, by simp⟩
  | isEmpty =>
    simp only [csStep, csIsEmpty, stackSpec, h.cnt]
    exact ⟨l, h, rfl, by cases l <;> simp⟩

/-- C105, the stack. Through every history of calls that pushes no `None`, for every load factor and whatever the rounding of the quotient, the stack
answers exactly as a list with push and pop at its end; `pop` and `peek` raise `IndexError` exactly when it is empty. -/
theorem C105_stack_partial (low : Nat → Nat → Bool) (items : Option (List α)) (ops : List (StackOp (Option α)))
    (hops : none ∉ pushed ops) :
    trace (csStep low) (csNew (items.map (·.map some))) ops = trace stackSpec ((items.getD []).map some) ops := by
  have main : ∀ (ops : List (StackOp (Option α))) (s : Doda α) (l : List α), s.Dense l → none ∉ pushed ops →
      trace (csStep low) s ops = trace stackSpec (l.map some) ops := by
    intro ops
    induction ops with
    | nil => intro s l _ _; rfl
    | cons op ops ih =>
      intro s l h hn
      obtain ⟨l', h1, h2, h3⟩ := cs_step low s l op h (by
        intro x hx hxn; subst hx; subst hxn; exact hn (by simp [pushed]))
      have hn' : none ∉ pushed ops := by
        cases op <;> simp_all [pushed]
      simp only [trace]
      rw [h3, h2, ih _ l' h1 hn']
  apply main
  · cases items with
    | none => exact Doda.ofList_dense []
    | some l =>
      simp only [csNew, Option.map_some, Option.getD_some, dcOfList_some]
      exact Doda.ofList_dense l
  · exact hops

/-- A history with growth, contraction and an exception. -/
example : trace (csStep quarter) (csNew (none : Option (List (Option Nat))))
    [.push (some 1), .push (some 2), .push (some 3), .push (some 4), .pop, .pop, .peek, .len, .pop, .pop, .pop, .isEmpty] =
    [.done, .done, .done, .done, .elem (some 4), .elem (some 3), .elem (some 2), .count 2, .elem (some 2), .elem (some 1), .raised .indexError,
      .flag true] := by decide

end Props
