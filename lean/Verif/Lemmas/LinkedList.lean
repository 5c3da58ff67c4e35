import Verif.Model.LinkedList
import Verif.Lemmas.Py

set_option linter.unusedSimpArgs false
set_option linter.unusedVariables false

namespace Model
open Py

variable {κ δ : Type}

/-- What `next` of the `k`-th node must be. -/
def nx (circ : Bool) (ids : List Nat) (k : Nat) : Option Nat :=
  if k + 1 < ids.length then ids[k + 1]? else if circ then ids[0]? else none

/-- What `prev` of the `k`-th node must be. -/
def pv (circ : Bool) (ids : List Nat) (k : Nat) : Option Nat :=
  if k = 0 then (if circ then ids[ids.length - 1]? else none) else ids[k - 1]?

/-- The store holds the nodes `ids`, in this order, with the contents `l`. `hp`: `head.prev` is right too. -/
structure Rep (circ dbl hp : Bool) (s : LL κ δ) (ids : List Nat) (l : List (Pay κ δ)) : Prop where
  len : ids.length = l.length
  inj : ∀ (a b i : Nat), ids[a]? = some i → ids[b]? = some i → a = b
  lt : ∀ (k i : Nat), ids[k]? = some i → i < s.fresh
  vals : ∀ (k i : Nat), ids[k]? = some i → s.val i = l[k]?
  nexts : ∀ (k i : Nat), ids[k]? = some i → s.next i = nx circ ids k
  prevs : dbl = true → ∀ (k i : Nat), (k = 0 → hp = true) → ids[k]? = some i → s.prev i = pv circ ids k
  head : s.head = ids[0]?
  tail : s.tail = ids[ids.length - 1]?
  size : s.size = l.length
  room : ids.length ≤ s.fresh

theorem Rep.new (circ dbl hp : Bool) : Rep circ dbl hp (LL.new : LL κ δ) [] [] := by
  constructor <;> simp [LL.new]

/-- The walk to position `k`, needing only the links up to there. -/
theorem walk_run (s : LL κ δ) (ids : List Nat) (hh : s.head = ids[0]?)
    (hn : ∀ (k i : Nat), k + 1 < ids.length → ids[k]? = some i → s.next i = ids[k + 1]?) (k : Nat) (hk : k < ids.length) :
    llWalk s k = .ok (if k = 0 then none else ids[k - 1]?, ids[k]?) := by
  obtain ⟨r, e, ⟨j, h1, h2, h3, h4⟩, h5⟩ := whileLoop_spec
    (fun st : Int × Option Nat × Option Nat =>
      ∃ j : Nat, st.1 = (j : Int) ∧ j ≤ k ∧ st.2.1 = (if j = 0 then none else ids[j - 1]?) ∧ st.2.2 = ids[j]?)
    (fun st => k - st.1.toNat)
    (cond := fun st : Int × Option Nat × Option Nat => .ok (st.1 != (k : Int)))
    (body := fun st => do
      let c ← deref st.2.2
      .ok (st.1 + 1, st.2.2, s.next c))
    (fun st _ => ⟨_, rfl⟩)
    (by
      rintro ⟨c, p, q⟩ ⟨j, h1, h2, h3, h4⟩ hc
      dsimp only at h1 h2 h3 h4 hc
      subst h1
      have hjk : j ≠ k := by
        intro h; subst h; simp at hc
      have hj : j < ids.length := by omega
      rw [List.getElem?_eq_getElem hj] at h4
      subst h4
      refine ⟨_, by simp only [deref, ok_bind]; rfl, ⟨j + 1, rfl, by omega, ?_, ?_⟩, ?_⟩
      · simp [List.getElem?_eq_getElem hj]
      · exact hn j _ (by omega) (List.getElem?_eq_getElem hj)
      · dsimp only; omega)
    (s.fresh + (k : Int).natAbs + 1) (0, none, s.head) ⟨0, rfl, Nat.zero_le _, rfl, hh⟩ (by dsimp only; omega)
  have hj : j = k := by
    rw [h1] at h5
    have h6 := Except.ok.inj h5
    simp at h6
    omega
  subst hj
  obtain ⟨a, b, c⟩ := r
  dsimp only at h3 h4
  subst h3 h4
  show (whileLoop _ _ _ _ >>= _) = _
  rw [e]; rfl


/-- The Python index `index` denotes the position `k` to insert at in a list of length `n`. -/
def InsPos (n : Nat) (index : Int) (k : Nat) : Prop :=
  k ≤ n ∧ (index = k ∨ (0 < n ∧ index < 0 ∧ index + n = k) ∨ (n = 0 ∧ index = -1))

/-- The state after inserting at position `k`, before any repair of the ring. -/
def insRes (circ dbl : Bool) (s : LL κ δ) (ids : List Nat) (k : Nat) (x : Pay κ δ) : LL κ δ where
  val := fun j => if j = s.fresh then some x else s.val j
  next := fun j => if j = s.fresh then (if k < ids.length then ids[k]? else nx circ ids (ids.length - 1))
    else if 0 < k ∧ ids[k - 1]? = some j then some s.fresh else s.next j
  prev := fun j => if j = s.fresh then (if dbl ∧ 0 < k then ids[k - 1]? else none)
    else if dbl ∧ k < ids.length ∧ ids[k]? = some j then some s.fresh else s.prev j
  fresh := s.fresh + 1
  head := if k = 0 then some s.fresh else s.head
  tail := if k = ids.length then some s.fresh else s.tail
  size := s.size + 1

/-- The state after inserting at position `k`. -/
def insFin (circ dbl : Bool) (s : LL κ δ) (ids : List Nat) (k : Nat) (x : Pay κ δ) : LL κ δ where
  val := fun j => if j = s.fresh then some x else s.val j
  next := fun j => if j = s.fresh then (if k < ids.length then ids[k]? else if circ then (if k = 0 then some s.fresh else ids[0]?) else none)
    else if (0 < k ∧ ids[k - 1]? = some j) ∨ (circ ∧ k = 0 ∧ ids[ids.length - 1]? = some j) then some s.fresh else s.next j
  prev := fun j => if dbl then
      (if j = s.fresh then (if 0 < k then ids[k - 1]? else if circ then (if ids.length = 0 then some s.fresh else ids[ids.length - 1]?) else none)
      else if (k < ids.length ∧ ids[k]? = some j) ∨ (circ ∧ k = ids.length ∧ ids[0]? = some j) then some s.fresh else s.prev j)
    else (if j = s.fresh then none else s.prev j)
  fresh := s.fresh + 1
  head := if k = 0 then some s.fresh else s.head
  tail := if k = ids.length then some s.fresh else s.tail
  size := s.size + 1

theorem LL.ext' {s t : LL κ δ} (h1 : ∀ j, s.val j = t.val j) (h2 : ∀ j, s.next j = t.next j) (h3 : ∀ j, s.prev j = t.prev j)
    (h4 : s.fresh = t.fresh) (h5 : s.head = t.head) (h6 : s.tail = t.tail) (h7 : s.size = t.size) : s = t := by
  cases s; cases t
  simp only [LL.mk.injEq]
  exact ⟨funext h1, funext h2, funext h3, h4, h5, h6, h7⟩

theorem sllInsertAt_eq {circ dbl hp : Bool} {s : LL κ δ} {ids : List Nat} {l : List (Pay κ δ)} (R : Rep circ dbl hp s ids l)
    {index : Int} {k : Nat} (hk : InsPos ids.length index k) (x : Pay κ δ) :
    sllInsertAt s index x = .ok (insRes circ false s ids k x) := by
  have hsz : s.size = ids.length := by rw [R.size, R.len]
  obtain ⟨hkn, hidx⟩ := hk
  have hi : (if (if s.size = 0 ∧ (index = 0 ∨ index = -1) then 0 else index) < 0 then
      (s.size : Int) + (if s.size = 0 ∧ (index = 0 ∨ index = -1) then 0 else index)
      else (if s.size = 0 ∧ (index = 0 ∨ index = -1) then 0 else index)) = (k : Int) := by
    rw [hsz]; split <;> split <;> omega
  unfold sllInsertAt
  dsimp only
  rw [hi, if_neg (by omega)]
  by_cases h0 : ids.length = 0
  · rw [if_pos (by omega)]
    have : ids = [] := List.length_eq_zero_iff.1 h0
    subst this
    have hk0 : k = 0 := by simpa using hkn
    subst hk0
    congr 1
    apply LL.ext' <;> simp [insRes, LL.alloc, nx]
  · rw [if_neg (by omega)]
    by_cases hke : k = ids.length
    · rw [if_pos (by omega)]
      have ht : s.tail = some (ids[ids.length - 1]'(by omega)) := by rw [R.tail, List.getElem?_eq_getElem]
      have hlt := R.lt _ _ (List.getElem?_eq_getElem (show ids.length - 1 < ids.length by omega))
      have hnx := R.nexts _ _ (List.getElem?_eq_getElem (show ids.length - 1 < ids.length by omega))
      simp only [LL.alloc, ht, deref, ok_bind]
      congr 1
      subst hke
      apply LL.ext' <;> simp [insRes, LL.setNext]
      · intro j; grind
      · intro h; simp [h] at h0
    · rw [if_neg (by omega)]
      have hw := walk_run ({ s.alloc x with size := s.size + 1 } : LL κ δ) ids R.head (by
        intro k i hk hi
        have h1 := R.lt _ _ hi
        have h2 := R.nexts _ _ hi
        simp only [LL.alloc]
        rw [if_neg (by omega), h2, nx, if_pos hk]) k (by omega)
      rw [hw, ok_bind]
      have hlt := fun i hi => R.lt k i hi
      have hlt1 := fun i hi => R.lt (k-1) i hi
      have hkl : k < ids.length := by omega
      rw [List.getElem?_eq_getElem hkl]
      congr 1
      by_cases hk0 : k = 0
      · subst hk0
        apply LL.ext' <;> simp [insRes, LL.setNext, LL.alloc] <;> grind
      · have : k - 1 < ids.length := by omega
        have hh := hlt1 _ (List.getElem?_eq_getElem this)
        rw [if_neg hk0, List.getElem?_eq_getElem this]
        dsimp only
        apply LL.ext' <;> simp [insRes, LL.setNext, LL.alloc] <;> grind

end Model
namespace Model
open Py
variable {κ δ : Type}

theorem Rep.ins {circ dbl hp : Bool} {s : LL κ δ} {ids : List Nat} {l : List (Pay κ δ)} (R : Rep circ dbl hp s ids l)
    {k : Nat} (hk : k ≤ ids.length) (x : Pay κ δ) :
    Rep circ dbl hp (insFin circ dbl s ids k x) (ids.insertIdx k s.fresh) (l.insertIdx k x) := by
  obtain ⟨len, inj, lt, vals, nexts, prevs, head, tail, size, room⟩ := R
  constructor
  · simp [List.length_insertIdx, len]
  · intro a b i ha hb
    rw [List.getElem?_insertIdx] at ha hb
    grind
  · intro j i hj
    rw [List.getElem?_insertIdx] at hj
    simp only [insFin]
    grind
  · intro j i hj
    rw [List.getElem?_insertIdx] at hj
    rw [List.getElem?_insertIdx]
    simp only [insFin]
    grind
  · intro j i hj
    rw [List.getElem?_insertIdx] at hj
    simp only [insFin, nx, List.getElem?_insertIdx, List.length_insertIdx]
    have h1 := nexts (j-1) i
    have h2 := nexts j i
    clear nexts prevs vals
    simp only [nx] at *
    grind
  · intro h j i hj0 hj
    rw [List.getElem?_insertIdx] at hj
    simp only [insFin, pv, List.getElem?_insertIdx, List.length_insertIdx]
    have h1 := prevs h (j-1) i
    have h2 := prevs h j i
    clear nexts prevs vals
    simp only [pv] at *
    grind
  · simp only [insFin, List.getElem?_insertIdx]; grind
  · simp only [insFin, List.getElem?_insertIdx, List.length_insertIdx]; grind
  · simp [insFin, size, List.length_insertIdx]; omega
  · simp only [insFin, List.length_insertIdx]; split <;> omega

end Model
namespace Model
open Py
variable {κ δ : Type}

theorem insRes_linear (dbl : Bool) (s : LL κ δ) (ids : List Nat) (k : Nat) (x : Pay κ δ) (hk : k ≤ ids.length) :
    insRes false dbl s ids k x = insFin false dbl s ids k x := by
  apply LL.ext' <;> simp only [insRes, insFin, nx] <;> grind

theorem dllInsertAt_eq {circ hp : Bool} {s : LL κ δ} {ids : List Nat} {l : List (Pay κ δ)} (R : Rep circ true hp s ids l)
    {index : Int} {k : Nat} (hk : InsPos ids.length index k) (x : Pay κ δ) :
    dllInsertAt s index x = .ok (insRes circ true s ids k x) := by
  have hsz : s.size = ids.length := by rw [R.size, R.len]
  obtain ⟨hkn, hidx⟩ := hk
  have hi : (if (if s.size = 0 ∧ (index = 0 ∨ index = -1) then 0 else index) < 0 then
      (s.size : Int) + (if s.size = 0 ∧ (index = 0 ∨ index = -1) then 0 else index)
      else (if s.size = 0 ∧ (index = 0 ∨ index = -1) then 0 else index)) = (k : Int) := by
    rw [hsz]; split <;> split <;> omega
  unfold dllInsertAt
  dsimp only
  rw [hi, if_neg (by omega)]
  by_cases h0 : ids.length = 0
  · rw [if_pos (by omega)]
    have : ids = [] := List.length_eq_zero_iff.1 h0
    subst this
    have hk0 : k = 0 := by simpa using hkn
    subst hk0
    congr 1
    apply LL.ext' <;> simp [insRes, LL.alloc, nx]
  · rw [if_neg (by omega)]
    by_cases hke : k = ids.length
    · rw [if_pos (by omega)]
      have ht : s.tail = some (ids[ids.length - 1]'(by omega)) := by rw [R.tail, List.getElem?_eq_getElem]
      have hlt := R.lt _ _ (List.getElem?_eq_getElem (show ids.length - 1 < ids.length by omega))
      have hnx := R.nexts _ _ (List.getElem?_eq_getElem (show ids.length - 1 < ids.length by omega))
      simp only [LL.alloc, LL.setPrev, ht, deref, ok_bind]
      congr 1
      subst hke
      apply LL.ext' <;> simp only [insRes, LL.setNext] <;> grind
    · rw [if_neg (by omega)]
      have hw := walk_run ({ s.alloc x with size := s.size + 1 } : LL κ δ) ids R.head (by
        intro k i hk hi
        have h1 := R.lt _ _ hi
        have h2 := R.nexts _ _ hi
        simp only [LL.alloc]
        rw [if_neg (by omega), h2, nx, if_pos hk]) k (by omega)
      rw [hw, ok_bind]
      have hlt := fun i hi => R.lt k i hi
      have hlt1 := fun i hi => R.lt (k-1) i hi
      have hkl : k < ids.length := by omega
      rw [List.getElem?_eq_getElem hkl]
      congr 1
      by_cases hk0 : k = 0
      · subst hk0
        apply LL.ext' <;> simp [insRes, LL.setNext, LL.setPrev, LL.alloc] <;> grind
      · have : k - 1 < ids.length := by omega
        have hh := hlt1 _ (List.getElem?_eq_getElem this)
        rw [if_neg hk0, List.getElem?_eq_getElem this]
        dsimp only
        apply LL.ext' <;> simp [insRes, LL.setNext, LL.setPrev, LL.alloc] <;> grind

theorem sllInsertAfter_eq {circ dbl hp : Bool} {s : LL κ δ} {ids : List Nat} {l : List (Pay κ δ)} (R : Rep circ dbl hp s ids l)
    {k p : Nat} (hp' : ids[k]? = some p) (x : Pay κ δ) (hc : circ = false) :
    sllInsertAfter s p x = .ok (insFin circ false s ids (k + 1) x) := by
  subst hc
  have h1 := R.lt _ _ hp'
  have h2 := R.nexts _ _ hp'
  simp only [sllInsertAfter]
  congr 1
  apply LL.ext' <;> simp only [insFin, LL.setNext, LL.alloc, nx] at * <;> grind

/-- `p.next = new; if p.next.next == head: tail = p.next` on the circular lists. -/
theorem ringAfter_eq {dbl hp : Bool} {s : LL κ δ} {ids : List Nat} {l : List (Pay κ δ)} (R : Rep true dbl hp s ids l)
    {k p : Nat} (hp' : ids[k]? = some p) (x : Pay κ δ) (t : LL κ δ)
    (ht : t = { insFin true dbl s ids (k + 1) x with tail := s.tail }) :
    (do let a ← deref (t.next p)
        .ok (if t.next a = t.head then { t with tail := t.next p } else t) : PyM (LL κ δ)) = .ok (insFin true dbl s ids (k + 1) x) := by
  have h1 := R.lt _ _ hp'
  have h2 := R.nexts _ _ hp'
  have h3 := R.head
  have h4 := R.inj (k+1) 0
  have hkl := (List.getElem?_eq_some_iff.1 hp').1
  have hh : s.head = some ids[0] := by rw [h3, List.getElem?_eq_getElem]
  have e1 : t.next p = some s.fresh := by
    subst ht; simp only [insFin]; grind
  have e2 : t.next s.fresh = if k + 1 < ids.length then ids[k+1]? else ids[0]? := by
    subst ht; simp only [insFin]; grind
  have e3 : t.head = ids[0]? := by
    subst ht; simp only [insFin]; grind
  rw [e1, deref, ok_bind, e2, e3]
  congr 1
  by_cases hk : k + 1 < ids.length
  · rw [if_pos hk, if_neg (by intro h; exact absurd (h4 _ (List.getElem?_eq_getElem hk) (by rw [← h, List.getElem?_eq_getElem hk])) (by omega)), ht]
    apply LL.ext' <;> simp only [insFin] <;> grind
  · rw [if_neg hk, if_pos rfl, ht]
    apply LL.ext' <;> simp only [insFin] <;> grind

theorem scllInsertAfter_eq {hp : Bool} {s : LL κ δ} {ids : List Nat} {l : List (Pay κ δ)} (R : Rep true false hp s ids l)
    {k p : Nat} (hp' : ids[k]? = some p) (x : Pay κ δ) :
    scllInsertAfter s p x = .ok (insFin true false s ids (k + 1) x) := by
  rw [← ringAfter_eq R hp' x _ rfl, scllInsertAfter]
  have h1 := R.lt _ _ hp'
  have h2 := R.nexts _ _ hp'
  have e : sllInsertAfter s p x = .ok { insFin true false s ids (k + 1) x with tail := s.tail } := by
    simp only [sllInsertAfter]
    congr 1
    have hkl := (List.getElem?_eq_some_iff.1 hp').1
    apply LL.ext' <;> simp only [insFin, LL.setNext, LL.alloc, nx] at * <;> grind
  rw [e, ok_bind]

theorem dllInsertAfter_eq {hp : Bool} {s : LL κ δ} {ids : List Nat} {l : List (Pay κ δ)} (R : Rep false true hp s ids l)
    {k p : Nat} (hp' : ids[k]? = some p) (x : Pay κ δ) :
    dllInsertAfter s p x = .ok (insFin false true s ids (k + 1) x) := by
  have h1 := R.lt _ _ hp'
  have h2 := R.nexts _ _ hp'
  have hlt := R.lt (k+1)
  have hkl := (List.getElem?_eq_some_iff.1 hp').1
  simp only [dllInsertAfter, LL.setNext, LL.alloc, nx] at *
  have e : (if p = s.fresh then none else s.next p) = s.next p := by grind
  simp only [if_true, e]
  congr 1
  by_cases hk : k + 1 < ids.length
  · have hlt' := hlt _ (List.getElem?_eq_getElem hk)
    rw [if_pos hk, List.getElem?_eq_getElem hk] at h2
    rw [h2]
    apply LL.ext' <;> simp only [insFin, LL.setNext, LL.setPrev, LL.alloc] <;> grind
  · rw [if_neg hk] at h2
    simp at h2
    rw [h2]
    apply LL.ext' <;> simp only [insFin, LL.setNext, LL.setPrev, LL.alloc] <;> grind

theorem dcllInsertAfter_eq {hp : Bool} {s : LL κ δ} {ids : List Nat} {l : List (Pay κ δ)} (R : Rep true true hp s ids l)
    {k p : Nat} (hp' : ids[k]? = some p) (x : Pay κ δ) :
    dcllInsertAfter s p x = .ok (insFin true true s ids (k + 1) x) := by
  rw [← ringAfter_eq R hp' x _ rfl, dcllInsertAfter]
  have h1 := R.lt _ _ hp'
  have h2 := R.nexts _ _ hp'
  have hlt := R.lt (k+1)
  have hlt0 := R.lt 0
  have hkl := (List.getElem?_eq_some_iff.1 hp').1
  have hlt0' := hlt0 _ (List.getElem?_eq_getElem (show 0 < ids.length by omega))
  have e : dllInsertAfter s p x = .ok { insFin true true s ids (k + 1) x with tail := s.tail } := by
    simp only [dllInsertAfter, LL.setNext, LL.alloc, nx] at *
    have e : (if p = s.fresh then none else s.next p) = s.next p := by grind
    simp only [if_true, e]
    congr 1
    by_cases hk : k + 1 < ids.length
    · have hlt' := hlt _ (List.getElem?_eq_getElem hk)
      rw [if_pos hk, List.getElem?_eq_getElem hk] at h2
      rw [h2]
      apply LL.ext' <;> simp only [insFin, LL.setNext, LL.setPrev, LL.alloc] <;> grind
    · rw [if_neg hk, if_pos trivial, List.getElem?_eq_getElem (show 0 < ids.length by omega)] at h2
      rw [h2]
      apply LL.ext' <;> simp only [insFin, LL.setNext, LL.setPrev, LL.alloc] <;> grind
  rw [e, ok_bind]

theorem dllInsertBefore_eq {s : LL κ δ} {ids : List Nat} {l : List (Pay κ δ)} (R : Rep false true true s ids l)
    {k q : Nat} (hq : ids[k]? = some q) (x : Pay κ δ) :
    dllInsertBefore s q x = .ok (insFin false true s ids k x) := by
  have h1 := R.lt _ _ hq
  have h2 := R.prevs rfl _ _ (fun _ => rfl) hq
  have hlt := R.lt (k-1)
  have hkl := (List.getElem?_eq_some_iff.1 hq).1
  simp only [dllInsertBefore, LL.setNext, LL.setPrev, LL.alloc, pv] at *
  have e : (if s.fresh = q then some s.fresh else if q = s.fresh then none else s.prev q) = s.prev q := by grind
  simp only [if_true, e]
  congr 1
  by_cases hk : k = 0
  · simp [hk] at h2
    rw [h2]
    apply LL.ext' <;> simp only [insFin, LL.setNext, LL.setPrev, LL.alloc] <;> grind
  · have hk' : k - 1 < ids.length := by omega
    have hlt' := hlt _ (List.getElem?_eq_getElem hk')
    rw [if_neg hk, List.getElem?_eq_getElem hk'] at h2
    rw [h2]
    apply LL.ext' <;> simp only [insFin, LL.setNext, LL.setPrev, LL.alloc] <;> grind

theorem dcllInsertBefore_eq {hp : Bool} {s : LL κ δ} {ids : List Nat} {l : List (Pay κ δ)} (R : Rep true true hp s ids l)
    {k q : Nat} (hq : ids[k]? = some q) (x : Pay κ δ) (hhp : k = 0 → hp = true) :
    dcllInsertBefore s q x = .ok (insFin true true s ids k x) := by
  have h1 := R.lt _ _ hq
  have h2 := R.prevs rfl _ _ hhp hq
  have h3 := R.head
  have h4 := R.inj k 0
  have hlt := R.lt
  have hkl := (List.getElem?_eq_some_iff.1 hq).1
  simp only [dcllInsertBefore, dllInsertBefore, LL.setNext, LL.setPrev, LL.alloc, pv, ok_bind] at *
  have e : (if s.fresh = q then some s.fresh else if q = s.fresh then none else s.prev q) = s.prev q := by grind
  simp only [if_true, e]
  congr 1
  by_cases hk : k = 0
  · subst hk
    have hk' : ids.length - 1 < ids.length := by omega
    have hlt' := hlt _ _ (List.getElem?_eq_getElem hk')
    rw [if_pos rfl, if_pos trivial, List.getElem?_eq_getElem hk'] at h2
    rw [h2]
    dsimp only
    rw [if_pos (by rw [h3, hq])]
    apply LL.ext' <;> simp only [insFin, LL.setNext, LL.setPrev, LL.alloc] <;> grind
  · have hk' : k - 1 < ids.length := by omega
    have hlt' := hlt _ _ (List.getElem?_eq_getElem hk')
    rw [if_neg hk, List.getElem?_eq_getElem hk'] at h2
    rw [h2]
    dsimp only
    rw [if_neg (by rw [h3]; intro h; exact hk (h4 _ hq h.symm))]
    apply LL.ext' <;> simp only [insFin, LL.setNext, LL.setPrev, LL.alloc] <;> grind

end Model
namespace Model
open Py
variable {κ δ : Type}

theorem insRes_get {circ dbl hp : Bool} {s : LL κ δ} {ids : List Nat} {l : List (Pay κ δ)} (R : Rep circ dbl hp s ids l)
    {k : Nat} (hk : k ≤ ids.length) (x : Pay κ δ) (j : Nat) (hj : j ≤ ids.length) :
    llWalk (insRes circ dbl s ids k x) j =
      .ok (if j = 0 then none else (ids.insertIdx k s.fresh)[j - 1]?, (ids.insertIdx k s.fresh)[j]?) := by
  apply walk_run
  · have h := R.head
    rw [List.getElem?_insertIdx]
    simp only [insRes]
    grind
  · intro a i ha hi
    have h1 := R.nexts a i
    have h2 := R.nexts (a-1) i
    have h3 := R.lt
    have h4 := R.inj
    simp only [insRes, nx] at *
    rw [List.getElem?_insertIdx] at hi ⊢
    rw [List.length_insertIdx] at ha
    grind
  · rw [List.length_insertIdx]; grind

/-- The ring repair of `insert_at` in the circular lists, on a list that was not empty. -/
theorem scllInsertAt_eq {hp : Bool} {s : LL κ δ} {ids : List Nat} {l : List (Pay κ δ)} (R : Rep true false hp s ids l)
    {index : Int} {k : Nat} (hk : InsPos ids.length index k) (hc : index < 0 → k = 0 → ids.length = 0) (x : Pay κ δ) :
    scllInsertAt s index x = .ok (insFin true false s ids k x) := by
  have hsz : s.size = ids.length := by rw [R.size, R.len]
  rw [scllInsertAt, sllInsertAt_eq R hk, ok_bind]
  obtain ⟨hkn, hidx⟩ := hk
  by_cases h0 : ids.length = 0
  · have : ids = [] := List.length_eq_zero_iff.1 h0
    subst this
    have hk0 : k = 0 := by simpa using hkn
    subst hk0
    have hs1 : (insRes true false s [] 0 x).size = 1 := by simp [insRes, hsz]
    have hh : (insRes true false s [] 0 x).head = some s.fresh := by simp [insRes]
    rw [if_pos hs1, hh, deref, ok_bind, ok_bind]
    have hg : llGet ((insRes true false s [] 0 x).setNext s.fresh (some s.fresh)) index = .ok (some s.fresh) := by
      have hi : (if index < 0 then (((insRes true false s [] 0 x).setNext s.fresh (some s.fresh)).size : Int) + index else index) = (0 : Nat) := by
        simp only [LL.setNext, hs1]
        simp at hidx
        split <;> omega
      simp only [llGet]
      rw [hi, if_neg (by simp [LL.setNext, hs1])]
      rw [walk_run _ [s.fresh] (by simp [LL.setNext, hh]) (by intro k i hk; simp at hk) 0 (by simp)]
      rfl
    dsimp only
    rw [hg, ok_bind]
    simp only [deref, ok_bind, LL.setNext]
    have hidx' : index = 0 ∨ index = -1 := by simp at hidx; omega
    rcases hidx' with rfl | rfl
    · simp only [if_true, insRes, hh]
      simp only [if_pos, List.length_nil, ok_bind]
      congr 1
      apply LL.ext' <;> simp [insFin] <;> grind
    · simp [insRes, ok_bind]
      apply LL.ext' <;> simp [insFin] <;> grind
  · have hs1 : ¬ (insRes true false s ids k x).size = 1 := by simp only [insRes, hsz]; omega
    rw [if_neg hs1, ok_bind]
    have hlt := R.lt
    have hinj := R.inj
    have hhead := R.head
    have htail := R.tail
    have hnx := R.nexts
    have hl0 : ids.length - 1 < ids.length := by omega
    by_cases hneg : index < 0
    · have hk0 : 0 < k := by
        rcases Nat.eq_zero_or_pos k with h | h
        · exact absurd (hc hneg h) h0
        · exact h
      have hkk : k < ids.length := by omega
      have hg : llGet (insRes true false s ids k x) index = .ok ids[k]? := by
        have hi : (if index < 0 then ((insRes true false s ids k x).size : Int) + index else index) = ((k + 1 : Nat) : Int) := by
          simp only [insRes, hsz]; rw [if_pos hneg]; omega
        simp only [llGet]
        rw [hi, if_neg (by simp only [insRes, hsz]; omega), insRes_get R hkn x (k + 1) (by omega)]
        simp only [ok_bind, List.getElem?_insertIdx]
        rw [if_neg (by omega), if_neg (by omega)]
        rfl
      dsimp only
      rw [hg, ok_bind, if_neg (by omega), ok_bind, List.getElem?_eq_getElem hkk, deref, ok_bind]
      congr 1
      have e1 := hlt _ _ (List.getElem?_eq_getElem hkk)
      have e2 := hnx _ _ (List.getElem?_eq_getElem hkk)
      have e3 := hinj (k+1) 0
      have e4 := hinj (k-1) k
      clear hnx
      simp only [insRes, nx] at *
      split
      · apply LL.ext' <;> simp only [insFin, insRes, nx] <;> grind
      · apply LL.ext' <;> simp only [insFin, insRes, nx] <;> grind
    · have hik : index = k := by omega
      subst hik
      have hg : llGet (insRes true false s ids k x) k = .ok (some s.fresh) := by
        simp only [llGet]
        rw [if_neg hneg, if_neg (by simp only [insRes, hsz]; omega), insRes_get R hkn x k (by omega)]
        simp only [ok_bind, List.getElem?_insertIdx]
        simp [hkn]
      dsimp only
      rw [hg, ok_bind]
      by_cases hk0 : k = 0
      · subst hk0
        have ht : (insRes true false s ids 0 x).tail = some ids[ids.length - 1] := by
          simp only [insRes]; rw [if_neg (by omega), htail, List.getElem?_eq_getElem]
        rw [if_pos (by simp), ht, deref, ok_bind, ok_bind, deref, ok_bind]
        congr 1
        have e1 := hlt _ _ (List.getElem?_eq_getElem (show 0 < ids.length by omega))
        have e2 := hlt _ _ (List.getElem?_eq_getElem hl0)
        simp only [insRes, nx, LL.setNext] at *
        split
        · apply LL.ext' <;> simp only [insFin, insRes, nx] <;> grind
        · apply LL.ext' <;> simp only [insFin, insRes, nx] <;> grind
      · rw [if_neg (by omega), ok_bind, deref, ok_bind]
        congr 1
        have e3 := hinj k 0
        simp only [insRes, nx, LL.setNext] at *
        split
        · apply LL.ext' <;> simp only [insFin, insRes, nx] <;> grind
        · apply LL.ext' <;> simp only [insFin, insRes, nx] <;> grind

end Model

namespace Model
open Py
variable {κ δ : Type}

/-- `head.prev = tail` does not disturb a ring. -/
theorem Rep.fixHead {hp : Bool} {s : LL κ δ} {ids : List Nat} {l : List (Pay κ δ)} (R : Rep true true hp s ids l) {h : Nat}
    (hh : ids[0]? = some h) : Rep true true hp (s.setPrev h s.tail) ids l := by
  have h1 := R.inj 0
  have h2 := R.tail
  refine ⟨R.len, R.inj, R.lt, R.vals, R.nexts, ?_, R.head, R.tail, R.size, R.room⟩
  intro _ k i hk hi
  have h3 := R.prevs rfl k i hk hi
  have h4 := h1 k h hh
  simp only [LL.setPrev, pv] at *
  grind

/-- `head.prev = tail` puts `head.prev` right. -/
theorem Rep.fixHead' {hp : Bool} {s : LL κ δ} {ids : List Nat} {l : List (Pay κ δ)} (R : Rep true true hp s ids l) {h : Nat}
    (hh : ids[0]? = some h) : Rep true true true (s.setPrev h s.tail) ids l := by
  have h1 := R.inj 0
  have h2 := R.tail
  refine ⟨R.len, R.inj, R.lt, R.vals, R.nexts, ?_, R.head, R.tail, R.size, R.room⟩
  intro _ k i hk hi
  have h3 := R.prevs rfl k i
  have h4 := h1 k h hh
  simp only [LL.setPrev, pv] at *
  grind

/-- `head.prev` is right if it is the last node. -/
theorem Rep.headOk {hp : Bool} {s : LL κ δ} {ids : List Nat} {l : List (Pay κ δ)} (R : Rep true true hp s ids l)
    (h : ∀ i, ids[0]? = some i → s.prev i = ids[ids.length - 1]?) : Rep true true true s ids l := by
  refine ⟨R.len, R.inj, R.lt, R.vals, R.nexts, ?_, R.head, R.tail, R.size, R.room⟩
  intro _ k i hk hi
  by_cases h0 : k = 0
  · subst h0; rw [h i hi]; rfl
  · exact R.prevs rfl k i (fun h => absurd h h0) hi

/-- An insertion at either end puts `head.prev` right. -/
theorem Rep.insEnd {hp : Bool} {s : LL κ δ} {ids : List Nat} {l : List (Pay κ δ)} (R : Rep true true hp s ids l)
    {k : Nat} (hk : k ≤ ids.length) (x : Pay κ δ) (he : k = 0 ∨ k = ids.length) :
    Rep true true true (insFin true true s ids k x) (ids.insertIdx k s.fresh) (l.insertIdx k x) := by
  refine (R.ins hk x).headOk ?_
  intro i hi
  have hlt := R.lt 0 i
  rw [List.getElem?_insertIdx] at hi
  simp only [insFin, List.getElem?_insertIdx, List.length_insertIdx]
  grind

theorem dcllInsertAt_eq {hp : Bool} {s : LL κ δ} {ids : List Nat} {l : List (Pay κ δ)} (R : Rep true true hp s ids l)
    {index : Int} {k : Nat} (hk : InsPos ids.length index k) (hc : index < 0 → k = 0 → ids.length = 0) (x : Pay κ δ) :
    ∃ s', dcllInsertAt s index x = .ok s' ∧ Rep true true hp s' (ids.insertIdx k s.fresh) (l.insertIdx k x) ∧
      (k = 0 ∨ k = ids.length ∨ index = -1 → Rep true true true s' (ids.insertIdx k s.fresh) (l.insertIdx k x)) ∧
      (¬(k = 0 ∨ k = ids.length ∨ index = -1) → s' = insFin true true s ids k x) := by
  have hsz : s.size = ids.length := by rw [R.size, R.len]
  have RR := R.ins hk.1 x
  have RT := R.insEnd hk.1 x
  rw [dcllInsertAt, dllInsertAt_eq R hk, ok_bind]
  obtain ⟨hkn, hidx⟩ := hk
  by_cases h0 : ids.length = 0
  · have : ids = [] := List.length_eq_zero_iff.1 h0
    subst this
    have hk0 : k = 0 := by simpa using hkn
    subst hk0
    have hs1 : (insRes true true s [] 0 x).size = 1 := by simp [insRes, hsz]
    have hh : (insRes true true s [] 0 x).head = some s.fresh := by simp [insRes]
    rw [if_pos hs1, hh, deref, ok_bind, ok_bind]
    have hg : llGet (((insRes true true s [] 0 x).setNext s.fresh (some s.fresh)).setPrev s.fresh (some s.fresh)) index = .ok (some s.fresh) := by
      have hi : (if index < 0 then ((((insRes true true s [] 0 x).setNext s.fresh (some s.fresh)).setPrev s.fresh (some s.fresh)).size : Int) + index else index) = (0 : Nat) := by
        simp only [LL.setNext, LL.setPrev, hs1]
        simp at hidx
        split <;> omega
      simp only [llGet]
      rw [hi, if_neg (by simp [LL.setNext, LL.setPrev, hs1])]
      rw [walk_run _ [s.fresh] (by simp [LL.setNext, LL.setPrev, hh]) (by intro k i hk; simp at hk) 0 (by simp)]
      rfl
    dsimp only
    rw [hg, ok_bind]
    refine ⟨insFin true true s [] 0 x, ?_, RR, fun _ => RT (Or.inl rfl), fun _ => rfl⟩
    simp only [deref, ok_bind, LL.setNext, LL.setPrev]
    have hidx' : index = 0 ∨ index = -1 := by simp at hidx; omega
    rcases hidx' with rfl | rfl
    · simp only [if_true, insRes, hh]
      simp only [if_pos, List.length_nil, ok_bind]
      congr 1
      apply LL.ext' <;> simp [insFin] <;> grind
    · simp [insRes, ok_bind]
      apply LL.ext' <;> simp [insFin] <;> grind
  · have hs1 : ¬ (insRes true true s ids k x).size = 1 := by simp only [insRes, hsz]; omega
    rw [if_neg hs1, ok_bind]
    have hlt := R.lt
    have hinj := R.inj
    have hhead := R.head
    have htail := R.tail
    have hnx := R.nexts
    have hl0 : ids.length - 1 < ids.length := by omega
    have hl1 : 0 < ids.length := by omega
    have f0 := hlt _ _ (List.getElem?_eq_getElem hl0)
    have f1 := hlt _ _ (List.getElem?_eq_getElem hl1)
    by_cases hneg : index < 0
    · have hk0 : 0 < k := by
        rcases Nat.eq_zero_or_pos k with h | h
        · exact absurd (hc hneg h) h0
        · exact h
      have hkk : k < ids.length := by omega
      have hg : llGet (insRes true true s ids k x) index = .ok ids[k]? := by
        have hi : (if index < 0 then ((insRes true true s ids k x).size : Int) + index else index) = ((k + 1 : Nat) : Int) := by
          simp only [insRes, hsz]; rw [if_pos hneg]; omega
        simp only [llGet]
        rw [hi, if_neg (by simp only [insRes, hsz]; omega), insRes_get R hkn x (k + 1) (by omega)]
        simp only [ok_bind, List.getElem?_insertIdx]
        rw [if_neg (by omega), if_neg (by omega)]
        rfl
      dsimp only
      rw [hg, ok_bind, if_neg (by omega), ok_bind, List.getElem?_eq_getElem hkk, deref, ok_bind]
      have e1 := hlt _ _ (List.getElem?_eq_getElem hkk)
      have e2 := hnx _ _ (List.getElem?_eq_getElem hkk)
      have e3 := hinj (k+1) 0
      have e4 := hinj (k-1) k
      have eqs : insRes true true s ids k x = insFin true true s ids k x := by
        apply LL.ext' <;> simp only [insFin, insRes, nx] <;> grind
      rw [eqs]
      have n1 : (insFin true true s ids k x).next ids[k] = nx true ids k := by
        simp only [insFin]; grind
      have n2 : (insFin true true s ids k x).head = ids[0]? := by
        simp only [insFin]; grind
      have n3 : (ids.insertIdx k s.fresh)[0]? = some ids[0] := by
        rw [List.getElem?_insertIdx, if_pos hk0, List.getElem?_eq_getElem hl1]
      by_cases hke : k + 1 = ids.length
      · have n4 : nx true ids k = some ids[0] := by
          rw [nx, if_neg (by omega), if_pos rfl, List.getElem?_eq_getElem hl1]
        rw [n1, n2, n4, List.getElem?_eq_getElem hl1, if_pos rfl]
        simp only [deref, ok_bind]
        refine ⟨_, rfl, ?_⟩
        have := RR.fixHead n3
        have this2 := RR.fixHead' n3
        have n5 : (insFin true true s ids k x).tail = some ids[k] := by
          simp only [insFin]; grind
        rw [n5] at this this2
        have eqf : ∀ a b : LL κ δ, a = b → Rep true true hp b (ids.insertIdx k s.fresh) (l.insertIdx k x) →
            Rep true true true b (ids.insertIdx k s.fresh) (l.insertIdx k x) →
            Rep true true hp a (ids.insertIdx k s.fresh) (l.insertIdx k x) ∧
            (k = 0 ∨ k = ids.length ∨ index = -1 → Rep true true true a (ids.insertIdx k s.fresh) (l.insertIdx k x)) ∧
            (¬(k = 0 ∨ k = ids.length ∨ index = -1) → a = insFin true true s ids k x) := by
          rintro a b rfl h1 h2
          exact ⟨h1, fun _ => h2, fun h => by omega⟩
        refine eqf _ _ ?_ this this2
        apply LL.ext' <;> simp only [LL.setNext, LL.setPrev] <;> grind
      · rw [n1, n2, if_neg]
        · exact ⟨_, rfl, RR, fun h => by omega, fun _ => rfl⟩
        · rw [nx, if_pos (by omega), List.getElem?_eq_getElem (by omega : k + 1 < ids.length)]
          intro h
          have := hinj (k+1) 0 _ (List.getElem?_eq_getElem (by omega : k + 1 < ids.length)) h.symm
          omega
    · have hik : index = k := by omega
      subst hik
      have hg : llGet (insRes true true s ids k x) k = .ok (some s.fresh) := by
        simp only [llGet]
        rw [if_neg hneg, if_neg (by simp only [insRes, hsz]; omega), insRes_get R hkn x k (by omega)]
        simp only [ok_bind, List.getElem?_insertIdx]
        simp [hkn]
      dsimp only
      rw [hg, ok_bind]
      refine ⟨insFin true true s ids k x, ?_, RR, fun h => RT (by omega), fun _ => rfl⟩
      by_cases hk0 : k = 0
      · subst hk0
        have ht : (insRes true true s ids 0 x).tail = some ids[ids.length - 1] := by
          simp only [insRes]; rw [if_neg (by omega), htail, List.getElem?_eq_getElem]
        rw [if_pos (by simp), ht, deref, ok_bind, deref, ok_bind, ok_bind, ok_bind]
        have n1 : (((insRes true true s ids 0 x).setNext ids[ids.length - 1] (some s.fresh)).setPrev s.fresh ((insRes true true s ids 0 x).setNext ids[ids.length - 1] (some s.fresh)).tail) =
          insFin true true s ids 0 x := by
          apply LL.ext' <;> simp only [insFin, insRes, nx, LL.setNext, LL.setPrev] <;> grind
        rw [n1, if_neg]
        simp only [insFin]
        grind
      · rw [if_neg (by omega), ok_bind, deref, ok_bind]
        have e3 := hinj k 0
        have n2 : (insRes true true s ids k x).head = some ids[0] := by
          simp only [insRes]; grind
        by_cases hke : k = ids.length
        · have n1 : (insRes true true s ids k x).next s.fresh = some ids[0] := by
            simp only [insRes, nx]; grind
          rw [n1, n2, if_pos rfl]
          simp only [LL.setNext, n2, deref, ok_bind, LL.setPrev]
          congr 1
          apply LL.ext' <;> simp only [insFin, insRes, nx] <;> grind
        · rw [n2, if_neg]
          · congr 1
            apply LL.ext' <;> simp only [insFin, insRes, nx] <;> grind
          · simp only [insRes, nx]; grind

end Model

namespace Model
open Py
variable {κ δ : Type}

/-- The Python index `index` denotes the position `k` of an element of a list of length `n`. -/
def ExtPos (n : Nat) (index : Int) (k : Nat) : Prop := k < n ∧ (index = k ∨ (index < 0 ∧ index + n = k))

/-- The state after removing the node at position `k`. -/
def extFin (circ dbl : Bool) (s : LL κ δ) (ids : List Nat) (k : Nat) : LL κ δ where
  val := s.val
  next := fun j => if 0 < k ∧ ids[k - 1]? = some j then nx circ ids k
    else if circ ∧ k = 0 ∧ 1 < ids.length ∧ ids[ids.length - 1]? = some j then ids[1]? else s.next j
  prev := fun j => if dbl ∧ nx circ ids k = some j then (if k = 0 then none else ids[k - 1]?) else s.prev j
  fresh := s.fresh
  head := if k = 0 then (if ids.length = 1 then none else ids[1]?) else s.head
  tail := if k + 1 = ids.length then (if k = 0 then none else ids[k - 1]?) else s.tail
  size := s.size - 1

theorem Rep.ext {circ dbl hp hp' : Bool} {s : LL κ δ} {ids : List Nat} {l : List (Pay κ δ)} (R : Rep circ dbl hp s ids l)
    {k : Nat} (hk : k < ids.length) (h1 : hp' = true → hp = true)
    (h2 : hp' = true → circ = true → dbl = true → k = 0 → ids.length = 1) :
    Rep circ dbl hp' (extFin circ dbl s ids k) (ids.eraseIdx k) (l.eraseIdx k) := by
  obtain ⟨len, inj, lt, vals, nexts, prevs, head, tail, size, room⟩ := R
  constructor
  · simp [List.length_eraseIdx, len]
  · intro a b i ha hb
    rw [List.getElem?_eraseIdx] at ha hb
    grind
  · intro j i hj
    rw [List.getElem?_eraseIdx] at hj
    simp only [extFin]
    grind
  · intro j i hj
    rw [List.getElem?_eraseIdx] at hj
    rw [List.getElem?_eraseIdx]
    simp only [extFin]
    grind
  · intro j i hj
    rw [List.getElem?_eraseIdx] at hj
    simp only [extFin, nx, List.getElem?_eraseIdx, List.length_eraseIdx]
    have h1 := nexts (j+1) i
    have h2 := nexts j i
    clear nexts prevs vals
    simp only [nx] at *
    grind
  · intro h j i hj0 hj
    rw [List.getElem?_eraseIdx] at hj
    simp only [extFin, pv, nx, List.getElem?_eraseIdx, List.length_eraseIdx]
    have h1 := prevs h (j+1) i
    have h2 := prevs h j i
    clear nexts prevs vals
    simp only [pv] at *
    grind
  · simp only [extFin, List.getElem?_eraseIdx]; grind
  · simp only [extFin, List.getElem?_eraseIdx, List.length_eraseIdx]; grind
  · simp [extFin, size, List.length_eraseIdx]; grind
  · simp [extFin, List.length_eraseIdx]; grind

/-- The state after `extract` of the linear lists, before any repair of the ring. -/
def extRes (circ dbl : Bool) (s : LL κ δ) (ids : List Nat) (k : Nat) : LL κ δ where
  val := s.val
  next := fun j => if 0 < k ∧ ids[k - 1]? = some j then nx circ ids k else s.next j
  prev := fun j => if dbl ∧ nx circ ids k = some j then (if k = 0 then none else ids[k - 1]?) else s.prev j
  fresh := s.fresh
  head := if k = 0 then nx circ ids 0 else s.head
  tail := if k + 1 = ids.length then (if k = 0 then none else ids[k - 1]?) else s.tail
  size := s.size - 1

theorem extRes_linear (dbl : Bool) (s : LL κ δ) (ids : List Nat) (k : Nat) (hk : k < ids.length) :
    extRes false dbl s ids k = extFin false dbl s ids k := by
  apply LL.ext' <;> simp only [extRes, extFin, nx] <;> grind

theorem sllExtract_eq {circ dbl hp : Bool} {s : LL κ δ} {ids : List Nat} {l : List (Pay κ δ)} (R : Rep circ dbl hp s ids l)
    {index : Int} {k : Nat} (hk : ExtPos ids.length index k) {c : Nat} (hc : ids[k]? = some c) :
    sllExtract s index = .ok (extRes circ false s ids k, c) := by
  have hsz : s.size = ids.length := by rw [R.size, R.len]
  obtain ⟨hkn, hidx⟩ := hk
  have hi : (if index < 0 then (s.size : Int) + index else index) = (k : Int) := by
    rw [hsz]; split <;> omega
  unfold sllExtract
  dsimp only
  rw [if_neg (by omega), hi, if_neg (by omega)]
  have hw := walk_run ({ s with size := s.size - 1 } : LL κ δ) ids R.head (by
    intro k i hk hi
    have h2 := R.nexts _ _ hi
    dsimp only
    rw [h2, nx, if_pos hk]) k hkn
  rw [hw, ok_bind, hc]
  simp only [deref, ok_bind]
  have hn := R.nexts _ _ hc
  have e4 := R.inj (k-1) k
  by_cases hk0 : k = 0
  · subst hk0
    simp only [if_true, if_pos, Int.natCast_zero]
    congr 2
    apply LL.ext' <;> simp only [extRes] <;> grind
  · have : k - 1 < ids.length := by omega
    rw [if_neg hk0, List.getElem?_eq_getElem this]
    dsimp only
    congr 2
    apply LL.ext' <;> simp only [extRes, LL.setNext] <;> grind

theorem dllExtract_eq {circ hp : Bool} {s : LL κ δ} {ids : List Nat} {l : List (Pay κ δ)} (R : Rep circ true hp s ids l)
    {index : Int} {k : Nat} (hk : ExtPos ids.length index k) {c : Nat} (hc : ids[k]? = some c) (hhp : hp = true ∨ circ = true) :
    dllExtract s index = .ok (extRes circ true s ids k, c) := by
  have hsz : s.size = ids.length := by rw [R.size, R.len]
  obtain ⟨hkn, hidx⟩ := hk
  have hi : (if index < 0 then (s.size : Int) + index else index) = (k : Int) := by
    rw [hsz]; split <;> omega
  unfold dllExtract
  dsimp only
  rw [if_neg (by omega), hi, if_neg (by omega)]
  have hw := walk_run ({ s with size := s.size - 1 } : LL κ δ) ids R.head (by
    intro k i hk hi
    have h2 := R.nexts _ _ hi
    dsimp only
    rw [h2, nx, if_pos hk]) k hkn
  rw [hw, ok_bind, hc]
  simp only [deref, ok_bind]
  have hn := R.nexts _ _ hc
  have hpv := fun h => R.prevs rfl _ _ h hc
  have e4 := R.inj (k-1) k
  have e5 := R.inj
  by_cases hk0 : k = 0
  · subst hk0
    simp only [if_true, if_pos, Int.natCast_zero]
    rw [hn]
    cases hq : nx circ ids 0 with
    | none =>
      dsimp only
      congr 2
      apply LL.ext' <;> simp only [extRes, nx, pv] at * <;> grind
    | some q =>
      simp only [LL.setPrev]
      congr 2
      apply LL.ext' <;> simp only [extRes, nx, pv] at * <;> grind
  · have : k - 1 < ids.length := by omega
    have hpv := hpv (fun h => absurd h hk0)
    rw [if_neg hk0, List.getElem?_eq_getElem this]
    dsimp only
    have hne : c ≠ ids[k-1] := by
      intro h
      have := e4 c (by rw [h, List.getElem?_eq_getElem]) hc
      omega
    simp only [LL.setNext, if_neg hne, hn]
    cases hq : nx circ ids k with
    | none =>
      dsimp only
      congr 2
      apply LL.ext' <;> simp only [extRes, nx, pv] at * <;> grind
    | some q =>
      simp only [LL.setPrev]
      congr 2
      apply LL.ext' <;> simp only [extRes, nx, pv] at * <;> grind

/-- The repair of the ring in `extract` of the circular lists. -/
theorem ringExtract_eq {dbl hp : Bool} {s : LL κ δ} {ids : List Nat} {l : List (Pay κ δ)} (R : Rep true dbl hp s ids l)
    {index : Int} {k : Nat} (hk : ExtPos ids.length index k) (hc : index < 0 → k = 0 → ids.length = 1) (c : Nat) :
    (match (extRes true dbl s ids k).tail with
      | none => (.ok ({ extRes true dbl s ids k with head := none }, c) : PyM _)
      | some t => .ok (if index = 0 then (extRes true dbl s ids k).setNext t (extRes true dbl s ids k).head else extRes true dbl s ids k, c)) =
    .ok (extFin true dbl s ids k, c) := by
  obtain ⟨hkn, hidx⟩ := hk
  have htail := R.tail
  have hhead := R.head
  have hinj := R.inj
  by_cases h1 : ids.length = 1
  · have hk0 : k = 0 := by omega
    subst hk0
    have ht : (extRes true dbl s ids 0).tail = none := by simp [extRes, h1]
    rw [ht]
    dsimp only
    congr 2
    apply LL.ext' <;> simp only [extRes, extFin, nx] <;> grind
  · have ht : (extRes true dbl s ids k).tail = ids[if k + 1 = ids.length then k - 1 else ids.length - 1]? := by
      simp only [extRes]; grind
    have hlt : (if k + 1 = ids.length then k - 1 else ids.length - 1) < ids.length := by split <;> omega
    rw [ht, List.getElem?_eq_getElem hlt]
    dsimp only
    congr 2
    by_cases hk0 : k = 0
    · rw [if_pos (by omega)]
      apply LL.ext' <;> simp only [extRes, extFin, nx, LL.setNext] <;> grind
    · rw [if_neg (by omega)]
      apply LL.ext' <;> simp only [extRes, extFin, nx, LL.setNext] <;> grind

theorem scllExtract_eq {hp : Bool} {s : LL κ δ} {ids : List Nat} {l : List (Pay κ δ)} (R : Rep true false hp s ids l)
    {index : Int} {k : Nat} (hk : ExtPos ids.length index k) {c : Nat} (hc : ids[k]? = some c)
    (hneg : index < 0 → k = 0 → ids.length = 1) :
    scllExtract s index = .ok (extFin true false s ids k, c) := by
  rw [scllExtract, sllExtract_eq R hk hc, ok_bind]
  exact ringExtract_eq R hk hneg c

theorem dcllExtract_eq {hp : Bool} {s : LL κ δ} {ids : List Nat} {l : List (Pay κ δ)} (R : Rep true true hp s ids l)
    {index : Int} {k : Nat} (hk : ExtPos ids.length index k) {c : Nat} (hc : ids[k]? = some c)
    (hneg : index < 0 → k = 0 → ids.length = 1) :
    dcllExtract s index = .ok (extFin true true s ids k, c) := by
  rw [dcllExtract, dllExtract_eq R hk hc (Or.inr rfl), ok_bind]
  exact ringExtract_eq R hk hneg c

end Model

