import Verif.Lemmas.LinkedListWalk

set_option linter.unusedSimpArgs false
set_option linter.unusedVariables false

namespace Model
open Py

variable {κ δ : Type}

/-- The store holds the nodes `ids`, in this order, with the contents `l`; `next` of the last one is the node `j`, whatever that is. -/
structure RRep (s : LL κ δ) (ids : List Nat) (l : List (Pay κ δ)) (j : Nat) : Prop where
  len : ids.length = l.length
  inj : ∀ (a b i : Nat), ids[a]? = some i → ids[b]? = some i → a = b
  lt : ∀ (k i : Nat), ids[k]? = some i → i < s.fresh
  vals : ∀ (k i : Nat), ids[k]? = some i → s.val i = l[k]?
  nexts : ∀ (k i : Nat), k + 1 < ids.length → ids[k]? = some i → s.next i = ids[k + 1]?
  last : ∀ i, ids[ids.length - 1]? = some i → s.next i = some j
  head : s.head = ids[0]?
  tail : s.tail = ids[ids.length - 1]?
  size : s.size = l.length
  room : ids.length ≤ s.fresh
  jlt : ids ≠ [] → j < s.fresh

theorem RRep.toRep {s : LL κ δ} {ids : List Nat} {l : List (Pay κ δ)} {j : Nat} (R : RRep s ids l j)
    (h : ids = [] ∨ ids[0]? = some j) : Rep true false true s ids l := by
  refine ⟨R.len, R.inj, R.lt, R.vals, ?_, (by intro h; cases h), R.head, R.tail, R.size, R.room⟩
  intro k i hi
  have hk := (List.getElem?_eq_some_iff.1 hi).1
  rw [nx]
  by_cases h1 : k + 1 < ids.length
  · rw [if_pos h1]; exact R.nexts k i h1 hi
  · rw [if_neg h1]
    have : k = ids.length - 1 := by omega
    subst this
    rcases h with rfl | h
    · simp at hi
    · simp only [if_true, h]; exact R.last i hi

theorem Rep.toRRep {s : LL κ δ} {ids : List Nat} {l : List (Pay κ δ)} {hp : Bool} (R : Rep true false hp s ids l) :
    ∃ j, RRep s ids l j ∧ (ids = [] ∨ ids[0]? = some j) := by
  obtain ⟨len, inj, lt, vals, nexts, prevs, head, tail, size, room⟩ := R
  cases ids with
  | nil => exact ⟨0, ⟨len, inj, lt, vals, by simp, by simp, head, tail, size, room, by simp⟩, Or.inl rfl⟩
  | cons j ids =>
    refine ⟨j, ⟨len, inj, lt, vals, ?_, ?_, head, tail, size, room, ?_⟩, Or.inr rfl⟩
    · intro k i hk hi
      rw [nexts k i hi, nx, if_pos hk]
    · intro i hi
      rw [nexts _ i hi, nx, if_neg (by simp)]; rfl
    · intro _; exact lt 0 j rfl

theorem RRep.get {s : LL κ δ} {ids : List Nat} {l : List (Pay κ δ)} {j : Nat} (R : RRep s ids l j)
    {index : Int} {k : Nat} (hk : ExtPos ids.length index k) : llGet s index = .ok ids[k]? := by
  have hsz : s.size = ids.length := by rw [R.size, R.len]
  obtain ⟨hkn, hidx⟩ := hk
  have hi : (if index < 0 then (s.size : Int) + index else index) = (k : Int) := by
    rw [hsz]; split <;> omega
  simp only [llGet]
  rw [hi, if_neg (by omega), walk_run s ids R.head R.nexts k hkn]
  rfl

/-- The state after `SinglyLinkedList.insert_at`, at position `k` of a list that is not empty. -/
def rIns (s : LL κ δ) (ids : List Nat) (j : Nat) (k : Nat) (x : Pay κ δ) : LL κ δ where
  val := fun i => if i = s.fresh then some x else s.val i
  next := fun i => if i = s.fresh then (if k < ids.length then ids[k]? else some j)
    else if 0 < k ∧ ids[k - 1]? = some i then some s.fresh else s.next i
  prev := fun i => if i = s.fresh then none else s.prev i
  fresh := s.fresh + 1
  head := if k = 0 then some s.fresh else s.head
  tail := if k = ids.length then some s.fresh else s.tail
  size := s.size + 1

theorem RRep.sllInsertAt {s : LL κ δ} {ids : List Nat} {l : List (Pay κ δ)} {j : Nat} (R : RRep s ids l j)
    {index : Int} {k : Nat} (hk : InsPos ids.length index k) (h0 : ids.length ≠ 0) (x : Pay κ δ) :
    sllInsertAt s index x = .ok (rIns s ids j k x) := by
  have hsz : s.size = ids.length := by rw [R.size, R.len]
  obtain ⟨hkn, hidx⟩ := hk
  have hi : (if (if s.size = 0 ∧ (index = 0 ∨ index = -1) then 0 else index) < 0 then
      (s.size : Int) + (if s.size = 0 ∧ (index = 0 ∨ index = -1) then 0 else index)
      else (if s.size = 0 ∧ (index = 0 ∨ index = -1) then 0 else index)) = (k : Int) := by
    rw [hsz]; split <;> split <;> omega
  unfold Model.sllInsertAt
  dsimp only
  rw [hi, if_neg (by omega)]
  rw [if_neg (by omega)]
  by_cases hke : k = ids.length
  · rw [if_pos (by omega)]
    have ht : s.tail = some (ids[ids.length - 1]'(by omega)) := by rw [R.tail, List.getElem?_eq_getElem]
    have hlt := R.lt _ _ (List.getElem?_eq_getElem (show ids.length - 1 < ids.length by omega))
    have hnx := R.last _ (List.getElem?_eq_getElem (show ids.length - 1 < ids.length by omega))
    simp only [LL.alloc, ht, deref, ok_bind]
    congr 1
    subst hke
    apply LL.ext' <;> simp [rIns, LL.setNext]
    · intro j; grind
    · intro h; simp [h] at h0
  · rw [if_neg (by omega)]
    have hw := walk_run ({ s.alloc x with size := s.size + 1 } : LL κ δ) ids R.head (by
      intro k i hk hi
      have h1 := R.lt _ _ hi
      have h2 := R.nexts _ _ hk hi
      simp only [LL.alloc]
      rw [if_neg (by omega), h2]) k (by omega)
    rw [hw, ok_bind]
    have hlt := fun i hi => R.lt k i hi
    have hlt1 := fun i hi => R.lt (k-1) i hi
    have hkl : k < ids.length := by omega
    rw [List.getElem?_eq_getElem hkl]
    congr 1
    by_cases hk0 : k = 0
    · subst hk0
      apply LL.ext' <;> simp [rIns, LL.setNext, LL.alloc] <;> grind
    · have : k - 1 < ids.length := by omega
      have hh := hlt1 _ (List.getElem?_eq_getElem this)
      rw [if_neg hk0, List.getElem?_eq_getElem this]
      dsimp only
      apply LL.ext' <;> simp [rIns, LL.setNext, LL.alloc] <;> grind

theorem RRep.ins {s : LL κ δ} {ids : List Nat} {l : List (Pay κ δ)} {j : Nat} (R : RRep s ids l j)
    {k : Nat} (hk : k ≤ ids.length) (h0 : ids.length ≠ 0) (x : Pay κ δ) :
    RRep (rIns s ids j k x) (ids.insertIdx k s.fresh) (l.insertIdx k x) j := by
  obtain ⟨len, inj, lt, vals, nexts, last, head, tail, size, room, jlt⟩ := R
  constructor
  · simp [List.length_insertIdx, len]
  · intro a b i ha hb
    rw [List.getElem?_insertIdx] at ha hb
    grind
  · intro j i hj
    rw [List.getElem?_insertIdx] at hj
    simp only [rIns]
    grind
  · intro j i hj
    rw [List.getElem?_insertIdx] at hj
    rw [List.getElem?_insertIdx]
    simp only [rIns]
    grind
  · intro a i ha hi
    rw [List.getElem?_insertIdx] at hi
    rw [List.length_insertIdx] at ha
    simp only [rIns, List.getElem?_insertIdx]
    have h1 := nexts (a-1) i
    have h2 := nexts a i
    clear nexts vals last
    grind
  · intro i hi
    rw [List.getElem?_insertIdx, List.length_insertIdx] at hi
    simp only [rIns]
    have h1 := last i
    clear nexts vals last
    grind
  · simp only [rIns, List.getElem?_insertIdx]; grind
  · simp only [rIns, List.getElem?_insertIdx, List.length_insertIdx]; grind
  · simp [rIns, size, List.length_insertIdx]; omega
  · simp only [rIns, List.length_insertIdx]; split <;> omega
  · intro _
    have := jlt (by intro h; simp [h] at h0)
    simp only [rIns]; omega

/-- Giving the last node another `next`. -/
theorem RRep.relink {s : LL κ δ} {ids : List Nat} {l : List (Pay κ δ)} {j : Nat} (R : RRep s ids l j) {t g : Nat}
    (ht : s.tail = some t) (hg : g < s.fresh) : RRep (s.setNext t (some g)) ids l g := by
  obtain ⟨len, inj, lt, vals, nexts, last, head, tail, size, room, jlt⟩ := R
  rw [ht] at tail
  refine ⟨len, inj, lt, vals, ?_, ?_, head, by rw [← tail]; exact ht, size, room, fun _ => hg⟩
  · intro k i hk hi
    have := inj k (ids.length - 1) i hi
    simp only [LL.setNext]
    rw [if_neg, nexts k i hk hi]
    intro h
    have := this (by rw [h, ← tail])
    omega
  · intro i hi
    rw [hi] at tail
    injection tail with tail
    simp only [LL.setNext, tail, if_true]

/-- `insert_at` of the circular list: the ring is closed by index `0` and by the first insertion. -/
theorem RRep.scllInsertAt {s : LL κ δ} {ids : List Nat} {l : List (Pay κ δ)} {j : Nat} (R : RRep s ids l j)
    {index : Int} {k : Nat} (hk : InsPos ids.length index k) (x : Pay κ δ) :
    ∃ s' j', scllInsertAt s index x = .ok s' ∧ RRep s' (ids.insertIdx k s.fresh) (l.insertIdx k x) j' ∧
      (index = 0 ∨ ids = [] → (ids.insertIdx k s.fresh)[0]? = some j') ∧ (¬(index = 0 ∨ ids = []) → j' = j) := by
  by_cases h0 : ids.length = 0
  · have he : ids = [] := List.length_eq_zero_iff.1 h0
    have R1 := R.toRep (Or.inl he)
    have R2 := R1.ins hk.1 x
    obtain ⟨j', R3, h3⟩ := R2.toRRep
    refine ⟨_, j', scllInsertAt_eq R1 hk (fun _ _ => h0) x, R3, fun _ => ?_, fun h => absurd (Or.inr he) h⟩
    rcases h3 with h3 | h3
    · subst he
      have hk0 : k = 0 := by simpa using hk.1
      subst hk0
      simp at h3
    · exact h3
  · have hsz : s.size = ids.length := by rw [R.size, R.len]
    have hne : ids ≠ [] := by intro h; simp [h] at h0
    have RI := R.ins hk.1 h0 x
    rw [Model.scllInsertAt, R.sllInsertAt hk h0, ok_bind]
    obtain ⟨hkn, hidx⟩ := hk
    have hs1 : ¬ (rIns s ids j k x).size = 1 := by simp only [rIns, hsz]; omega
    rw [if_neg hs1, ok_bind]
    dsimp only
    have hil : (ids.insertIdx k s.fresh).length = ids.length + 1 := by rw [List.length_insertIdx, if_pos hkn]
    have hfin : ∀ (t : LL κ δ) (n : Nat) (a j' : Nat), RRep t (ids.insertIdx k s.fresh) (l.insertIdx k x) j' →
        (ids.insertIdx k s.fresh)[a]? = some n →
        RRep (if t.next n = t.head then { t with tail := some n } else t) (ids.insertIdx k s.fresh) (l.insertIdx k x) j' := by
      intro t n a j' Rt hn
      split
      · rename_i h
        have ha := (List.getElem?_eq_some_iff.1 hn).1
        have : a = (ids.insertIdx k s.fresh).length - 1 := by
          refine Classical.byContradiction fun hc => ?_
          have h1 := Rt.nexts a n (by omega) hn
          rw [h1, Rt.head, List.getElem?_eq_getElem (by omega : a + 1 < (ids.insertIdx k s.fresh).length)] at h
          have := Rt.inj (a + 1) 0 _ (List.getElem?_eq_getElem (by omega)) h.symm
          omega
        subst this
        exact ⟨Rt.len, Rt.inj, Rt.lt, Rt.vals, Rt.nexts, Rt.last, Rt.head, hn.symm, Rt.size, Rt.room, Rt.jlt⟩
      · exact Rt
    by_cases hneg : index < 0
    · have hg : llGet (rIns s ids j k x) index = .ok (ids.insertIdx k s.fresh)[k + 1]? := by
        refine RI.get ⟨by omega, Or.inr ⟨hneg, ?_⟩⟩
        rw [hil]; omega
      have hkl : k + 1 < (ids.insertIdx k s.fresh).length := by omega
      rw [hg, ok_bind, if_neg (by omega), ok_bind, List.getElem?_eq_getElem hkl, deref, ok_bind]
      refine ⟨_, j, rfl, hfin _ _ (k + 1) j RI (List.getElem?_eq_getElem hkl), ?_, fun _ => rfl⟩
      rintro (h | h)
      · omega
      · exact absurd h hne
    · have hik : index = k := by omega
      subst hik
      have hg : llGet (rIns s ids j k x) k = .ok (ids.insertIdx k s.fresh)[k]? := RI.get ⟨by omega, Or.inl rfl⟩
      have hgk : (ids.insertIdx k s.fresh)[k]? = some s.fresh := by
        rw [List.getElem?_insertIdx]; simp [hkn]
      rw [hg, ok_bind, hgk]
      by_cases hk0 : k = 0
      · subst hk0
        have ht : (rIns s ids j 0 x).tail = some ids[ids.length - 1] := by
          simp only [rIns]; rw [if_neg (by omega), R.tail, List.getElem?_eq_getElem]
        rw [if_pos (by simp), ht, deref, ok_bind, ok_bind, deref, ok_bind]
        have RR := RI.relink ht (g := s.fresh) (by simp [rIns])
        refine ⟨_, s.fresh, rfl, hfin _ _ 0 s.fresh RR hgk, fun _ => hgk, fun h => absurd (Or.inl rfl) h⟩
      · rw [if_neg (by omega), ok_bind, deref, ok_bind]
        refine ⟨_, j, rfl, hfin _ _ k j RI hgk, ?_, fun _ => rfl⟩
        rintro (h | h)
        · omega
        · exact absurd h hne

/-- `insert_after` a node that is not the last one. -/
theorem RRep.scllInsertAfter {s : LL κ δ} {ids : List Nat} {l : List (Pay κ δ)} {j : Nat} (R : RRep s ids l j)
    {k p : Nat} (hp : ids[k]? = some p) (hk : k + 1 < ids.length) (x : Pay κ δ) :
    ∃ s', scllInsertAfter s p x = .ok s' ∧ RRep s' (ids.insertIdx (k + 1) s.fresh) (l.insertIdx (k + 1) x) j := by
  have RI := R.ins (k := k + 1) (by omega) (by omega) x
  have h1 := R.lt _ _ hp
  have h2 := R.nexts _ _ hk hp
  have e : sllInsertAfter s p x = .ok (rIns s ids j (k + 1) x) := by
    unfold sllInsertAfter
    dsimp only
    have e1 : ids[k + 1]? = some ids[k + 1] := List.getElem?_eq_getElem hk
    have hne : p ≠ s.fresh := by omega
    rw [if_neg]
    · congr 1
      apply LL.ext' <;> simp only [rIns, LL.setNext, LL.alloc] <;> grind
    · simp only [LL.setNext, LL.alloc]
      grind
  refine ⟨_, ?_, RI⟩
  rw [Model.scllInsertAfter, e, ok_bind]
  have e2 : (rIns s ids j (k + 1) x).next p = some s.fresh := by
    simp only [rIns]
    rw [if_neg (by omega), if_pos (by simp [hp])]
  rw [e2, deref, ok_bind]
  rw [if_neg]
  simp only [rIns, if_true, if_pos hk, if_neg (show ¬ k + 1 = 0 by omega), R.head]
  intro h
  have := R.inj (k + 1) 0 _ (List.getElem?_eq_getElem hk) (by rw [← h, List.getElem?_eq_getElem])
  omega

/-- The state after `SinglyLinkedList.extract`. -/
def rExt (s : LL κ δ) (ids : List Nat) (j : Nat) (k : Nat) : LL κ δ where
  val := s.val
  next := fun i => if 0 < k ∧ ids[k - 1]? = some i then (if k + 1 < ids.length then ids[k + 1]? else some j) else s.next i
  prev := s.prev
  fresh := s.fresh
  head := if k = 0 then (if 1 < ids.length then ids[1]? else some j) else s.head
  tail := if k + 1 = ids.length then (if k = 0 then none else ids[k - 1]?) else s.tail
  size := s.size - 1

theorem RRep.sllExtract {s : LL κ δ} {ids : List Nat} {l : List (Pay κ δ)} {j : Nat} (R : RRep s ids l j)
    {index : Int} {k : Nat} (hk : ExtPos ids.length index k) {c : Nat} (hc : ids[k]? = some c) :
    sllExtract s index = .ok (rExt s ids j k, c) := by
  have hsz : s.size = ids.length := by rw [R.size, R.len]
  obtain ⟨hkn, hidx⟩ := hk
  have hi : (if index < 0 then (s.size : Int) + index else index) = (k : Int) := by
    rw [hsz]; split <;> omega
  unfold Model.sllExtract
  dsimp only
  rw [if_neg (by omega), hi, if_neg (by omega)]
  have hw := walk_run ({ s with size := s.size - 1 } : LL κ δ) ids R.head (by
    intro k i hk hi
    exact R.nexts _ _ hk hi) k hkn
  rw [hw, ok_bind, hc]
  simp only [deref, ok_bind]
  have hn := fun h => R.nexts k c h hc
  have hl : k = ids.length - 1 → s.next c = some j := by
    intro h; subst h; exact R.last c hc
  have e4 := R.inj (k-1) k
  by_cases hk0 : k = 0
  · subst hk0
    simp only [if_true, if_pos, Int.natCast_zero]
    congr 2
    apply LL.ext' <;> simp only [rExt] <;> grind
  · have : k - 1 < ids.length := by omega
    rw [if_neg hk0, List.getElem?_eq_getElem this]
    dsimp only
    congr 2
    apply LL.ext' <;> simp only [rExt, LL.setNext] <;> grind

theorem RRep.ext {s : LL κ δ} {ids : List Nat} {l : List (Pay κ δ)} {j : Nat} (R : RRep s ids l j)
    {k : Nat} (hk : k < ids.length) (h1 : 1 < ids.length) :
    RRep (rExt s ids j k) (ids.eraseIdx k) (l.eraseIdx k) j := by
  obtain ⟨len, inj, lt, vals, nexts, last, head, tail, size, room, jlt⟩ := R
  have j1 := jlt (by intro h; simp [h] at h1)
  constructor
  · simp [List.length_eraseIdx, len]
  · intro a b i ha hb
    rw [List.getElem?_eraseIdx] at ha hb
    grind
  · intro j i hj
    rw [List.getElem?_eraseIdx] at hj
    simp only [rExt]
    grind
  · intro j i hj
    rw [List.getElem?_eraseIdx] at hj
    rw [List.getElem?_eraseIdx]
    simp only [rExt]
    grind
  · intro a i ha hi
    rw [List.getElem?_eraseIdx] at hi
    rw [List.length_eraseIdx] at ha
    simp only [rExt, List.getElem?_eraseIdx]
    have h1 := nexts (a+1) i
    have h2 := nexts a i
    clear nexts vals last
    grind
  · intro i hi
    rw [List.getElem?_eraseIdx, List.length_eraseIdx] at hi
    simp only [rExt]
    have h1 := last i
    clear nexts vals last
    grind
  · simp only [rExt, List.getElem?_eraseIdx]; grind
  · simp only [rExt, List.getElem?_eraseIdx, List.length_eraseIdx]; grind
  · simp [rExt, size, List.length_eraseIdx]; grind
  · simp [rExt, List.length_eraseIdx]; grind
  · intro _; exact j1

/-- `extract` of the circular list: the ring is closed by index `0` and by taking the only node out. -/
theorem RRep.scllExtract {s : LL κ δ} {ids : List Nat} {l : List (Pay κ δ)} {j : Nat} (R : RRep s ids l j)
    {index : Int} {k : Nat} (hk : ExtPos ids.length index k) {c : Nat} (hc : ids[k]? = some c) :
    ∃ s' j', scllExtract s index = .ok (s', c) ∧ s'.val = s.val ∧ RRep s' (ids.eraseIdx k) (l.eraseIdx k) j' ∧
      (index = 0 ∨ ids.length = 1 → ids.eraseIdx k = [] ∨ (ids.eraseIdx k)[0]? = some j') ∧ (¬(index = 0 ∨ ids.length = 1) → j' = j) := by
  rw [Model.scllExtract, R.sllExtract hk hc, ok_bind]
  obtain ⟨hkn, hidx⟩ := hk
  have hlen := R.len
  dsimp only
  by_cases h1 : ids.length = 1
  · have hk0 : k = 0 := by omega
    subst hk0
    have ht : (rExt s ids j 0).tail = none := by simp [rExt, h1]
    rw [ht]
    have he : ids.eraseIdx 0 = [] := List.length_eq_zero_iff.1 (by rw [List.length_eraseIdx, if_pos hkn]; omega)
    have he' : l.eraseIdx 0 = [] := List.length_eq_zero_iff.1 (by rw [List.length_eraseIdx, if_pos (by omega)]; omega)
    refine ⟨_, j, rfl, rfl, ?_, fun _ => Or.inl he, fun _ => rfl⟩
    rw [he, he']
    have hsz := R.size
    refine ⟨rfl, by simp, by simp, by simp, by simp, by simp, rfl, by simp [ht], ?_, by simp, by simp⟩
    simp only [rExt, List.length_nil]; omega
  · have RE := R.ext hkn (by omega)
    have hel : (ids.eraseIdx k).length = ids.length - 1 := by rw [List.length_eraseIdx, if_pos hkn]
    have ht : (rExt s ids j k).tail = some (ids.eraseIdx k)[(ids.eraseIdx k).length - 1] := by
      rw [RE.tail, List.getElem?_eq_getElem (by omega)]
    rw [ht]
    dsimp only
    by_cases hi0 : index = 0
    · rw [if_pos hi0]
      have hh : (rExt s ids j k).head = some (ids.eraseIdx k)[0] := by rw [RE.head, List.getElem?_eq_getElem]
      rw [hh]
      refine ⟨_, _, rfl, rfl, RE.relink ht (RE.lt _ _ (List.getElem?_eq_getElem (by omega : 0 < (ids.eraseIdx k).length))), fun _ => Or.inr ?_, fun h => absurd (Or.inl hi0) h⟩
      rw [List.getElem?_eq_getElem]
    · rw [if_neg hi0]
      refine ⟨_, j, rfl, rfl, RE, ?_, fun _ => rfl⟩
      rintro (h | h)
      · exact absurd h hi0
      · exact absurd h h1

/-- A key that is there is found, however the ring is closed. -/
theorem RRep.search_run [DecidableEq κ] {s : LL κ δ} {ids : List Nat} {l : List (Pay κ δ)} {q : Nat} (R : RRep s ids l q) (key : κ) (y : Pay κ δ) :
    ∀ (m j fuel : Nat), j + m + 1 = l.length → m + 1 < fuel → (l.drop j).find? (fun x => x.1 = key) = some y →
      ∃ st i, whileLoop fuel (fun st : Option Nat × Option (Option Nat) => .ok (st.1.isSome && st.2.isNone)) (searchBody s key)
        (ids[j]?, none) = .ok st ∧ st.2.getD none = some i ∧ s.val i = some y := by
  have hlen := R.len
  intro m
  induction m with
  | zero =>
    intro j fuel hj hf hfind
    have hjl : j < l.length := by omega
    have hji : j < ids.length := by omega
    obtain ⟨fuel, rfl⟩ : ∃ f, fuel = f + 2 := ⟨fuel - 2, by omega⟩
    have hv := R.vals j _ (List.getElem?_eq_getElem hji)
    rw [List.getElem?_eq_getElem hjl] at hv
    have hd : l.drop j = [l[j]] := by
      rw [List.drop_eq_getElem_cons hjl, List.drop_eq_nil_iff.2 (by omega)]
    rw [hd] at hfind
    have hk : l[j].1 = key := by
      refine Classical.byContradiction fun h => ?_
      simp [h] at hfind
    simp [hk] at hfind
    refine ⟨(some ids[j], some (some ids[j])), ids[j], ?_, rfl, by rw [hv, hfind]⟩
    simp only [List.getElem?_eq_getElem hji]
    rw [whileLoop, searchBody]
    simp [Model.payload, deref, hv, hk, ok_bind, whileLoop]
  | succ m ih =>
    intro j fuel hj hf hfind
    have hjl : j < l.length := by omega
    have hji : j < ids.length := by omega
    obtain ⟨fuel, rfl⟩ : ∃ f, fuel = f + 2 := ⟨fuel - 2, by omega⟩
    have hv := R.vals j _ (List.getElem?_eq_getElem hji)
    rw [List.getElem?_eq_getElem hjl] at hv
    have hn := R.nexts j _ (by omega) (List.getElem?_eq_getElem hji)
    rw [List.drop_eq_getElem_cons hjl] at hfind
    simp only [List.getElem?_eq_getElem hji]
    rw [whileLoop, searchBody]
    by_cases hk : l[j].1 = key
    · rw [List.find?_cons_of_pos (by simpa using hk)] at hfind
      injection hfind with hfind
      refine ⟨(some ids[j], some (some ids[j])), ids[j], ?_, rfl, by rw [hv, hfind]⟩
      simp [Model.payload, deref, hv, hk, ok_bind, whileLoop]
    · rw [List.find?_cons_of_neg (by simpa using hk)] at hfind
      obtain ⟨st, i, e, h⟩ := ih (j + 1) (fuel + 1) (by omega) (by omega) hfind
      refine ⟨st, i, ?_, h⟩
      simp only [Model.payload, deref, hv, ok_bind, Option.isSome_some, Option.isNone_none, Bool.and_self, if_true, hk, if_false, hn]
      rw [if_neg]
      · simp only [ok_bind]; exact e
      · rw [R.head]
        intro h
        have := R.inj (j+1) 0 _ (List.getElem?_eq_getElem (by omega : j + 1 < ids.length))
          (by rw [← h, List.getElem?_eq_getElem])
        omega

theorem RRep.llSearch [DecidableEq κ] {s : LL κ δ} {ids : List Nat} {l : List (Pay κ δ)} {q : Nat} (R : RRep s ids l q) (key : κ) {y : Pay κ δ}
    (h : l.find? (fun x => x.1 = key) = some y) : ∃ i, llSearch s key = .ok (some i) ∧ s.val i = some y := by
  have hlen := R.len
  have hroom := R.room
  by_cases h0 : l.length = 0
  · have : l = [] := List.length_eq_zero_iff.1 h0
    subst this; simp at h
  · obtain ⟨st, i, e, h1, h2⟩ := R.search_run key y (l.length - 1) 0 (s.fresh + 1) (by omega) (by omega) (by simpa using h)
    refine ⟨i, ?_, h2⟩
    show (whileLoop (s.fresh + 1) _ (searchBody s key) (s.head, none) >>= _) = _
    rw [R.head, e, ok_bind, h1]

end Model
