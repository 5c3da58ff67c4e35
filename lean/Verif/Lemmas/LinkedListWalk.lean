import Verif.Lemmas.LinkedList

set_option linter.unusedSimpArgs false
set_option linter.unusedVariables false

namespace Model
open Py
variable {κ δ : Type}

theorem Rep.payload {circ dbl hp : Bool} {s : LL κ δ} {ids : List Nat} {l : List (Pay κ δ)} (R : Rep circ dbl hp s ids l)
    {k : Nat} (hk : k < l.length) : payload s ids[k]? = .ok l[k] := by
  have hk' : k < ids.length := by rw [R.len]; exact hk
  have := R.vals k _ (List.getElem?_eq_getElem hk')
  rw [List.getElem?_eq_getElem hk] at this
  simp [Model.payload, List.getElem?_eq_getElem hk', deref, this, ok_bind]

theorem llGet_eq {circ dbl hp : Bool} {s : LL κ δ} {ids : List Nat} {l : List (Pay κ δ)} (R : Rep circ dbl hp s ids l)
    {index : Int} {k : Nat} (hk : ExtPos ids.length index k) : llGet s index = .ok ids[k]? := by
  have hsz : s.size = ids.length := by rw [R.size, R.len]
  obtain ⟨hkn, hidx⟩ := hk
  have hi : (if index < 0 then (s.size : Int) + index else index) = (k : Int) := by
    rw [hsz]; split <;> omega
  simp only [llGet]
  rw [hi, if_neg (by omega), walk_run s ids R.head (by
    intro k i hk hi
    have h2 := R.nexts _ _ hi
    rw [h2, nx, if_pos hk]) k hkn]
  rfl

/-- One round of the search loop. -/
def searchBody [DecidableEq κ] (s : LL κ δ) (key : κ) (st : Option Nat × Option (Option Nat)) : PyM (Option Nat × Option (Option Nat)) := do
  let x ← Model.payload s st.1
  if x.1 = key then .ok (st.1, some st.1)
  else
    let c ← deref st.1
    let cur := s.next c
    if cur = s.head then .ok (cur, some none) else .ok (cur, none)

theorem search_run [DecidableEq κ] {circ dbl hp : Bool} {s : LL κ δ} {ids : List Nat} {l : List (Pay κ δ)}
    (R : Rep circ dbl hp s ids l) (key : κ) :
    ∀ (m j fuel : Nat), j + m + 1 = l.length → m + 1 < fuel →
      ∃ st, whileLoop fuel (fun st : Option Nat × Option (Option Nat) => .ok (st.1.isSome && st.2.isNone)) (searchBody s key)
        (ids[j]?, none) = .ok st ∧
      ((st.2.getD none = none ∧ (l.drop j).find? (fun x => x.1 = key) = none) ∨
        (∃ i x, st.2.getD none = some i ∧ s.val i = some x ∧ (l.drop j).find? (fun x => x.1 = key) = some x)) := by
  have hlen := R.len
  intro m
  induction m with
  | zero =>
    intro j fuel hj hf
    have hjl : j < l.length := by omega
    have hji : j < ids.length := by omega
    obtain ⟨fuel, rfl⟩ : ∃ f, fuel = f + 2 := ⟨fuel - 2, by omega⟩
    have hp := R.payload hjl
    have hn := R.nexts j _ (List.getElem?_eq_getElem hji)
    have hv := R.vals j _ (List.getElem?_eq_getElem hji)
    have hd : l.drop j = [l[j]] := by
      rw [List.drop_eq_getElem_cons hjl, List.drop_eq_nil_iff.2 (by omega)]
    rw [hd]
    have hn' : s.next ids[j] = if circ then ids[0]? else none := by rw [hn, nx, if_neg (by omega)]
    simp only [List.getElem?_eq_getElem hji] at hp ⊢
    rw [whileLoop, searchBody]
    simp only [hp, deref, ok_bind, Option.isSome_some, Option.isNone_none, Bool.and_self, if_true]
    by_cases hk : l[j].1 = key
    · refine ⟨_, by simp [hk, ok_bind, whileLoop]; rfl, Or.inr ⟨ids[j], l[j], rfl, ?_, ?_⟩⟩
      · rw [hv, List.getElem?_eq_getElem hjl]
      · simp [hk]
    · simp only [hk, if_false, hn']
      cases circ with
      | true =>
        simp only [if_true, R.head, ok_bind]
        exact ⟨(ids[0]?, some none), by simp [whileLoop], Or.inl ⟨rfl, by simp [hk]⟩⟩
      | false =>
        simp only [Bool.false_eq_true, if_false]
        have h0 : s.head ≠ none := by rw [R.head, List.getElem?_eq_getElem (by omega)]; simp
        rw [if_neg (fun h => h0 h.symm)]
        simp only [ok_bind]
        exact ⟨(none, none), by simp [whileLoop], Or.inl ⟨rfl, by simp [hk]⟩⟩
  | succ m ih =>
    intro j fuel hj hf
    have hjl : j < l.length := by omega
    have hji : j < ids.length := by omega
    obtain ⟨fuel, rfl⟩ : ∃ f, fuel = f + 1 := ⟨fuel - 1, by omega⟩
    have hp := R.payload hjl
    have hn := R.nexts j _ (List.getElem?_eq_getElem hji)
    have hv := R.vals j _ (List.getElem?_eq_getElem hji)
    have hn' : s.next ids[j] = ids[j + 1]? := by rw [hn, nx, if_pos (by omega)]
    rw [List.drop_eq_getElem_cons hjl]
    obtain ⟨st, e, h⟩ := ih (j + 1) fuel (by omega) (by omega)
    simp only [List.getElem?_eq_getElem hji] at hp ⊢
    rw [whileLoop, searchBody]
    simp only [hp, deref, ok_bind, Option.isSome_some, Option.isNone_none, Bool.and_self, if_true]
    by_cases hk : l[j].1 = key
    · obtain ⟨fuel, rfl⟩ : ∃ f, fuel = f + 1 := ⟨fuel - 1, by omega⟩
      refine ⟨_, by simp [hk, ok_bind, whileLoop]; rfl, Or.inr ⟨ids[j], l[j], rfl, ?_, ?_⟩⟩
      · rw [hv, List.getElem?_eq_getElem hjl]
      · rw [List.find?_cons_of_pos (by simpa using hk)]
    · simp only [hk, if_false, hn']
      rw [if_neg]
      · simp only [ok_bind]
        refine ⟨st, e, ?_⟩
        rw [List.find?_cons_of_neg (by simpa using hk)]
        exact h
      · rw [R.head]
        intro h
        have := R.inj (j+1) 0 _ (List.getElem?_eq_getElem (by omega : j + 1 < ids.length))
          (by rw [← h, List.getElem?_eq_getElem])
        omega

theorem llSearch_eq [DecidableEq κ] {circ dbl hp : Bool} {s : LL κ δ} {ids : List Nat} {l : List (Pay κ δ)}
    (R : Rep circ dbl hp s ids l) (key : κ) :
    ∃ p, llSearch s key = .ok p ∧
      ((p = none ∧ l.find? (fun x => x.1 = key) = none) ∨
        (∃ i x, p = some i ∧ s.val i = some x ∧ l.find? (fun x => x.1 = key) = some x)) := by
  have hlen := R.len
  have hroom := R.room
  by_cases h0 : l.length = 0
  · have : l = [] := List.length_eq_zero_iff.1 h0
    subst this
    have hh : s.head = none := by rw [R.head, List.getElem?_eq_none]; simp [hlen]
    refine ⟨none, ?_, Or.inl ⟨rfl, rfl⟩⟩
    simp [llSearch, hh, whileLoop, ok_bind]
  · obtain ⟨st, e, h⟩ := search_run R key (l.length - 1) 0 (s.fresh + 1) (by omega) (by omega)
    refine ⟨st.2.getD none, ?_, by simpa using h⟩
    show (whileLoop (s.fresh + 1) _ (searchBody s key) (s.head, none) >>= _) = _
    rw [R.head, e]; rfl

/-- One round of the loop of `__str__`, along `nxt` starting from `first`. -/
def collectBody (s : LL κ δ) (nxt : Nat → Option Nat) (first : Option Nat) (st : Option Nat × Bool × List (Pay κ δ)) :
    PyM (Option Nat × Bool × List (Pay κ δ)) := do
  let x ← Model.payload s st.1
  let c ← deref st.1
  let cur := nxt c
  .ok (cur, decide (cur = first), st.2.2 ++ [x])

/-- Collecting along the nodes `p`, which are left at the end either to `None` or to the first one. -/
theorem collect_run (s : LL κ δ) (nxt : Nat → Option Nat) (first : Nat) :
    ∀ (p : List Nat) (c : Nat) (l : List (Pay κ δ)) (acc : List (Pay κ δ)) (fuel : Nat),
      (c :: p).length = l.length →
      (∀ (j i : Nat), (c :: p)[j]? = some i → s.val i = l[j]?) →
      (∀ (j i : Nat), (c :: p)[j]? = some i → j < p.length → nxt i = (c :: p)[j + 1]? ∧ nxt i ≠ some first) →
      (∀ i : Nat, (c :: p)[p.length]? = some i → nxt i = none ∨ nxt i = some first) → p.length + 1 < fuel →
      ∃ st, whileLoop fuel (fun st : Option Nat × Bool × List (Pay κ δ) => .ok (st.1.isSome && !st.2.1)) (collectBody s nxt (some first))
        (some c, false, acc) = .ok st ∧ st.2.2 = acc ++ l := by
  intro p
  induction p with
  | nil =>
    intro c l acc fuel hl hv _ hend hf
    obtain ⟨fuel, rfl⟩ : ∃ f, fuel = f + 2 := ⟨fuel - 2, by simp at hf; omega⟩
    have hv0 := hv 0 c rfl
    match l, hl with
    | [x], _ =>
      have hp : Model.payload s (some c) = .ok x := by simp [Model.payload, deref, ok_bind, hv0]
      refine ⟨(nxt c, decide (nxt c = some first), acc ++ [x]), ?_, rfl⟩
      rw [whileLoop]
      simp only [collectBody, hp, deref, ok_bind, Option.isSome_some, Bool.not_false, Bool.and_self, if_true]
      rcases hend c rfl with h | h
      · rw [h, whileLoop]; simp
      · rw [h, whileLoop]; simp
  | cons d p ih =>
    intro c l acc fuel hl hv hn hend hf
    obtain ⟨fuel, rfl⟩ : ∃ f, fuel = f + 1 := ⟨fuel - 1, by simp at hf; omega⟩
    have hv0 := hv 0 c rfl
    match l, hl with
    | x :: l, hl =>
      have hp : Model.payload s (some c) = .ok x := by simp [Model.payload, deref, ok_bind, hv0]
      obtain ⟨h1, h2⟩ := hn 0 c rfl (by simp)
      simp at h1
      obtain ⟨st, e, h⟩ := ih d l (acc ++ [x]) fuel (by simpa using hl) (fun j i hj => by simpa using hv (j + 1) i (by simpa using hj))
        (fun j i hj hlt => by simpa using hn (j + 1) i (by simpa using hj) (by simpa using hlt))
        (fun i hi => hend i (by simpa using hi)) (by simp at hf; omega)
      refine ⟨st, ?_, by simp [h]⟩
      rw [whileLoop]
      simp only [collectBody, hp, deref, ok_bind, Option.isSome_some, Bool.not_false, Bool.and_self, if_true]
      rw [← e, decide_eq_false h2, h1]

theorem llStr_eq {circ dbl hp : Bool} {s : LL κ δ} {ids : List Nat} {l : List (Pay κ δ)} (R : Rep circ dbl hp s ids l) :
    llStr s = .ok l := by
  have hlen := R.len
  have hroom := R.room
  cases hids : ids with
  | nil =>
    rw [hids] at hlen
    have : l = [] := List.length_eq_zero_iff.1 hlen.symm
    have hh : s.head = none := by rw [R.head, hids]; rfl
    simp [llStr, hh, whileLoop, ok_bind, this]
  | cons c p =>
    subst hids
    have hh : s.head = some c := R.head
    obtain ⟨st, e, h⟩ := collect_run s s.next c p c l [] (s.fresh + 1) hlen R.vals
      (by
        intro j i hj hlt
        have := R.nexts j i hj
        rw [nx, if_pos (by simpa using hlt)] at this
        refine ⟨this, ?_⟩
        rw [this]
        intro h
        have := R.inj (j + 1) 0 c h rfl
        omega)
      (by
        intro i hi
        have := R.nexts _ i hi
        rw [nx, if_neg (by simp)] at this
        cases circ <;> simp at this <;> simp [this]) (by simp at hroom; omega)
    show (whileLoop (s.fresh + 1) _ (collectBody s s.next s.head) (s.head, false, []) >>= _) = _
    rw [hh, e, ok_bind, h]
    rfl

theorem llBackward_eq {circ : Bool} {s : LL κ δ} {ids : List Nat} {l : List (Pay κ δ)} (R : Rep circ true true s ids l) :
    llBackward s = .ok l.reverse := by
  have hlen := R.len
  have hroom := R.room
  have hrev : ∀ (j : Nat), j < ids.length → ids.reverse[j]? = ids[ids.length - 1 - j]? := fun j hj => by
    rw [List.getElem?_reverse hj]
  cases hids : ids.reverse with
  | nil =>
    have h0 : ids = [] := by simpa using hids
    rw [h0] at hlen
    have : l = [] := List.length_eq_zero_iff.1 hlen.symm
    have hh : s.tail = none := by rw [R.tail, h0]; rfl
    simp [llBackward, hh, whileLoop, ok_bind, this]
  | cons c p =>
    have hpl : p.length + 1 = ids.length := by
      have := congrArg List.length hids
      simpa using this.symm
    have hh : s.tail = some c := by
      have := hrev 0 (by omega)
      rw [hids] at this
      rw [R.tail]
      simpa using this.symm
    have hcp : ∀ (j i : Nat), (c :: p)[j]? = some i → j < ids.length ∧ ids[ids.length - 1 - j]? = some i := by
      intro j i hj
      have : j < (c :: p).length := (List.getElem?_eq_some_iff.1 hj).1
      simp at this
      refine ⟨by omega, ?_⟩
      rw [← hrev j (by omega), hids, hj]
    obtain ⟨st, e, h⟩ := collect_run s s.prev c p c l.reverse [] (s.fresh + 1) (by simp; omega)
      (by
        intro j i hj
        obtain ⟨h1, h2⟩ := hcp j i hj
        have := R.vals _ i h2
        rw [this, List.getElem?_reverse (by omega), hlen])
      (by
        intro j i hj hlt
        obtain ⟨h1, h2⟩ := hcp j i hj
        have h3 := R.prevs rfl _ i (fun _ => rfl) h2
        rw [pv, if_neg (by omega)] at h3
        have h4 : (c :: p)[j + 1]? = ids[ids.length - 1 - j - 1]? := by
          rw [← hids, hrev _ (by omega)]; congr 1
        refine ⟨by rw [h3, h4], ?_⟩
        rw [h3]
        intro h
        have h5 : ids[ids.length - 1]? = some c := by rw [← R.tail, hh]
        have := R.inj _ _ c h h5
        omega)
      (by
        intro i hi
        obtain ⟨h1, h2⟩ := hcp _ i hi
        have h3 := R.prevs rfl _ i (fun _ => rfl) h2
        rw [pv, if_pos (by omega), ← R.tail, hh] at h3
        cases circ <;> simp at h3 <;> simp [h3]) (by omega)
    show (whileLoop (s.fresh + 1) _ (collectBody s s.prev s.tail) (s.tail, false, []) >>= _) = _
    rw [hh, e, ok_bind, h]
    rfl

end Model
