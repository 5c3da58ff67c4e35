import Verif.Model.Array
import Verif.Lemmas.Py

namespace Model
open Py
variable {α : Type}

/-- The live elements in index order. -/
def Doda.live (d : Doda α) : List α := d.data.filterMap id

/-- Consistency of the bookkeeping. -/
structure Doda.Inv (d : Doda α) : Prop where
  le : d.cnt ≤ d.size
  num : d.num = d.live.length
  tail : ∀ i, d.cnt ≤ i → i < d.size → d.data[i]? = some none

theorem filterMap_replicate_none (n : Nat) : (List.replicate n (none : Option α)).filterMap id = [] := by
  induction n with
  | zero => rfl
  | succ n ih => simp [List.replicate_succ, ih]

theorem Doda.Inv.drop {d : Doda α} (h : d.Inv) : d.data.drop d.cnt = List.replicate (d.size - d.cnt) none := by
  have := h.le
  apply List.ext_getElem?
  intro i
  rw [List.getElem?_drop, List.getElem?_replicate]
  split
  · exact h.tail _ (by omega) (by omega)
  · rw [List.getElem?_eq_none]; unfold Doda.size at *; omega

theorem Doda.Inv.live_take {d : Doda α} (h : d.Inv) : d.live = (d.data.take d.cnt).filterMap id := by
  conv => lhs; rw [Doda.live, ← List.take_append_drop d.cnt d.data, List.filterMap_append, h.drop,
    filterMap_replicate_none, List.append_nil]

theorem compact_spec : ∀ (src : List (Option α)) (P : List (Option α)) (m : Nat), (src.filterMap id).length ≤ m →
    dodaCompact src P.length (P ++ List.replicate m none) =
      .ok (P ++ (src.filterMap id).map some ++ List.replicate (m - (src.filterMap id).length) none,
        P.length + (src.filterMap id).length) := by
  intro src
  induction src with
  | nil => intro P m _; simp [dodaCompact]
  | cons x src ih =>
    intro P m hm
    cases x with
    | none => simpa [dodaCompact] using ih P m (by simpa using hm)
    | some x =>
      simp only [List.filterMap_cons, id, List.length_cons] at hm
      obtain ⟨m, rfl⟩ : ∃ k, m = k + 1 := ⟨m - 1, by omega⟩
      have := ih (P ++ [some x]) m (by omega)
      have hw : wr (P ++ List.replicate (m + 1) none) P.length (some x) =
          .ok ((P ++ [some x]) ++ List.replicate m none) := by
        rw [wr_of_lt _ (by simp), List.set_append_right _ _ (by omega), Nat.sub_self, List.replicate_succ,
          List.set_cons_zero]
        simp
      simp only [dodaCompact, hw, ok_bind]
      simp only [List.length_append, List.length_singleton] at this
      rw [this]
      simp only [List.filterMap_cons, id, List.length_cons]
      simp
      omega

/-- A dense array: the elements `l` at positions `0, 1, …` and `None` after. -/
structure Doda.Dense (d : Doda α) (l : List α) : Prop where
  data : ∃ k, d.data = l.map some ++ List.replicate k none
  num : d.num = l.length
  cnt : d.cnt = l.length

theorem Doda.Dense.inv {d : Doda α} {l : List α} (h : d.Dense l) : d.Inv ∧ d.live = l := by
  obtain ⟨⟨k, hd⟩, hn, hc⟩ := h
  have hl : d.live = l := by
    rw [Doda.live, hd, List.filterMap_append, filterMap_replicate_none, List.append_nil, List.filterMap_map]
    simp
  refine ⟨⟨by simp [Doda.size, hd, hc], by rw [hl, hn], ?_⟩, hl⟩
  intro i h1 h2
  simp only [Doda.size, hd, List.length_append, List.length_map, List.length_replicate] at h2
  rw [hd, List.getElem?_append_right (by simp; omega), List.getElem?_replicate, if_pos (by simp; omega)]

theorem Doda.modify_spec (low : Nat → Nat → Bool) {d : Doda α} (h : d.Inv) (hs : 0 < d.size) :
    ∃ d', d.modify low = .ok d' ∧ (d' = d ∨ d'.Dense d.live) ∧ 0 < d'.size := by
  rw [Doda.modify, if_neg (by omega)]
  split
  · have hc := compact_spec (d.data.take d.cnt) [] (2 * d.num + 1)
      (by rw [← h.live_take, ← h.num]; omega)
    rw [← h.live_take] at hc
    simp only [List.nil_append, List.length_nil, Nat.zero_add] at hc
    rw [hc]
    refine ⟨_, rfl, .inr ⟨⟨_, rfl⟩, h.num, rfl⟩, ?_⟩
    simp only [Doda.size, List.length_append, List.length_replicate, List.length_map]
    have := h.num
    omega
  · exact ⟨d, rfl, .inl rfl, hs⟩

theorem Doda.modify_low (low : Nat → Nat → Bool) {d : Doda α} (h : d.Inv) (hs : 0 < d.size) (hl : low d.num d.size = true) :
    ∃ d', d.modify low = .ok d' ∧ d'.Dense d.live := by
  rw [Doda.modify, if_neg (by omega), if_pos hl]
  have hc := compact_spec (d.data.take d.cnt) [] (2 * d.num + 1)
    (by rw [← h.live_take, ← h.num]; omega)
  rw [← h.live_take] at hc
  simp only [List.nil_append, List.length_nil, Nat.zero_add] at hc
  rw [hc]
  exact ⟨_, rfl, ⟨_, rfl⟩, h.num, rfl⟩

theorem Doda.modify_high (low : Nat → Nat → Bool) {d : Doda α} (hs : 0 < d.size) (hl : low d.num d.size = false) :
    d.modify low = .ok d := by
  rw [Doda.modify, if_neg (by omega), hl]; rfl

theorem copy_spec (src : List (Option α)) : ∀ (n i : Nat) (new : List (Option α)), i + n ≤ src.length → i + n ≤ new.length →
    ∃ r, dodaCopy src n i new = .ok r ∧ r.length = new.length ∧
      ∀ j, r[j]? = if i ≤ j ∧ j < i + n then src[j]? else new[j]? := by
  intro n
  induction n with
  | zero => intro i new _ _; exact ⟨new, rfl, rfl, by intro j; rw [if_neg (by omega)]⟩
  | succ n ih =>
    intro i new h1 h2
    obtain ⟨r, e, hl, hr⟩ := ih (i + 1) (new.set i src[i]) (by omega) (by simp; omega)
    refine ⟨r, ?_, by simpa using hl, ?_⟩
    · rw [dodaCopy, rd_of_lt (by omega), ok_bind, wr_of_lt _ (by omega), ok_bind, e]
    · intro j
      rw [hr j]
      by_cases hj : j = i
      · subst hj
        rw [if_neg (by omega), if_pos (by omega), List.getElem?_set_self (by omega), List.getElem?_eq_getElem (by omega)]
      · by_cases hj2 : i + 1 ≤ j ∧ j < i + 1 + n
        · rw [if_pos hj2, if_pos (by omega)]
        · rw [if_neg hj2, if_neg (by omega), List.getElem?_set_ne (by omega)]

/-- The state just before the final `_modify()` of `append`. -/
theorem Doda.append_raw' (low : Nat → Nat → Bool) {d : Doda α} (h : d.Inv) (x : α) :
    ∃ data, d.append low x = Doda.modify low ⟨data, d.num + 1, d.cnt + 1⟩ ∧
      (∃ k, data = d.data.take d.cnt ++ some x :: List.replicate k none ∧
        k = if d.cnt = d.size then d.size else d.size - d.cnt - 1) := by
  have hle := h.le
  by_cases hf : d.cnt = d.size
  · obtain ⟨r, e, hl, hr⟩ := copy_spec d.data d.cnt 0 (List.replicate (2 * d.size + 1) none)
      (by unfold Doda.size at *; omega) (by simp; omega)
    have e2 : wr r d.cnt (some x) = .ok (r.set d.cnt (some x)) := wr_of_lt _ (by rw [hl]; simp; omega)
    refine ⟨r.set d.cnt (some x), ?_, 2 * d.size - d.cnt, ?_, by rw [if_pos hf]; omega⟩
    · simp only [Doda.append, if_pos hf, e, ok_bind, e2]
    · apply List.ext_getElem?
      intro j
      have hrl : r.length = 2 * d.size + 1 := by rw [hl]; simp
      have htl : (d.data.take d.cnt).length = d.cnt := by simp; unfold Doda.size at *; omega
      by_cases h1 : j < d.cnt
      · rw [List.getElem?_set_ne (by omega), hr, if_pos (by omega), List.getElem?_append_left (by omega),
          List.getElem?_take_of_lt h1]
      · rw [List.getElem?_append_right (by omega), htl]
        by_cases h2 : j = d.cnt
        · subst h2; rw [List.getElem?_set_self (by omega), Nat.sub_self]; rfl
        · rw [List.getElem?_set_ne (by omega), hr, if_neg (by omega), List.getElem?_replicate]
          obtain ⟨m, hm⟩ : ∃ m, j - d.cnt = m + 1 := ⟨j - d.cnt - 1, by omega⟩
          rw [hm, List.getElem?_cons_succ, List.getElem?_replicate]
          have : j < 2 * d.size + 1 ↔ m < 2 * d.size - d.cnt := by omega
          simp [this]
  · have e2 : wr d.data d.cnt (some x) = .ok (d.data.set d.cnt (some x)) :=
      wr_of_lt _ (by unfold Doda.size at *; omega)
    refine ⟨d.data.set d.cnt (some x), ?_, d.size - d.cnt - 1, ?_, by rw [if_neg hf]⟩
    · simp only [Doda.append, if_neg hf, e2, ok_bind]
    · conv => lhs; rw [← List.take_append_drop d.cnt d.data, h.drop]
      have htl : (d.data.take d.cnt).length = d.cnt := by simp; unfold Doda.size at *; omega
      rw [List.set_append_right _ _ (by omega), htl, Nat.sub_self]
      obtain ⟨m, hm⟩ : ∃ m, d.size - d.cnt = m + 1 := ⟨d.size - d.cnt - 1, by omega⟩
      rw [hm, List.replicate_succ, List.set_cons_zero]
      rfl

theorem Doda.append_raw (low : Nat → Nat → Bool) {d : Doda α} (h : d.Inv) (x : α) :
    ∃ data, d.append low x = Doda.modify low ⟨data, d.num + 1, d.cnt + 1⟩ ∧
      (∃ k, data = d.data.take d.cnt ++ some x :: List.replicate k none) := by
  obtain ⟨data, e, k, hk, -⟩ := Doda.append_raw' low h x
  exact ⟨data, e, k, hk⟩

theorem Doda.append_spec (low : Nat → Nat → Bool) {d : Doda α} (h : d.Inv) (x : α) :
    ∃ d', d.append low x = .ok d' ∧ d'.Inv ∧ d'.live = d.live ++ [x] := by
  obtain ⟨data, e, k, hk⟩ := Doda.append_raw low h x
  have hle := h.le
  have htl : (d.data.take d.cnt).length = d.cnt := by simp; unfold Doda.size at *; omega
  have hlive : (⟨data, d.num + 1, d.cnt + 1⟩ : Doda α).live = d.live ++ [x] := by
    rw [Doda.live, hk, List.filterMap_append, ← h.live_take]
    simp
  have hinv : (⟨data, d.num + 1, d.cnt + 1⟩ : Doda α).Inv := by
    refine ⟨?_, ?_, ?_⟩
    · simp only [Doda.size, hk, List.length_append, List.length_cons]; omega
    · rw [hlive]; simp [h.num]
    · intro i h1 h2
      dsimp only at *
      simp only [Doda.size, hk, List.length_append, List.length_cons, List.length_replicate] at h2
      rw [hk, List.getElem?_append_right (by omega), htl]
      obtain ⟨m, hm⟩ : ∃ m, i - d.cnt = m + 1 := ⟨i - d.cnt - 1, by omega⟩
      rw [hm, List.getElem?_cons_succ, List.getElem?_replicate, if_pos (by omega)]
  obtain ⟨d', e2, h1, -⟩ := Doda.modify_spec low hinv (by simp [Doda.size, hk]; omega)
  refine ⟨d', by rw [e, e2], ?_⟩
  rcases h1 with rfl | h1
  · exact ⟨hinv, hlive⟩
  · rw [hlive] at h1; exact h1.inv

theorem Doda.append_dense (low : Nat → Nat → Bool) {d : Doda α} {l : List α} (h : d.Dense l) (x : α) :
    ∃ d', d.append low x = .ok d' ∧ d'.Dense (l ++ [x]) := by
  obtain ⟨hinv, hlive⟩ := h.inv
  obtain ⟨data, e, k, hk⟩ := Doda.append_raw low hinv x
  have htake : d.data.take d.cnt = l.map some := by
    obtain ⟨⟨k, hd⟩, _, hc⟩ := h
    rw [hd, hc, List.take_left' (by simp)]
  have hdense : (⟨data, d.num + 1, d.cnt + 1⟩ : Doda α).Dense (l ++ [x]) := by
    refine ⟨⟨k, ?_⟩, by simp [h.num], by simp [h.cnt]⟩
    dsimp only
    rw [hk, htake]; simp
  obtain ⟨d', e2, h1, -⟩ := Doda.modify_spec low hdense.inv.1 (by simp [Doda.size, hk]; omega)
  refine ⟨d', by rw [e, e2], ?_⟩
  rcases h1 with rfl | h1
  · exact hdense
  · rwa [hdense.inv.2] at h1

/-- Deleting a dead or out-of-range position does nothing. -/
theorem Doda.delete_dead (low : Nat → Nat → Bool) {d : Doda α} (h : d.Inv) (i : Int)
    (hd : ∀ x, ¬ (0 ≤ i ∧ d.data[i.toNat]? = some (some x))) : d.delete low i = .ok d := by
  have hle := h.le
  rw [Doda.delete]
  split
  · rename_i hi
    have hlt : i.toNat < d.data.length := by unfold Doda.size at *; omega
    have hg : d.get i = .ok d.data[i.toNat] := by
      rw [Doda.get, if_neg (by unfold Doda.size at *; omega), rd_of_lt hlt]
    rw [hg, ok_bind]
    cases hx : d.data[i.toNat] with
    | none => rfl
    | some x => exact absurd ⟨hi.2, by rw [List.getElem?_eq_getElem hlt, hx]⟩ (hd x)
  · rfl

theorem filterMap_set_none (l : List (Option α)) (i : Nat) (x : α) (h : l[i]? = some (some x)) :
    (l.set i none).filterMap id = (l.take i).filterMap id ++ (l.drop (i + 1)).filterMap id ∧
    l.filterMap id = (l.take i).filterMap id ++ x :: (l.drop (i + 1)).filterMap id := by
  obtain ⟨hi, hx⟩ := List.getElem?_eq_some_iff.1 h
  have hd : l = l.take i ++ some x :: l.drop (i + 1) := by
    rw [← hx, ← List.drop_eq_getElem_cons hi, List.take_append_drop]
  constructor
  · conv => lhs; rw [hd]
    rw [List.set_append_right _ _ (by simp; omega)]
    simp [Nat.min_eq_left (Nat.le_of_lt hi)]
  · conv => lhs; rw [hd]
    simp

/-- Deleting a live position removes that element from the sequence. -/
theorem Doda.delete_live (low : Nat → Nat → Bool) {d : Doda α} (h : d.Inv) (i : Nat) (x : α)
    (hd : d.data[i]? = some (some x)) :
    ∃ d', d.delete low i = .ok d' ∧ d'.Inv ∧
      d.live = (d.data.take i).filterMap id ++ x :: (d.data.drop (i + 1)).filterMap id ∧
      d'.live = (d.data.take i).filterMap id ++ (d.data.drop (i + 1)).filterMap id := by
  have hle := h.le
  have hi : i < d.size := (List.getElem?_eq_some_iff.1 hd).1
  have hic : i < d.cnt := by
    apply Classical.byContradiction
    intro hge
    have := h.tail i (by omega) hi
    rw [hd] at this; cases this
  obtain ⟨f1, f2⟩ := filterMap_set_none d.data i x hd
  have hg : d.get (i : Int) = .ok (some x) := by
    rw [Doda.get, if_neg (by unfold Doda.size at *; omega)]; exact rd_of_some (by simpa using hd)
  have hset : d.set (i : Int).toNat none = .ok { d with data := d.data.set i none } := by
    rw [Doda.set, Int.toNat_natCast, wr_of_lt _ hi, ok_bind]
  have key : ∀ c, (c = d.cnt ∨ (c = d.cnt - 1 ∧ d.cnt - 1 = i)) → (⟨d.data.set i none, d.num - 1, c⟩ : Doda α).Inv := by
    intro c hc
    refine ⟨?_, ?_, ?_⟩
    · simp only [Doda.size, List.length_set]; unfold Doda.size at *; omega
    · rw [Doda.live, f1]
      have := h.num
      rw [Doda.live, f2] at this
      simp at this ⊢; omega
    · intro j h1 h2
      simp only [Doda.size, List.length_set] at h1 h2 ⊢
      by_cases hj : j = i
      · subst hj; exact List.getElem?_set_self hi
      · rw [List.getElem?_set_ne (by omega)]; exact h.tail j (by omega) h2
  have hlive : ∀ c, (⟨d.data.set i none, d.num - 1, c⟩ : Doda α).live =
      (d.data.take i).filterMap id ++ (d.data.drop (i + 1)).filterMap id := fun c => f1
  have fin : ∀ c, (c = d.cnt ∨ (c = d.cnt - 1 ∧ d.cnt - 1 = i)) →
      ∃ d', Doda.modify low ⟨d.data.set i none, d.num - 1, c⟩ = .ok d' ∧ d'.Inv ∧
        d'.live = (d.data.take i).filterMap id ++ (d.data.drop (i + 1)).filterMap id := by
    intro c hc
    obtain ⟨d', e, h1, -⟩ := Doda.modify_spec low (key c hc) (by simp [Doda.size]; unfold Doda.size at *; omega)
    refine ⟨d', e, ?_⟩
    rcases h1 with rfl | h1
    · exact ⟨key c hc, hlive c⟩
    · rw [hlive c] at h1; exact h1.inv
  have hdel : d.delete low i = Doda.modify low
      ⟨d.data.set i none, d.num - 1, if (d.cnt : Int) - 1 = i then d.cnt - 1 else d.cnt⟩ := by
    rw [Doda.delete, if_pos (by omega), hg, ok_bind]
    dsimp only
    rw [hset, ok_bind]
    dsimp only
    split <;> rfl
  obtain ⟨d', e, h1, h2⟩ := fin (if (d.cnt : Int) - 1 = i then d.cnt - 1 else d.cnt) (by split <;> omega)
  exact ⟨d', by rw [hdel, e], h1, by rw [Doda.live, f2], h2⟩

/-- Deleting the last element of a dense array. -/
theorem Doda.delete_last_dense (low : Nat → Nat → Bool) {d : Doda α} {l : List α} {x : α} (h : d.Dense (l ++ [x])) :
    ∃ d', d.delete low (l.length : Nat) = .ok d' ∧ d'.Dense l := by
  obtain ⟨hinv, hlive⟩ := h.inv
  obtain ⟨⟨k, hd⟩, hn, hc⟩ := h
  have hdat : d.data = l.map some ++ some x :: List.replicate k none := by rw [hd]; simp
  have hx : d.data[l.length]? = some (some x) := by rw [hdat]; simp
  have hsz : l.length < d.size := (List.getElem?_eq_some_iff.1 hx).1
  simp only [List.length_append, List.length_singleton] at hn hc
  have hg : d.get (l.length : Int) = .ok (some x) := by
    rw [Doda.get, if_neg (by unfold Doda.size at *; omega)]; exact rd_of_some (by simpa using hx)
  have hset : d.set (l.length : Int).toNat none = .ok { d with data := d.data.set l.length none } := by
    rw [Doda.set, Int.toNat_natCast, wr_of_lt _ hsz, ok_bind]
  have hdense : (⟨d.data.set l.length none, d.num - 1, d.cnt - 1⟩ : Doda α).Dense l := by
    refine ⟨⟨k + 1, ?_⟩, by dsimp only; omega, by dsimp only; omega⟩
    dsimp only
    rw [hdat, List.set_append_right _ _ (by simp)]
    simp [List.replicate_succ]
  have hdel : d.delete low (l.length : Nat) = Doda.modify low ⟨d.data.set l.length none, d.num - 1, d.cnt - 1⟩ := by
    rw [Doda.delete, if_pos (by omega), hg, ok_bind]
    dsimp only
    rw [hset, ok_bind]
    dsimp only
    rw [if_pos (by omega)]
  obtain ⟨d', e, h1, -⟩ := Doda.modify_spec low hdense.inv.1 (by simp [Doda.size]; unfold Doda.size at *; omega)
  refine ⟨d', by rw [hdel, e], ?_⟩
  rcases h1 with rfl | h1
  · exact hdense
  · rwa [hdense.inv.2] at h1

theorem Doda.Dense.get {d : Doda α} {l : List α} (h : d.Dense l) {i : Nat} (hi : i < l.length) :
    d.get (i : Int) = .ok (some l[i]) := by
  obtain ⟨⟨k, hd⟩, hn, hc⟩ := h
  rw [Doda.get, if_neg]
  · apply rd_of_some
    rw [Int.toNat_natCast, hd, List.getElem?_append_left (by simpa using hi)]
    simp [hi]
  · simp only [Doda.size, hd, List.length_append, List.length_map]; omega

theorem Doda.Dense.set {d : Doda α} {l : List α} (h : d.Dense l) {i : Nat} (hi : i < l.length) (x : α) :
    ∃ d', d.set i (some x) = .ok d' ∧ d'.Dense (l.set i x) := by
  obtain ⟨⟨k, hd⟩, hn, hc⟩ := h
  refine ⟨{ d with data := d.data.set i (some x) }, ?_, ⟨k, ?_⟩, by simpa using hn, by simpa using hc⟩
  · rw [Doda.set, wr_of_lt _ (by rw [hd]; simp; omega), ok_bind]
  · dsimp only
    rw [hd, List.set_append_left _ _ (by simpa using hi), List.map_set]

theorem Doda.ofList_dense (l : List α) : (Doda.ofList l).Dense l := ⟨⟨0, by simp [Doda.ofList]⟩, rfl, rfl⟩

theorem Doda.ofSize_dense (n : Nat) : (Doda.ofSize n : Doda α).Dense [] := ⟨⟨n, by simp [Doda.ofSize]⟩, rfl, rfl⟩

end Model
