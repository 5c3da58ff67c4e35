import Verif.Lemmas.BstDelete

/-!
# Contraction of the array of a tree
-/
namespace Props
open Py Model Spec
set_option linter.unusedSectionVars false
variable {κ δ : Type} [DecidableEq κ]

/-- The number of nodes in front of a position. -/
def newPos (t : BTree κ δ) (i : Nat) : Nat := (t.arr.take i).countP Option.isSome

/-- A node whose links have been renumbered. -/
def renumbered (f : Nat → Nat) (n : BNode κ δ) : BNode κ δ :=
  { n with left := n.left.map f, right := n.right.map f, parent := n.parent.map f }

/-- The nodes of the array are below `top`, their keys are distinct, their links lead to nodes, and `num` counts them. -/
structure Compactable (t : BTree κ δ) : Prop where
  low : ∀ i n, t.at i = some n → i < t.top
  keys : ∀ i j m n, t.at i = some m → t.at j = some n → m.key = n.key → i = j
  links : ∀ i n, t.at i = some n → ∀ j, n.left = some j ∨ n.right = some j ∨ n.parent = some j → (t.at j).isSome
  num : t.num = t.arr.countP Option.isSome

theorem compact_out : ∀ (src : List (Option (BNode κ δ))) (j : Nat) (ixs : List (Option κ × Nat)) (out : List (BNode κ δ)),
    (atCompact src j ixs out).2 = out ++ src.filterMap id := by
  intro src
  induction src with
  | nil => intro j ixs out; simp [atCompact]
  | cons o src ih =>
    intro j ixs out
    cases o with
    | none => simp [atCompact, ih]
    | some n => simp [atCompact, ih]

/-- A key that does not occur any more keeps its position. -/
theorem compact_keep (k : Option κ) : ∀ (src : List (Option (BNode κ δ))) (j : Nat) (ixs : List (Option κ × Nat)) (out : List (BNode κ δ)),
    (∀ n, some n ∈ src → n.key ≠ k) → (atCompact src j ixs out).1.lookup k = ixs.lookup k := by
  intro src
  induction src with
  | nil => intro j ixs out _; rfl
  | cons o src ih =>
    intro j ixs out h
    cases o with
    | none => exact ih _ _ _ fun n hn => h n (by simp [hn])
    | some n =>
      rw [atCompact, ih _ _ _ fun n hn => h n (by simp [hn])]
      have : (k == n.key) = false := by
        rw [beq_eq_false_iff_ne]; exact fun e => h n (by simp) e.symm
      rw [List.lookup_cons, this]

theorem compact_find : ∀ (src : List (Option (BNode κ δ))) (j : Nat) (ixs : List (Option κ × Nat)) (out : List (BNode κ δ)) (i : Nat) (n : BNode κ δ),
    src[i]? = some (some n) → (∀ i' n', src[i']? = some (some n') → n'.key = n.key → i' = i) →
    (atCompact src j ixs out).1.lookup n.key = some (j + (src.take i).countP Option.isSome) := by
  intro src
  induction src with
  | nil => intro j ixs out i n h; simp at h
  | cons o src ih =>
    intro j ixs out i n h hu
    cases i with
    | zero =>
      simp only [List.getElem?_cons_zero, Option.some.injEq] at h
      subst h
      rw [atCompact, compact_keep]
      · simp
      · intro n' hn' hk
        obtain ⟨i', hi'⟩ := List.getElem?_of_mem hn'
        have := hu (i' + 1) n' (by simpa using hi') hk
        omega
    | succ i =>
      simp only [List.getElem?_cons_succ] at h
      have hu' : ∀ i' n', src[i']? = some (some n') → n'.key = n.key → i' = i := fun i' n' h1 h2 => by
        have := hu (i' + 1) n' (by simpa using h1) h2; omega
      cases o with
      | none =>
        rw [atCompact, ih _ _ _ _ _ h hu']
        simp
      | some m =>
        rw [atCompact, ih _ _ _ _ _ h hu']
        simp only [List.take_succ_cons, List.countP_cons, Option.isSome_some, if_true, Option.some.injEq]
        omega

theorem take_live {t : BTree κ δ} (h : ∀ i n, t.at i = some n → i < t.top) {i : Nat} {n : BNode κ δ} (e : t.at i = some n) : (t.arr.take t.top)[i]? = some (some n) := by
  rw [List.getElem?_take_of_lt (h i n e)]
  unfold BTree.at at e
  cases h : t.arr[i]? with
  | none => rw [h] at e; cases e
  | some o => rw [h] at e; exact congrArg some e

theorem at_of_take {t : BTree κ δ} {i : Nat} {n : BNode κ δ} (e : (t.arr.take t.top)[i]? = some (some n)) : t.at i = some n := by
  rw [List.getElem?_take] at e
  split at e
  · unfold BTree.at; rw [e]; rfl
  · cases e

theorem Compactable.find {t : BTree κ δ} (h : Compactable t) {i : Nat} {n : BNode κ δ} (e : t.at i = some n) :
    (atCompact (t.arr.take t.top) 0 [] []).1.lookup n.key = some (newPos t i) := by
  rw [compact_find _ _ _ _ i n (take_live h.low e) (fun i' n' e' hk => h.keys _ _ _ _ (at_of_take e') e hk)]
  rw [Nat.zero_add, List.take_take, newPos, Nat.min_eq_left (Nat.le_of_lt (h.low i n e))]

theorem Compactable.relink {t : BTree κ δ} (h : Compactable t) {o : Option Nat} (ho : ∀ j, o = some j → (t.at j).isSome) :
    atRelink t (atCompact (t.arr.take t.top) 0 [] []).1 o = .ok (o.map (newPos t)) := by
  cases o with
  | none => rfl
  | some j =>
    obtain ⟨n, e⟩ := Option.isSome_iff_exists.mp (ho j rfl)
    simp only [atRelink, getNode_ok e, ok_bind, atIndex, h.find e, Option.map_some]

theorem Compactable.relinkAll {t : BTree κ δ} (h : Compactable t) : ∀ (ns : List (BNode κ δ)) (out : List (Option (BNode κ δ))), (∀ n ∈ ns, ∃ i, t.at i = some n) →
    forList ns out (atRelinkNode t (atCompact (t.arr.take t.top) 0 [] []).1) = .ok (out ++ ns.map fun n => some (renumbered (newPos t) n)) := by
  intro ns
  induction ns with
  | nil => intro out _; simp [forList]
  | cons n ns ih =>
    intro out hn
    obtain ⟨i, e⟩ := hn n (by simp)
    have hl := h.links i n e
    have e1 := h.relink (o := n.left) fun j hj => hl j (.inl hj)
    have e2 := h.relink (o := n.right) fun j hj => hl j (.inr (.inl hj))
    have e3 := h.relink (o := n.parent) fun j hj => hl j (.inr (.inr hj))
    simp only [forList, atRelinkNode, e1, e2, e3, ok_bind]
    rw [ih _ fun m hm => hn m (by simp [hm])]
    simp [renumbered]

theorem filterMap_at : ∀ (src : List (Option (BNode κ δ))) (i : Nat) (n : BNode κ δ), src[i]? = some (some n) →
    (src.filterMap id)[(src.take i).countP Option.isSome]? = some n := by
  intro src
  induction src with
  | nil => intro i n h; simp at h
  | cons o src ih =>
    intro i n h
    cases i with
    | zero =>
      simp only [List.getElem?_cons_zero, Option.some.injEq] at h
      subst h; simp
    | succ i =>
      simp only [List.getElem?_cons_succ] at h
      have := ih i n h
      cases o with
      | none => simpa using this
      | some m => simpa [List.countP_cons] using this

theorem live_at : ∀ (src : List (Option (BNode κ δ))) (j : Nat), j < src.countP Option.isSome → ∃ (i : Nat) (n : BNode κ δ), src[i]? = some (some n) ∧ (src.take i).countP Option.isSome = j := by
  intro src
  induction src with
  | nil => intro j h; simp at h
  | cons o src ih =>
    intro j h
    cases o with
    | none =>
      obtain ⟨i, n, h1, h2⟩ := ih j (by simpa using h)
      exact ⟨i + 1, n, by simpa using h1, by simpa using h2⟩
    | some m =>
      cases j with
      | zero => exact ⟨0, m, rfl, rfl⟩
      | succ j =>
        simp only [List.countP_cons, Option.isSome_some, if_true] at h
        obtain ⟨i, n, h1, h2⟩ := ih j (by omega)
        exact ⟨i + 1, n, by simpa using h1, by simp [List.countP_cons, h2]⟩

theorem length_live : ∀ (src : List (Option (BNode κ δ))), (src.filterMap id).length = src.countP Option.isSome := by
  intro src
  induction src with
  | nil => rfl
  | cons o src ih => cases o <;> simp [ih]

/-- The array after a contraction: the nodes are at the front in the same order, renumbered, behind them nothing. -/
structure Contracted (t t' : BTree κ δ) : Prop where
  len : t'.arr.length = 2 * t.num + 1
  top : t'.top = t.num
  rest : t'.num = t.num ∧ t'.size = t.size ∧ t'.rootIdx = t.rootIdx ∧ t'.orderStat = t.orderStat
  node : ∀ i n, t.at i = some n → t'.at (newPos t i) = some (renumbered (newPos t) n)
  only : ∀ j n, t'.at j = some n → j < t.num
  front : ∀ j, j < t.num → ∃ i n, t.at i = some n ∧ newPos t i = j

theorem Compactable.take_eq {t : BTree κ δ} (h : Compactable t) : (t.arr.take t.top).countP Option.isSome = t.num := by
  have h0 : (t.arr.drop t.top).countP Option.isSome = 0 := by
    rw [List.countP_eq_zero]
    intro o ho hs
    obtain ⟨n, rfl⟩ := Option.isSome_iff_exists.mp hs
    obtain ⟨i, hi⟩ := List.getElem?_of_mem ho
    rw [List.getElem?_drop] at hi
    have := h.low (t.top + i) n (by unfold BTree.at; rw [hi]; rfl)
    omega
  have : t.arr.countP Option.isSome = (t.arr.take t.top ++ t.arr.drop t.top).countP Option.isSome := by rw [List.take_append_drop]
  rw [h.num, this, List.countP_append, h0, Nat.add_zero]

/-- `_modify` of an array that is less than a quarter full. -/
theorem modify_contracts {t : BTree κ δ} (h : Compactable t) (hlt : 4 * t.num < t.arr.length) :
    ∃ t' ixs, atModify t = .ok (t', some ixs) ∧ Contracted t t' ∧ ∀ i n, t.at i = some n → ixs.lookup n.key = some (newPos t i) := by
  have hout : (atCompact (t.arr.take t.top) 0 [] []).2 = (t.arr.take t.top).filterMap id := by rw [compact_out]; rfl
  have hlen := (length_live (t.arr.take t.top)).trans h.take_eq
  have hrun := h.relinkAll ((t.arr.take t.top).filterMap id) [] (by
    intro n hn
    obtain ⟨o, ho, e⟩ := List.mem_filterMap.mp hn
    simp only [id_eq] at e
    subst e
    obtain ⟨i, hi⟩ := List.getElem?_of_mem ho
    exact ⟨i, at_of_take hi⟩)
  refine ⟨{ t with arr := (((t.arr.take t.top).filterMap id).map fun n => some (renumbered (newPos t) n)) ++ List.replicate (2 * t.num + 1 - t.num) none, top := t.num },
    (atCompact (t.arr.take t.top) 0 [] []).1, ?_, ?_, fun i n e => h.find e⟩
  · unfold atModify
    rw [if_pos hlt]
    simp only [hout, hrun, ok_bind, hlen, List.nil_append]
  · refine ⟨by simp [hlen]; omega, rfl, ⟨rfl, rfl, rfl, rfl⟩, ?_, ?_, ?_⟩
    · intro i n e
      have h1 := filterMap_at _ _ _ (take_live h.low e)
      rw [List.take_take, Nat.min_eq_left (Nat.le_of_lt (h.low i n e))] at h1
      have h1' : ((t.arr.take t.top).filterMap id)[newPos t i]? = some n := h1
      have hb := (List.getElem?_eq_some_iff.mp h1').1
      show ((((t.arr.take t.top).filterMap id).map (fun n => some (renumbered (newPos t) n)) ++ List.replicate (2 * t.num + 1 - t.num) none)[newPos t i]?).join = _
      rw [List.getElem?_append_left (by simpa using hb), List.getElem?_map, h1']
      rfl
    · intro j n e
      have e' : ((((t.arr.take t.top).filterMap id).map (fun n => some (renumbered (newPos t) n)) ++ List.replicate (2 * t.num + 1 - t.num) none)[j]?).join = some n := e
      refine Decidable.by_contra fun hj => ?_
      rw [List.getElem?_append_right (by rw [List.length_map, hlen]; omega), List.getElem?_replicate] at e'
      split at e' <;> cases e'
    · intro j hj
      obtain ⟨i, n, h1, h2⟩ := live_at (t.arr.take t.top) j (by rw [h.take_eq]; exact hj)
      have e := at_of_take h1
      refine ⟨i, n, e, ?_⟩
      rw [← h2, List.take_take, newPos, Nat.min_eq_left (Nat.le_of_lt (h.low i n e))]

/-- Different nodes have different new positions, in the same order. -/
theorem newPos_lt {t : BTree κ δ} {i j : Nat} {n : BNode κ δ} (e : t.at i = some n) (hij : i < j) : newPos t i < newPos t j := by
  have hi : i < t.arr.length := by
    refine Decidable.by_contra fun h => ?_
    unfold BTree.at at e
    rw [List.getElem?_eq_none (by omega)] at e
    cases e
  have h1 : newPos t (i + 1) = newPos t i + 1 := by
    unfold newPos
    rw [List.take_succ_eq_append_getElem hi, List.countP_append]
    have : t.arr[i] = some n := by
      unfold BTree.at at e
      rw [List.getElem?_eq_getElem hi] at e
      exact e
    simp [this]
  have h2 : newPos t (i + 1) ≤ newPos t j := by
    unfold newPos
    have : t.arr.take (i + 1) = (t.arr.take j).take (i + 1) := by rw [List.take_take, Nat.min_eq_left hij]
    rw [this]
    exact List.Sublist.countP_le (List.take_sublist _ _)
  omega

theorem newPos_inj {t : BTree κ δ} {i j : Nat} {m n : BNode κ δ} (e : t.at i = some m) (e' : t.at j = some n) (h : newPos t i = newPos t j) : i = j := by
  rcases Nat.lt_trichotomy i j with hij | hij | hij
  · have := newPos_lt e hij; omega
  · exact hij
  · have := newPos_lt e' hij; omega

end Props
