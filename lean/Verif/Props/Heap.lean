import Verif.Lemmas.Heap
import Verif.Lemmas.Sort

/-!
# C06, C35, C37: d-ary heaps, the binary-heap priority queue, heapsort
-/
namespace Props
open Py Model Spec
variable {α : Type}

inductive HeapOp (α : Type)
  | insert (x : α)
  | extract
  | isEmpty

/-- What a caller sees. `extract` raises before modifying anything (heaps.py:188-189). -/
def dheapStep (comp : α → α → Bool) (d : Nat) (s : DHeap α) : HeapOp α → DHeap α × Out α
  | .insert x => match heapInsert comp d s x with
    | .ok s' => (s', .done)
    | .error e => (s, .raised e)
  | .extract => match heapExtract comp d s with
    | .ok (x, s') => (s', .elem x)
    | .error e => (s, .raised e)
  | .isEmpty => (s, .flag (heapIsEmpty s))

/-- Specification of a priority queue: `Serves le l ops outs` says that a container holding the elements `l` (in no particular
order) may answer the calls `ops` with `outs`: `extract` takes out some least element, or raises if there is none. -/
def Serves (le : α → α → Prop) : List α → List (HeapOp α) → List (Out α) → Prop
  | _, [], outs => outs = []
  | l, .insert x :: ops, outs => ∃ rest, outs = .done :: rest ∧ Serves le (x :: l) ops rest
  | l, .extract :: ops, outs =>
    (l = [] ∧ ∃ rest, outs = .raised .indexError :: rest ∧ Serves le l ops rest) ∨
    (∃ x l' rest, l.Perm (x :: l') ∧ (∀ y ∈ l, le x y) ∧ outs = .elem x :: rest ∧ Serves le l' ops rest)
  | l, .isEmpty :: ops, outs => ∃ rest, outs = .flag l.isEmpty :: rest ∧ Serves le l ops rest

theorem dheap_serves {comp : α → α → Bool} {le : α → α → Prop} (hle : TotalPreorder le) (hc : Compat comp le)
    {d : Nat} (hd : 0 < d) : ∀ (ops : List (HeapOp α)) (s : DHeap α) (l : List α), s.Ok le d l →
    Serves le l ops (trace (dheapStep comp d) s ops) := by
  intro ops
  induction ops with
  | nil => intros; rfl
  | cons op ops ih =>
    intro s l h
    cases op with
    | insert x =>
      obtain ⟨s', e, h'⟩ := heapInsert_ok hle hc hd h x
      simp only [trace, dheapStep, e]
      exact ⟨_, rfl, ih _ _ h'⟩
    | extract =>
      by_cases hl : l = []
      · left
        refine ⟨hl, ?_⟩
        have e : heapExtract comp d s = .error .indexError := by
          rw [heapExtract, if_pos (by rw [h.n, hl]; rfl)]
        simp only [trace, dheapStep, e]
        exact ⟨_, rfl, ih _ _ h⟩
      · right
        obtain ⟨x, s', l', e, hp, hmin, h'⟩ := heapExtract_ok hle hc hd h hl
        simp only [trace, dheapStep, e]
        exact ⟨x, l', _, hp, hmin, rfl, ih _ _ h'⟩
    | isEmpty =>
      simp only [trace, dheapStep, heapIsEmpty_ok h]
      exact ⟨_, rfl, ih _ _ h⟩

/-- C37: for every arity `d ≥ 1`, every comparator compatible with a total preorder on the keys (`<=` for "min", `>=` for "max"),
every initial content and every history of calls, the heap serves as a priority queue. -/
theorem C37_dheap (comp : α → α → Bool) (le : α → α → Prop) (hle : TotalPreorder le) (hc : Compat comp le)
    (d : Nat) (hd : 0 < d) (elements : List α) (ops : List (HeapOp α)) :
    ∃ s, heapNew comp d elements = .ok s ∧ Serves le elements ops (trace (dheapStep comp d) s ops) := by
  obtain ⟨s, l', e, hn, hden, hperm, hheap⟩ := heapBuild_spec hle hc hd elements
  exact ⟨s, e, dheap_serves hle hc hd ops s elements ⟨⟨l', hden, hperm, hheap⟩, hn⟩⟩

/-- The heap order itself, as visible in the array: after any history every cell `p` is `le` each of its cells
`d*p+1, …, d*p+d` below the current length, and the cells hold exactly the current content. -/
theorem C37_heap_order (comp : α → α → Bool) (le : α → α → Prop) (hle : TotalPreorder le) (hc : Compat comp le)
    (d : Nat) (hd : 0 < d) (elements : List α) (ops : List (HeapOp α)) :
    ∃ s, heapNew comp d elements = .ok s ∧
      ∃ cells : List α, (final (dheapStep comp d) s ops).heap.data.take (final (dheapStep comp d) s ops).n = cells.map some ∧
        ∀ (p c : Nat) (x y : α), d * p + 1 ≤ c → c ≤ d * p + d → cells[p]? = some x → cells[c]? = some y → le x y := by
  obtain ⟨s, l', e, hn, hden, hperm, hheap⟩ := heapBuild_spec hle hc hd elements
  refine ⟨s, e, ?_⟩
  have key : ∀ (ops : List (HeapOp α)) (s : DHeap α) (l : List α), s.Ok le d l → ∃ l2, (final (dheapStep comp d) s ops).Ok le d l2 := by
    intro ops
    induction ops with
    | nil => intro s l h; exact ⟨l, h⟩
    | cons op ops ih =>
      intro s l h
      cases op with
      | insert x =>
        obtain ⟨s', e, h'⟩ := heapInsert_ok hle hc hd h x
        simp only [final, dheapStep, e]
        exact ih _ _ h'
      | extract =>
        by_cases hl : l = []
        · have e : heapExtract comp d s = .error .indexError := by
            rw [heapExtract, if_pos (by rw [h.n, hl]; rfl)]
          simp only [final, dheapStep, e]
          exact ih _ _ h
        · obtain ⟨x, s', l', e, hp, hmin, h'⟩ := heapExtract_ok hle hc hd h hl
          simp only [final, dheapStep, e]
          exact ih _ _ h'
      | isEmpty => exact ih _ _ h
  obtain ⟨l2, ⟨cells, ⟨⟨k, hd1⟩, _, _⟩, hp, hh⟩, hn2⟩ := key ops s elements ⟨⟨l', hden, hperm, hheap⟩, hn⟩
  refine ⟨cells, ?_, fun p c x y h1 h2 => hh p c x y (Nat.zero_le _) ⟨h1, h2⟩⟩
  rw [hd1, hn2, ← hp.length_eq, List.take_left' (by simp)]

theorem natLe_total : TotalPreorder (fun a b : Nat => a ≤ b) := ⟨fun a b => Nat.le_total a b, fun _ _ _ => Nat.le_trans⟩
theorem natLe_compat : Compat (fun a b : Nat => decide (a ≤ b)) (fun a b => a ≤ b) :=
  ⟨fun a b h => by simpa using h, fun a b h => by simp at h; omega⟩

example : ∃ s, heapNew (fun a b : Nat => decide (a ≤ b)) 3 [5, 2, 9, 1] = .ok s ∧
    trace (dheapStep (fun a b : Nat => decide (a ≤ b)) 3) s [.extract, .insert 0, .extract, .extract, .extract, .extract, .extract, .isEmpty] =
      [.elem 1, .done, .elem 0, .elem 2, .elem 5, .elem 9, .raised .indexError, .flag true] := ⟨_, rfl, by decide⟩

/-! ## C35 -/

inductive PqOp (ν π : Type)
  | push (value : ν) (priority : π)
  | pop
  | peek
  | isEmpty

/-- queue.py:451-467 `BinaryHeapPriorityQueue`: the entries are `(priority, value)` nodes of a binary heap with `_comp = comp`; `pop`
answers the value, `peek` the node. -/
def heapPqStep {ν π : Type} (comp : π → π → Bool) (s : DHeap (π × ν)) : PqOp ν π → DHeap (π × ν) × Out (Option π × ν)
  | .push v p => match heapInsert (fun a b => comp a.1 b.1) 2 s (p, v) with
    | .ok s' => (s', .done)
    | .error e => (s, .raised e)
  | .pop => match heapExtract (fun a b => comp a.1 b.1) 2 s with
    | .ok (x, s') => (s', .elem (none, x.2))
    | .error e => (s, .raised e)
  | .peek => match heapPeek s with
    | .ok x => (s, .elem (some x.1, x.2))
    | .error e => (s, .raised e)
  | .isEmpty => (s, .flag (heapIsEmpty s))

/-- Specification: the content is a multiset of `(priority, value)` entries; `pop` takes out an entry whose priority is least and
answers its value; `peek` shows such an entry; both raise `IndexError` on an empty queue. -/
def PqServes {ν π : Type} (le : π → π → Prop) : List (π × ν) → List (PqOp ν π) → List (Out (Option π × ν)) → Prop
  | _, [], outs => outs = []
  | l, .push v p :: ops, outs => ∃ rest, outs = .done :: rest ∧ PqServes le ((p, v) :: l) ops rest
  | l, .pop :: ops, outs =>
    (l = [] ∧ ∃ rest, outs = .raised .indexError :: rest ∧ PqServes le l ops rest) ∨
    (∃ p v l' rest, l.Perm ((p, v) :: l') ∧ (∀ e ∈ l, le p e.1) ∧ outs = .elem (none, v) :: rest ∧ PqServes le l' ops rest)
  | l, .peek :: ops, outs =>
    (l = [] ∧ ∃ rest, outs = .raised .indexError :: rest ∧ PqServes le l ops rest) ∨
    (∃ p v rest, (p, v) ∈ l ∧ (∀ e ∈ l, le p e.1) ∧ outs = .elem (some p, v) :: rest ∧ PqServes le l ops rest)
  | l, .isEmpty :: ops, outs => ∃ rest, outs = .flag l.isEmpty :: rest ∧ PqServes le l ops rest

/-- C35. `comp` is any comparator compatible with a total preorder on priorities (the default is `<`). -/
theorem C35_heap_priority_queue {ν π : Type} (comp : π → π → Bool) (le : π → π → Prop) (hle : TotalPreorder le)
    (hc : Compat comp le) (ops : List (PqOp ν π)) :
    PqServes le [] ops (trace (heapPqStep comp) ⟨Doda.ofSize 0, 0⟩ ops) := by
  have hle' : TotalPreorder (fun a b : π × ν => le a.1 b.1) := ⟨fun a b => hle.total _ _, fun a b c => hle.trans _ _ _⟩
  have hc' : Compat (fun a b : π × ν => comp a.1 b.1) (fun a b => le a.1 b.1) := ⟨fun a b => hc.yes _ _, fun a b => hc.no _ _⟩
  have key : ∀ (ops : List (PqOp ν π)) (s : DHeap (π × ν)) (l : List (π × ν)), s.Ok (fun a b => le a.1 b.1) 2 l →
      PqServes le l ops (trace (heapPqStep comp) s ops) := by
    intro ops
    induction ops with
    | nil => intros; rfl
    | cons op ops ih =>
      intro s l h
      cases op with
      | push v p =>
        obtain ⟨s', e, h'⟩ := heapInsert_ok hle' hc' (by omega) h (p, v)
        simp only [trace, heapPqStep, e]
        exact ⟨_, rfl, ih _ _ h'⟩
      | pop =>
        by_cases hl : l = []
        · left
          refine ⟨hl, ?_⟩
          have e : heapExtract (fun a b : π × ν => comp a.1 b.1) 2 s = .error .indexError := by
            rw [heapExtract, if_pos (by rw [h.n, hl]; rfl)]
          simp only [trace, heapPqStep, e]
          exact ⟨_, rfl, ih _ _ h⟩
        · right
          obtain ⟨⟨p, v⟩, s', l', e, hp, hmin, h'⟩ := heapExtract_ok hle' hc' (by omega) h hl
          simp only [trace, heapPqStep, e]
          exact ⟨p, v, l', _, hp, hmin, rfl, ih _ _ h'⟩
      | peek =>
        by_cases hl : l = []
        · left
          refine ⟨hl, ?_⟩
          have e : heapPeek s = .error .indexError := by
            rw [heapPeek, if_pos (by rw [heapIsEmpty_ok h, hl]; rfl)]
          simp only [trace, heapPqStep, e]
          exact ⟨_, rfl, ih _ _ h⟩
        · right
          obtain ⟨⟨p, v⟩, e, hm, hmin⟩ := heapPeek_ok hle' (by omega) h hl
          simp only [trace, heapPqStep, e]
          exact ⟨p, v, _, hm, hmin, rfl, ih _ _ h⟩
      | isEmpty =>
        simp only [trace, heapPqStep, heapIsEmpty_ok h]
        exact ⟨_, rfl, ih _ _ h⟩
  exact key ops _ _ (heapEmpty_ok _ _)

example : trace (heapPqStep (fun a b : Nat => decide (a < b))) ⟨Doda.ofSize 0, 0⟩
    [.push "x" 3, .push "y" 1, .push "z" 2, .peek, .pop, .pop, .pop, .pop, .isEmpty] =
    [.done, .done, .done, .elem (some 1, "y"), .elem (none, "y"), .elem (none, "z"), .elem (none, "x"), .raised .indexError,
      .flag true] := by decide

/-! ## C06 -/

theorem heapsortWrite_spec {comp : α → α → Bool} {le : α → α → Prop} (hle : TotalPreorder le) (hc : Compat comp le)
    (post : List (Option α)) :
    ∀ (fuel : Nat) (pre : List (Option α)) (m : Nat) (h : DHeap α) (l : List α), h.Ok le 2 l → l.length ≤ m → l.length < fuel →
    ∃ l' : List α, heapsortWrite comp fuel pre.length (pre ++ List.replicate m none ++ post) h =
        .ok (pre ++ (l'.map some ++ List.replicate (m - l.length) none) ++ post) ∧
      l'.Perm l ∧ l'.Pairwise le := by
  intro fuel
  induction fuel with
  | zero => intro pre m h l _ _ hf; omega
  | succ fuel ih =>
    intro pre m h l hok hm hf
    rw [heapsortWrite, heapIsEmpty_ok hok]
    by_cases hl : l = []
    · subst hl
      exact ⟨[], by simp, .refl _, .nil⟩
    · rw [if_neg (by simpa using hl)]
      obtain ⟨x, s', l', e, hp, hmin, h'⟩ := heapExtract_ok hle hc (by omega) hok hl
      have hlen := hp.length_eq
      simp only [List.length_cons] at hlen
      obtain ⟨m, rfl⟩ : ∃ k, m = k + 1 := ⟨m - 1, by omega⟩
      have hw : wr (pre ++ List.replicate (m + 1) none ++ post) pre.length (some x) =
          .ok ((pre ++ [some x]) ++ List.replicate m none ++ post) := by
        rw [wr_of_lt _ (by simp; omega), List.append_assoc, List.set_append_right _ _ (by omega), Nat.sub_self,
          List.replicate_succ, List.cons_append, List.set_cons_zero]
        simp
      rw [e, ok_bind]
      dsimp only
      rw [hw, ok_bind]
      obtain ⟨l2, e2, hp2, hs2⟩ := ih (pre ++ [some x]) m s' l' h' (by omega) (by omega)
      rw [List.length_append, List.length_singleton] at e2
      refine ⟨x :: l2, ?_, (hp2.cons x).trans hp.symm, ?_⟩
      · rw [e2]
        have : m + 1 - l.length = m - l'.length := by omega
        rw [this]
        simp
      · refine .cons ?_ hs2
        intro y hy
        exact hmin y (hp.symm.mem_iff.1 (List.mem_cons_of_mem _ (hp2.mem_iff.1 hy)))

theorem heapsort_run {comp : α → α → Bool} {le : α → α → Prop} (hle : TotalPreorder le) (hc : Compat comp le)
    (pre mid post : List (Option α)) :
    ∃ l' : List α, heapsort comp (pre ++ mid ++ post) pre.length (pre.length + mid.length) =
        .ok (pre ++ (l'.map some ++ List.replicate (mid.length - (mid.filterMap id).length) none) ++ post) ∧
      l'.Perm (mid.filterMap id) ∧ l'.Pairwise le := by
  obtain ⟨⟨a', h'⟩, e, ha, l, hok, hpl⟩ := forRange_spec
    (I := fun (k : Nat) (s : List (Option α) × DHeap α) =>
      s.1 = pre ++ (List.replicate (k - pre.length) none ++ mid.drop (k - pre.length)) ++ post ∧
      ∃ l, s.2.Ok le 2 l ∧ l.Perm ((mid.take (k - pre.length)).filterMap id))
    (body := heapsortCollect comp) (lo := pre.length) (hi := pre.length + mid.length)
    (s := (pre ++ mid ++ post, ⟨Doda.ofSize 0, 0⟩)) (by omega)
    ⟨by simp, [], heapEmpty_ok _ _, by simp⟩
    (by
      rintro k ⟨a, h⟩ hk1 hk2 ⟨ha, l, hok, hpl⟩
      obtain ⟨j, rfl⟩ : ∃ j, k = pre.length + j := ⟨k - pre.length, by omega⟩
      rw [show pre.length + j - pre.length = j by omega] at *
      rw [show pre.length + j + 1 - pre.length = j + 1 by omega] at *
      dsimp only at ha hok
      have hj : j < mid.length := by omega
      have hdrop := List.drop_eq_getElem_cons hj
      have hrd : rd a (pre.length + j) = .ok mid[j] := by
        apply rd_of_some
        rw [ha, List.append_assoc, List.getElem?_append_right (by omega), show pre.length + j - pre.length = j by omega,
          hdrop, List.append_assoc, List.getElem?_append_right (by simp)]
        simp only [List.length_replicate, Nat.sub_self, List.cons_append, List.getElem?_cons_zero]
      have hw : wr a (pre.length + j) none = .ok (pre ++ (List.replicate (j + 1) none ++ mid.drop (j + 1)) ++ post) := by
        rw [wr_of_lt _ (by rw [ha]; simp; omega), ha, List.append_assoc, List.set_append_right _ _ (by omega),
          show pre.length + j - pre.length = j by omega, hdrop, List.append_assoc, List.set_append_right _ _ (by simp)]
        simp only [List.length_replicate, Nat.sub_self, List.cons_append, List.set_cons_zero, List.replicate_succ', List.append_assoc,
          List.nil_append]
      have htake : mid.take (j + 1) = mid.take j ++ [mid[j]] := by rw [List.take_append_getElem hj]
      rw [heapsortCollect]
      dsimp only
      rw [hrd, ok_bind]
      cases hx : mid[j] with
      | none =>
        dsimp only
        rw [ok_bind, hw, ok_bind]
        refine ⟨_, rfl, rfl, l, hok, ?_⟩
        rw [htake, hx, List.filterMap_append]
        simpa using hpl
      | some x =>
        obtain ⟨h', e, hok'⟩ := heapInsert_ok hle hc (by omega) hok x
        dsimp only
        rw [e, ok_bind, hw, ok_bind]
        refine ⟨_, rfl, rfl, x :: l, hok', ?_⟩
        rw [htake, hx, List.filterMap_append]
        exact (hpl.cons x).trans (List.perm_append_singleton x _).symm)
  dsimp only at ha hok
  rw [show pre.length + mid.length - pre.length = mid.length by omega] at ha hpl
  rw [List.drop_length, List.append_nil] at ha
  rw [List.take_length] at hpl
  have hlen := hpl.length_eq
  have hfl : (mid.filterMap id).length ≤ mid.length := List.length_filterMap_le _ _
  obtain ⟨l2, e2, hp2, hs2⟩ := heapsortWrite_spec hle hc post (a'.length + 1) pre mid.length h' l hok (by omega)
    (by rw [ha]; simp; omega)
  refine ⟨l2, ?_, hp2.trans hpl, hs2⟩
  rw [heapsort, e, ok_bind]
  dsimp only
  conv => lhs; arg 4; rw [ha]
  rw [e2, hlen]

theorem perm_filterMap_none (l : List (Option α)) :
    ((l.filterMap id).map some ++ List.replicate (l.length - (l.filterMap id).length) none).Perm l := by
  induction l with
  | nil => exact .refl _
  | cons x l ih =>
    have := List.length_filterMap_le id l
    cases x with
    | none =>
      simp only [List.filterMap_cons, id, List.length_cons]
      rw [show l.length + 1 - (l.filterMap id).length = (l.length - (l.filterMap id).length) + 1 by omega,
        List.replicate_succ]
      exact List.perm_middle.trans (ih.cons none)
    | some x =>
      simp only [List.filterMap_cons, id, List.length_cons, List.map_cons, List.cons_append]
      rw [show l.length + 1 - ((l.filterMap id).length + 1) = l.length - (l.filterMap id).length by omega]
      exact ih.cons _

theorem C06_heapsort (comp : α → α → Bool) (le : α → α → Prop) (ho : TotalPreorder le) (hc : Compat comp le)
    (a : List (Option α)) (start stop : Nat) (h : stop ≤ a.length) :
    ∃ b, heapsort comp a start stop = .ok b ∧ SortsTo (noneLast le) a b start stop := by
  by_cases hss : start ≤ stop
  · have hsplit : a = a.take start ++ (a.drop start).take (stop - start) ++ a.drop stop := by
      have h1 : a.drop stop = (a.drop start).drop (stop - start) := by
        rw [List.drop_drop]; congr 1; omega
      rw [h1, List.append_assoc, List.take_append_drop, List.take_append_drop]
    have l1 : (a.take start).length = start := by simp; omega
    have l2 : ((a.drop start).take (stop - start)).length = stop - start := by simp; omega
    generalize a.take start = pre at *
    generalize (a.drop start).take (stop - start) = mid at *
    generalize a.drop stop = post at *
    obtain ⟨l', e, hp, hs⟩ := heapsort_run ho hc pre mid post
    rw [← hsplit, l1, l2, show start + (stop - start) = stop by omega] at e
    refine ⟨_, e, ⟨?_, ?_⟩, ?_⟩
    · rw [hsplit]
      refine List.Perm.append_right _ (List.Perm.append_left _ ?_)
      rw [← l2]
      exact ((hp.map some).append_right _).trans (perm_filterMap_none mid)
    · have hml : (l'.map some ++ List.replicate (stop - start - (mid.filterMap id).length) (none : Option α)).length = mid.length := by
        have := hp.length_eq
        have := List.length_filterMap_le id mid
        simp; omega
      intro i hi
      rw [hsplit]
      rcases hi with hi | hi
      · rw [List.append_assoc, List.getElem?_append_left (by omega), List.append_assoc, List.getElem?_append_left (by omega)]
      · rw [List.getElem?_append_right (by rw [List.length_append, hml]; omega),
          List.getElem?_append_right (by rw [List.length_append]; omega), List.length_append, hml, List.length_append]
    · intro i j x y hi hij hj hx hy
      have hlen := hp.length_eq
      have hfl := List.length_filterMap_le id mid
      have hat : ∀ (k : Nat), start ≤ k → k < stop →
          (pre ++ (l'.map some ++ List.replicate (stop - start - (mid.filterMap id).length) none) ++ post)[k]? =
          if k - start < l'.length then (l'.map some)[k - start]? else some none := by
        intro k h1 h2
        rw [List.append_assoc, List.getElem?_append_right (by omega), l1, List.getElem?_append_left (by simp; omega)]
        split
        · rw [List.getElem?_append_left (by simpa)]
        · rw [List.getElem?_append_right (by simp; omega), List.getElem?_replicate, if_pos (by simp; omega)]
      rw [hat i hi (by omega)] at hx
      rw [hat j (by omega) hj] at hy
      by_cases hj2 : j - start < l'.length
      · rw [if_pos hj2] at hy
        rw [if_pos (by omega)] at hx
        rw [List.getElem?_map, List.getElem?_eq_getElem hj2] at hy
        rw [List.getElem?_map, List.getElem?_eq_getElem (by omega)] at hx
        cases hx; cases hy
        exact (List.pairwise_iff_getElem.1 hs) _ _ _ _ (by omega)
      · rw [if_neg hj2] at hy
        cases hy
        cases x <;> trivial
  · refine ⟨a, ?_, ⟨.refl _, fun _ _ => rfl⟩, by intro i j x y _ _ _; omega⟩
    rw [heapsort, forRange_empty (by omega), ok_bind]
    rfl

example : heapsort (fun u v : Int => decide (u ≤ v)) [some 9, some 3, none, some (-2), some 3, some 0] 1 5
    = .ok [some 9, some (-2), some 3, some 3, none, some 0] := by decide

end Props
