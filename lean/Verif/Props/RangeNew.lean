import Verif.Model.RangeNew
import Verif.Props.SegmentTree

/-! # C138, C139: the constructors of range queries, the array of the caller, and the life of a segment tree -/
namespace Props
open Py Model Spec
variable {α : Type} {f : QFunc α} {op : α → α → α}

/-! ## C138: what the constructors accept and what they return -/

/-- C138, static objects: an empty array is a `ValueError`, another name a `NotImplementedError`, and with either supported name the object
answers every pair of bounds as specified. -/
theorem C138_static (hf : IsFold f op) (name : String) (a : List α) :
    (a = [] → RqStatic.new f name a = .error .valueError) ∧
    (a ≠ [] → name ≠ "array" → name ≠ "sparse_table" → RqStatic.new f name a = .error .notImplemented) ∧
    (a ≠ [] → name = "array" ∨ name = "sparse_table" →
      ∃ q, RqStatic.new f name a = .ok q ∧ ∀ start end_ : Int, q.query f start end_ = rangeAnswer op a start end_) := by
  refine ⟨fun h => by subst h; rfl, fun h h1 h2 => ?_, fun h hn => ?_⟩
  · rw [RqStatic.new, if_neg (by simpa using h), if_neg h1, if_neg h2]
  · have hl : ¬ a.length = 0 := by simpa using h
    obtain ⟨t, e, hq⟩ := C47_static hf a h
    rcases hn with rfl | rfl
    · exact ⟨.array a, by rw [RqStatic.new, if_neg hl, if_pos rfl], fun s e => (hq s e).2⟩
    · exact ⟨.sparse t a.length, by rw [RqStatic.new, if_neg hl, if_neg (by decide), if_pos rfl, e]; rfl, fun s e => (hq s e).1⟩

/-- Calls on a dynamic object, and a look at the array that was passed to the constructor. -/
inductive RqUse (α : Type) where
  | call (o : RqOp α)
  | look (i : Nat)

/-- The machine. -/
def rqUseStep (f : QFunc α) (fuel : Nat) (q : RqDynamic α) : RqUse α → RqDynamic α × Out α
  | .call (.update i v) => match q.update f fuel i v with
    | .ok q' => (q', .done)
    | .error e => (q, .raised e)
  | .call (.query l r) => rqOut q (q.query f fuel l r)
  | .look i => (q, match q.caller[i]? with | some x => .elem x | none => .raised .indexError)

/-- The specification: one array, that of the caller, which the updates write and the queries read. -/
def rqUseSpec (op : α → α → α) (a : List α) : RqUse α → List α × Out α
  | .call o => rqSpec op a o
  | .look i => (a, match a[i]? with | some x => .elem x | none => .raised .indexError)

/-- No update with a negative index. -/
def RqUse.NonNeg : RqUse α → Prop
  | .call o => o.NonNeg
  | .look _ => True

theorem segUpdate_caller (hf : IsFold f op) {n : Nat} {s : Seg α} {a : List α} (h : Built op n s a) (index : Int) (v : α) (fuel : Nat)
    (hfu : 2 * n + 1 ≤ fuel) {ar : List α} (e : setAt s.array index v = .ok ar) :
    ∃ s', segUpdate f fuel s index v = .ok s' ∧ s'.array = ar := by
  obtain ⟨h1, h2, h3, ids, S⟩ := h
  have hk : -(n : Int) ≤ index ∧ index < n := by
    unfold setAt listIndex at e
    rw [h1] at e
    split at e
    · rename_i k hk
      split at hk
      · split at hk
        · omega
        · cases hk
      · split at hk
        · omega
        · cases hk
    · cases e
  have hkn : (if 0 ≤ index then index.toNat else n - 1) < n := by split <;> omega
  obtain ⟨s', c, hc, e', S', _, ha'⟩ := upd_spec hf v index (if 0 ≤ index then index.toNat else n - 1) (by rw [h2]; exact hkn) S e
    (by split <;> omega) (Nat.zero_le _) (by omega)
  refine ⟨s', ?_, ha'⟩
  obtain ⟨m, hm⟩ : ∃ m, fuel = m + 1 + c := ⟨fuel - 1 - c, by omega⟩
  have := e' (m + 1) []
  rw [← hm] at this
  unfold updLoop at this
  rw [segUpdate, this]
  rfl

theorem setAt_nat {a : List α} {i : Int} (hi : 0 ≤ i) (v : α) :
    setAt a i v = if i.toNat < a.length then .ok (a.set i.toNat v) else .error .indexError := by
  by_cases h : i.toNat < a.length
  · rw [if_pos h, setAt, listIndex, if_pos hi, if_pos (by omega)]
    exact wr_of_lt _ h
  · rw [if_neg h, setAt, listIndex, if_pos hi, if_neg (by omega)]

/-- The object serves the array `a`, which is also the array of the caller. -/
def RqServes (op : α → α → α) (N : Nat) : RqDynamic α → List α → Prop
  | .array b, a => b = a ∧ a.length = N
  | .seg s n, a => n = N ∧ s.array = a ∧ Built op N s a

theorem rqUse_step (hf : IsFold f op) {N fuel : Nat} (hfu : 3 * N ≤ fuel) (q : RqDynamic α) (a : List α) (u : RqUse α) (hu : u.NonNeg)
    (h : RqServes op N q a) : RqServes op N (rqUseStep f fuel q u).1 (rqUseSpec op a u).1 ∧
      (rqUseStep f fuel q u).2 = (rqUseSpec op a u).2 := by
  cases q with
  | array b =>
    obtain ⟨rfl, hN⟩ := h
    cases u with
    | look i => exact ⟨⟨rfl, hN⟩, rfl⟩
    | call o =>
      cases o with
      | update i v =>
        simp only [rqUseStep, rqUseSpec, rqSpec, RqDynamic.update, rqArrayUpdate]
        cases e : setAt b i v with
        | ok b' => exact ⟨⟨rfl, by rw [setAt_length e, hN]⟩, rfl⟩
        | error x => exact ⟨⟨rfl, hN⟩, rfl⟩
      | query l r =>
        simp only [rqUseStep, rqUseSpec, rqSpec, RqDynamic.query, arrayQuery_spec hf]
        cases rangeAnswer op b l r <;> exact ⟨⟨rfl, hN⟩, rfl⟩
  | seg s n =>
    obtain ⟨rfl, hs, hb⟩ := h
    subst hs
    have hl := hb.2.1
    have hn := hb.2.2.1
    cases u with
    | look i => exact ⟨⟨rfl, rfl, hb⟩, rfl⟩
    | call o =>
      cases o with
      | update i v =>
        have hi : 0 ≤ i := hu
        have hk : ((i.toNat : Nat) : Int) = i := by omega
        have h1 := segUpdate_spec hf hb i.toNat v fuel (by omega)
        rw [hk] at h1
        have h2 := setAt_nat (a := s.array) hi v
        by_cases hlt : i.toNat < s.array.length
        · rw [if_pos hlt] at h1 h2
          obtain ⟨s', e', hs'⟩ := h1
          obtain ⟨s'', e'', har⟩ := segUpdate_caller hf hb i v fuel (by omega) h2
          rw [e'] at e''
          cases e''
          simp only [rqUseStep, rqUseSpec, rqSpec, RqDynamic.update, e', h2]
          exact ⟨⟨rfl, har, hs'⟩, rfl⟩
        · rw [if_neg hlt] at h1 h2
          simp only [rqUseStep, rqUseSpec, rqSpec, RqDynamic.update, h1, h2]
          exact ⟨⟨rfl, rfl, hb⟩, rfl⟩
      | query l r =>
        have : rqSegQuery f fuel s n l r = rangeAnswer op s.array l r := by
          rw [rqSegQuery, ← hl]
          apply rangeAnswer_of
          intro _ _
          exact segQuery_spec hf hb _ _ fuel (by omega)
        simp only [rqUseStep, rqUseSpec, rqSpec, RqDynamic.query, this]
        cases rangeAnswer op s.array l r <;> exact ⟨⟨rfl, rfl, hb⟩, rfl⟩

theorem rqUse_trace (hf : IsFold f op) {N fuel : Nat} (hfu : 3 * N ≤ fuel) : ∀ (us : List (RqUse α)) (q : RqDynamic α) (a : List α),
    (∀ u ∈ us, u.NonNeg) → RqServes op N q a → trace (rqUseStep f fuel) q us = trace (rqUseSpec op) a us
  | [], _, _, _, _ => rfl
  | u :: us, q, a, hu, h => by
    obtain ⟨h1, h2⟩ := rqUse_step hf hfu q a u (hu u (by simp)) h
    simp only [trace]
    rw [h2, rqUse_trace hf hfu us _ _ (fun x hx => hu x (by simp [hx])) h1]

/-- C138, dynamic objects: an empty array is a `ValueError`, another name a `NotImplementedError`; with either supported name, in every
history of calls whose updates use non-negative indices, every answer and every look at the array passed to the constructor is what one
array, written by the updates, gives: the two data structures cannot be told apart, and the caller's array is always current. -/
theorem C138_dynamic (hf : IsFold f op) (name : String) (a : List α) (fuel : Nat) (hfu : 3 * a.length ≤ fuel) :
    (a = [] → RqDynamic.new f fuel name a = .error .valueError) ∧
    (a ≠ [] → name ≠ "array" → name ≠ "segment_tree" → RqDynamic.new f fuel name a = .error .notImplemented) ∧
    (a ≠ [] → name = "array" ∨ name = "segment_tree" →
      ∃ q, RqDynamic.new f fuel name a = .ok q ∧ q.caller = a ∧
        ∀ us : List (RqUse α), (∀ u ∈ us, u.NonNeg) → trace (rqUseStep f fuel) q us = trace (rqUseSpec op) a us) := by
  refine ⟨fun h => by subst h; rfl, fun h h1 h2 => ?_, fun h hn => ?_⟩
  · rw [RqDynamic.new, if_neg (by simpa using h), if_neg h1, if_neg h2]
  · have hl : ¬ a.length = 0 := by simpa using h
    rcases hn with rfl | rfl
    · exact ⟨.array a, by rw [RqDynamic.new, if_neg hl, if_pos rfl], rfl, fun us hu => rqUse_trace hf hfu us _ _ hu ⟨rfl, rfl⟩⟩
    · obtain ⟨s, e, hs⟩ := segBuild_spec hf a h fuel hfu
      have har : s.array = a := by
        obtain ⟨s', ids, e', S, _, _, _, harr⟩ := build_spec hf a.length ⟨fun _ => ⟨0, a.length - 1, none, none, none⟩, 1, a⟩ 0 0 (a.length - 1)
          (by omega) (by omega) (by show a.length - 1 < a.length; omega) (by show 0 < 1; omega) rfl rfl rfl rfl
        have h1 := e' (fuel - (3 * (a.length - 1 + 1 - 0) - 2)) []
        rw [show fuel - (3 * (a.length - 1 + 1 - 0) - 2) + (3 * (a.length - 1 + 1 - 0) - 2) = fuel by omega] at h1
        obtain ⟨m, hm⟩ : ∃ m, fuel - (3 * (a.length - 1 + 1 - 0) - 2) = m + 1 := ⟨fuel - (3 * (a.length - 1 + 1 - 0) - 2) - 1, by omega⟩
        rw [hm] at h1
        unfold buildLoop at h1
        rw [segBuild] at e
        dsimp only at e
        rw [h1] at e
        have : s' = s := Except.ok.inj e
        rw [← this, harr]
      exact ⟨.seg s a.length, by rw [RqDynamic.new, if_neg hl, if_neg (by decide), if_pos rfl, e]; rfl, har,
        fun us hu => rqUse_trace hf hfu us _ _ hu ⟨rfl, har, hs⟩⟩

/-- C138, any index: whatever the index, an update reaches the array of the caller exactly as `array[index] = value` does, with both data
structures (a negative index counts from the end, one outside raises and changes nothing). -/
theorem C138_caller (hf : IsFold f op) (a : List α) (ha : a ≠ []) (fuel : Nat) (hfu : 3 * a.length ≤ fuel) (updates : List (Int × α)) :
    ∃ s, segBuild f fuel a = .ok s ∧
      ((final (rqUseStep f fuel) (.seg s a.length) (updates.map fun u => .call (.update u.1 u.2))).caller =
        updates.foldl (fun b u => match setAt b u.1 u.2 with | .ok b' => b' | .error _ => b) a) ∧
      ((final (rqUseStep f fuel) (.array a) (updates.map fun u => .call (.update u.1 u.2))).caller =
        updates.foldl (fun b u => match setAt b u.1 u.2 with | .ok b' => b' | .error _ => b) a) := by
  obtain ⟨q, eq, hc, htr⟩ := (C138_dynamic hf "segment_tree" a fuel hfu).2.2 ha (.inr rfl)
  obtain ⟨s, e, hs⟩ := segBuild_spec hf a ha fuel hfu
  have hq : q = .seg s a.length := by
    rw [RqDynamic.new, if_neg (by simpa using ha), if_neg (by decide), if_pos rfl, e] at eq
    exact (Except.ok.inj eq).symm
  subst hq
  have har : s.array = a := hc
  refine ⟨s, e, ?_, ?_⟩
  · clear eq hc e htr
    obtain ⟨N, hN⟩ : ∃ N, N = a.length := ⟨_, rfl⟩
    rw [← hN] at hs ⊢
    have hfu' : 3 * N ≤ fuel := by omega
    clear hfu ha
    rw [← har]
    clear hN har
    revert hs
    generalize a = b
    intro hs
    induction updates generalizing s b with
    | nil => rfl
    | cons u us ih =>
      have hn := hs.2.2.1
      have h1 := segUpdate_any hf hs u.1 u.2 fuel (by omega)
      by_cases hk : -(N : Int) ≤ u.1 ∧ u.1 < N
      · rw [if_pos hk] at h1
        obtain ⟨s', e', hs'⟩ := h1
        have hset : ∃ ar, setAt s.array u.1 u.2 = .ok ar := by
          by_cases hi : 0 ≤ u.1
          · rw [setAt, listIndex, if_pos hi, if_pos (by rw [hs.1]; omega)]
            exact ⟨_, wr_of_lt _ (by rw [hs.1]; omega)⟩
          · rw [setAt, listIndex, if_neg hi, if_pos (by rw [hs.1]; omega)]
            exact ⟨_, wr_of_lt _ (by rw [hs.1]; omega)⟩
        obtain ⟨ar, har⟩ := hset
        obtain ⟨s'', e'', h2⟩ := segUpdate_caller hf hs u.1 u.2 fuel (by omega) har
        rw [e'] at e''
        cases e''
        simp only [List.map_cons, final, List.foldl_cons, rqUseStep, RqDynamic.update, e', har]
        have := ih s' _ hs'
        rw [h2] at this
        exact this
      · rw [if_neg hk] at h1
        have hset : setAt s.array u.1 u.2 = .error .indexError := by
          by_cases hi : 0 ≤ u.1
          · rw [setAt, listIndex, if_pos hi, if_neg (by rw [hs.1]; omega)]
          · rw [setAt, listIndex, if_neg hi, if_neg (by rw [hs.1]; omega)]
        simp only [List.map_cons, final, List.foldl_cons, rqUseStep, RqDynamic.update, h1, hset]
        exact ih s _ hs
  · clear hs e eq hc har hfu ha htr
    induction updates generalizing a with
    | nil => rfl
    | cons u us ih =>
      simp only [List.map_cons, final, List.foldl_cons, rqUseStep, RqDynamic.update, rqArrayUpdate]
      cases setAt a u.1 u.2 with
      | ok b => exact ih b
      | error x => exact ih a

example : RqStatic.new qMinimum "sparse_table" ([] : List Int) = .error .valueError := rfl
example : RqStatic.new qMinimum "b_tree" [1, 2] = .error .notImplemented := rfl
example : ∃ q, RqDynamic.new qMinimum 18 "segment_tree" [4, 6, 1, 5, 7, 3] = .ok q ∧
    trace (rqUseStep qMinimum 18) q [.call (.query 0 2), .call (.update 2 0), .look 2, .call (.query 0 2), .look 9] =
      [.elem 1, .done, .elem 0, .elem 0, .raised .indexError] := ⟨_, rfl, rfl⟩
example : ∃ q, RqDynamic.new qMinimum 18 "array" [4, 6, 1, 5, 7, 3] = .ok q ∧
    trace (rqUseStep qMinimum 18) q [.call (.query 0 2), .call (.update 2 0), .look 2, .call (.query 0 2), .look 9] =
      [.elem 1, .done, .elem 0, .elem 0, .raised .indexError] := ⟨_, rfl, rfl⟩

/-! ## C139: the life of a segment tree -/

/-- Calls on an `ArraySegmentTree` object. -/
inductive TreeUse (α : Type) where
  | build
  | ready
  | update (index : Nat) (value : α)
  | query (start end_ : Nat)

/-- The machine. -/
def treeUseStep (f : QFunc α) (fuel : Nat) (t : SegTree α) : TreeUse α → SegTree α × Out α
  | .build => match t.build f fuel with
    | .ok t' => (t', .done)
    | .error e => (t, .raised e)
  | .ready => (t, .flag t.isReady)
  | .update i v => match t.update f fuel i v with
    | .ok t' => (t', .done)
    | .error e => (t, .raised e)
  | .query l r => rqOut t (t.query f fuel l r)

/-- The specification: an array and whether the tree was built. Before `build`, every query and update is a `ValueError`; after it, the
array is written and folded; a second `build` does nothing. -/
def treeUseSpec (op : α → α → α) (st : List α × Bool) : TreeUse α → (List α × Bool) × Out α
  | .build => ((st.1, true), .done)
  | .ready => (st, .flag st.2)
  | .update i v =>
    if st.2 = false then (st, .raised .valueError)
    else if i < st.1.length then ((st.1.set i v, true), .done) else (st, .raised .indexError)
  | .query l r =>
    if st.2 = false then (st, .raised .valueError) else (st, answer (foldOf op (slice st.1 l (r + 1 - l))))

/-- The object matches the specified state. -/
def TreeServes (op : α → α → α) (n : Nat) : SegTree α → List α × Bool → Prop
  | .raw a, st => st = (a, false) ∧ a.length = n
  | .ready s, st => st.2 = true ∧ Built op n s st.1

/-- C139 for every non-empty array: in every history of `build`, `update`, `query` and `is_ready` calls in any order, the tree answers as
specified. -/
theorem C139_partial (hf : IsFold f op) (a : List α) (ha : a ≠ []) (fuel : Nat) (hfu : 3 * a.length ≤ fuel) (us : List (TreeUse α)) :
    ∃ t, SegTree.new 1 a = .ok t ∧ trace (treeUseStep f fuel) t us = trace (treeUseSpec op) (a, false) us := by
  refine ⟨.raw a, rfl, (trace_eq (TreeServes op a.length) ?_ us (.raw a) (a, false) ⟨rfl, rfl⟩).1⟩
  intro t st u h
  have hpos : 0 < a.length := List.length_pos_iff.2 ha
  cases t with
  | raw b =>
    obtain ⟨rfl, hb⟩ := h
    cases u with
    | build =>
      have hne : b ≠ [] := by intro e; subst e; simp at hb; omega
      obtain ⟨s, e, hs⟩ := segBuild_spec hf b hne fuel (by omega)
      have e2 : SegTree.build f fuel (.raw b) = .ok (.ready s) := by
        cases b with
        | nil => exact absurd rfl hne
        | cons x xs => simp only [SegTree.build, e]; rfl
      simp only [treeUseStep, e2, treeUseSpec]
      exact ⟨⟨rfl, hb ▸ hs⟩, trivial⟩
    | ready => exact ⟨⟨rfl, hb⟩, rfl⟩
    | update i v => exact ⟨⟨rfl, hb⟩, rfl⟩
    | query l r => exact ⟨⟨rfl, hb⟩, rfl⟩
  | ready s =>
    obtain ⟨c, rd⟩ := st
    obtain ⟨h1, h2⟩ := h
    subst h1
    have hl := h2.2.1
    cases u with
    | build => exact ⟨⟨rfl, h2⟩, rfl⟩
    | ready => exact ⟨⟨rfl, h2⟩, rfl⟩
    | update i v =>
      have := segUpdate_spec hf h2 i v fuel (by omega)
      have hl' : c.length = a.length := hl
      by_cases hk : i < c.length
      · rw [if_pos hk] at this
        obtain ⟨s', e', hs'⟩ := this
        simp only [treeUseStep, SegTree.update, e', treeUseSpec, if_pos hk]
        exact ⟨⟨rfl, hs'⟩, rfl⟩
      · rw [if_neg hk] at this
        simp only [treeUseStep, SegTree.update, this, treeUseSpec, if_neg hk]
        exact ⟨⟨rfl, h2⟩, rfl⟩
    | query l r =>
      simp only [treeUseStep, SegTree.query, segQuery_spec hf h2 l r fuel (by omega), treeUseSpec]
      exact ⟨⟨rfl, h2⟩, rfl⟩

/-- Only one dimension is supported. -/
theorem C139_dimensions (d : Int) (a : List α) (h : d ≠ 1) : SegTree.new d a = .error .notImplemented := by
  rw [SegTree.new, if_neg h]

/-- The top of the stack is a node `(0, -1)` without children: each round pushes two more of them. -/
theorem empty_round (nodes : Nat → SegNodeI) (fresh i : Nat) (stack : List Nat) (hi : i < fresh) (h : nodes i = ⟨0, -1, none, none⟩) :
    ∃ nodes' st, segBuildEmptyBody (nodes, fresh, i :: stack) = .ok (nodes', fresh + 2, (fresh + 1) :: st) ∧
      nodes' (fresh + 1) = ⟨0, -1, none, none⟩ := by
  refine ⟨_, _, by simp only [segBuildEmptyBody, h]; rfl, ?_⟩
  show (if fresh + 1 = i then _ else if fresh + 1 = fresh + 1 then _ else _) = _
  rw [if_neg (by omega), if_pos rfl]
  rfl

theorem empty_never_ends (fuel : Nat) : ∀ (nodes : Nat → SegNodeI) (fresh i : Nat) (stack : List Nat), i < fresh →
    nodes i = ⟨0, -1, none, none⟩ →
    whileLoop fuel (fun st : (Nat → SegNodeI) × Nat × List Nat => .ok (!st.2.2.isEmpty)) segBuildEmptyBody (nodes, fresh, i :: stack) =
      .error .outOfFuel := by
  induction fuel with
  | zero => intro _ _ _ _ _ _; rfl
  | succ n ih =>
    intro nodes fresh i stack hi h
    obtain ⟨nodes', st, e, h'⟩ := empty_round nodes fresh i stack hi h
    rw [whileLoop]
    simp only [List.isEmpty_cons, Bool.not_false, ok_bind, if_true, e]
    exact ih _ _ _ _ (by omega) h'

/-- C139, exactly: the call of `build` on a new tree ends if and only if the array is not empty. On the empty array the root has the
bounds `(0, -1)` and so has every descendant: the loop pushes nodes for ever. -/
theorem C139_exact (hf : IsFold f op) (a : List α) :
    (∃ fuel t, SegTree.build f fuel (.raw a) = .ok t) ↔ a ≠ [] := by
  constructor
  · rintro ⟨fuel, t, e⟩ rfl
    simp only [SegTree.build] at e
    rw [empty_never_ends fuel _ 1 0 [] (by omega) rfl] at e
    cases e
  · intro ha
    obtain ⟨s, e, _⟩ := segBuild_spec hf a ha _ (Nat.le_refl _)
    refine ⟨3 * a.length, .ready s, ?_⟩
    cases a with
    | nil => exact absurd rfl ha
    | cons x xs => simp only [SegTree.build, e]; rfl

/-- C139 in full: `build` ends for every array. -/
def C139_full : Prop := ∀ a : List Int, ∃ fuel t, SegTree.build qSum fuel (.raw a) = .ok t

theorem C139_full_false : ¬ C139_full := fun h => (C139_exact summation_isFold []).1 (h []) rfl

example : ∃ t, SegTree.new 1 [1, 2, 3] = .ok t ∧ trace (treeUseStep qSum 9) t
    [.query 0 1, .update 0 5, .ready, .build, .ready, .query 0 1, .update 0 5, .build, .query 0 2] =
    [.raised .valueError, .raised .valueError, .flag false, .done, .flag true, .elem 3, .done, .done, .elem 10] := ⟨_, rfl, rfl⟩

end Props
