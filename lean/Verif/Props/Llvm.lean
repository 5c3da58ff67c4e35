import Verif.Lemmas.LlvmSort
import Verif.Lemmas.SortForm

/-!
# C94, C95: `bubble_sort` and `selection_sort` with `backend=Backend.LLVM`
-/
open Py Spec Model.Llvm
namespace Props

/-! ## What has been compiled so far -/

/-- A call of one of the two sorts with all its arguments. -/
structure LlvmCall where
  kind : Kind
  fuel : Nat
  a : List (Option Int)
  start : Option Int
  stop : Option Int
  hasComp : Bool
  dtype : Option Dtype

/-- The cache of compiled functions after a sequence of calls in one Python process. -/
def cacheAfter (calls : List LlvmCall) : Cache :=
  calls.foldl (fun c k => (sortLlvm k.kind k.fuel c k.a k.start k.stop k.hasComp k.dtype).2) (fun _ => none)

theorem compile_selection : compile (buildSelection false) = .error .runtimeError := by decide

theorem getPtr_cache {k : Kind} {c : Cache} {d : Dtype} (h : ∀ d f, c d = some f → f = bubbleFn) :
    ∀ d' f, (getPtr k c d).2 d' = some f → f = bubbleFn := by
  intro d' f e
  unfold getPtr at e
  cases hc : c d with
  | some g => rw [hc] at e; exact h d' f e
  | none =>
    rw [hc] at e
    cases k with
    | bubble =>
      simp only [Kind.build, compile_bubble] at e
      by_cases hd : d' = d
      · rw [if_pos hd] at e; cases e; rfl
      · rw [if_neg hd] at e; exact h d' f e
    | selection =>
      simp only [Kind.build, compile_selection] at e
      exact h d' f e

theorem sortLlvm_cache (k : Kind) (fuel : Nat) (c : Cache) (a : List (Option Int)) (start stop : Option Int) (hc : Bool)
    (d : Option Dtype) :
    (sortLlvm k fuel c a start stop hc d).2 = c ∨
      (sortLlvm k fuel c a start stop hc d).2 = (getPtr k c (d.getD .int64)).2 := by
  unfold sortLlvm
  dsimp only
  repeat' split
  all_goals first | exact .inl rfl | (right; simp only [*])

theorem cacheAfter_bubble (calls : List LlvmCall) : ∀ d f, cacheAfter calls d = some f → f = bubbleFn := by
  unfold cacheAfter
  suffices h : ∀ c : Cache, (∀ d f, c d = some f → f = bubbleFn) →
      ∀ d f, (calls.foldl (fun c k => (sortLlvm k.kind k.fuel c k.a k.start k.stop k.hasComp k.dtype).2) c) d = some f → f = bubbleFn by
    exact h _ (fun _ _ e => by cases e)
  induction calls with
  | nil => intro c hc; exact hc
  | cons k calls ih =>
    intro c hc
    rw [List.foldl_cons]
    refine ih _ ?_
    rcases sortLlvm_cache k.kind k.fuel c k.a k.start k.stop k.hasComp k.dtype with e | e <;> rw [e]
    · exact hc
    · exact getPtr_cache hc

/-! ## The buffer -/

/-- The value fits the element type. -/
def FitsIn (d : Dtype) (x : Int) : Prop := -(2 ^ (d.bits - 1) : Int) ≤ x ∧ x < 2 ^ (d.bits - 1)

instance (d : Dtype) (x : Int) : Decidable (FitsIn d x) := by unfold FitsIn; infer_instance

theorem toBuf_fits (d : Dtype) : ∀ l : List Int, (∀ x ∈ l, FitsIn d x) → toBuf d.bits l = .ok (l.map (BitVec.ofInt d.bits)) := by
  intro l
  induction l with
  | nil => intro _; rfl
  | cons x l ih =>
    intro h
    have hx : -(2 ^ (d.bits - 1) : Int) ≤ x ∧ x < 2 ^ (d.bits - 1) := h x (by simp)
    simp only [toBuf, if_pos hx, ih fun y hy => h y (by simp [hy])]
    rfl

theorem toBuf_overflow (d : Dtype) : ∀ l : List Int, ¬ (∀ x ∈ l, FitsIn d x) → toBuf d.bits l = .error .overflowError := by
  intro l
  induction l with
  | nil => intro h; exact absurd (fun x hx => nomatch hx) h
  | cons x l ih =>
    intro h
    by_cases hx : -(2 ^ (d.bits - 1) : Int) ≤ x ∧ x < 2 ^ (d.bits - 1)
    · have : ¬ ∀ y ∈ l, FitsIn d y := fun hl => h fun y hy => by
        rcases List.mem_cons.1 hy with rfl | hy
        · exact hx
        · exact hl y hy
      simp only [toBuf, if_pos hx, ih this]
      rfl
    · simp only [toBuf, if_neg hx]

theorem toInt_fits {d : Dtype} {x : Int} (h : FitsIn d x) : (BitVec.ofInt d.bits x).toInt = x := by
  obtain ⟨h1, h2⟩ := h
  cases d <;> simp only [Dtype.bits] at * <;> rw [BitVec.toInt_ofInt] <;> exact Int.bmod_eq_of_le (by omega) (by omega)

theorem gtOf_slt (w : Nat) : GtOf (fun x y : BitVec w => y.slt x) (fun x y => x.toInt ≤ y.toInt) where
  yes x y h := by simp [BitVec.slt] at h; omega
  no x y h := by simp [BitVec.slt] at h; omega

theorem order_toInt (w : Nat) : TotalPreorder (fun x y : BitVec w => x.toInt ≤ y.toInt) :=
  ⟨fun a b => Int.le_total _ _, fun _ _ _ => Int.le_trans⟩

/-- Copying into the buffer, calling the compiled function, copying back: the values in order. -/
theorem buffer_sorts (d : Dtype) (l : List Int) (h : ∀ x ∈ l, FitsIn d x) (hl : l.length < 2 ^ 31) :
    ∃ l' : List Int, l'.Perm l ∧ l'.Pairwise (· ≤ ·) ∧
      EndsWith (fun fuel => (do
        let buf ← toBuf d.bits l
        let buf ← call (fun x y : BitVec d.bits => y.slt x) bubbleFn fuel buf (BitVec.ofNat 32 buf.length)
        .ok (buf.map BitVec.toInt) : PyM (List Int))) (.ok l') := by
  have hb := toBuf_fits d l h
  obtain ⟨hp, hs⟩ := bubbled_sorts (gtOf_slt d.bits) (order_toInt d.bits) (l.map (BitVec.ofInt d.bits))
  refine ⟨(bubbled (fun x y : BitVec d.bits => y.slt x) (l.map (BitVec.ofInt d.bits))).map BitVec.toInt, ?_, ?_, ?_⟩
  · refine (hp.map _).trans ?_
    rw [List.map_map]
    have : l.map (BitVec.toInt ∘ BitVec.ofInt d.bits) = l := by
      conv => rhs; rw [← List.map_id l]
      exact List.map_congr_left fun x hx => toInt_fits (h x hx)
    rw [this]
  · rw [List.pairwise_map]; exact hs
  · obtain ⟨n, hn⟩ := call_bubble (gt := fun x y : BitVec d.bits => y.slt x) (l.map (BitVec.ofInt d.bits)) (by simpa using hl)
    refine ⟨n, fun m hm => ?_⟩
    have := hn m hm
    dsimp only at this
    dsimp only
    rw [hb]
    show (call _ _ _ _ _ >>= _) = _
    rw [this]
    rfl

/-! ## The whole call -/

theorem sizeT_nat {k : Nat} (h : k < 2 ^ 64) : sizeT (k : Int) = k := by unfold sizeT; omega

/-- When the function found in (or put into) the cache is the compiled bubble sort, the call sorts. -/
theorem sortLlvm_sorts (k : Kind) (c c' : Cache) (a : List (Option Int)) (start stop : Option Nat)
    (hs : start.getD 0 ≤ stop.getD (a.length - 1)) (he : stop.getD (a.length - 1) < a.length) (hlen : a.length < 2 ^ 31) (d : Option Dtype)
    (hf : ∀ i x, start.getD 0 ≤ i → i ≤ stop.getD (a.length - 1) → a[i]? = some (some x) → FitsIn (d.getD .int64) x)
    (hg : getPtr k c (d.getD .int64) = (.ok bubbleFn, c')) :
    ∃ b, EndsWith (fun fuel => (sortLlvm k fuel c a (start.map Int.ofNat) (stop.map Int.ofNat) false d).1) (.ok b) ∧
      SortsTo (noneLast (· ≤ ·)) a b (start.getD 0) (stop.getD (a.length - 1) + 1) := by
  have elo : sizeT ((start.map Int.ofNat).getD 0) = start.getD 0 := by
    cases start with
    | none => rfl
    | some s => exact sizeT_nat (by simp at hs; omega)
  have ehi : sizeT ((stop.map Int.ofNat).getD (((a.length : Nat) : Int) - 1)) = stop.getD (a.length - 1) := by
    cases stop with
    | none =>
      have : ((a.length : Nat) : Int) - 1 = ((a.length - 1 : Nat) : Int) := by simp at he; omega
      simp only [Option.map_none, Option.getD_none, this]
      exact sizeT_nat (by omega)
    | some s => exact sizeT_nat (by simp at he; omega)
  generalize start.getD 0 = lo at hs hf elo
  generalize stop.getD (a.length - 1) = hi at hs he hf ehi
  generalize hv : ((a.drop lo).take (hi - lo + 1)).filterMap id = vals
  have hfit : ∀ x ∈ vals, FitsIn (d.getD .int64) x := by
    intro x hx
    rw [← hv, List.mem_filterMap] at hx
    obtain ⟨y, hy, rfl⟩ := hx
    obtain ⟨i, hi', ei⟩ := List.getElem_of_mem hy
    refine hf (lo + i) x (by omega) (by simp at hi'; omega) ?_
    rw [List.getElem_take, List.getElem_drop] at ei
    rw [← ei]
    exact List.getElem?_eq_getElem _
  have hmid : ((a.drop lo).take (hi - lo + 1)).length = hi - lo + 1 := by simp; omega
  have hvl : vals.length ≤ hi - lo + 1 := by
    rw [← hv]; exact Nat.le_trans (List.length_filterMap_le _ _) (Nat.le_of_eq hmid)
  obtain ⟨l', hp, hsrt, n, hn⟩ := buffer_sorts (d.getD .int64) vals hfit (by omega)
  have hform := sortsTo_form (pre := a.take lo) (mid := (a.drop lo).take (hi - lo + 1)) (post := a.drop (hi + 1))
    (l' := l') (by rw [hv]; exact hp) hsrt
  have hsplit := split_range a (start := lo) (stop := hi + 1) (by omega)
  rw [show hi + 1 - lo = hi - lo + 1 by omega] at hsplit
  rw [← hsplit, hmid, hv, List.length_take, Nat.min_eq_left (by omega), show lo + (hi - lo + 1) = hi + 1 by omega,
    ← hp.length_eq] at hform
  refine ⟨_, ⟨n, fun m hm => ?_⟩, hform⟩
  have hn' := hn m hm
  dsimp only at hn' ⊢
  unfold sortLlvm
  have hclip : (if a.length ≤ hi then a.length - 1 else hi) = hi := if_neg (by omega)
  simp only [elo, ehi, hclip, hv]
  rw [if_neg (by omega), if_neg (by omega), if_neg (by simp)]
  by_cases hz : vals = []
  · subst hz
    have : l' = [] := List.Perm.eq_nil hp
    subst this
    rw [if_pos rfl]
    have hr : (a.drop lo).take (hi - lo + 1) = List.replicate (hi - lo + 1) none := by
      refine List.eq_replicate_iff.2 ⟨hmid, fun x hx => ?_⟩
      cases x with
      | none => rfl
      | some x =>
        have : x ∈ ((a.drop lo).take (hi - lo + 1)).filterMap id := List.mem_filterMap.2 ⟨some x, hx, rfl⟩
        rw [hv] at this; cases this
    simp only [List.map_nil, List.length_nil, Nat.sub_zero, List.nil_append]
    rw [← hr, ← hsplit]
  · rw [if_neg hz, if_neg (by omega), hg]
    dsimp only
    cases hb : toBuf (d.getD .int64).bits vals with
    | error e => rw [hb] at hn'; cases hn'
    | ok buf =>
      rw [hb] at hn'
      rw [ok_bind] at hn' ⊢
      cases hc : call (fun x y : BitVec (d.getD .int64).bits => y.slt x) bubbleFn m buf (BitVec.ofNat 32 buf.length) with
      | error e => rw [hc] at hn'; cases hn'
      | ok r =>
        rw [hc, ok_bind] at hn'
        rw [ok_bind]
        cases hn'
        simp only [writeBack]
        rw [show lo + (hi - lo + 1) = hi + 1 by omega]

/-! ## C94 -/

/-- C94. After any calls of the two sorts in the same process, `bubble_sort(array, start=…, end=…, dtype=…, backend=Backend.LLVM)`
ends without exception or undefined behaviour and sorts the range (`None` last), for every array of less than 2³¹ cells whose
values in the range fit the element type (`int64` unless `dtype` says otherwise). -/
theorem C94_bubble_sort (calls : List LlvmCall) (a : List (Option Int)) (start stop : Option Nat)
    (hs : start.getD 0 ≤ stop.getD (a.length - 1)) (he : stop.getD (a.length - 1) < a.length) (hlen : a.length < 2 ^ 31) (d : Option Dtype)
    (hf : ∀ i x, start.getD 0 ≤ i → i ≤ stop.getD (a.length - 1) → a[i]? = some (some x) → FitsIn (d.getD .int64) x) :
    ∃ b, EndsWith (fun fuel => (sortLlvm .bubble fuel (cacheAfter calls) a (start.map Int.ofNat) (stop.map Int.ofNat) false d).1) (.ok b) ∧
      SortsTo (noneLast (· ≤ ·)) a b (start.getD 0) (stop.getD (a.length - 1) + 1) := by
  cases hc : cacheAfter calls (d.getD .int64) with
  | some f =>
    have := cacheAfter_bubble calls _ _ hc
    subst this
    exact sortLlvm_sorts _ _ (cacheAfter calls) a start stop hs he hlen d hf (by simp only [getPtr, hc])
  | none => exact sortLlvm_sorts _ _ _ a start stop hs he hlen d hf (by simp only [getPtr, hc, Kind.build, compile_bubble]; rfl)

/-- A value that does not fit is an `OverflowError` (and the array stays as it was), however much fuel there is. -/
theorem C94_overflow (calls : List LlvmCall) (a : List (Option Int)) (start stop : Nat) (hs : start ≤ stop) (he : stop < a.length)
    (hlen : a.length < 2 ^ 31) (d : Option Dtype) (i : Nat) (x : Int) (h1 : start ≤ i) (h2 : i ≤ stop) (hx : a[i]? = some (some x))
    (hf : ¬ FitsIn (d.getD .int64) x) (fuel : Nat) :
    (sortLlvm .bubble fuel (cacheAfter calls) a (some start) (some stop) false d).1 = .error .overflowError := by
  have hmem : x ∈ ((a.drop start).take (stop - start + 1)).filterMap id := by
    refine List.mem_filterMap.2 ⟨some x, List.mem_iff_getElem?.2 ⟨i - start, ?_⟩, rfl⟩
    rw [List.getElem?_take, if_pos (by omega), List.getElem?_drop, ← hx]
    congr 1; omega
  have hb := toBuf_overflow (d.getD .int64) (((a.drop start).take (stop - start + 1)).filterMap id) fun h => hf (h x hmem)
  have hptr : ∃ c', getPtr .bubble (cacheAfter calls) (d.getD .int64) = (.ok bubbleFn, c') := by
    cases hc : cacheAfter calls (d.getD .int64) with
    | some f =>
      have := cacheAfter_bubble calls _ _ hc
      subst this
      exact ⟨_, by simp only [getPtr, hc]; rfl⟩
    | none => exact ⟨_, by simp only [getPtr, hc, Kind.build, compile_bubble]; rfl⟩
  obtain ⟨c', hp⟩ := hptr
  unfold sortLlvm
  simp only [Option.getD_some, sizeT_nat (show start < 2 ^ 64 by omega), sizeT_nat (show stop < 2 ^ 64 by omega)]
  have hclip : (if a.length ≤ stop then a.length - 1 else stop) = stop := if_neg (by omega)
  rw [if_neg (by omega), if_neg (by omega), if_neg (by simp)]
  simp only [hclip]
  rw [if_neg (by intro h; rw [h] at hmem; cases hmem), if_neg (by omega), hp]
  dsimp only
  rw [hb]
  rfl

/-- A comparator is refused, for any range inside the array. -/
theorem C94_comparator (k : Kind) (c : Cache) (a : List (Option Int)) (start stop : Nat) (hs : start ≤ stop) (he : stop < a.length)
    (hlen : a.length < 2 ^ 31) (d : Option Dtype) (fuel : Nat) :
    sortLlvm k fuel c a (some start) (some stop) true d = (.error .notImplemented, c) := by
  unfold sortLlvm
  simp only [Option.getD_some, sizeT_nat (show start < 2 ^ 64 by omega), sizeT_nat (show stop < 2 ^ 64 by omega)]
  rw [if_neg (by omega), if_neg (by omega), if_pos trivial]

/-- A range that is empty, starts past the end or starts at a negative index: the array comes back as it was. -/
theorem C94_nothing_to_do (k : Kind) (c : Cache) (a : List (Option Int)) (start stop : Int) (hb : -2 ^ 63 ≤ start ∧ start < 2 ^ 63)
    (hb2 : 0 ≤ stop ∧ stop < 2 ^ 63) (hlen : a.length < 2 ^ 31) (h : stop < start ∨ a.length ≤ start ∨ start < 0) (hc : Bool)
    (d : Option Dtype) (fuel : Nat) : sortLlvm k fuel c a (some start) (some stop) hc d = (.ok a, c) := by
  unfold sortLlvm
  by_cases h0 : a.length = 0
  · simp [h0]
  · have : sizeT stop < sizeT start ∨ a.length ≤ sizeT start := by unfold sizeT; omega
    simp only [Option.getD_some]
    rw [if_neg h0, if_pos this]

/-! The hypotheses are met, and the result is what it should be, for an array with `None` cells and a range inside it, after a
call that compiled the function. -/

/-- `[9, 3, None, -7, 5, 0]` -/
def llvmCells : List (Option Int) := [some 9, some 3, none, some (-7), some 5, some 0]

example : ∃ b, EndsWith (fun fuel => (sortLlvm .bubble fuel
      (cacheAfter [⟨.bubble, 50, llvmCells, none, none, false, some .int32⟩]) llvmCells (some 1) (some 4) false (some .int32)).1) (.ok b) ∧
    SortsTo (noneLast (· ≤ ·)) llvmCells b 1 5 := by
  refine C94_bubble_sort _ llvmCells (some 1) (some 4) (by decide) (by decide) (by decide) _ ?_
  intro i x h1 h2 hx
  have : i < 6 := by simp at h2; omega
  have hi : i = 0 ∨ i = 1 ∨ i = 2 ∨ i = 3 ∨ i = 4 ∨ i = 5 := by omega
  rcases hi with rfl | rfl | rfl | rfl | rfl | rfl <;> simp [llvmCells] at hx <;> subst hx <;> decide

example : (sortLlvm .bubble 60 (fun _ => none) llvmCells (some 1) (some 4) false none).1 =
    .ok [some 9, some (-7), some 3, some 5, none, some 0] := by decide +kernel

/-! ## C95 -/

/-- C95 as a user expects it: in a fresh process `selection_sort(…, backend=Backend.LLVM)` sorts. -/
def C95_full : Prop := ∀ (calls : List LlvmCall) (a : List (Option Int)), a ≠ [] → a.length < 2 ^ 31 →
  (∀ x, some x ∈ a → FitsIn .int64 x) →
  ∃ b, EndsWith (fun fuel => (sortLlvm .selection fuel (cacheAfter calls) a none none false none).1) (.ok b) ∧
    SortsTo (noneLast (· ≤ ·)) a b 0 a.length

/-- The function that `_build_selection_sort_ir` builds is refused by LLVM (`RuntimeError`) — it cannot even be built, and would be refused if the
variable that holds the type were not overwritten. -/
theorem C95_never_compiles (i64IsType : Bool) : compile (buildSelection i64IsType) = .error .runtimeError := by
  cases i64IsType <;> decide

/-- If no call compiled the bubble sort for this element type before, every call that has something to sort raises `RuntimeError`. -/
theorem C95_raises (c : Cache) (a : List (Option Int)) (start stop : Nat) (hs : start ≤ stop) (he : stop < a.length)
    (hlen : a.length < 2 ^ 31) (d : Option Dtype) (i : Nat) (x : Int) (h1 : start ≤ i) (h2 : i ≤ stop) (hx : a[i]? = some (some x))
    (hc : c (d.getD .int64) = none) (fuel : Nat) :
    sortLlvm .selection fuel c a (some start) (some stop) false d = (.error .runtimeError, c) := by
  have hmem : x ∈ ((a.drop start).take (stop - start + 1)).filterMap id := by
    refine List.mem_filterMap.2 ⟨some x, List.mem_iff_getElem?.2 ⟨i - start, ?_⟩, rfl⟩
    rw [List.getElem?_take, if_pos (by omega), List.getElem?_drop, ← hx]
    congr 1; omega
  have hp : getPtr .selection c (d.getD .int64) = (.error .runtimeError, c) := by
    simp only [getPtr, hc, Kind.build, compile_selection]
  unfold sortLlvm
  simp only [Option.getD_some, sizeT_nat (show start < 2 ^ 64 by omega), sizeT_nat (show stop < 2 ^ 64 by omega)]
  have hclip : (if a.length ≤ stop then a.length - 1 else stop) = stop := if_neg (by omega)
  rw [if_neg (by omega), if_neg (by omega), if_neg (by simp)]
  simp only [hclip]
  rw [if_neg (by intro h; rw [h] at hmem; cases hmem), if_neg (by omega), hp]

/-- If a call compiled the bubble sort for this element type before, `selection_sort` sorts: it finds the bubble sort in the
cache. Missing: every other call (`C95_raises`). -/
theorem C95_selection_sort_partial (calls : List LlvmCall) (a : List (Option Int)) (start stop : Option Nat)
    (hs : start.getD 0 ≤ stop.getD (a.length - 1)) (he : stop.getD (a.length - 1) < a.length) (hlen : a.length < 2 ^ 31) (d : Option Dtype)
    (hf : ∀ i x, start.getD 0 ≤ i → i ≤ stop.getD (a.length - 1) → a[i]? = some (some x) → FitsIn (d.getD .int64) x)
    (hc : cacheAfter calls (d.getD .int64) ≠ none) :
    ∃ b, EndsWith (fun fuel => (sortLlvm .selection fuel (cacheAfter calls) a (start.map Int.ofNat) (stop.map Int.ofNat) false d).1) (.ok b) ∧
      SortsTo (noneLast (· ≤ ·)) a b (start.getD 0) (stop.getD (a.length - 1) + 1) := by
  cases hc' : cacheAfter calls (d.getD .int64) with
  | some f =>
    have := cacheAfter_bubble calls _ _ hc'
    subst this
    exact sortLlvm_sorts _ _ (cacheAfter calls) a start stop hs he hlen d hf (by simp only [getPtr, hc'])
  | none => exact absurd hc' hc

/-- A call of `bubble_sort` that has something to sort compiles it, for the calls after it. -/
theorem C95_after_bubble_sort (calls : List LlvmCall) (a : List (Option Int)) (start stop : Nat) (hs : start ≤ stop) (he : stop < a.length)
    (hlen : a.length < 2 ^ 31) (d : Option Dtype) (i : Nat) (x : Int) (h1 : start ≤ i) (h2 : i ≤ stop) (hx : a[i]? = some (some x)) (fuel : Nat) :
    cacheAfter (calls ++ [⟨.bubble, fuel, a, some start, some stop, false, d⟩]) (d.getD .int64) = some bubbleFn := by
  have hmem : x ∈ ((a.drop start).take (stop - start + 1)).filterMap id := by
    refine List.mem_filterMap.2 ⟨some x, List.mem_iff_getElem?.2 ⟨i - start, ?_⟩, rfl⟩
    rw [List.getElem?_take, if_pos (by omega), List.getElem?_drop, ← hx]
    congr 1; omega
  have hp : (getPtr .bubble (cacheAfter calls) (d.getD .int64)).1 = .ok bubbleFn ∧
      (getPtr .bubble (cacheAfter calls) (d.getD .int64)).2 (d.getD .int64) = some bubbleFn := by
    cases hc : cacheAfter calls (d.getD .int64) with
    | some f =>
      have := cacheAfter_bubble calls _ _ hc
      subst this
      simp only [getPtr, hc, and_self]
    | none => simp only [getPtr, hc, Kind.build, compile_bubble, if_pos, and_self]
  have : cacheAfter (calls ++ [⟨.bubble, fuel, a, some start, some stop, false, d⟩]) =
      (sortLlvm .bubble fuel (cacheAfter calls) a (some start) (some stop) false d).2 := by
    unfold cacheAfter; rw [List.foldl_append]; rfl
  rw [this]
  generalize hq : getPtr .bubble (cacheAfter calls) (d.getD .int64) = q at hp
  obtain ⟨q1, q2⟩ := q
  obtain ⟨hq1, hq2⟩ := hp
  dsimp only at hq1 hq2
  subst hq1
  unfold sortLlvm
  simp only [Option.getD_some, sizeT_nat (show start < 2 ^ 64 by omega), sizeT_nat (show stop < 2 ^ 64 by omega)]
  have hclip : (if a.length ≤ stop then a.length - 1 else stop) = stop := if_neg (by omega)
  rw [if_neg (by omega), if_neg (by omega), if_neg (by simp)]
  simp only [hclip]
  rw [if_neg (by intro h; rw [h] at hmem; cases hmem), if_neg (by omega), hq]
  exact hq2

theorem C95_full_false : ¬ C95_full := by
  intro h
  obtain ⟨b, ⟨n, hn⟩, -⟩ := h [] [some 2, some 1] (by simp) (by decide) (by
    intro x hx
    simp at hx
    rcases hx with rfl | rfl <;> decide)
  have := hn n (Nat.le_refl n)
  dsimp only at this
  have hp : getPtr .selection (cacheAfter []) .int64 = (.error .runtimeError, cacheAfter []) := by
    simp only [getPtr, cacheAfter, List.foldl_nil, Kind.build, compile_selection]
  have e : (sortLlvm .selection n (cacheAfter []) [some 2, some 1] none none false none).1 = .error .runtimeError := by
    simp [sortLlvm, sizeT, hp]
  rw [e] at this
  cases this

/-! The hypotheses are met: the call before compiled `bubble_sort`; a first call did not. -/
example : (sortLlvm .selection 60 (cacheAfter [⟨.bubble, 60, [some 1], none, none, false, none⟩]) llvmCells none none false none).1 =
    .ok [some (-7), some 0, some 3, some 5, some 9, none] := by decide +kernel
example : (sortLlvm .selection 60 (cacheAfter []) llvmCells none none false none).1 = .error .runtimeError := by decide +kernel
example : (sortLlvm .bubble 60 (cacheAfter []) [some 1, some (2 ^ 31)] none none false (some .int32)).1 = .error .overflowError := by
  decide +kernel

end Props
