import Verif.Props.Bucket

/-!
# C13 for every range of integers: what `bucket_sort` does, bucket by bucket
-/
namespace Props
open Py Spec Model

/-- The bucket of `x`, from 0: `x // size`, one less if that is just `c` (as long as Python's `is` finds the two numbers to be the
same object), counted from the end if it is negative; none if there is no such bucket. -/
def bucketOf (size : Int) (c : Nat) (x : Int) : Option Nat :=
  if Int.fdiv x size = c ∧ c ≤ 256 then some (c - 1)
  else if 0 ≤ Int.fdiv x size ∧ Int.fdiv x size < c then some (Int.fdiv x size).toNat
  else if Int.fdiv x size < 0 ∧ 0 ≤ Int.fdiv x size + c then some (Int.fdiv x size + c).toNat
  else none

/-- The order in which values come out: by bucket, then by value. -/
def ByBucket (size : Int) (c : Nat) (x y : Int) : Prop :=
  ∃ i j, bucketOf size c x = some i ∧ bucketOf size c y = some j ∧ (i < j ∨ i = j ∧ x ≤ y)

/-- The step `bucketPut` makes with the value it has read. -/
def putOne (count : Nat) (size : Int) (x : Option Int) (bs : List (List Int)) : PyM (List (List Int)) :=
  match x with
  | none => .ok bs
  | some x => do
    let j := Int.fdiv x size
    if j = count ∧ count ≤ 256 then do
      let b ← rd bs (count - 1)
      wr bs (count - 1) (b ++ [x])
    else if 0 ≤ j then do
      let b ← rd bs j.toNat
      wr bs j.toNat (b ++ [x])
    else if 0 ≤ j + bs.length then do
      let b ← rd bs (j + bs.length).toNat
      wr bs (j + bs.length).toNat (b ++ [x])
    else .error .indexError

theorem bucketPut_eq (pre mid post : List (Option Int)) (count : Nat) (size : Int) (bs : List (List Int)) :
    forRange pre.length (pre.length + mid.length) bs (bucketPut (pre ++ mid ++ post) count size) =
      forList mid bs (putOne count size) := by
  have hslice : (((pre ++ mid ++ post).drop pre.length).take (pre.length + mid.length - pre.length)) = mid := by
    rw [List.append_assoc, List.drop_left, show pre.length + mid.length - pre.length = mid.length by omega, List.take_left]
  have hlen : (pre ++ mid ++ post).length = pre.length + mid.length + post.length := by simp; omega
  have k1 := forRange_rd (pre ++ mid ++ post) (putOne count size)
    (start := pre.length) (stop := pre.length + mid.length) (by omega) (by omega) bs
  rw [hslice] at k1
  exact k1

theorem bucketOf_lt {size : Int} {c : Nat} {x : Int} {v : Nat} (hc : 0 < c) (h : bucketOf size c x = some v) : v < c := by
  unfold bucketOf at h
  split at h
  · simp at h; omega
  · split at h
    · simp at h; omega
    · split at h
      · simp at h; omega
      · cases h

theorem putOne_some {count : Nat} {size : Int} {x : Int} {bs : List (List Int)} {v : Nat} (hc : 0 < count) (hl : bs.length = count)
    (h : bucketOf size count x = some v) : ∃ b, bs[v]? = some b ∧ putOne count size (some x) bs = .ok (bs.set v (b ++ [x])) := by
  have hv := bucketOf_lt hc h
  refine ⟨bs[v], List.getElem?_eq_getElem (by omega), ?_⟩
  unfold bucketOf at h
  unfold putOne
  dsimp only
  split at h
  case isTrue h1 =>
    simp only [Option.some.injEq] at h
    subst h
    rw [if_pos h1, rd_of_lt (by omega), ok_bind, wr_of_lt _ (by omega)]
  case isFalse h1 =>
    rw [if_neg h1]
    split at h
    case isTrue h2 =>
      simp only [Option.some.injEq] at h
      subst h
      rw [if_pos h2.1, rd_of_lt (by omega), ok_bind, wr_of_lt _ (by omega)]
    case isFalse h2 =>
      split at h
      case isTrue h3 =>
        simp only [Option.some.injEq] at h
        rw [if_neg (by omega), if_pos (by rw [hl]; exact h3.2)]
        subst h
        simp only [hl]
        rw [rd_of_lt (by omega), ok_bind, wr_of_lt _ (by omega)]
      case isFalse h3 => cases h

theorem putOne_none {count : Nat} {size : Int} {x : Int} {bs : List (List Int)} (hl : bs.length = count)
    (h : bucketOf size count x = none) : putOne count size (some x) bs = .error .indexError := by
  unfold bucketOf at h
  unfold putOne
  dsimp only
  split at h
  case isTrue h1 => cases h
  case isFalse h1 =>
    rw [if_neg h1]
    split at h
    case isTrue h2 => cases h
    case isFalse h2 =>
      split at h
      case isTrue h3 => cases h
      case isFalse h3 =>
        by_cases hj : 0 ≤ Int.fdiv x size
        · rw [if_pos hj]
          have : rd bs (Int.fdiv x size).toNat = .error .indexError := by
            simp [rd, List.getElem?_eq_none (show bs.length ≤ (Int.fdiv x size).toNat by omega)]
          rw [this]; rfl
        · rw [if_neg hj, hl, if_neg (by omega)]

theorem puts_error {count : Nat} {size : Int} (hc : 0 < count) : ∀ (mid : List (Option Int)) (bs : List (List Int)), bs.length = count →
    (∃ x ∈ mid.filterMap id, bucketOf size count x = none) → forList mid bs (putOne count size) = .error .indexError := by
  intro mid
  induction mid with
  | nil => rintro bs - ⟨x, hx, -⟩; cases hx
  | cons y mid ih =>
    rintro bs hl ⟨x, hx, hn⟩
    rw [forList]
    cases y with
    | none => exact ih bs hl ⟨x, by simpa using hx, hn⟩
    | some y =>
      cases hy : bucketOf size count y with
      | none => rw [putOne_none hl hy]; rfl
      | some v =>
        obtain ⟨b, -, e⟩ := putOne_some hc hl hy
        rw [e, ok_bind]
        refine ih _ (by simp [hl]) ⟨x, ?_, hn⟩
        have : x = y ∨ x ∈ mid.filterMap id := by simpa using hx
        rcases this with h | h
        · rw [h, hy] at hn; cases hn
        · exact h

theorem puts_ok {count : Nat} {size : Int} (hc : 0 < count) (f : Int → Nat) (mid : List (Option Int))
    (hf : ∀ x ∈ mid.filterMap id, bucketOf size count x = some (f x)) :
    ∃ bs, forList mid (List.replicate count []) (putOne count size) = .ok bs ∧ bs.length = count ∧
      ∀ v, v < count → bs[v]? = some (bkt f (mid.filterMap id) v) := by
  obtain ⟨bs, e, -, h1, h2⟩ := forList_spec (α := Option Int) (σ := List (List Int))
    (I := fun pr rest s => mid = pr ++ rest ∧ s.length = count ∧
      ∀ v, v < count → s[v]? = some (bkt f (pr.filterMap id) v))
    (body := putOne count size) mid [] (List.replicate count [])
    ⟨rfl, by simp, fun v hv => by simp [bkt, hv]⟩
    (by
      rintro pr x rest bs ⟨ha, h1, h2⟩
      cases x with
      | none => exact ⟨_, rfl, by simp [ha], h1, by simpa using h2⟩
      | some x =>
        have hx := hf x (by rw [ha]; simp)
        have hlt := bucketOf_lt hc hx
        obtain ⟨b, hb, e⟩ := putOne_some hc h1 hx
        rw [h2 _ hlt] at hb
        cases hb
        refine ⟨_, e, by simp [ha], by simp [h1], ?_⟩
        intro v hv
        have hfm : (pr ++ [some x]).filterMap id = pr.filterMap id ++ [x] := by simp
        rw [hfm, bkt_append]
        by_cases hvk : f x = v
        · subst hvk
          rw [List.getElem?_set_self (by omega), bkt_cons_self f x []]
          rfl
        · rw [List.getElem?_set_ne hvk, h2 v hv, bkt_cons_ne f x [] hvk]
          simp [bkt])
  exact ⟨bs, e, h1, by simpa using h2⟩

theorem bucketAll_order (l : List Int) (f : Int → Nat) (count : Nat) (bs : List (List Int)) (hl : bs.length = count)
    (hb : ∀ v, v < count → bs[v]? = some (bkt f l v)) (hf : ∀ x ∈ l, f x < count) :
    ∃ bs', forRange 0 count bs bucketSortAll = .ok bs' ∧ bs'.flatten.Perm l ∧
      bs'.flatten.Pairwise (fun x y => f x < f y ∨ f x = f y ∧ x ≤ y) := by
  obtain ⟨bs', e, h1, h2, h3⟩ := forRange_spec (lo := 0) (hi := count) (s := bs) (body := bucketSortAll)
    (fun k (s : List (List Int)) => s.length = count ∧
      (∀ v, v < k → ∃ b, s[v]? = some b ∧ b.Perm (bkt f l v) ∧ b.Pairwise (· ≤ ·)) ∧
      (∀ v, k ≤ v → v < count → s[v]? = some (bkt f l v))) (Nat.zero_le _)
    ⟨hl, by intro v hv; omega, fun v _ hv => hb v hv⟩
    (by
      rintro k s _ hk ⟨h1, h2, h3⟩
      obtain ⟨b', eb, hp, hs⟩ := bucketHelper_spec (bkt f l k)
      refine ⟨_, by rw [bucketSortAll, rd_of_some (h3 k (Nat.le_refl _) hk), ok_bind, eb, ok_bind, wr_of_lt _ (by omega)], by simp [h1], ?_, ?_⟩
      · intro v hv
        by_cases hvk : v = k
        · subst hvk; exact ⟨b', List.getElem?_set_self (by omega), hp, hs⟩
        · rw [List.getElem?_set_ne (by omega)]; exact h2 v (by omega)
      · intro v hv1 hv2
        rw [List.getElem?_set_ne (by omega)]; exact h3 v (by omega) hv2)
  have key : ∀ m, m ≤ count → (bs'.take m).flatten.Perm (dist f l m) ∧
      (bs'.take m).flatten.Pairwise (fun x y => f x < f y ∨ f x = f y ∧ x ≤ y) := by
    intro m
    induction m with
    | zero => intro _; simp [dist]
    | succ m ih =>
      intro hm
      obtain ⟨hp, hs⟩ := ih (by omega)
      obtain ⟨b, hb', hbp, hbs⟩ := h2 m (by omega)
      obtain ⟨hlt, hb2⟩ := List.getElem?_eq_some_iff.1 hb'
      rw [← List.take_append_getElem hlt, List.flatten_append, hb2]
      simp only [List.flatten_cons, List.flatten_nil, List.append_nil]
      refine ⟨hp.append hbp, ?_⟩
      rw [List.pairwise_append]
      refine ⟨hs, ?_, ?_⟩
      · refine List.Pairwise.imp_of_mem ?_ hbs
        intro x y hx hy hxy
        have hx' := mem_bkt.1 (hbp.mem_iff.1 hx)
        have hy' := mem_bkt.1 (hbp.mem_iff.1 hy)
        exact .inr ⟨by omega, hxy⟩
      · intro x hx y hy
        have hx' := mem_dist f (hp.mem_iff.1 hx)
        have hy' := mem_bkt.1 (hbp.mem_iff.1 hy)
        exact .inl (by omega)
  obtain ⟨hp, hs⟩ := key count (Nat.le_refl _)
  rw [List.take_of_length_le (by omega)] at hp hs
  exact ⟨bs', e, hp.trans (dist_perm f count l hf), hs⟩

/-- The end of `bucket_sort`: `None` at the end of the range, then the sorted values at its beginning. -/
theorem bucketWrite (pre mid post : List (Option Int)) (s : List Int) (hs : s.length ≤ mid.length) :
    (do
      let a ← forDown (pre.length + s.length) (pre.length + mid.length) (pre ++ mid ++ post) fun i a => wr a i none
      forRange pre.length (pre.length + s.length) a fun i a => do
        let x ← rd s (i - pre.length)
        wr a i (some x) : PyM _) =
      .ok (pre ++ (s.map some ++ List.replicate (mid.length - s.length) none) ++ post) := by
  have e5 := forDown_none (pre ++ mid ++ post) (pre.length + s.length) (pre.length + mid.length) (by omega) (by simp)
  have hd : (pre ++ mid ++ post).drop (pre.length + mid.length) = post := by
    rw [List.append_assoc, ← List.drop_drop, List.drop_left, List.drop_left]
  have htk : (pre ++ mid ++ post).take (pre.length + s.length) = pre ++ mid.take s.length := by
    rw [List.append_assoc, List.take_append, List.take_of_length_le (by omega), show pre.length + s.length - pre.length = s.length by omega,
      List.take_append_of_le_length hs]
  rw [e5, ok_bind, hd, htk, show pre.length + mid.length - (pre.length + s.length) = mid.length - s.length by omega]
  have hw := forRange_wr (s.map some) (pre ++ mid.take s.length ++ List.replicate (mid.length - s.length) none ++ post) pre.length
    (by simp; omega)
  have ht : (pre ++ mid.take s.length ++ List.replicate (mid.length - s.length) none ++ post).take pre.length = pre := by
    rw [List.append_assoc, List.append_assoc, List.take_left]
  have hdr : (pre ++ mid.take s.length ++ List.replicate (mid.length - s.length) none ++ post).drop (pre.length + s.length) =
      List.replicate (mid.length - s.length) none ++ post := by
    rw [List.append_assoc, List.drop_left' (by simp; omega)]
  rw [List.length_map, ht, hdr] at hw
  rw [forRange, show pre.length + s.length - pre.length = s.length by omega]
  have hsh := loop_shift (fun i (a : List (Option Int)) => do let x ← rd s (i - pre.length); wr a i (some x)) pre.length s.length 0
    (pre ++ mid.take s.length ++ List.replicate (mid.length - s.length) none ++ post)
  rw [Nat.add_zero] at hsh
  rw [hsh]
  rw [forRange, Nat.sub_zero] at hw
  have hbody : (fun k (a : List (Option Int)) => (do let x ← rd s (pre.length + k - pre.length); wr a (pre.length + k) (some x) : PyM _)) =
      (fun i a => rd (s.map some) i >>= fun x => wr a (pre.length + i) x) := by
    funext k a
    rw [show pre.length + k - pre.length = k by omega]
    by_cases hk : k < s.length
    · rw [rd_of_lt hk, rd_of_lt (by rw [List.length_map]; exact hk), ok_bind, ok_bind, List.getElem_map]
    · have r1 : rd s k = .error .indexError := by simp [rd, List.getElem?_eq_none (Nat.le_of_not_lt hk)]
      have r2 : rd (s.map some) k = .error .indexError := by
        have : (s.map some)[k]? = none := List.getElem?_eq_none (by rw [List.length_map]; exact Nat.le_of_not_lt hk)
        simp only [rd, this]
      rw [r1, r2]; rfl
  rw [hbody, hw]
  simp only [List.append_assoc]

/-- The values of a range. -/
def rangeValues (a : List (Option Int)) (start stop : Nat) : List Int :=
  ((a.drop start).take (stop - start)).filterMap id

theorem bucketSort_split (pre mid post : List (Option Int)) (mx : Int) (hmem : mx ∈ mid.filterMap id)
    (hmx : ∀ x ∈ mid.filterMap id, x ≤ mx) (c : Nat) (hc : c = (mid.filterMap id).length) (size : Int) (hsize : size = Int.fdiv mx c) :
    bucketSort (pre ++ mid ++ post) pre.length (pre.length + mid.length) =
      if size = 0 then .error .zeroDivision else (do
        let bs ← forList mid (List.replicate c []) (putOne c size)
        let bs ← forRange 0 c bs bucketSortAll
        let a ← forDown (pre.length + c) (pre.length + mid.length) (pre ++ mid ++ post) fun i a => wr a i none
        forRange pre.length (pre.length + c) a fun i a => do
          let x ← rd bs.flatten (i - pre.length)
          wr a i (some x) : PyM (List (Option Int))) := by
  have hcpos : 0 < c := by rw [hc]; exact List.length_pos_of_mem hmem
  obtain ⟨last, e1, e2⟩ := bucketMax_run pre mid post mx hmem hmx
  rw [← hc] at e2
  rw [bucketSort, e1, ok_bind, e2, ok_bind]
  dsimp only
  rw [if_neg (by omega), ← hsize, bucketPut_eq]

/-- **C13 for every range of integers.** Without a value: `TypeError`. Otherwise let `mx` be the greatest value, `c` the number of values
and `size = mx // c`. If `size` is 0: `ZeroDivisionError`. If some value has no bucket: `IndexError`. Otherwise the range holds the
values ordered by bucket first and by value second, then `None`; the rest of the array is as before. -/
theorem C13_exact (a : List (Option Int)) (start stop : Nat) (hss : start ≤ stop) (hs : stop ≤ a.length) :
    (rangeValues a start stop = [] → bucketSort a start stop = .error .typeError) ∧
    ∀ mx c size, mx ∈ rangeValues a start stop → (∀ x ∈ rangeValues a start stop, x ≤ mx) → c = (rangeValues a start stop).length →
      size = Int.fdiv mx c →
      (size = 0 → bucketSort a start stop = .error .zeroDivision) ∧
      (size ≠ 0 → (∃ x ∈ rangeValues a start stop, bucketOf size c x = none) → bucketSort a start stop = .error .indexError) ∧
      (size ≠ 0 → (∀ x ∈ rangeValues a start stop, bucketOf size c x ≠ none) →
        ∃ s : List Int, s.Perm (rangeValues a start stop) ∧ s.Pairwise (ByBucket size c) ∧
          bucketSort a start stop = .ok (a.take start ++ (s.map some ++ List.replicate (stop - start - c) none) ++ a.drop stop)) := by
  have hsplit := split_range a hss
  have l1 : (a.take start).length = start := by simp; omega
  have l2 : ((a.drop start).take (stop - start)).length = stop - start := by simp; omega
  unfold rangeValues
  generalize a.take start = pre at *
  generalize (a.drop start).take (stop - start) = mid at *
  generalize a.drop stop = post at *
  have hstop : stop = pre.length + mid.length := by omega
  subst hstop
  subst l1
  subst hsplit
  rw [show pre.length + mid.length - pre.length = mid.length by omega] at *
  refine ⟨?_, ?_⟩
  · intro hnil
    have hall : ∀ x ∈ mid, x = none := by
      intro x hx
      cases x with
      | none => rfl
      | some x =>
        have : x ∈ mid.filterMap id := by simp [List.mem_filterMap, hx]
        rw [hnil] at this; cases this
    have hrd : ∀ k, pre.length ≤ k → k < pre.length + mid.length → rd (pre ++ mid ++ post) k = .ok none := by
      intro k hk1 hk2
      apply rd_of_some
      rw [List.append_assoc, List.getElem?_append_right hk1, List.getElem?_append_left (by omega),
        List.getElem?_eq_getElem (by omega), hall _ (List.getElem_mem _)]
    obtain ⟨s1, e1, h1⟩ := forRange_spec (lo := pre.length) (hi := pre.length + mid.length) (s := (none : Option Int))
      (body := bucketLast (pre ++ mid ++ post)) (fun _ s => s = none) (by omega) rfl (by
        rintro k s hk1 hk2 rfl
        exact ⟨none, by rw [bucketLast, hrd k hk1 hk2, ok_bind], rfl⟩)
    obtain ⟨s2, e2, h2⟩ := forRange_spec (lo := pre.length) (hi := pre.length + mid.length) (s := ((0, none) : Nat × Option Int))
      (body := bucketMax (pre ++ mid ++ post)) (fun _ s => s = (0, none)) (by omega) rfl (by
        rintro k s hk1 hk2 rfl
        exact ⟨(0, none), by rw [bucketMax, hrd k hk1 hk2, ok_bind], rfl⟩)
    subst h1 h2
    rw [bucketSort, e1, ok_bind, e2, ok_bind]
  · intro mx c size hmem hmx hc hsize
    have hcpos : 0 < c := by rw [hc]; exact List.length_pos_of_mem hmem
    have hcm : c ≤ mid.length := by rw [hc]; exact List.length_filterMap_le _ _
    have hrun := bucketSort_split pre mid post mx hmem hmx c hc size hsize
    refine ⟨fun h0 => by rw [hrun, if_pos h0], fun h0 hx => by rw [hrun, if_neg h0, puts_error hcpos mid _ (by simp) hx]; rfl, ?_⟩
    intro h0 hx
    have hf : ∀ x ∈ mid.filterMap id, bucketOf size c x = some ((bucketOf size c x).getD 0) := by
      intro x hm
      have := hx x hm
      cases hb : bucketOf size c x with
      | none => exact absurd hb this
      | some v => rfl
    obtain ⟨bs, e3, hbl, hbs⟩ := puts_ok hcpos (fun x => (bucketOf size c x).getD 0) mid hf
    obtain ⟨bs', e4, hp, ho⟩ := bucketAll_order (mid.filterMap id) (fun x => (bucketOf size c x).getD 0) c bs hbl hbs
      (fun x hm => bucketOf_lt hcpos (hf x hm))
    have hl := hp.length_eq
    rw [← hc] at hl
    have hwr := bucketWrite pre mid post bs'.flatten (by omega)
    rw [hl] at hwr
    refine ⟨bs'.flatten, hp, ?_, ?_⟩
    · refine List.Pairwise.imp_of_mem ?_ ho
      intro x y hx hy hxy
      exact ⟨_, _, hf x (hp.mem_iff.1 hx), hf y (hp.mem_iff.1 hy), hxy⟩
    · rw [hrun, if_neg h0, e3, ok_bind, e4, ok_bind]
      exact hwr

/-- When `bucket_sort` ends normally, it has sorted the range exactly if a smaller value never has a later bucket. -/
theorem C13_sorts_iff (a b : List (Option Int)) (start stop : Nat) (hss : start ≤ stop) (hs : stop ≤ a.length)
    (mx : Int) (c : Nat) (size : Int) (hmem : mx ∈ rangeValues a start stop) (hmx : ∀ x ∈ rangeValues a start stop, x ≤ mx)
    (hc : c = (rangeValues a start stop).length) (hsize : size = Int.fdiv mx c) (he : bucketSort a start stop = .ok b) :
    SortsTo (noneLast (fun x y : Int => x ≤ y)) a b start stop ↔
      ∀ x ∈ rangeValues a start stop, ∀ y ∈ rangeValues a start stop, ∀ i j, bucketOf size c x = some i → bucketOf size c y = some j →
        x < y → i ≤ j := by
  obtain ⟨-, h⟩ := C13_exact a start stop hss hs
  obtain ⟨h1, h2, h3⟩ := h mx c size hmem hmx hc hsize
  have h0 : size ≠ 0 := fun h0 => by rw [h1 h0] at he; cases he
  have hx : ∀ x ∈ rangeValues a start stop, bucketOf size c x ≠ none :=
    fun x hx hn => by rw [h2 h0 ⟨x, hx, hn⟩] at he; cases he
  obtain ⟨s, hp, ho, e⟩ := h3 h0 hx
  rw [e] at he
  cases he
  have hsplit := split_range a hss
  have l1 : (a.take start).length = start := by simp; omega
  have l2 : ((a.drop start).take (stop - start)).length = stop - start := by simp; omega
  unfold rangeValues at hp hc
  have hl := hp.length_eq
  constructor
  · intro hst x hx y hy i j hi hj hxy
    have hget : ∀ p (hp : p < s.length), (a.take start ++ (s.map some ++ List.replicate (stop - start - c) none) ++ a.drop stop)[start + p]? =
        some (some s[p]) := by
      intro p hp
      rw [List.append_assoc, List.getElem?_append_right (by omega), l1, show start + p - start = p by omega,
        List.append_assoc, List.getElem?_append_left (by simpa using hp), List.getElem?_map, List.getElem?_eq_getElem hp]
      rfl
    obtain ⟨p, hpl, hpx⟩ := List.getElem_of_mem (hp.mem_iff.2 hx)
    obtain ⟨q, hql, hqy⟩ := List.getElem_of_mem (hp.mem_iff.2 hy)
    have hcm : s.length ≤ stop - start := by
      have := List.length_filterMap_le id ((a.drop start).take (stop - start))
      omega
    have hpq : p < q := by
      rcases Nat.lt_trichotomy p q with h | h | h
      · exact h
      · subst h; rw [hpx] at hqy; omega
      · have := hst.2 (start + q) (start + p) _ _ (by omega) (by omega) (by omega) (hget q hql) (hget p hpl)
        rw [hpx, hqy] at this
        have : y ≤ x := this
        omega
    obtain ⟨i', j', hi', hj', h⟩ := List.pairwise_iff_getElem.1 ho p q hpl hql hpq
    rw [hpx, hi] at hi'
    rw [hqy, hj] at hj'
    cases hi'
    cases hj'
    omega
  · intro hmono
    have hord : s.Pairwise (fun x y : Int => x ≤ y) := by
      refine List.Pairwise.imp_of_mem ?_ ho
      rintro x y hx hy ⟨i, j, hi, hj, h | ⟨h, h'⟩⟩
      · rcases Int.lt_or_le y x with hlt | hge
        · have := hmono y (hp.mem_iff.1 hy) x (hp.mem_iff.1 hx) j i hj hi hlt
          omega
        · exact hge
      · exact h'
    have hres := sortsTo_form (le := fun x y : Int => x ≤ y) (pre := a.take start) (post := a.drop stop) hp hord
    rw [← hsplit, l1, l2, show start + (stop - start) = stop by omega, ← hc] at hres
    exact hres

-- A negative value goes to the last bucket, and the result is not sorted; with a negative maximum the width is negative, too.
example : bucketOf 3 3 (-1) = some 2 ∧ bucketOf 3 3 0 = some 0 ∧ bucketOf 3 3 10 = some 2 ∧
    rangeValues [some (-1), some 0, some 10] 0 3 = [-1, 0, 10] ∧
    bucketSort [some (-1), some 0, some 10] 0 3 = .ok [some 0, some (-1), some 10] := by decide
example : bucketSort [some (-6), none, some (-4), some (-5)] 0 4 = .ok [some (-6), some (-5), some (-4), none] ∧
    bucketSort [some (-4), none, some (-2), some (-3)] 0 4 = .error .indexError := by decide

end Props
