import Verif.Lemmas.Dist
import Verif.Lemmas.SortForm

/-!
# C13: `bucket_sort`
-/
namespace Props
open Py Spec Model

theorem bucketShift_spec (key : Int) : ∀ (j : Nat) (P : List Int) (z : Int) (S : List Int), P.length = j → P.Pairwise (· ≤ ·) →
    ∃ L R junk, P = L ++ R ∧ bucketShift key j (P ++ z :: S) = .ok (L ++ junk :: (R ++ S), L.length) ∧
      (∀ x ∈ L, x ≤ key) ∧ (∀ x ∈ R, key < x) := by
  intro j
  induction j with
  | zero =>
    intro P z S hP _
    have : P = [] := List.eq_nil_of_length_eq_zero hP
    subst this
    exact ⟨[], [], z, rfl, rfl, by simp, by simp⟩
  | succ j ih =>
    intro P z S hP hs
    obtain ⟨P', y, rfl⟩ : ∃ P' y, P = P' ++ [y] := by
      rcases List.eq_nil_or_concat P with h | ⟨P', y, h⟩
      · subst h; simp at hP
      · exact ⟨P', y, by simpa using h⟩
    have hP' : P'.length = j := by simpa using hP
    rw [List.pairwise_append] at hs
    rw [bucketShift]
    have hr : rd (P' ++ [y] ++ z :: S) j = .ok y := by apply rd_of_some; rw [← hP']; simp
    rw [hr, ok_bind]
    by_cases hk : key < y
    · rw [if_pos hk]
      have hw : wr (P' ++ [y] ++ z :: S) (j + 1) y = .ok (P' ++ y :: (y :: S)) := by
        rw [wr_of_lt _ (by simp; omega), List.set_append_right _ _ (by simp; omega)]
        simp [hP']
      rw [hw, ok_bind]
      obtain ⟨L, R, junk, rfl, e, h1, h2⟩ := ih P' y (y :: S) hP' hs.1
      refine ⟨L, R ++ [y], junk, by simp, by rw [e]; simp, h1, ?_⟩
      intro x hx
      rw [List.mem_append] at hx
      rcases hx with hx | hx
      · exact h2 x hx
      · simp at hx; omega
    · rw [if_neg hk]
      refine ⟨P' ++ [y], [], z, by simp, by simp [hP'], ?_, by simp⟩
      intro x hx
      rw [List.mem_append] at hx
      rcases hx with hx | hx
      · have := hs.2.2 x hx y (by simp); omega
      · simp at hx; omega

theorem bucketHelper_spec (b : List Int) : ∃ b', bucketHelper b = .ok b' ∧ b'.Perm b ∧ b'.Pairwise (· ≤ ·) := by
  cases hb : b with
  | nil => exact ⟨[], rfl, .refl _, .nil⟩
  | cons x0 b0 =>
    rw [← hb]
    have hlen : 1 ≤ b.length := by simp [hb]
    obtain ⟨b', e, P, S, rfl, hl, hp, hs⟩ := forRange_spec (lo := 1) (hi := b.length) (s := b)
      (body := fun i b => do
        let key ← rd b i
        let (b, j) ← bucketShift key i b
        wr b j key)
      (fun k (c : List Int) => ∃ P S, c = P ++ S ∧ P.length = k ∧ c.Perm b ∧ P.Pairwise (· ≤ ·)) hlen
      ⟨b.take 1, b.drop 1, (List.take_append_drop 1 b).symm, by simp; omega, .refl _, by rw [hb]; simp⟩
      (by
        rintro k c h1 h2 ⟨P, S, rfl, hl, hp, hs⟩
        have := hp.length_eq
        obtain ⟨z, S, rfl⟩ : ∃ z S', S = z :: S' := by
          cases S with
          | nil => simp at this; omega
          | cons z S => exact ⟨z, S, rfl⟩
        have hr : rd (P ++ z :: S) k = .ok z := by apply rd_of_some; rw [← hl]; simp
        obtain ⟨L, R, junk, rfl, e, hL, hR⟩ := bucketShift_spec z k P z S hl hs
        have hw : wr (L ++ junk :: (R ++ S)) L.length z = .ok ((L ++ z :: R) ++ S) := by
          rw [wr_of_lt _ (by simp), List.set_append_right _ _ (by simp)]
          simp
        refine ⟨_, by rw [hr, ok_bind, e, ok_bind]; exact hw, L ++ z :: R, S, rfl, by simp at hl ⊢; omega, ?_, ?_⟩
        · refine List.Perm.trans ?_ hp
          simp only [List.append_assoc, List.cons_append]
          exact List.Perm.append_left L (List.perm_middle.symm)
        · rw [List.pairwise_append] at hs ⊢
          refine ⟨hs.1, .cons (fun y hy => Int.le_of_lt (hR y hy)) hs.2.1, ?_⟩
          intro x hx y hy
          rw [List.mem_cons] at hy
          rcases hy with rfl | hy
          · exact hL x hx
          · exact hs.2.2 x hx y hy)
    have : S = [] := by
      have := hp.length_eq
      simp at this
      exact List.eq_nil_of_length_eq_zero (by omega)
    subst this
    rw [List.append_nil] at e hp
    exact ⟨P, e, hp, hs⟩

theorem loop_shift {σ : Type} (body : Nat → σ → PyM σ) (c : Nat) : ∀ (n i : Nat) (s : σ),
    loop body n (c + i) s = loop (fun k => body (c + k)) n i s := by
  intro n
  induction n with
  | zero => intros; rfl
  | succ n ih =>
    intro i s
    rw [loop, loop]
    congr 1
    funext s
    exact ih (i + 1) s

theorem forDown_none {β : Type} (a : List (Option β)) (lo hi : Nat) (hlh : lo ≤ hi) (hh : hi ≤ a.length) :
    forDown lo hi a (fun i a => wr a i none) = .ok (a.take lo ++ List.replicate (hi - lo) none ++ a.drop hi) := by
  obtain ⟨b, e, h1, h2⟩ := forDown_spec (lo := lo) (hi := hi) (s := a) (body := fun i a => wr a i none)
    (fun k (b : List (Option β)) => b.length = a.length ∧ ∀ j, b[j]? = if k ≤ j ∧ j < hi then some none else a[j]?) hlh
    ⟨rfl, fun j => by rw [if_neg (by omega)]⟩
    (by
      rintro k b hk1 hk2 ⟨h1, h2⟩
      refine ⟨_, wr_of_lt _ (by omega), by simp [h1], ?_⟩
      intro j
      by_cases hj : j = k
      · subst hj
        rw [List.getElem?_set_self (by omega), if_pos (by omega)]
      · rw [List.getElem?_set_ne (by omega), h2]
        by_cases hj' : k + 1 ≤ j ∧ j < hi
        · rw [if_pos hj', if_pos (by omega)]
        · rw [if_neg hj', if_neg (by omega)])
  rw [e]
  congr 1
  apply List.ext_getElem?
  intro j
  rw [h2]
  have htl : (a.take lo).length = lo := by simp; omega
  rw [List.append_assoc]
  by_cases hj : lo ≤ j ∧ j < hi
  · rw [if_pos hj, List.getElem?_append_right (by omega), List.getElem?_append_left (by simp; omega), htl, List.getElem?_replicate,
      if_pos (by omega)]
  · rw [if_neg hj]
    by_cases hj' : j < lo
    · rw [List.getElem?_append_left (by omega), List.getElem?_take_of_lt hj']
    · rw [List.getElem?_append_right (by omega), List.getElem?_append_right (by simp; omega), List.getElem?_drop]
      congr 1; simp; omega

theorem bucketMax_run (pre mid post : List (Option Int)) (mx : Int) (hmem : mx ∈ mid.filterMap id)
    (hmx : ∀ x ∈ mid.filterMap id, x ≤ mx) :
    ∃ last, forRange pre.length (pre.length + mid.length) none (bucketLast (pre ++ mid ++ post)) = .ok last ∧
      forRange pre.length (pre.length + mid.length) (0, last) (bucketMax (pre ++ mid ++ post)) =
        .ok ((mid.filterMap id).length, some mx) := by
  have hslice : (((pre ++ mid ++ post).drop pre.length).take (pre.length + mid.length - pre.length)) = mid := by
    rw [List.append_assoc, List.drop_left, show pre.length + mid.length - pre.length = mid.length by omega, List.take_left]
  have hlen : (pre ++ mid ++ post).length = pre.length + mid.length + post.length := by simp; omega
  have k1 : forRange pre.length (pre.length + mid.length) none (bucketLast (pre ++ mid ++ post)) = _ :=
    forRange_rd (pre ++ mid ++ post) (fun (x : Option Int) (m : Option Int) => match x with
      | none => .ok m
      | some x => .ok (some x)) (start := pre.length) (stop := pre.length + mid.length) (by omega) (by omega) none
  rw [hslice] at k1
  obtain ⟨last, e1, -, h1, h2⟩ := forList_spec (α := Option Int) (σ := Option Int)
    (I := fun pr rest s => mid = pr ++ rest ∧ (s = none → pr.filterMap id = []) ∧ (∀ x, s = some x → x ∈ mid.filterMap id))
    (body := fun (x : Option Int) (m : Option Int) => match x with
      | none => .ok m
      | some x => .ok (some x)) mid [] none ⟨rfl, by simp, by simp⟩
    (by
      rintro pr x rest s ⟨ha, h1, h2⟩
      cases x with
      | none => exact ⟨_, rfl, by simp [ha], by simpa using h1, h2⟩
      | some x =>
        refine ⟨_, rfl, by simp [ha], by simp, ?_⟩
        intro y hy
        simp at hy
        subst hy
        rw [ha]; simp)
  obtain ⟨x0, rfl⟩ : ∃ x, last = some x := by
    cases last with
    | none => have := h1 rfl; rw [List.nil_append] at this; rw [this] at hmem; cases hmem
    | some x => exact ⟨x, rfl⟩
  refine ⟨some x0, by rw [k1, e1], ?_⟩
  have k2 : forRange pre.length (pre.length + mid.length) (0, some x0) (bucketMax (pre ++ mid ++ post)) = _ :=
    forRange_rd (pre ++ mid ++ post) (fun (x : Option Int) (s : Nat × Option Int) => match x with
      | none => .ok s
      | some x => match s.2 with
        | none => .error .typeError
        | some m => .ok (s.1 + 1, some (if m < x then x else m)))
      (start := pre.length) (stop := pre.length + mid.length) (by omega) (by omega) (0, some x0)
  rw [hslice] at k2
  rw [k2]
  obtain ⟨⟨c, m⟩, e2, -, g1, m', g2, g3, g4⟩ := forList_spec (α := Option Int) (σ := Nat × Option Int)
    (I := fun pr rest s => mid = pr ++ rest ∧ s.1 = (pr.filterMap id).length ∧ ∃ m, s.2 = some m ∧ m ∈ mid.filterMap id ∧
      ∀ x ∈ pr.filterMap id, x ≤ m)
    (body := fun (x : Option Int) (s : Nat × Option Int) => match x with
      | none => .ok s
      | some x => match s.2 with
        | none => .error .typeError
        | some m => .ok (s.1 + 1, some (if m < x then x else m))) mid [] (0, some x0)
    ⟨rfl, rfl, x0, rfl, h2 _ rfl, by simp⟩
    (by
      rintro pr x rest ⟨c, m⟩ ⟨ha, g1, m', g2, g3, g4⟩
      dsimp only at g1 g2
      subst g2
      cases x with
      | none => exact ⟨_, rfl, by simp [ha], by simpa using g1, m', rfl, g3, by simpa using g4⟩
      | some x =>
        refine ⟨_, rfl, by simp [ha], ?_, _, rfl, ?_, ?_⟩
        · simp [g1]
        · split
          · rw [ha]; simp
          · exact g3
        · intro y hy
          rw [List.filterMap_append, List.mem_append] at hy
          rcases hy with hy | hy
          · have := g4 y hy; split <;> omega
          · simp at hy; subst hy; split <;> omega)
  dsimp only at g1 g2
  subst g2
  have : m' = mx := by
    have := hmx m' g3
    have := g4 mx (by simpa using hmem)
    omega
  rw [e2, g1, this]
  simp

theorem bucketPut_run (pre mid post : List (Option Int)) (count : Nat) (size : Int) (hc : 0 < count) (hsz : 0 < size)
    (hr : ∀ x ∈ mid.filterMap id, 0 ≤ x ∧ x / size ≤ count ∧ (count ≤ 256 ∨ x / size < count)) :
    ∃ bs, forRange pre.length (pre.length + mid.length) (List.replicate count []) (bucketPut (pre ++ mid ++ post) count size) = .ok bs ∧
      bs.length = count ∧
      ∀ v, v < count → bs[v]? = some (bkt (fun x : Int => min (x / size).toNat (count - 1)) (mid.filterMap id) v) := by
  have hslice : (((pre ++ mid ++ post).drop pre.length).take (pre.length + mid.length - pre.length)) = mid := by
    rw [List.append_assoc, List.drop_left, show pre.length + mid.length - pre.length = mid.length by omega, List.take_left]
  have hlen : (pre ++ mid ++ post).length = pre.length + mid.length + post.length := by simp; omega
  have k1 : forRange pre.length (pre.length + mid.length) (List.replicate count []) (bucketPut (pre ++ mid ++ post) count size) = _ :=
    forRange_rd (pre ++ mid ++ post) (fun (x : Option Int) (bs : List (List Int)) => match x with
      | none => .ok bs
      | some x => do
        let j := Int.fdiv x size
        if j = count ∧ count ≤ 256 then do
          let b ← rd bs (count - 1)
          wr bs (count - 1) (b ++ [x])
        else if 0 ≤ j then do
          let b ← rd bs j.toNat
          wr bs j.toNat (b ++ [x])
        else if 0 ≤ j + bs.length then do
          let b ← rd bs (j + bs.length).toNat
          wr bs (j + bs.length).toNat (b ++ [x])
        else .error .indexError) (start := pre.length) (stop := pre.length + mid.length) (by omega) (by omega) (List.replicate count [])
  rw [hslice] at k1
  rw [k1]
  obtain ⟨bs, e, -, h1, h2⟩ := forList_spec (α := Option Int) (σ := List (List Int))
    (I := fun pr rest s => mid = pr ++ rest ∧ s.length = count ∧
      ∀ v, v < count → s[v]? = some (bkt (fun x : Int => min (x / size).toNat (count - 1)) (pr.filterMap id) v))
    (body := fun (x : Option Int) (bs : List (List Int)) => match x with
      | none => .ok bs
      | some x => do
        let j := Int.fdiv x size
        if j = count ∧ count ≤ 256 then do
          let b ← rd bs (count - 1)
          wr bs (count - 1) (b ++ [x])
        else if 0 ≤ j then do
          let b ← rd bs j.toNat
          wr bs j.toNat (b ++ [x])
        else if 0 ≤ j + bs.length then do
          let b ← rd bs (j + bs.length).toNat
          wr bs (j + bs.length).toNat (b ++ [x])
        else .error .indexError) mid [] (List.replicate count [])
    ⟨rfl, by simp, fun v hv => by simp [bkt, hv]⟩
    (by
      rintro pr x rest bs ⟨ha, h1, h2⟩
      cases x with
      | none => exact ⟨_, rfl, by simp [ha], h1, by simpa using h2⟩
      | some x =>
        obtain ⟨hx0, hx1, hx2⟩ := hr x (by rw [ha]; simp)
        have hq0 : 0 ≤ x / size := Int.ediv_nonneg hx0 (by omega)
        have hfd : Int.fdiv x size = x / size := Int.fdiv_eq_ediv_of_nonneg _ (by omega)
        have hkey : min (x / size).toNat (count - 1) < count := by omega
        have hupd : ∀ v, v < count → (bs.set (min (x / size).toNat (count - 1))
            (bkt (fun x : Int => min (x / size).toNat (count - 1)) (pr.filterMap id) (min (x / size).toNat (count - 1)) ++ [x]))[v]? =
            some (bkt (fun x : Int => min (x / size).toNat (count - 1)) ((pr ++ [some x]).filterMap id) v) := by
          intro v hv
          have hfm : (pr ++ [some x]).filterMap id = pr.filterMap id ++ [x] := by simp
          rw [hfm, bkt_append]
          by_cases hvk : min (x / size).toNat (count - 1) = v
          · subst hvk
            rw [List.getElem?_set_self (by omega), bkt_cons_self (fun x : Int => min (x / size).toNat (count - 1)) x []]
            rfl
          · rw [List.getElem?_set_ne hvk, h2 v hv, bkt_cons_ne (fun x : Int => min (x / size).toNat (count - 1)) x [] hvk]
            simp [bkt]
        refine ⟨bs.set (min (x / size).toNat (count - 1))
            (bkt (fun x : Int => min (x / size).toNat (count - 1)) (pr.filterMap id) (min (x / size).toNat (count - 1)) ++ [x]),
            ?_, by simp [ha], by simp [h1], hupd⟩
        dsimp only
        rw [hfd]
        by_cases hcase : x / size = count ∧ count ≤ 256
        · rw [if_pos hcase]
          have hk : count - 1 = min (x / size).toNat (count - 1) := by omega
          rw [← hk, rd_of_some (h2 (count - 1) (by omega)), ok_bind, wr_of_lt _ (by omega)]
        · rw [if_neg hcase, if_pos hq0]
          have hk : (x / size).toNat = min (x / size).toNat (count - 1) := by omega
          rw [rd_of_some (h2 (x / size).toNat (by omega)), ok_bind, wr_of_lt _ (by omega), ← hk])
  exact ⟨bs, e, h1, by simpa using h2⟩

theorem bucketAll_run (l : List Int) (f : Int → Nat) (count : Nat) (bs : List (List Int)) (hl : bs.length = count)
    (hb : ∀ v, v < count → bs[v]? = some (bkt f l v)) (hmono : ∀ x ∈ l, ∀ y ∈ l, f x < f y → x ≤ y) (hf : ∀ x ∈ l, f x < count) :
    ∃ bs', forRange 0 count bs bucketSortAll = .ok bs' ∧ bs'.flatten.Perm l ∧ bs'.flatten.Pairwise (· ≤ ·) := by
  obtain ⟨bs', e, h1, h2, h3⟩ := forRange_spec (lo := 0) (hi := count) (s := bs) (body := bucketSortAll)
    (fun k (s : List (List Int)) => s.length = count ∧
      (∀ v, v < k → ∃ b, s[v]? = some b ∧ b.Perm (bkt f l v) ∧ b.Pairwise (· ≤ ·)) ∧
      (∀ v, k ≤ v → v < count → s[v]? = some (bkt f l v))) (Nat.zero_le _)
    ⟨hl, by intro v hv; omega, fun v _ hv => hb v hv⟩
    (by
      rintro k s _ hk ⟨h1, h2, h3⟩
      obtain ⟨b', eb, hp, hs⟩ := bucketHelper_spec (bkt f l k)
      refine ⟨_, by rw [bucketSortAll, rd_of_some (h3 k (Nat.le_refl _) hk), ok_bind, eb, ok_bind, wr_of_lt _ (by omega)], by simp [h1], ?_, ?_⟩
      · intro v hv
        by_cases hvk : v = k
        · subst hvk; exact ⟨b', List.getElem?_set_self (by omega), hp, hs⟩
        · rw [List.getElem?_set_ne (by omega)]; exact h2 v (by omega)
      · intro v hv1 hv2
        rw [List.getElem?_set_ne (by omega)]; exact h3 v (by omega) hv2)
  have key : ∀ m, m ≤ count → (bs'.take m).flatten.Perm (dist f l m) ∧ (bs'.take m).flatten.Pairwise (· ≤ ·) := by
    intro m
    induction m with
    | zero => intro _; simp [dist]
    | succ m ih =>
      intro hm
      obtain ⟨hp, hs⟩ := ih (by omega)
      obtain ⟨b, hb', hbp, hbs⟩ := h2 m (by omega)
      obtain ⟨hlt, hb2⟩ := List.getElem?_eq_some_iff.1 hb'
      rw [← List.take_append_getElem hlt, List.flatten_append, hb2]
      simp only [List.flatten_cons, List.flatten_nil, List.append_nil]
      refine ⟨hp.append hbp, ?_⟩
      rw [List.pairwise_append]
      refine ⟨hs, hbs, ?_⟩
      intro x hx y hy
      have hx' := mem_dist f (hp.mem_iff.1 hx)
      have hy' := mem_bkt.1 (hbp.mem_iff.1 hy)
      exact hmono x hx'.1 y hy'.1 (by omega)
  obtain ⟨hp, hs⟩ := key count (Nat.le_refl _)
  rw [List.take_of_length_le (by omega)] at hp hs
  exact ⟨bs', e, hp.trans (dist_perm f count l hf), hs⟩

/-- C13, the part that holds. With `c` the number of values in the range and `mx` the largest, the code uses buckets of width
`mx // c`; it works when all values are non-negative, `c ≤ mx` (otherwise the width is 0) and every value falls into one of the `c`
buckets or just past the last one (`mx // (mx // c) ≤ c`); in the latter case `c` must be at most 256, because the code compares
integers with `is not`. -/
theorem C13_bucket_sort_partial (a : List (Option Int)) (start stop : Nat) (hss : start ≤ stop) (hs : stop ≤ a.length)
    (mx : Int) (c : Nat) (hc : c = (((a.drop start).take (stop - start)).filterMap id).length)
    (hmem : some mx ∈ (a.drop start).take (stop - start))
    (hmx : ∀ x, some x ∈ (a.drop start).take (stop - start) → 0 ≤ x ∧ x ≤ mx)
    (hwidth : (c : Int) ≤ mx) (hfit : mx / (mx / c) ≤ c) (h256 : c ≤ 256 ∨ mx / (mx / c) < c) :
    ∃ b, bucketSort a start stop = .ok b ∧ SortsTo (noneLast (fun x y : Int => x ≤ y)) a b start stop := by
  have hsplit := split_range a hss
  have l1 : (a.take start).length = start := by simp; omega
  have l2 : ((a.drop start).take (stop - start)).length = stop - start := by simp; omega
  generalize a.take start = pre at *
  generalize (a.drop start).take (stop - start) = mid at *
  generalize a.drop stop = post at *
  have hstop : stop = pre.length + mid.length := by omega
  have hml : ∀ x, x ∈ mid.filterMap id ↔ some x ∈ mid := by
    intro x; simp [List.mem_filterMap]
  have hmem' := (hml mx).2 hmem
  have hcpos : 0 < c := by rw [hc]; exact List.length_pos_of_mem hmem'
  have hsize : 0 < mx / c := by
    have : 1 ≤ mx / c := (Int.le_ediv_iff_mul_le (by omega)).2 (by omega)
    omega
  have hfd : Int.fdiv mx c = mx / c := Int.fdiv_eq_ediv_of_nonneg _ (by omega)
  obtain ⟨last, e1, e2⟩ := bucketMax_run pre mid post mx hmem' (fun x hx => (hmx x ((hml x).1 hx)).2)
  rw [← hc] at e2
  have hle : ∀ x ∈ mid.filterMap id, x / (mx / c) ≤ mx / (mx / c) :=
    fun x hx => Int.ediv_le_ediv hsize (hmx x ((hml x).1 hx)).2
  obtain ⟨bs, e3, hbl, hbs⟩ := bucketPut_run pre mid post c (mx / c) hcpos hsize (by
    intro x hx
    have h1 := hmx x ((hml x).1 hx)
    have h2 := hle x hx
    exact ⟨h1.1, by omega, by omega⟩)
  obtain ⟨bs', e4, hperm, hsorted⟩ := bucketAll_run (mid.filterMap id) (fun x : Int => min (x / (mx / c)).toNat (c - 1)) c bs hbl hbs
    (by
      intro x hx y hy hxy
      have h1 := hmx x ((hml x).1 hx)
      have h2 := hmx y ((hml y).1 hy)
      have h3 : x / (mx / c) < y / (mx / c) := by omega
      rcases Int.le_total x y with h4 | h4
      · exact h4
      · have h5 := Int.ediv_le_ediv hsize h4
        omega) (by intro x hx; omega)
  have hlen := hperm.length_eq
  rw [← hc] at hlen
  have hcm : c ≤ mid.length := by rw [hc]; exact List.length_filterMap_le _ _
  have hal : a.length = pre.length + mid.length + post.length := by rw [hsplit]; simp; omega
  have e5 := forDown_none a (start + c) stop (by omega) hs
  have hd : a.drop stop = post := by rw [hsplit, hstop, List.append_assoc, ← List.drop_drop, List.drop_left, List.drop_left]
  have ht : (a.take (start + c) ++ List.replicate (stop - (start + c)) none ++ post).take start = pre := by
    rw [List.append_assoc, List.take_append_of_le_length (by simp; omega), List.take_take, hsplit, List.append_assoc]
    rw [show min start (start + c) = pre.length by omega, List.take_left]
  have e6 : forRange start (start + c) (a.take (start + c) ++ List.replicate (stop - (start + c)) none ++ post)
      (fun i a => do let x ← rd bs'.flatten (i - start); wr a i (some x)) =
      .ok (pre ++ (bs'.flatten.map some ++ List.replicate (mid.length - (mid.filterMap id).length) none) ++ post) := by
    have hw := forRange_wr (bs'.flatten.map some) (a.take (start + c) ++ List.replicate (stop - (start + c)) none ++ post) start
      (by
        rw [List.length_map, hlen]
        simp only [List.length_append, List.length_take, List.length_replicate]
        omega)
    rw [List.length_map, hlen] at hw
    have hdr : (a.take (start + c) ++ List.replicate (stop - (start + c)) none ++ post).drop (start + c) =
        List.replicate (stop - (start + c)) none ++ post := by
      rw [List.append_assoc, List.drop_left' (by simp; omega)]
    rw [ht, hdr] at hw
    have : mid.length - (mid.filterMap id).length = stop - (start + c) := by omega
    rw [this]
    rw [forRange, show start + c - start = c by omega]
    have hsh := loop_shift (fun i (a : List (Option Int)) => do let x ← rd bs'.flatten (i - start); wr a i (some x)) start c 0
      (a.take (start + c) ++ List.replicate (stop - (start + c)) none ++ post)
    rw [Nat.add_zero] at hsh
    rw [hsh]
    rw [forRange, Nat.sub_zero] at hw
    have hbody : (fun k (a : List (Option Int)) => (do let x ← rd bs'.flatten (start + k - start); wr a (start + k) (some x) : PyM _)) =
        (fun i a => rd (bs'.flatten.map some) i >>= fun x => wr a (start + i) x) := by
      funext k a
      rw [show start + k - start = k by omega]
      by_cases hk : k < bs'.flatten.length
      · rw [rd_of_lt hk, rd_of_lt (by rw [List.length_map]; exact hk), ok_bind, ok_bind, List.getElem_map]
      · have r1 : rd bs'.flatten k = .error .indexError := by simp [rd, List.getElem?_eq_none (Nat.le_of_not_lt hk)]
        have r2 : rd (bs'.flatten.map some) k = .error .indexError := by
          have : (bs'.flatten.map some)[k]? = none := List.getElem?_eq_none (by rw [List.length_map]; exact Nat.le_of_not_lt hk)
          simp only [rd, this]
        rw [r1, r2]; rfl
    rw [hbody, hw]
    simp only [List.append_assoc]
  have hres := sortsTo_form (le := fun x y : Int => x ≤ y) (pre := pre) (post := post) hperm hsorted
  rw [← hsplit, l1, l2, show start + (stop - start) = stop by omega] at hres
  rw [l2] at e6
  rw [← hsplit, l1, ← l1, ← hstop] at e1 e2 e3
  rw [l1] at e1 e2 e3
  refine ⟨_, ?_, hres⟩
  rw [bucketSort, e1, ok_bind, e2, ok_bind]
  dsimp only
  rw [if_neg (by omega), hfd, if_neg (by omega), e3, ok_bind, e4, ok_bind, e5, ok_bind, hd]
  exact e6

/-- The full C13, restricted to what the docstring promises: every non-empty range of non-negative integers. -/
def C13_full : Prop := ∀ (a : List (Option Int)) (start stop : Nat), start < stop → stop ≤ a.length →
  (∀ x, some x ∈ a → 0 ≤ x) →
  ∃ b, bucketSort a start stop = .ok b ∧ SortsTo (noneLast (fun x y : Int => x ≤ y)) a b start stop

/-- C13 is false of the code: two values with a small maximum give buckets of width 0 and a `ZeroDivisionError`. -/
theorem C13_full_false : ¬ C13_full := by
  intro h
  obtain ⟨b, e, -⟩ := h [some 1, some 1] 0 2 (by decide) (by decide) (by simp)
  have : bucketSort [some 1, some 1] 0 2 = .error .zeroDivision := by decide
  rw [this] at e
  cases e

/-- Other failures: a value past all buckets (`IndexError`), a negative value put into the wrong bucket (result not sorted). -/
theorem C13_other_failures : bucketSort [some 5, some 1, some 1] 0 3 = .error .indexError ∧
    bucketSort [some (-1), some 0, some 10] 0 3 = .ok [some 0, some (-1), some 10] := by decide

example : bucketSort [some 78, none, some 5, some 1, some 0] 0 5 = .ok [some 0, some 1, some 5, some 78, none] := by decide
example : (78 : Int) / (78 / 4) ≤ 4 := by decide

end Props
