import Verif.Model.Distribution
import Verif.Lemmas.Sort
import Verif.Lemmas.Py

/-! Stable distribution into buckets. -/
namespace Model
open Py Spec
variable {α : Type}

/-- The elements of `l` with key `v`, in order. -/
def bkt (f : α → Nat) (l : List α) (v : Nat) : List α := l.filter fun x => f x == v

/-- The elements with keys `< m`, by key, stably. -/
def dist (f : α → Nat) (l : List α) : Nat → List α
  | 0 => []
  | m + 1 => dist f l m ++ bkt f l m

/-- Number of elements with key `< v`. -/
def ltc (f : α → Nat) (l : List α) (v : Nat) : Nat := (dist f l v).length

theorem ltc_succ (f : α → Nat) (l : List α) (v : Nat) : ltc f l (v + 1) = ltc f l v + (bkt f l v).length := by
  simp [ltc, dist]

theorem ltc_mono (f : α → Nat) (l : List α) {v w : Nat} (h : v < w) : ltc f l v + (bkt f l v).length ≤ ltc f l w := by
  induction w with
  | zero => omega
  | succ w ih =>
    rw [ltc_succ]
    by_cases hvw : v = w
    · subst hvw; omega
    · have := ih (by omega); omega

theorem bkt_append (f : α → Nat) (l1 l2 : List α) (v : Nat) : bkt f (l1 ++ l2) v = bkt f l1 v ++ bkt f l2 v := by
  simp [bkt]

theorem bkt_cons_self (f : α → Nat) (x : α) (l : List α) : bkt f (x :: l) (f x) = x :: bkt f l (f x) := by
  simp [bkt]

theorem bkt_cons_ne (f : α → Nat) (x : α) (l : List α) {v : Nat} (h : f x ≠ v) : bkt f (x :: l) v = bkt f l v := by
  simp [bkt, h]

theorem mem_bkt {f : α → Nat} {l : List α} {v : Nat} {x : α} : x ∈ bkt f l v ↔ x ∈ l ∧ f x = v := by
  simp [bkt]

theorem dist_perm (f : α → Nat) : ∀ (m : Nat) (l : List α), (∀ x ∈ l, f x < m) → (dist f l m).Perm l := by
  intro m
  have aux : ∀ (m : Nat) (l : List α), (dist f l m).Perm (l.filter fun x => decide (f x < m)) := by
    intro m
    induction m with
    | zero => intro l; simp [dist]
    | succ m ih =>
      intro l
      rw [dist]
      refine ((ih l).append_right _).trans ?_
      clear ih
      induction l with
      | nil => simp [bkt]
      | cons x l ih =>
        by_cases h1 : f x < m
        · rw [List.filter_cons_of_pos (by simpa), bkt_cons_ne _ _ _ (by omega), List.filter_cons_of_pos (by simp; omega)]
          exact ih.cons x
        · by_cases h2 : f x = m
          · subst h2
            rw [List.filter_cons_of_neg (by simp), bkt_cons_self, List.filter_cons_of_pos (by simp)]
            exact List.perm_middle.trans (ih.cons x)
          · rw [List.filter_cons_of_neg (by simp; omega), bkt_cons_ne _ _ _ h2, List.filter_cons_of_neg (by simp; omega)]
            exact ih
  intro l h
  refine (aux m l).trans ?_
  rw [List.filter_eq_self.2 (by simpa using h)]

theorem dist_length (f : α → Nat) {m : Nat} {l : List α} (h : ∀ x ∈ l, f x < m) : ltc f l m = l.length :=
  (dist_perm f m l h).length_eq

theorem mem_dist (f : α → Nat) {l : List α} {x : α} : ∀ {m : Nat}, x ∈ dist f l m → x ∈ l ∧ f x < m := by
  intro m
  induction m with
  | zero => simp [dist]
  | succ m ih =>
    intro h
    rw [dist, List.mem_append] at h
    rcases h with h | h
    · have := ih h; exact ⟨this.1, by omega⟩
    · have := mem_bkt.1 h; exact ⟨this.1, by omega⟩

/-- Cell `ltc v + o` of the distribution is the `o`-th element with key `v`. -/
theorem dist_get (f : α → Nat) (l : List α) {m v o : Nat} (hv : v < m) (ho : o < (bkt f l v).length) :
    (dist f l m)[ltc f l v + o]? = (bkt f l v)[o]? := by
  induction m with
  | zero => omega
  | succ m ih =>
    rw [dist]
    by_cases hvm : v = m
    · subst hvm
      rw [List.getElem?_append_right (by unfold ltc; omega)]
      congr 1
      unfold ltc; omega
    · have := ltc_mono f l (v := v) (w := m) (by omega)
      rw [List.getElem?_append_left (by unfold ltc at *; omega)]
      exact ih (by omega)

theorem dist_find (f : α → Nat) (l : List α) {m p : Nat} (hp : p < ltc f l m) :
    ∃ v o, v < m ∧ o < (bkt f l v).length ∧ p = ltc f l v + o := by
  induction m with
  | zero => simp [ltc, dist] at hp
  | succ m ih =>
    rw [ltc_succ] at hp
    by_cases h : p < ltc f l m
    · obtain ⟨v, o, h1, h2, h3⟩ := ih h
      exact ⟨v, o, by omega, h2, h3⟩
    · exact ⟨m, p - ltc f l m, by omega, by omega, by omega⟩

/-- A stable distribution is sorted by key, and elements with the same key keep their relative order. -/
theorem dist_pairwise (f : α → Nat) (R : α → α → Prop) {l : List α} (h : l.Pairwise R) (m : Nat) :
    (dist f l m).Pairwise (fun x y => f x < f y ∨ (f x = f y ∧ R x y)) := by
  induction m with
  | zero => exact .nil
  | succ m ih =>
    rw [dist, List.pairwise_append]
    refine ⟨ih, ?_, ?_⟩
    · have h1 : (bkt f l m).Pairwise R := h.sublist List.filter_sublist
      refine h1.imp_of_mem ?_
      intro x y hx hy hr
      exact .inr ⟨(mem_bkt.1 hx).2.trans (mem_bkt.1 hy).2.symm, hr⟩
    · intro x hx y hy
      have h1 := mem_dist f hx
      have h2 := mem_bkt.1 hy
      left; omega

/-- Tally: cell `v` counts the elements with key `v`. -/
def IsTally (f : α → Nat) (m : Nat) (l : List α) (count : List Nat) : Prop :=
  count.length = m ∧ ∀ v, v < m → count[v]? = some (bkt f l v).length

theorem tally_nil (f : α → Nat) (m : Nat) : IsTally f m [] (List.replicate m 0) :=
  ⟨by simp, fun v hv => by simp [bkt, hv]⟩

theorem tally_step {f : α → Nat} {m : Nat} {l : List α} {count : List Nat} (h : IsTally f m l count) {x : α} (hx : f x < m) :
    ∃ c, rd count (f x) = .ok c ∧ ∃ count', wr count (f x) (c + 1) = .ok count' ∧ IsTally f m (l ++ [x]) count' := by
  refine ⟨_, rd_of_some (h.2 _ hx), _, wr_of_lt _ (by rw [h.1]; exact hx), by simp [h.1], ?_⟩
  intro v hv
  rw [bkt_append]
  by_cases hv' : f x = v
  · subst hv'
    rw [List.getElem?_set_self (by rw [h.1]; exact hx), bkt_cons_self]
    simp [bkt]
  · rw [List.getElem?_set_ne hv', bkt_cons_ne _ _ _ hv', h.2 v hv]
    simp [bkt]

/-- State of the placing loop after the elements `l1` of `l = l1 ++ l2` have been placed (forwards), or those of `l2` (backwards):
the counter of `v` points at `ltc v + |bkt l1 v|`. -/
structure Cursor (f : α → Nat) (m : Nat) (l l1 : List α) (count : List Nat) : Prop where
  len : count.length = m
  get : ∀ v, v < m → count[v]? = some (ltc f l v + (bkt f l1 v).length)

theorem cursor_zero {f : α → Nat} {m : Nat} {l : List α} {count : List Nat} (h1 : count.length = m)
    (h2 : ∀ v, v < m → count[v]? = some (ltc f l v)) : Cursor f m l [] count :=
  ⟨h1, fun v hv => by rw [h2 v hv]; simp [bkt]⟩

/-- Cells already placed by a forward pass over `l1`. -/
def Placed (f : α → Nat) (m : Nat) (l : List α) (lo : Nat → Nat) (hi : Nat → Nat) (out : List (Option α)) : Prop :=
  ∀ v o, v < m → lo v ≤ o → o < hi v → out[ltc f l v + o]? = (bkt f l v)[o]?.map some

theorem place_fwd {f : α → Nat} {m : Nat} {l l1 l2 : List α} {x : α} (hl : l = l1 ++ x :: l2) (hm : ∀ y ∈ l, f y < m)
    {count : List Nat} {out : List (Option α)} (hc : Cursor f m l l1 count) (ho : out.length = l.length)
    (hp : Placed f m l (fun _ => 0) (fun v => (bkt f l1 v).length) out) :
    ∃ c, rd count (f x) = .ok c ∧ ∃ out', wr out c (some x) = .ok out' ∧ ∃ count', wr count (f x) (c + 1) = .ok count' ∧
      Cursor f m l (l1 ++ [x]) count' ∧ out'.length = l.length ∧
      Placed f m l (fun _ => 0) (fun v => (bkt f (l1 ++ [x]) v).length) out' := by
  have hx : f x < m := hm x (by simp [hl])
  have hb : bkt f l (f x) = bkt f l1 (f x) ++ x :: bkt f l2 (f x) := by rw [hl, bkt_append, bkt_cons_self]
  have hlt : ltc f l (f x) + (bkt f l1 (f x)).length < l.length := by
    have h1 := ltc_mono f l hx
    rw [dist_length f hm, hb] at h1
    simp at h1
    omega
  refine ⟨_, rd_of_some (hc.get _ hx), _, wr_of_lt _ (by omega), _, wr_of_lt _ (by rw [hc.len]; exact hx), ⟨by simp [hc.len], ?_⟩,
    by simp [ho], ?_⟩
  · intro v hv
    rw [bkt_append]
    by_cases hv' : f x = v
    · subst hv'
      rw [List.getElem?_set_self (by rw [hc.len]; exact hx), bkt_cons_self]
      simp [bkt]; omega
    · rw [List.getElem?_set_ne hv', bkt_cons_ne _ _ _ hv', hc.get v hv]
      simp [bkt]
  · intro v o hv _ ho'
    dsimp only at ho'
    by_cases hv' : f x = v
    · subst hv'
      rw [bkt_append, bkt_cons_self] at ho'
      simp at ho'
      by_cases hlast : o = (bkt f l1 (f x)).length
      · subst hlast
        rw [List.getElem?_set_self (by omega), hb]
        simp
      · have : o < (bkt f l1 (f x)).length := by
          have : (bkt f ([] : List α) (f x)).length = 0 := rfl
          omega
        rw [List.getElem?_set_ne (by omega)]
        exact hp (f x) o hv (Nat.zero_le _) this
    · rw [bkt_append, bkt_cons_ne _ _ _ hv'] at ho'
      have ho'' : o < (bkt f l1 v).length := by simpa [bkt] using ho'
      have hbv : (bkt f l1 v).length ≤ (bkt f l v).length := by rw [hl, bkt_append]; simp
      have hbx : (bkt f l1 (f x)).length < (bkt f l (f x)).length := by rw [hb]; simp
      rw [List.getElem?_set_ne]
      · exact hp v o hv (Nat.zero_le _) ho''
      · rcases Nat.lt_or_gt_of_ne hv' with h | h
        · have := ltc_mono f l h; omega
        · have := ltc_mono f l h; omega

theorem place_bwd {f : α → Nat} {m : Nat} {l l1 l2 : List α} {x : α} (hl : l = l1 ++ x :: l2) (hm : ∀ y ∈ l, f y < m)
    {count : List Nat} {out : List (Option α)} (hc : Cursor f m l (l1 ++ [x]) count) (ho : l.length ≤ out.length)
    (hp : Placed f m l (fun v => (bkt f (l1 ++ [x]) v).length) (fun v => (bkt f l v).length) out) :
    ∃ c, rd count (f x) = .ok c ∧ ∃ count', wr count (f x) (c - 1) = .ok count' ∧ c - 1 < l.length ∧
      ∃ out', wr out (c - 1) (some x) = .ok out' ∧ out' = out.set (c - 1) (some x) ∧
      Cursor f m l l1 count' ∧
      Placed f m l (fun v => (bkt f l1 v).length) (fun v => (bkt f l v).length) out' := by
  have hx : f x < m := hm x (by simp [hl])
  have hb : bkt f l (f x) = bkt f l1 (f x) ++ x :: bkt f l2 (f x) := by rw [hl, bkt_append, bkt_cons_self]
  have hb1 : (bkt f (l1 ++ [x]) (f x)).length = (bkt f l1 (f x)).length + 1 := by rw [bkt_append, bkt_cons_self]; simp [bkt]
  have hbne : ∀ v, f x ≠ v → bkt f (l1 ++ [x]) v = bkt f l1 v := by
    intro v hv; rw [bkt_append, bkt_cons_ne _ _ _ hv]; simp [bkt]
  have hlt : ltc f l (f x) + (bkt f l1 (f x)).length < l.length := by
    have h1 := ltc_mono f l hx
    rw [dist_length f hm, hb] at h1
    simp at h1
    omega
  have hcg := hc.get _ hx
  rw [hb1] at hcg
  have hidx : ltc f l (f x) + ((bkt f l1 (f x)).length + 1) - 1 = ltc f l (f x) + (bkt f l1 (f x)).length := by omega
  refine ⟨_, rd_of_some hcg, _, wr_of_lt _ (by rw [hc.len]; exact hx), by omega, _, wr_of_lt _ (by omega), rfl,
    ⟨by simp [hc.len], ?_⟩, ?_⟩
  · intro v hv
    by_cases hv' : f x = v
    · subst hv'
      rw [List.getElem?_set_self (by rw [hc.len]; exact hx), hidx]
    · rw [List.getElem?_set_ne hv', hc.get v hv, hbne v hv']
  · rw [hidx]
    intro v o hv ho1 ho2
    dsimp only at ho1 ho2
    by_cases hv' : f x = v
    · subst hv'
      by_cases hfirst : o = (bkt f l1 (f x)).length
      · subst hfirst
        rw [List.getElem?_set_self (by omega), hb]
        simp
      · rw [List.getElem?_set_ne (by omega)]
        exact hp (f x) o hv (by dsimp only; omega) ho2
    · rw [List.getElem?_set_ne]
      · exact hp v o hv (by dsimp only; rw [hbne v hv']; exact ho1) ho2
      · have hbx : (bkt f l1 (f x)).length < (bkt f l (f x)).length := by rw [hb]; simp
        rcases Nat.lt_or_gt_of_ne hv' with h | h
        · have := ltc_mono f l h; omega
        · have := ltc_mono f l h; omega

/-- When everything is placed, the output is the distribution. -/
theorem placed_all {f : α → Nat} {m : Nat} {l : List α} (hm : ∀ y ∈ l, f y < m) {out : List (Option α)}
    (hp : Placed f m l (fun _ => 0) (fun v => (bkt f l v).length) out) :
    ∀ p, p < l.length → out[p]? = (dist f l m)[p]?.map some := by
  intro p hlt
  obtain ⟨v, o, h1, h2, rfl⟩ := dist_find f l (m := m) (p := p) (by rw [dist_length f hm]; exact hlt)
  rw [hp v o h1 (Nat.zero_le _) h2, dist_get f l h1 h2]

end Model
