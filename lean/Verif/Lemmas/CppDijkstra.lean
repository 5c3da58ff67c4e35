import Verif.Lemmas.Py
import Verif.WeightSpec
import Verif.Model.CppGraph

/-! # Dijkstra's algorithm with a lazy priority queue, as in the C++ back end -/
namespace Props
open Py Model Spec Model.Cpp

/-- A vector given by a function. -/
def vec {β : Type} (V : Nat) (f : Nat → β) : List β := (List.range V).map f

theorem vec_length {β : Type} (V : Nat) (f : Nat → β) : (vec V f).length = V := by simp [vec]

theorem vget_vec {β : Type} {V : Nat} {f : Nat → β} {i : Nat} (h : i < V) : vget (vec V f) i = .ok (f i) := by
  simp [vget, vec, h]

theorem vset_vec {β : Type} {V : Nat} {f : Nat → β} {i : Nat} (h : i < V) (x : β) :
    vset (vec V f) i x = .ok (vec V fun j => if j = i then x else f j) := by
  unfold vset
  rw [vec_length, if_pos h]
  congr 1
  apply List.ext_getElem?
  intro k
  by_cases hk : k < V
  · by_cases hki : k = i
    · subst hki; simp [vec, hk]
    · rw [List.getElem?_set_ne (Ne.symm hki)]; simp [vec, hk, hki]
  · simp [vec, hk]

theorem vec_replicate {β : Type} (V : Nat) (x : β) : List.replicate V x = vec V (fun _ => x) := by
  apply List.ext_getElem?
  intro k
  by_cases hk : k < V <;> simp [vec, hk]

section
variable {V : Nat} {wt : Nat → Nat → Option Int} {src : Nat}

/-- The invariant: `D` and `P` are the vectors, `pq` the queue, `S` the vertices whose edges have been looked at; of the edges of vertices in `S` those
in `R` have been used. -/
structure LazyInv (V : Nat) (wt : Nat → Nat → Option Int) (src : Nat) (pq : List (Int × Nat)) (D : Nat → Option Int) (P : Nat → Option Nat)
    (S : List Nat) (R : Nat → Nat → Prop) : Prop where
  ent : ∀ e ∈ pq, e.2 < V ∧ ∃ d, D e.2 = some d ∧ d ≤ e.1
  pnodup : pq.Nodup
  zero : D src = some 0
  dom : ∀ v c, D v = some c → v < V ∧ 0 ≤ c ∧ WalkW wt src v c
  todo : ∀ v c, D v = some c → v ∈ S ∨ (c, v) ∈ pq
  snodup : S.Nodup
  sub : ∀ u ∈ S, u < V
  settled : ∀ u ∈ S, ∃ du, D u = some du ∧ (∀ e ∈ pq, du ≤ e.1) ∧ (du, u) ∉ pq
  tight : ∀ u ∈ S, ∀ du, D u = some du → ∀ w x, wt u w = some x → R u w → ∃ dw, D w = some dw ∧ dw ≤ du + x
  link : ∀ v, (P v = none ∧ (D v = none ∨ v = src)) ∨
    ∃ u du x, P v = some u ∧ u ∈ S ∧ D u = some du ∧ wt u v = some x ∧ D v = some (du + x)

/-- One outgoing edge of the vertex `u`. -/
theorem djArc_spec (hpos : ∀ u v x, wt u v = some x → 0 ≤ x) {pq : List (Int × Nat)} {D P S} {u : Nat} {du : Int} {done : List (Nat × Int)} {a : Nat × Int}
    (ha : a.1 < V) (hwt : wt u a.1 = some a.2) (hu : u ∈ S) (hdu : D u = some du)
    (hS : ∀ z ∈ S, ∀ dz, D z = some dz → dz ≤ du) (hq : ∀ e ∈ pq, du ≤ e.1)
    (h : LazyInv V wt src pq D P S (fun y z => y ≠ u ∨ ∃ x, (z, x) ∈ done)) :
    ∃ pq' D' P', djArc u a ⟨vec V D, vec V P, pq⟩ = .ok ⟨vec V D', vec V P', pq'⟩ ∧
      LazyInv V wt src pq' D' P' S (fun y z => y ≠ u ∨ ∃ x, (z, x) ∈ done ++ [a]) ∧ D' u = some du ∧
      (∀ z ∈ S, ∀ dz, D' z = some dz → dz ≤ du) ∧ (∀ e ∈ pq', du ≤ e.1) ∧ pq'.length ≤ pq.length + 1 := by
  have huV := h.sub u hu
  have hx := hpos _ _ _ hwt
  have R' : ∀ y z, (y ≠ u ∨ ∃ x, (z, x) ∈ done ++ [a]) → ¬ (y = u ∧ z = a.1) → (y ≠ u ∨ ∃ x, (z, x) ∈ done) := by
    rintro y z (hy | ⟨x, hz⟩) hn
    · exact Or.inl hy
    · rcases List.mem_append.1 hz with hz | hz
      · exact Or.inr ⟨x, hz⟩
      · have : (z, x) = a := by simpa using hz
        exact Or.inl fun e => hn ⟨e, by rw [← this]⟩
  by_cases hlt : infLt (some (du + a.2)) (D a.1) = true
  · -- improved
    have hnew : ∀ d, D a.1 = some d → du + a.2 < d := by
      intro d hd; rw [hd] at hlt; simpa [infLt] using hlt
    have haS : a.1 ∉ S := by
      intro hm
      obtain ⟨d, hd, _, _⟩ := h.settled a.1 hm
      have := hS a.1 hm d hd
      have := hnew d hd
      omega
    have hau : a.1 ≠ u := fun e => haS (e ▸ hu)
    have has : a.1 ≠ src := by
      intro e
      have h0 := h.zero
      rw [← e] at h0
      have := hnew 0 h0
      have := (h.dom u du hdu).2.1
      omega
    refine ⟨(du + a.2, a.1) :: pq, fun j => if j = a.1 then some (du + a.2) else D j, fun j => if j = a.1 then some u else P j, ?_, ?_, ?_, ?_, ?_, by simp⟩
    · simp only [djArc, vget_vec huV, vget_vec ha, ok_bind, hdu, hlt, if_true, vset_vec ha]
    · have hne : ∀ z ∈ S, z ≠ a.1 := fun z hz e => haS (e ▸ hz)
      refine ⟨?_, ?_, ?_, ?_, ?_, h.snodup, h.sub, ?_, ?_, ?_⟩
      · intro e he
        rcases List.mem_cons.1 he with rfl | he
        · exact ⟨ha, du + a.2, by simp, Int.le_refl _⟩
        · obtain ⟨h1, d, hd, hle⟩ := h.ent e he
          refine ⟨h1, ?_⟩
          by_cases he2 : e.2 = a.1
          · simp only [he2, if_true]
            rw [he2] at hd
            exact ⟨_, rfl, by have := hnew d hd; omega⟩
          · simp only [he2, if_false]; exact ⟨d, hd, hle⟩
      · refine List.nodup_cons.2 ⟨?_, h.pnodup⟩
        intro hm
        obtain ⟨_, d, hd, hle⟩ := h.ent _ hm
        have := hnew d hd
        dsimp only at hle
        omega
      · simp only [Ne.symm has, if_false]; exact h.zero
      · intro v c
        by_cases hv : v = a.1
        · subst hv
          simp only [if_true, Option.some.injEq]
          rintro rfl
          obtain ⟨h1, h2, h3⟩ := h.dom u du hdu
          exact ⟨ha, by omega, h3.snoc hwt⟩
        · simp only [hv, if_false]; exact h.dom v c
      · intro v c
        by_cases hv : v = a.1
        · subst hv
          simp only [if_true, Option.some.injEq]
          rintro rfl
          exact Or.inr (by simp)
        · simp only [hv, if_false]
          intro hc
          rcases h.todo v c hc with h1 | h1
          · exact Or.inl h1
          · exact Or.inr (by simp [h1])
      · intro z hz
        obtain ⟨dz, h1, h2, h3⟩ := h.settled z hz
        refine ⟨dz, by simp only [hne z hz, if_false]; exact h1, ?_, ?_⟩
        · intro e he
          rcases List.mem_cons.1 he with rfl | he
          · have := hS z hz dz h1; dsimp only; omega
          · exact h2 e he
        · intro hm
          rcases List.mem_cons.1 hm with hm | hm
          · exact hne z hz (congrArg Prod.snd hm)
          · exact h3 hm
      · intro z hz dz
        simp only [hne z hz, if_false]
        intro hdz w x hw hR
        by_cases hwa : w = a.1
        · subst hwa
          refine ⟨du + a.2, by simp, ?_⟩
          by_cases hzu : z = u
          · subst hzu
            rw [hdu] at hdz; cases hdz
            rw [hwt] at hw; cases hw
            exact Int.le_refl _
          · obtain ⟨dw, h1, h2⟩ := h.tight z hz dz hdz a.1 x hw (Or.inl hzu)
            have := hnew dw h1
            omega
        · simp only [hwa, if_false]
          exact h.tight z hz dz hdz w x hw (R' z w hR (fun e => hwa e.2))
      · intro v
        by_cases hv : v = a.1
        · subst hv
          right
          exact ⟨u, du, a.2, by simp, hu, by simp only [Ne.symm hau, if_false]; exact hdu, hwt, by simp⟩
        · simp only [hv, if_false]
          rcases h.link v with h1 | ⟨z, dz, x, h1, h2, h3, h4, h5⟩
          · exact Or.inl h1
          · exact Or.inr ⟨z, dz, x, h1, h2, by simp only [hne z h2, if_false]; exact h3, h4, h5⟩
    · simp only [Ne.symm hau, if_false]; exact hdu
    · intro z hz dz
      have : z ≠ a.1 := fun e => haS (e ▸ hz)
      simp only [this, if_false]; exact hS z hz dz
    · intro e he
      rcases List.mem_cons.1 he with rfl | he
      · dsimp only; omega
      · exact hq e he
  · -- not improved
    have hlt' : infLt (some (du + a.2)) (D a.1) = false := by simpa using hlt
    have hold : ∃ d, D a.1 = some d ∧ d ≤ du + a.2 := by
      cases hd : D a.1 with
      | none => rw [hd] at hlt'; simp [infLt] at hlt'
      | some d => rw [hd] at hlt'; simp [infLt] at hlt'; exact ⟨d, rfl, hlt'⟩
    refine ⟨pq, D, P, ?_, ?_, hdu, hS, hq, by omega⟩
    · simp only [djArc, vget_vec huV, vget_vec ha, ok_bind, hdu, hlt', Bool.false_eq_true, if_false]
    · refine ⟨h.ent, h.pnodup, h.zero, h.dom, h.todo, h.snodup, h.sub, h.settled, ?_, h.link⟩
      intro z hz dz hdz w x hw hR
      by_cases hzw : z = u ∧ w = a.1
      · obtain ⟨rfl, rfl⟩ := hzw
        rw [hdu] at hdz; cases hdz
        rw [hwt] at hw; cases hw
        exact hold
      · exact h.tight z hz dz hdz w x hw (R' z w hR hzw)

theorem entryLe_total (a b : Int × Nat) : entryLe a b = true ∨ entryLe b a = true := by
  unfold entryLe
  simp only [Bool.or_eq_true, Bool.and_eq_true, decide_eq_true_eq]
  omega

theorem entryLe_fst {a b : Int × Nat} (h : entryLe a b = true) : a.1 ≤ b.1 := by
  unfold entryLe at h
  simp only [Bool.or_eq_true, Bool.and_eq_true, decide_eq_true_eq] at h
  omega

theorem pqTop_spec : ∀ (es : List (Int × Nat)) (e : Int × Nat), pqTop e es ∈ e :: es ∧ ∀ x ∈ e :: es, (pqTop e es).1 ≤ x.1 := by
  intro es
  induction es with
  | nil => intro e; simp [pqTop]
  | cons b es ih =>
    intro e
    have hstep : pqTop e (b :: es) = pqTop (if entryLe e b then e else b) es := rfl
    obtain ⟨h1, h2⟩ := ih (if entryLe e b then e else b)
    rw [hstep]
    refine ⟨?_, ?_⟩
    · rcases List.mem_cons.1 h1 with h1 | h1
      · rw [h1]; split <;> simp
      · simp [h1]
    · have hm := h2 _ (List.mem_cons_self)
      have hle : (if entryLe e b then e else b).1 ≤ e.1 ∧ (if entryLe e b then e else b).1 ≤ b.1 := by
        split
        · rename_i hc; exact ⟨Int.le_refl _, entryLe_fst hc⟩
        · rename_i hc
          rcases entryLe_total e b with h | h
          · exact absurd h hc
          · exact ⟨entryLe_fst h, Int.le_refl _⟩
      intro x hx
      rcases List.mem_cons.1 hx with rfl | hx
      · omega
      · rcases List.mem_cons.1 hx with rfl | hx
        · omega
        · exact h2 x (by simp [hx])

/-- Edges of vertices that have not been looked at. -/
def openArcs (adj : Adj) (V : Nat) (S : List Nat) : Nat := ((List.range V).map fun u => if u ∈ S then 0 else (adj.getD u []).length).sum

theorem sum_map_split (f g : Nat → Nat) (u : Nat) : ∀ (l : List Nat), l.Nodup → u ∈ l → (∀ v, v ≠ u → f v = g v) →
    (l.map f).sum + g u = (l.map g).sum + f u := by
  intro l
  induction l with
  | nil => intro _ h; simp at h
  | cons a l ih =>
    intro hn hm hfg
    obtain ⟨h1, h2⟩ := List.nodup_cons.1 hn
    simp only [List.map_cons, List.sum_cons]
    rcases List.mem_cons.1 hm with rfl | hm
    · have : l.map f = l.map g := List.map_congr_left fun v hv => hfg v (fun e => h1 (e ▸ hv))
      rw [this]; omega
    · have := ih h2 hm hfg
      have ha : a ≠ u := fun e => h1 (e ▸ hm)
      rw [hfg a ha]; omega

theorem openArcs_cons {adj : Adj} {S : List Nat} {u : Nat} (hu : u < V) (hS : u ∉ S) :
    openArcs adj V (u :: S) + (adj.getD u []).length = openArcs adj V S := by
  have := sum_map_split (fun v => if v ∈ u :: S then 0 else (adj.getD v []).length) (fun v => if v ∈ S then 0 else (adj.getD v []).length) u
    (List.range V) List.nodup_range (by simpa using hu) (fun v hv => by simp [hv])
  simp only [hS, if_false, List.mem_cons, true_or, if_true] at this
  unfold openArcs
  simp only [List.mem_cons]
  omega

/-- The adjacency vectors describe the weights. -/
structure AdjOk (V : Nat) (wt : Nat → Nat → Option Int) (adj : Adj) : Prop where
  len : adj.length = V
  arc : ∀ u row, adj[u]? = some row → ∀ v x, (v, x) ∈ row ↔ wt u v = some x
  ends : ∀ u v x, wt u v = some x → u < V ∧ v < V
  pos : ∀ u v x, wt u v = some x → 0 ≤ x

theorem djBody_spec {adj : Adj} (hA : AdjOk V wt adj) {pq : List (Int × Nat)} {D P S} (hne : pq ≠ [])
    (h : LazyInv V wt src pq D P S (fun _ _ => True)) :
    ∃ pq' D' P' S', djBody adj ⟨vec V D, vec V P, pq⟩ = .ok ⟨vec V D', vec V P', pq'⟩ ∧ LazyInv V wt src pq' D' P' S' (fun _ _ => True) ∧
      pq'.length + openArcs adj V S' < pq.length + openArcs adj V S := by
  cases pq with
  | nil => exact absurd rfl hne
  | cons e es =>
  obtain ⟨htop, hmin⟩ := pqTop_spec es e
  obtain ⟨top, ht⟩ : ∃ top, pqTop e es = top := ⟨_, rfl⟩
  rw [ht] at htop hmin
  obtain ⟨htV, dt, hdt, hle⟩ := h.ent top htop
  have hlen : ((e :: es).erase top).length + 1 = (e :: es).length := by
    rw [List.length_erase_of_mem htop]; simp
  have hsub : ∀ x, x ∈ (e :: es).erase top → x ∈ e :: es := fun x hx => List.mem_of_mem_erase hx
  have hnd : ((e :: es).erase top).Nodup := h.pnodup.erase _
  by_cases hst : infLt (D top.2) (some top.1) = true
  · -- an outdated entry
    refine ⟨(e :: es).erase top, D, P, S, ?_, ?_, by omega⟩
    · simp only [djBody, ht, vget_vec htV, ok_bind, hst, if_true]
    · refine ⟨fun x hx => h.ent x (hsub x hx), hnd, h.zero, h.dom, ?_, h.snodup, h.sub, ?_, h.tight, h.link⟩
      · intro v c hc
        rcases h.todo v c hc with h1 | h1
        · exact Or.inl h1
        · right
          refine (List.mem_erase_of_ne ?_).2 h1
          rintro rfl
          rw [hc] at hst
          simp [infLt] at hst
      · intro u hu
        obtain ⟨du, h1, h2, h3⟩ := h.settled u hu
        exact ⟨du, h1, fun x hx => h2 x (hsub x hx), fun hm => h3 (hsub _ hm)⟩
  · have hst' : infLt (D top.2) (some top.1) = false := by simpa using hst
    have hdt1 : dt = top.1 := by rw [hdt] at hst'; simp [infLt] at hst'; omega
    subst hdt1
    have huS : top.2 ∉ S := by
      intro hm
      obtain ⟨du, h1, _, h3⟩ := h.settled _ hm
      rw [hdt] at h1; cases h1
      exact h3 htop
    obtain ⟨row, hrow⟩ : ∃ row, adj[top.2]? = some row := by
      have : top.2 < adj.length := by rw [hA.len]; exact htV
      exact ⟨_, List.getElem?_eq_getElem this⟩
    have hrg : adj.getD top.2 [] = row := by simp [List.getD, hrow]
    have hlink : ∀ v, (P v = none ∧ (D v = none ∨ v = src)) ∨
        ∃ u du x, P v = some u ∧ u ∈ top.2 :: S ∧ D u = some du ∧ wt u v = some x ∧ D v = some (du + x) := by
      intro v
      rcases h.link v with h1 | ⟨u, du, x, h1, h2, h3, h4, h5⟩
      · exact Or.inl h1
      · exact Or.inr ⟨u, du, x, h1, by simp [h2], h3, h4, h5⟩
    have h0 : LazyInv V wt src ((e :: es).erase top) D P (top.2 :: S) (fun y z => y ≠ top.2 ∨ ∃ x, (z, x) ∈ ([] : List (Nat × Int))) := by
      refine ⟨fun x hx => h.ent x (hsub x hx), hnd, h.zero, h.dom, ?_, List.nodup_cons.2 ⟨huS, h.snodup⟩, ?_, ?_, ?_, hlink⟩
      · intro v c hc
        rcases h.todo v c hc with h1 | h1
        · exact Or.inl (by simp [h1])
        · by_cases hvt : (c, v) = top
          · left; rw [← hvt]; simp
          · right; exact (List.mem_erase_of_ne hvt).2 h1
      · intro u hu
        rcases List.mem_cons.1 hu with rfl | hu
        · exact htV
        · exact h.sub u hu
      · intro u hu
        rcases List.mem_cons.1 hu with rfl | hu
        · refine ⟨top.1, hdt, fun x hx => hmin x (hsub x hx), ?_⟩
          exact fun hm => (h.pnodup.mem_erase_iff.1 hm).1 rfl
        · obtain ⟨du, h1, h2, h3⟩ := h.settled u hu
          exact ⟨du, h1, fun x hx => h2 x (hsub x hx), fun hm => h3 (hsub _ hm)⟩
      · intro u hu du hdu w x hw hR
        rcases hR with hR | ⟨x, hR⟩
        · rcases List.mem_cons.1 hu with hu | hu
          · exact absurd hu hR
          · exact h.tight u hu du hdu w x hw trivial
        · simp at hR
    obtain ⟨s', es', ⟨pq', D', P', hs', hI, hd, hS, hq, hl⟩⟩ := forList_spec
      (I := fun done rest (s : Dj) => ∃ pq' D' P', s = ⟨vec V D', vec V P', pq'⟩ ∧
        (LazyInv V wt src pq' D' P' (top.2 :: S) (fun y z => y ≠ top.2 ∨ ∃ x, (z, x) ∈ done) ∧ D' top.2 = some top.1 ∧
        (∀ z ∈ top.2 :: S, ∀ dz, D' z = some dz → dz ≤ top.1) ∧ (∀ e ∈ pq', top.1 ≤ e.1) ∧
        pq'.length ≤ ((e :: es).erase top).length + done.length ∧ done ++ rest = row))
      (body := djArc top.2) row [] ⟨vec V D, vec V P, (e :: es).erase top⟩
      ⟨_, D, P, rfl, h0, hdt, by
        intro z hz dz hdz
        rcases List.mem_cons.1 hz with rfl | hz
        · rw [hdt] at hdz; cases hdz; exact Int.le_refl _
        · obtain ⟨d, h1, h2, _⟩ := h.settled z hz
          rw [hdz] at h1; cases h1
          exact h2 top htop, fun x hx => hmin x (hsub x hx), by simp, rfl⟩
      (by
        rintro done a rest s ⟨pq1, D1, P1, rfl, hI, hd, hS, hq, hl, hrest⟩
        have hmem : (a.1, a.2) ∈ row := by rw [← hrest]; simp
        have hwt := (hA.arc _ _ hrow a.1 a.2).1 hmem
        obtain ⟨pq2, D2, P2, e2, i2, d2, s2, q2, l2⟩ := djArc_spec hA.pos (hA.ends _ _ _ hwt).2 hwt (by simp) hd hS hq hI
        exact ⟨_, e2, pq2, D2, P2, rfl, i2, d2, s2, q2, by simp; omega, by rw [← hrest]; simp⟩)
    rw [List.nil_append] at hI hl
    refine ⟨pq', D', P', top.2 :: S, ?_, ?_, ?_⟩
    · simp only [djBody, ht, vget_vec htV, ok_bind, hst', Bool.false_eq_true, if_false]
      have : vget adj top.2 = .ok row := by simp [vget, hrow]
      rw [this, ok_bind, es', hs']
    · refine ⟨hI.ent, hI.pnodup, hI.zero, hI.dom, hI.todo, hI.snodup, hI.sub, hI.settled, ?_, hI.link⟩
      intro u hu du hdu w x hw _
      refine hI.tight u hu du hdu w x hw ?_
      by_cases huu : u = top.2
      · subst huu; exact Or.inr ⟨x, (hA.arc _ _ hrow w x).2 hw⟩
      · exact Or.inl huu
    · have := openArcs_cons (adj := adj) htV huS
      rw [hrg] at this
      omega

/-- The result of the loop. -/
structure LazyDone (V : Nat) (wt : Nat → Nat → Option Int) (src : Nat) (D : Nat → Option Int) (P : Nat → Option Nat) : Prop where
  zero : D src = some 0
  dist : ∀ v, Distance wt src v (D v)
  dom : ∀ v c, D v = some c → v < V
  link : ∀ v, (P v = none ∧ (D v = none ∨ v = src)) ∨ ∃ u du x, P v = some u ∧ D u = some du ∧ wt u v = some x ∧ D v = some (du + x)

theorem LazyInv.done {D P S} (h : LazyInv V wt src [] D P S (fun _ _ => True)) : LazyDone V wt src D P := by
  have key : ∀ v c, WalkW wt src v c → ∃ d, D v = some d ∧ d ≤ c := by
    intro v c hw
    induction hw with
    | nil => exact ⟨0, h.zero, Int.le_refl _⟩
    | snoc _ hx ih =>
      obtain ⟨d, hd, hle⟩ := ih
      rcases h.todo _ _ hd with hS | hS
      · obtain ⟨dw, h1, h2⟩ := h.tight _ hS d hd _ _ hx trivial
        exact ⟨dw, h1, by omega⟩
      · simp at hS
  refine ⟨h.zero, ?_, fun v c hc => (h.dom v c hc).1, ?_⟩
  · intro v
    cases hd : D v with
    | none => intro c hw; obtain ⟨d, h1, _⟩ := key v c hw; rw [hd] at h1; cases h1
    | some c =>
      refine ⟨(h.dom v c hd).2.2, fun c' hw => ?_⟩
      obtain ⟨d, h1, h2⟩ := key v c' hw
      rw [hd] at h1; cases h1; exact h2
  · intro v
    rcases h.link v with h1 | ⟨u, du, x, h1, _, h3, h4, h5⟩
    · exact Or.inl h1
    · exact Or.inr ⟨u, du, x, h1, h3, h4, h5⟩

/-- The loop ends with the exact distances. -/
theorem djLoop_spec {adj : Adj} (hA : AdjOk V wt adj) (hs : src < V) :
    ∃ n₀, ∀ fuel, n₀ ≤ fuel → ∃ D P, LazyDone V wt src D P ∧
      whileLoop fuel (fun s : Dj => .ok (!s.pq.isEmpty)) (djBody adj) ⟨vec V fun j => if j = src then some 0 else none, vec V fun _ => none, [(0, src)]⟩ =
        .ok ⟨vec V D, vec V P, []⟩ := by
  refine ⟨2 + openArcs adj V [], fun fuel hf => ?_⟩
  have key : ∀ (n fuel : Nat) (pq : List (Int × Nat)) D P S, pq.length + openArcs adj V S ≤ n → n < fuel →
      LazyInv V wt src pq D P S (fun _ _ => True) → ∃ D2 P2, LazyDone V wt src D2 P2 ∧
        whileLoop fuel (fun s : Dj => .ok (!s.pq.isEmpty)) (djBody adj) ⟨vec V D, vec V P, pq⟩ = .ok ⟨vec V D2, vec V P2, []⟩ := by
    intro n
    induction n with
    | zero =>
      intro fuel pq D P S hm hf h
      have : pq = [] := by cases pq with
        | nil => rfl
        | cons _ _ => simp at hm
      subst this
      obtain ⟨f, rfl⟩ : ∃ f, fuel = f + 1 := ⟨fuel - 1, by omega⟩
      exact ⟨D, P, h.done, by simp [whileLoop]⟩
    | succ n ih =>
      intro fuel pq D P S hm hf h
      obtain ⟨f, rfl⟩ : ∃ f, fuel = f + 1 := ⟨fuel - 1, by omega⟩
      by_cases hpq : pq = []
      · subst hpq
        exact ⟨D, P, h.done, by simp [whileLoop]⟩
      · obtain ⟨pq', D', P', S', e, h', hlt⟩ := djBody_spec hA hpq h
        obtain ⟨D2, P2, hd, e2⟩ := ih f pq' D' P' S' (by omega) (by omega) h'
        refine ⟨D2, P2, hd, ?_⟩
        have : (!pq.isEmpty) = true := by cases pq with
          | nil => exact absurd rfl hpq
          | cons _ _ => rfl
        simp only [whileLoop, this, ok_bind, if_true, e, e2]
  refine key (1 + openArcs adj V []) fuel [(0, src)] _ _ [] (by simp) (by omega) ⟨?_, by simp, by simp, ?_, ?_, by simp, by simp, by simp, by simp, ?_⟩
  · intro e he
    simp at he
    subst he
    exact ⟨hs, 0, by simp, Int.le_refl _⟩
  · intro v c
    by_cases hv : v = src
    · subst hv; simp only [if_true, Option.some.injEq]; rintro rfl; exact ⟨hs, Int.le_refl _, .nil⟩
    · simp [hv]
  · intro v c
    by_cases hv : v = src
    · subst hv; simp only [if_true, Option.some.injEq]; rintro rfl; simp
    · simp [hv]
  · intro v
    by_cases hv : v = src <;> simp [hv]

end
end Props
