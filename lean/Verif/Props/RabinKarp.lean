import Verif.Props.Kmp

/-! # C51: Rabin-Karp -/
namespace Props
open Py Model Spec

/-- Specification: the polynomial whose value at 257 the hash is, `c₀ + c₁·257 + c₂·257² + …`. -/
def polyHash : List Nat → Nat
  | [] => 0
  | c :: cs => c + 257 * polyHash cs

theorem polyHash_append (a b : List Nat) : polyHash (a ++ b) = polyHash a + 257 ^ a.length * polyHash b := by
  induction a with
  | nil => simp [polyHash]
  | cons c a ih => simp only [List.cons_append, polyHash, ih, List.length_cons, Nat.pow_succ, Nat.mul_add]
                   rw [show 257 ^ a.length * 257 * polyHash b = 257 * (257 ^ a.length * polyHash b) by
                     rw [Nat.mul_comm (257 ^ a.length) 257, Nat.mul_assoc]]
                   omega

theorem polyHash_take_succ (s : List Nat) (i : Nat) (h : i < s.length) :
    polyHash (s.take (i + 1)) = polyHash (s.take i) + s[i] * 257 ^ i := by
  rw [List.take_succ_eq_append_getElem h, polyHash_append, List.length_take, Nat.min_eq_left (by omega)]
  simp [polyHash, Nat.mul_comm]

theorem pPow_spec (n : Nat) (hn : 0 < n) : ∃ pp, pPow n = .ok pp ∧ pp.length = n ∧
    ∀ (i : Nat), i < n → pp[i]? = some (257 ^ i % rkMod) := by
  unfold pPow
  rw [wr_of_lt _ (by simpa using hn), ok_bind]
  obtain ⟨pp, e, h1, h2⟩ := forRange_spec
    (fun k (a : List Nat) => a.length = n ∧ ∀ (i : Nat), i < k → a[i]? = some (257 ^ i % rkMod)) (lo := 1) (hi := n)
    (s := (List.replicate n 0).set 0 1)
    (body := fun i a => do
      let v ← rd a (i - 1)
      wr a i (v * rkPrime % rkMod)) (by omega)
    ⟨by simp, fun i hi => by
      have : i = 0 := by omega
      subst this
      rw [List.getElem?_set_self (by simpa using hn)]; rfl⟩
    (by
      rintro k a h1 h2 ⟨h3, h4⟩
      rw [rd_of_some (h4 (k - 1) (by omega)), ok_bind, wr_of_lt _ (by omega)]
      refine ⟨_, rfl, by simpa using h3, ?_⟩
      intro i hi
      by_cases e : i = k
      · subst e
        rw [List.getElem?_set_self (by omega)]
        congr 1
        obtain ⟨m, rfl⟩ : ∃ m, i = m + 1 := ⟨i - 1, by omega⟩
        rw [Nat.add_sub_cancel, Nat.pow_succ, Nat.mul_mod, Nat.mod_mod, ← Nat.mul_mod]; rfl
      · rw [List.getElem?_set_ne (by omega)]; exact h4 i (by omega))
  exact ⟨pp, e, h1, h2⟩

theorem step_mod (h c p : Nat) : (h % rkMod + c * (p % rkMod)) % rkMod = (h + c * p) % rkMod := by
  rw [Nat.add_mod, Nat.mod_mod, Nat.mul_mod, Nat.mod_mod, ← Nat.mul_mod, ← Nat.add_mod]

theorem hashStr_spec (s : List Nat) (hs : 0 < s.length) : hashStr s = .ok (polyHash s % rkMod) := by
  obtain ⟨pp, e, h1, h2⟩ := pPow_spec s.length hs
  unfold hashStr
  rw [e, ok_bind]
  obtain ⟨r, e, h⟩ := forRange_spec (fun k r => r = polyHash (s.take k) % rkMod) (lo := 0) (hi := s.length) (s := 0)
    (body := fun i h => do
      let c ← rd s i
      let p ← rd pp i
      .ok ((h + c * p) % rkMod)) (Nat.zero_le _) rfl
    (by
      rintro k r _ hk rfl
      rw [rd_of_lt hk, ok_bind, rd_of_some (h2 k hk), ok_bind]
      exact ⟨_, rfl, by rw [polyHash_take_succ s k hk, step_mod]⟩)
  rw [e, h, List.take_length]

theorem rkPrefix_spec (t pp : List Nat) (hp : ∀ (i : Nat), i < t.length → pp[i]? = some (257 ^ i % rkMod)) :
    ∃ th, rkPrefix t pp = .ok th ∧ ∀ (i : Nat), i ≤ t.length → th[i]? = some (polyHash (t.take i) % rkMod) := by
  unfold rkPrefix
  obtain ⟨th, e, h1, h2⟩ := forRange_spec
    (fun k (a : List Nat) => a.length = t.length + 1 ∧ ∀ (i : Nat), i ≤ k → a[i]? = some (polyHash (t.take i) % rkMod))
    (lo := 0) (hi := t.length) (s := List.replicate (t.length + 1) 0)
    (body := fun i a => do
      let h ← rd a i
      let c ← rd t i
      let p ← rd pp i
      wr a (i + 1) ((h + c * p) % rkMod)) (Nat.zero_le _)
    ⟨by simp, fun i hi => by
      have : i = 0 := by omega
      subst this; simp [polyHash]⟩
    (by
      rintro k a _ hk ⟨h3, h4⟩
      rw [rd_of_some (h4 k (Nat.le_refl _)), ok_bind, rd_of_lt hk, ok_bind, rd_of_some (hp k hk), ok_bind, wr_of_lt _ (by omega)]
      refine ⟨_, rfl, by simpa using h3, ?_⟩
      intro i hi
      by_cases e : i = k + 1
      · subst e
        rw [List.getElem?_set_self (by omega), step_mod, ← polyHash_take_succ t k hk]
      · rw [List.getElem?_set_ne (by omega)]; exact h4 i (by omega))
  exact ⟨th, e, h2⟩

theorem mod_eq_iff (x y : Nat) (M : Nat) : x % M = y % M ↔ (M : Int) ∣ (x : Int) - y := by
  constructor
  · intro h
    have : ((x : Int) % M) = (y : Int) % M := by exact_mod_cast h
    exact Int.dvd_of_emod_eq_zero (Int.emod_eq_emod_iff_emod_sub_eq_zero.1 this)
  · intro h
    have := Int.emod_eq_emod_iff_emod_sub_eq_zero.2 (Int.emod_eq_zero_of_dvd h)
    exact_mod_cast this

theorem cancel {M p : Nat} (hc : Nat.Coprime M p) (i : Nat) (x : Int) (h : (M : Int) ∣ ((p ^ i : Nat) : Int) * x) : (M : Int) ∣ x := by
  have hc : Nat.Coprime M (p ^ i) := Nat.Coprime.pow_right i hc
  have h' : M ∣ p ^ i * x.natAbs := by
    have := Int.natAbs_dvd_natAbs.2 h
    rwa [Int.natAbs_mul, Int.natAbs_natCast, Int.natAbs_natCast] at this
  exact Int.natAbs_dvd_natAbs.1 (by rw [Int.natAbs_natCast]; exact hc.dvd_of_dvd_mul_left h')

theorem rk_test_gen {M p : Nat} (hM : 0 < M) (hc : Nat.Coprime M p) (a w q i : Nat) :
    ((a + p ^ i * w) % M + M - a % M) % M = q % M * (p ^ i % M) % M ↔ w % M = q % M := by
  rw [← Nat.mul_mod, mod_eq_iff, mod_eq_iff]
  have h1 := Nat.mod_lt a hM
  rw [Nat.add_sub_assoc (Nat.le_of_lt h1), Int.natCast_add, Int.ofNat_sub (Nat.le_of_lt h1)]
  have hcan := cancel hc i ((w : Int) - q)
  generalize hP : p ^ i = P at hcan ⊢
  have ea : ((a % M : Nat) : Int) = a - M * (a / M : Nat) := by
    have := Nat.mod_add_div a M
    have : ((a % M : Nat) : Int) + M * (a / M : Nat) = a := by exact_mod_cast this
    omega
  have eb : (((a + P * w) % M : Nat) : Int) = a + P * w - M * ((a + P * w) / M : Nat) := by
    have := Nat.mod_add_div (a + P * w) M
    have : (((a + P * w) % M : Nat) : Int) + M * ((a + P * w) / M : Nat) = (a : Int) + P * w := by
      exact_mod_cast this
    omega
  rw [ea, eb]
  generalize ((a / M : Nat) : Int) = u
  generalize (((a + P * w) / M : Nat) : Int) = v
  have e : (a : Int) + P * w - M * v + (M - (a - M * u)) - ((q * P : Nat) : Int) =
      P * ((w : Int) - q) + M * (1 - v + u) := by
    rw [Int.natCast_mul, Int.mul_comm (q : Int), Int.mul_sub, Int.mul_add, Int.mul_sub]; omega
  rw [e]
  constructor
  · intro h
    exact hcan ((Int.dvd_add_left ⟨_, rfl⟩).1 h)
  · rintro ⟨d, hd⟩
    rw [hd]
    exact Int.dvd_add ⟨P * d, by rw [← Int.mul_assoc, ← Int.mul_assoc, Int.mul_comm (P : Int)]⟩ ⟨_, rfl⟩

/-- The test of the code compares the hashes of the window and of the query. -/
theorem rk_test (a w q i : Nat) :
    ((a + 257 ^ i * w) % rkMod + rkMod - a % rkMod) % rkMod = q % rkMod * (257 ^ i % rkMod) % rkMod ↔ w % rkMod = q % rkMod :=
  rk_test_gen (by decide) (by decide) a w q i

/-- What the code computes for every text and query: the positions whose window has the same hash as the query. -/
theorem C51_exact (text query : List Nat) (hq : query ≠ []) :
    rkFind text query = .ok (((List.range (text.length + 1 - query.length)).filter fun i =>
      decide (polyHash ((text.drop i).take query.length) % 1000000007 = polyHash query % 1000000007)).map fun (i : Nat) => (i : Int)) := by
  have hq' : 0 < query.length := List.length_pos_iff.2 hq
  unfold rkFind
  by_cases h0 : text.length = 0
  · rw [if_pos (Or.inr h0), show text.length + 1 - query.length = 0 by omega]; rfl
  · rw [if_neg (by omega), hashStr_spec query hq', ok_bind]
    obtain ⟨pp, e, _, hpp⟩ := pPow_spec text.length (by omega)
    rw [e, ok_bind]
    obtain ⟨th, e, hth⟩ := rkPrefix_spec text pp hpp
    rw [e, ok_bind]
    obtain ⟨res, e, h⟩ := forRange_spec (lo := 0) (hi := text.length + 1 - query.length) (s := ([] : List Int))
      (body := fun i res => do
        let b ← rd th (i + query.length)
        let a ← rd th i
        let cur := (b + rkMod - a) % rkMod
        let p ← rd pp i
        .ok (if cur = (polyHash query % rkMod) * p % rkMod then res ++ [(i : Int)] else res))
      (fun n res => res = ((List.range n).filter fun i =>
        decide (polyHash ((text.drop i).take query.length) % 1000000007 = polyHash query % 1000000007)).map fun (i : Nat) => (i : Int))
      (Nat.zero_le _) rfl
      (by
        rintro k res _ hk rfl
        rw [rd_of_some (hth (k + query.length) (by omega)), ok_bind, rd_of_some (hth k (by omega)), ok_bind]
        dsimp only
        rw [rd_of_some (hpp k (by omega)), ok_bind]
        refine ⟨_, rfl, ?_⟩
        have hsplit : polyHash (text.take (k + query.length)) =
            polyHash (text.take k) + 257 ^ k * polyHash ((text.drop k).take query.length) := by
          rw [List.take_add, polyHash_append, List.length_take, Nat.min_eq_left (by omega)]
        rw [hsplit, List.range_succ, List.filter_append, List.map_append]
        by_cases hh : polyHash ((text.drop k).take query.length) % rkMod = polyHash query % rkMod
        · rw [if_pos ((rk_test _ _ _ _).2 hh)]
          have hh' : polyHash ((text.drop k).take query.length) % 1000000007 = polyHash query % 1000000007 := hh
          simp [hh']
        · rw [if_neg (fun h => hh ((rk_test _ _ _ _).1 h))]
          have hh' : ¬ polyHash ((text.drop k).take query.length) % 1000000007 = polyHash query % 1000000007 := hh
          simp [hh'])
    rw [e, h]

/-- C51: no occurrence is missed, whatever the text and query. -/
theorem C51_complete (text query : List Nat) (hq : query ≠ []) :
    ∃ ps, rkFind text query = .ok ps ∧ ∀ p ∈ occurrences text query, p ∈ ps := by
  refine ⟨_, C51_exact text query hq, ?_⟩
  intro p hp
  rw [occurrences] at hp
  obtain ⟨i, hi, rfl⟩ := List.mem_map.1 hp
  refine List.mem_map.2 ⟨i, ?_, rfl⟩
  rw [List.mem_filter] at hi ⊢
  have hpre := hi.2
  have hb := ((occ_iff text query i).1 hpre).bound (List.length_pos_iff.2 hq)
  rw [List.isPrefixOf_iff_prefix, List.prefix_iff_eq_take] at hpre
  refine ⟨by rw [List.mem_range]; omega, ?_⟩
  rw [← hpre]
  simp

/-- The full property. -/
def C51_full : Prop := ∀ text query : List Nat, query ≠ [] → rkFind text query = .ok (occurrences text query)

/-- Two different strings with the same hash: searching `chr(257) + chr(0)` in `chr(0) + chr(1)` reports position 0. -/
theorem C51_collision : rkFind [0, 1] [257, 0] = .ok [0] ∧ occurrences [0, 1] [257, 0] = [] := by
  constructor <;> decide +kernel

theorem C51_full_false : ¬ C51_full := by
  intro h
  have := h [0, 1] [257, 0] (by simp)
  rw [C51_collision.1, C51_collision.2] at this
  cases this

theorem polyHash_inj : ∀ (a b : List Nat), a.length = b.length → (∀ c ∈ a, c < 257) → (∀ c ∈ b, c < 257) → polyHash a = polyHash b → a = b := by
  intro a
  induction a with
  | nil => intro b h _ _ _; exact (List.length_eq_zero_iff.1 h.symm).symm
  | cons x a ih =>
    intro b hl ha hb h
    cases b with
    | nil => simp at hl
    | cons y b =>
      have hx := ha x (by simp)
      have hy := hb y (by simp)
      simp only [polyHash] at h
      have e1 : x = y := by omega
      have e2 : polyHash a = polyHash b := by omega
      rw [e1, ih b (by simpa using hl) (fun c hc => ha c (by simp [hc])) (fun c hc => hb c (by simp [hc])) e2]

theorem polyHash_lt : ∀ (a : List Nat), (∀ c ∈ a, c < 257) → polyHash a < 257 ^ a.length := by
  intro a
  induction a with
  | nil => intro _; simp [polyHash]
  | cons x a ih =>
    intro h
    have := ih fun c hc => h c (by simp [hc])
    have hx := h x (by simp)
    rw [polyHash, List.length_cons, Nat.pow_succ]; omega

/-- C51 as far as it holds: when the code points are below 257 (every Latin-1 text) and the query has at most three characters, the result is
exactly the positions of the query. Missing: longer queries and larger code points, where distinct windows can have the query's hash
(`C51_full_false`; the code does not compare the characters). -/
theorem C51_rabin_karp_partial (text query : List Nat) (hq : query ≠ []) (hlen : query.length ≤ 3) (ht : ∀ c ∈ text, c < 257)
    (hqc : ∀ c ∈ query, c < 257) : rkFind text query = .ok (occurrences text query) := by
  have hq' : 0 < query.length := List.length_pos_iff.2 hq
  rw [C51_exact text query hq, occurrences_eq hq' (s := text.length + 1 - query.length) (by omega), occBefore]
  congr 2
  apply List.filter_congr
  intro i hi
  rw [List.mem_range] at hi
  have hwl : ((text.drop i).take query.length).length = query.length := by simp; omega
  have hw : ∀ c ∈ (text.drop i).take query.length, c < 257 := fun c hc => ht c (List.mem_of_mem_drop (List.mem_of_mem_take hc))
  have h3 : 257 ^ query.length ≤ 257 ^ 3 := Nat.pow_le_pow_right (by decide) hlen
  have b1 := polyHash_lt _ hw
  have b2 := polyHash_lt _ hqc
  rw [hwl] at b1
  rw [Nat.mod_eq_of_lt (by omega), Nat.mod_eq_of_lt (by omega), Bool.eq_iff_iff, decide_eq_true_eq, List.isPrefixOf_iff_prefix,
    List.prefix_iff_eq_take]
  constructor
  · intro h; exact (polyHash_inj _ _ hwl hw hqc h).symm
  · intro h; rw [← h]

theorem C51_empty_query (text : List Nat) : rkFind text [] = .ok [] := by
  simp [rkFind]

example : rkFind [97, 98, 97, 98, 97] [97, 98, 97] = .ok [0, 2] := by decide +kernel

end Props
