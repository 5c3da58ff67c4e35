import Verif.Props.CartAgain
import Verif.Props.CppCart
import Verif.Props.CppRbAgain

/-!
# C119, exactly: which insertions into the C++ Cartesian tree keep the heap order
-/
namespace Props
open Py Model Model.Cpp Spec
set_option linter.unusedSectionVars false
variable {κ δ : Type} [DecidableEq κ]

/-- The tree a history of `insert(key, priority, data)` calls leaves, with C++. -/
def CCartLeft (lt : κ → κ → Bool) (os : Bool) (ops : List (κ × Int × Option δ)) (c : CTree κ δ) : Prop :=
  EndsWith (fun n => cCartBuild (ofLt lt) n os ops) (.ok c)

/-- The C++ `search(k)` finds a node with a child of a priority below `prio`, or a node marked as root whose parent has a priority above `prio`. -/
def CMisfit (lt : κ → κ → Bool) (c : CTree κ δ) (k : κ) (prio : Int) : Prop :=
  ∃ i n, EndsWith (fun fuel => cSearch (ofLt lt) fuel c.t k) (.ok (some i)) ∧ c.t.at i = some n ∧
    ((∃ j m p, (n.left = some j ∨ n.right = some j) ∧ c.t.at j = some m ∧ m.prio = some p ∧ p < prio) ∨
      (n.isRoot = true ∧ ∃ j m p, n.parent = some j ∧ c.t.at j = some m ∧ m.prio = some p ∧ prio < p))

theorem cMisfit_iff {lt : κ → κ → Bool} {t : BTree κ δ} {k : κ} (h : ∃ r, EndsWith (fun fuel => bstSearch lt fuel t k) (.ok r)) (prio : Int) :
    CMisfit lt (onC t) k prio ↔ Misfit lt t k prio := by
  obtain ⟨r, hr⟩ := h
  have hc : EndsWith (fun fuel => cSearch (ofLt lt) fuel (onC t).t k) (.ok r) := Le.endsWith (fun n => le_search lt n t k) hr
  constructor
  · rintro ⟨i, n, hs, h1⟩
    cases endsWith_unique hs hc
    exact ⟨i, n, hr, h1⟩
  · rintro ⟨i, n, hs, h1⟩
    cases endsWith_unique hs hr
    exact ⟨i, n, hc, h1⟩

/-- The insertions of a history whose priorities are replaced by the doubles stored for them. -/
theorem storedOps_small {ops : List (κ × Int × Option δ)} (hp : ∀ op ∈ ops, op.2.1.natAbs ≤ 2 ^ 53) : storedOps ops = ops := by
  unfold storedOps
  rw [List.map_congr_left (g := id)]
  · simp
  · intro op ho; simp [stored_small (hp op ho)]

/-- **C119** for priorities of at most 2^53 in absolute value and key objects no two of which have the same value: the tree is in heap order after
every call of a history if and only if no call inserts a key whose node has at that time a child of a smaller priority than the new one, or is marked
as root and has a parent of a greater priority than the new one. -/
theorem C119_exact {lt : κ → κ → Bool} (ht : StrictTotal (ltRel lt)) (os : Bool) (ops : List (κ × Int × Option δ)) (hp : ∀ op ∈ ops, op.2.1.natAbs ≤ 2 ^ 53) :
    (∀ p, p <+: ops → p ≠ [] → ∃ c, CCartLeft lt os p c ∧ HeapOrdered c.t) ↔
      ∀ p k prio d, p ++ [(k, prio, d)] <+: ops → ∃ c, CCartLeft lt os p c ∧ ¬ CMisfit lt c k prio := by
  have hlt : (2 : Nat) ^ 53 < 2 ^ 1023 := Nat.pow_lt_pow_right (by decide) (by decide)
  have run : ∀ p, p <+: ops → ∃ t, CartLeft lt os p t ∧ CCartLeft lt os p (onC t) ∧ ∀ k, ∃ r, EndsWith (fun fuel => bstSearch lt fuel t k) (.ok r) := by
    intro p hpre
    have hp' : ∀ op ∈ p, op.2.1.natAbs ≤ 2 ^ 53 := fun op h => hp op (hpre.subset h)
    obtain ⟨t, h1, h2⟩ := C80_search ht os p
    refine ⟨t, h1, cCartBuild_run lt os p (fun op h => Nat.lt_of_le_of_lt (hp' op h) hlt) ?_, fun k => ?_⟩
    · rw [storedOps_small hp']; exact h1
    · obtain ⟨r, h, _⟩ := h2 k; exact ⟨r, h⟩
  have h1 : ∀ p, p <+: ops → ((∃ c : CTree κ δ, CCartLeft lt os p c ∧ HeapOrdered c.t) ↔ ∃ t : BTree κ δ, CartLeft lt os p t ∧ HeapOrdered t) := by
    intro p hpre
    obtain ⟨t, hr, hc, _⟩ := run p hpre
    constructor
    · rintro ⟨c, hL, h⟩
      cases endsWith_unique hL hc
      exact ⟨t, hr, h⟩
    · rintro ⟨t', hL, h⟩
      have e := hL.unique hr
      subst e
      exact ⟨onC t', hc, h⟩
  have h2 : ∀ p, p <+: ops → ∀ k prio, ((∃ c : CTree κ δ, CCartLeft lt os p c ∧ ¬ CMisfit lt c k prio) ↔ ∃ t : BTree κ δ, CartLeft lt os p t ∧ ¬ Misfit lt t k prio) := by
    intro p hpre k prio
    obtain ⟨t, hr, hc, hs⟩ := run p hpre
    constructor
    · rintro ⟨c, hL, h⟩
      cases endsWith_unique hL hc
      exact ⟨t, hr, fun hb => h ((cMisfit_iff (hs k) prio).mpr hb)⟩
    · rintro ⟨t', hL, h⟩
      have e := hL.unique hr
      subst e
      exact ⟨onC t', hc, fun hb => h ((cMisfit_iff (hs k) prio).mp hb)⟩
  constructor
  · intro h p k prio d hpre
    have hq : p <+: ops := (List.prefix_append _ _).trans hpre
    exact (h2 p hq k prio).mpr ((C80_exact ht os ops).mp (fun p hpre hne => (h1 p hpre).mp (h p hpre hne)) p k prio d hpre)
  · intro h p hpre hne
    exact (h1 p hpre).mpr ((C80_exact ht os ops).mpr (fun p k prio d hpre => (h2 p ((List.prefix_append _ _).trans hpre) k prio).mp (h p k prio d hpre)) p hpre hne)

/-- 1 above 2 with the priorities 1 and 2: inserting 1 again with the priority 9 is not allowed, … -/
example : ∃ c : CTree Nat Char, CCartLeft (fun a b => decide (a < b)) false [(1, 1, none), (2, 2, none)] c ∧ CMisfit (fun a b => decide (a < b)) c 1 9 := by
  refine ⟨onC ⟨[some { key := some 1, data := none, right := some 1, isRoot := true, prio := some 1 },
    some { key := some 2, data := none, parent := some 0, prio := some 2 }, none], 2, 2, 0, 2, false⟩, ?_, ?_⟩
  · refine cCartBuild_run _ _ _ (fun op h => ?_) ?_
    · have hlt : (2 : Nat) ^ 53 < 2 ^ 1023 := Nat.pow_lt_pow_right (by decide) (by decide)
      refine Nat.lt_trans ?_ hlt
      simp only [List.mem_cons, List.not_mem_nil, or_false] at h
      rcases h with rfl | rfl <;> decide
    · rw [storedOps_small (by
        intro op h
        simp only [List.mem_cons, List.not_mem_nil, or_false] at h
        rcases h with rfl | rfl <;> decide)]
      refine ⟨20, fun n hn => ?_⟩
      obtain ⟨m, rfl⟩ : ∃ m, n = m + 20 := ⟨n - 20, by omega⟩
      rfl
  · exact ⟨0, _, ⟨9, fun n hn => (by obtain ⟨m, rfl⟩ : ∃ m, n = m + 9 := ⟨n - 9, by omega⟩; rfl)⟩, rfl, .inl ⟨1, _, 2, .inr rfl, rfl, rfl, by decide⟩⟩

/-- … inserting 2 again is, with any priority. -/
example (prio : Int) : ¬ CMisfit (δ := Char) (fun a b => decide (a < b)) (onC ⟨[some { key := some 1, data := none, right := some 1, isRoot := true, prio := some 1 },
    some { key := some 2, data := none, parent := some 0, prio := some 2 }, none], 2, 2, 0, 2, false⟩) 2 prio := by
  rintro ⟨i, n, hs, h2, h3⟩
  have hs' : EndsWith (fun fuel => cSearch (δ := Char) (ofLt fun a b : Nat => decide (a < b)) fuel (onC ⟨[some { key := some 1, data := none, right := some 1, isRoot := true, prio := some 1 },
    some { key := some 2, data := none, parent := some 0, prio := some 2 }, none], 2, 2, 0, 2, false⟩).t 2) (.ok (some 1)) :=
    ⟨9, fun n hn => (by obtain ⟨m, rfl⟩ : ∃ m, n = m + 9 := ⟨n - 9, by omega⟩; rfl)⟩
  cases endsWith_unique hs hs'
  cases h2
  rcases h3 with ⟨j, m, p, h | h, _⟩ | ⟨h, _⟩ <;> cases h

/-- A tree constructed with a root key: in C++ the root has the priority 0, so that a key of priority 0 goes below it and a key of priority -1 above it (in Python the comparison with `None` is a
`TypeError`). -/
theorem C119_constructed_root (p : Int) (hp : p = 0 ∨ p = -1) : ∃ c, EndsWith (fun n => do
      let c ← ctNew false (some 5) none
      cCartInsert (δ := Char) (ofLt fun a b : Nat => decide (a < b)) n c 7 p none) (.ok c) ∧
    (c.t.at c.t.rootIdx).bind (·.key) = some (if p = 0 then 5 else 7) := by
  rcases hp with rfl | rfl
  · refine ⟨⟨⟨[some { key := some 5, data := none, isRoot := true, right := some 1 }, some { key := some 7, data := none, prio := some 0, parent := some 0 }, none], 2, 2, 0, 2, false⟩, 3⟩, ⟨20, fun n hn => ?_⟩, rfl⟩
    obtain ⟨m, rfl⟩ : ∃ m, n = m + 20 := ⟨n - 20, by omega⟩
    have e : asDouble 0 = .ok 0 := asDouble_small (by decide)
    simp only [cCartInsert, e, ok_bind]
    rfl
  · refine ⟨⟨⟨[some { key := some 5, data := none, parent := some 1, isRoot := true }, some { key := some 7, data := none, prio := some (-1), left := some 0, isRoot := true }, none], 2, 2, 1, 2, false⟩, 3⟩, ⟨20, fun n hn => ?_⟩, rfl⟩
    obtain ⟨m, rfl⟩ : ∃ m, n = m + 20 := ⟨n - 20, by omega⟩
    have e : asDouble (-1) = .ok (-1) := asDouble_small (by decide)
    simp only [cCartInsert, e, ok_bind]
    rfl
end Props
