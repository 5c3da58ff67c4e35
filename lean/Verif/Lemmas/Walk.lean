import Verif.GraphSpec
import Verif.Lemmas.Lists

set_option linter.unusedSectionVars false
namespace Props
open Spec
variable {V : Type} [DecidableEq V] {nbr : V → List V}

theorem Walk.append {u v w : V} {m n : Nat} (h : Walk nbr u v m) (h' : Walk nbr v w n) : Walk nbr u w (m + n) := by
  induction h' with
  | nil => exact h
  | snoc _ hw ih => exact ih.snoc hw

theorem Walk.cons {u v w : V} {n : Nat} (h : v ∈ nbr u) (h' : Walk nbr v w n) : Walk nbr u w (n + 1) := by
  have := Walk.append (.snoc .nil h) h'
  rwa [show 0 + 1 + n = n + 1 by omega] at this

theorem Walk.verts {verts : List V} (hc : ∀ v ∈ verts, ∀ w ∈ nbr v, w ∈ verts) {u v : V} {n : Nat} (hu : u ∈ verts) (h : Walk nbr u v n) :
    v ∈ verts := by
  induction h with
  | nil => exact hu
  | snoc _ hw ih => exact hc _ ih _ hw

/-- A walk with as many edges as there are vertices passes through a cycle. -/
theorem Walk.pigeonhole {verts : List V} (hc : ∀ v ∈ verts, ∀ w ∈ nbr v, w ∈ verts) {u v : V} {n : Nat} (hu : u ∈ verts) (h : Walk nbr u v n)
    (hn : verts.length ≤ n) : ∃ w k, Reach nbr u w ∧ 0 < k ∧ Walk nbr w w k := by
  have key : ∀ {v n}, Walk nbr u v n → (∃ w k, Reach nbr u w ∧ 0 < k ∧ Walk nbr w w k) ∨
      ∃ l : List V, l.Nodup ∧ l.length = n + 1 ∧ ∀ x ∈ l, x ∈ verts ∧ Reach nbr u x ∧ ∃ j, Walk nbr x v j := by
    intro v n h
    induction h with
    | nil => exact Or.inr ⟨[u], by simp, rfl, by simp; exact ⟨hu, Reach.refl _ _, 0, .nil⟩⟩
    | @snoc v w n hv hw ih =>
      rcases ih with ih | ⟨l, hl, hlen, hx⟩
      · exact Or.inl ih
      · by_cases hwl : w ∈ l
        · obtain ⟨_, hr, j, hj⟩ := hx w hwl
          exact Or.inl ⟨w, j + 1, hr, by omega, hj.snoc hw⟩
        · refine Or.inr ⟨w :: l, List.nodup_cons.2 ⟨hwl, hl⟩, by simp [hlen], ?_⟩
          intro x hx'
          rcases List.mem_cons.1 hx' with rfl | hx'
          · exact ⟨Walk.verts hc hu (hv.snoc hw), ⟨_, hv.snoc hw⟩, 0, .nil⟩
          · obtain ⟨h1, h2, j, hj⟩ := hx x hx'
            exact ⟨h1, h2, j + 1, hj.snoc hw⟩
  rcases key h with h | ⟨l, hl, hlen, hx⟩
  · exact h
  · have := nodup_length_le hl (fun x h => (hx x h).1)
    omega

end Props
