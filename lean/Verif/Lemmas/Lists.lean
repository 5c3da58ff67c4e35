/-! # Facts about lists that the core library lacks -/
namespace Props

theorem nodup_length_le {α : Type _} [DecidableEq α] : ∀ {a b : List α}, a.Nodup → (∀ x ∈ a, x ∈ b) → a.length ≤ b.length := by
  intro a
  induction a with
  | nil => intros; simp
  | cons x a ih =>
    intro b hn hs
    obtain ⟨hx, hn⟩ := List.nodup_cons.1 hn
    have hxb := hs x (by simp)
    have := ih (b := b.erase x) hn (by
      intro y hy
      have : y ≠ x := fun e => hx (e ▸ hy)
      exact (List.mem_erase_of_ne this).2 (hs y (by simp [hy])))
    rw [List.length_erase_of_mem hxb] at this
    have : 0 < b.length := List.length_pos_of_mem hxb
    simp; omega

end Props
