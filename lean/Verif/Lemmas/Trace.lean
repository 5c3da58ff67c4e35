import Verif.Spec

namespace Spec

/-- Two machines related step by step have the same traces. -/
theorem trace_eq {σ τ ω ο : Type} {step : σ → ω → σ × ο} {step' : τ → ω → τ × ο} (R : σ → τ → Prop)
    (h : ∀ s t op, R s t → R (step s op).1 (step' t op).1 ∧ (step s op).2 = (step' t op).2) :
    ∀ (ops : List ω) (s : σ) (t : τ), R s t → trace step s ops = trace step' t ops ∧ R (final step s ops) (final step' t ops) := by
  intro ops
  induction ops with
  | nil => intro s t hr; exact ⟨rfl, hr⟩
  | cons op ops ih =>
    intro s t hr
    obtain ⟨h1, h2⟩ := h s t op hr
    obtain ⟨h3, h4⟩ := ih _ _ h1
    exact ⟨by simp [trace, h2, h3], h4⟩

end Spec
