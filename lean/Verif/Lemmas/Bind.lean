import Verif.Lemmas.Py

namespace Py

theorem bind_ok {β γ : Type _} {x : PyM β} {f : β → PyM γ} {y : γ} (h : x >>= f = .ok y) : ∃ b, x = .ok b ∧ f b = .ok y := by
  cases x with
  | error e => cases h
  | ok b => exact ⟨b, rfl, h⟩

end Py
