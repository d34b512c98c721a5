import Mathlib.Tactic.TypeStar

/-! # Small helpers for evaluating model runs in counterexamples -/

set_option autoImplicit false

namespace Jaxopt

theorem ok_of_toOption {ε α β : Type*} {x : Except ε α} {φ : α → β} {v : β} (h : x.toOption.map φ = some v) :
    ∃ r, x = .ok r ∧ φ r = v := by
  cases x with
  | error e => simp [Except.toOption] at h
  | ok r => simp [Except.toOption] at h; exact ⟨r, rfl, h⟩

end Jaxopt
