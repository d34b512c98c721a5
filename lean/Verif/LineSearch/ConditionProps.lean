import Verif.LineSearch.Backtracking

/-!
# C18: the names of the conditions of the backtracking line search
-/

set_option autoImplicit false
set_option linter.unusedSectionVars false
set_option linter.unusedVariables false

namespace Jaxopt.LineSearch

/-- The documented name of a condition, backtracking_linesearch.py line 69. -/
def Condition.spelling : Condition → String
  | .armijo => "armijo"
  | .strongWolfe => "strong-wolfe"
  | .wolfe => "wolfe"
  | .goldstein => "goldstein"

/-- C18.  Exactly the four documented names are accepted, each for its own condition; every other string raises. -/
theorem C18_condition (s : String) :
    (∀ c, Condition.ofString s = .ok c ↔ s = c.spelling) ∧ ((∃ msg, Condition.ofString s = .error msg) ↔ ∀ c : Condition, s ≠ c.spelling) := by
  have key : ∀ c, Condition.ofString s = .ok c ↔ s = c.spelling := by
    intro c
    unfold Condition.ofString
    by_cases h1 : s = "armijo"
    · subst h1; cases c <;> simp [Condition.spelling]
    by_cases h2 : s = "strong-wolfe"
    · subst h2; cases c <;> simp [Condition.spelling]
    by_cases h3 : s = "wolfe"
    · subst h3; cases c <;> simp [Condition.spelling]
    by_cases h4 : s = "goldstein"
    · subst h4; cases c <;> simp [Condition.spelling]
    cases c <;> simp [h1, h2, h3, h4, Condition.spelling]
  refine ⟨key, ?_, fun h => ?_⟩
  · rintro ⟨msg, h⟩ c hc
    rw [(key c).2 hc] at h
    simp at h
  · cases hc : Condition.ofString s with
    | error msg => exact ⟨msg, rfl⟩
    | ok c => exact absurd ((key c).1 hc) (h c)

example : Condition.ofString "strong-wolfe" = .ok .strongWolfe := by decide +kernel

example : ∃ msg, Condition.ofString "strong_wolfe" = .error msg := (C18_condition _).2.2 fun c => by cases c <;> decide

end Jaxopt.LineSearch
