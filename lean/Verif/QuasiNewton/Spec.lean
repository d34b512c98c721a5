import Verif.Num.Vdot

/-!
# The BFGS inverse update, as in Nocedal and Wright

Specification used by the properties of L-BFGS and BFGS; written without reference to the code.
-/

set_option autoImplicit false
set_option linter.unusedSectionVars false
set_option linter.unusedVariables false

namespace Jaxopt.QuasiNewton

variable {K E : Type*} [Field K] [LinearOrder K] [AddCommGroup E] [Module K E]

/-- `(I - ρ s yᵀ) H (I - ρ y sᵀ) + ρ s sᵀ` applied to `v`, where `ρ = 1 / sᵀy`; a pair with `sᵀy = 0` is skipped. -/
def bfgsUpdate (vdot : E → E → K) (H : E → E) (p : E × E) : E → E :=
  if vdot p.1 p.2 = 0 then H
  else fun v =>
    let rho := 1 / vdot p.1 p.2
    let u := H (v - (rho * vdot p.1 v) • p.2)
    u - (rho * vdot p.2 u) • p.1 + (rho * vdot p.1 v) • p.1

/-- The inverse-Hessian approximation obtained from `gamma * I` by the pairs, given in chronological order. -/
def bfgsInverse (vdot : E → E → K) (gamma : K) (pairs : List (E × E)) : E → E :=
  pairs.foldl (bfgsUpdate vdot) (fun v => gamma • v)

/-- `H` is symmetric positive definite. -/
structure PosDef (vdot : E → E → K) (H : E → E) : Prop where
  symm : ∀ u v, vdot u (H v) = vdot (H u) v
  pos : ∀ v, v ≠ 0 → 0 < vdot v (H v)

end Jaxopt.QuasiNewton
