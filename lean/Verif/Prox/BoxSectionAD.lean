import Verif.Prox.Autodiff

/-!
# Differentiation of `projection_box_section`

The dual variable is the result of `Bisection.run` with implicit differentiation (`custom_root` of `_optimality_fun_proj_box_sec`); the last line of
the function is differentiated with the rules of the primitives.
-/

set_option autoImplicit false
set_option linter.unusedSectionVars false
set_option linter.unusedVariables false

namespace Jaxopt.ProxAD

open Jaxopt.Proj Jaxopt.Loss Jaxopt.Loss.Dual

variable {K : Type*} [Field K] [LinearOrder K] {n : ℕ}

/-- `_optimality_fun_proj_box_sec`, projection.py lines 412-414. -/
def boxSecFunD (tau : Dual K) (x alpha beta w : Fin n → Dual K) (c : Dual K) : Dual K :=
  sub (Dual.dot w fun i => Dual.clip (add (mul (w i) tau) (x i)) (alpha i) (beta i)) c

/-- The tangent of the dual variable, `custom_root`: `- (d fun / d tau)^-1 (d fun / d args) args_dot`.  The scalar system is solved by `solve_normal_cg`
started at zero, which returns zero if the coefficient is zero. -/
def boxSecTauDot (tau : K) (x alpha beta w : Fin n → Dual K) (c : Dual K) : K :=
  let a := (boxSecFunD ⟨tau, 1⟩ (fun i => const (x i).val) (fun i => const (alpha i).val) (fun i => const (beta i).val) (fun i => const (w i).val)
    (const c.val)).tan
  let b := (boxSecFunD ⟨tau, 0⟩ x alpha beta w c).tan
  if a = 0 then 0 else -b / a

/-- `projection_box_section`, projection.py line 461, if the bisection returns `tau`. -/
def boxSectionD (tau : K) (x alpha beta w : Fin n → Dual K) (c : Dual K) (i : Fin n) : Dual K :=
  Dual.clip (add (mul (w i) ⟨tau, boxSecTauDot tau x alpha beta w c⟩) (x i)) (alpha i) (beta i)

end Jaxopt.ProxAD
