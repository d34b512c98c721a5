import Verif.Transport.Model
import Verif.Prox.Autodiff

/-!
# Differentiation of the optimal transport projections

The optimality functions and the plans of `jaxopt/_src/projection.py` lines 464-657, evaluated on pairs of a primal value and a tangent.  The potentials are the
result of `LBFGS.run` with implicit differentiation: their tangents solve the linear system that says that the tangent of the gradient of the objective
is zero.
-/

set_option autoImplicit false
set_option linter.unusedSectionVars false
set_option linter.unusedVariables false

namespace Jaxopt.Transport

open Jaxopt.Proj Jaxopt.Loss Jaxopt.Loss.Dual

section
variable {K : Type*} [Field K] [LinearOrder K] {m n : ℕ}

/-- `jnp.sum`. -/
def sumD {k : ℕ} (f : Fin k → Dual K) : Dual K := ⟨∑ i, (f i).val, ∑ i, (f i).tan⟩

/-- `jax.lax.stop_gradient`. -/
def stopGradient (a : Dual K) : Dual K := const a.val

/-- `p` of `_max_l2` before `stop_gradient`, projection.py lines 465-467.  The tangent `t` of the projection is not used. -/
def maxL2ArgD (t : Fin m → K) (x : Fin m → Dual K) (marginalB : Dual K) (gamma : K) (i : Fin m) : Dual K :=
  ⟨maxL2Arg (fun k => (x k).val) marginalB.val gamma i, t i⟩

/-- `jax.grad(_max_l2)`, projection.py lines 464-471 and 479: `_max_l2` is `dot(x, p) - 0.5 * scale * dot(p, p)` with `p` under `stop_gradient`, so its
gradient is `p` after `stop_gradient`. -/
def maxL2GradD (t : Fin m → K) (x : Fin m → Dual K) (marginalB : Dual K) (gamma : K) (i : Fin m) : Dual K :=
  stopGradient (maxL2ArgD t x marginalB gamma i)

/-- `jax.grad(_delta_l2)`, projection.py lines 485-489 and 498. -/
def deltaL2GradD (x : Fin m → Dual K) (gamma : K) (i : Fin m) : Dual K := mul (const (1 / 2 / gamma)) (mul (const 2) (Dual.relu (x i)))

/-- The gradient of the semi-dual objective in `alpha`, projection.py lines 504-512 (`LBFGS.optimality_fun`). -/
def semiDualGradD (maxGrad : (Fin m → Dual K) → Dual K → K → Fin m → Dual K) (gamma : K) (cost : Fin m → Fin n → Dual K) (a : Fin m → Dual K)
    (b : Fin n → Dual K) (alpha : Fin m → Dual K) (i : Fin m) : Dual K :=
  sub (sumD fun j => mul (b j) (maxGrad (fun i => sub (alpha i) (cost i j)) (b j) gamma i)) (a i)

/-- The plan computed from `alpha`, projection.py lines 592-596. -/
def semiDualPlanD (maxGrad : (Fin m → Dual K) → Dual K → K → Fin m → Dual K) (gamma : K) (cost : Fin m → Fin n → Dual K) (b : Fin n → Dual K)
    (alpha : Fin m → Dual K) (i : Fin m) (j : Fin n) : Dual K :=
  mul (maxGrad (fun i => sub (alpha i) (cost i j)) (b j) gamma i) (b j)

/-- The plan computed from `(alpha, beta)`, projection.py lines 649-657. -/
def dualPlanD (deltaGrad : (Fin m → Dual K) → K → Fin m → Dual K) (gamma : K) (cost : Fin m → Fin n → Dual K) (alpha : Fin m → Dual K)
    (beta : Fin n → Dual K) (i : Fin m) (j : Fin n) : Dual K :=
  deltaGrad (fun i => sub (add (alpha i) (beta j)) (cost i j)) gamma i

/-- The gradient of the dual objective in `alpha`, projection.py lines 515-539. -/
def dualGradAD (deltaGrad : (Fin m → Dual K) → K → Fin m → Dual K) (gamma : K) (cost : Fin m → Fin n → Dual K) (a : Fin m → Dual K)
    (alpha : Fin m → Dual K) (beta : Fin n → Dual K) (i : Fin m) : Dual K :=
  sub (sumD fun j => dualPlanD deltaGrad gamma cost alpha beta i j) (a i)

/-- The gradient of the dual objective in `beta`, projection.py lines 515-539. -/
def dualGradBD (deltaGrad : (Fin m → Dual K) → K → Fin m → Dual K) (gamma : K) (cost : Fin m → Fin n → Dual K) (b : Fin n → Dual K)
    (alpha : Fin m → Dual K) (beta : Fin n → Dual K) (j : Fin n) : Dual K :=
  sub (sumD fun i => dualPlanD deltaGrad gamma cost alpha beta i j) (b j)

end

section
variable {m n : ℕ}

/-- `jnp.exp`. -/
noncomputable def expD (a : Dual ℝ) : Dual ℝ := ⟨Real.exp a.val, Real.exp a.val * a.tan⟩

/-- `jax.grad(_max_ent)`, projection.py lines 474-475 and 482. -/
noncomputable def maxEntGradD (x : Fin m → Dual ℝ) (marginalB : Dual ℝ) (gamma : ℝ) (i : Fin m) : Dual ℝ :=
  div (expD (div (x i) (const gamma))) (sumD fun k => expD (div (x k) (const gamma)))

/-- `jax.grad(_delta_ent)`, projection.py lines 492-495 and 501. -/
noncomputable def deltaEntGradD (x : Fin m → Dual ℝ) (gamma : ℝ) (i : Fin m) : Dual ℝ := expD (sub (div (x i) (const gamma)) (const 1))

end

end Jaxopt.Transport
