import Verif.Implicit.ProxRoot
import Verif.Mirror.Model

/-!
# The optimality functions on the simplex and with a group penalty, as functions of the solution and the parameters

`proximal_gradient.py` lines 302-314 with `projection_simplex` or `prox_group_lasso`, and `mirror_descent.py` lines 202-209 with the Kullback-Leibler projection.
-/

set_option autoImplicit false
set_option linter.unusedSectionVars false
set_option linter.unusedVariables false

namespace Jaxopt.Implicit

open Jaxopt.ProxGrad Jaxopt.Prox Jaxopt.Proj Jaxopt.Mirror

variable {n : ℕ} {Θ : Type*}

/-- `make_prox_from_projection(projection_simplex)` (projected_gradient.py line 146) with `hyperparams_proj = value(θ)`. -/
noncomputable def simplexProx (value : Θ → ℝ) : (Fin n → ℝ) → Θ → ℝ → Fin n → ℝ := fun x θ s =>
  makeProxFromProjection (fun x (v : ℝ) => projectionSimplex x v) x (value θ) s

/-- `prox_group_lasso` with `hyperparams_prox = l(θ)`; the array is one group. -/
noncomputable def groupLassoProx (l : Θ → ℝ) : (Fin n → ℝ) → Θ → ℝ → Fin n → ℝ := fun x θ s =>
  (proxGroupLasso (WithLp.toLp 2 x : EuclideanSpace ℝ (Fin n)) (l θ) s).ofLp

/-- `MirrorDescent(fun, projection_grad, ...)` at the parameters `θ`, with `projection_grad` made by `make_projection_grad` from the Kullback-Leibler projection of
mass `value(θ)` and `jnp.log`; the remaining options are those of `o`. -/
noncomputable def SmoothFamily.mirror (D : SmoothFamily (n + 1) Θ) (value : Θ → ℝ) (o : MD ℝ (Fin (n + 1) → ℝ)) (θ : Θ) : MD ℝ (Fin (n + 1) → ℝ) :=
  { o with grad := fun x => D.grad x θ, projectionGrad := klStep (value θ) }

/-- `optimality_fun`, mirror_descent.py lines 206-209, as a function of the flattened solution and the parameters. -/
noncomputable def SmoothFamily.mirrorRoot (D : SmoothFamily (n + 1) Θ) (value : Θ → ℝ) (o : MD ℝ (Fin (n + 1) → ℝ)) (s : EuclideanSpace ℝ (Fin (n + 1))) (θ : Θ) :
    EuclideanSpace ℝ (Fin (n + 1)) :=
  WithLp.toLp 2 ((D.mirror value o θ).optimalityFun s.ofLp)

end Jaxopt.Implicit
