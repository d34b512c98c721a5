import Verif.Implicit.Root
import Verif.ProxGrad.Model
import Mathlib.Analysis.InnerProductSpace.PiL2

/-!
# Model: the optimality function of `ProximalGradient` and `ProjectedGradient` under `root_vjp` and `root_jvp`

The arguments of the objective (`args`) and the hyperparameters of the prox (`hyperparams_prox`) are functions of parameters `θ`; parameters are
flattened into one vector.
-/

set_option autoImplicit false
set_option linter.unusedSectionVars false
set_option linter.unusedVariables false

namespace Jaxopt.Implicit

open Jaxopt.ProxGrad Jaxopt.Prox Jaxopt.Proj

variable {n : ℕ} {Θ : Type*}

/-- An objective and its gradient as functions of the variable and of parameters. -/
structure SmoothFamily (n : ℕ) (Θ : Type*) where
  f : (Fin n → ℝ) → Θ → ℝ
  grad : (Fin n → ℝ) → Θ → Fin n → ℝ

/-- `ProximalGradient(fun, prox, ...)` at the parameters `θ`; the remaining options are those of `o`. -/
noncomputable def SmoothFamily.solver (D : SmoothFamily n Θ) (prox : (Fin n → ℝ) → Θ → ℝ → Fin n → ℝ) (o : PG ℝ (Fin n → ℝ)) (θ : Θ) :
    PG ℝ (Fin n → ℝ) :=
  { o with f := fun x => D.f x θ, grad := fun x => D.grad x θ, prox := fun x s => prox x θ s }

/-- `optimality_fun`, proximal_gradient.py lines 307-314, as a function of the flattened solution and the parameters. -/
noncomputable def SmoothFamily.proxRoot (D : SmoothFamily n Θ) (prox : (Fin n → ℝ) → Θ → ℝ → Fin n → ℝ) (o : PG ℝ (Fin n → ℝ))
    (s : EuclideanSpace ℝ (Fin n)) (θ : Θ) : EuclideanSpace ℝ (Fin n) :=
  WithLp.toLp 2 ((D.solver prox o θ).optimalityFun s.ofLp)

/-- `prox_lasso` with `hyperparams_prox = l(θ)`. -/
noncomputable def lassoProx (l : Θ → Fin n → ℝ) : (Fin n → ℝ) → Θ → ℝ → Fin n → ℝ := fun x θ s => proxLasso x (l θ) s

/-- `prox_elastic_net` with `hyperparams_prox = (lam(θ), gam(θ))`. -/
noncomputable def elasticNetProx (lam gam : Θ → Fin n → ℝ) : (Fin n → ℝ) → Θ → ℝ → Fin n → ℝ := fun x θ s => proxElasticNet x (lam θ) (gam θ) s

/-- `make_prox_from_projection(projection_box)` (projected_gradient.py line 146) with `hyperparams_proj = (lower(θ), upper(θ))`. -/
noncomputable def boxProx (lower upper : Θ → Fin n → ℝ) : (Fin n → ℝ) → Θ → ℝ → Fin n → ℝ := fun x θ s =>
  makeProxFromProjection (fun x (h : (Fin n → ℝ) × (Fin n → ℝ)) => projectionBox x h.1 h.2) x (lower θ, upper θ) s

end Jaxopt.Implicit
