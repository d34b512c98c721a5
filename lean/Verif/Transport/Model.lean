import Verif.Proj.Model
import Mathlib.Analysis.SpecialFunctions.Log.Basic

/-!
# Model of the optimal transport projections, `jaxopt/_src/projection.py` lines 464-850

Matrices of shape `(size_a, size_b)` are functions of two indices, so the shape checks of lines 574-581 hold by typing.  `makeSolver` stands for
`make_solver(fun).run(init).params`: any function of the objective and the initial point.  Gradients are those `jax.grad` computes: in `_max_l2`
the maximiser `p` is treated as a constant (`stop_gradient`), so the gradient is `p`.
-/

set_option autoImplicit false
set_option linter.unusedSectionVars false
set_option linter.unusedVariables false

namespace Jaxopt.Transport

open Jaxopt.Proj

section
variable {K : Type*} [Field K] [LinearOrder K] {m n : ℕ}

/-- `jnp.dot` of two vectors. -/
def dot {k : ℕ} (u v : Fin k → K) : K := ∑ i, u i * v i

/-- `p` of `_max_l2`, projection.py lines 465-467. -/
def maxL2Arg (x : Fin m → K) (marginalB gamma : K) : Fin m → K := projectionSimplex (fun i => x i / (gamma * marginalB)) 1

/-- `_max_l2`, projection.py lines 464-471. -/
def maxL2 (x : Fin m → K) (marginalB gamma : K) : K :=
  let scale := gamma * marginalB
  let p := maxL2Arg x marginalB gamma
  dot x p - 1 / 2 * scale * dot p p

/-- `jax.grad(_max_l2)`, projection.py line 479 (`p` is under `stop_gradient`, line 470). -/
def maxL2Grad (x : Fin m → K) (marginalB gamma : K) : Fin m → K := maxL2Arg x marginalB gamma

/-- `_delta_l2`, projection.py lines 485-489. -/
def deltaL2 (x : Fin m → K) (gamma : K) : K := 1 / 2 / gamma * dot (fun i => relu (x i)) (fun i => relu (x i))

/-- `jax.grad(_delta_l2)`, projection.py line 498 (the derivative of `relu` is 0 or 1, times `relu`). -/
def deltaL2Grad (x : Fin m → K) (gamma : K) : Fin m → K := fun i => 1 / 2 / gamma * (2 * relu (x i))

/-- `_make_semi_dual`, projection.py lines 504-512; `max_vmap` acts on the columns of `X`. -/
def semiDual (maxFun : (Fin m → K) → K → K → K) (gamma : K) (cost : Fin m → Fin n → K) (a : Fin m → K) (b : Fin n → K)
    (alpha : Fin m → K) : K :=
  dot b (fun j => maxFun (fun i => alpha i - cost i j) (b j) gamma) - dot alpha a

/-- `_make_dual`, projection.py lines 515-539. -/
def dual (deltaFun : (Fin m → K) → K → K) (gamma : K) (cost : Fin m → Fin n → K) (a : Fin m → K) (b : Fin n → K)
    (ab : (Fin m → K) × (Fin n → K)) : K :=
  (∑ j, deltaFun (fun i => ab.1 i + ab.2 j - cost i j) gamma) - dot ab.1 a - dot ab.2 b

/-- The plan computed from `alpha`, projection.py lines 592-596. -/
def semiDualPlan (maxGrad : (Fin m → K) → K → K → (Fin m → K)) (gamma : K) (cost : Fin m → Fin n → K) (b : Fin n → K) (alpha : Fin m → K) :
    Fin m → Fin n → K :=
  fun i j => maxGrad (fun i => alpha i - cost i j) (b j) gamma i * b j

/-- The plan computed from `(alpha, beta)`, projection.py lines 649-657. -/
def dualPlan (deltaGrad : (Fin m → K) → K → (Fin m → K)) (gamma : K) (cost : Fin m → Fin n → K) (ab : (Fin m → K) × (Fin n → K)) :
    Fin m → Fin n → K :=
  fun i j => deltaGrad (fun i => ab.1 i + ab.2 j - cost i j) gamma i

/-- `_regularized_transport_semi_dual`, projection.py lines 542-596. -/
def regularizedTransportSemiDual (makeSolver : ((Fin m → K) → K) → (Fin m → K) → (Fin m → K)) (maxFun : (Fin m → K) → K → K → K)
    (maxGrad : (Fin m → K) → K → K → (Fin m → K)) (gamma : K) (cost : Fin m → Fin n → K) (a : Fin m → K) (b : Fin n → K) : Fin m → Fin n → K :=
  let alpha := makeSolver (semiDual maxFun gamma cost a b) (fun _ => 0)
  semiDualPlan maxGrad gamma cost b alpha

/-- `_regularized_transport_dual`, projection.py lines 599-657. -/
def regularizedTransportDual (makeSolver : ((Fin m → K) × (Fin n → K) → K) → (Fin m → K) × (Fin n → K) → (Fin m → K) × (Fin n → K))
    (deltaFun : (Fin m → K) → K → K) (deltaGrad : (Fin m → K) → K → (Fin m → K)) (gamma : K) (cost : Fin m → Fin n → K) (a : Fin m → K)
    (b : Fin n → K) : Fin m → Fin n → K :=
  let ab := makeSolver (dual deltaFun gamma cost a b) (fun _ => 0, fun _ => 0)
  dualPlan deltaGrad gamma cost ab

/-- `projection_transport` with `use_semi_dual=True`, projection.py lines 707-714 (`gamma = 1.0` is the default of line 548). -/
def projectionTransportSemiDual (makeSolver : ((Fin m → K) → K) → (Fin m → K) → (Fin m → K)) (sim : Fin m → Fin n → K) (a : Fin m → K)
    (b : Fin n → K) : Fin m → Fin n → K :=
  regularizedTransportSemiDual makeSolver maxL2 maxL2Grad 1 (fun i j => -sim i j) a b

/-- `projection_transport` with `use_semi_dual=False`, projection.py lines 715-725. -/
def projectionTransportDual (makeSolver : ((Fin m → K) × (Fin n → K) → K) → (Fin m → K) × (Fin n → K) → (Fin m → K) × (Fin n → K))
    (sim : Fin m → Fin n → K) (a : Fin m → K) (b : Fin n → K) : Fin m → Fin n → K :=
  regularizedTransportDual makeSolver deltaL2 deltaL2Grad 1 (fun i j => -sim i j) a b

/-- `projection_birkhoff` with `use_semi_dual=True`, projection.py lines 797-824. -/
def projectionBirkhoffSemiDual (makeSolver : ((Fin m → K) → K) → (Fin m → K) → (Fin m → K)) (sim : Fin m → Fin m → K) : Fin m → Fin m → K :=
  projectionTransportSemiDual makeSolver sim (fun _ => 1) (fun _ => 1)

/-- `projection_birkhoff` with `use_semi_dual=False`, projection.py lines 797-824. -/
def projectionBirkhoffDual (makeSolver : ((Fin m → K) × (Fin m → K) → K) → (Fin m → K) × (Fin m → K) → (Fin m → K) × (Fin m → K))
    (sim : Fin m → Fin m → K) : Fin m → Fin m → K :=
  projectionTransportDual makeSolver sim (fun _ => 1) (fun _ => 1)

end

/-! ## Entropic regularisation (real numbers) -/

section
variable {m n : ℕ}

/-- `_max_ent`, projection.py lines 474-475. -/
noncomputable def maxEnt (x : Fin m → ℝ) (marginalB gamma : ℝ) : ℝ :=
  gamma * Real.log (∑ i, Real.exp (x i / gamma)) - gamma * Real.log marginalB

/-- `jax.grad(_max_ent)`, projection.py line 482. -/
noncomputable def maxEntGrad (x : Fin m → ℝ) (marginalB gamma : ℝ) : Fin m → ℝ :=
  fun i => Real.exp (x i / gamma) / ∑ k, Real.exp (x k / gamma)

/-- `_delta_ent`, projection.py lines 492-495. -/
noncomputable def deltaEnt (x : Fin m → ℝ) (gamma : ℝ) : ℝ := gamma * ∑ i, Real.exp (x i / gamma - 1)

/-- `jax.grad(_delta_ent)`, projection.py line 501. -/
noncomputable def deltaEntGrad (x : Fin m → ℝ) (gamma : ℝ) : Fin m → ℝ := fun i => Real.exp (x i / gamma - 1)

/-- `kl_projection_transport` with `use_semi_dual=True`, projection.py lines 774-783. -/
noncomputable def klProjectionTransportSemiDual (makeSolver : ((Fin m → ℝ) → ℝ) → (Fin m → ℝ) → (Fin m → ℝ)) (sim : Fin m → Fin n → ℝ)
    (a : Fin m → ℝ) (b : Fin n → ℝ) : Fin m → Fin n → ℝ :=
  regularizedTransportSemiDual makeSolver maxEnt maxEntGrad 1 (fun i j => -sim i j) a b

/-- `kl_projection_transport` with `use_semi_dual=False`, projection.py lines 784-794. -/
noncomputable def klProjectionTransportDual
    (makeSolver : ((Fin m → ℝ) × (Fin n → ℝ) → ℝ) → (Fin m → ℝ) × (Fin n → ℝ) → (Fin m → ℝ) × (Fin n → ℝ)) (sim : Fin m → Fin n → ℝ)
    (a : Fin m → ℝ) (b : Fin n → ℝ) : Fin m → Fin n → ℝ :=
  regularizedTransportDual makeSolver deltaEnt deltaEntGrad 1 (fun i j => -sim i j) a b

end

end Jaxopt.Transport
