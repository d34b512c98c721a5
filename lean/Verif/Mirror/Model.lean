import Verif.Base.RunS
import Verif.Num.Ext
import Mathlib.Algebra.Module.Basic
import Mathlib.Algebra.Module.Pi
import Mathlib.Analysis.SpecialFunctions.Log.Basic
import Mathlib.Data.Finset.Lattice.Fold
import Mathlib.Tactic.TypeStar

/-!
# Model of `jaxopt/_src/mirror_descent.py`

The hyperparameters of the projection and the arguments of `fun` are fixed during a run, so the projection and the gradient are functions of
the iterate.  `norm` stands for `tree_l2_norm`.  `verbose` and `aux` are left out.
-/

set_option autoImplicit false
set_option linter.unusedSectionVars false
set_option linter.unusedVariables false

namespace Jaxopt.Mirror

open Jaxopt.Base

variable {K E : Type*} [Field K] [LinearOrder K] [AddCommGroup E] [Module K E]

/-- `MirrorDescent`, mirror_descent.py lines 82-93; `stepsize` is the schedule `_stepsize`, lines 150-153 (constant for a number). -/
structure MD (K E : Type*) where
  grad : E → E
  projectionGrad : E → E → K → E
  stepsize : ℕ → K
  norm : E → K
  maxiter : ℕ
  tol : K
  unroll : Bool
  jit : Bool

/-- `MirrorDescentState`, mirror_descent.py lines 32-52. -/
structure MDState (K : Type*) where
  iterNum : ℕ
  error : Ext K
  numFunEval : ℕ
  numGradEval : ℕ
  numProjEval : ℕ

/-- `make_projection_grad`, mirror_descent.py lines 95-115. -/
def makeProjectionGrad (projection mappingFun : E → E) (x g : E) (stepsize : K) : E :=
  projection (mappingFun x + (-stepsize) • g)

namespace MD

/-- `init_state` without auxiliary output, mirror_descent.py lines 117-143. -/
def initState (S : MD K E) (x0 : E) : MDState K := ⟨0, .pinf, 0, 0, 0⟩

/-- `_error`, mirror_descent.py lines 145-148. -/
def error (S : MD K E) (x next : E) (stepsize : K) : K := S.norm (next - x) / stepsize

/-- `_update`, mirror_descent.py lines 155-174. -/
def update (S : MD K E) (p : E × MDState K) : E × MDState K :=
  let stepsize := S.stepsize p.2.iterNum
  let g := S.grad p.1
  let next := S.projectionGrad p.1 g stepsize
  (next, ⟨p.2.iterNum + 1, .fin (S.error p.1 next stepsize), p.2.numFunEval + 1, p.2.numGradEval + 1, p.2.numProjEval + 1⟩)

/-- `_cond_fun`, base.py lines 264-266. -/
def cont (S : MD K E) (p : E × MDState K) : Bool := Ext.gt p.2.error (.fin S.tol)

/-- `run`, base.py lines 296-332. -/
def run (S : MD K E) (x0 : E) : Except String (E × MDState K) :=
  runS S.initState S.update S.cont S.maxiter S.unroll S.jit x0

/-- `_fixed_point_fun`, mirror_descent.py lines 202-204. -/
def fixedPointFun (S : MD K E) (sol : E) : E := S.projectionGrad sol (S.grad sol) 1

/-- `optimality_fun`, mirror_descent.py lines 206-209. -/
def optimalityFun (S : MD K E) (sol : E) : E := S.fixedPointFun sol - sol

end MD

/-! ## The Kullback-Leibler geometry -/

/-- `jax.nn.softmax`: exponentials after subtracting the maximum, normalised. -/
noncomputable def softmax {n : ℕ} (u : Fin (n + 1) → ℝ) : Fin (n + 1) → ℝ :=
  let m := Finset.univ.sup' Finset.univ_nonempty u
  fun i => Real.exp (u i - m) / ∑ j, Real.exp (u j - m)

/-- The KL projection onto the simplex of mass `value` (docs/constrained.rst; tests/common_test.py lines 218-220 for `value = 1`). -/
noncomputable def klProjectionSimplex {n : ℕ} (value : ℝ) (u : Fin (n + 1) → ℝ) : Fin (n + 1) → ℝ := fun i => value * softmax u i

/-- The mirror map of the negative entropy, `jnp.log` elementwise. -/
noncomputable def logMap {n : ℕ} (x : Fin n → ℝ) : Fin n → ℝ := fun i => Real.log (x i)

/-- The KL mirror step. -/
noncomputable def klStep {n : ℕ} (value : ℝ) : (Fin (n + 1) → ℝ) → (Fin (n + 1) → ℝ) → ℝ → (Fin (n + 1) → ℝ) :=
  makeProjectionGrad (klProjectionSimplex value) logMap

end Jaxopt.Mirror
