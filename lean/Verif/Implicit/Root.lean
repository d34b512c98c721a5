import Mathlib.Analysis.Calculus.FDeriv.Comp
import Mathlib.Analysis.Calculus.FDeriv.Prod
import Mathlib.Analysis.Calculus.FDeriv.Pi
import Mathlib.Analysis.Calculus.FDeriv.Add
import Mathlib.Analysis.InnerProductSpace.Adjoint

/-!
# Model of `root_vjp`, `root_jvp` and `custom_fixed_point` (`jaxopt/_src/implicit_diff.py` lines 33-121 and 292-327)

Pytrees are vectors of real Hilbert spaces, the tuple `args` a family `∀ i : ι, P i`.  `jax.jvp` is the Fréchet derivative and
`jax.vjp` its adjoint (Riesz representation of cotangents); this is the specification of automatic differentiation in the trusted
base.  Floats are exact reals.
-/

set_option autoImplicit false
set_option linter.unusedSectionVars false
set_option linter.unusedVariables false

namespace Jaxopt.Implicit

open ContinuousLinearMap

variable {ι : Type*} [Fintype ι] [DecidableEq ι]
variable {E : Type*} [NormedAddCommGroup E] [InnerProductSpace ℝ E] [CompleteSpace E]
variable {P : ι → Type*} [∀ i, NormedAddCommGroup (P i)] [∀ i, InnerProductSpace ℝ (P i)] [∀ i, CompleteSpace (P i)]

/-- `jax.jvp(fun, (x,), (t,))[1]`. -/
noncomputable def jvp {X Y : Type*} [NormedAddCommGroup X] [NormedSpace ℝ X] [NormedAddCommGroup Y] [NormedSpace ℝ Y] (f : X → Y)
    (x t : X) : Y := fderiv ℝ f x t

/-- `jax.vjp(fun, x)[1](u)` for one argument. -/
noncomputable def vjp {X Y : Type*} [NormedAddCommGroup X] [InnerProductSpace ℝ X] [CompleteSpace X] [NormedAddCommGroup Y]
    [InnerProductSpace ℝ Y] [CompleteSpace Y] (f : X → Y) (x : X) (u : Y) : X := adjoint (fderiv ℝ f x) u

/-- `jax.vjp(fun, *args)[1](u)`: one cotangent for each argument. -/
noncomputable def vjpArgs (f : (∀ i, P i) → E) (θ : ∀ i, P i) (u : E) : ∀ i, P i :=
  fun i => vjp (fun t => f (Function.update θ i t)) (θ i) u

/-- `root_vjp`, lines 33-77. -/
noncomputable def rootVjp (F : E → (∀ i, P i) → E) (sol : E) (args : ∀ i, P i) (cotangent : E) (solve : (E → E) → E → E) : ∀ i, P i :=
  let funSol := fun s => F s args
  let matvec := fun u => vjp funSol sol u
  let v := (-1 : ℝ) • cotangent
  let u := solve matvec v
  let funArgs := fun a => F sol a
  vjpArgs funArgs args u

/-- `_jvp_sol`, lines 80-84. -/
noncomputable def jvpSol (F : E → (∀ i, P i) → E) (sol : E) (args : ∀ i, P i) (tangent : E) : E := jvp (fun x => F x args) sol tangent

/-- `_jvp_args`, lines 87-91. -/
noncomputable def jvpArgs (F : E → (∀ i, P i) → E) (sol : E) (args tangents : ∀ i, P i) : E := jvp (fun y => F sol y) args tangents

/-- `root_jvp`, lines 94-121, for tuples of the same length. -/
noncomputable def rootJvp (F : E → (∀ i, P i) → E) (sol : E) (args tangents : ∀ i, P i) (solve : (E → E) → E → E) : E :=
  let matvec := fun u => jvpSol F sol args u
  let v := (-1 : ℝ) • tangents
  let Jv := jvpArgs F sol args v
  solve matvec Jv

/-- `optimality_fun` of `custom_fixed_point`, lines 319-320. -/
def fixedPointOptimality (T : E → (∀ i, P i) → E) : E → (∀ i, P i) → E := fun params args => T params args - params

end Jaxopt.Implicit
