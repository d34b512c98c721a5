import Verif.Loss.Autodiff
import Verif.Prox.Model

/-!
# Forward-mode differentiation of the coordinate-wise proximal operators and of the projections

`jaxopt/_src/prox.py` and `jaxopt/_src/projection.py`, evaluated on pairs of a primal value and a tangent with the rules of the JAX primitives, operation
by operation.  Every function returns one coordinate of the output.
-/

set_option autoImplicit false
set_option linter.unusedSectionVars false
set_option linter.unusedVariables false

namespace Jaxopt.Loss.Dual

open Jaxopt.Proj

variable {K : Type*} [Field K] [LinearOrder K]

/-- `lax.sign`: the tangent is zero. -/
def sign (a : Dual K) : Dual K := ⟨sgn a.val, 0⟩

/-- `jax.nn.relu` with its custom rule: the tangent where the argument is positive, else zero. -/
def relu (a : Dual K) : Dual K := ⟨Proj.relu a.val, if a.val > 0 then a.tan else 0⟩

/-- `lax.min`: ties share the tangent equally. -/
def minimum (a b : Dual K) : Dual K :=
  let z := min a.val b.val
  ⟨z, a.tan * (if a.val = z then (if b.val = z then 1 / 2 else 1) else 0) + b.tan * (if b.val = z then (if a.val = z then 1 / 2 else 1) else 0)⟩

/-- `lax.div`. -/
def div (a b : Dual K) : Dual K := ⟨a.val / b.val, a.tan / b.val + -a.val / b.val ^ 2 * b.tan⟩

/-- `jnp.clip`: `minimum(maximum(x, lower), upper)`. -/
def clip (x lower upper : Dual K) : Dual K := minimum (maximum x lower) upper

end Jaxopt.Loss.Dual

namespace Jaxopt.ProxAD

open Jaxopt.Proj Jaxopt.Loss Jaxopt.Loss.Dual

variable {K : Type*} [Field K] [LinearOrder K]

/-- `prox_lasso`, prox.py line 76. -/
def lassoD (u v scaling : Dual K) : Dual K := mul (sign u) (Dual.relu (sub (Dual.abs u) (mul v scaling)))

/-- `prox_non_negative_lasso`, prox.py lines 100-101. -/
def nonNegativeLassoD (u l1reg scaling : Dual K) : Dual K := Dual.relu (sub u (mul l1reg scaling))

/-- `prox_elastic_net`, prox.py lines 133-136. -/
def elasticNetD (u lambd gamma scaling : Dual K) : Dual K :=
  div (mul (sign u) (Dual.relu (sub (Dual.abs u) (mul scaling lambd)))) (add (const 1) (mul (mul scaling lambd) gamma))

/-- `prox_ridge`, prox.py lines 190-191. -/
def ridgeD (u l2reg scaling : Dual K) : Dual K := mul (div (const 1) (add (const 1) (mul scaling l2reg))) u

/-- `prox_non_negative_ridge`, prox.py lines 215-216. -/
def nonNegativeRidgeD (u l2reg scaling : Dual K) : Dual K := Dual.relu (mul (div (const 1) (add (const 1) (mul l2reg scaling))) u)

/-- `projection_non_negative`, projection.py line 48. -/
def nonNegativeD (u : Dual K) : Dual K := Dual.relu u

/-- `projection_box`, projection.py lines 71-72. -/
def boxD (u lower upper : Dual K) : Dual K := Dual.clip u lower upper

/-- `projection_hypercube`, projection.py line 92. -/
def hypercubeD (u unit : Dual K) : Dual K := boxD u (const 0) unit

/-- `projection_linf_ball`, projection.py line 307. -/
def linfBallD (u maxValue : Dual K) : Dual K := boxD u (neg maxValue) maxValue

/-- `projection_hyperplane`, projection.py lines 326-328. -/
def hyperplaneD {n : ℕ} (x a : Fin n → Dual K) (b : Dual K) (i : Fin n) : Dual K :=
  let scale := div (sub (Dual.dot a x) b) (Dual.dot a a)
  add (x i) (mul (neg scale) (a i))

/-- `projection_halfspace`, projection.py lines 347-349. -/
def halfspaceD {n : ℕ} (x a : Fin n → Dual K) (b : Dual K) (i : Fin n) : Dual K :=
  let scale := div (Dual.relu (sub (Dual.dot a x) b)) (Dual.dot a a)
  add (x i) (mul (neg scale) (a i))

/-- `projection_l1_sphere`, projection.py line 225. -/
def l1SphereD [IsStrictOrderedRing K] {n : ℕ} (x : Fin n → Dual K) (value : Dual K) (i : Fin n) : Dual K :=
  let r := projectionSimplexJvp (fun j => (Dual.abs (x j)).val) value.val (fun j => (Dual.abs (x j)).tan) value.tan
  mul (sign (x i)) ⟨r.1 i, r.2 i⟩

/-- `projection_l1_ball`, projection.py lines 243-247. -/
def l1BallD [IsStrictOrderedRing K] {n : ℕ} (x : Fin n → Dual K) (maxValue : Dual K) (i : Fin n) : Dual K :=
  if ∑ j, (Dual.abs (x j)).val ≤ maxValue.val then x i else l1SphereD x maxValue i

end Jaxopt.ProxAD
