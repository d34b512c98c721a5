import Verif.Loss.Model
import Verif.Proj.Jvp

/-!
# Forward-mode differentiation of `jaxopt/_src/loss.py`

Each loss is evaluated on pairs of a primal value and a tangent with the differentiation rules of the JAX primitives.  The code is followed
operation by operation.
-/

set_option autoImplicit false
set_option linter.unusedSectionVars false
set_option linter.unusedVariables false

namespace Jaxopt.Loss

open Jaxopt.Proj

/-- A primal value and its tangent. -/
structure Dual (K : Type*) where
  val : K
  tan : K

namespace Dual

variable {K : Type*} [Field K] [LinearOrder K]

/-- A constant. -/
def const (c : K) : Dual K := ⟨c, 0⟩

def add (a b : Dual K) : Dual K := ⟨a.val + b.val, a.tan + b.tan⟩

def sub (a b : Dual K) : Dual K := ⟨a.val - b.val, a.tan - b.tan⟩

def neg (a : Dual K) : Dual K := ⟨-a.val, -a.tan⟩

def mul (a b : Dual K) : Dual K := ⟨a.val * b.val, a.tan * b.val + a.val * b.tan⟩

/-- `lax.abs`: the tangent is multiplied by the sign, which is zero at zero. -/
def abs (a : Dual K) : Dual K := ⟨|a.val|, a.tan * (if 0 < a.val then 1 else if a.val < 0 then -1 else 0)⟩

/-- `a ** 2` (`lax.integer_pow`). -/
def sq (a : Dual K) : Dual K := ⟨a.val ^ 2, a.tan * (2 * a.val)⟩

/-- `jnp.where`. -/
def where' (c : Prop) [Decidable c] (a b : Dual K) : Dual K := ⟨if c then a.val else b.val, if c then a.tan else b.tan⟩

/-- `lax.max`: ties share the tangent equally. -/
def maximum (a b : Dual K) : Dual K :=
  let z := max a.val b.val
  ⟨z, a.tan * (if a.val = z then (if b.val = z then 1 / 2 else 1) else 0) + b.tan * (if b.val = z then (if a.val = z then 1 / 2 else 1) else 0)⟩

/-- `jnp.max` of a vector: the tangent is the mean over the positions of the maximum. -/
def vmaximum {n : ℕ} (a : Fin (n + 1) → Dual K) : Dual K :=
  let z := vmax fun j => (a j).val
  let loc : Fin (n + 1) → K := fun j => if (a j).val = z then 1 else 0
  ⟨z, (∑ j, (a j).tan * loc j) / ∑ j, loc j⟩

/-- `jnp.dot`. -/
def dot {n : ℕ} (a b : Fin n → Dual K) : Dual K := ⟨∑ j, (a j).val * (b j).val, ∑ j, ((a j).tan * (b j).val + (a j).val * (b j).tan)⟩

end Dual

open Dual

section
variable {K : Type*} [Field K] [LinearOrder K]

/-- `huber_loss`, loss.py lines 42-45. -/
def huberD (target pred delta : Dual K) : Dual K :=
  let absDiff := abs (sub target pred)
  where' (absDiff.val > delta.val) (mul delta (sub absDiff (mul (const (1 / 2)) delta))) (mul (const (1 / 2)) (sq absDiff))

/-- `jnp.where(label, -logit, logit)`, loss.py lines 64 and 80. -/
def flipD (label : Bool) (logit : Dual K) : Dual K := where' (label = true) (neg logit) logit

/-- `sparse_plus`, loss.py line 106. -/
def sparsePlusD (x : Dual K) : Dual K :=
  where' (x.val ≤ -1) (const 0) (where' (x.val ≥ 1) x (mul (const (1 / 4)) (sq (add x (const 1)))))

/-- `binary_hinge_loss`, loss.py lines 147-148. -/
def binaryHingeD (label : Bool) (score : Dual K) : Dual K := maximum (const 0) (sub (const 1) (mul score (const (signedLabel label))))

/-- `binary_perceptron_loss`, loss.py lines 163-164. -/
def binaryPerceptronD (label : Bool) (score : Dual K) : Dual K := maximum (const 0) (mul (neg score) (const (signedLabel label)))

/-- `(scores - scores[label]).at[label].set(0.0)`, loss.py lines 183 and 205. -/
def centeredD {n : ℕ} (label : Fin n) (s : Fin n → Dual K) : Fin n → Dual K := Function.update (fun j => sub (s j) (s label)) label (const 0)

/-- `multiclass_hinge_loss`, loss.py lines 223-224. -/
def multiclassHingeD {n : ℕ} (label : Fin (n + 1)) (s : Fin (n + 1) → Dual K) : Dual K :=
  sub (vmaximum fun j => sub (add (s j) (const 1)) (const (oneHot label j))) (Dual.dot s fun j => const (oneHot label j))

/-- `multiclass_perceptron_loss`, loss.py lines 241-242. -/
def multiclassPerceptronD {n : ℕ} (label : Fin (n + 1)) (s : Fin (n + 1) → Dual K) : Dual K :=
  sub (vmaximum s) (Dual.dot s fun j => const (oneHot label j))

/-- `projection_simplex(scores)` with its custom rule. -/
def simplexD [IsStrictOrderedRing K] {n : ℕ} (s : Fin n → Dual K) : Fin n → Dual K := fun j =>
  let r := projectionSimplexJvp (fun i => (s i).val) 1 (fun i => (s i).tan) 0
  ⟨r.1 j, r.2 j⟩

/-- `multiclass_sparsemax_loss`, loss.py lines 201-207. -/
def multiclassSparsemaxD [IsStrictOrderedRing K] {n : ℕ} (label : Fin n) (s : Fin n → Dual K) : Dual K :=
  let proba := simplexD s
  let c := centeredD label s
  add (Dual.dot proba fun j => where' ((proba j).val ≠ 0) (c j) (const 0)) (mul (const (1 / 2)) (sub (const 1) (Dual.dot proba proba)))

end

/-- `jax.nn.softplus`: `logaddexp(x, 0)` with its custom rule `x_dot * exp(x - out)`. -/
noncomputable def softplusD (x : Dual ℝ) : Dual ℝ := ⟨softplus x.val, x.tan * Real.exp (x.val - softplus x.val)⟩

/-- `binary_logistic_loss`, loss.py line 64. -/
noncomputable def binaryLogisticD (label : Bool) (logit : Dual ℝ) : Dual ℝ := softplusD (flipD label logit)

/-- `jax.scipy.special.logsumexp`: `log(sum(exp(a - m))) + m` with `m = stop_gradient(max(a))`. -/
noncomputable def logsumexpD {n : ℕ} (a : Fin (n + 1) → Dual ℝ) : Dual ℝ :=
  let m := vmax fun j => (a j).val
  let e : Fin (n + 1) → Dual ℝ := fun j => ⟨Real.exp ((a j).val - m), (a j).tan * Real.exp ((a j).val - m)⟩
  ⟨Real.log (∑ j, (e j).val) + m, (∑ j, (e j).tan) / ∑ j, (e j).val⟩

/-- `multiclass_logistic_loss`, loss.py lines 183-184. -/
noncomputable def multiclassLogisticD {n : ℕ} (label : Fin (n + 1)) (s : Fin (n + 1) → Dual ℝ) : Dual ℝ := logsumexpD (centeredD label s)

end Jaxopt.Loss
