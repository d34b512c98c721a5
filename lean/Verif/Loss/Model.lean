import Verif.Proj.Model
import Mathlib.Analysis.SpecialFunctions.Log.Basic
import Mathlib.Data.Finset.Lattice.Fold

/-!
# Model of `jaxopt/_src/loss.py`

Piecewise polynomial losses are modelled over an arbitrary ordered field, the logistic losses over the reals.  Binary labels are
Booleans (0 and 1), multiclass labels are positions of the score vector.
-/

set_option autoImplicit false
set_option linter.unusedSectionVars false
set_option linter.unusedVariables false

namespace Jaxopt.Loss

open Jaxopt.Proj

variable {K : Type*} [Field K] [LinearOrder K]

/-- `huber_loss`, loss.py lines 29-45. -/
def huberLoss (target pred delta : K) : K :=
  let absDiff := |target - pred|
  if absDiff > delta then delta * (absDiff - 1 / 2 * delta) else 1 / 2 * absDiff ^ 2

/-- `jnp.where(label, -logit, logit)`, loss.py lines 64 and 80. -/
def flip (label : Bool) (logit : K) : K := if label then -logit else logit

/-- `sparse_plus`, loss.py lines 83-106. -/
def sparsePlus (x : K) : K := if x ≤ -1 then 0 else if x ≥ 1 then x else (x + 1) ^ 2 / 4

/-- `sparse_sigmoid`, loss.py lines 109-132; `projection_hypercube` of a scalar is clipping to `[0, 2]`. -/
def sparseSigmoid (x : K) : K := 1 / 2 * projectionHypercube (fun _ : Unit => x + 1) 2 ()

/-- `binary_sparsemax_loss`, loss.py lines 67-80. -/
def binarySparsemaxLoss (label : Bool) (logit : K) : K := sparsePlus (flip label logit)

/-- `2.0 * label - 1.0`, loss.py lines 147 and 163. -/
def signedLabel (label : Bool) : K := 2 * (if label then 1 else 0) - 1

/-- `binary_hinge_loss`, loss.py lines 135-148. -/
def binaryHingeLoss (label : Bool) (score : K) : K := max 0 (1 - score * signedLabel label)

/-- `binary_perceptron_loss`, loss.py lines 151-164. -/
def binaryPerceptronLoss (label : Bool) (score : K) : K := max 0 (-score * signedLabel label)

/-- `jnp.max` of a non-empty vector. -/
def vmax {n : ℕ} (s : Fin (n + 1) → K) : K := Finset.univ.sup' Finset.univ_nonempty s

/-- `jax.nn.one_hot`. -/
def oneHot {n : ℕ} (label : Fin n) : Fin n → K := fun j => if j = label then 1 else 0

/-- `jnp.dot` of vectors. -/
def dot {n : ℕ} (a b : Fin n → K) : K := ∑ i, a i * b i

/-- `(scores - scores[label]).at[label].set(0.0)`, loss.py lines 183 and 205. -/
def centered {n : ℕ} (label : Fin n) (s : Fin n → K) : Fin n → K := Function.update (fun j => s j - s label) label 0

/-- `multiclass_sparsemax_loss`, loss.py lines 187-207. -/
def multiclassSparsemaxLoss {n : ℕ} (label : Fin n) (scores : Fin n → K) : K :=
  let proba := projectionSimplex scores 1
  let s := centered label scores
  dot proba (fun j => if proba j ≠ 0 then s j else 0) + 1 / 2 * (1 - dot proba proba)

/-- `multiclass_hinge_loss`, loss.py lines 210-224. -/
def multiclassHingeLoss {n : ℕ} (label : Fin (n + 1)) (scores : Fin (n + 1) → K) : K :=
  vmax (fun j => scores j + 1 - oneHot label j) - dot scores (oneHot label)

/-- `multiclass_perceptron_loss`, loss.py lines 227-242. -/
def multiclassPerceptronLoss {n : ℕ} (label : Fin (n + 1)) (scores : Fin (n + 1) → K) : K :=
  vmax scores - dot scores (oneHot label)

/-- `jax.nn.softplus`: `logaddexp(x, 0)`. -/
noncomputable def softplus (x : ℝ) : ℝ := Real.log (Real.exp x + Real.exp 0)

/-- `binary_logistic_loss`, loss.py lines 50-64. -/
noncomputable def binaryLogisticLoss (label : Bool) (logit : ℝ) : ℝ := softplus (flip label logit)

/-- `jax.scipy.special.logsumexp`. -/
noncomputable def logsumexp {n : ℕ} (s : Fin n → ℝ) : ℝ := Real.log (∑ j, Real.exp (s j))

/-- `multiclass_logistic_loss`, loss.py lines 169-184. -/
noncomputable def multiclassLogisticLoss {n : ℕ} (label : Fin n) (logits : Fin n → ℝ) : ℝ := logsumexp (centered label logits)

end Jaxopt.Loss
