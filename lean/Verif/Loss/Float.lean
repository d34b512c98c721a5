import Verif.Loss.Model
import Verif.Proj.Float

/-!
# Model of `jaxopt/_src/loss.py` with rounded arithmetic

`rnd` is the rounding of one operation; overflow and underflow are not modelled.  Negation, absolute values, comparisons and maxima are
exact.  The order of the additions of a sum or of a dot product depends on the backend, so the value of the sum is an argument.
-/

set_option autoImplicit false
set_option linter.unusedSectionVars false
set_option linter.unusedVariables false

namespace Jaxopt.Loss

open Jaxopt.Proj

variable {K : Type*} [Field K] [LinearOrder K]

/-- The elementary functions of the backend. -/
structure Elem (K : Type*) where
  exp : K → K
  log : K → K
  log1p : K → K

/-- `huber_loss`, loss.py lines 42-45. -/
def huberLossR (rnd : K → K) (target pred delta : K) : K :=
  let absDiff := |rnd (target - pred)|
  if absDiff > delta then rnd (delta * rnd (absDiff - rnd (1 / 2 * delta))) else rnd (1 / 2 * rnd (absDiff * absDiff))

/-- `sparse_plus`, loss.py line 106. -/
def sparsePlusR (rnd : K → K) (x : K) : K :=
  if x ≤ -1 then 0 else if x ≥ 1 then x else rnd (rnd (rnd (x + 1) * rnd (x + 1)) / 4)

/-- `sparse_sigmoid`, loss.py line 132. -/
def sparseSigmoidR (rnd : K → K) (x : K) : K := rnd (1 / 2 * projectionHypercube (fun _ : Unit => rnd (x + 1)) 2 ())

/-- `binary_sparsemax_loss`, loss.py line 80. -/
def binarySparsemaxLossR (rnd : K → K) (label : Bool) (logit : K) : K := sparsePlusR rnd (flip label logit)

/-- `binary_hinge_loss`, loss.py lines 147-148 (`signed_label` is exactly 1 or -1). -/
def binaryHingeLossR (rnd : K → K) (label : Bool) (score : K) : K := max 0 (rnd (1 - rnd (score * signedLabel label)))

/-- `binary_perceptron_loss`, loss.py lines 163-164. -/
def binaryPerceptronLossR (rnd : K → K) (label : Bool) (score : K) : K := max 0 (rnd (-score * signedLabel label))

/-- `jax.nn.softplus`: `logaddexp(x, 0)`, computed as `max(x, 0) + log1p(exp(-|x - 0|))`. -/
def softplusR (f : Elem K) (rnd : K → K) (x : K) : K := rnd (max x 0 + f.log1p (f.exp (-|rnd (x - 0)|)))

/-- `binary_logistic_loss`, loss.py line 64. -/
def binaryLogisticLossR (f : Elem K) (rnd : K → K) (label : Bool) (logit : K) : K := softplusR f rnd (flip label logit)

/-- `(scores - scores[label]).at[label].set(0.0)`, loss.py lines 183 and 205. -/
def centeredR {n : ℕ} (rnd : K → K) (label : Fin n) (s : Fin n → K) : Fin n → K := Function.update (fun j => rnd (s j - s label)) label 0

/-- The terms of the sum of `jax.scipy.special.logsumexp`: `exp(a - max(a))`. -/
def expTerms {n : ℕ} (f : Elem K) (rnd : K → K) (a : Fin (n + 1) → K) : List K := List.ofFn fun j => f.exp (rnd (a j - vmax a))

/-- `jax.scipy.special.logsumexp`, with the value `d` of the sum of `expTerms`. -/
def logsumexpR {n : ℕ} (f : Elem K) (rnd : K → K) (a : Fin (n + 1) → K) (d : K) : K := rnd (f.log d + vmax a)

/-- `multiclass_logistic_loss`, loss.py lines 183-184. -/
def multiclassLogisticLossR {n : ℕ} (f : Elem K) (rnd : K → K) (label : Fin (n + 1)) (logits : Fin (n + 1) → K) (d : K) : K :=
  logsumexpR f rnd (centeredR rnd label logits) d

/-- The terms of a dot product. -/
def dotTerms {n : ℕ} (rnd : K → K) (a b : Fin n → K) : List K := List.ofFn fun j => rnd (a j * b j)

/-- `proba` of loss.py line 202, with the partial sums `c` of the projection. -/
def sparsemaxR {n : ℕ} (rnd : K → K) (scores : Fin n → K) (c : ℕ → K) : Fin n → K := projectionSimplexR rnd scores 1 c

/-- The second factor of the first dot product of loss.py line 206. -/
def sparsemaxScoresR {n : ℕ} (rnd : K → K) (label : Fin n) (scores : Fin n → K) (c : ℕ → K) : Fin n → K :=
  fun j => if sparsemaxR rnd scores c j ≠ 0 then centeredR rnd label scores j else 0

/-- `multiclass_sparsemax_loss`, loss.py lines 206-207, with the values `d1` and `d2` of the two dot products. -/
def multiclassSparsemaxLossR (rnd : K → K) (d1 d2 : K) : K := rnd (d1 + rnd (1 / 2 * rnd (1 - d2)))

/-- `multiclass_hinge_loss`, loss.py line 224, with the value `d` of the dot product. -/
def multiclassHingeLossR {n : ℕ} (rnd : K → K) (label : Fin (n + 1)) (scores : Fin (n + 1) → K) (d : K) : K :=
  rnd (vmax (fun j => rnd (rnd (scores j + 1) - oneHot label j)) - d)

/-- `multiclass_perceptron_loss`, loss.py line 242, with the value `d` of the dot product. -/
def multiclassPerceptronLossR {n : ℕ} (rnd : K → K) (scores : Fin (n + 1) → K) (d : K) : K := rnd (vmax scores - d)

end Jaxopt.Loss
