import Verif.BlockCD.Model
import Verif.Loss.Model

/-!
# Model of the regression objectives of `jaxopt/_src/objective.py`

Scores are real; binary labels are Booleans, multiclass labels are positions of the score vector.
-/

set_option autoImplicit false
set_option linter.unusedSectionVars false
set_option linter.unusedVariables false

namespace Jaxopt.BlockCD

open Jaxopt.Loss

variable {m n c : ℕ}

/-- The logistic function, `jax.nn.sigmoid`. -/
noncomputable def expit (x : ℝ) : ℝ := 1 / (1 + Real.exp (-x))

/-- `jax.nn.softmax`. -/
noncomputable def softmax (s : Fin c → ℝ) (k : Fin c) : ℝ := Real.exp (s k) / ∑ j, Real.exp (s j)

/-- `BinaryLogreg`, objective.py lines 264-302; `gradSubfun` is what `jax.grad(subfun)` computes. -/
noncomputable def binaryLogreg (X : Matrix (Fin m) (Fin n) ℝ) (y : Fin m → Bool) : Composite ℝ ℝ m n where
  A := X
  subfun := fun p => (∑ i, binaryLogisticLoss (y i) (p i)) / (m : ℝ)
  gradSubfun := fun p i => (1 / (m : ℝ)) * (if y i then -expit (-p i) else expit (p i))
  b := none
  lipschitz := fun j => columnSqNorms X j * (1 / 4)

/-- `MulticlassLogreg`, objective.py lines 133-170. -/
noncomputable def multiclassLogreg (X : Matrix (Fin m) (Fin n) ℝ) (y : Fin m → Fin c) : Composite ℝ (Fin c → ℝ) m n where
  A := X
  subfun := fun p => (∑ i, multiclassLogisticLoss (y i) (p i)) / (m : ℝ)
  gradSubfun := fun p i k => (1 / (m : ℝ)) * (softmax (p i) k - if k = y i then 1 else 0)
  b := none
  lipschitz := fun j => columnSqNorms X j * (1 / 2)

/-- `multiclass_logreg_with_intercept`, objective.py lines 177-202. -/
noncomputable def multiclassLogregWithIntercept (W : Fin n → Fin c → ℝ) (b : Fin c → ℝ) (X : Matrix (Fin m) (Fin n) ℝ) (y : Fin m → Fin c) : ℝ :=
  let yPred := fun i => matvec X W i + b
  (∑ i, multiclassLogisticLoss (y i) (yPred i)) / (m : ℝ)

/-- `jnp.sum(W ** 2)` of a matrix. -/
def sumSq (W : Fin n → Fin c → ℝ) : ℝ := ∑ j, ∑ k, W j k ^ 2

/-- `l2_multiclass_logreg`, objective.py lines 205-228. -/
noncomputable def l2MulticlassLogreg (W : Fin n → Fin c → ℝ) (l2reg : ℝ) (X : Matrix (Fin m) (Fin n) ℝ) (y : Fin m → Fin c) : ℝ :=
  let yPred := matvec X W
  (∑ i, multiclassLogisticLoss (y i) (yPred i)) / (m : ℝ) + 1 / 2 * l2reg * sumSq W

/-- `l2_multiclass_logreg_with_intercept`, objective.py lines 231-258. -/
noncomputable def l2MulticlassLogregWithIntercept (W : Fin n → Fin c → ℝ) (b : Fin c → ℝ) (l2reg : ℝ) (X : Matrix (Fin m) (Fin n) ℝ)
    (y : Fin m → Fin c) : ℝ :=
  let yPred := fun i => matvec X W i + b
  (∑ i, multiclassLogisticLoss (y i) (yPred i)) / (m : ℝ) + 1 / 2 * l2reg * sumSq W

/-- `ridge_regression`, objective.py lines 101-127, for 1-d parameters. -/
noncomputable def ridgeRegression (w : Fin n → ℝ) (l2reg : ℝ) (X : Matrix (Fin m) (Fin n) ℝ) (y : Fin m → ℝ) : ℝ :=
  let ls := (leastSquares (· * ·) 1 X y).call (· * ·) w
  let ridge := 1 / 2 * l2reg * ∑ j, w j ^ 2
  ls + ridge

end Jaxopt.BlockCD
