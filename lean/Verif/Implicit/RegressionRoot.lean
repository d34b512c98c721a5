import Verif.Implicit.ProxRoot
import Verif.BlockCD.Optimality
import Verif.BlockCD.Props
import Verif.BlockCD.Logreg
import Verif.QP.BoxCD

/-!
# Model: the optimality functions of `BlockCoordinateDescent` and `BoxCDQP` under `root_vjp` and `root_jvp`
-/

set_option autoImplicit false
set_option linter.unusedSectionVars false
set_option linter.unusedVariables false

namespace Jaxopt.Implicit

open Jaxopt.ProxGrad Jaxopt.BlockCD Jaxopt.QP Jaxopt.Prox Jaxopt.Proj

variable {m n : ℕ} {Θ : Type*}

/-- `objective.least_squares` (objective.py lines 59-78) with design matrix and targets depending on parameters. -/
noncomputable def lsFamily (X : Θ → Matrix (Fin m) (Fin n) ℝ) (y : Θ → Fin m → ℝ) : SmoothFamily n Θ :=
  ⟨fun x θ => (leastSquares (fun a b => a * b) 1 (X θ) (y θ)).call (fun a b => a * b) x, fun x θ =>
    (leastSquares (fun a b => a * b) 1 (X θ) (y θ)).gradAt x⟩

/-- `objective.binary_logreg` (objective.py lines 264-302) with a design matrix depending on parameters; the labels are fixed. -/
noncomputable def logregFamily (X : Θ → Matrix (Fin m) (Fin n) ℝ) (y : Fin m → Bool) : SmoothFamily n Θ :=
  ⟨fun x θ => (binaryLogreg (X θ) y).call (fun a b => a * b) x, fun x θ => (binaryLogreg (X θ) y).gradAt x⟩

/-- `block_prox=prox_lasso` on blocks with one entry and `hyperparams_prox = l`. -/
noncomputable def lassoBlockProx (l : ℝ) : ℝ → ℝ → ℝ := fun w s => proxLasso (fun _ : Unit => w) (fun _ => l) s ()

/-- `BlockCoordinateDescent(fun=least_squares, block_prox=prox_lasso)` at the parameters `θ`; the remaining options are those of `o`. -/
noncomputable def lassoBCD (o : BCD ℝ ℝ m n) (X : Θ → Matrix (Fin m) (Fin n) ℝ) (y : Θ → Fin m → ℝ) (l : Θ → ℝ) (θ : Θ) : BCD ℝ ℝ m n :=
  { o with fn := leastSquares (fun a b => a * b) 1 (X θ) (y θ), blockProx := lassoBlockProx (l θ) }

/-- `optimality_fun`, block_cd.py lines 174-210, as a function of the flattened solution and the parameters. -/
noncomputable def blockCDRoot (S : Θ → BCD ℝ ℝ m n) (s : EuclideanSpace ℝ (Fin n)) (θ : Θ) : EuclideanSpace ℝ (Fin n) :=
  WithLp.toLp 2 ((S θ).optimalityFun s.ofLp)

/-- `BoxCDQP` at the parameters `θ`; the remaining options are those of `o`. -/
noncomputable def boxCD (o : BoxCDQP ℝ n) (Q : Θ → Matrix (Fin n) (Fin n) ℝ) (c l u : Θ → Fin n → ℝ) (θ : Θ) : BoxCDQP ℝ n :=
  { o with Q := Q θ, c := c θ, l := l θ, u := u θ }

/-- `optimality_fun`, cd_qp.py lines 131-144, as a function of the flattened solution and the parameters. -/
noncomputable def boxCDRoot (S : Θ → BoxCDQP ℝ n) (s : EuclideanSpace ℝ (Fin n)) (θ : Θ) : EuclideanSpace ℝ (Fin n) :=
  WithLp.toLp 2 ((S θ).optimalityFun s.ofLp)

end Jaxopt.Implicit
