import Verif.QP.BoxCD
import Verif.Base.RunS
import Verif.Num.Ext
import Mathlib.Data.Matrix.Mul
import Mathlib.Algebra.Module.Pi

/-!
# Model of `jaxopt/_src/block_cd.py` and of the composite linear functions of `jaxopt/_src/objective.py`

The parameters are an array with `n` rows; a row (block) lives in a module `W` (`W = K` for 1-d parameters, `W = Fin p → K` for 2-d
parameters), so both branches of `LinearOperator.update_matvec` are instances of `updateMatvec`.  The evaluation counters and
`verbose` are left out.
-/

set_option autoImplicit false
set_option linter.unusedSectionVars false
set_option linter.unusedVariables false

namespace Jaxopt.BlockCD

open Jaxopt.Base Jaxopt.QP

variable {K W : Type*} [Field K] [LinearOrder K] [AddCommGroup W] [Module K W] {m n : ℕ}

/-- `LinearOperator.matvec`, base.py lines 423-425. -/
def matvec (A : Matrix (Fin m) (Fin n) K) (x : Fin n → W) : Fin m → W := fun i => ∑ j, A i j • x j

/-- `LinearOperator.rmatvec_element`, base.py lines 435-437. -/
def rmatvecElement (A : Matrix (Fin m) (Fin n) K) (y : Fin m → W) (j : Fin n) : W := ∑ i, A i j • y i

/-- `LinearOperator.update_matvec`, base.py lines 439-444. -/
def updateMatvec (A : Matrix (Fin m) (Fin n) K) (Ax : Fin m → W) (delta : W) (j : Fin n) : Fin m → W := fun i => Ax i + A i j • delta

/-- `LinearOperator.column_l2_norms(squared=True)`, base.py lines 457-461. -/
def columnSqNorms (A : Matrix (Fin m) (Fin n) K) (j : Fin n) : K := ∑ i, A i j * A i j

/-- A `CompositeLinearFunction` (objective.py lines 26-56) at fixed data: the matrix of `make_linop`, `subfun`, its gradient
`jax.grad(subfun)`, `b` and `columnwise_lipschitz_const`. -/
structure Composite (K W : Type*) (m n : ℕ) where
  A : Matrix (Fin m) (Fin n) K
  subfun : (Fin m → W) → K
  gradSubfun : (Fin m → W) → (Fin m → W)
  b : Option (Fin n → W)
  lipschitz : Fin n → K

/-- `CompositeLinearFunction.__call__`, lines 49-56. -/
def Composite.call (F : Composite K W m n) (vdot : W → W → K) (x : Fin n → W) : K :=
  let ret := F.subfun (matvec F.A x)
  match F.b with
  | some b => ret + ∑ j, vdot (x j) (b j)
  | none => ret

/-- `LeastSquares`, lines 59-78: `subfun(p) = 0.5 * mean((p - y)**2)`; `dim` is the number of entries of a block. -/
def leastSquares (vdot : W → W → K) (dim : ℕ) (X : Matrix (Fin m) (Fin n) K) (y : Fin m → W) : Composite K W m n where
  A := X
  subfun := fun p => 1 / 2 * ((∑ i, vdot (p i - y i) (p i - y i)) / ((m * dim : ℕ) : K))
  gradSubfun := fun p i => (1 / ((m * dim : ℕ) : K)) • (p i - y i)
  b := none
  lipschitz := fun j => columnSqNorms X j * 1

/-- `MulticlassLinearSvmDual`, lines 309-336; `X` has `N` samples and `d` features, `Y` has `N` rows. -/
def svmDual {N d : ℕ} (vdot : W → W → K) (ones : W) (l2reg : K) (X : Matrix (Fin N) (Fin d) K) (Y : Fin N → W) :
    Composite K W d N where
  A := X.transpose
  subfun := fun Xbeta =>
    let XY := matvec X.transpose Y
    let V := fun i => XY i - Xbeta i
    (1 / 2) / l2reg * ∑ i, vdot (V i) (V i)
  gradSubfun := fun Xbeta i => (1 / l2reg) • (Xbeta i - matvec X.transpose Y i)
  b := some fun i => Y i - ones
  lipschitz := columnSqNorms X.transpose

/-- Attributes of `BlockCoordinateDescent`, lines 73-81, the hyperparameters being fixed; `vdot` is the sum of products of the entries
of two blocks, `sqrt` the square root of line 153. -/
structure BCD (K W : Type*) (m n : ℕ) where
  fn : Composite K W m n
  blockProx : W → K → W
  vdot : W → W → K
  sqrt : K → K
  tol : K
  maxiter : ℕ
  unroll : Bool
  jit : Bool

/-- `BlockCDState`, lines 34-43. -/
structure BCDState (K W : Type*) (m : ℕ) where
  iterNum : ℕ
  error : Ext K
  predictions : Fin m → W
  subfunG : Fin m → W

/-- The loop tuple `(x, subfun_g, predictions, sqerror_sum)` of line 136. -/
structure LoopTup (K W : Type*) (m n : ℕ) where
  x : Fin n → W
  subfunG : Fin m → W
  predictions : Fin m → W
  sqerror : K

namespace BCD

/-- `init_state`, lines 83-109. -/
def initState (S : BCD K W m n) (x0 : Fin n → W) : BCDState K W m :=
  let predictions := matvec S.fn.A x0
  ⟨0, .pinf, predictions, S.fn.gradSubfun predictions⟩

/-- `stepsizes[i]`, line 129.  In the code a zero column gives `inf` (then `NaN`); here it gives `0`, and the theorems assume positive
constants. -/
def stepsize (S : BCD K W m n) (i : Fin n) : K := 1 / S.fn.lipschitz i

/-- `g_i`, lines 137-140. -/
def gradElement (S : BCD K W m n) (subfunG : Fin m → W) (i : Fin n) : W :=
  let g := rmatvecElement S.fn.A subfunG i
  match S.fn.b with
  | some b => g + b i
  | none => g

/-- `body_fun`, lines 133-150. -/
def body (S : BCD K W m n) (i : Fin n) (t : LoopTup K W m n) : LoopTup K W m n :=
  let gi := S.gradElement t.subfunG i
  let xNew := S.blockProx (t.x i - S.stepsize i • gi) (S.stepsize i)
  let diff := xNew - t.x i
  let predictions := updateMatvec S.fn.A t.predictions diff i
  ⟨Function.update t.x i xNew, S.fn.gradSubfun predictions, predictions, t.sqerror + S.vdot diff diff⟩

/-- `update`, lines 111-172. -/
def update (S : BCD K W m n) (p : (Fin n → W) × BCDState K W m) : (Fin n → W) × BCDState K W m :=
  let r := foriLoop n S.body ⟨p.1, p.2.subfunG, p.2.predictions, 0⟩
  (r.x, ⟨p.2.iterNum + 1, .fin (S.sqrt r.sqerror), r.predictions, r.subfunG⟩)

/-- `_cond_fun`, base.py lines 264-266. -/
def cont (S : BCD K W m n) (p : (Fin n → W) × BCDState K W m) : Bool := Ext.gt p.2.error (.fin S.tol)

/-- `run`, base.py lines 296-332. -/
def run (S : BCD K W m n) (x0 : Fin n → W) : Except String ((Fin n → W) × BCDState K W m) :=
  runS S.initState S.update S.cont S.maxiter S.unroll S.jit x0

end BCD

end Jaxopt.BlockCD
