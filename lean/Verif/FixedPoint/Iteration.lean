import Verif.Base.RunS
import Verif.Num.Ext
import Mathlib.Algebra.Module.Basic
import Mathlib.Tactic.TypeStar

/-!
# Models of `jaxopt/_src/fixed_point_iteration.py` and `jaxopt/_src/iterative_refinement.py`

`norm` stands for `tree_l2_norm` (tree_util.py lines 138-155).  `verbose` is left out.
-/

set_option autoImplicit false
set_option linter.unusedSectionVars false
set_option linter.unusedVariables false

namespace Jaxopt.FixedPoint

open Jaxopt.Base

variable {K E A : Type*} [LinearOrder K]

/-- The user's `fixed_point_fun`, with or without auxiliary output (`has_aux`). -/
inductive UserMap (E A : Type*) where
  | noAux (f : E → E)
  | withAux (f : E → E × A)

/-- `self._fun`, `__post_init__`, fixed_point_iteration.py lines 132-138 (and anderson.py lines 262-267). -/
def UserMap.fn : UserMap E A → E → E × Option A
  | .noAux f => fun x => (f x, none)
  | .withAux f => fun x => ((f x).1, some (f x).2)

/-- Attributes of `FixedPointIteration`, fixed_point_iteration.py lines 68-76. -/
structure FPI (K E A : Type*) where
  fixedPointFun : UserMap E A
  norm : E → K
  maxiter : ℕ
  tol : K
  unroll : Bool
  jit : Bool

/-- `FixedPointState`, fixed_point_iteration.py lines 27-38. -/
structure FPIState (K A : Type*) where
  iterNum : ℕ
  error : Ext K
  aux : Option A
  numFunEval : ℕ

namespace FPI

/-- `init_state`, fixed_point_iteration.py lines 78-95. -/
def initState (S : FPI K E A) (x0 : E) : FPIState K A := ⟨0, .pinf, none, 0⟩

/-- `update`, fixed_point_iteration.py lines 97-125. -/
def update [Sub E] (S : FPI K E A) (p : E × FPIState K A) : E × FPIState K A :=
  let na := S.fixedPointFun.fn p.1
  let error := S.norm (na.1 - p.1)
  (na.1, ⟨p.2.iterNum + 1, .fin error, na.2, p.2.numFunEval + 1⟩)

/-- `_cond_fun`, base.py lines 264-266. -/
def cont (S : FPI K E A) (p : E × FPIState K A) : Bool := Ext.gt p.2.error (.fin S.tol)

/-- `run`, base.py lines 296-332. -/
def run [Sub E] (S : FPI K E A) (x0 : E) : Except String (E × FPIState K A) :=
  runS S.initState S.update S.cont S.maxiter S.unroll S.jit x0

end FPI

/-- `IterativeRefinement` with the arguments `A`, `b`, `A_bar` of `run` fixed, iterative_refinement.py lines 112-120.
`matvecA` is `self.matvec_A(A)`; `matvecAbar` is `none` when `self.matvec_A_bar is None` (then `A` is used, lines 150-151 and
216-223).  `solve` receives the operator, the right-hand side and the initial guess. -/
structure Refine (K E : Type*) where
  matvecA : E → E
  matvecAbar : Option (E → E)
  solve : (E → E) → E → E → E
  norm : E → K
  b : E
  maxiter : ℕ
  tol : K
  unroll : Bool
  jit : Bool

/-- `IterativeRefinementState`, iterative_refinement.py lines 40-58. -/
structure RefineState (K E : Type*) where
  iterNum : ℕ
  error : Ext K
  targetResiduals : E
  init : E
  numMatvecEval : ℕ
  numMatvecBarEval : ℕ
  numSolveEval : ℕ

namespace Refine

/-- `init_params`, iterative_refinement.py lines 137-141. -/
def initParams [Zero E] (S : Refine K E) : E := 0

/-- `init_state`, iterative_refinement.py lines 122-135. -/
def initState (S : Refine K E) (x0 : E) : RefineState K E := ⟨0, .pinf, S.b, x0, 0, 0, 0⟩

/-- `matvec_A_bar` as used by `update`, iterative_refinement.py lines 150-154. -/
def opBar (S : Refine K E) : E → E := S.matvecAbar.getD S.matvecA

/-- `update`, iterative_refinement.py lines 143-176. -/
def update [AddCommGroup E] (S : Refine K E) (p : E × RefineState K E) : E × RefineState K E :=
  let residualSol := S.solve S.opBar p.2.targetResiduals p.2.init
  let params := p.1 + residualSol
  let target := S.b - S.matvecA params
  let error := S.norm target
  (params, ⟨p.2.iterNum + 1, .fin error, target, S.initParams, p.2.numMatvecEval + 1, p.2.numMatvecBarEval + 1,
    p.2.numSolveEval + 1⟩)

/-- `_cond_fun`, base.py lines 264-266. -/
def cont (S : Refine K E) (p : E × RefineState K E) : Bool := Ext.gt p.2.error (.fin S.tol)

/-- `run`, iterative_refinement.py lines 178-196; `none` stands for `init_params=None`. -/
def run [AddCommGroup E] (S : Refine K E) (x0 : Option E) : Except String (E × RefineState K E) :=
  runS S.initState S.update S.cont S.maxiter S.unroll S.jit (x0.getD S.initParams)

end Refine

end Jaxopt.FixedPoint
