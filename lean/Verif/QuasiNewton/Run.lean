import Verif.QuasiNewton.Broyden
import Verif.QuasiNewton.Lbfgsb
import Verif.Base.RunS

/-!
# The loops of `Broyden` and `LBFGSB`

`BFGS`, `LBFGS` and `NonlinearCG` have their loops in their own model files.
-/

set_option autoImplicit false
set_option linter.unusedSectionVars false
set_option linter.unusedVariables false

namespace Jaxopt.QuasiNewton

open Jaxopt.Base

/-- The attributes of `Broyden` and `LBFGSB` that the loop uses: broyden.py lines 191-215, lbfgsb.py lines 284-309. -/
structure LoopAttr (K : Type*) where
  stopIfLinesearchFails : Bool
  tol : K
  maxiter : ℕ
  unroll : Bool
  jit : Bool

namespace Broyden

variable {K E L : Type*} [Field K] [LinearOrder K] [AddCommGroup E] [Module K E] [Fintype L]

/-- `_cond_fun`, broyden.py lines 217-221. -/
def cont (A : LoopAttr K) (p : (L → E) × BroydenState K E L) : Bool :=
  Ext.gt p.2.error (.fin A.tol) && (!A.stopIfLinesearchFails || !p.2.failedLinesearch)

/-- `run` (base.py lines 296-332). -/
def run (S : Broyden K E L) (A : LoopAttr K) (x0 : L → E) : Except String ((L → E) × BroydenState K E L) :=
  runS S.initState S.update (cont A) A.maxiter A.unroll A.jit x0

end Broyden

namespace Lbfgsb

variable {K V : Type*} [Field K] [LinearOrder K] {n h : ℕ}

/-- `_cond_fun`, lbfgsb.py lines 311-316. -/
def cont (A : LoopAttr K) (p : (Fin n → K) × LbfgsbState K V n (h + 1)) : Bool :=
  Ext.gt p.2.error (.fin A.tol) && (!A.stopIfLinesearchFails || !p.2.failedLinesearch)

/-- The loop of `run` (base.py lines 296-332, `loop.py`), for updates that may be undefined (`none`); Property C01 says that the
backends agree. -/
def loop (S : Lbfgsb K V n (h + 1)) (A : LoopAttr K) (lower upper : Fin n → Ext K) :
    ℕ → (Fin n → K) × LbfgsbState K V n (h + 1) → Option ((Fin n → K) × LbfgsbState K V n (h + 1))
  | 0, p => some p
  | k + 1, p => if cont A p then (S.update lower upper p).bind (S.loop A lower upper k) else some p

/-- `run` (base.py lines 296-332), for `maxiter ≥ 1`. -/
def run (S : Lbfgsb K V n (h + 1)) (A : LoopAttr K) (lower upper : Fin n → Ext K) (x0 : Fin n → K) :
    Option ((Fin n → K) × LbfgsbState K V n (h + 1)) :=
  (S.update lower upper (x0, S.initState lower upper x0)).bind (S.loop A lower upper (A.maxiter - 1))

end Lbfgsb

end Jaxopt.QuasiNewton
