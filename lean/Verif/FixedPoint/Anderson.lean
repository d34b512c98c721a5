import Verif.FixedPoint.Iteration
import Verif.Num.Vdot
import Mathlib.Data.Matrix.Mul
import Mathlib.Data.Matrix.Block
import Mathlib.LinearAlgebra.Matrix.RowCol
import Mathlib.Algebra.Module.BigOperators

/-!
# Model of `jaxopt/_src/anderson.py` and `jaxopt/_src/anderson_wrapper.py`

A history array of leading size `m = history_size` is a function of its index `Fin m`.  `vdot` stands for `tree_vdot`, `sqrt` for
`jnp.sqrt` and `solve` for `jnp.linalg.solve`.  `num_fun_eval` and `verbose` are left out of the wrapper.
-/

set_option autoImplicit false
set_option linter.unusedSectionVars false
set_option linter.unusedVariables false

namespace Jaxopt.FixedPoint

open Jaxopt.Base

variable {K E A : Type*} {m : ℕ} [Field K] [LinearOrder K] [AddCommGroup E] [Module K E]

/-- The matrix `H` of `minimize_residuals`, anderson.py lines 37-40. -/
def bordered (gram : Matrix (Fin m) (Fin m) K) (ridge : K) : Matrix (Unit ⊕ Fin m) (Unit ⊕ Fin m) K :=
  Matrix.fromBlocks 0 (Matrix.of fun _ _ => 1) (Matrix.of fun _ _ => 1) (gram + ridge • (1 : Matrix (Fin m) (Fin m) K))

/-- The type of `jnp.linalg.solve` on systems of size `m + 1`. -/
abbrev LinSolve (K : Type*) (m : ℕ) :=
  Matrix (Unit ⊕ Fin m) (Unit ⊕ Fin m) K → (Unit ⊕ Fin m → K) → (Unit ⊕ Fin m → K)

/-- `minimize_residuals`, anderson.py lines 35-43. -/
def minimizeResiduals (solve : LinSolve K m) (gram : Matrix (Fin m) (Fin m) K) (ridge : K) : Unit ⊕ Fin m → K :=
  solve (bordered gram ridge) (Sum.elim (fun _ => 1) (fun _ => 0))

/-- `tree_average`, tree_util.py lines 158-168. -/
def treeAverage (h : Fin m → E) (w : Fin m → K) : E := ∑ i, w i • h i

/-- `anderson_step`, anderson.py lines 46-59. -/
def andersonStep (solve : LinSolve K m) (params residuals : Fin m → E) (gram : Matrix (Fin m) (Fin m) K)
    (ridge beta : K) : E :=
  let alphas := fun i => minimizeResiduals solve gram ridge (.inr i)
  let pa := treeAverage params alphas
  let ra := treeAverage residuals alphas
  pa + beta • ra

/-- The part of the state both solvers share. -/
structure AHist (K E : Type*) (m : ℕ) where
  params : Fin m → E
  residuals : Fin m → E
  gram : Matrix (Fin m) (Fin m) K

/-- The initial histories, anderson.py lines 174-178. -/
def AHist.start (x0 : E) : AHist K E m := ⟨fun _ => x0, fun _ => 0, 0⟩

/-- `update_history`, anderson.py lines 78-86; `pytree_replace_elem` (lines 62-75) is `Function.update`. -/
def updateHistory (vdot : E → E → K) (sqrt : K → K) (pos : Fin m) (h : AHist K E m) (extrapolated residual : E) :
    AHist K E m × K :=
  let params := Function.update h.params pos extrapolated
  let residuals := Function.update h.residuals pos residual
  let newRow := fun i => vdot (residuals i) residual
  let gram1 := h.gram.updateRow pos newRow
  let gram2 := gram1.updateCol pos newRow
  (⟨params, residuals, gram2⟩, sqrt (gram2 pos pos))

/-- Attributes of `AndersonAcceleration`, anderson.py lines 146-159. -/
structure Anderson (K E A : Type*) (m : ℕ) where
  fixedPointFun : UserMap E A
  vdot : E → E → K
  sqrt : K → K
  solve : LinSolve K m
  mixingFrequency : ℕ
  beta : K
  ridge : K
  maxiter : ℕ
  tol : K
  unroll : Bool
  jit : Bool

/-- The check of `__post_init__`, anderson.py lines 259-260. -/
def Anderson.postInit (S : Anderson K E A m) : Except String (Anderson K E A m) :=
  if m < 2 then .error "history_size should be greater or equal to 2." else .ok S

/-- `AndersonState`, anderson.py lines 89-111. -/
structure AndersonState (K E A : Type*) (m : ℕ) where
  iterNum : ℕ
  error : Ext K
  hist : AHist K E m
  aux : Option A
  numFunEval : ℕ

namespace Anderson

/-- `init_state`, anderson.py lines 161-188. -/
def initState (S : Anderson K E A m) (x0 : E) : AndersonState K E A m :=
  ⟨0, .pinf, .start x0, (S.fixedPointFun.fn x0).2, 1⟩

/-- The point at which the map is evaluated, anderson.py lines 206-225. -/
def extrapolated (S : Anderson K E A m) (p : E × AndersonState K E A m) : E :=
  if p.2.iterNum % S.mixingFrequency = 0 ∧ m ≤ p.2.iterNum then
    andersonStep S.solve p.2.hist.params p.2.hist.residuals p.2.hist.gram S.ridge S.beta
  else p.1

variable [NeZero m]

/-- `update`, anderson.py lines 190-249. -/
def update (S : Anderson K E A m) (p : E × AndersonState K E A m) : E × AndersonState K E A m :=
  let ext := S.extrapolated p
  let pos := Fin.ofNat m p.2.iterNum
  let na := S.fixedPointFun.fn ext
  let residual := na.1 - ext
  let he := updateHistory S.vdot S.sqrt pos p.2.hist ext residual
  (na.1, ⟨p.2.iterNum + 1, .fin he.2, he.1, na.2, p.2.numFunEval + 1⟩)

/-- `_cond_fun`, base.py lines 264-266. -/
def cont (S : Anderson K E A m) (p : E × AndersonState K E A m) : Bool := Ext.gt p.2.error (.fin S.tol)

/-- `run`, base.py lines 296-332, on a solver that passed `__post_init__`. -/
def run (S : Anderson K E A m) (x0 : E) : Except String (E × AndersonState K E A m) :=
  match S.postInit with
  | .error e => .error e
  | .ok S => runS S.initState S.update S.cont S.maxiter S.unroll S.jit x0

end Anderson

/-- `AndersonWrapper` around a solver with state type `T`, anderson_wrapper.py lines 77-86. -/
structure AWrapper (K E T : Type*) (m : ℕ) where
  solverInit : E → T
  solverUpdate : E → T → E × T
  solverError : T → Ext K
  vdot : E → E → K
  sqrt : K → K
  solve : LinSolve K m
  mixingFrequency : Option ℕ
  beta : K
  ridge : K

/-- `AndersonWrapperState`, anderson_wrapper.py lines 33-51. -/
structure AWrapperState (K E T : Type*) (m : ℕ) where
  iterNum : ℕ
  solverState : T
  error : Ext K
  hist : AHist K E m

namespace AWrapper

variable {T : Type*}

/-- `init_state`, anderson_wrapper.py lines 88-100. -/
def initState (S : AWrapper K E T m) (x0 : E) : AWrapperState K E T m :=
  ⟨0, S.solverInit x0, S.solverError (S.solverInit x0), .start x0⟩

/-- The point (and inner state) from which the wrapped solver steps, anderson_wrapper.py lines 120-142 and 178-179. -/
def extrapolated (S : AWrapper K E T m) (p : E × AWrapperState K E T m) : E × T :=
  if p.2.iterNum % S.mixingFrequency.getD m = 0 ∧ m ≤ p.2.iterNum then
    let e := andersonStep S.solve p.2.hist.params p.2.hist.residuals p.2.hist.gram S.ridge S.beta
    (e, S.solverInit e)
  else (p.1, p.2.solverState)

variable [NeZero m]

/-- `update`, anderson_wrapper.py lines 102-166. -/
def update (S : AWrapper K E T m) (p : E × AWrapperState K E T m) : E × AWrapperState K E T m :=
  let es := S.extrapolated p
  let pos := Fin.ofNat m p.2.iterNum
  let ns := S.solverUpdate es.1 es.2
  let residual := ns.1 - es.1
  let he := updateHistory S.vdot S.sqrt pos p.2.hist es.1 residual
  (ns.1, ⟨p.2.iterNum + 1, ns.2, S.solverError ns.2, he.1⟩)

end AWrapper

end Jaxopt.FixedPoint
