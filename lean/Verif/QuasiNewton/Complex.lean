import Verif.QuasiNewton.Bfgs
import Verif.QuasiNewton.Lbfgs
import Verif.QuasiNewton.NonlinearCG
import Verif.LineSearch.Setup
import Mathlib.Analysis.Complex.Basic

/-!
# `LBFGS`, `NonlinearCG` and the line searches on complex parameters

The models of `Lbfgs.lean`, `NonlinearCG.lean` and of the line searches are for real parameters, where `tree_conj` does nothing.  Here
`conj` is kept wherever the code calls `tree_conj`.  A pytree of complex arrays is a function from a finite set of entries to `ℂ`.  An array of
length `history_size` is a function of its index.
-/

set_option autoImplicit false
set_option linter.unusedSectionVars false
set_option linter.unusedVariables false

namespace Jaxopt.QuasiNewton

open Jaxopt.Base Jaxopt.LineSearch

section Tree

variable {ι : Type*} [Fintype ι]

/-- `tree_conj`, tree_util.py lines 274-276. -/
def treeConj (z : ι → ℂ) : ι → ℂ := fun i => star (z i)

/-- `tree_vdot_real`, tree_util.py lines 107-121; `jnp.vdot` conjugates its first argument. -/
noncomputable def treeVdotReal (a b : ι → ℂ) : ℝ := (∑ i, star (a i) * b i).re

/-- `tree_l2_norm`, tree_util.py lines 136-144. -/
noncomputable def treeL2Norm (z : ι → ℂ) : ℝ := √(∑ i, ((z i).re ^ 2 + (z i).im ^ 2))

/-- The same functions on real parameters with two leaves (the real and the imaginary parts). -/
def pairVdot (a b : (ι → ℝ) × (ι → ℝ)) : ℝ := ∑ i, a.1 i * b.1 i + ∑ i, a.2 i * b.2 i

/-- `tree_l2_norm` on real parameters with two leaves. -/
noncomputable def pairL2Norm (a : (ι → ℝ) × (ι → ℝ)) : ℝ := √(∑ i, a.1 i ^ 2 + ∑ i, a.2 i ^ 2)

end Tree

variable {K E V : Type*} [Field K] [LinearOrder K] [AddCommGroup E] [Module K E]

/-- The line searches on complex parameters: in all of them the gradient enters through `tree_vdot_real(tree_conj(grad), d)`
(backtracking_linesearch.py lines 189 and 210, zoom_linesearch.py lines 258 and 692, hager_zhang_linesearch.py lines 117 and 128). -/
def conjObj (conj : E → E) (O : LineObj K E) : LineObj K E := { O with vdot := fun g d => O.vdot (conj g) d }

/-- The value and gradient the searches start from: given, or computed (backtracking_linesearch.py lines 129-136, zoom_linesearch.py lines
666-677, hager_zhang_linesearch.py lines 376-384 and 468-473). -/
def startGrad (grad : E → E) (x : E) (value : Option (Ext K)) (g : Option E) : E :=
  match value, g with
  | some _, some g => g
  | _, _ => grad x

/-- The direction of a search: given, or `tree_scalar_mul(-1, tree_conj(grad))` (backtracking_linesearch.py lines 186-187,
zoom_linesearch.py lines 689-690, hager_zhang_linesearch.py lines 387-388 and 475-476). -/
def startDir (K : Type*) {E : Type*} [Field K] [AddCommGroup E] [Module K E] (conj : E → E) (g : E) (d : Option E) : E :=
  d.getD ((-1 : K) • conj g)

/-- `BacktrackingLineSearch.run` on complex parameters, for a search whose `vdot` is that of `conjObj`. -/
def backtrackingC (conj : E → E) (ls : Backtracking K E) (s : K) (x : E) (value : Option (Ext K)) (g d : Option E) :
    Except String (K × BState K E) :=
  ls.run s x value g (some (startDir K conj (startGrad ls.grad x value g) d))

/-- `ZoomLineSearch.run` on complex parameters. -/
def zoomC (conj : E → E) (ls : Zoom K E) (s : K) (x : E) (value : Option (Ext K)) (g d : Option E) :
    Except String (K × ZState K E) :=
  ls.run s x value g (some (startDir K conj (startGrad ls.grad x value g) d))

/-- `HagerZhangLineSearch.run` on complex parameters. -/
def hagerZhangC (conj : E → E) (ls : HZ K E) (s : K) (x : E) (value : Option (Ext K)) (g d : Option E) :
    Except String (K × Option (HZState K E)) :=
  ls.run s x value g (some (startDir K conj (startGrad ls.grad x value g) d))

/-- `run_ls` of a solver (lbfgs.py line 456).  A search that raises or does not end is reported as failed at its starting point. -/
def runLsOf (ls : LsSolver K E) (s : K) (x : E) (v : Ext K) (g d : E) : LsOut K E (Ext K) :=
  match ls.run s x v g d with
  | .ok (some r) => ⟨r.stepsize, r.params, r.value, r.grad, r.failed⟩
  | _ => ⟨s, x, v, g, true⟩

namespace Lbfgs

/-- The direction computed by `update`, lbfgs.py lines 316-331. -/
def directionC (conj : E → E) (S : Lbfgs K E V) (st : LbfgsState K E V) : E :=
  let start := st.iterNum % S.historySize
  let d := (-1 : K) • conj st.grad
  if S.historySize ≠ 0 then invHessianProduct S.vdot S.historySize d st.hist st.gamma start else d

/-- `update`, lbfgs.py lines 295-417. -/
def updateC (conj : E → E) (S : Lbfgs K E V) (p : E × LbfgsState K E V) : E × LbfgsState K E V :=
  let x := p.1
  let st := p.2
  let start := st.iterNum % S.historySize
  let o := S.step x st (S.directionC conj st)
  let s := o.params - x
  let y := conj (o.grad - st.grad)
  let sy := S.vdot s y
  let rho := if sy = 0 then 0 else 1 / sy
  let hist := if S.historySize ≠ 0 then st.hist.set start s y rho else st.hist
  let gamma := if S.historySize ≠ 0 ∧ S.useGamma = true then computeGamma S.vdot hist start else 1
  (o.params,
    { iterNum := st.iterNum + 1, value := o.value, grad := o.grad, stepsize := o.stepsize,
      error := .fin (S.norm o.grad), hist := hist, gamma := gamma, failedLinesearch := o.failed })

/-- `run` (base.py lines 296-332). -/
def runC (conj : E → E) (S : Lbfgs K E V) (x0 : E) : Except String (E × LbfgsState K E V) :=
  runS S.initState (S.updateC conj) S.cont S.maxiter S.unroll S.jit x0

end Lbfgs

/-- `new_beta`, nonlinear_cg.py lines 230-250. -/
def cgBetaC (conj : E → E) (vdot : E → E → K) (m : CGMethod) (grad newGrad d : E) : K :=
  match m with
  | .polakRibiere =>
    let gTg := clipEps (vdot grad grad)
    Jaxopt.Proj.relu (vdot (conj (newGrad - grad)) (conj newGrad) / gTg)
  | .fletcherReeves =>
    let gTg := clipEps (vdot grad grad)
    Jaxopt.Proj.relu (vdot newGrad newGrad / gTg)
  | .hestenesStiefel =>
    let gradDiff := newGrad - grad
    let dTg := clipEps (vdot (conj gradDiff) d)
    Jaxopt.Proj.relu (vdot (conj gradDiff) (conj newGrad) / dTg)

namespace NCG

/-- `init_state`, nonlinear_cg.py lines 140-174. -/
def initStateC (conj : E → E) (S : NCG K E V) (x0 : E) : NCGState K E V :=
  ⟨0, S.maxStepsize, .pinf, S.f x0, S.grad x0, (-1 : K) • conj (S.grad x0)⟩

/-- `update`, nonlinear_cg.py lines 176-283. -/
def updateC (conj : E → E) (S : NCG K E V) (p : E × NCGState K E V) : E × NCGState K E V :=
  let st := p.2
  let o := S.lineSearch p
  let beta := cgBetaC conj S.vdot S.method st.grad o.grad st.descentDirection
  let d := (-1 : K) • conj o.grad + beta • st.descentDirection
  (o.params, ⟨st.iterNum + 1, o.stepsize, .fin (S.norm st.grad), o.value, o.grad, d⟩)

/-- `run`, base.py lines 296-332. -/
def runC (conj : E → E) (S : NCG K E V) (x0 : E) : Except String (E × NCGState K E V) :=
  runS (S.initStateC conj) (S.updateC conj) S.cont S.maxiter S.unroll S.jit x0

end NCG

/-- The attributes of `LBFGS` (lbfgs.py lines 210-240) and `NonlinearCG` (nonlinear_cg.py lines 114-138) other than the objective. -/
structure Attr (K : Type*) where
  historySize : ℕ
  useGamma : Bool
  stepsize : Stepsize K
  method : CGMethod
  linesearch : String
  linesearchInit : String
  maxls : ℕ
  maxStepsize : K
  minStepsize : K
  increaseFactor : K
  stopIfLinesearchFails : Bool
  tol : K
  maxiter : ℕ
  unroll : Bool
  jit : Bool

/-- `_init_stepsize` with the attributes of the solver; an unknown strategy raises, which is not modelled here. -/
def Attr.initStep (A : Attr K) (s : K) : K :=
  match initStepsize A.linesearchInit A.maxStepsize A.minStepsize A.increaseFactor s with
  | .ok s => s
  | .error _ => s

/-- Construction of `LBFGS`, lbfgs.py lines 431-456.  `conj` is `tree_conj`, `O.vdot` is `tree_vdot_real`, `norm` is `tree_l2_norm`. -/
def buildLbfgs (conj : E → E) (A : Attr K) (O : LineObj K E) (norm : E → K) : Except String (Lbfgs K E (Ext K)) :=
  (setupLinesearch (conjObj conj O) (.name A.linesearch) A.maxls A.maxStepsize A.unroll A.jit).map fun ls =>
    { f := O.f, grad := O.grad, vdot := O.vdot, norm := norm, historySize := A.historySize, useGamma := A.useGamma,
      stepsize := A.stepsize, maxStepsize := A.maxStepsize, initStep := A.initStep,
      stopIfLinesearchFails := A.stopIfLinesearchFails, tol := A.tol, maxiter := A.maxiter, unroll := A.unroll, jit := A.jit,
      runLs := runLsOf ls }

/-- Construction of `NonlinearCG`, nonlinear_cg.py lines 296-319. -/
def buildNCG (conj : E → E) (A : Attr K) (O : LineObj K E) (norm : E → K) : Except String (NCG K E (Ext K)) :=
  (setupLinesearch (conjObj conj O) (.name A.linesearch) A.maxls A.maxStepsize A.unroll A.jit).map fun ls =>
    { f := O.f, grad := O.grad, vdot := O.vdot, norm := norm, method := A.method, linesearch := A.linesearch,
      maxStepsize := A.maxStepsize, initStep := A.initStep, tol := A.tol, maxiter := A.maxiter, unroll := A.unroll, jit := A.jit,
      runLs := fun s x v g d => runLsOf ls s x v g (startDir K conj g d) }

/-- Construction of `BFGS`, bfgs.py lines 119-145 and 289-314. -/
def buildBfgs {ι : Type*} (A : Attr K) (O : LineObj K (ι → K)) (norm : (ι → K) → K) : Except String (Bfgs K ι (Ext K)) :=
  (setupLinesearch O (.name A.linesearch) A.maxls A.maxStepsize A.unroll A.jit).map fun ls =>
    { f := O.f, grad := O.grad, norm := norm, stepsize := A.stepsize, maxStepsize := A.maxStepsize, initStep := A.initStep,
      tol := A.tol, maxiter := A.maxiter, unroll := A.unroll, jit := A.jit, runLs := runLsOf ls }

end Jaxopt.QuasiNewton
