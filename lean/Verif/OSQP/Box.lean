import Verif.Num.ExtArith
import Verif.Proj.Model
import Mathlib.Data.Matrix.Mul

/-!
# Model of `BoxOSQP` (`jaxopt/_src/osqp.py` lines 42-817)

* `Q`, `A` are dense matrices (`DenseLinearOperator` with one leaf).
* A bound is `none` when it is infinite (`l = -inf`, `u = +inf`).
* The linear solver (`OSQPIndirectSolver.run`, `OSQPLUSolver.run`, lines 232-257 and 283-293) is a parameter `solve` that receives
  the matrix-vector product, the right-hand side, the previous solution and the tolerance `atol`; the preconditioner is part of it.
* `tree_inf_norm` raises on empty arrays, here it is `0`: the model is about problems with `n, m ≥ 1`.
* NaN can only enter through the stepsize `rho_bar` (lines 517-527, a quotient `0/0`): `rho_bar` is an extended number, and
  once it is NaN all later iterates are NaN, which is modelled by the parameters `none`.
* `verbose` is left out.
-/

set_option autoImplicit false
set_option linter.unusedSectionVars false
set_option linter.unusedVariables false

namespace Jaxopt.OSQP

open Jaxopt.Proj

variable {K : Type*} [Field K] [LinearOrder K] {n m : ℕ}

/-- `tree_inf_norm`, tree_util.py lines 185-188. -/
def infNorm {k : ℕ} (v : Fin k → K) : K := (List.ofFn fun i => |v i|).foldr max 0

/-- `_clip_safe`, lines 43-44, with possibly infinite bounds. -/
def clipB (x : K) (l u : Option K) : K :=
  let y := match l with
    | some a => max x a
    | none => x
  match u with
  | some b => min y b
  | none => y

/-- The status codes, lines 428-432. -/
inductive Status where
  | unsolved | solved | dualInfeasible | primalInfeasible
  deriving DecidableEq

/-- Attributes of `BoxOSQP` (lines 405-425; `checkInfeasability` is `check_primal_dual_infeasability` after lines 814-815) and the arguments of a run. -/
structure BoxOSQP (K : Type*) (n m : ℕ) where
  Q : Matrix (Fin n) (Fin n) K
  c : Fin n → K
  A : Matrix (Fin m) (Fin n) K
  l : Fin m → Option K
  u : Fin m → Option K
  checkInfeasability : Bool
  sigma : K
  momentum : K
  rhoStart : K
  rhoMin : K
  rhoMax : K
  stepsizeUpdatesFrequency : ℕ
  primalInfeasibleTol : K
  dualInfeasibleTol : K
  maxiter : ℕ
  tol : K
  terminationCheckFrequency : ℕ
  jit : Bool
  solve : ((Fin n → K) → (Fin n → K)) → (Fin n → K) → (Fin n → K) → K → (Fin n → K)
  sqrt : K → K
  epsDiv : K

/-- A `KKTSolution`: `primal = (x, z)`, `dual_eq = y`, `dual_ineq = (mu, phi)`. -/
structure Params (K : Type*) (n m : ℕ) where
  x : Fin n → K
  z : Fin m → K
  y : Fin m → K
  mu : Fin m → K
  phi : Fin m → K

/-- `BoxOSQPState`, lines 132-151.  The solver state is the previous solution and the `rho_bar` of its matrix. -/
structure State (K : Type*) (n m : ℕ) where
  iterNum : ℕ
  error : Ext K
  status : Status
  primalResiduals : Fin m → K
  dualResiduals : Fin n → K
  rhoBar : Ext K
  prevSol : Fin n → K
  solverRho : Ext K

namespace BoxOSQP

/-- `_compute_residuals`, lines 529-534: the primal residuals. -/
def primalRes (S : BoxOSQP K n m) (x : Fin n → K) (z : Fin m → K) : Fin m → K := S.A.mulVec x - z

/-- `_compute_residuals`, lines 529-534: the dual residuals. -/
def dualRes (S : BoxOSQP K n m) (x : Fin n → K) (y : Fin m → K) : Fin n → K := (S.Q.mulVec x + S.c) + S.A.transpose.mulVec y

/-- `init_params(None, ...)`, lines 471-495. -/
def initParams (S : BoxOSQP K n m) : Params K n m :=
  let x := fun _ => 0
  let z := fun i => clipB (S.A.mulVec x i) (S.l i) (S.u i)
  ⟨x, z, fun _ => 0, fun _ => 0, fun _ => 0⟩

/-- `init_state`, lines 434-469. -/
def initState (S : BoxOSQP K n m) (p : Params K n m) : State K n m :=
  ⟨0, .pinf, .unsolved, S.primalRes p.x p.z, S.dualRes p.x p.y, .fin S.rhoStart, p.x, .fin S.rhoStart⟩

/-- `_get_full_KKT_solution`, lines 497-515. -/
def fullKKT (x : Fin n → K) (z y : Fin m → K) : Params K n m :=
  ⟨x, z, y, fun i => if 0 ≤ y i then y i else 0, fun i => relu (-y i)⟩

/-- A quotient of non-negative floats: `0/0` is NaN, `a/0` is `+inf`. -/
def quot (a b : K) : Ext K := if b = 0 then (if a = 0 then .nan else .pinf) else .fin (a / b)

/-- `_update_stepsize`, lines 517-527. -/
def updateStepsize (S : BoxOSQP K n m) (rho : K) (primal : Fin m → K) (dual : Fin n → K) (x : Fin n → K) (y : Fin m → K) : Ext K :=
  let primalCoef := quot (infNorm primal) (infNorm (S.A.mulVec x))
  let maxInf := max (infNorm (S.Q.mulVec x)) (max (infNorm (S.A.transpose.mulVec y)) (infNorm S.c))
  let dualCoef := quot (infNorm dual) maxInf
  match dualCoef, primalCoef with
  | .fin d, .fin p => .fin (clip (rho * S.sqrt (p / (d + S.epsDiv))) S.rhoMin S.rhoMax)
  | .fin _, .pinf => .fin S.rhoMax
  | .pinf, .fin _ => .fin S.rhoMin
  | _, _ => .nan

/-- `_compute_error`, lines 536-542. -/
def computeError (S : BoxOSQP K n m) (primal : Fin m → K) (dual : Fin n → K) : K × Status :=
  let criterion := max (infNorm primal) (infNorm dual)
  (criterion, if criterion ≤ S.tol then .solved else .unsolved)

/-- The test of `_check_dual_infeasability`, lines 544-556. -/
def certifDual (S : BoxOSQP K n m) (dx : Fin n → K) : Bool :=
  let criterion := S.dualInfeasibleTol * infNorm dx
  let certifQ := infNorm (S.Q.mulVec dx)
  let certifC := S.c ⬝ᵥ dx
  let adx := S.A.mulVec dx
  decide (certifQ ≤ criterion) && decide (certifC ≤ criterion) &&
    (List.finRange m).all fun i => ((S.l i).isNone || decide (-criterion ≤ adx i)) && ((S.u i).isNone || decide (adx i ≤ criterion))

/-- `certif_lu`, lines 573-577. -/
def certifLU (S : BoxOSQP K n m) (dy : Fin m → K) : K :=
  (∑ i, (S.l i).getD 0 * -relu (-dy i)) + ∑ i, (S.u i).getD 0 * relu (dy i)

/-- The test of `_check_primal_infeasability`, lines 570-578. -/
def certifPrimal (S : BoxOSQP K n m) (dy : Fin m → K) : Bool :=
  let criterion := S.primalInfeasibleTol * infNorm dy
  let certifA := infNorm (S.A.transpose.mulVec dy)
  decide (certifA ≤ criterion) && decide (S.certifLU dy ≤ criterion)

/-- `_check_termination_conditions`, lines 590-605. -/
def checkTermination (S : BoxOSQP K n m) (primal : Fin m → K) (dual : Fin n → K) (old new : Params K n m) : K × Status :=
  let es := S.computeError primal dual
  if S.checkInfeasability then
    let dx := new.x - old.x
    let dy := new.y - old.y
    let es1 := if S.certifDual dx then (0, Status.dualInfeasible) else es
    if S.certifPrimal dy then (0, Status.primalInfeasible) else es1
  else es

/-- The matrix `Q + sigma I + rho_bar AᵀA` of the linear solvers, lines 245-248 and 266-268. -/
def kktMat (S : BoxOSQP K n m) (rho : K) (x : Fin n → K) : Fin n → K :=
  (S.Q.mulVec x + S.sigma • x) + rho • S.A.transpose.mulVec (S.A.mulVec x)

/-- The tolerance of the linear solver, lines 239-242. -/
def atol (S : BoxOSQP K n m) (st : State K n m) : K :=
  15 / 100 * S.sqrt (infNorm st.primalResiduals * infNorm st.dualResiduals)

/-- `_solve_linear_system`, lines 607-632, and `run` of the linear solvers, lines 232-257 and 283-293; `rho` is `rho_bar`,
`solverRho` that of the solver state. -/
def solveLinear (S : BoxOSQP K n m) (p : Params K n m) (rho solverRho : K) (st : State K n m) : Fin n → K :=
  let bxq := S.sigma • p.x - S.c
  let byz := p.y + (-rho) • p.z
  let b := bxq - S.A.transpose.mulVec byz
  S.solve (S.kktMat solverRho) b st.prevSol (S.atol st)

/-- `_admm_step`, lines 634-663: `(x_next, z_next, y_next)` and the new previous solution. -/
def admmStep (S : BoxOSQP K n m) (p : Params K n m) (rho solverRho : K) (st : State K n m) :
    (Fin n → K) × (Fin m → K) × (Fin m → K) × (Fin n → K) :=
  let xBar := S.solveLinear p rho solverRho st
  let zBar := S.A.mulVec xBar
  let xNext := p.x + S.momentum • (xBar - p.x)
  let zMomentum := p.z + S.momentum • (zBar - p.z)
  let zStep := (1 / rho) • p.y
  let zFree := zMomentum + zStep
  let zNext := fun i => clipB (zFree i) (S.l i) (S.u i)
  let yStep := zMomentum - zNext
  let yNext := p.y + rho • yStep
  (xNext, zNext, yNext, xBar)

/-- The exceptions of lines 726-730. -/
def raiseIfInfeasible (S : BoxOSQP K n m) (status : Status) : Except String Unit :=
  if S.jit then .ok () else
    match status with
    | .primalInfeasible => .error "Primal infeasible."
    | .dualInfeasible => .error "Dual infeasible."
    | _ => .ok ()

/-- `update`, lines 665-742, on finite iterates and a finite stepsize. -/
def updateFin (S : BoxOSQP K n m) (p : Params K n m) (st : State K n m) (rho solverRho : K) :
    Except String (Option (Params K n m) × State K n m) :=
  let r := S.admmStep p rho solverRho st
  let x := r.1
  let z := r.2.1
  let y := r.2.2.1
  let primal := S.primalRes x z
  let dual := S.dualRes x y
  let rhos : Ext K × Ext K :=
    if st.iterNum % S.stepsizeUpdatesFrequency = 0 then
      let r := S.updateStepsize rho primal dual x y
      (r, r)
    else (.fin rho, .fin solverRho)
  let sol := fullKKT x z y
  let es : Ext K × Status :=
    if st.iterNum % S.terminationCheckFrequency = 0 then
      let es := S.checkTermination primal dual p sol
      (.fin es.1, es.2)
    else (st.error, st.status)
  (S.raiseIfInfeasible es.2).map fun _ =>
    (some sol, ⟨st.iterNum + 1, es.1, es.2, primal, dual, rhos.1, r.2.2.2, rhos.2⟩)

/-- `update` once NaN has appeared: the iterates are NaN, and every test on them is false. -/
def updateNan (S : BoxOSQP K n m) (st : State K n m) : Except String (Option (Params K n m) × State K n m) :=
  let es : Ext K × Status :=
    if st.iterNum % S.terminationCheckFrequency = 0 then (.nan, .unsolved) else (st.error, st.status)
  (S.raiseIfInfeasible es.2).map fun _ => (none, { st with iterNum := st.iterNum + 1, error := es.1, status := es.2, rhoBar := .nan })

/-- `update`, lines 665-742. -/
def update (S : BoxOSQP K n m) (p : Option (Params K n m) × State K n m) : Except String (Option (Params K n m) × State K n m) :=
  match p.1, p.2.rhoBar, p.2.solverRho with
  | some q, .fin rho, .fin solverRho => S.updateFin q p.2 rho solverRho
  | _, _, _ => S.updateNan p.2

/-- `_cond_fun`, base.py lines 264-266. -/
def cont (S : BoxOSQP K n m) (p : Option (Params K n m) × State K n m) : Bool := Ext.gt p.2.error (.fin S.tol)

/-- The loop of base.py (`loop.py`), whose body may raise; Property C01 says that the backends agree. -/
def loop (S : BoxOSQP K n m) : ℕ → Option (Params K n m) × State K n m → Except String (Option (Params K n m) × State K n m)
  | 0, p => .ok p
  | k + 1, p => if S.cont p then (S.update p).bind (S.loop k) else .ok p

/-- `run`, lines 744-769 and base.py lines 296-332, for `maxiter ≥ 1`. -/
def run (S : BoxOSQP K n m) (init : Option (Params K n m)) : Except String (Option (Params K n m) × State K n m) :=
  let p := init.getD S.initParams
  (S.update (some p, S.initState p)).bind (S.loop (S.maxiter - 1))

end BoxOSQP

end Jaxopt.OSQP
