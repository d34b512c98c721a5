import Verif.Scipy.Flatten

/-!
# Model of the runs of the SciPy wrappers (`jaxopt/_src/scipy_wrappers.py` lines 318-375, 500-560 and 641-684)

The routines of SciPy are parameters: functions of the callables and vectors that the wrapper hands to them.  `Except String` stands for Python
exceptions, in the callables and in the results.  Bounds may be infinite, so their entries are of another type `B`.  `tol`, `method` and the
options are passed through unchanged and are part of the routine; dtypes are left out, and so are the extra arguments of `fun`, which are fixed
during a run.
-/

set_option autoImplicit false
set_option linter.unusedSectionVars false
set_option linter.unusedVariables false

namespace Jaxopt.Scipy

open Jaxopt.Tree

variable {K B R A : Type*}

/-! ## `ScipyMinimize` and `ScipyBoundedMinimize` -/

/-- The attribute `hess_inv` of a result of SciPy. -/
inductive HessInv (K : Type*) where
  | lbfgs (sk yk : List (List K))
  | dense (m : List (List K))
  /-- an object of any other type -/
  | other

/-- The fields of `OptimizeResult` that the wrapper reads; `none` stands for a missing attribute. -/
structure MinResult (K : Type*) where
  x : List K
  funVal : K
  success : Bool
  status : ℤ
  nit : ℕ
  hessInv : Option (HessInv K)
  nfev : Option ℕ
  njev : Option ℕ
  nhev : Option ℕ

/-- `ScipyMinimizeInfo`, scipy_wrappers.py lines 87-96. -/
structure MinInfo (K : Type*) where
  funVal : K
  success : Bool
  status : ℤ
  iterNum : ℕ
  hessInv : Option (HessInv K)
  numFunEval : ℕ
  numJacEval : ℕ
  numHessEval : ℕ

/-- `scipy.optimize.minimize(fun, x0, jac=True, bounds=…, callback=…)`. -/
abbrev MinRoutine (K B R : Type*) := (List K → Except String (K × List K)) → List K → Option (List B × List B) →
  Option (List K → Except String R) → Except String (MinResult K)

/-- `scipy_fun`, scipy_wrappers.py lines 332-335. -/
def minFun (valueAndGrad : PyTree (Arr K) → K × PyTree (Arr K)) (init : PyTree (Arr K)) (x : List K) : Except String (K × List K) :=
  (onpToJnp (topologyFromExample init) x).bind fun t =>
    let vg := valueAndGrad t
    (jnpToOnp vg.2).map fun g => (vg.1, g)

/-- `scipy_callback`, scipy_wrappers.py lines 324-330. -/
def minCallback (callback : Option (PyTree (Arr K) → R)) (init : PyTree (Arr K)) : Option (List K → Except String R) :=
  callback.map fun cb x => (onpToJnp (topologyFromExample init) x).map cb

/-- Lines 337-339: `osp.optimize.Bounds` of the flattened bounds. -/
def flatBounds (bounds : Option (PyTree (Arr B) × PyTree (Arr B))) : Except String (Option (List B × List B)) :=
  match bounds with
  | none => .ok none
  | some b => (jnpToOnp b.1).bind fun lb => (jnpToOnp b.2).map fun ub => some (lb, ub)

/-- Lines 351-358: the local variable stays unbound for an object of another type. -/
def convertHessInv (h : Option (HessInv K)) : Except String (Option (HessInv K)) :=
  match h with
  | some (.lbfgs sk yk) => .ok (some (.lbfgs sk yk))
  | some (.dense m) => .ok (some (.dense m))
  | some .other => .error "UnboundLocalError: hess_inv"
  | none => .ok none

/-- `_run`, scipy_wrappers.py lines 318-375 (`bounds=None` is `ScipyMinimize.run`, lines 377-390). -/
def minimizeRun (minimize : MinRoutine K B R) (valueAndGrad : PyTree (Arr K) → K × PyTree (Arr K)) (callback : Option (PyTree (Arr K) → R))
    (init : PyTree (Arr K)) (bounds : Option (PyTree (Arr B) × PyTree (Arr B))) : Except String (PyTree (Arr K) × MinInfo K) :=
  (flatBounds bounds).bind fun b =>
    (jnpToOnp init).bind fun x0 =>
      (minimize (minFun valueAndGrad init) x0 b (minCallback callback init)).bind fun res =>
        (onpToJnp (topologyFromExample init) res.x).bind fun params =>
          (convertHessInv res.hessInv).map fun h =>
            (params, ⟨res.funVal, res.success, res.status, res.nit, h, res.nfev.getD 0, res.njev.getD 0, res.nhev.getD 0⟩)

/-! ## `ScipyRootFinding` -/

/-- The fields of the result that the wrapper reads. -/
structure RootResult (K : Type*) where
  x : List K
  funVal : List K
  success : Bool
  status : ℤ
  nit : Option ℕ
  nfev : Option ℕ

/-- `ScipyRootInfo`, scipy_wrappers.py lines 99-106. -/
structure RootInfo (K : Type*) where
  funVal : List K
  success : Bool
  status : ℤ
  iterNum : Option ℕ
  numFunEval : Option ℕ

/-- `scipy_fun` of `ScipyRootFinding`, scipy_wrappers.py lines 520-527. -/
def rootFun (F : PyTree (Arr K) → PyTree (Arr K)) (jac : PyTree (Arr K) → PyTree (Arr K)) (init : PyTree (Arr K)) (x : List K) :
    Except String (List K × Mat K) :=
  (onpToJnp (topologyFromExample init) x).bind fun t =>
    (jnpToOnp (F t)).bind fun v =>
      (jacJnpToOnp (topologyFromExample init) (topologyFromExample init) (jac t)).map fun M => (v, M)

/-- `ScipyRootFinding.run`, scipy_wrappers.py lines 500-560 (`scipy.optimize.root` returns an `OptimizeResult`, so the branch of lines 542-544
is not taken). -/
def rootRun (root : (List K → Except String (List K × Mat K)) → List K → Except String (RootResult K)) (F jac : PyTree (Arr K) → PyTree (Arr K))
    (init : PyTree (Arr K)) : Except String (PyTree (Arr K) × RootInfo K) :=
  (jnpToOnp init).bind fun x0 =>
    (root (rootFun F jac init) x0).bind fun res =>
      (onpToJnp (topologyFromExample init) res.x).map fun params => (params, ⟨res.funVal, res.success, res.status, res.nit, res.nfev⟩)

/-! ## `ScipyLeastSquares` and `ScipyBoundedLeastSquares` -/

/-- The fields of the result that the wrapper reads. -/
structure LsResult (K : Type*) where
  x : List K
  cost : K
  funVal : List K
  success : Bool
  status : ℤ
  nfev : ℕ
  njev : ℕ
  optimality : K

/-- `ScipyLeastSquaresInfo`, scipy_wrappers.py lines 109-117. -/
structure LsInfo (K : Type*) where
  costVal : K
  funVal : List K
  success : Bool
  status : ℤ
  numFunEval : ℕ
  numJacEval : ℕ
  error : K

/-- `scipy_fun`, scipy_wrappers.py lines 652-655. -/
def lsFun (F : PyTree (Arr K) → PyTree (Arr K)) (init : PyTree (Arr K)) (x : List K) : Except String (List K) :=
  (onpToJnp (topologyFromExample init) x).bind fun t => jnpToOnp (F t)

/-- `scipy_jac`, scipy_wrappers.py lines 657-660. -/
def lsJac (F jac : PyTree (Arr K) → PyTree (Arr K)) (init : PyTree (Arr K)) (x : List K) : Except String (Mat K) :=
  (onpToJnp (topologyFromExample init) x).bind fun t => jacJnpToOnp (topologyFromExample init) (topologyFromExample (F init)) (jac t)

/-- `scipy.optimize.least_squares(fun, x0, jac=…, bounds=…)`; `none` stands for the bounds `(-inf, inf)` of line 666. -/
abbrev LsRoutine (K B : Type*) := (List K → Except String (List K)) → List K → (List K → Except String (Mat K)) → Option (List B × List B) →
  Except String (LsResult K)

/-- `_run`, scipy_wrappers.py lines 641-684. -/
def lsRun (leastSquares : LsRoutine K B) (F jac : PyTree (Arr K) → PyTree (Arr K)) (init : PyTree (Arr K))
    (bounds : Option (PyTree (Arr B) × PyTree (Arr B))) : Except String (PyTree (Arr K) × LsInfo K) :=
  (flatBounds bounds).bind fun b =>
    (jnpToOnp init).bind fun x0 =>
      (leastSquares (lsFun F init) x0 (lsJac F jac init) b).bind fun res =>
        (onpToJnp (topologyFromExample init) res.x).map fun params =>
          (params, ⟨res.cost, res.funVal, res.success, res.status, res.nfev, res.njev, res.optimality⟩)

end Jaxopt.Scipy
