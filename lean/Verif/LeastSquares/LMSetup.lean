import Mathlib.Tactic.TypeStar

/-!
# Model of `LevenbergMarquardt.__post_init__` (`jaxopt/_src/levenberg_marquardt.py` lines 462-509)

Which linear solver and which Jacobian a configuration uses.  An attribute that `__post_init__` does not set is `none`; reading it
raises `AttributeError`.  Functions are represented by where they come from.
-/

set_option autoImplicit false
set_option linter.unusedVariables false

namespace Jaxopt.LeastSquares

/-- `solver`: a callable or a string. -/
inductive SolverArg where
  | callable
  | name (s : String)
  deriving DecidableEq

/-- `solver_fn`. -/
inductive SolverFn where
  | user | cholesky | lu | qr | inv
  deriving DecidableEq

/-- Where a derivative comes from: `jax.jacfwd` of the residual function, or the argument `jac_fun` (and `jax.jacfwd` of it). -/
inductive Source where
  | jacfwd | user
  deriving DecidableEq

/-- The arguments that `__post_init__` looks at. -/
structure LMArgs where
  solver : SolverArg
  materializeJac : Bool
  geodesic : Bool
  jacFunGiven : Bool

/-- The attributes that it sets. -/
structure LMSetup where
  solverFn : SolverFn
  jacFun : Option Source
  hessResFun : Option Source
  warns : Bool

/-- The solver, lines 465-476. -/
def solverFnOf : SolverArg → Except String SolverFn
  | .callable => .ok .user
  | .name s =>
    if s = "cholesky" then .ok .cholesky
    else if s = "lu" then .ok .lu
    else if s = "qr" then .ok .qr
    else if s = "inv" then .ok .inv
    else .error "NotImplementedError"

/-- `__post_init__`, lines 462-509. -/
def postInitLM (a : LMArgs) : Except String LMSetup :=
  match solverFnOf a.solver with
  | .error e => .error e
  | .ok fn =>
    if a.materializeJac then
      if a.jacFunGiven then .ok ⟨fn, none, none, false⟩
      else .ok ⟨fn, some .jacfwd, if a.geodesic then some .jacfwd else none, false⟩
    else
      if a.solver = .name "qr" then .error "ValueError: QR factorization solver materializes Jacobian"
      else .ok ⟨fn, if a.jacFunGiven then some .user else none, if a.jacFunGiven && a.geodesic then some .user else none,
        decide (a.solver = .name "lu" ∨ a.solver = .name "cholesky" ∨ a.solver = .name "inv")⟩

/-- What a run uses: the Jacobian (`none` when it works with `jax.jvp` and `jax.vjp`) and the second derivatives. -/
structure LMUses where
  jac : Option Source
  hess : Option Source
  deriving DecidableEq

/-- The attributes read by `init_state`, lines 199-214 (the same are read at accepted points, lines 256-271). -/
def initUses (a : LMArgs) (s : LMSetup) : Except String LMUses :=
  if a.materializeJac then
    match s.jacFun with
    | none => .error "AttributeError: _jac_fun"
    | some j =>
      if a.geodesic then
        match s.hessResFun with
        | none => .error "AttributeError: _hess_res_fun"
        | some h => .ok ⟨some j, some h⟩
      else .ok ⟨some j, none⟩
  else .ok ⟨none, none⟩

/-- Construction and `init_state`. -/
def constructLM (a : LMArgs) : Except String LMUses :=
  match postInitLM a with
  | .error e => .error e
  | .ok s => initUses a s

end Jaxopt.LeastSquares
