import Verif.Implicit.Signature

/-!
# Model of the reference signatures of the solver classes

Every solver decorates its `run` with `custom_root` (`jaxopt/_src/base.py` lines 334-358 for the iterative solvers, the
`__post_init__` of the wrappers otherwise).  The backward pass resolves keyword arguments with the reference signature: the attribute
`reference_signature` of the solver, or the signature of its `optimality_fun` if there is no such attribute
(`jaxopt/_src/implicit_diff.py` lines 186-195).  This file models how the solver classes set that attribute.

A user function is represented by its signature, that of `getattr(fun, "subfun", fun)`.
-/

set_option autoImplicit false
set_option linter.unusedSectionVars false
set_option linter.unusedVariables false

namespace Jaxopt.Implicit

variable {W V C S : Type*}

/-- The exceptions of construction and of the run. -/
inductive ExcR where
  | valueError (msg : String)
  | attributeError
  | inner (e : Exc)
  deriving DecidableEq

/-- The order of the kinds in `inspect` (`_ParameterKind`). -/
def Kind.rank : Kind → ℕ
  | .posOnly => 0
  | .posOrKw => 1
  | .varPos => 2
  | .kwOnly => 3
  | .varKw => 4

/-- The loop of `inspect.Signature.__init__` (CPython 3.11, inspect.py lines 2965-3003): `top` is `top_kind`, `seen` is
`kind_defaults`, `names` are the names so far. -/
def checkParams : ℕ → Bool → List String → Sig W → Except ExcR Unit
  | _, _, _, [] => .ok ()
  | top, seen, names, p :: ps =>
    if p.kind.rank < top then .error (.valueError "wrong parameter order")
    else
      let seen := if top < p.kind.rank then false else seen
      let top := p.kind.rank
      if (p.kind = .posOnly || p.kind = .posOrKw) && p.default.isNone && seen then
        .error (.valueError "non-default argument follows default argument")
      else if names.contains p.name then .error (.valueError "duplicate parameter name")
      else checkParams top (if p.kind = .posOnly || p.kind = .posOrKw then p.default.isSome else seen) (p.name :: names) ps

/-- `inspect.Signature(parameters)`. -/
def mkSignature (ps : Sig W) : Except ExcR (Sig W) := (checkParams 0 false [] ps).map fun _ => ps

/-- `parameters.insert(1, x)`. -/
def insert1 (ps : Sig W) (x : Param W) : Sig W := ps.take 1 ++ x :: ps.drop 1

/-- `inspect.Parameter(name=name, kind=inspect.Parameter.POSITIONAL_OR_KEYWORD)`. -/
def newParam (name : String) : Param W := ⟨name, .posOrKw, none⟩

/-- The solver classes. -/
inductive Cls where
  | andersonAcceleration | armijoSGD | bfgs | broyden | fixedPointIteration | gradientDescent | lbfgs | nonlinearCG | optaxSolver
  | polyakSGD | bisection | scipyRootFinding
  | proximalGradient | blockCoordinateDescent | mirrorDescent | lbfgsb
  | projectedGradient
  | gaussNewton | levenbergMarquardt | scipyMinimize | scipyLeastSquares | scipyBoundedMinimize | scipyBoundedLeastSquares
  | boxCDQP | boxOSQP | iterativeRefinement | equalityConstrainedQP | cvxpyQP
  | andersonWrapper (inner : Cls)
  deriving DecidableEq

/-- `(params, *args, **kwargs)`, the signature of most optimality functions. -/
def genericSig : Sig W := [⟨"params", .posOrKw, none⟩, ⟨"args", .varPos, none⟩, ⟨"kwargs", .varKw, none⟩]

/-- `(sol, name, *args, **kwargs)`. -/
def genericSig2 (name : String) : Sig W :=
  [⟨"sol", .posOrKw, none⟩, ⟨name, .posOrKw, none⟩, ⟨"args", .varPos, none⟩, ⟨"kwargs", .varKw, none⟩]

/-- A signature of plain required parameters. -/
def namedSig (names : List String) : Sig W := names.map fun n => ⟨n, .posOrKw, none⟩

/-- A signature of plain parameters that default to `None`. -/
def optionalSig (noneW : W) (names : List String) : Sig W := names.map fun n => ⟨n, .posOrKw, some noneW⟩

/-- `inspect.signature(self.optimality_fun)`, for a user function with signature `u`; `noneW` is a default value `None`.
anderson.py 251, armijo_sgd.py 330, bfgs.py 277, broyden.py 396, fixed_point_iteration.py 127, gradient_descent.py 95, lbfgs.py 419,
nonlinear_cg.py 285, optax_wrapper.py 162, polyak_sgd.py 262, gauss_newton.py 149-152, levenberg_marquardt.py 511, anderson_wrapper.py
168, scipy_wrappers.py 314, 637 (first parameter `sol`, which does not matter): generic; bisection.py 63 and scipy_wrappers.py 495: the
function of the user (without `has_aux`); proximal_gradient.py 311, block_cd.py 178-182, mirror_descent.py 206, lbfgsb.py 576,
projected_gradient.py 139, scipy_wrappers.py 436 and 765: with one more parameter; cd_qp.py 140-143, osqp.py 129 (by implicit_diff.py 351), iterative_refinement.py 198-202, eq_qp.py 99, implicit_diff.py 351: named. -/
def optSig (noneW : W) (u : Sig W) : Cls → Sig W
  | .bisection | .scipyRootFinding => u
  | .proximalGradient | .blockCoordinateDescent => genericSig2 "hyperparams_prox"
  | .mirrorDescent | .projectedGradient => genericSig2 "hyperparams_proj"
  | .lbfgsb | .scipyBoundedMinimize | .scipyBoundedLeastSquares => genericSig2 "bounds"
  | .boxCDQP => namedSig ["sol", "params_obj", "params_ineq"]
  | .boxOSQP | .cvxpyQP => namedSig ["params", "params_obj", "params_eq", "params_ineq"]
  | .iterativeRefinement => namedSig ["params", "A", "b"] ++ optionalSig noneW ["A_bar"]
  | .equalityConstrainedQP => namedSig ["params", "params_obj", "params_eq"]
  | _ => genericSig

/-- Construction of a solver for a user function with signature `u`, as far as the attribute `reference_signature` is concerned: the
attribute, or `none` if it is not set.
Set to the user function (resolved by implicit_diff.py lines 191-195): anderson.py 269, armijo_sgd.py 357, bfgs.py 293, broyden.py 417,
fixed_point_iteration.py 140, gradient_descent.py 101, lbfgs.py 440, nonlinear_cg.py 303, optax_wrapper.py 174, polyak_sgd.py 281.
One parameter inserted: proximal_gradient.py 337-343, block_cd.py 224-230, mirror_descent.py 222-228, lbfgsb.py 602-608.
`AndersonWrapper` copies the attribute of the wrapped solver, anderson_wrapper.py 181.  The other classes do not set it. -/
def refAttr (u : Sig W) : Cls → Except ExcR (Option (Sig W))
  | .andersonAcceleration | .armijoSGD | .bfgs | .broyden | .fixedPointIteration | .gradientDescent | .lbfgs | .nonlinearCG
  | .optaxSolver | .polyakSGD => .ok (some u)
  | .proximalGradient | .blockCoordinateDescent => (mkSignature (insert1 u (newParam "hyperparams_prox"))).map some
  | .mirrorDescent => (mkSignature (insert1 u (newParam "hyperparams_proj"))).map some
  | .lbfgsb => (mkSignature (insert1 u (newParam "bounds"))).map some
  | .projectedGradient => (mkSignature (insert1 u (newParam "hyperparams_prox"))).map fun _ => none
  | .andersonWrapper c =>
    match refAttr u c with
    | .error e => .error e
    | .ok none => .error .attributeError
    | .ok (some s) => .ok (some s)
  | _ => .ok none

/-- The class whose `run` is decorated: `ProjectedGradient.run` calls `self._pg.run`, projected_gradient.py 132-137. -/
def runner : Cls → Cls
  | .projectedGradient => .proximalGradient
  | c => c

/-- The reference signature of the backward pass: base.py 349 and implicit_diff.py 186-195. -/
def backRef (noneW : W) (u : Sig W) (c : Cls) : Except ExcR (Sig W) :=
  (refAttr u c).bind fun _ => (refAttr u (runner c)).map fun r => r.getD (optSig noneW u (runner c))

/-- The signature of `run`: base.py 334-337 and scipy_wrappers.py 377-380, 500-503, 686-689 (`init_params, *args, **kwargs`),
mirror_descent.py 195-199, projected_gradient.py 132-136, scipy_wrappers.py 441-445 and 770-774, osqp.py 743-747,
iterative_refinement.py 178-182, eq_qp.py 210-215, cvxpy_wrapper.py 98-102, bisection.py 164-167. -/
def runSig (noneW : W) : Cls → Sig W
  | .mirrorDescent | .projectedGradient => [⟨"init_params", .posOrKw, none⟩, ⟨"hyperparams_proj", .posOrKw, some noneW⟩,
      ⟨"args", .varPos, none⟩, ⟨"kwargs", .varKw, none⟩]
  | .scipyBoundedMinimize | .scipyBoundedLeastSquares => [⟨"init_params", .posOrKw, none⟩, ⟨"bounds", .posOrKw, none⟩,
      ⟨"args", .varPos, none⟩, ⟨"kwargs", .varKw, none⟩]
  | .boxOSQP => optionalSig noneW ["init_params", "params_obj", "params_eq", "params_ineq"]
  | .equalityConstrainedQP => optionalSig noneW ["init_params", "params_obj", "params_eq"]
  | .cvxpyQP => namedSig ["init_params", "params_obj"] ++ optionalSig noneW ["params_eq", "params_ineq"]
  | .iterativeRefinement => namedSig ["init_params", "A", "b"] ++ optionalSig noneW ["A_bar"]
  | .bisection => optionalSig noneW ["init_params"] ++ [⟨"args", .varPos, none⟩, ⟨"kwargs", .varKw, none⟩]
  | _ => [⟨"init_params", .posOrKw, none⟩, ⟨"args", .varPos, none⟩, ⟨"kwargs", .varKw, none⟩]

/-- The signature of the decorated function: `self._run`, `(init_params, *args, **kwargs)` (base.py 296-299), for the iterative
solvers, and `self.run` for the wrappers. -/
def decoratedSig (noneW : W) : Cls → Sig W
  | .scipyBoundedMinimize => runSig noneW .scipyBoundedMinimize
  | .scipyBoundedLeastSquares => runSig noneW .scipyBoundedLeastSquares
  | .equalityConstrainedQP => runSig noneW .equalityConstrainedQP
  | .cvxpyQP => runSig noneW .cvxpyQP
  | _ => [⟨"init_params", .posOrKw, none⟩, ⟨"args", .varPos, none⟩, ⟨"kwargs", .varKw, none⟩]

/-- The backward pass of a call `solver.run(*args, **kwargs)`: construction, Python's own binding to `run`, the binding of
`wrapped_solver_fun`, and `solver_fun_bwd`.  `noneV` and `noneW` are `None`. -/
def runBwd (noneV : V) (noneW : Src × V) (u : Sig (Src × V)) (c : Cls) (rootVjp : List V → List C) (args : List V) (kwargs : Dict V) :
    Except ExcR (List (Option C)) :=
  (backRef noneW u c).bind fun ref =>
    match (signatureBind (runSig noneV c) args kwargs).bind fun r =>
        (wrappedFlat (decoratedSig noneV (runner c)) r.1 r.2).bind fun f => solverFunBwd ref rootVjp f.1 f.2 with
    | .ok out => .ok out
    | .error e => .error (.inner e)

/-- The options `implicit_diff` and `implicit_diff_solve` of a solver object. -/
structure Options (S : Type*) where
  implicitDiff : Bool
  solve : Option S

/-- The options of the object whose `run` is called: `ProjectedGradient` constructs a `ProximalGradient` with `implicit_diff` but
without `implicit_diff_solve` (projected_gradient.py 148-161), which then has its default `None` (proximal_gradient.py 159). -/
def runnerOptions (o : Options S) : Cls → Options S
  | .projectedGradient => { implicitDiff := o.implicitDiff, solve := none }
  | _ => o

/-- `custom_root`, implicit_diff.py 281-282: `None` becomes `solve_normal_cg`. -/
def customRootSolve (normalCg : S) : Option S → S
  | none => normalCg
  | some s => s

/-- The linear solver of the backward pass, if there is implicit differentiation: base.py 348-356. -/
def solveUsed (normalCg : S) (o : Options S) (c : Cls) : Option S :=
  if (runnerOptions o c).implicitDiff then some (customRootSolve normalCg (runnerOptions o c).solve) else none

end Jaxopt.Implicit
