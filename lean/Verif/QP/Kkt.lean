import Verif.FixedPoint.Iteration
import Mathlib.Algebra.Module.LinearMap.Basic
import Mathlib.Algebra.Module.LinearMap.Defs
import Mathlib.Algebra.Module.Prod
import Mathlib.Algebra.Module.Pi
import Mathlib.Algebra.Field.Defs

/-!
# Models of `make_kkt_optimality_fun` (`jaxopt/_src/implicit_diff.py` lines 330-375) and of `jaxopt/_src/eq_qp.py`

Primal variables live in a module `E`, equality multipliers in a module `F`, inequality multipliers are vectors `ι → K` (the code
multiplies and compares them entry by entry).  `jax.grad` and `jax.vjp` of the user functions are parameters.
-/

set_option autoImplicit false
set_option linter.unusedSectionVars false
set_option linter.unusedVariables false

namespace Jaxopt.QP

open Jaxopt.FixedPoint

variable {K E F ι : Type*} [Field K] [LinearOrder K] [AddCommGroup E] [Module K E] [AddCommGroup F] [Module K F]

/-- `KKTSolution`, base.py lines 53-56. -/
structure KKT (K E F ι : Type*) where
  primal : E
  dualEq : Option F
  dualIneq : Option (ι → K)

/-- `optimality_fun` of `make_kkt_optimality_fun`, implicit_diff.py lines 350-373.  `eqVjp x`, `ineqVjp x` are the vector-Jacobian
products of the constraint functions at `x`. -/
def kktOptimality (gradFun : E → E) (eqFun : E → F) (eqVjp : E → F → E) (ineqFun : E → ι → K) (ineqVjp : E → (ι → K) → E)
    (p : KKT K E F ι) : KKT K E F ι :=
  let stationarity := gradFun p.primal
  let s1 := match p.dualEq with
    | some y => stationarity + eqVjp p.primal y
    | none => stationarity
  let primalFeasability := p.dualEq.map fun _ => eqFun p.primal
  let s2 := match p.dualIneq with
    | some l => s1 + ineqVjp p.primal l
    | none => s1
  let compSlackness := p.dualIneq.map fun l => fun i => ineqFun p.primal i * l i
  ⟨s2, primalFeasability, compSlackness⟩

/-- The attributes of `EqualityConstrainedQP` (eq_qp.py lines 146-155) and the data of a run: `Q` is `self.matvec_Q(params_Q)` and `Qt`
its transpose, `A`, `At` are the matvec and rmatvec of `self.matvec_A(params_A)`.  `solve` receives the operator, the right-hand side
and the optional initial guess; its own `maxiter` and `tol` are part of it. -/
structure EqQP (K E F : Type*) [Field K] [AddCommGroup E] [Module K E] [AddCommGroup F] [Module K F] where
  Q : E →ₗ[K] E
  Qt : E →ₗ[K] E
  c : E
  A : E →ₗ[K] F
  At : F →ₗ[K] E
  b : F
  solve : (E × F → E × F) → E × F → Option (E × F) → E × F
  norm : E × F → K
  refineRegularization : K
  refineMaxiter : ℕ
  tol : K

namespace EqQP

/-- `matvec` of `run`, lines 241-244. -/
def matvec (S : EqQP K E F) (u : E × F) : E × F := (S.Q u.1 + S.At u.2, S.A u.1)

/-- `target`, line 246. -/
def target (S : EqQP K E F) : E × F := (-S.c, S.b)

/-- `matvec_regularized_qp`, lines 194-199. -/
def matvecBar (S : EqQP K E F) (u : E × F) : E × F :=
  let s := S.matvec u
  (s.1 + S.refineRegularization • u.1, s.2 + (-S.refineRegularization) • u.2)

/-- The `IterativeRefinement` solver of `_refined_solve`, lines 201-207 (`unroll="auto"` with `jit=True` does not unroll). -/
def refine (S : EqQP K E F) : Refine K (E × F) where
  matvecA := S.matvec
  matvecAbar := some S.matvecBar
  solve := fun M t i => S.solve M t (some i)
  norm := S.norm
  b := S.target
  maxiter := S.refineMaxiter
  tol := S.tol
  unroll := false
  jit := true

/-- `run`, lines 210-270. -/
def run (S : EqQP K E F) (init : Option (E × F)) : Except String (KKT K E F ι) :=
  if S.refineRegularization = 0 then
    let r := S.solve S.matvec S.target init
    .ok ⟨r.1, some r.2, none⟩
  else
    (S.refine.run init).map fun r => ⟨r.1.1, some r.1.2, none⟩

/-- `optimality_fun`, lines 65-102: the KKT function of `½⟨x, Qx⟩ + ⟨x, c⟩` and `Ax - b`; the gradient that `jax.grad` computes of
the quadratic form is `½(Qx + Qᵀx) + c`. -/
def optimalityFun (S : EqQP K E F) (p : KKT K E F ι) : KKT K E F ι :=
  kktOptimality (fun x => (1 / 2 : K) • (S.Q x + S.Qt x) + S.c) (fun x => S.A x - S.b) (fun _ y => S.At y) (fun _ _ => 0)
    (fun _ _ => 0) p

end EqQP

end Jaxopt.QP
