import Verif.Implicit.Root
import Verif.QP.Kkt
import Mathlib.Analysis.InnerProductSpace.PiL2
import Mathlib.Data.Matrix.Mul

/-!
# Model: `make_kkt_optimality_fun` as the optimality function of `root_vjp` and `root_jvp`

The implicit derivatives of `OSQP`-like solvers, `CvxpyQP` and `EqualityConstrainedQP` are those of the root of the function returned by
`make_kkt_optimality_fun`, implicit_diff.py lines 330-375.  A `KKTSolution` is flattened into one vector, in the order of its fields; both kinds
of multipliers are present.
-/

set_option autoImplicit false
set_option linter.unusedSectionVars false
set_option linter.unusedVariables false

namespace Jaxopt.Implicit

open Jaxopt.QP

variable {n m k : Type*} [Fintype n] [Fintype m] [Fintype k] {Θ : Type*}

/-- The vector of a `KKTSolution` (base.py lines 53-56). -/
abbrev KktVec (n m k : Type*) [Fintype n] [Fintype m] [Fintype k] := EuclideanSpace ℝ (n ⊕ (m ⊕ k))

/-- Flattening a `KKTSolution`; multipliers that are `None` do not occur here. -/
noncomputable def packKkt (p : KKT ℝ (n → ℝ) (m → ℝ) k) : KktVec n m k :=
  WithLp.toLp 2 (Sum.elim p.primal (Sum.elim (p.dualEq.getD 0) (p.dualIneq.getD 0)))

/-- The primal variable of a flattened solution. -/
def KktVec.x (s : KktVec n m k) : n → ℝ := fun i => s (.inl i)

/-- The equality multipliers of a flattened solution. -/
def KktVec.y (s : KktVec n m k) : m → ℝ := fun j => s (.inr (.inl j))

/-- The inequality multipliers of a flattened solution. -/
def KktVec.l (s : KktVec n m k) : k → ℝ := fun i => s (.inr (.inr i))

/-- Unflattening. -/
def unpackKkt (s : KktVec n m k) : KKT ℝ (n → ℝ) (m → ℝ) k := ⟨s.x, some s.y, some s.l⟩

/-- A program with parameters `θ`: the gradient of the objective, the constraint functions and their Jacobians (which `jax.vjp` multiplies from
the left), implicit_diff.py lines 330-349. -/
structure Nlp (n m k Θ : Type*) where
  grad : (n → ℝ) → Θ → n → ℝ
  eq : (n → ℝ) → Θ → m → ℝ
  eqJac : (n → ℝ) → Θ → Matrix m n ℝ
  ineq : (n → ℝ) → Θ → k → ℝ
  ineqJac : (n → ℝ) → Θ → Matrix k n ℝ

/-- The optimality function that `root_vjp` and `root_jvp` receive, implicit_diff.py lines 351-373. -/
noncomputable def Nlp.kktFun (N : Nlp n m k Θ) (s : KktVec n m k) (θ : Θ) : KktVec n m k :=
  packKkt (kktOptimality (fun x => N.grad x θ) (fun x => N.eq x θ) (fun x y => (N.eqJac x θ).transpose.mulVec y) (fun x => N.ineq x θ)
    (fun x l => (N.ineqJac x θ).transpose.mulVec l) (unpackKkt s))

/-- The quadratic programs of cvxpy_wrapper.py lines 62-78, with data that depend on `θ`. -/
structure QPFamily (n m k Θ : Type*) where
  Q : Θ → Matrix n n ℝ
  c : Θ → n → ℝ
  A : Θ → Matrix m n ℝ
  b : Θ → m → ℝ
  G : Θ → Matrix k n ℝ
  h : Θ → k → ℝ

/-- `obj_fun`, `eq_fun` and `ineq_fun` of cvxpy_wrapper.py lines 62-78; `jax.grad` of the quadratic form is `½(Q + Qᵀ)x + c`. -/
noncomputable def QPFamily.nlp (D : QPFamily n m k Θ) : Nlp n m k Θ where
  grad := fun x θ => (1 / 2 : ℝ) • ((D.Q θ).mulVec x + (D.Q θ).transpose.mulVec x) + D.c θ
  eq := fun x θ => (D.A θ).mulVec x - D.b θ
  eqJac := fun _ θ => D.A θ
  ineq := fun x θ => (D.G θ).mulVec x - D.h θ
  ineqJac := fun _ θ => D.G θ

end Jaxopt.Implicit
