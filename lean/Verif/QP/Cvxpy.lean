import Verif.QP.Kkt
import Mathlib.Data.Fintype.BigOperators
import Mathlib.Algebra.BigOperators.Pi

/-!
# Model of `jaxopt/_src/cvxpy_wrapper.py` (`CvxpyQP`)

Arrays carry their shape and an entry function that is only read inside the shape.  `pb.solve` is a parameter: it receives the problem
that the wrapper builds and returns the status, the value of the variable and the dual values of the constraints, any of which CVXPY
may leave at `None`.
-/

set_option autoImplicit false
set_option linter.unusedSectionVars false
set_option linter.unusedVariables false

namespace Jaxopt.QP.Cvxpy

open Jaxopt.QP

variable {K : Type*} [Field K] [LinearOrder K]

/-- A two-dimensional array. -/
structure Mat (K : Type*) where
  rows : ℕ
  cols : ℕ
  at_ : ℕ → ℕ → K

/-- A one-dimensional array. -/
structure Vec (K : Type*) where
  len : ℕ
  at_ : ℕ → K

/-- `M @ x` for a vector with `n` entries. -/
def Mat.dot (M : Mat K) {n : ℕ} (x : Fin n → K) : Fin M.rows → K := fun i => ∑ j : Fin n, M.at_ i j * x j

/-- The product with the transpose, as the vector-Jacobian product of `x ↦ M @ x` computes it. -/
def Mat.tdot (M : Mat K) {m : ℕ} (n : ℕ) (y : Fin m → K) : Fin n → K := fun j => ∑ i : Fin m, M.at_ i j * y i

/-- `jnp.vdot`. -/
def vdot {n : ℕ} (x y : Fin n → K) : K := ∑ i, x i * y i

/-- `_check_params`, lines 27-49 (`params_obj` is not `None`). -/
def checkParams (Q : Mat K) (c : Vec K) (eq ineq : Option (Mat K × Vec K)) : Except String Unit :=
  if Q.rows ≠ Q.cols then .error "Q must be a square matrix."
  else if Q.cols ≠ c.len then .error "Q.shape[1] != c.shape[0]"
  else
    let e : Except String Unit := match eq with
      | none => .ok ()
      | some (A, b) =>
        if A.rows ≠ b.len then .error "A.shape[0] != b.shape[0]"
        else if A.cols ≠ Q.cols then .error "Q.shape[1] != A.shape[1]"
        else .ok ()
    match e with
    | .error m => .error m
    | .ok () => match ineq with
      | none => .ok ()
      | some (G, h) =>
        if G.rows ≠ h.len then .error "G.shape[0] != h.shape[0]"
        else if G.cols ≠ Q.cols then .error "G.shape[1] != Q.shape[1]"
        else .ok ()

/-- A constraint of a CVXPY problem: `A @ x == b` or `G @ x <= h`. -/
inductive Constraint (K : Type*)
  | eq (A : Mat K) (b : Vec K)
  | le (G : Mat K) (h : Vec K)

/-- `cp.Problem(cp.Minimize(objective), constraints)` over a variable with `n` entries. -/
structure Problem (K : Type*) (n : ℕ) where
  objective : (Fin n → K) → K
  constraints : List (Constraint K)

/-- The attributes of a solved problem that the wrapper reads: `pb.status`, `x.value` and the `dual_value` of each entry of
`pb.constraints`. -/
structure Solved (K : Type*) (n : ℕ) where
  status : String
  value : Option (Fin n → K)
  duals : List (Option (ℕ → K))

/-- The problem built by `run`, lines 126-139. -/
def problem (Q : Mat K) (c : Vec K) (eq ineq : Option (Mat K × Vec K)) : Problem K c.len where
  objective := fun x => 1 / 2 * vdot x (fun i : Fin c.len => ∑ j : Fin c.len, Q.at_ i j * x j) + ∑ i : Fin c.len, c.at_ i * x i
  constraints :=
    (match eq with
      | none => []
      | some (A, b) => [Constraint.eq A b]) ++
    (match ineq with
      | none => []
      | some (G, h) => [Constraint.le G h])

/-- The number of equality (or inequality) multipliers. -/
def nrows (p : Option (Mat K × Vec K)) : ℕ := match p with
  | none => 0
  | some (A, _) => A.rows

/-- The `KKTSolution` returned by `run`.  A field that CVXPY left at `None` is `jnp.array(None)`, modelled as `none` inside. -/
structure Sol (K : Type*) (n me mi : ℕ) where
  primal : Option (Fin n → K)
  dualEq : Option (Option (Fin me → K))
  dualIneq : Option (Option (Fin mi → K))

/-- `run`, lines 98-153. -/
def run (solve : (n : ℕ) → Problem K n → Except String (Solved K n)) (Q : Mat K) (c : Vec K) (eq ineq : Option (Mat K × Vec K)) :
    Except String (Sol K c.len (nrows eq) (nrows ineq)) :=
  match checkParams Q c eq ineq with
  | .error m => .error m
  | .ok () =>
    match solve c.len (problem Q c eq ineq) with
    | .error m => .error m
    | .ok pb =>
      if pb.status ∈ ["infeasible", "unbounded"] then .error ("The problem is " ++ pb.status ++ ".")
      else
        let dualEq : Except String (Option (Option (Fin (nrows eq) → K))) := match eq with
          | none => .ok none
          | some _ => match pb.duals.head? with
            | none => .error "IndexError: list index out of range"
            | some d => .ok (some (d.map fun y i => y i))
        let dualIneq : Except String (Option (Option (Fin (nrows ineq) → K))) := match ineq with
          | none => .ok none
          | some _ => match pb.duals.getLast? with
            | none => .error "IndexError: list index out of range"
            | some d => .ok (some (d.map fun y i => y i))
        match dualEq, dualIneq with
        | .error m, _ => .error m
        | _, .error m => .error m
        | .ok de, .ok di => .ok ⟨pb.value, de, di⟩

/-- `optimality_fun`, lines 52-78 with implicit_diff.py lines 350-373: the residual of the KKT conditions at `(x, y, l)`, where `y` and
`l` are `None` without the constraints. -/
def optimalityFun (Q : Mat K) (c : Vec K) (eq ineq : Option (Mat K × Vec K))
    (p : KKT K (Fin c.len → K) (Fin (nrows eq) → K) (Fin (nrows ineq))) :
    KKT K (Fin c.len → K) (Fin (nrows eq) → K) (Fin (nrows ineq)) :=
  kktOptimality
    (fun x j => 1 / 2 * ((∑ k : Fin c.len, Q.at_ j k * x k) + ∑ k : Fin c.len, Q.at_ k j * x k) + c.at_ j)
    (match eq with
      | none => fun _ i => 0
      | some (A, b) => fun x i => A.dot x i - b.at_ i)
    (match eq with
      | none => fun _ _ => 0
      | some (A, b) => fun _ y => A.tdot c.len y)
    (match ineq with
      | none => fun _ i => 0
      | some (G, h) => fun x i => G.dot x i - h.at_ i)
    (match ineq with
      | none => fun _ _ => 0
      | some (G, h) => fun _ l => G.tdot c.len l)
    p

end Jaxopt.QP.Cvxpy
