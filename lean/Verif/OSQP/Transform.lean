import Verif.OSQP.Box

/-!
# Model of `OSQP_to_BoxOSQP` and `OSQP` (`jaxopt/_src/osqp.py` lines 820-1096)

Arrays whose number of rows matters are lists: `A`, `G` are lists of rows, `b`, `h` and the multipliers are lists of numbers.
The case without `matvec_A`, `matvec_G` (rows are concatenated) is `flat`, the case with them (a list with one entry per kind of
constraint) is `blocks`.  Each argument has one leaf.  `fun` is left out.
-/

set_option autoImplicit false
set_option linter.unusedSectionVars false
set_option linter.unusedVariables false

namespace Jaxopt.OSQP

open Jaxopt.Proj

variable {K : Type*} [Field K] [LinearOrder K] {n : ℕ}

/-- The arguments `params_obj`, `params_eq`, `params_ineq` of `OSQP.run`, lines 1045-1066. -/
structure Problem (K : Type*) (n : ℕ) where
  Q : Matrix (Fin n) (Fin n) K
  c : Fin n → K
  eq : Option (List (Fin n → K) × List K)
  ineq : Option (List (Fin n → K) × List K)

/-- A `KKTSolution` of `OSQP`: primal, `dual_eq`, `dual_ineq`. -/
structure Sol (K : Type*) (n : ℕ) where
  x : Fin n → K
  dualEq : Option (List K)
  dualIneq : Option (List K)

/-- The matrix-vector product of `DenseLinearOperator`, linear_operator.py lines 38-39, on rows. -/
def rowsMul (A : List (Fin n → K)) (x : Fin n → K) : List K := A.map (· ⬝ᵥ x)

/-- The hyper-parameters of the box problem, line 907, without matvecs. -/
structure BoxData (K : Type*) (n : ℕ) where
  A : List (Fin n → K)
  l : List (Option K)
  u : List (Option K)

/-- `(eq_size, ineq_neg_size)`, lines 871-889. -/
def sizes (P : Problem K n) : Option ℤ × Option ℤ :=
  (P.eq.map fun ab => (ab.2.length : ℤ), P.ineq.map fun gh => -(gh.2.length : ℤ))

/-- The blocks of `l`, lines 877 and 885. -/
def lowerBlocks (P : Problem K n) : List (List (Option K)) :=
  (P.eq.map fun ab => ab.2.map some).toList ++ (P.ineq.map fun gh => gh.2.map fun _ => none).toList

/-- The blocks of `u`, lines 878 and 886. -/
def upperBlocks (P : Problem K n) : List (List (Option K)) :=
  (P.eq.map fun ab => ab.2.map some).toList ++ (P.ineq.map fun gh => gh.2.map some).toList

/-- The blocks of `A_box` (`None` removed), lines 891-896. -/
def rowBlocks (P : Problem K n) : List (List (Fin n → K)) :=
  (P.eq.map fun ab => ab.1).toList ++ (P.ineq.map fun gh => gh.1).toList

/-- The message of lines 868-869. -/
def noConstraintsMsg : String := "At least one of params_eq or params_ineq must be not None." ++
  "When there are no constraints we suggest direct solving of the QP with a conjugate gradient solver."

/-- `transform` without matvecs, the hyper-parameters, lines 852-908. -/
def transform (P : Problem K n) : Except String (BoxData K n) :=
  if P.eq.isNone && P.ineq.isNone then .error noConstraintsMsg
  else .ok ⟨(rowBlocks P).flatten, (lowerBlocks P).flatten, (upperBlocks P).flatten⟩

/-- `transform`, the dual variables of a warm start, lines 881, 889 and 903-904. -/
def transformDual (s : Sol K n) : List K := (s.dualEq.toList ++ s.dualIneq.toList).flatten

/-- `leaf[:slice] if slice > 0 else leaf[slice:]`, line 915, with Python's slices. -/
def signedSlice {α : Type*} (leaf : List α) (s : ℤ) : List α :=
  if 0 < s then leaf.take s.toNat
  else if s = 0 then leaf
  else leaf.drop ((leaf.length : ℤ) + s).toNat

/-- `_pytree_split`, lines 910-916. -/
def split {α : Type*} (leaf : List α) (s : Option ℤ) : Option (List α) := s.map (signedSlice leaf)

/-- The dual variables of the box problem: concatenated, or one array for each kind of constraint. -/
inductive Dual (K : Type*) where
  | flat (v : List K)
  | blocks (v : List (List K))

/-- `box_dual_eq[0]`, line 926. -/
def Dual.front : Dual K → List K
  | .flat v => v
  | .blocks v => v.headD []

/-- `box_mu[-1]`, line 927. -/
def Dual.back : Dual K → List K
  | .flat v => v
  | .blocks v => v.getLastD []

/-- `inverse_transform`, lines 918-934. -/
def inverseTransform (sz : Option ℤ × Option ℤ) (x : Fin n → K) (y mu : Dual K) : Sol K n :=
  ⟨x, split y.front sz.1, split mu.back sz.2⟩

/-- The attributes of `S` with another problem. -/
def BoxOSQP.withProblem {m m' : ℕ} (S : BoxOSQP K n m) (Q : Matrix (Fin n) (Fin n) K) (c : Fin n → K) (A : Matrix (Fin m') (Fin n) K)
    (l u : Fin m' → Option K) : BoxOSQP K n m' where
  Q := Q
  c := c
  A := A
  l := l
  u := u
  checkInfeasability := S.checkInfeasability
  sigma := S.sigma
  momentum := S.momentum
  rhoStart := S.rhoStart
  rhoMin := S.rhoMin
  rhoMax := S.rhoMax
  stepsizeUpdatesFrequency := S.stepsizeUpdatesFrequency
  primalInfeasibleTol := S.primalInfeasibleTol
  dualInfeasibleTol := S.dualInfeasibleTol
  maxiter := S.maxiter
  tol := S.tol
  terminationCheckFrequency := S.terminationCheckFrequency
  jit := S.jit
  solve := S.solve
  sqrt := S.sqrt
  epsDiv := S.epsDiv

/-- The box solver `self._box_osqp` (attributes `S`) on the transformed problem. -/
def boxOf {m : ℕ} (S : BoxOSQP K n m) (P : Problem K n) (d : BoxData K n) : BoxOSQP K n d.A.length :=
  S.withProblem P.Q P.c (Matrix.of fun i => d.A.get i) (fun i => d.l.getD i none) (fun i => d.u.getD i none)

/-- The warm start of the box problem, lines 900-905. -/
def boxInit (d : BoxData K n) (s : Sol K n) : Params K n d.A.length :=
  BoxOSQP.fullKKT s.x (fun i => (rowsMul d.A s.x).getD i 0) (fun i => (transformDual s).getD i 0)

/-- `OSQP.init_params(None, ...)`, lines 1027-1043. -/
def osqpInit {m : ℕ} (S : BoxOSQP K n m) (P : Problem K n) (d : BoxData K n) : Sol K n :=
  let p := (boxOf S P d).initParams
  inverseTransform (sizes P) p.x (.flat (List.ofFn p.y)) (.flat (List.ofFn p.mu))

/-- `OSQP.run` without matvecs, lines 1045-1079; `none` stands for NaN parameters. -/
def osqpRun {m : ℕ} (S : BoxOSQP K n m) (P : Problem K n) (init : Option (Sol K n)) : Except String (Option (Sol K n) × Status) :=
  (transform P).bind fun d =>
    ((boxOf S P d).run (some (boxInit d (init.getD (osqpInit S P d))))).map fun r =>
      (r.1.map fun q => inverseTransform (sizes P) q.x (.flat (List.ofFn q.y)) (.flat (List.ofFn q.mu)), r.2.status)

end Jaxopt.OSQP
