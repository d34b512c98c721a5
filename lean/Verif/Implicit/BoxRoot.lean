import Verif.Implicit.KktRoot
import Verif.OSQP.Box
import Verif.LinSolve.Model

/-!
# Model: the optimality function of `BoxOSQP` under `root_vjp` and `root_jvp`

`BoxOSQP.run` and, through it, `OSQP.run` (osqp.py lines 1024-1029) are differentiated with the root of `_make_osqp_optimality_fun`, osqp.py lines
78-129.  The data depend on parameters `θ`.  An infinite bound is marked (`lfin`, `ufin` are `false`) and the number stored there is not
read; which bounds are infinite does not depend on the parameters.  Only `fun = None` is modelled.
-/

set_option autoImplicit false
set_option linter.unusedSectionVars false
set_option linter.unusedVariables false

namespace Jaxopt.Implicit

open Jaxopt.QP

variable {n m : ℕ} {Θ : Type*}

/-- The data of `BoxOSQP` as functions of parameters. -/
structure BoxFamily (n m : ℕ) (Θ : Type*) where
  Q : Θ → Matrix (Fin n) (Fin n) ℝ
  c : Θ → Fin n → ℝ
  A : Θ → Matrix (Fin m) (Fin n) ℝ
  l : Θ → Fin m → ℝ
  u : Θ → Fin m → ℝ
  lfin : Fin m → Bool
  ufin : Fin m → Bool

/-- A flattened solution `((x, z), y, (mu, phi))`. -/
abbrev BoxVec (n m : ℕ) := KktVec (Fin n ⊕ Fin m) (Fin m) (Fin m ⊕ Fin m)

/-- `obj_fun`, `eq_fun` and `ineq_fun` of osqp.py lines 94-127 with their derivatives; `tree_where` selects the branch `0`, with derivative zero, at
infinite bounds. -/
noncomputable def BoxFamily.nlp (D : BoxFamily n m Θ) : Nlp (Fin n ⊕ Fin m) (Fin m) (Fin m ⊕ Fin m) Θ where
  grad := fun v θ =>
    let x := fun j => v (.inl j)
    Sum.elim ((1 / 2 : ℝ) • ((D.Q θ).mulVec x + (D.Q θ).transpose.mulVec x) + D.c θ) 0
  eq := fun v θ =>
    let x := fun j => v (.inl j)
    (D.A θ).mulVec x - fun i => v (.inr i)
  eqJac := fun _ θ i => Sum.elim (D.A θ i) fun i' => if i' = i then -1 else 0
  ineq := fun v θ =>
    let z := fun i => v (.inr i)
    Sum.elim (fun i => if D.ufin i then z i - D.u θ i else 0) fun i => if D.lfin i then D.l θ i - z i else 0
  ineqJac := fun _ θ =>
    Sum.elim (fun i => Sum.elim 0 fun i' => if D.ufin i then (if i' = i then 1 else 0) else 0)
      fun i => Sum.elim 0 fun i' => if D.lfin i then (if i' = i then -1 else 0) else 0

/-- The `KKTSolution` that `BoxOSQP` returns for `x` and `y`: `z = Ax`, and the multipliers of `_get_full_KKT_solution` (lines 497-515). -/
noncomputable def boxSol (D : BoxFamily n m Θ) (θ : Θ) (x : Fin n → ℝ) (y : Fin m → ℝ) : BoxVec n m :=
  let p := OSQP.BoxOSQP.fullKKT x ((D.A θ).mulVec x) y
  packKkt ⟨Sum.elim p.x p.z, some p.y, some (Sum.elim p.mu p.phi)⟩

/-- `solve_normal_cg` (linear_solve.py lines 203-241) as the `solve` argument of `root_vjp` and `root_jvp`, with its default arguments: the
transposed product comes from `jax.vjp` of `matvec`. -/
noncomputable def normalCgSolve {E : Type*} [NormedAddCommGroup E] [InnerProductSpace ℝ E] [CompleteSpace E] (cg : (E → E) → E → Option E → E) :
    (E → E) → E → E :=
  fun matvec b => LinSolve.solveNormalCg (K := ℝ) cg matvec (fun y => vjp matvec b y) b none none

end Jaxopt.Implicit
