import Verif.QuasiNewton.Lbfgs
import Mathlib.Data.Matrix.Mul

/-!
# Model of `jaxopt/_src/bfgs.py`

Parameters are flat vectors indexed by `ι` (the code flattens every pytree with `pytree_to_flat_array`).  The line search
is an arbitrary function.  `aux`, the evaluation counters and `verbose` are left out.
-/

set_option autoImplicit false
set_option linter.unusedSectionVars false
set_option linter.unusedVariables false

namespace Jaxopt.QuasiNewton

open Jaxopt.Base Matrix

variable {K ι : Type*} [Field K] [LinearOrder K] [Fintype ι] [DecidableEq ι]

/-- Attributes of `BFGS`, lines 119-145. -/
structure Bfgs (K ι V : Type*) where
  f : (ι → K) → V
  grad : (ι → K) → (ι → K)
  norm : (ι → K) → K
  stepsize : Stepsize K
  maxStepsize : K
  initStep : K → K
  tol : K
  maxiter : ℕ
  unroll : Bool
  jit : Bool
  runLs : K → (ι → K) → V → (ι → K) → (ι → K) → LsOut K (ι → K) V

/-- `BfgsState`, lines 48-61. -/
structure BfgsState (K ι V : Type*) where
  iterNum : ℕ
  value : V
  grad : ι → K
  stepsize : K
  error : Ext K
  H : Matrix ι ι K

/-- `jnp.reciprocal`, infinite at zero. -/
def reciprocal (a : K) : Ext K := if a = 0 then .pinf else .fin (1 / a)

namespace Bfgs

variable {V : Type*}

/-- `init_state`, lines 147-176. -/
def initState (S : Bfgs K ι V) (x0 : ι → K) : BfgsState K ι V where
  iterNum := 0
  value := S.f x0
  grad := S.grad x0
  stepsize := S.maxStepsize
  error := .pinf
  H := 1

/-- Line 200. -/
def direction (st : BfgsState K ι V) : ι → K := -(st.H *ᵥ st.grad)

/-- Lines 202-238. -/
def step (S : Bfgs K ι V) (x : ι → K) (st : BfgsState K ι V) (d : ι → K) : LsOut K (ι → K) V :=
  match S.stepsize with
  | .const a =>
    if a ≤ 0 then S.runLs (S.initStep st.stepsize) x st.value st.grad d
    else
      let x' := x + a • d
      ⟨a, x', S.f x', S.grad x', false⟩
  | .fn a =>
    let x' := x + a st.iterNum • d
    ⟨a st.iterNum, x', S.f x', S.grad x', false⟩

/-- The new `H`, lines 240-250. -/
def newH (H : Matrix ι ι K) (s y : ι → K) : Matrix ι ι K :=
  match reciprocal (y ⬝ᵥ s) with
  | .fin rho =>
    let sy := vecMulVec s y
    let ss := vecMulVec s s
    let w := 1 - rho • sy
    w * H * wᵀ + rho • ss
  | _ => H

/-- `update`, lines 178-275. -/
def update (S : Bfgs K ι V) (p : (ι → K) × BfgsState K ι V) : (ι → K) × BfgsState K ι V :=
  let o := S.step p.1 p.2 (direction p.2)
  let s := o.params - p.1
  let y := o.grad - p.2.grad
  (o.params,
    { iterNum := p.2.iterNum + 1, value := o.value, grad := o.grad, stepsize := o.stepsize,
      error := .fin (S.norm o.grad), H := newH p.2.H s y })

/-- `run` (base.py lines 296-332). -/
def run (S : Bfgs K ι V) (x0 : ι → K) : Except String ((ι → K) × BfgsState K ι V) :=
  runS S.initState S.update (fun p => Ext.gt p.2.error (.fin S.tol)) S.maxiter S.unroll S.jit x0

end Bfgs

end Jaxopt.QuasiNewton
