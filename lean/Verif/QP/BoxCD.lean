import Verif.Base.RunS
import Verif.Num.Ext
import Verif.Proj.Model
import Mathlib.Data.Matrix.Mul

/-!
# Model of `jaxopt/_src/cd_qp.py`
-/

set_option autoImplicit false
set_option linter.unusedSectionVars false
set_option linter.unusedVariables false

namespace Jaxopt.QP

open Jaxopt.Base Jaxopt.Proj

variable {K : Type*} [Field K] [LinearOrder K] {n : ℕ}

/-- `jax.lax.fori_loop(lower=0, upper=n, body_fun, init_val)`. -/
def foriLoop {σ : Type*} (n : ℕ) (body : Fin n → σ → σ) (init : σ) : σ := (List.finRange n).foldl (fun s i => body i s) init

/-- `fori_loop_body_fun`, lines 37-51; the loop-invariant data `Q, c, l, u` are arguments. -/
def boxBody (Q : Matrix (Fin n) (Fin n) K) (c l u : Fin n → K) (i : Fin n) (t : (Fin n → K) × K) : (Fin n → K) × K :=
  let x := t.1
  let gi := Q i ⬝ᵥ x + c i
  let hi := Q i i
  let update := if hi = 0 then 0 else gi / hi
  let xNew := clip (x i - update) (l i) (u i)
  let delta := xNew - x i
  (Function.update x i xNew, t.2 + |delta|)

/-- `BoxCDQPState`, lines 31-34. -/
structure BoxCDQPState (K : Type*) where
  iterNum : ℕ
  error : Ext K

/-- Attributes of `BoxCDQP` (lines 74-80) and the arguments `params_obj`, `params_ineq` of a run. -/
structure BoxCDQP (K : Type*) (n : ℕ) where
  Q : Matrix (Fin n) (Fin n) K
  c : Fin n → K
  l : Fin n → K
  u : Fin n → K
  tol : K
  maxiter : ℕ
  unroll : Bool
  jit : Bool

namespace BoxCDQP

/-- `init_state`, lines 82-97. -/
def initState (S : BoxCDQP K n) (x0 : Fin n → K) : BoxCDQPState K := ⟨0, .pinf⟩

/-- `update`, lines 99-129. -/
def update (S : BoxCDQP K n) (p : (Fin n → K) × BoxCDQPState K) : (Fin n → K) × BoxCDQPState K :=
  let r := foriLoop n (boxBody S.Q S.c S.l S.u) (p.1, 0)
  (r.1, ⟨p.2.iterNum + 1, .fin r.2⟩)

/-- `_cond_fun`, base.py lines 264-266. -/
def cont (S : BoxCDQP K n) (p : (Fin n → K) × BoxCDQPState K) : Bool := Ext.gt p.2.error (.fin S.tol)

/-- `run`, base.py lines 296-332. -/
def run (S : BoxCDQP K n) (x0 : Fin n → K) : Except String ((Fin n → K) × BoxCDQPState K) :=
  runS S.initState S.update S.cont S.maxiter S.unroll S.jit x0

/-- `_fixed_point_fun`, lines 131-138. -/
def fixedPointFun (S : BoxCDQP K n) (x : Fin n → K) : Fin n → K :=
  projectionBox (x - (S.Q.mulVec x + S.c)) S.l S.u

/-- `optimality_fun`, lines 140-144. -/
def optimalityFun (S : BoxCDQP K n) (x : Fin n → K) : Fin n → K := S.fixedPointFun x - x

end BoxCDQP

end Jaxopt.QP
