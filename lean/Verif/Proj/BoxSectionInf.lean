import Verif.Proj.Model
import Verif.Loss.Masked

/-!
# Model of `projection_box_section` with infinite bounds

`jaxopt/_src/projection.py` lines 408-425 and 461 with the bisection of `jaxopt/_src/bisection.py`, in IEEE arithmetic: the point, the weights and the offset
are finite, the bounds are IEEE numbers.  Finite arithmetic is exact.
-/

set_option autoImplicit false
set_option linter.unusedSectionVars false
set_option linter.unusedVariables false

namespace Jaxopt.Proj.BoxInf

open Jaxopt.Loss

variable {K : Type*} [Field K] [LinearOrder K] {n : ℕ}

/-- `jnp.clip`. -/
def clipE (v lo hi : Ext K) : Ext K := Ext.min (Ext.max v lo) hi

/-- `jnp.clip(w * tau + x, alpha, beta)`, projection.py lines 413 and 461. -/
def pointE (x : Fin n → K) (alpha beta : Fin n → Ext K) (w : Fin n → K) (tau : Ext K) : Fin n → Ext K := fun i =>
  clipE (Ext.add (Ext.smul (w i) tau) (.fin (x i))) (alpha i) (beta i)

/-- `_optimality_fun_proj_box_sec`, projection.py lines 408-414. -/
def funE (x : Fin n → K) (alpha beta : Fin n → Ext K) (w : Fin n → K) (c : K) (tau : Ext K) : Ext K :=
  Ext.sub (dotE (fun i => .fin (w i)) (pointE x alpha beta w tau)) (.fin c)

/-- `jnp.min((alpha - x) / w)`, projection.py line 419, for non-zero weights. -/
def lowerE (x : Fin n → K) (alpha : Fin n → Ext K) (w : Fin n → K) : Ext K :=
  (List.ofFn fun i => Ext.smul (w i)⁻¹ (Ext.sub (alpha i) (.fin (x i)))).foldr Ext.min .pinf

/-- `jnp.max((beta - x) / w)`, projection.py line 420, for non-zero weights. -/
def upperE (x : Fin n → K) (beta : Fin n → Ext K) (w : Fin n → K) : Ext K :=
  (List.ofFn fun i => Ext.smul (w i)⁻¹ (Ext.sub (beta i) (.fin (x i)))).foldr Ext.max .ninf

/-- The sign of the bracket, bisection.py lines 99-101. -/
def signE (lowerValue upperValue : Ext K) : K :=
  if Ext.lt lowerValue (.fin 0) && Ext.le (.fin 0) upperValue then 1
  else if Ext.gt lowerValue (.fin 0) && Ext.le upperValue (.fin 0) then -1 else 0

/-- `update`, bisection.py lines 133-142: the new parameters and the new bracket `(low, high)`. -/
def updateE (f : Ext K → Ext K) (sign : K) (s : Ext K × Ext K) : Ext K × (Ext K × Ext K) :=
  let params := Ext.smul (1 / 2) (Ext.add s.2 s.1)
  let value := f params
  let tooLarge := Ext.gt (Ext.smul sign value) (.fin 0)
  (params, (if tooLarge then s.1 else params, if tooLarge then params else s.2))

/-- The bracket after `k` updates. -/
def bracketAfterE (f : Ext K → Ext K) (sign : K) (s : Ext K × Ext K) : ℕ → Ext K × Ext K
  | 0 => s
  | k + 1 => (updateE f sign (bracketAfterE f sign s k)).2

/-- `projection_box_section`, projection.py lines 417-425 and 461, when the bisection performs `k + 1` updates. -/
def projectionBoxSectionE (x : Fin n → K) (alpha beta : Fin n → Ext K) (w : Fin n → K) (c : K) (k : ℕ) : Fin n → Ext K :=
  let f := funE x alpha beta w c
  let s := (lowerE x alpha w, upperE x beta w)
  let sign := signE (f s.1) (f s.2)
  pointE x alpha beta w (updateE f sign (bracketAfterE f sign s k)).1

/-- The feasibility check of lines 454-459 accepts the problem. -/
def checkFeasibleE (alpha beta : Fin n → Ext K) (w : Fin n → K) (c : K) : Bool :=
  !Ext.gt (dotE (fun i => .fin (w i)) alpha) (.fin c) && !Ext.lt (dotE (fun i => .fin (w i)) beta) (.fin c)

end Jaxopt.Proj.BoxInf
