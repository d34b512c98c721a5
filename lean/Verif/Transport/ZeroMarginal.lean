import Verif.Transport.Model
import Verif.Loss.Masked

/-!
# Model of the semi-dual transport objectives in IEEE arithmetic

`jaxopt/_src/projection.py` lines 464-512 and 584-596 for finite potentials, costs and marginals.  Finite arithmetic is exact; `x / 0`, `log 0` and
`0 * inf` are those of IEEE arithmetic (the zero marginal is `+0`).
-/

set_option autoImplicit false
set_option linter.unusedSectionVars false
set_option linter.unusedVariables false

namespace Jaxopt.Transport

open Jaxopt.Proj Jaxopt.Loss

section
variable {K : Type*} [Field K] [LinearOrder K] {m n : ℕ}

/-- IEEE division of finite numbers, a zero divisor being `+0`. -/
def divE (x s : K) : Ext K := if s = 0 then (if 0 < x then .pinf else if x < 0 then .ninf else .nan) else .fin (x / s)

/-- `p` of `_max_l2`, projection.py lines 465-467. -/
def maxL2ArgE (x : Fin m → K) (marginalB gamma : K) : Fin m → Ext K := simplexE fun i => divE (x i) (gamma * marginalB)

/-- `_max_l2`, projection.py lines 464-471. -/
def maxL2E (x : Fin m → K) (marginalB gamma : K) : Ext K :=
  let scale := gamma * marginalB
  let p := maxL2ArgE x marginalB gamma
  Ext.sub (dotE (fun i => .fin (x i)) p) (mulE (.fin (1 / 2 * scale)) (dotE p p))

/-- `_make_semi_dual`, projection.py lines 504-512. -/
def semiDualE (maxFun : (Fin m → K) → K → K → Ext K) (gamma : K) (cost : Fin m → Fin n → K) (a : Fin m → K) (b : Fin n → K) (alpha : Fin m → K) : Ext K :=
  Ext.sub (dotE (fun j => .fin (b j)) fun j => maxFun (fun i => alpha i - cost i j) (b j) gamma) (dotE (fun i => .fin (alpha i)) fun i => .fin (a i))

/-- `max_grad_vmap(X, marginals_b, gamma).T * marginals_b`, projection.py lines 593-594. -/
def semiDualPlanE (maxGrad : (Fin m → K) → K → K → Fin m → Ext K) (gamma : K) (cost : Fin m → Fin n → K) (b : Fin n → K) (alpha : Fin m → K) :
    Fin m → Fin n → Ext K :=
  fun i j => mulE (maxGrad (fun i => alpha i - cost i j) (b j) gamma i) (.fin (b j))

end

variable {m : ℕ}

/-- `_max_ent`, projection.py lines 474-475. -/
noncomputable def maxEntE (x : Fin m → ℝ) (marginalB gamma : ℝ) : Ext ℝ :=
  Ext.sub (mulE (.fin gamma) (logsumexpE fun i => .fin (x i / gamma))) (mulE (.fin gamma) (logE (.fin marginalB)))

/-- `jax.grad(_max_ent)`, projection.py line 482: the softmax, finite for finite arguments. -/
noncomputable def maxEntGradE (x : Fin m → ℝ) (marginalB gamma : ℝ) : Fin m → Ext ℝ := fun i => .fin (maxEntGrad x marginalB gamma i)

end Jaxopt.Transport
