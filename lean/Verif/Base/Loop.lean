import Mathlib.Tactic.TypeStar

/-!
# Model of `jaxopt/_src/loop.py`
-/

set_option autoImplicit false

namespace Jaxopt.Loop

variable {α : Type*}

/-- `_while_loop_scan`, loop.py lines 21-34: `lax.scan` over `max_iter` steps is a left fold of `_fun`
(lines 28-31) over the carry `(val, cond)`; once `cond` is false every step is the no-op
`lambda x: (x, False)`.  `jax.lax.scan` is modelled for non-negative lengths only. -/
def whileLoopScan (condFun : α → Bool) (bodyFun : α → α) (initVal : α) (maxIter : Nat) : α :=
  let iter := fun (val : α) =>
    let nextVal := bodyFun val
    (nextVal, condFun nextVal)
  let step := fun (tup : α × Bool) (_ : Nat) =>
    if tup.2 then iter tup.1 else (tup.1, false)
  ((List.range maxIter).foldl step (initVal, condFun initVal)).1

/-- `_while_loop_python`, loop.py lines 37-46: `for _ in range(maxiter)` with an early `break`. -/
def whileLoopPython (condFun : α → Bool) (bodyFun : α → α) (initVal : α) : Nat → α
  | 0 => initVal
  | n + 1 => if !condFun initVal then initVal else whileLoopPython condFun bodyFun (bodyFun initVal) n

/-- The loop `lax.while_loop(_cond_fun, _body_fun, (it, val))[1]` of loop.py lines 49-60,
started at iteration counter `it`; `_cond_fun` is lines 51-53. -/
def whileLoopLaxFrom (condFun : α → Bool) (bodyFun : α → α) (maxiter : Int) (it : Int) (val : α) : α :=
  if condFun val && decide (it ≤ maxiter - 1) then
    whileLoopLaxFrom condFun bodyFun maxiter (it + 1) (bodyFun val)
  else val
termination_by (maxiter - it).toNat
decreasing_by simp_all; omega

/-- `_while_loop_lax`, loop.py lines 49-60. -/
def whileLoopLax (condFun : α → Bool) (bodyFun : α → α) (initVal : α) (maxiter : Int) : α :=
  whileLoopLaxFrom condFun bodyFun maxiter 0 initVal

/-- `while_loop`, loop.py lines 63-82.  `jax.jit` (lines 77-80) does not change results and is dropped.
A negative scan length is reported as an error (JAX gives no meaning to it); `range` of a negative
number is empty. -/
def whileLoop (condFun : α → Bool) (bodyFun : α → α) (initVal : α) (maxiter : Int)
    (unroll jit : Bool) : Except String α :=
  if unroll then
    if jit then
      if maxiter < 0 then .error "negative scan length"
      else .ok (whileLoopScan condFun bodyFun initVal maxiter.toNat)
    else .ok (whileLoopPython condFun bodyFun initVal maxiter.toNat)
  else
    if jit then .ok (whileLoopLax condFun bodyFun initVal maxiter)
    else .error "unroll=False and jit=False cannot be used together"

end Jaxopt.Loop
