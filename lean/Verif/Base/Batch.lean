import Verif.Base.Loop
import Verif.Bisect.Float
import Mathlib.Data.Fintype.Pi
import Mathlib.Algebra.BigOperators.Group.Finset.Basic
import Mathlib.Algebra.Order.BigOperators.Group.Finset

/-!
# `jax.vmap` of the loops, of `cond` and of `run`

A batch is a function on a finite index type.  The batching rules of JAX are part of the trusted base: `lax.cond` with a batched predicate evaluates both
branches on the whole batch and selects; `lax.while_loop` with a batched predicate goes on while the predicate holds for some element, evaluates the body
on the whole batch, and keeps the old carry of the elements whose predicate is false; `bool` of a batched value raises.  Predicates that happen not to
depend on the batch are treated as batched.
-/

set_option autoImplicit false
set_option linter.unusedSectionVars false
set_option linter.unusedVariables false

namespace Jaxopt.Loop

variable {ι : Type} [Fintype ι] {α β : Type*}

/-- `lax.select` on a batch. -/
def vselect (pred : ι → Bool) (new old : ι → α) : ι → α := fun i => if pred i then new i else old i

/-- `cond` under `vmap`, cond.py lines 19-24: with `jit=False` the condition is a Python truth value (`jax.disable_jit`). -/
def condV (pred : ι → Bool) (ifFun elseFun : (ι → α) → (ι → β)) (x : ι → α) (jit : Bool) : Except String (ι → β) :=
  if jit then .ok (vselect pred (ifFun x) (elseFun x)) else .error "TracerBoolConversionError"

/-- The first loop bound of `while_loop`: a Python integer, or one number for each element of the batch. -/
inductive Bound (ι : Type) where
  | static (n : Int)
  | traced (n : ι → Int)

def Bound.at : Bound ι → ι → Int
  | .static n, _ => n
  | .traced n, i => n i

/-- `_while_loop_scan` under `vmap`, loop.py lines 21-34: the carry is a batch of values and a batch of conditions. -/
def whileLoopScanV (condFun : (ι → α) → ι → Bool) (bodyFun : (ι → α) → (ι → α)) (initVal : ι → α) (maxIter : Nat) : ι → α :=
  let iter := fun (val : ι → α) =>
    let nextVal := bodyFun val
    (nextVal, condFun nextVal)
  let step := fun (tup : (ι → α) × (ι → Bool)) (_ : Nat) =>
    let new := iter tup.1
    (vselect tup.2 new.1 tup.1, vselect tup.2 new.2 (fun _ => false))
  ((List.range maxIter).foldl step (initVal, condFun initVal)).1

/-- The predicate of the batched loop, loop.py lines 51-53. -/
def activeV (condFun : (ι → α) → ι → Bool) (maxiter it : ι → Int) (val : ι → α) (i : ι) : Bool := condFun val i && decide (it i ≤ maxiter i - 1)

theorem active_decrease {condFun : (ι → α) → ι → Bool} {maxiter it : ι → Int} {val : ι → α} (h : ∃ i, activeV condFun maxiter it val i = true) :
    ∑ i, (maxiter i - vselect (activeV condFun maxiter it val) (fun i => it i + 1) it i).toNat < ∑ i, (maxiter i - it i).toNat := by
  obtain ⟨i, hi⟩ := h
  refine Finset.sum_lt_sum (fun j _ => ?_) ⟨i, Finset.mem_univ i, ?_⟩
  · unfold vselect
    have hb : ((fun i => it i + 1) j) = it j + 1 := rfl
    split <;> omega
  · have hi' := hi
    simp only [activeV, Bool.and_eq_true, decide_eq_true_eq] at hi'
    simp only [vselect, hi, if_true]
    omega

/-- The loop `lax.while_loop` of loop.py lines 49-60 under `vmap`. -/
def whileLoopLaxFromV (condFun : (ι → α) → ι → Bool) (bodyFun : (ι → α) → (ι → α)) (maxiter : ι → Int) (it : ι → Int) (val : ι → α) : ι → α :=
  if h : ∃ i, activeV condFun maxiter it val i = true then
    whileLoopLaxFromV condFun bodyFun maxiter (vselect (activeV condFun maxiter it val) (fun i => it i + 1) it)
      (vselect (activeV condFun maxiter it val) (bodyFun val) val)
  else val
termination_by ∑ i, (maxiter i - it i).toNat
decreasing_by exact active_decrease h

/-- The number of times that the batched body is evaluated. -/
def laxPassesV (condFun : (ι → α) → ι → Bool) (bodyFun : (ι → α) → (ι → α)) (maxiter : ι → Int) (it : ι → Int) (val : ι → α) : ℕ :=
  if h : ∃ i, activeV condFun maxiter it val i = true then
    1 + laxPassesV condFun bodyFun maxiter (vselect (activeV condFun maxiter it val) (fun i => it i + 1) it)
      (vselect (activeV condFun maxiter it val) (bodyFun val) val)
  else 0
termination_by ∑ i, (maxiter i - it i).toNat
decreasing_by exact active_decrease h

/-- The number of times that the body of `_while_loop_lax` is evaluated. -/
def laxPasses (condFun : α → Bool) (bodyFun : α → α) (maxiter : Int) (it : Int) (val : α) : ℕ :=
  if condFun val && decide (it ≤ maxiter - 1) then 1 + laxPasses condFun bodyFun maxiter (it + 1) (bodyFun val) else 0
termination_by (maxiter - it).toNat
decreasing_by simp_all; omega

/-- `while_loop` under `vmap`, loop.py lines 63-82: the bound of a scan is a static argument, and the Python loop takes the truth value of a batch as
soon as its range is not empty. -/
def whileLoopV (condFun : (ι → α) → ι → Bool) (bodyFun : (ι → α) → (ι → α)) (initVal : ι → α) (maxiter : Bound ι)
    (unroll jit : Bool) : Except String (ι → α) :=
  if unroll then
    match maxiter with
    | .static n =>
      if jit then
        if n < 0 then .error "negative scan length"
        else .ok (whileLoopScanV condFun bodyFun initVal n.toNat)
      else if n ≤ 0 then .ok initVal else .error "TracerBoolConversionError"
    | .traced _ => .error "the bound must be static"
  else
    if jit then .ok (whileLoopLaxFromV condFun bodyFun maxiter.at (fun _ => 0) initVal)
    else .error "unroll=False and jit=False cannot be used together"

end Jaxopt.Loop

namespace Jaxopt.Base

open Jaxopt.Loop

variable {ι : Type} [Fintype ι] {P S : Type*}

/-- The attribute `maxiter` less one, base.py line 326. -/
def Bound.pred : Bound ι → Bound ι
  | .static n => .static (n - 1)
  | .traced n => .traced (fun i => n i - 1)

/-- `_run` under `vmap`, base.py lines 296-332. -/
def runV (initState : (ι → P) → (ι → S)) (update : (ι → P × S) → (ι → P × S)) (cont : (ι → P × S) → ι → Bool) (maxiter : Bound ι) (unroll jit : Bool)
    (x0 : ι → P) : Except String (ι → P × S) := do
  let state := initState x0
  let zeroStep := fun i => (x0 i, state i)
  let optStep := update zeroStep
  let manyStep ← whileLoopV cont update optStep (Bound.pred maxiter) unroll jit
  return vselect (fun i => decide (maxiter.at i = 0)) zeroStep manyStep

end Jaxopt.Base

namespace Jaxopt.Bisect.Float

open Jaxopt.Loop Jaxopt.Base

variable {ι : Type} [Fintype ι] {K : Type*} [Field K] [LinearOrder K]

/-- `Bisection.run` under `vmap` over the bracket and the arguments of the function: `if sign == 0` (bisection.py lines 103-105) is the truth value of a
batch. -/
def runV (A : ι → Attr K) (maxiter : ℕ) (tol : K) (checkBracket unroll jit : Bool) : Except String (ι → Ext K × State K) :=
  if checkBracket then .error "TracerBoolConversionError"
  else Base.runV (fun _ => fun i => startState (A i)) (fun s => fun i => update (A i) (s i)) (fun s => fun i => Ext.gt (s i).2.error (.fin tol))
    (.static maxiter) unroll jit (fun _ => .nan)

end Jaxopt.Bisect.Float
