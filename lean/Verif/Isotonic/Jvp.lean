import Verif.Isotonic.Model
import Mathlib.Algebra.BigOperators.Fin
import Mathlib.Algebra.Order.Group.Unbundled.Abs
import Mathlib.Data.List.Sort
import Mathlib.Order.WithBot

/-!
# Model of the derivative rule of `jaxopt/_src/isotonic.py`

Lines 128-153, and forward-mode differentiation of lines 122-125.  Arrays are functions on indices, `+inf` among the start
indices is `⊤`.
-/

set_option autoImplicit false
set_option linter.unusedSectionVars false
set_option linter.unusedVariables false

namespace Jaxopt.Isotonic

open Finset

variable {K : Type*} [Field K] [LinearOrder K] [IsStrictOrderedRing K]

/-- Line 130: `jnp.pad(jnp.absolute(jnp.diff(x)) <= eps, (1, 0))`. -/
def jvpMask (x : ℕ → K) (eps : K) (t : ℕ) : Bool :=
  match t with
  | 0 => false
  | t + 1 => decide (|x (t + 1) - x t| ≤ eps)

/-- Lines 131-132: `jnp.where(mask == 0, ar, +jnp.inf).sort()`. -/
def indsStart (n : ℕ) (x : ℕ → K) (eps : K) : List (WithTop ℕ) :=
  ((List.range n).map fun t => if jvpMask x eps t = false then (t : WithTop ℕ) else ⊤).insertionSort (· ≤ ·)

/-- Line 133: `jax.nn.one_hot`; an index out of range gives a zero row. -/
def oneHot (s : WithTop ℕ) (j : ℕ) : K := if s = (j : WithTop ℕ) then 1 else 0

/-- Line 134: `jnp.cumsum(one_hot_start, axis=-1)`. -/
def cumOneHot (inds : List (WithTop ℕ)) (r j : ℕ) : K := ∑ k ∈ range (j + 1), oneHot (inds.getD r ⊤) k

/-- Line 135: differences of consecutive rows, with the last row appended. -/
def blockRows (n : ℕ) (inds : List (WithTop ℕ)) (r j : ℕ) : K :=
  if r + 1 < n then cumOneHot inds r j - cumOneHot inds (r + 1) j else cumOneHot inds r j

/-- `_jvp_isotonic_l2_jax_pav`, lines 128-137; `delta` is the `1e-8` of line 137. -/
def jvpPavWith (n : ℕ) (eps delta : K) (x vector : ℕ → K) : ℕ → K :=
  let A := blockRows (K := K) n (indsStart n x eps)
  fun j => ∑ r ∈ range n, A r j * (∑ k ∈ range n, A r k * vector k) / (∑ k ∈ range n, A r k + delta)

/-- The two constants `1e-8` of lines 128 and 137. -/
def eps8 : K := 1 / 10 ^ 8

/-- `_jvp_isotonic_l2_jax_pav` with its default `eps`. -/
def jvpPav (n : ℕ) (x vector : ℕ → K) : ℕ → K := jvpPavWith n eps8 eps8 x vector

/-- Tangent of `jnp.clip(x, y_min, y_max)` in `x`: `jax` propagates the tangent where the argument is selected, half of it at ties. -/
def clipTangent (x : K) (lo hi : Option K) (t : K) : K :=
  let (x, t) := match lo with
    | none => (x, t)
    | some l => (max x l, if l < x then t else if x = l then t / 2 else 0)
  match hi with
  | none => t
  | some h => if x < h then t else if x = h then t / 2 else 0

/-- `jax.jvp` of `isotonic_l2_pav` in `y`, lines 122-125 with the rule of lines 140-153. -/
def isotonicL2PavJvp {n : ℕ} (y : Fin n → K) (yMin yMax : Option K) (increasing : Bool) (yDot : Fin n → K) :
    Option ((Fin n → K) × (Fin n → K)) :=
  let sign : K := if increasing then -1 else 1
  match pavNumba n (fun j => if h : j < n then y ⟨j, h⟩ * sign else 0) with
  | none => none
  | some sol =>
    let tangent := jvpPav n sol (fun j => if h : j < n then yDot ⟨j, h⟩ * sign else 0)
    some (fun i => clipInf (sol i * sign) yMin yMax, fun i => clipTangent (sol i * sign) yMin yMax (tangent i * sign))

end Jaxopt.Isotonic
