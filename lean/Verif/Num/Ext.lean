import Mathlib.Algebra.Order.Field.Basic

/-!
# Extended numbers: what jaxopt's control flow can see of IEEE floats

`Ext K` adds NaN and the two infinities to an ordered field `K`.  Rounding is not modelled.
Comparisons follow IEEE 754 (every ordered comparison with NaN is false), which is what
`jnp.greater`, `<=`, ... compute.
-/

set_option autoImplicit false

namespace Jaxopt

/-- A float as seen by the control flow: NaN, an infinity, or a finite value. -/
inductive Ext (K : Type*) where
  | nan : Ext K
  | ninf : Ext K
  | fin (x : K) : Ext K
  | pinf : Ext K
  deriving DecidableEq

namespace Ext

variable {K : Type*}

/-- IEEE `a < b`. -/
def lt [LT K] [DecidableRel (α := K) (· < ·)] : Ext K → Ext K → Bool
  | nan, _ => false
  | _, nan => false
  | ninf, ninf => false
  | ninf, _ => true
  | fin _, ninf => false
  | fin x, fin y => decide (x < y)
  | fin _, pinf => true
  | pinf, _ => false

/-- IEEE `a > b`, as in `state.error > self.tol`. -/
def gt [LT K] [DecidableRel (α := K) (· < ·)] (a b : Ext K) : Bool := lt b a

/-- IEEE `a <= b`. -/
def le [LE K] [DecidableRel (α := K) (· ≤ ·)] : Ext K → Ext K → Bool
  | nan, _ => false
  | _, nan => false
  | ninf, _ => true
  | fin _, ninf => false
  | fin x, fin y => decide (x ≤ y)
  | fin _, pinf => true
  | pinf, pinf => true
  | pinf, _ => false

/-- `jnp.isnan`. -/
def isNan : Ext K → Bool
  | nan => true
  | _ => false

end Ext

end Jaxopt
