import Verif.Isotonic.Model
import Verif.Num.Format
import Mathlib.Data.Rat.Floor

/-!
# Isotonic regression in computer arithmetic

`jaxopt/_src/isotonic.py` once more, with the arithmetic as a parameter: `Isotonic/Model.lean` is the case of exact arithmetic.  The arrays `c`, `sums`
and `sol` of `_isotonic_l2_pav_numba` are always of type float64 (lines 39-42: `onp.ones`, `onp.zeros`); the input and the result have the type of `y`
(line 87).
-/

set_option autoImplicit false
set_option linter.unusedSectionVars false

namespace Jaxopt.Isotonic

/-- The operations of the arithmetic: the constant of `onp.ones` (line 40), `+` (lines 64-65), `/` (line 70), the comparison `>` (lines 56 and 67),
the multiplication by `-1` (line 123), `astype(y.dtype)` (line 87) and `jnp.clip(_, y_min, y_max)` (line 124). -/
structure Ops (α : Type*) where
  one : α
  add : α → α → α
  div : α → α → α
  gt : α → α → Bool
  neg : α → α
  cast : α → α
  clip : α → α

namespace Ops

variable {α : Type*} (o : Ops α)

/-- Lines 38-51. -/
def initSt (y : ℕ → α) : St α :=
  { i := 0, target := fun i => i, c := fun _ => o.one, sums := fun i => y i, sol := fun i => y i }

/-- Inner `while True`, lines 61-67 up to the `if`. -/
def inner (st : St α) (n : ℕ) : ℕ → ℕ → α → α → Option (ℕ × α × α)
  | 0, _, _, _ => none
  | fuel + 1, k, sumY, sumC =>
    let prevY := st.sol k
    let sumY := o.add sumY (st.sums k)
    let sumC := o.add sumC (st.c k)
    let k := st.target k + 1
    if k = n ∨ o.gt prevY (st.sol k) = true then some (k, sumY, sumC) else inner st n fuel k sumY sumC

/-- Body of the `if` at lines 68-78. -/
def finish (st : St α) (k : ℕ) (sumY sumC : α) : St α :=
  let target := set (set st.target st.i (k - 1)) (k - 1) st.i
  { sol := set st.sol st.i (o.div sumY sumC)
    sums := set st.sums st.i sumY
    c := set st.c st.i sumC
    target := target
    i := if st.i > 0 then target (st.i - 1) else st.i }

/-- Outer `while i < n`, lines 52-79. -/
def outer (n : ℕ) : ℕ → St α → Option (St α)
  | 0, _ => none
  | fuel + 1, st =>
    if st.i < n then
      let k := st.target st.i + 1
      if k = n then some st
      else if o.gt (st.sol st.i) (st.sol k) = true then outer n fuel { st with i := k }
      else
        match o.inner st n n k (st.sums st.i) (st.c st.i) with
        | none => none
        | some (k, sumY, sumC) => outer n fuel (o.finish st k sumY sumC)
    else some st

/-- `_isotonic_l2_pav_numba`, lines 36-87.  The fuel of the outer loop is the one of the exact model. -/
def pavNumba (n : ℕ) (y : ℕ → α) : Option (ℕ → α) :=
  match o.outer n (3 * n + 3) (o.initSt y) with
  | none => none
  | some st =>
    match fill st.target n n 0 st.sol with
    | none => none
    | some sol => some fun j => o.cast (sol j)

/-- Multiplication by `sign`, lines 122-123. -/
def mulSign (increasing : Bool) (x : α) : α := if increasing then o.neg x else x

/-- `isotonic_l2_pav`, lines 106-125. -/
def isotonic (n : ℕ) (y : ℕ → α) (increasing : Bool) : Option (ℕ → α) :=
  match o.pavNumba n fun j => o.mulSign increasing (y j) with
  | none => none
  | some sol => some fun j => o.clip (o.mulSign increasing (sol j))

end Ops

variable {K : Type*} [Field K] [LinearOrder K]

/-- Exact arithmetic. -/
def exactOps (yMin yMax : Option K) : Ops K where
  one := 1
  add := (· + ·)
  div := (· / ·)
  gt a b := decide (a > b)
  neg x := -x
  cast := id
  clip x := clipInf x yMin yMax

/-- IEEE division by a count, which is a positive finite number unless something went wrong. -/
def divExt (a b : Ext K) : Ext K :=
  match b with
  | .fin c => if c = 0 then .nan else Ext.smul c⁻¹ a
  | _ => .nan

/-- `jnp.clip` with finite bounds or the infinite defaults. -/
def clipExt (yMin yMax : Option K) (x : Ext K) : Ext K :=
  let x := match yMin with | none => x | some l => Ext.max x (.fin l)
  match yMax with | none => x | some h => Ext.min x (.fin h)

/-- IEEE arithmetic: `D` is the format of the arrays (float64) and `F` the format of `y`. -/
def ieee (D F : Format K) (yMin yMax : Option K) : Ops (Ext K) where
  one := .fin 1
  add a b := D.rnd (Ext.add a b)
  div a b := D.rnd (divExt a b)
  gt := Ext.gt
  neg := Ext.neg
  cast := F.rnd
  clip := clipExt yMin yMax

/-- Arithmetic with finite numbers only: the results of `+` and `/` are rounded by `rnd`, `astype` is `cast`. -/
def rounded (rnd cast : K → K) (yMin yMax : Option K) : Ops K where
  one := 1
  add a b := rnd (a + b)
  div a b := rnd (a / b)
  gt a b := decide (a > b)
  neg x := -x
  cast := cast
  clip x := clipInf x yMin yMax

/-- `astype` from float64 to an integer type: truncation towards zero. -/
def truncate (x : ℚ) : ℚ := if 0 ≤ x then ⌊x⌋ else ⌈x⌉

end Jaxopt.Isotonic
