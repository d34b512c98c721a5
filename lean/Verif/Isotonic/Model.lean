import Mathlib.Algebra.Order.Field.Basic
import Mathlib.Data.Fin.Basic

/-!
# Model of `jaxopt/_src/isotonic.py`

The four numpy arrays of `_isotonic_l2_pav_numba` are functions on indices, updated in place.  The two `while` loops carry
fuel; running out of fuel is `none`, and the property theorem shows it does not happen.
-/

set_option autoImplicit false

namespace Jaxopt.Isotonic

variable {K : Type*} [Field K] [LinearOrder K]

/-- The mutable arrays (lines 39-42) and the outer loop index `i` (line 51). -/
structure St (K : Type*) where
  i : ℕ
  target : ℕ → ℕ
  c : ℕ → K
  sums : ℕ → K
  sol : ℕ → K

/-- Array write `a[j] = v`. -/
def set {α : Type*} (a : ℕ → α) (j : ℕ) (v : α) : ℕ → α := fun x => if x = j then v else a x

/-- Lines 38-51. -/
def initSt (y : ℕ → K) : St K :=
  { i := 0, target := fun i => i, c := fun _ => 1, sums := fun i => y i, sol := fun i => y i }

/-- Inner `while True`, lines 61-67 up to the `if`; returns `k, sum_y, sum_c` at the moment the `if` is taken. -/
def inner (st : St K) (n : ℕ) : ℕ → ℕ → K → K → Option (ℕ × K × K)
  | 0, _, _, _ => none
  | fuel + 1, k, sumY, sumC =>
    let prevY := st.sol k
    let sumY := sumY + st.sums k
    let sumC := sumC + st.c k
    let k := st.target k + 1
    if k = n ∨ prevY > st.sol k then some (k, sumY, sumC) else inner st n fuel k sumY sumC

/-- Body of the `if` at lines 68-78. -/
def finish (st : St K) (k : ℕ) (sumY sumC : K) : St K :=
  let target := set (set st.target st.i (k - 1)) (k - 1) st.i
  { sol := set st.sol st.i (sumY / sumC)
    sums := set st.sums st.i sumY
    c := set st.c st.i sumC
    target := target
    i := if st.i > 0 then target (st.i - 1) else st.i }

/-- Outer `while i < n`, lines 52-79. -/
def outer (n : ℕ) : ℕ → St K → Option (St K)
  | 0, _ => none
  | fuel + 1, st =>
    if st.i < n then
      let k := st.target st.i + 1
      if k = n then some st
      else if st.sol st.i > st.sol k then outer n fuel { st with i := k }
      else
        match inner st n n k (st.sums st.i) (st.c st.i) with
        | none => none
        | some (k, sumY, sumC) => outer n fuel (finish st k sumY sumC)
    else some st

/-- Reconstruction, lines 82-86. -/
def fill (target : ℕ → ℕ) (n : ℕ) : ℕ → ℕ → (ℕ → K) → Option (ℕ → K)
  | 0, i, sol => if i < n then none else some sol
  | fuel + 1, i, sol =>
    if i < n then
      let k := target i + 1
      fill target n fuel k (fun j => if i + 1 ≤ j ∧ j < k then sol i else sol j)
    else some sol

/-- `_isotonic_l2_pav_numba`, lines 36-87. -/
def pavNumba (n : ℕ) (y : ℕ → K) : Option (ℕ → K) :=
  match outer n (3 * n + 3) (initSt y) with
  | none => none
  | some st => fill st.target n n 0 st.sol

/-- `jnp.clip` with bounds that may be infinite (`none` is the default `-inf` / `+inf`), line 124. -/
def clipInf (x : K) (lo hi : Option K) : K :=
  let x := match lo with | none => x | some l => max x l
  match hi with | none => x | some h => min x h

/-- `isotonic_l2_pav`, lines 106-125. -/
def isotonicL2Pav {n : ℕ} (y : Fin n → K) (yMin yMax : Option K) (increasing : Bool) : Option (Fin n → K) :=
  let sign : K := if increasing then -1 else 1
  match pavNumba n (fun j => if h : j < n then y ⟨j, h⟩ * sign else 0) with
  | none => none
  | some sol => some fun i => clipInf (sol i * sign) yMin yMax

end Jaxopt.Isotonic
