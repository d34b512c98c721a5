import Verif.Num.Ext
import Mathlib.Tactic.Linarith

/-!
# IEEE arithmetic on `Ext K` as far as the line searches need it
-/

set_option autoImplicit false
set_option linter.unusedSectionVars false

namespace Jaxopt.Ext

variable {K : Type*}

/-- IEEE negation. -/
def neg [Neg K] : Ext K → Ext K
  | nan => nan
  | ninf => pinf
  | fin x => fin (-x)
  | pinf => ninf

/-- IEEE addition (`inf - inf` is NaN). -/
def add [Add K] : Ext K → Ext K → Ext K
  | nan, _ => nan
  | _, nan => nan
  | ninf, pinf => nan
  | pinf, ninf => nan
  | ninf, _ => ninf
  | _, ninf => ninf
  | pinf, _ => pinf
  | _, pinf => pinf
  | fin x, fin y => fin (x + y)

/-- IEEE subtraction. -/
def sub [Add K] [Neg K] (a b : Ext K) : Ext K := add a (neg b)

/-- `jnp.maximum` (NaN propagates). -/
def max [LinearOrder K] : Ext K → Ext K → Ext K
  | nan, _ => nan
  | _, nan => nan
  | ninf, b => b
  | a, ninf => a
  | pinf, _ => pinf
  | _, pinf => pinf
  | fin x, fin y => fin (Max.max x y)

/-- `jnp.where(jnp.isnan(x), jnp.inf, x)`. -/
def nanToInf : Ext K → Ext K
  | nan => pinf
  | x => x

/-- Specification: the float `v` is a number (possibly `-inf`) not above `b`. -/
def AtMost [LE K] (v : Ext K) (b : K) : Prop :=
  match v with
  | nan => False
  | ninf => True
  | fin x => x ≤ b
  | pinf => False

/-- Specification: the float `v` is a number (possibly `+inf`) not below `b`. -/
def AtLeast [LE K] (v : Ext K) (b : K) : Prop :=
  match v with
  | nan => False
  | ninf => False
  | fin x => b ≤ x
  | pinf => True

section
variable [Field K] [LinearOrder K] [IsStrictOrderedRing K]

/-- `max(where(isnan d, inf, d), 0) <= tol` for `tol ≥ 0`. -/
theorem posPart_le {d : Ext K} {tol : K} (ht : 0 ≤ tol) :
    le (max (nanToInf d) (fin 0)) (fin tol) = true ↔ AtMost d tol := by
  cases d <;> simp [nanToInf, max, le, AtMost, ht]

theorem max_le_iff {a b : Ext K} {tol : K} :
    le (max a b) (fin tol) = true ↔ le a (fin tol) = true ∧ le b (fin tol) = true := by
  cases a <;> cases b <;> simp [max, le]

theorem atMost_sub {v : Ext K} {b tol : K} : AtMost (sub v (fin b)) tol ↔ AtMost v (b + tol) := by
  cases v with
  | fin x => simp only [sub, neg, add, AtMost]; constructor <;> intro h <;> linarith
  | _ => simp [sub, neg, add, AtMost]

theorem atMost_sub' {v : Ext K} {b tol : K} : AtMost (sub (fin b) v) tol ↔ AtLeast v (b - tol) := by
  cases v with
  | fin x => simp only [sub, neg, add, AtMost, AtLeast]; constructor <;> intro h <;> linarith
  | _ => simp [sub, neg, add, AtMost, AtLeast]

/-- A float that is not NaN compares one way or the other. -/
theorem gt_eq_not_le {a : Ext K} {t : K} (h : a ≠ nan) : gt a (fin t) = !le a (fin t) := by
  cases a with
  | nan => exact absurd rfl h
  | fin x =>
    simp only [gt, lt, le]
    by_cases hx : x ≤ t
    · simp [hx, not_lt.mpr hx]
    · simp [hx, not_le.mp hx]
  | _ => simp [gt, lt, le]

theorem max_ne_nan {a b : Ext K} (ha : a ≠ nan) (hb : b ≠ nan) : max a b ≠ nan := by
  cases a <;> cases b <;> simp_all [max]

theorem nanToInf_ne_nan (a : Ext K) : nanToInf a ≠ nan := by cases a <;> simp [nanToInf]

end

end Jaxopt.Ext

namespace Jaxopt.Ext

variable {K : Type*}

/-- `jnp.minimum` (NaN propagates). -/
def min [LinearOrder K] : Ext K → Ext K → Ext K
  | nan, _ => nan
  | _, nan => nan
  | pinf, b => b
  | a, pinf => a
  | ninf, _ => ninf
  | _, ninf => ninf
  | fin x, fin y => fin (Min.min x y)

/-- `jnp.abs`. -/
def abs [Lattice K] [AddGroup K] : Ext K → Ext K
  | nan => nan
  | ninf => pinf
  | pinf => pinf
  | fin x => fin |x|

/-- Multiplication of a finite number by a float (`0 * inf` is NaN). -/
def smul [Mul K] [Zero K] [LT K] [DecidableRel (α := K) (· < ·)] (a : K) : Ext K → Ext K
  | nan => nan
  | fin x => fin (a * x)
  | pinf => if 0 < a then pinf else if a < 0 then ninf else nan
  | ninf => if 0 < a then ninf else if a < 0 then pinf else nan

/-- `jnp.isinf`. -/
def isInf : Ext K → Bool
  | pinf => true
  | ninf => true
  | _ => false

section
variable [Field K] [LinearOrder K] [IsStrictOrderedRing K]

theorem atMost_max {a b : Ext K} {t : K} : AtMost (max a b) t ↔ AtMost a t ∧ AtMost b t := by
  cases a <;> cases b <;> simp [max, AtMost]

theorem atMost_min {a b : Ext K} {t : K} : AtMost (min a b) t ↔ a ≠ nan ∧ b ≠ nan ∧ (AtMost a t ∨ AtMost b t) := by
  cases a <;> cases b <;> simp [min, AtMost]

theorem max_eq_nan {a b : Ext K} : max a b = nan ↔ a = nan ∨ b = nan := by
  cases a <;> cases b <;> simp [max]

theorem sub_fin_eq_nan {a : Ext K} {b : K} : sub a (fin b) = nan ↔ a = nan := by
  cases a <;> simp [sub, add, neg]

/-- `where(isnan(max(d, 0)), inf, max(d, 0)) <= tol` for `tol ≥ 0`. -/
theorem posPart_le' {d : Ext K} {tol : K} (ht : 0 ≤ tol) :
    le (nanToInf (max d (fin 0))) (fin tol) = true ↔ AtMost d tol := by
  cases d <;> simp [nanToInf, max, le, AtMost, ht]

theorem nanToInf_max_gt_zero {d : Ext K} :
    gt (nanToInf (max d (fin 0))) (fin 0) = false ↔ AtMost d 0 := by
  cases d <;> simp [nanToInf, max, gt, lt, AtMost]

theorem AtMost.mono {a : Ext K} {s t : K} (h : AtMost a s) (hst : s ≤ t) : AtMost a t := by
  cases a with
  | fin x => exact le_trans h hst
  | _ => simpa [AtMost] using h

end

end Jaxopt.Ext
