import Verif.QuasiNewton.Lbfgsb
import Verif.Num.Vdot
import Mathlib.Tactic.Ring
import Mathlib.Tactic.Linarith
import Mathlib.Tactic.FieldSimp
import Mathlib.Tactic.LinearCombination
import Mathlib.Algebra.BigOperators.Intervals
import Mathlib.Algebra.BigOperators.Fin
import Mathlib.LinearAlgebra.Matrix.DotProduct
import Mathlib.LinearAlgebra.Matrix.NonsingularInverse
import Mathlib.LinearAlgebra.Matrix.ToLin

/-!
# The direct BFGS matrix and its compact representation

Specification of the quadratic model of L-BFGS-B: `bfgsMatrix` applies the direct BFGS update to `θI` pair by pair.  The lemmas show
that the system solved by the code (equation 3.4 of Byrd, Lu, Nocedal and Zhu) computes products with that matrix.
-/

set_option autoImplicit false
set_option linter.unusedSectionVars false
set_option linter.unusedVariables false

namespace Jaxopt.QuasiNewton

open Matrix Finset

variable {K : Type*} [Field K] [LinearOrder K] [IsStrictOrderedRing K] {n : ℕ}

/-- The direct BFGS update `B - B s sᵀ B / (sᵀ B s) + y yᵀ / (yᵀ s)` (Nocedal and Wright, equation 6.19). -/
def bfgsDirect (B : Matrix (Fin n) (Fin n) K) (s y : Fin n → K) : Matrix (Fin n) (Fin n) K :=
  B - (1 / (s ⬝ᵥ B *ᵥ s)) • vecMulVec (B *ᵥ s) (B *ᵥ s) + (1 / (y ⬝ᵥ s)) • vecMulVec y y

/-- The BFGS matrix built from `θI` by the given pairs `(s, y)`, first pair first. -/
def bfgsMatrix (theta : K) (pairs : List ((Fin n → K) × (Fin n → K))) : Matrix (Fin n) (Fin n) K :=
  pairs.foldl (fun B p => bfgsDirect B p.1 p.2) (theta • 1)

theorem bfgsDirect_mulVec (B : Matrix (Fin n) (Fin n) K) (s y v : Fin n → K) :
    bfgsDirect B s y *ᵥ v = B *ᵥ v - (((B *ᵥ s) ⬝ᵥ v) / (s ⬝ᵥ B *ᵥ s)) • (B *ᵥ s) + ((y ⬝ᵥ v) / (y ⬝ᵥ s)) • y := by
  funext i
  simp only [bfgsDirect, add_mulVec, sub_mulVec, smul_mulVec, vecMulVec_mulVec, Pi.add_apply, Pi.sub_apply, Pi.smul_apply, smul_eq_mul,
    MulOpposite.smul_eq_mul_unop, MulOpposite.unop_op]
  ring

/-- Symmetric and positive definite. -/
def SPD (B : Matrix (Fin n) (Fin n) K) : Prop := Bᵀ = B ∧ ∀ v, v ≠ 0 → 0 < v ⬝ᵥ B *ᵥ v

theorem SPD.symm_dot {B : Matrix (Fin n) (Fin n) K} (h : SPD B) (u v : Fin n → K) : u ⬝ᵥ B *ᵥ v = (B *ᵥ u) ⬝ᵥ v := by
  rw [dotProduct_mulVec, ← mulVec_transpose, h.1]

theorem dot_self_pos {v : Fin n → K} (h : v ≠ 0) : 0 < v ⬝ᵥ v := by
  have h0 : 0 ≤ v ⬝ᵥ v := Finset.sum_nonneg fun i _ => mul_self_nonneg _
  refine lt_of_le_of_ne h0 fun he => h ?_
  funext i
  have := (Finset.sum_eq_zero_iff_of_nonneg fun i _ => mul_self_nonneg (v i)).mp he.symm i (Finset.mem_univ _)
  exact mul_self_eq_zero.mp this

theorem spd_smul_one {theta : K} (ht : 0 < theta) : SPD (theta • (1 : Matrix (Fin n) (Fin n) K)) := by
  refine ⟨by rw [transpose_smul, transpose_one], fun v hv => ?_⟩
  rw [smul_mulVec, one_mulVec, dotProduct_smul, smul_eq_mul]
  exact mul_pos ht (dot_self_pos hv)

/-- The direct update keeps symmetry and positive definiteness when the curvature is positive. -/
theorem spd_bfgsDirect {B : Matrix (Fin n) (Fin n) K} (h : SPD B) {s y : Fin n → K} (hys : 0 < y ⬝ᵥ s) : SPD (bfgsDirect B s y) := by
  have hs : s ≠ 0 := by rintro rfl; simp at hys
  have hB := h.2 s hs
  constructor
  · unfold bfgsDirect
    rw [transpose_add, transpose_sub, transpose_smul, transpose_smul, transpose_vecMulVec, transpose_vecMulVec, h.1]
  · intro v hv
    rw [bfgsDirect_mulVec, dotProduct_add, dotProduct_sub, dotProduct_smul, dotProduct_smul, smul_eq_mul, smul_eq_mul]
    set a := ((B *ᵥ s) ⬝ᵥ v) / (s ⬝ᵥ B *ᵥ s) with ha
    have e1 : v ⬝ᵥ B *ᵥ s = a * (s ⬝ᵥ B *ᵥ s) := by rw [ha, div_mul_cancel₀ _ hB.ne', dotProduct_comm]
    have e2 : v ⬝ᵥ B *ᵥ v - a * (v ⬝ᵥ B *ᵥ s) = (v - a • s) ⬝ᵥ B *ᵥ (v - a • s) := by
      have e3 : s ⬝ᵥ B *ᵥ v = v ⬝ᵥ B *ᵥ s := by rw [h.symm_dot, dotProduct_comm]
      simp only [mulVec_sub, mulVec_smul, dotProduct_sub, sub_dotProduct, dotProduct_smul, smul_dotProduct, smul_eq_mul, e3]
      rw [e1]; ring
    rw [e2]
    have e4 : (y ⬝ᵥ v) / (y ⬝ᵥ s) * (v ⬝ᵥ y) = (y ⬝ᵥ v) ^ 2 / (y ⬝ᵥ s) := by rw [dotProduct_comm v y]; ring
    rw [e4]
    by_cases hw : v - a • s = 0
    · have hv' : v = a • s := sub_eq_zero.mp hw
      have ha0 : a ≠ 0 := by rintro h0; rw [h0, zero_smul] at hv'; exact hv hv'
      have e5 : y ⬝ᵥ v = a * (y ⬝ᵥ s) := by
        conv_lhs => rw [hv']
        rw [dotProduct_smul, smul_eq_mul]
      rw [hw, zero_dotProduct, zero_add]
      have : y ⬝ᵥ v ≠ 0 := by rw [e5]; exact mul_ne_zero ha0 hys.ne'
      positivity
    · have h1 := h.2 _ hw
      have h2 : 0 ≤ (y ⬝ᵥ v) ^ 2 / (y ⬝ᵥ s) := by positivity
      linarith

/-- The secant equation of the direct update. -/
theorem bfgsDirect_secant {B : Matrix (Fin n) (Fin n) K} (h : SPD B) {s y : Fin n → K} (hys : 0 < y ⬝ᵥ s) :
    bfgsDirect B s y *ᵥ s = y := by
  have hs : s ≠ 0 := by rintro rfl; simp at hys
  have hB := h.2 s hs
  rw [bfgsDirect_mulVec, dotProduct_comm (B *ᵥ s) s, div_self hB.ne', div_self hys.ne', one_smul, one_smul, sub_self, zero_add]

theorem spd_bfgsMatrix {theta : K} (ht : 0 < theta) (pairs : List ((Fin n → K) × (Fin n → K)))
    (h : ∀ p ∈ pairs, 0 < p.2 ⬝ᵥ p.1) : SPD (bfgsMatrix theta pairs) := by
  unfold bfgsMatrix
  suffices ∀ B, SPD B → SPD (pairs.foldl (fun B p => bfgsDirect B p.1 p.2) B) from this _ (spd_smul_one ht)
  induction pairs with
  | nil => exact fun B hB => hB
  | cons p ps ih =>
    intro B hB
    exact ih (fun q hq => h q (List.mem_cons_of_mem _ hq)) _ (spd_bfgsDirect hB (h p List.mem_cons_self))

/-! ### The bordered system -/

variable (s y : ℕ → Fin n → K) (theta : K)

/-- The BFGS matrix after the first `k` pairs. -/
def seqB : ℕ → Matrix (Fin n) (Fin n) K
  | 0 => theta • 1
  | k + 1 => bfgsDirect (seqB k) (s k) (y k)

/-- The system with the matrix of equation 3.4 for the first `k` pairs, right-hand side `Wᵀ v`, unknowns `b` (for `y`), `a` (for `θ s`). -/
def Sys (k : ℕ) (v : Fin n → K) (a b : ℕ → K) : Prop :=
  ∀ i < k, (-(s i ⬝ᵥ y i) * b i + ∑ j ∈ range k, (if i < j then (s j ⬝ᵥ y i) * a j else 0) = y i ⬝ᵥ v) ∧
    ((∑ j ∈ range k, if j < i then (s i ⬝ᵥ y j) * b j else 0) + ∑ j ∈ range k, theta * (s i ⬝ᵥ s j) * a j = theta * (s i ⬝ᵥ v))

variable {s y theta}

theorem Sys.pred {k : ℕ} {v : Fin n → K} {a b : ℕ → K} (h : Sys s y theta (k + 1) v a b) : Sys s y theta k (v - a k • s k) a b := by
  intro i hi
  obtain ⟨h1, h2⟩ := h i (by omega)
  rw [sum_range_succ, if_pos hi] at h1
  rw [sum_range_succ, sum_range_succ, if_neg (by omega), add_zero] at h2
  rw [dotProduct_sub, dotProduct_sub, dotProduct_smul, dotProduct_smul, smul_eq_mul, smul_eq_mul]
  constructor
  · rw [dotProduct_comm (y i) (s k)]; linear_combination h1
  · linear_combination h2

theorem seqB_spd (ht : 0 < theta) {k : ℕ} (hp : ∀ j < k, 0 < y j ⬝ᵥ s j) : SPD (seqB s y theta k) := by
  induction k with
  | zero => exact spd_smul_one ht
  | succ k ih => exact spd_bfgsDirect (ih fun j hj => hp j (by omega)) (hp k (by omega))

/-- What the last two equations of the system say. -/
theorem Sys.last {k : ℕ} (ht : 0 < theta) (hp : ∀ j < k + 1, 0 < y j ⬝ᵥ s j) {v : Fin n → K} {a b : ℕ → K}
    (h : Sys s y theta (k + 1) v a b)
    (ih : seqB s y theta k *ᵥ (v - a k • s k) = theta • (v - a k • s k) - ∑ j ∈ range k, (b j • y j + (theta * a j) • s j)) :
    a k * (s k ⬝ᵥ seqB s y theta k *ᵥ s k) = (seqB s y theta k *ᵥ s k) ⬝ᵥ v ∧ -b k * (y k ⬝ᵥ s k) = y k ⬝ᵥ v := by
  have hB := seqB_spd ht fun j hj => hp j (Nat.lt_succ_of_lt hj)
  obtain ⟨h1, h2⟩ := h k (by omega)
  constructor
  · have e1 : s k ⬝ᵥ seqB s y theta k *ᵥ (v - a k • s k) = 0 := by
      rw [ih, dotProduct_sub, dotProduct_smul, dotProduct_sub, dotProduct_smul, smul_eq_mul, smul_eq_mul, dotProduct_sum]
      rw [sum_range_succ, sum_range_succ, if_neg (lt_irrefl k), add_zero] at h2
      have e2 : ∀ j ∈ range k, (if j < k then (s k ⬝ᵥ y j) * b j else 0) = (s k ⬝ᵥ y j) * b j := fun j hj => if_pos (mem_range.mp hj)
      rw [sum_congr rfl e2] at h2
      have e3 : ∑ j ∈ range k, s k ⬝ᵥ (b j • y j + (theta * a j) • s j) =
          ∑ j ∈ range k, (s k ⬝ᵥ y j) * b j + ∑ j ∈ range k, theta * (s k ⬝ᵥ s j) * a j := by
        rw [← sum_add_distrib]
        refine sum_congr rfl fun j _ => ?_
        rw [dotProduct_add, dotProduct_smul, dotProduct_smul, smul_eq_mul, smul_eq_mul]; ring
      rw [e3]
      linear_combination -h2
    rw [mulVec_sub, mulVec_smul, dotProduct_sub, dotProduct_smul, smul_eq_mul, hB.symm_dot (s k) v] at e1
    linear_combination -e1
  · have e2 : ∑ j ∈ range (k + 1), (if k < j then (s j ⬝ᵥ y k) * a j else 0) = 0 :=
      sum_eq_zero fun j hj => if_neg (by have := mem_range.mp hj; omega)
    rw [e2, add_zero, dotProduct_comm (s k)] at h1
    linear_combination h1

/-- Every solution of the system gives the product with the BFGS matrix. -/
theorem Sys.product {k : ℕ} (ht : 0 < theta) (hp : ∀ j < k, 0 < y j ⬝ᵥ s j) {v : Fin n → K} {a b : ℕ → K} (h : Sys s y theta k v a b) :
    seqB s y theta k *ᵥ v = theta • v - ∑ j ∈ range k, (b j • y j + (theta * a j) • s j) := by
  induction k generalizing v with
  | zero => simp [seqB, smul_mulVec]
  | succ k ih =>
    have ih' := ih (fun j hj => hp j (by omega)) h.pred
    obtain ⟨h1, h2⟩ := h.last ht hp ih'
    have hB := seqB_spd ht fun j hj => hp j (Nat.lt_succ_of_lt hj)
    have hk := hp k (by omega)
    have hs : s k ≠ 0 := by intro h0; rw [h0] at hk; simp at hk
    have hB' := hB.2 _ hs
    have ea : ((seqB s y theta k *ᵥ s k) ⬝ᵥ v) / (s k ⬝ᵥ seqB s y theta k *ᵥ s k) = a k := by rw [← h1, mul_div_cancel_right₀ _ hB'.ne']
    have eb : (y k ⬝ᵥ v) / (y k ⬝ᵥ s k) = -b k := by rw [← h2, mul_div_cancel_right₀ _ hk.ne']
    rw [mulVec_sub, mulVec_smul] at ih'
    change bfgsDirect _ _ _ *ᵥ v = _
    rw [bfgsDirect_mulVec, ea, eb, ih', sum_range_succ]
    funext i
    simp only [Pi.add_apply, Pi.sub_apply, Pi.smul_apply, smul_eq_mul]
    ring

/-- The system has no other solution than zero for the right-hand side zero. -/
theorem Sys.zero {k : ℕ} (ht : 0 < theta) (hp : ∀ j < k, 0 < y j ⬝ᵥ s j) {a b : ℕ → K} (h : Sys s y theta k 0 a b) :
    ∀ j < k, a j = 0 ∧ b j = 0 := by
  induction k with
  | zero => intro j hj; omega
  | succ k ih =>
    have ih' := h.pred.product ht (fun j hj => hp j (by omega))
    obtain ⟨h1, h2⟩ := h.last ht hp ih'
    have hB := seqB_spd ht fun j hj => hp j (Nat.lt_succ_of_lt hj)
    have hk := hp k (by omega)
    have hs : s k ≠ 0 := by intro h0; rw [h0] at hk; simp at hk
    have hB' := hB.2 _ hs
    rw [dotProduct_zero] at h1 h2
    have ha : a k = 0 := (mul_eq_zero.mp h1).resolve_right hB'.ne'
    have hb : b k = 0 := by have := (mul_eq_zero.mp h2).resolve_right hk.ne'; simpa using this
    intro j hj
    rcases Nat.lt_succ_iff_lt_or_eq.mp hj with hj | rfl
    · have hpred := h.pred
      rw [ha, zero_smul, sub_zero] at hpred
      exact ih (fun j hj => hp j (by omega)) hpred j hj
    · exact ⟨ha, hb⟩

theorem seqB_eq_bfgsMatrix (k : ℕ) : seqB s y theta k = bfgsMatrix theta ((List.range k).map fun j => (s j, y j)) := by
  induction k with
  | zero => rfl
  | succ k ih => rw [List.range_succ, List.map_append, bfgsMatrix, List.foldl_append, ← bfgsMatrix, ← ih]; rfl

end Jaxopt.QuasiNewton
