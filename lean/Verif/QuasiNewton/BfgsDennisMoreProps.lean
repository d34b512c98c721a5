import Verif.QuasiNewton.ArmijoRateProps
import Mathlib.Analysis.Matrix.Order
import Mathlib.Analysis.CStarAlgebra.Matrix
import Mathlib.Topology.Algebra.InfiniteSum.Real
import Mathlib.Analysis.SpecialFunctions.Pow.Real

/-!
# Property C121, first part: the matrices of BFGS satisfy the condition of Dennis and Moré

Only the update of `H` (bfgs.py lines 240-250, `Bfgs.newH`) enters here, applied to any sequence of pairs `(s, y)` with `y` close to `G s` for
one symmetric positive definite matrix `G`.
-/

set_option autoImplicit false
set_option linter.unusedSectionVars false
set_option linter.unusedVariables false

namespace Jaxopt.QuasiNewton

open Matrix Filter Topology

namespace Bfgs

variable {ι : Type*} [Fintype ι] [DecidableEq ι]

/-! ## Symmetric positive definite matrices -/

theorem SymPos.invSymPos {H : Matrix ι ι ℝ} (h : SymPos H) : SymPos H⁻¹ := by
  have hp := h.inv
  refine ⟨?_, fun v hv => by simpa using hp.dotProduct_mulVec_pos hv⟩
  have := hp.1
  rwa [IsHermitian, conjTranspose_eq_transpose_of_trivial] at this

theorem symPos_of_posDef {H : Matrix ι ι ℝ} (hp : H.PosDef) : SymPos H := by
  refine ⟨?_, fun v hv => by simpa using hp.dotProduct_mulVec_pos hv⟩
  have := hp.1
  rwa [IsHermitian, conjTranspose_eq_transpose_of_trivial] at this

/-- The update keeps a matrix symmetric positive definite. -/
theorem symPos_newH {H : Matrix ι ι ℝ} (h : SymPos H) (s y : ι → ℝ) (hys : 0 < y ⬝ᵥ s) : SymPos (newH H s y) := by
  have hv := isVdot_dotProduct (K := ℝ) (ι := ι)
  have hr : reciprocal (y ⬝ᵥ s) = .fin (1 / y ⬝ᵥ s) := by rw [reciprocal, if_neg hys.ne']
  have e : newH H s y = (1 - (1 / y ⬝ᵥ s) • vecMulVec s y) * H * (1 - (1 / y ⬝ᵥ s) • vecMulVec s y)ᵀ + (1 / y ⬝ᵥ s) • vecMulVec s s := by
    simp only [newH, hr]
  set ρ := 1 / y ⬝ᵥ s with hρ
  have hρ0 : 0 < ρ := by positivity
  set w := 1 - ρ • vecMulVec s y with hw
  refine ⟨?_, fun v hv0 => ?_⟩
  · rw [e, transpose_add, transpose_mul, transpose_mul, transpose_transpose, h.1, transpose_smul, transpose_vecMulVec, Matrix.mul_assoc]
  · have e1 : v ⬝ᵥ newH H s y *ᵥ v = (wᵀ *ᵥ v) ⬝ᵥ (H *ᵥ (wᵀ *ᵥ v)) + ρ * (s ⬝ᵥ v) ^ 2 := by
      rw [e, add_mulVec, dotProduct_add, smul_mulVec, dotProduct_smul, vecMulVec_mulVec]
      congr 1
      · rw [Matrix.mul_assoc, ← mulVec_mulVec, ← mulVec_mulVec, dotProduct_mulVec, ← mulVec_transpose]
      · simp only [op_smul_eq_smul, dotProduct_smul, smul_eq_mul, dotProduct_comm v s]
        ring
    have e2 : wᵀ *ᵥ v = v - (ρ * (s ⬝ᵥ v)) • y := by
      rw [hw, transpose_sub, transpose_one, transpose_smul, transpose_vecMulVec, sub_mulVec, one_mulVec, smul_mulVec, vecMulVec_mulVec]
      simp [smul_smul]
    rw [e1]
    by_cases h0 : s ⬝ᵥ v = 0
    · rw [e2, h0, mul_zero, zero_smul, sub_zero]
      have := h.2 v hv0
      simpa using this
    · have h1 : 0 ≤ (wᵀ *ᵥ v) ⬝ᵥ (H *ᵥ (wᵀ *ᵥ v)) := by
        by_cases h2 : wᵀ *ᵥ v = 0
        · rw [h2, zero_dotProduct]
        · exact (h.2 _ h2).le
      have h2 : 0 < ρ * (s ⬝ᵥ v) ^ 2 := mul_pos hρ0 (by positivity)
      linarith

/-- A symmetric positive definite matrix is `Pᵀ P` for an invertible `P`. -/
theorem SymPos.factor {G : Matrix ι ι ℝ} (h : SymPos G) : ∃ P Q : Matrix ι ι ℝ, G = Pᵀ * P ∧ P * Q = 1 ∧ Q * P = 1 := by
  open scoped MatrixOrder in
  obtain ⟨P, hP⟩ := CStarAlgebra.nonneg_iff_eq_star_mul_self.mp h.posDef.posSemidef.nonneg
  have hP' : G = Pᵀ * P := by rw [hP, star_eq_conjTranspose, conjTranspose_eq_transpose_of_trivial]
  have hd : IsUnit P.det := by
    have h1 := h.posDef.det_pos
    rw [hP', det_mul, det_transpose] at h1
    exact isUnit_iff_ne_zero.mpr (fun h0 => by rw [h0] at h1; simp at h1)
  exact ⟨P, P⁻¹, hP', mul_nonsing_inv P hd, nonsing_inv_mul P hd⟩

/-- The update commutes with a change of variables. -/
theorem newH_conj (H P Q : Matrix ι ι ℝ) (hQP : Q * P = 1) (s y : ι → ℝ) :
    newH (P * H * Pᵀ) (P *ᵥ s) (Qᵀ *ᵥ y) = P * newH H s y * Pᵀ := by
  have hd : (Qᵀ *ᵥ y) ⬝ᵥ (P *ᵥ s) = y ⬝ᵥ s := by
    rw [dotProduct_mulVec, vecMul_mulVec, transpose_transpose, hQP, vecMul_one]
  unfold newH
  rw [hd]
  unfold reciprocal
  by_cases h : y ⬝ᵥ s = 0
  · simp only [h, if_true]
  · simp only [h, if_false]
    set ρ := 1 / y ⬝ᵥ s
    have e1 : vecMulVec (P *ᵥ s) (Qᵀ *ᵥ y) = P * vecMulVec s y * Q := by
      rw [mul_vecMulVec, vecMulVec_mul, mulVec_transpose]
    have e2 : vecMulVec (P *ᵥ s) (P *ᵥ s) = P * vecMulVec s s * Pᵀ := by
      rw [mul_vecMulVec, vecMulVec_mul, vecMul_transpose]
    have e3 : (1 - ρ • vecMulVec (P *ᵥ s) (Qᵀ *ᵥ y)) * P = P * (1 - ρ • vecMulVec s y) := by
      rw [e1, Matrix.sub_mul, Matrix.mul_sub, Matrix.one_mul, Matrix.mul_one, Matrix.smul_mul, Matrix.mul_assoc, hQP, Matrix.mul_one, Matrix.mul_smul]
    have e4 : Pᵀ * (1 - ρ • vecMulVec (P *ᵥ s) (Qᵀ *ᵥ y))ᵀ = (1 - ρ • vecMulVec s y)ᵀ * Pᵀ := by
      rw [← transpose_mul, e3, transpose_mul]
    rw [e2]
    calc (1 - ρ • vecMulVec (P *ᵥ s) (Qᵀ *ᵥ y)) * (P * H * Pᵀ) * (1 - ρ • vecMulVec (P *ᵥ s) (Qᵀ *ᵥ y))ᵀ + ρ • (P * vecMulVec s s * Pᵀ)
        = ((1 - ρ • vecMulVec (P *ᵥ s) (Qᵀ *ᵥ y)) * P) * H * (Pᵀ * (1 - ρ • vecMulVec (P *ᵥ s) (Qᵀ *ᵥ y))ᵀ) +
            ρ • (P * vecMulVec s s * Pᵀ) := by simp only [Matrix.mul_assoc]
      _ = _ := by
        rw [e3, e4, Matrix.mul_add, Matrix.add_mul, Matrix.mul_smul, Matrix.smul_mul]
        simp only [Matrix.mul_assoc]

theorem SymPos.conj {H P Q : Matrix ι ι ℝ} (h : SymPos H) (hPQ : P * Q = 1) (hQP : Q * P = 1) :
    SymPos (P * H * Pᵀ) ∧ (P * H * Pᵀ)⁻¹ = Qᵀ * H⁻¹ * Q := by
  have hdet : IsUnit H.det := h.posDef.det_pos.ne'.isUnit
  refine ⟨⟨?_, fun v hv => ?_⟩, ?_⟩
  · rw [transpose_mul, transpose_mul, transpose_transpose, h.1, Matrix.mul_assoc]
  · rw [Matrix.mul_assoc, ← mulVec_mulVec, ← mulVec_mulVec, dotProduct_mulVec, ← mulVec_transpose]
    refine h.2 _ fun h0 => hv ?_
    have h1 : Qᵀ *ᵥ (Pᵀ *ᵥ v) = v := by rw [mulVec_mulVec, ← transpose_mul, hPQ, transpose_one, one_mulVec]
    rw [← h1, h0, mulVec_zero]
  · apply inv_eq_left_inv
    have e1 : Qᵀ * Pᵀ = 1 := by rw [← transpose_mul, hPQ, transpose_one]
    calc Qᵀ * H⁻¹ * Q * (P * H * Pᵀ) = Qᵀ * (H⁻¹ * ((Q * P) * H)) * Pᵀ := by simp only [Matrix.mul_assoc]
      _ = 1 := by rw [hQP, Matrix.one_mul, nonsing_inv_mul H hdet, Matrix.mul_one, e1]

/-! ## Scalar lemmas -/

theorem sqrt_gap {r : ℝ} (hr : 0 < r) : (Real.sqrt r - 1) ^ 2 ≤ r - 1 - Real.log r := by
  have h0 := Real.sqrt_pos.mpr hr
  have h1 := Real.log_le_sub_one_of_pos h0
  have h2 : Real.log r = 2 * Real.log (Real.sqrt r) := by
    rw [← Real.log_rpow h0, Real.rpow_two, Real.sq_sqrt hr.le] 
  have h3 := Real.sq_sqrt hr.le
  rw [h2]
  nlinarith

theorem tendsto_one_of_gap {r : ℕ → ℝ} (hr : ∀ k, 0 < r k) (h : Tendsto (fun k => r k - 1 - Real.log (r k)) atTop (𝓝 0)) :
    Tendsto r atTop (𝓝 1) := by
  have h1 : Tendsto (fun k => (Real.sqrt (r k) - 1) ^ 2) atTop (𝓝 0) :=
    tendsto_of_tendsto_of_tendsto_of_le_of_le tendsto_const_nhds h (fun k => sq_nonneg _) fun k => sqrt_gap (hr k)
  have h2 : Tendsto (fun k => Real.sqrt (r k) - 1) atTop (𝓝 0) := by
    have := h1.sqrt
    rw [Real.sqrt_zero] at this
    simp only [Real.sqrt_sq_eq_abs] at this
    exact (tendsto_zero_iff_abs_tendsto_zero _).mpr this
  have h3 : Tendsto (fun k => Real.sqrt (r k)) atTop (𝓝 1) := by
    have := h2.add_const 1
    simpa using this
  have h4 := h3.pow 2
  simp only [one_pow] at h4
  exact h4.congr fun k => Real.sq_sqrt (hr k).le

/-- The growth of `psi` when `y` is within `ε ‖s‖` of `s`. -/
theorem growth_le {q m b δ ε : ℝ} (hq : 0 < q) (hδ0 : 0 ≤ δ) (hε0 : 0 ≤ ε) (hε : ε ≤ 1 / 2) (hm : |m - q| ≤ ε * q) (hδ : δ ≤ ε ^ 2 * q)
    (hb : b = q + 2 * (m - q) + δ) : 0 < m ∧ b / m - Real.log (m / q) - 1 ≤ 2 * ε ^ 2 := by
  have hm1 := (abs_le.mp hm).1
  have hm0 : q / 2 ≤ m := by nlinarith
  have hmp : 0 < m := by linarith
  refine ⟨hmp, ?_⟩
  have h1 := Real.log_le_sub_one_of_pos (div_pos hq hmp)
  have h2 : Real.log (q / m) = -Real.log (m / q) := by rw [← Real.log_inv, inv_div]
  rw [h2] at h1
  have h3 : b / m = 2 - q / m + δ / m := by rw [hb]; field_simp; ring
  have h4 : δ / m ≤ 2 * ε ^ 2 := by
    rw [div_le_iff₀ hmp]
    nlinarith [sq_nonneg ε]
  linarith

/-! ## The condition of Dennis and Moré -/

/-- **Dennis-Moré, with `G` the identity.** -/
theorem dennisMore_one (H : ℕ → Matrix ι ι ℝ) (s y : ℕ → ι → ℝ) (ε : ℕ → ℝ) (h0 : SymPos (H 0))
    (hH : ∀ k, H (k + 1) = newH (H k) (s k) (y k)) (hs : ∀ k, s k ≠ 0) (hε0 : ∀ k, 0 ≤ ε k) (hε : ∀ k, ε k ≤ 1 / 2)
    (hsum : Summable fun k => ε k ^ 2) (hy : ∀ k, ‖pt (y k - s k)‖ ≤ ε k * ‖pt (s k)‖) :
    Tendsto (fun k => ‖pt ((H k)⁻¹ *ᵥ s k - s k)‖ / ‖pt (s k)‖) atTop (𝓝 0) := by
  have hv := isVdot_dotProduct (K := ℝ) (ι := ι)
  have hss : ∀ k, 0 < s k ⬝ᵥ s k := fun k => hv.pos _ (hs k)
  have hgr : ∀ k, 0 < y k ⬝ᵥ s k ∧ y k ⬝ᵥ y k / y k ⬝ᵥ s k - Real.log (y k ⬝ᵥ s k / s k ⬝ᵥ s k) - 1 ≤ 2 * ε k ^ 2 := by
    intro k
    have hδ : (y k - s k) ⬝ᵥ (y k - s k) ≤ ε k ^ 2 * (s k ⬝ᵥ s k) := by
      rw [← norm_pt, ← norm_pt, ← mul_pow]
      exact pow_le_pow_left₀ (norm_nonneg _) (hy k) 2
    have hm : |y k ⬝ᵥ s k - s k ⬝ᵥ s k| ≤ ε k * (s k ⬝ᵥ s k) := by
      rw [← sub_dotProduct, ← inner_pt]
      refine le_trans (abs_real_inner_le_norm _ _) ?_
      rw [← norm_pt, sq, ← mul_assoc]
      exact mul_le_mul_of_nonneg_right (hy k) (norm_nonneg _)
    refine growth_le (hss k) (by rw [← norm_pt]; positivity) (hε0 k) (hε k) hm hδ ?_
    rw [sub_dotProduct, dotProduct_sub, dotProduct_sub, dotProduct_comm (s k) (y k)]
    ring
  have hSP : ∀ k, SymPos (H k) := by
    intro k
    induction k with
    | zero => exact h0
    | succ k ih => rw [hH]; exact symPos_newH ih _ _ (hgr k).1
  set B : ℕ → Matrix ι ι ℝ := fun k => (H k)⁻¹ with hB
  have hBP : ∀ k, SymPos (B k) := fun k => (hSP k).invSymPos
  set σ : ℕ → ℝ := fun k => s k ⬝ᵥ B k *ᵥ s k with hσd
  set b : ℕ → ℝ := fun k => (B k *ᵥ s k) ⬝ᵥ (B k *ᵥ s k) with hbd
  set q : ℕ → ℝ := fun k => s k ⬝ᵥ s k with hqd
  have hσ : ∀ k, 0 < σ k := fun k => (hBP k).2 _ (hs k)
  have hb : ∀ k, 0 < b k := fun k => hv.pos _ fun h => by
    have := hσ k
    rw [hσd] at this
    simp only [h, dotProduct_zero, lt_irrefl] at this
  have hq : ∀ k, 0 < q k := hss
  set r : ℕ → ℝ := fun k => b k / σ k with hrd
  set c : ℕ → ℝ := fun k => σ k ^ 2 / (q k * b k) with hcd
  have hr : ∀ k, 0 < r k := fun k => div_pos (hb k) (hσ k)
  have hc : ∀ k, 0 < c k := fun k => div_pos (pow_pos (hσ k) 2) (mul_pos (hq k) (hb k))
  have hc1 : ∀ k, c k ≤ 1 := fun k => by
    rw [hcd]
    simp only
    rw [div_le_one (mul_pos (hq k) (hb k))]
    have := real_inner_mul_inner_self_le (pt (s k)) (pt (B k *ᵥ s k))
    rw [inner_pt, inner_pt, inner_pt, ← sq] at this
    exact this
  have hg0 : ∀ k, 0 ≤ -Real.log (c k) := fun k => by
    have := Real.log_nonpos (hc k).le (hc1 k)
    linarith
  have hr0 : ∀ k, 0 ≤ r k - 1 - Real.log (r k) := fun k => by
    have := Real.log_le_sub_one_of_pos (hr k)
    linarith
  have hpsi : ∀ k, psi (H (k + 1)) ≤ psi (H k) + 2 * ε k ^ 2 - (-Real.log (c k) + (r k - 1 - Real.log (r k))) := fun k => by
    have h1 := psi_step_eq (hSP k) (s k) (y k) (hs k) (hgr k).1
    have h2 := (hgr k).2
    rw [hH]
    have h1' : psi (newH (H k) (s k) (y k)) = psi (H k) + (y k ⬝ᵥ y k / (y k ⬝ᵥ s k) - Real.log (y k ⬝ᵥ s k / s k ⬝ᵥ s k) - 1) +
      Real.log (c k) - (r k - 1 - Real.log (r k)) := h1
    rw [h1']
    linarith
  set a : ℕ → ℝ := fun k => -Real.log (c k) + (r k - 1 - Real.log (r k)) with had
  have ha0 : ∀ k, 0 ≤ a k := fun k => add_nonneg (hg0 k) (hr0 k)
  have htel : ∀ n, ∑ k ∈ Finset.range n, a k ≤ psi (H 0) - psi (H n) + 2 * ∑ k ∈ Finset.range n, ε k ^ 2 := by
    intro n
    induction n with
    | zero => simp
    | succ n ih =>
      rw [Finset.sum_range_succ, Finset.sum_range_succ]
      have := hpsi n
      have e : a n = -Real.log (c n) + (r n - 1 - Real.log (r n)) := rfl
      linarith
  have hbound : ∀ n, ∑ k ∈ Finset.range n, a k ≤ psi (H 0) - Fintype.card ι + 2 * ∑' k, ε k ^ 2 := by
    intro n
    have h1 := htel n
    have h2 := le_psi (hSP n)
    have h3 := hsum.sum_le_tsum (Finset.range n) fun k _ => sq_nonneg _
    linarith
  have hasum : Summable a := summable_of_sum_range_le ha0 hbound
  have ha := hasum.tendsto_atTop_zero
  have hrt : Tendsto r atTop (𝓝 1) := tendsto_one_of_gap hr
    (tendsto_of_tendsto_of_tendsto_of_le_of_le tendsto_const_nhds ha hr0 fun k => by
      have := hg0 k
      show r k - 1 - Real.log (r k) ≤ -Real.log (c k) + (r k - 1 - Real.log (r k))
      linarith)
  have hct : Tendsto c atTop (𝓝 1) := by
    have h1 : Tendsto (fun k => -Real.log (c k)) atTop (𝓝 0) :=
      tendsto_of_tendsto_of_tendsto_of_le_of_le tendsto_const_nhds ha hg0 fun k => by
        have := hr0 k
        show -Real.log (c k) ≤ -Real.log (c k) + (r k - 1 - Real.log (r k))
        linarith
    have h2 : Tendsto (fun k => Real.log (c k)) atTop (𝓝 0) := by simpa using h1.neg
    have h3 := (Real.continuous_exp.tendsto 0).comp h2
    rw [Real.exp_zero] at h3
    exact h3.congr fun k => Real.exp_log (hc k)
  have hmain : Tendsto (fun k => r k ^ 2 * c k - 2 * (r k * c k) + 1) atTop (𝓝 0) := by
    have := (((hrt.pow 2).mul hct).sub ((hrt.mul hct).const_mul 2)).add_const 1
    norm_num at this
    exact this
  have hsq : ∀ k, (‖pt (B k *ᵥ s k - s k)‖ / ‖pt (s k)‖) ^ 2 = r k ^ 2 * c k - 2 * (r k * c k) + 1 := by
    intro k
    rw [div_pow, norm_pt, norm_pt]
    have e1 : (B k *ᵥ s k - s k) ⬝ᵥ (B k *ᵥ s k - s k) = b k - 2 * σ k + q k := by
      rw [sub_dotProduct, dotProduct_sub, dotProduct_sub, dotProduct_comm (B k *ᵥ s k) (s k)]
      simp only [hbd, hσd, hqd]
      ring
    rw [e1]
    have := hσ k
    have := hb k
    have hqk := hq k
    have e2 : s k ⬝ᵥ s k = q k := rfl
    rw [e2]
    simp only [hrd, hcd]
    field_simp
  have := hmain.sqrt
  rw [Real.sqrt_zero] at this
  refine this.congr fun k => ?_
  rw [← hsq k, Real.sqrt_sq (div_nonneg (norm_nonneg _) (norm_nonneg _))]

/-- Bound of a matrix on the Euclidean space. -/
theorem mulVec_bound (M : Matrix ι ι ℝ) : ∃ c : ℝ, 0 < c ∧ ∀ v : ι → ℝ, ‖pt (M *ᵥ v)‖ ≤ c * ‖pt v‖ := by
  refine ⟨‖toEuclideanCLM (n := ι) (𝕜 := ℝ) M‖ + 1, by positivity, fun v => ?_⟩
  have h := (toEuclideanCLM (n := ι) (𝕜 := ℝ) M).le_opNorm (pt v)
  rw [toEuclideanCLM_toLp] at h
  have := norm_nonneg (pt v)
  linarith

/-- **Dennis-Moré.**  If the pairs satisfy `‖y - G s‖ ≤ ε ‖s‖` with `∑ ε² < ∞`, then `‖(B - G) s‖ / ‖s‖` tends to zero, `B` the inverse of `H`.
The matrices themselves need not converge to `G⁻¹`, and the pairs are otherwise arbitrary. -/
theorem dennisMore (G : Matrix ι ι ℝ) (hG : SymPos G) (H : ℕ → Matrix ι ι ℝ) (s y : ℕ → ι → ℝ) (ε : ℕ → ℝ) (h0 : ∀ k, SymPos (H k))
    (hH : ∀ k, H (k + 1) = newH (H k) (s k) (y k)) (hs : ∀ k, s k ≠ 0) (hε0 : ∀ k, 0 ≤ ε k)
    (hsum : Summable fun k => ε k ^ 2) (hy : ∀ k, ‖pt (y k - G *ᵥ s k)‖ ≤ ε k * ‖pt (s k)‖) :
    Tendsto (fun k => ‖pt ((H k)⁻¹ *ᵥ s k - G *ᵥ s k)‖ / ‖pt (s k)‖) atTop (𝓝 0) := by
  obtain ⟨P, Q, hGP, hPQ, hQP⟩ := hG.factor
  obtain ⟨cQ, hcQ0, hcQ⟩ := mulVec_bound Q
  obtain ⟨cT, hcT0, hcT⟩ := mulVec_bound Qᵀ
  obtain ⟨cP, hcP0, hcP⟩ := mulVec_bound P
  obtain ⟨cR, hcR0, hcR⟩ := mulVec_bound Pᵀ
  have hQtP : Qᵀ * Pᵀ = 1 := by rw [← transpose_mul, hPQ, transpose_one]
  have hPtQ : Pᵀ * Qᵀ = 1 := by rw [← transpose_mul, hQP, transpose_one]
  -- the transformed sequence
  set e : ℕ → ℝ := fun k => cT * cQ * ε k with hed
  have he0 : ∀ k, 0 ≤ e k := fun k => mul_nonneg (mul_nonneg hcT0.le hcQ0.le) (hε0 k)
  have hesum : Summable fun k => e k ^ 2 := by
    have := hsum.mul_left ((cT * cQ) ^ 2)
    refine this.congr fun k => ?_
    simp only [hed]; ring
  have hsn : ∀ k, ‖pt (s k)‖ ≤ cQ * ‖pt (P *ᵥ s k)‖ := fun k => by
    have := hcQ (P *ᵥ s k)
    rwa [mulVec_mulVec, hQP, one_mulVec] at this
  have hey : ∀ k, ‖pt (Qᵀ *ᵥ y k - P *ᵥ s k)‖ ≤ e k * ‖pt (P *ᵥ s k)‖ := fun k => by
    have e1 : Qᵀ *ᵥ y k - P *ᵥ s k = Qᵀ *ᵥ (y k - G *ᵥ s k) := by
      rw [mulVec_sub, mulVec_mulVec, hGP, ← Matrix.mul_assoc, hQtP, Matrix.one_mul]
    rw [e1]
    calc ‖pt (Qᵀ *ᵥ (y k - G *ᵥ s k))‖ ≤ cT * ‖pt (y k - G *ᵥ s k)‖ := hcT _
      _ ≤ cT * (ε k * ‖pt (s k)‖) := mul_le_mul_of_nonneg_left (hy k) hcT0.le
      _ ≤ cT * (ε k * (cQ * ‖pt (P *ᵥ s k)‖)) :=
        mul_le_mul_of_nonneg_left (mul_le_mul_of_nonneg_left (hsn k) (hε0 k)) hcT0.le
      _ = e k * ‖pt (P *ᵥ s k)‖ := by simp only [hed]; ring
  -- small from some index on
  have hsmall : ∃ N, ∀ k, e (k + N) ≤ 1 / 2 := by
    have h1 := hesum.tendsto_atTop_zero
    have h2 := h1.eventually_lt_const (show (0 : ℝ) < 1 / 4 by norm_num)
    obtain ⟨N, hN⟩ := eventually_atTop.mp h2
    refine ⟨N, fun k => ?_⟩
    have := hN (k + N) (by omega)
    nlinarith [he0 (k + N)]
  obtain ⟨N, hN⟩ := hsmall
  have hsne : ∀ k, P *ᵥ s k ≠ 0 := fun k h => hs k (by
    have : Q *ᵥ (P *ᵥ s k) = s k := by rw [mulVec_mulVec, hQP, one_mulVec]
    rw [← this, h, mulVec_zero])
  have key := dennisMore_one (fun k => P * H (k + N) * Pᵀ) (fun k => P *ᵥ s (k + N)) (fun k => Qᵀ *ᵥ y (k + N)) (fun k => e (k + N))
    ((h0 _).conj hPQ hQP).1
    (fun k => by rw [newH_conj _ _ _ hQP, ← hH, show k + 1 + N = k + N + 1 by omega]) (fun k => hsne _) (fun k => he0 _) hN
    ((summable_nat_add_iff N).mpr hesum) (fun k => hey _)
  have key2 : Tendsto (fun k => cR * cP * (‖pt ((P * H k * Pᵀ)⁻¹ *ᵥ (P *ᵥ s k) - P *ᵥ s k)‖ / ‖pt (P *ᵥ s k)‖)) atTop (𝓝 0) := by
    have := ((tendsto_add_atTop_iff_nat (f := fun k => ‖pt ((P * H k * Pᵀ)⁻¹ *ᵥ (P *ᵥ s k) - P *ᵥ s k)‖ / ‖pt (P *ᵥ s k)‖) N).mp
      key).const_mul (cR * cP)
    simpa using this
  refine tendsto_of_tendsto_of_tendsto_of_le_of_le tendsto_const_nhds key2 (fun k => by positivity) fun k => ?_
  have hs0 : 0 < ‖pt (s k)‖ := norm_pos_iff.mpr fun h => hs k (congrArg (fun z => z.ofLp) h)
  have hPs0 : 0 < ‖pt (P *ᵥ s k)‖ := norm_pos_iff.mpr fun h => hsne k (congrArg (fun z => z.ofLp) h)
  have e1 : (P * H k * Pᵀ)⁻¹ *ᵥ (P *ᵥ s k) - P *ᵥ s k = Qᵀ *ᵥ ((H k)⁻¹ *ᵥ s k) - P *ᵥ s k := by
    rw [((h0 k).conj hPQ hQP).2, mulVec_mulVec, mulVec_mulVec, Matrix.mul_assoc, hQP, Matrix.mul_one]
  have e2 : (H k)⁻¹ *ᵥ s k - G *ᵥ s k = Pᵀ *ᵥ (Qᵀ *ᵥ ((H k)⁻¹ *ᵥ s k) - P *ᵥ s k) := by
    rw [mulVec_sub, mulVec_mulVec ((H k)⁻¹ *ᵥ s k) Pᵀ Qᵀ, hPtQ, one_mulVec, mulVec_mulVec, hGP]
  rw [e1, e2]
  set w := Qᵀ *ᵥ ((H k)⁻¹ *ᵥ s k) - P *ᵥ s k
  show ‖pt (Pᵀ *ᵥ w)‖ / ‖pt (s k)‖ ≤ cR * cP * (‖pt w‖ / ‖pt (P *ᵥ s k)‖)
  rw [div_le_iff₀ hs0]
  have h1 := hcR w
  have h2 := hcP (s k)
  have h3 : ‖pt w‖ ≤ ‖pt w‖ / ‖pt (P *ᵥ s k)‖ * (cP * ‖pt (s k)‖) := by
    rw [div_mul_eq_mul_div, le_div_iff₀ hPs0]
    exact mul_le_mul_of_nonneg_left h2 (norm_nonneg _)
  calc ‖pt (Pᵀ *ᵥ w)‖ ≤ cR * ‖pt w‖ := h1
    _ ≤ cR * (‖pt w‖ / ‖pt (P *ᵥ s k)‖ * (cP * ‖pt (s k)‖)) := mul_le_mul_of_nonneg_left h3 hcR0.le
    _ = _ := by ring

end Bfgs

end Jaxopt.QuasiNewton
