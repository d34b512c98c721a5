import Verif.FixedPoint.AndersonRateProps
import Mathlib.Analysis.Calculus.FDeriv.Basic
import Mathlib.Analysis.Calculus.Deriv.Pow
import Mathlib.Analysis.SpecificLimits.Basic

/-!
# Property C124: Anderson acceleration near a fixed point of a differentiable map

The map need not be affine, nor a contraction away from the fixed point: it is enough that its derivative at the fixed point has norm below one.
-/

set_option autoImplicit false
set_option linter.unusedSectionVars false
set_option linter.unusedVariables false

namespace Jaxopt.FixedPoint

open Jaxopt.Base Filter Topology

variable {V A : Type*} {m : ℕ} [NormedAddCommGroup V] [InnerProductSpace ℝ V]

/-! ## One step -/

/-- The residual of an extrapolated point, for a map within `eta ‖x - xs‖` of its linearisation. -/
theorem residual_combined {ι : Type*} [Fintype ι] {G : V → V} {M : V →L[ℝ] V} {xs : V} {c eta rho beta W R : ℝ} (hM : ∀ v, ‖M v‖ ≤ c * ‖v‖)
    (hG : ∀ x, ‖x - xs‖ ≤ rho → ‖G x - xs - M (x - xs)‖ ≤ eta * ‖x - xs‖) (heta : 0 ≤ eta) (hc : eta ≤ (1 - c) / 2) (hc0 : 0 ≤ c) (hc1 : c < 1)
    (hR : 0 ≤ R) (w : ι → ℝ) (x : ι → V) (hw : ∑ i, w i = 1) (hW : ∑ i, |w i| ≤ W) (hx : ∀ i, ‖x i - xs‖ ≤ rho) (hF : ∀ i, ‖G (x i) - x i‖ ≤ R)
    (hra : ‖∑ i, w i • (G (x i) - x i)‖ ≤ R) (hrho : (W * (2 / (1 - c)) + |beta|) * R ≤ rho) :
    let y := ∑ i, w i • x i + beta • ∑ i, w i • (G (x i) - x i)
    ‖y - xs‖ ≤ (W * (2 / (1 - c)) + |beta|) * R ∧
    ‖G y - y‖ ≤ (|1 - beta| + |beta| * c + eta * (W * (2 / (1 - c)) + (W * (2 / (1 - c)) + |beta|))) * R := by
  intro y
  have hc' : (0 : ℝ) < 1 - c := by linarith
  set κ := 2 / (1 - c) with hκ
  have hκ0 : 0 < κ := by positivity
  have hκ1 : (1 - c) / 2 * κ = 1 := by rw [hκ]; field_simp
  -- the distance to the fixed point is at most κ times the residual
  have hdist : ∀ i, ‖x i - xs‖ ≤ κ * R := by
    intro i
    have h1 := hG (x i) (hx i)
    have h2 := hM (x i - xs)
    have e : x i - xs = M (x i - xs) + (G (x i) - xs - M (x i - xs)) - (G (x i) - x i) := by abel
    have h3 : ‖x i - xs‖ ≤ ‖M (x i - xs)‖ + ‖G (x i) - xs - M (x i - xs)‖ + ‖G (x i) - x i‖ := by
      nth_rw 1 [e]
      exact le_trans (norm_sub_le _ _) (by linarith [norm_add_le (M (x i - xs)) (G (x i) - xs - M (x i - xs))])
    have h4 : (1 - c) / 2 * ‖x i - xs‖ ≤ R := by
      have := mul_le_mul_of_nonneg_right hc (norm_nonneg (x i - xs))
      linarith [hF i]
    have := mul_le_mul_of_nonneg_left h4 hκ0.le
    calc ‖x i - xs‖ = κ * ((1 - c) / 2 * ‖x i - xs‖) := by rw [← mul_assoc, mul_comm κ, hκ1, one_mul]
      _ ≤ κ * R := this
  have hsumle : ∀ (v : ι → V) (B : ℝ), 0 ≤ B → (∀ i, ‖v i‖ ≤ B) → ‖∑ i, w i • v i‖ ≤ W * B := by
    intro v B hB hv
    refine le_trans (norm_sum_le _ _) ?_
    calc ∑ i, ‖w i • v i‖ ≤ ∑ i, |w i| * B := by
          refine Finset.sum_le_sum fun i _ => ?_
          rw [norm_smul, Real.norm_eq_abs]
          exact mul_le_mul_of_nonneg_left (hv i) (abs_nonneg _)
      _ = (∑ i, |w i|) * B := by rw [Finset.sum_mul]
      _ ≤ W * B := mul_le_mul_of_nonneg_right hW hB
  set ra := ∑ i, w i • (G (x i) - x i) with hrad
  have ey : y - xs = ∑ i, w i • (x i - xs) + beta • ra := by
    simp only [smul_sub, Finset.sum_sub_distrib]
    rw [← Finset.sum_smul, hw, one_smul]
    simp only [y]
    abel
  have hyd : ‖y - xs‖ ≤ (W * κ + |beta|) * R := by
    rw [ey]
    refine le_trans (norm_add_le _ _) ?_
    have h1 := hsumle (fun i => x i - xs) (κ * R) (by positivity) hdist
    have h2 : ‖beta • ra‖ ≤ |beta| * R := by
      rw [norm_smul, Real.norm_eq_abs]
      exact mul_le_mul_of_nonneg_left hra (abs_nonneg _)
    linarith
  refine ⟨hyd, ?_⟩
  have hyr := hG y (le_trans hyd hrho)
  set r := fun i => G (x i) - xs - M (x i - xs) with hr
  have hrb : ∀ i, ‖r i‖ ≤ eta * (κ * R) := fun i => le_trans (hG (x i) (hx i)) (mul_le_mul_of_nonneg_left (hdist i) heta)
  have h5 := hsumle r (eta * (κ * R)) (by positivity) hrb
  -- the residual, expanded around the fixed point
  have hsum : ∑ i, w i • r i = ra - (M (∑ i, w i • (x i - xs)) - ∑ i, w i • (x i - xs)) := by
    rw [map_sum, hrad, ← Finset.sum_sub_distrib, ← Finset.sum_sub_distrib]
    refine Finset.sum_congr rfl fun i _ => ?_
    rw [map_smul, ← smul_sub, ← smul_sub, hr]
    congr 1
    abel
  have e2 : G y - y = (1 - beta) • ra + beta • M ra - ∑ i, w i • r i + (G y - xs - M (y - xs)) := by
    rw [hsum, ey, map_add, map_smul, sub_smul, one_smul]
    have : y = xs + (∑ i, w i • (x i - xs) + beta • ra) := by rw [← ey]; abel
    nth_rw 2 [this]
    abel
  have h6 : ‖(1 - beta) • ra + beta • M ra‖ ≤ (|1 - beta| + |beta| * c) * R := by
    refine le_trans (norm_add_le _ _) ?_
    rw [norm_smul, norm_smul, Real.norm_eq_abs, Real.norm_eq_abs]
    have h7 := mul_le_mul_of_nonneg_left hra (abs_nonneg (1 - beta))
    have h8 := mul_le_mul_of_nonneg_left (le_trans (hM ra) (mul_le_mul_of_nonneg_left hra hc0)) (abs_nonneg beta)
    linarith
  rw [e2]
  refine le_trans (norm_add_le _ _) ?_
  have h8 := norm_sub_le ((1 - beta) • ra + beta • M ra) (∑ i, w i • r i)
  have h9 : ‖G y - xs - M (y - xs)‖ ≤ eta * ((W * κ + |beta|) * R) := le_trans hyr (mul_le_mul_of_nonneg_left hyd heta)
  nlinarith

/-! ## Sequences -/

/-- A sequence of points each of which is either the image of the previous one or extrapolated from `m` of the last `m` points, with weights
that sum to one and minimise the ridge-regularised residual. -/
def Mixes (G : V → V) (m : ℕ) (beta ridge : ℝ) (x : ℕ → V) : Prop :=
  ∀ k, x (k + 1) = G (x k) ∨ ∃ (w : Fin m → ℝ) (j : Fin m → ℕ), (∀ i, j i ≤ k ∧ k + 1 ≤ j i + m) ∧ ∑ i, w i = 1 ∧
    (∀ v : Fin m → ℝ, ∑ i, v i = 1 → ‖∑ i, w i • (G (x (j i)) - x (j i))‖ ^ 2 + ridge * ∑ i, w i * w i ≤
      ‖∑ i, v i • (G (x (j i)) - x (j i))‖ ^ 2 + ridge * ∑ i, v i * v i) ∧
    x (k + 1) = ∑ i, w i • x (j i) + beta • ∑ i, w i • (G (x (j i)) - x (j i))

/-- Minimising weights are bounded because of the ridge, and the residual they give is not longer than the longest one. -/
theorem ridge_weights (hm : 0 < m) {ridge : ℝ} (hr : 0 < ridge) (F : Fin m → V) (w : Fin m → ℝ) {R : ℝ} (hR0 : 0 ≤ R) (hR1 : R ≤ 1)
    (hw : ∑ i, w i = 1) (hF : ∀ i, ‖F i‖ ≤ R)
    (hmin : ∀ v : Fin m → ℝ, ∑ i, v i = 1 → ‖∑ i, w i • F i‖ ^ 2 + ridge * ∑ i, w i * w i ≤ ‖∑ i, v i • F i‖ ^ 2 + ridge * ∑ i, v i * v i) :
    ‖∑ i, w i • F i‖ ≤ R ∧ ∑ i, |w i| ≤ 1 + m / ridge := by
  have hm' : (0 : ℝ) < m := by exact_mod_cast hm
  have hsum : ∑ i : Fin m, (1 / m : ℝ) = 1 := by
    simp only [Finset.sum_const, Finset.card_univ, Fintype.card_fin, nsmul_eq_mul]
    field_simp
  have h1 := hmin (fun _ => 1 / m) hsum
  have h2 : ∑ i : Fin m, (1 / m : ℝ) * (1 / m) = 1 / m := by
    simp only [Finset.sum_const, Finset.card_univ, Fintype.card_fin, nsmul_eq_mul]
    field_simp
  have h3 : ‖∑ i, (1 / m : ℝ) • F i‖ ≤ R := by
    refine le_trans (norm_sum_le _ _) ?_
    calc ∑ i, ‖(1 / m : ℝ) • F i‖ ≤ ∑ i : Fin m, (1 / m : ℝ) * R := by
          refine Finset.sum_le_sum fun i _ => ?_
          rw [norm_smul, Real.norm_of_nonneg (by positivity)]
          exact mul_le_mul_of_nonneg_left (hF i) (by positivity)
      _ = R := by rw [← Finset.sum_mul, hsum, one_mul]
  have h4 := pow_le_pow_left₀ (norm_nonneg _) h3 2
  rw [h2] at h1
  have h5 := one_le_sum_sq w hw
  have h6 : ridge * (1 / m) ≤ ridge * ∑ i, w i * w i := by
    refine mul_le_mul_of_nonneg_left ?_ hr.le
    rw [div_le_iff₀ hm']; linarith
  constructor
  · exact abs_le_of_sq_le_sq' (by linarith) hR0 |>.2
  · have h7 : ridge * ∑ i, w i * w i ≤ 1 + ridge * (1 / m) := by
      have := sq_nonneg ‖∑ i, w i • F i‖
      nlinarith
    have h8 : m * ∑ i, w i * w i ≤ 1 + m / ridge := by
      have e1 : ∑ i, w i * w i ≤ 1 / ridge + 1 / m := by
        have := mul_le_mul_of_nonneg_left h7 (by positivity : 0 ≤ 1 / ridge)
        have e : 1 / ridge * (ridge * ∑ i, w i * w i) = ∑ i, w i * w i := by field_simp
        have e' : 1 / ridge * (1 + ridge * (1 / (m : ℝ))) = 1 / ridge + 1 / m := by field_simp
        rw [e, e'] at this
        exact this
      have := mul_le_mul_of_nonneg_left e1 hm'.le
      have e' : (m : ℝ) * (1 / ridge + 1 / m) = 1 + m / ridge := by field_simp; ring
      rw [e'] at this
      exact this
    have h9 := sq_sum_le_card_mul_sum_sq (s := (Finset.univ : Finset (Fin m))) (f := fun i => |w i|)
    rw [Finset.card_univ, Fintype.card_fin] at h9
    simp only [sq_abs] at h9
    have h10 : (∑ i, |w i|) ^ 2 ≤ 1 + m / ridge := by
      refine le_trans h9 ?_
      simpa [sq] using h8
    have h11 : (0 : ℝ) ≤ m / ridge := by positivity
    nlinarith [Finset.sum_nonneg fun i (_ : i ∈ (Finset.univ : Finset (Fin m))) => abs_nonneg (w i)]

/-- The factor of one step. -/
noncomputable def mixFactor (beta c : ℝ) : ℝ := max c (|1 - beta| + |beta| * c)

/-- Local convergence of such sequences. -/
theorem Mixes.local (hm : 0 < m) {G : V → V} {M : V →L[ℝ] V} {xs : V} {c beta ridge q : ℝ} (hG : HasFDerivAt G M xs) (hxs : G xs = xs)
    (hM : ∀ v, ‖M v‖ ≤ c * ‖v‖) (hc0 : 0 ≤ c) (hc1 : c < 1) (hr : 0 < ridge) (hq : mixFactor beta c < q) (hq1 : q ≤ 1) :
    ∃ δ > 0, ∀ x : ℕ → V, Mixes G m beta ridge x → ‖x 0 - xs‖ ≤ δ → ∀ k,
      ‖G (x k) - x k‖ ≤ q ^ ((k + m - 1) / m) * ‖G (x 0) - x 0‖ ∧ ‖x k - xs‖ ≤ 2 / (1 - c) * ‖G (x k) - x k‖ ∧
      ‖G (x k) - xs‖ ≤ ‖x k - xs‖ := by
  have hc' : (0 : ℝ) < 1 - c := by linarith
  set κ := 2 / (1 - c) with hκ
  have hκ0 : 0 < κ := by positivity
  set W := 1 + (m : ℝ) / ridge with hW
  have hW1 : 1 ≤ W := by
    have : (0 : ℝ) ≤ m / ridge := by positivity
    linarith
  set B := max |beta| 1 with hB
  have hB1 : 1 ≤ B := le_max_right _ _
  set D := W * κ + (W * κ + B) with hD
  have hD0 : 0 < D := by positivity
  have hcq : c < q := lt_of_le_of_lt (le_max_left _ _) hq
  have hbq : |1 - beta| + |beta| * c < q := lt_of_le_of_lt (le_max_right _ _) hq
  have hq0 : 0 ≤ q := by linarith
  set eta := min ((1 - c) / 2) ((q - mixFactor beta c) / D) with heta
  have heta0 : 0 < eta := lt_min (by linarith) (div_pos (by linarith) hD0)
  have hetaD : eta * D ≤ q - mixFactor beta c := by
    have := mul_le_mul_of_nonneg_right (min_le_right ((1 - c) / 2) ((q - mixFactor beta c) / D)) hD0.le
    rwa [div_mul_cancel₀ _ hD0.ne'] at this
  have hetac : eta ≤ (1 - c) / 2 := min_le_left _ _
  obtain ⟨rho, hrho0, hrho⟩ : ∃ rho > 0, ∀ x, ‖x - xs‖ ≤ rho → ‖G x - xs - M (x - xs)‖ ≤ eta * ‖x - xs‖ := by
    have h1 := hG.isLittleO.def heta0
    rw [hxs] at h1
    obtain ⟨rho, h2, h3⟩ := Metric.nhds_basis_closedBall.eventually_iff.mp h1
    exact ⟨rho, h2, fun x hx => h3 (by rwa [Metric.mem_closedBall, dist_eq_norm])⟩
  set R0 := min 1 (rho / (W * κ + B)) with hR0
  have hWB : 0 < W * κ + B := by positivity
  have hR00 : 0 < R0 := lt_min one_pos (div_pos hrho0 hWB)
  have hR0r : (W * κ + B) * R0 ≤ rho := by
    have := mul_le_mul_of_nonneg_left (min_le_right 1 (rho / (W * κ + B))) hWB.le
    rwa [mul_div_cancel₀ _ hWB.ne'] at this
  -- consequences of closeness for one point
  have hclose : ∀ x, ‖x - xs‖ ≤ rho → ‖x - xs‖ ≤ κ * ‖G x - x‖ ∧ ‖G x - xs‖ ≤ ‖x - xs‖ ∧ ‖G x - x‖ ≤ 2 * ‖x - xs‖ := by
    intro x hx
    have h1 := hrho x hx
    have h2 := hM (x - xs)
    have h0 := norm_nonneg (x - xs)
    have hGx : ‖G x - xs‖ ≤ (c + eta) * ‖x - xs‖ := by
      have e : G x - xs = M (x - xs) + (G x - xs - M (x - xs)) := by abel
      rw [e]
      refine le_trans (norm_add_le _ _) (by linarith)
    have h3 : ‖x - xs‖ ≤ ‖G x - xs‖ + ‖G x - x‖ := by
      have e : x - xs = (G x - xs) - (G x - x) := by abel
      nth_rw 1 [e]
      exact norm_sub_le _ _
    have h4 : ‖G x - x‖ ≤ ‖G x - xs‖ + ‖x - xs‖ := by
      have e : G x - x = (G x - xs) - (x - xs) := by abel
      nth_rw 1 [e]
      exact norm_sub_le _ _
    have h5 : (c + eta) * ‖x - xs‖ ≤ (1 - (1 - c) / 2) * ‖x - xs‖ := mul_le_mul_of_nonneg_right (by linarith) h0
    refine ⟨?_, by nlinarith, by nlinarith⟩
    rw [hκ, div_mul_eq_mul_div, le_div_iff₀ hc']
    nlinarith
  refine ⟨min rho (R0 / 2), lt_min hrho0 (by positivity), ?_⟩
  intro x hx h0
  have hx0 := le_trans h0 (min_le_left _ _)
  have hF0 : ‖G (x 0) - x 0‖ ≤ R0 := by
    have := (hclose (x 0) hx0).2.2
    have := le_trans h0 (min_le_right _ _)
    linarith
  have key : ∀ k, ‖x k - xs‖ ≤ rho ∧ ‖G (x k) - x k‖ ≤ q ^ ((k + m - 1) / m) * ‖G (x 0) - x 0‖ := by
    intro k
    induction k using Nat.strong_induction_on with
    | _ k ih =>
      cases k with
      | zero =>
        refine ⟨hx0, ?_⟩
        rw [Nat.div_eq_of_lt (by omega), pow_zero, one_mul]
      | succ k =>
        have hqk : ∀ n, q ^ n ≤ 1 := fun n => pow_le_one₀ hq0 hq1
        set R := q ^ (k / m) * ‖G (x 0) - x 0‖ with hRd
        have hRpos : 0 ≤ R := by positivity
        have hRR0 : R ≤ R0 := by
          have := mul_le_mul_of_nonneg_right (hqk (k / m)) (norm_nonneg (G (x 0) - x 0))
          rw [one_mul] at this
          exact le_trans this hF0
        have hwin : ∀ j, j ≤ k → k + 1 ≤ j + m → ‖G (x j) - x j‖ ≤ R := by
          intro j hj hj2
          refine le_trans (ih j (by omega)).2 (mul_le_mul_of_nonneg_right ?_ (norm_nonneg _))
          apply pow_le_pow_of_le_one hq0 hq1
          apply Nat.div_le_div_right
          omega
        have hfin : q ^ ((k + 1 + m - 1) / m) * ‖G (x 0) - x 0‖ = q * R := by
          rw [show k + 1 + m - 1 = k + m by omega, Nat.add_div_right _ hm, pow_succ, hRd]
          ring
        rw [hfin]
        rcases hx k with he | ⟨w, j, hj, hw, hmin, he⟩
        · have h1 := residual_combined (ι := Unit) (beta := 1) (W := W) hM hrho heta0.le hetac hc0 hc1 hRpos (fun _ => 1) (fun _ => x k)
            (by simp) (by simpa using hW1) (fun _ => (ih k (by omega)).1) (fun _ => hwin k le_rfl (by omega))
            (by simpa using hwin k le_rfl (by omega))
            (by
              refine le_trans (mul_le_mul ?_ hRR0 hRpos hWB.le) hR0r
              rw [abs_one]; linarith)
          have e : (∑ _i : Unit, (1 : ℝ) • x k + (1 : ℝ) • ∑ _i : Unit, (1 : ℝ) • (G (x k) - x k)) = x (k + 1) := by
            rw [he]; simp
          simp only [e] at h1
          obtain ⟨h2, h3⟩ := h1
          constructor
          · refine le_trans h2 (le_trans (mul_le_mul ?_ hRR0 hRpos hWB.le) hR0r)
            rw [abs_one, ← hκ]; linarith
          · refine le_trans h3 (mul_le_mul_of_nonneg_right ?_ hRpos)
            rw [abs_one, sub_self, abs_zero, ← hκ]
            have h4 : eta * (W * κ + (W * κ + 1)) ≤ eta * D := mul_le_mul_of_nonneg_left (by rw [hD]; linarith) heta0.le
            have h5 : c ≤ mixFactor beta c := le_max_left _ _
            linarith
        · obtain ⟨h4, h5⟩ := ridge_weights hm hr (fun i => G (x (j i)) - x (j i)) w hRpos (le_trans hRR0 (min_le_left _ _)) hw
            (fun i => hwin (j i) (hj i).1 (hj i).2) hmin
          have hbB : |beta| ≤ B := le_max_left _ _
          have h1 := residual_combined (beta := beta) (W := W) hM hrho heta0.le hetac hc0 hc1 hRpos w (fun i => x (j i))
            hw h5 (fun i => (ih (j i) (by have := (hj i).1; omega)).1) (fun i => hwin (j i) (hj i).1 (hj i).2) h4
            (by
              refine le_trans (mul_le_mul ?_ hRR0 hRpos hWB.le) hR0r
              linarith)
          simp only [← he] at h1
          obtain ⟨h2, h3⟩ := h1
          constructor
          · refine le_trans h2 (le_trans (mul_le_mul ?_ hRR0 hRpos hWB.le) hR0r)
            rw [← hκ]; linarith
          · refine le_trans h3 (mul_le_mul_of_nonneg_right ?_ hRpos)
            rw [← hκ]
            have h6 : eta * (W * κ + (W * κ + |beta|)) ≤ eta * D := mul_le_mul_of_nonneg_left (by rw [hD]; linarith) heta0.le
            have h7 : |1 - beta| + |beta| * c ≤ mixFactor beta c := le_max_right _ _
            linarith
  intro k
  exact ⟨(key k).2, (hclose _ (key k).1).1, (hclose _ (key k).1).2.1⟩

theorem Mixes.tendsto (hm : 0 < m) {G : V → V} {x : ℕ → V} {xs : V} {c q : ℝ} (hq0 : 0 ≤ q) (hq1 : q < 1) (hc1 : c < 1)
    (h : ∀ k, ‖G (x k) - x k‖ ≤ q ^ ((k + m - 1) / m) * ‖G (x 0) - x 0‖ ∧ ‖x k - xs‖ ≤ 2 / (1 - c) * ‖G (x k) - x k‖ ∧
      ‖G (x k) - xs‖ ≤ ‖x k - xs‖) : Tendsto x atTop (𝓝 xs) ∧ Tendsto (fun k => G (x k)) atTop (𝓝 xs) := by
  have hdiv : Tendsto (fun k : ℕ => (k + m - 1) / m) atTop atTop := by
    refine tendsto_atTop.mpr fun n => ?_
    filter_upwards [eventually_ge_atTop (n * m)] with k hk
    rw [Nat.le_div_iff_mul_le hm]
    omega
  have h1 : Tendsto (fun k : ℕ => 2 / (1 - c) * (q ^ ((k + m - 1) / m) * ‖G (x 0) - x 0‖)) atTop (𝓝 0) := by
    have := (((tendsto_pow_atTop_nhds_zero_of_lt_one hq0 hq1).comp hdiv).mul_const ‖G (x 0) - x 0‖).const_mul (2 / (1 - c))
    simpa using this
  have hc' : 0 ≤ 2 / (1 - c) := div_nonneg (by norm_num) (by linarith)
  have h2 : ∀ k, ‖x k - xs‖ ≤ 2 / (1 - c) * (q ^ ((k + m - 1) / m) * ‖G (x 0) - x 0‖) := fun k =>
    le_trans (h k).2.1 (mul_le_mul_of_nonneg_left (h k).1 hc')
  constructor
  · rw [tendsto_iff_norm_sub_tendsto_zero]
    exact squeeze_zero (fun k => norm_nonneg _) h2 h1
  · rw [tendsto_iff_norm_sub_tendsto_zero]
    exact squeeze_zero (fun k => norm_nonneg _) (fun k => le_trans (h k).2.2 (h2 k)) h1

/-! ## The solvers -/

namespace Anderson

variable [NeZero m]

/-- The solver applied to the map `G`, in exact arithmetic. -/
structure OnMap (S : Anderson ℝ V A m) (G : V → V) : Prop where
  fn : ∀ x, (S.fixedPointFun.fn x).1 = G x
  vdot : S.vdot = fun u v => inner ℝ u v
  sqrt : S.sqrt = Real.sqrt
  ridge : 0 < S.ridge
  solve : ExactSolve S.solve

theorem OnMap.mixes {S : Anderson ℝ V A m} {G : V → V} (h : OnMap S G) (x0 : V) :
    S.point x0 0 = x0 ∧ Mixes G m S.beta S.ridge (S.point x0) := by
  have hv : IsVdot S.vdot := by rw [h.vdot]; exact isVdot_inner
  have hm : 0 < m := Nat.pos_of_ne_zero (NeZero.ne m)
  obtain ⟨w1, w2, w3⟩ := C29_warmup S hv x0
  constructor
  · exact w2 0 (fun h => by omega)
  · intro k
    by_cases hk : S.mixingFrequency ∣ k + 1 ∧ m ≤ k + 1
    · right
      obtain ⟨hg, hslot, -, -, -⟩ := C29_bookkeeping S hv x0 (k + 1)
      have hs : ∀ i, ∃ j, (j ≤ k ∧ k + 1 ≤ j + m) ∧ (S.update^[k + 1] (x0, S.initState x0)).2.hist.params i = S.point x0 j ∧
          (S.update^[k + 1] (x0, S.initState x0)).2.hist.residuals i = G (S.point x0 j) - S.point x0 j := by
        intro i
        rcases hslot i with ⟨j, h1, h2, -, h4, h5⟩ | ⟨h1, -, -⟩
        · refine ⟨j, ⟨by omega, h2⟩, h4, ?_⟩
          rw [h5, h4]
          simp only [h.fn]
        · have := i.isLt; omega
      choose j hj1 hj2 hj3 using hs
      obtain ⟨hsum, hmin⟩ := C29_weights hv hm hg h.ridge h.solve
      refine ⟨_, j, hj1, hsum, ?_, ?_⟩
      · intro v hvs
        have := hmin v hvs
        rw [h.vdot] at this
        simp only [real_inner_self_eq_norm_sq, hj3] at this
        exact this
      · rw [w3 (k + 1) hk.1 hk.2]
        simp only [weights, hj2, hj3]
    · left
      rw [w2 (k + 1) hk, ((C29_bookkeeping S hv x0 (k + 1)).2.2.2.2 (by omega)).1, Nat.add_sub_cancel]
      simp only [h.fn]

/-- **C124** (rate).  Let the map be differentiable at a fixed point with a derivative of norm at most `c < 1`, and let `q` exceed the factor of
the affine case.  There is a neighbourhood of the fixed point such that every run started in it, whatever the schedule and the exact linear
solver, has residuals at most `q ^ ⌈k / m⌉` times the first one, at points within `2 / (1 - c)` times the residual of the fixed point; both the
points and the iterates converge to it if `q < 1`. -/
theorem C124_rate {G : V → V} {M : V →L[ℝ] V} {xs : V} {c beta ridge q : ℝ} (hG : HasFDerivAt G M xs) (hxs : G xs = xs)
    (hM : ∀ v, ‖M v‖ ≤ c * ‖v‖) (hc0 : 0 ≤ c) (hc1 : c < 1) (hr : 0 < ridge) (hq : max c (|1 - beta| + |beta| * c) < q) (hq1 : q ≤ 1) :
    ∃ δ > 0, ∀ S : Anderson ℝ V A m, OnMap S G → S.beta = beta → S.ridge = ridge → ∀ x0, ‖x0 - xs‖ ≤ δ →
      (∀ k, ‖S.residual x0 k‖ ≤ q ^ ((k + m - 1) / m) * ‖G x0 - x0‖ ∧ ‖S.point x0 k - xs‖ ≤ 2 / (1 - c) * ‖S.residual x0 k‖ ∧
        ‖G (S.point x0 k) - xs‖ ≤ ‖S.point x0 k - xs‖) ∧
      (q < 1 → Tendsto (fun k => (S.update^[k] (x0, S.initState x0)).1) atTop (𝓝 xs) ∧ Tendsto (S.point x0) atTop (𝓝 xs)) := by
  have hm : 0 < m := Nat.pos_of_ne_zero (NeZero.ne m)
  obtain ⟨δ, hδ, hall⟩ := Mixes.local hm hG hxs hM hc0 hc1 hr hq hq1
  refine ⟨δ, hδ, ?_⟩
  rintro S hS rfl rfl x0 hx0
  obtain ⟨h0, hmix⟩ := hS.mixes x0
  have hv : IsVdot S.vdot := by rw [hS.vdot]; exact isVdot_inner
  have h1 := hall (S.point x0) hmix (by rwa [h0])
  have hres : ∀ k, S.residual x0 k = G (S.point x0 k) - S.point x0 k := fun k => by unfold residual; rw [hS.fn]
  constructor
  · intro k
    rw [hres]
    have := h1 k
    rw [h0] at this
    exact this
  · intro hq'
    have hq0 : 0 ≤ q := le_trans hc0 (le_trans (le_max_left _ _) hq.le)
    obtain ⟨t1, t2⟩ := Mixes.tendsto hm hq0 hq' hc1 h1
    refine ⟨?_, t1⟩
    rw [← tendsto_add_atTop_iff_nat 1]
    refine t2.congr fun k => ?_
    rw [((C29_bookkeeping S hv x0 (k + 1)).2.2.2.2 (by omega)).1, Nat.add_sub_cancel]
    simp only [hS.fn]

/-- **C124** (run).  In such a neighbourhood a run whose budget is large enough returns with an error within the tolerance, and its parameters are
within `2 / (1 - c)` times the tolerance of the fixed point. -/
theorem C124_run {G : V → V} {M : V →L[ℝ] V} {xs : V} {c beta ridge q : ℝ} (hG : HasFDerivAt G M xs) (hxs : G xs = xs)
    (hM : ∀ v, ‖M v‖ ≤ c * ‖v‖) (hc0 : 0 ≤ c) (hc1 : c < 1) (hr : 0 < ridge) (hq : max c (|1 - beta| + |beta| * c) < q) (hq1 : q < 1) :
    ∃ δ > 0, ∀ S : Anderson ℝ V A m, OnMap S G → S.beta = beta → S.ridge = ridge → ∀ x0, ‖x0 - xs‖ ≤ δ → 1 ≤ S.maxiter →
      q ^ ((S.maxiter - 1 + m - 1) / m) * ‖G x0 - x0‖ ≤ S.tol → ∀ r, S.run x0 = .ok r →
      Ext.gt r.2.error (.fin S.tol) = false ∧ ‖r.1 - xs‖ ≤ 2 / (1 - c) * S.tol := by
  obtain ⟨δ, hδ, hall⟩ := C124_rate (A := A) (m := m) hG hxs hM hc0 hc1 hr hq hq1.le
  refine ⟨δ, hδ, ?_⟩
  intro S hS hb hrd x0 hx0 hmax hN r hrun
  have hall := (hall S hS hb hrd x0 hx0).1
  have hv : IsVdot S.vdot := by rw [hS.vdot]; exact isVdot_inner
  have h2 := C29_history_size S x0 hrun
  simp only [run, postInit] at hrun
  rw [if_neg (by omega)] at hrun
  obtain ⟨k, hk1, hk2, rfl, -, hstop⟩ := runS_spec hmax hrun
  obtain ⟨b1, b2⟩ := (C29_bookkeeping S hv x0 k).2.2.2.2 hk1
  have eerr : (S.update^[k] (x0, S.initState x0)).2.error = .fin ‖S.residual x0 (k - 1)‖ := by
    rw [b2, hS.sqrt, hS.vdot]
    simp only [real_inner_self_eq_norm_sq, Real.sqrt_sq (norm_nonneg _)]
    rfl
  have hle : ‖S.residual x0 (k - 1)‖ ≤ S.tol := by
    rcases hstop with h | h
    · rw [h]
      exact le_trans (hall (S.maxiter - 1)).1 hN
    · unfold cont at h
      rw [eerr] at h
      simpa [Ext.gt, Ext.lt] using h
  refine ⟨?_, ?_⟩
  · rw [eerr]; simpa [Ext.gt, Ext.lt] using hle
  · rw [b1]
    simp only
    rw [hS.fn]
    have hc' : 0 ≤ 2 / (1 - c) := div_nonneg (by norm_num) (by linarith)
    exact le_trans (hall (k - 1)).2.2 (le_trans (hall (k - 1)).2.1 (mul_le_mul_of_nonneg_left hle hc'))

end Anderson

namespace AWrapper

variable {T : Type*} [NeZero m]

/-- The wrapper around a solver whose update of the parameters is the map `G`, whatever its state, in exact arithmetic. -/
structure OnMap (S : AWrapper ℝ V T m) (G : V → V) : Prop where
  fn : ∀ x t, (S.solverUpdate x t).1 = G x
  vdot : S.vdot = fun u v => inner ℝ u v
  ridge : 0 < S.ridge
  solve : ExactSolve S.solve

/-- **C124** for the wrapper around a memoryless solver: its iterates converge to the fixed point from every start in a neighbourhood. -/
theorem C124_wrapper {G : V → V} {M : V →L[ℝ] V} {xs : V} {c beta ridge q : ℝ} (hG : HasFDerivAt G M xs) (hxs : G xs = xs)
    (hM : ∀ v, ‖M v‖ ≤ c * ‖v‖) (hc0 : 0 ≤ c) (hc1 : c < 1) (hr : 0 < ridge) (hq : max c (|1 - beta| + |beta| * c) < q) (hq1 : q < 1) :
    ∃ δ > 0, ∀ S : AWrapper ℝ V T m, OnMap S G → S.beta = beta → S.ridge = ridge → ∀ x0, ‖x0 - xs‖ ≤ δ →
      (∀ k, ‖(S.update^[k + 1] (x0, S.initState x0)).1 - xs‖ ≤ 2 / (1 - c) * (q ^ ((k + m - 1) / m) * ‖G x0 - x0‖)) ∧
      Tendsto (fun k => (S.update^[k] (x0, S.initState x0)).1) atTop (𝓝 xs) := by
  have hm : 0 < m := Nat.pos_of_ne_zero (NeZero.ne m)
  obtain ⟨δ, hδ, hall⟩ := Mixes.local hm hG hxs hM hc0 hc1 hr hq hq1.le
  refine ⟨δ, hδ, ?_⟩
  rintro S hS rfl rfl x0 hx0
  have hv : IsVdot S.vdot := by rw [hS.vdot]; exact isVdot_inner
  obtain ⟨freq, hf⟩ : ∃ freq, S.mixingFrequency = some freq ∨ (S.mixingFrequency = none ∧ freq = m) := by
    cases h : S.mixingFrequency with
    | none => exact ⟨m, Or.inr ⟨rfl, rfl⟩⟩
    | some f => exact ⟨f, Or.inl rfl⟩
  have hstep : ∀ k, (S.update^[k + 1] (x0, S.initState x0)).1 = G (S.point x0 k).1 := by
    intro k
    rw [Function.iterate_succ_apply']
    show (S.solverUpdate _ _).1 = _
    rw [hS.fn]
    rfl
  have h0 : (S.point x0 0).1 = x0 := by
    rw [(C29_wrapper_schedule S hv x0 0 freq hf).1 (fun h => by omega)]
    rfl
  have hmix : Mixes G m S.beta S.ridge (fun k => (S.point x0 k).1) := by
    intro k
    by_cases hk : freq ∣ k + 1 ∧ m ≤ k + 1
    · right
      obtain ⟨hg, hslot, -⟩ := C29_wrapper S hv x0 (k + 1)
      have hs : ∀ i, ∃ j, (j ≤ k ∧ k + 1 ≤ j + m) ∧ (S.update^[k + 1] (x0, S.initState x0)).2.hist.params i = (S.point x0 j).1 ∧
          (S.update^[k + 1] (x0, S.initState x0)).2.hist.residuals i = G (S.point x0 j).1 - (S.point x0 j).1 := by
        intro i
        rcases hslot i with ⟨j, h1, h2, -, h4, h5⟩ | ⟨h1, -, -⟩
        · refine ⟨j, ⟨by omega, h2⟩, h4, ?_⟩
          rw [h5, h4, hS.fn]
        · have := i.isLt; omega
      choose j hj1 hj2 hj3 using hs
      obtain ⟨hsum, hmin⟩ := C29_weights hv hm hg hS.ridge hS.solve
      refine ⟨_, j, hj1, hsum, ?_, ?_⟩
      · intro v hvs
        have := hmin v hvs
        rw [hS.vdot] at this
        simp only [real_inner_self_eq_norm_sq, hj3] at this
        exact this
      · show (S.point x0 (k + 1)).1 = _
        rw [((C29_wrapper_schedule S hv x0 (k + 1) freq hf).2 hk.1 hk.2).2]
        simp only [weights, hj2, hj3]
    · left
      show (S.point x0 (k + 1)).1 = _
      rw [(C29_wrapper_schedule S hv x0 (k + 1) freq hf).1 hk, hstep]
  have h1 := hall _ hmix (by simpa [h0] using hx0)
  have hq0 : 0 ≤ q := le_trans hc0 (le_trans (le_max_left _ _) hq.le)
  have hc' : 0 ≤ 2 / (1 - c) := div_nonneg (by norm_num) (by linarith)
  constructor
  · intro k
    obtain ⟨a1, a2, a3⟩ := h1 k
    simp only [h0] at a1
    rw [hstep]
    exact le_trans a3 (le_trans a2 (mul_le_mul_of_nonneg_left a1 hc'))
  · obtain ⟨t1, t2⟩ := Mixes.tendsto hm hq0 hq1 hc1 h1
    rw [← tendsto_add_atTop_iff_nat 1]
    exact t2.congr fun k => (hstep k).symm

end AWrapper

/-- The hypotheses hold, e.g. for `x ↦ x ^ 2` (not a contraction) at its fixed point `0`, with the default attributes. -/
example : HasFDerivAt (fun x : ℝ => x ^ 2) (0 : ℝ →L[ℝ] ℝ) 0 ∧ (∀ v : ℝ, ‖(0 : ℝ →L[ℝ] ℝ) v‖ ≤ 0 * ‖v‖) ∧ max (0 : ℝ) (|1 - 1| + |1| * 0) < 1 / 2 ∧
    Anderson.OnMap (V := ℝ) (A := Unit) (m := 5) ⟨.noAux fun x => x ^ 2, fun u v => inner ℝ u v, Real.sqrt, cramerSolve, 1, 1, 1 / 100000, 100,
      1 / 100000, false, true⟩ (fun x => x ^ 2) := by
  refine ⟨?_, fun v => by simp, by norm_num, ⟨fun x => rfl, rfl, rfl, by norm_num, exactSolve_cramer⟩⟩
  have h := (hasDerivAt_pow 2 (0 : ℝ)).hasFDerivAt
  refine h.congr_fderiv ?_
  ext
  simp

/-! ## No global convergence -/

/-- A contraction of the real line: odd, piecewise linear, with slopes `4663 / 9999` and `4 / 5`. -/
noncomputable def cycMap (u : ℝ) : ℝ := 4 / 5 * u - max (-(16681 / 33350)) (min (16681 / 33350) (16681 / 49995 * u))

theorem cycMap_contraction (u v : ℝ) : |cycMap u - cycMap v| ≤ 4 / 5 * |u - v| := by
  have key : ∀ u v : ℝ, v ≤ u → cycMap v ≤ cycMap u ∧ cycMap u - cycMap v ≤ 4 / 5 * (u - v) := by
    intro u v h
    unfold cycMap
    constructor <;>
    · rcases max_cases (-(16681 / 33350 : ℝ)) (min (16681 / 33350) (16681 / 49995 * u)) with ⟨h1, h1'⟩ | ⟨h1, h1'⟩ <;>
      rcases max_cases (-(16681 / 33350 : ℝ)) (min (16681 / 33350) (16681 / 49995 * v)) with ⟨h2, h2'⟩ | ⟨h2, h2'⟩ <;>
      rcases min_cases (16681 / 33350 : ℝ) (16681 / 49995 * u) with ⟨h3, h3'⟩ | ⟨h3, h3'⟩ <;>
      rcases min_cases (16681 / 33350 : ℝ) (16681 / 49995 * v) with ⟨h4, h4'⟩ | ⟨h4, h4'⟩ <;>
      rw [h1, h2] <;> linarith
  rcases le_total v u with h | h
  · obtain ⟨h1, h2⟩ := key u v h
    rw [abs_of_nonneg (by linarith), abs_of_nonneg (by linarith)]
    exact h2
  · obtain ⟨h1, h2⟩ := key v u h
    rw [abs_of_nonpos (by linarith), abs_of_nonpos (by linarith)]
    linarith

/-- Anderson acceleration of `cycMap` with the default `beta` and `ridge`, and one extrapolation every `history_size = 2` iterations. -/
noncomputable def cycSolver (solve : LinSolve ℝ 2) (maxiter : ℕ) (tol : ℝ) (unroll jit : Bool) : Anderson ℝ ℝ Unit 2 :=
  ⟨.noAux cycMap, fun u v => u * v, Real.sqrt, solve, 2, 1, 1 / 100000, maxiter, tol, unroll, jit⟩

theorem cycMap_vals (σ : ℝ) (hσ : σ = 1 ∨ σ = -1) :
    cycMap (σ * (16669 / 6670)) = σ * (9999 / 6670) ∧ cycMap (σ * (9999 / 6670)) = σ * (4663 / 6670) := by
  unfold cycMap
  rcases hσ with rfl | rfl
  · constructor
    · rw [min_eq_left (by norm_num), max_eq_right (by norm_num)]; norm_num
    · rw [min_eq_left (by norm_num), max_eq_right (by norm_num)]; norm_num
  · constructor
    · rw [min_eq_right (by norm_num), max_eq_left (by norm_num)]; norm_num
    · rw [min_eq_right (by norm_num), max_eq_left (by norm_num)]; norm_num

theorem cyc_points {solve : LinSolve ℝ 2} (hs : ExactSolve solve) (maxiter : ℕ) (tol : ℝ) (unroll jit : Bool) (j : ℕ) :
    ∃ σ : ℝ, (σ = 1 ∨ σ = -1) ∧ (cycSolver solve maxiter tol unroll jit).point (16669 / 6670) (2 * j) = σ * (16669 / 6670) ∧
      (cycSolver solve maxiter tol unroll jit).point (16669 / 6670) (2 * j + 1) = σ * (9999 / 6670) := by
  set S := cycSolver solve maxiter tol unroll jit with hS
  set x0 : ℝ := 16669 / 6670 with hx0
  have hv : IsVdot S.vdot := IsVdot.mul
  obtain ⟨-, w2, w3⟩ := Anderson.C29_warmup S hv x0
  have hodd : ∀ n, S.point x0 (2 * n + 1) = cycMap (S.point x0 (2 * n)) := by
    intro n
    rw [w2 (2 * n + 1) (fun h => by have h1 : (2 : ℕ) ∣ 2 * n + 1 := h.1; omega),
      ((Anderson.C29_bookkeeping S hv x0 (2 * n + 1)).2.2.2.2 (by omega)).1, Nat.add_sub_cancel]
    rfl
  have hgen : ∀ n (σ : ℝ), (σ = 1 ∨ σ = -1) → S.point x0 (2 * n) = σ * (16669 / 6670) →
      S.point x0 (2 * n + 1) = σ * (9999 / 6670) := by
    intro n σ hσ h
    rw [hodd, h]
    exact (cycMap_vals σ hσ).1
  induction j with
  | zero =>
    have h0 : S.point x0 (2 * 0) = 1 * (16669 / 6670) := by
      rw [one_mul]
      exact w2 0 (fun h => by omega)
    exact ⟨1, Or.inl rfl, h0, hgen 0 1 (Or.inl rfl) h0⟩
  | succ n ih =>
    obtain ⟨σ, hσ, e0, e1⟩ := ih
    have hneg : -σ = 1 ∨ -σ = -1 := by rcases hσ with rfl | rfl <;> simp
    have hpt : S.point x0 (2 * (n + 1)) = -σ * (16669 / 6670) := by
      obtain ⟨hg, hslot, -⟩ := Anderson.C29_bookkeeping S hv x0 (2 * (n + 1))
      have hw3 := w3 (2 * (n + 1)) ⟨n + 1, rfl⟩ (by omega)
      obtain ⟨s1, s2⟩ := weights_system hv (by norm_num) (h := (S.update^[2 * (n + 1)] (x0, S.initState x0)).2.hist) hg
        (ridge := S.ridge) (by show (0 : ℝ) < 1 / 100000; norm_num) (solve := S.solve) hs
      obtain ⟨v1, v2⟩ := cycMap_vals σ hσ
      have hp0 : (S.update^[2 * (n + 1)] (x0, S.initState x0)).2.hist.params 0 = σ * (16669 / 6670) ∧
          (S.update^[2 * (n + 1)] (x0, S.initState x0)).2.hist.residuals 0 = -σ := by
        rcases hslot 0 with ⟨j, h1, h2, h3, h4, h5⟩ | ⟨h1, -, -⟩
        · have : j = 2 * n := by
            have : j % 2 = 0 := h3
            omega
          rw [h5, h4, this, e0]
          refine ⟨rfl, ?_⟩
          show cycMap (σ * (16669 / 6670)) - _ = _
          rw [v1]; ring
        · exact absurd h1 (by simp)
      have hp1 : (S.update^[2 * (n + 1)] (x0, S.initState x0)).2.hist.params 1 = σ * (9999 / 6670) ∧
          (S.update^[2 * (n + 1)] (x0, S.initState x0)).2.hist.residuals 1 = -σ * (4 / 5) := by
        rcases hslot 1 with ⟨j, h1, h2, h3, h4, h5⟩ | ⟨h1, -, -⟩
        · have : j = 2 * n + 1 := by
            have : j % 2 = 1 := h3
            omega
          rw [h5, h4, this, e1]
          refine ⟨rfl, ?_⟩
          show cycMap (σ * (9999 / 6670)) - _ = _
          rw [v2]; ring
        · exact absurd h1 (by simp; omega)
      rw [hw3]
      have q0 := s2 0
      have q1 := s2 1
      simp only [Fin.sum_univ_two] at s1 q0 q1 ⊢
      have g : ∀ i j, (S.update^[2 * (n + 1)] (x0, S.initState x0)).2.hist.gram i j =
        (S.update^[2 * (n + 1)] (x0, S.initState x0)).2.hist.residuals i * (S.update^[2 * (n + 1)] (x0, S.initState x0)).2.hist.residuals j := hg
      simp only [g, hp0.2, hp1.2] at q0 q1
      rw [hp0.1, hp0.2, hp1.1, hp1.2]
      have hr : S.ridge = 1 / 100000 := rfl
      have hb : S.beta = 1 := rfl
      have hσ2 : σ * σ = 1 := by rcases hσ with rfl | rfl <;> norm_num
      rw [hb]
      rw [hr] at q0 q1 s1 ⊢
      generalize weights S.solve (S.update^[2 * (n + 1)] (x0, S.initState x0)).2.hist (1 / 100000) 0 = a at q0 q1 s1 ⊢
      generalize weights S.solve (S.update^[2 * (n + 1)] (x0, S.initState x0)).2.hist (1 / 100000) 1 = b at q0 q1 s1 ⊢
      generalize minimizeResiduals S.solve (S.update^[2 * (n + 1)] (x0, S.initState x0)).2.hist.gram (1 / 100000) (.inl ()) = l at q0 q1
      have hb' : b = 20001 / 4002 := by
        have ha : a = 1 - b := by linarith
        have q0' : l + ((σ * σ) * a + (σ * σ) * (4 / 5) * b + 1 / 100000 * a) = 0 := by rw [← q0]; ring
        have q1' : l + ((σ * σ) * (4 / 5) * a + (σ * σ) * (16 / 25) * b + 1 / 100000 * b) = 0 := by rw [← q1]; ring
        rw [hσ2, ha] at q0' q1'
        linarith
      have ha' : a = 1 - 20001 / 4002 := by linarith
      rw [ha', hb']
      simp only [smul_eq_mul]
      ring
    exact ⟨-σ, hneg, hpt, hgen (n + 1) (-σ) hneg hpt⟩

/-- **C124**, negative part: the neighbourhood is needed.  `cycMap` is a contraction of the real line with constant `4 / 5` and fixed point `0`,
but with the default `beta` and `ridge`, `history_size = 2` and `mixing_frequency = 2` (the default schedule of `AndersonWrapper`), the run from
`16669 / 6670` alternates between four points: whatever `maxiter`, it uses all of its iterations and returns with an error of at least `4 / 5`. -/
theorem C124_global_false {solve : LinSolve ℝ 2} (hs : ExactSolve solve) (maxiter : ℕ) (hm : 1 ≤ maxiter) (tol : ℝ) (ht : tol < 4 / 5)
    (unroll jit : Bool) {r : ℝ × AndersonState ℝ ℝ Unit 2} (hr : (cycSolver solve maxiter tol unroll jit).run (16669 / 6670) = .ok r) :
    (∀ u v, |cycMap u - cycMap v| ≤ 4 / 5 * |u - v|) ∧ cycMap 0 = 0 ∧
    r.2.iterNum = maxiter ∧ (∃ e, r.2.error = .fin e ∧ 4 / 5 ≤ e) ∧ 4663 / 6670 ≤ |r.1| := by
  refine ⟨cycMap_contraction, ?_, ?_⟩
  · unfold cycMap
    rw [min_eq_right (by norm_num), max_eq_right (by norm_num)]; norm_num
  set S := cycSolver solve maxiter tol unroll jit with hS
  have hv : IsVdot S.vdot := IsVdot.mul
  simp only [Anderson.run, Anderson.postInit] at hr
  rw [if_neg (by omega)] at hr
  obtain ⟨k, hk1, hk2, rfl, -, hstop⟩ := runS_spec (maxiter := S.maxiter) hm hr
  obtain ⟨b1, b2⟩ := (Anderson.C29_bookkeeping S hv (16669 / 6670) k).2.2.2.2 hk1
  have hit := (Anderson.C29_bookkeeping S hv (16669 / 6670) k).2.2.1
  have hpts : ∃ σ : ℝ, (σ = 1 ∨ σ = -1) ∧ (S.point (16669 / 6670) (k - 1) = σ * (16669 / 6670) ∨
      S.point (16669 / 6670) (k - 1) = σ * (9999 / 6670)) := by
    obtain ⟨σ, h1, h2, h3⟩ := cyc_points hs maxiter tol unroll jit ((k - 1) / 2)
    rcases Nat.even_or_odd' (k - 1) with ⟨c, h | h⟩
    · refine ⟨σ, h1, Or.inl ?_⟩
      rw [← h2, show 2 * ((k - 1) / 2) = k - 1 by omega]
    · refine ⟨σ, h1, Or.inr ?_⟩
      rw [← h3, show 2 * ((k - 1) / 2) + 1 = k - 1 by omega]
  have herr : ∃ e, (S.update^[k] (16669 / 6670, S.initState (16669 / 6670))).2.error = .fin e ∧ 4 / 5 ≤ e ∧
      4663 / 6670 ≤ |(S.update^[k] (16669 / 6670, S.initState (16669 / 6670))).1| := by
    obtain ⟨σ, h1, h2⟩ := hpts
    obtain ⟨v1, v2⟩ := cycMap_vals σ h1
    have habs : |σ| = 1 := by rcases h1 with rfl | rfl <;> simp
    rw [b2, b1]
    refine ⟨_, rfl, ?_, ?_⟩
    · show (4 / 5 : ℝ) ≤ Real.sqrt ((cycMap _ - _) * (cycMap _ - _))
      rw [Real.sqrt_mul_self_eq_abs]
      rcases h2 with h | h
      · rw [h, v1, ← mul_sub, abs_mul, habs]; norm_num
      · rw [h, v2, ← mul_sub, abs_mul, habs]; norm_num
    · show (4663 / 6670 : ℝ) ≤ |cycMap _|
      rcases h2 with h | h
      · rw [h, v1, abs_mul, habs]; norm_num
      · rw [h, v2, abs_mul, habs]; norm_num
  obtain ⟨e, he, hle, hp⟩ := herr
  refine ⟨?_, ⟨e, he, hle⟩, hp⟩
  rw [hit]
  rcases hstop with h | h
  · exact h
  · exfalso
    unfold Anderson.cont at h
    rw [he] at h
    have h1 : e ≤ S.tol := by simpa [Ext.gt, Ext.lt] using h
    have h2 : S.tol = tol := rfl
    linarith

/-- An exact solver exists, and the run does return. -/
example : ExactSolve (K := ℝ) (m := 2) cramerSolve ∧
    ∃ r, (cycSolver cramerSolve 100 (1 / 100000) false true).run (16669 / 6670) = .ok r := by
  refine ⟨exactSolve_cramer, ?_⟩
  simp only [Anderson.run, Anderson.postInit]
  rw [if_neg (by omega)]
  exact runS_ok _ _ _ _ (show 1 ≤ 100 by norm_num) (Or.inr rfl)

end Jaxopt.FixedPoint
