import Verif.LeastSquares.LMConvProps
import Mathlib.Analysis.Calculus.MeanValue
import Mathlib.Analysis.SpecificLimits.Basic
import Mathlib.Tactic.Positivity

/-!
# Property C119: local convergence of Levenberg-Marquardt

Near a root of the residual with an injective Jacobian every step is accepted, the damping decreases geometrically and the iterates converge
superlinearly.
-/

set_option autoImplicit false
set_option linter.unusedSectionVars false
set_option linter.unusedVariables false

namespace Jaxopt.LeastSquares

open Jaxopt.Base

section
variable {E F M A : Type*} [NormedAddCommGroup E] [InnerProductSpace ℝ E] [NormedAddCommGroup F] [InnerProductSpace ℝ F]
  [AddCommGroup M] [Module ℝ M] [AddCommGroup A] [Module ℝ A]

/-! ## Specification -/

/-- On the ball with centre `xs` and radius `R`: the residual function is differentiable, its derivatives `J` are Lipschitz continuous with
constant `c`, bounded above by `b` and below by `s`, `jvp` is the derivative, and the residual vanishes at `xs`. -/
structure LMLocal (S : LM ℝ E F M A) (J : E → E →L[ℝ] F) (xs : E) (R s b c : ℝ) : Prop where
  deriv : ∀ x ∈ Metric.closedBall xs R, HasFDerivAt (fun y => (S.residualFun y).1) (J x) x
  jvp : ∀ x ∈ Metric.closedBall xs R, ∀ v, S.jvp x v = J x v
  lip : ∀ x ∈ Metric.closedBall xs R, ∀ y ∈ Metric.closedBall xs R, ‖J x - J y‖ ≤ c * ‖x - y‖
  low : ∀ x ∈ Metric.closedBall xs R, ∀ v, s * ‖v‖ ≤ ‖J x v‖
  high : ∀ x ∈ Metric.closedBall xs R, ∀ v, ‖J x v‖ ≤ b * ‖v‖
  spos : 0 < s
  bnonneg : 0 ≤ b
  cnonneg : 0 ≤ c
  rnonneg : 0 ≤ R
  root : (S.residualFun xs).1 = 0

/-- The loss of the gain ratio per unit of distance. -/
noncomputable def lmKappa (R s b c : ℝ) : ℝ := c * (b + 3 / 2 * c * R) / s ^ 2

/-- The contraction factor for the damping `mu` at the distance `d`. -/
noncomputable def lmRate (s c mu d : ℝ) : ℝ := mu / (s ^ 2 + mu) + c / (2 * s) * d

variable {S : LM ℝ E F M A} {J : E → E →L[ℝ] F} {xs : E} {R s b c : ℝ}

local notation "ip" => (fun u w => inner ℝ u w)

/-! ## One step -/

/-- The error of the linearisation. -/
theorem LMLocal.linearisation (h : LMLocal S J xs R s b c) {x y : E} (hx : x ∈ Metric.closedBall xs R) (hy : y ∈ Metric.closedBall xs R) :
    ‖(S.residualFun y).1 - (S.residualFun x).1 - J x (y - x)‖ ≤ c / 2 * ‖y - x‖ ^ 2 := by
  set f : E → F := fun y => (S.residualFun y).1
  set d := y - x with hd
  have hmem : ∀ t : ℝ, 0 ≤ t → t ≤ 1 → x + t • d ∈ Metric.closedBall xs R := by
    intro t h0 h1
    have := (convex_closedBall xs R) hx hy (by linarith : 0 ≤ 1 - t) h0 (by ring)
    have e : x + t • d = (1 - t) • x + t • y := by rw [hd, smul_sub, sub_smul, one_smul]; abel
    rw [e]; exact this
  have hderiv : ∀ t : ℝ, 0 ≤ t → t ≤ 1 →
      HasDerivAt (fun t : ℝ => f (x + t • d) - f x - t • J x d) (J (x + t • d) d - J x d) t := by
    intro t h0 h1
    have hl : HasDerivAt (fun t : ℝ => x + t • d) d t := by
      have := ((hasDerivAt_id t).smul_const d).const_add x
      simpa using this
    have h2 := (h.deriv _ (hmem t h0 h1)).comp_hasDerivAt t hl
    have h3 : HasDerivAt (fun t : ℝ => t • J x d) (J x d) t := by
      simpa using (hasDerivAt_id t).smul_const (J x d)
    exact (h2.sub_const (f x)).sub h3
  have key := image_norm_le_of_norm_deriv_right_le_deriv_boundary (a := 0) (b := 1)
    (f := fun t : ℝ => f (x + t • d) - f x - t • J x d) (f' := fun t => J (x + t • d) d - J x d)
    (B := fun t => c * ‖d‖ ^ 2 * (t ^ 2 / 2)) (B' := fun t => c * ‖d‖ ^ 2 * t)
    (fun t ht => (hderiv t ht.1 ht.2).continuousAt.continuousWithinAt)
    (fun t ht => (hderiv t ht.1 ht.2.le).hasDerivWithinAt)
    (by simp)
    (fun t => by
      have h1 : HasDerivAt (fun t : ℝ => t ^ 2 / 2) t t := by
        have := ((hasDerivAt_id t).pow 2).div_const 2
        refine this.congr_deriv ?_
        simp
      exact h1.const_mul _)
    (fun t ht => by
      have h1 := h.lip _ (hmem t ht.1 ht.2.le) x hx
      rw [add_sub_cancel_left, norm_smul, Real.norm_of_nonneg ht.1] at h1
      have h2 := (J (x + t • d) - J x).le_opNorm d
      have h3 := mul_le_mul_of_nonneg_right h1 (norm_nonneg d)
      have e2 : (J (x + t • d) - J x) d = J (x + t • d) d - J x d := rfl
      rw [e2] at h2
      nlinarith)
    (Set.right_mem_Icc.mpr zero_le_one)
  simp only [one_smul] at key
  have e : x + d = y := by rw [hd]; abel
  rw [e] at key
  refine le_trans key (le_of_eq ?_)
  ring

/-- The residual is the Jacobian applied to the distance, up to a quadratic error. -/
theorem LMLocal.residual (h : LMLocal S J xs R s b c) {x : E} (hx : x ∈ Metric.closedBall xs R) :
    ‖(S.residualFun x).1 - J x (x - xs)‖ ≤ c / 2 * ‖x - xs‖ ^ 2 := by
  have h1 := h.linearisation hx (Metric.mem_closedBall_self h.rnonneg)
  rw [h.root, norm_sub_rev xs x] at h1
  have e : (0 : F) - (S.residualFun x).1 - J x (xs - x) = -((S.residualFun x).1 - J x (x - xs)) := by
    rw [← neg_sub x xs, map_neg]; abel
  rwa [e, norm_neg] at h1

/-- The damped normal equations, tested with `u`. -/
theorem normal_test (hS : LMSpec S ip ip) (h : LMLocal S J xs R s b c) {p : E × LMState ℝ E F M A} (hi : LMInv S ip p)
    (hp : p.1 ∈ Metric.closedBall xs R) (u : E) :
    inner ℝ (J p.1 u) (J p.1 (S.velocity p.1 p.2)) + p.2.dampingFactor * inner ℝ u (S.velocity p.1 p.2) =
      inner ℝ (J p.1 u) (S.residualFun p.1).1 := by
  have e := velocity_exact hS hi
  set v := S.velocity p.1 p.2
  have h1 := hS.ad.adjoint p.1 u (S.jvp p.1 v)
  have h2 := hS.ad.adjoint p.1 u (S.residualFun p.1).1
  rw [h.jvp p.1 hp, h.jvp p.1 hp] at h1
  rw [h.jvp p.1 hp] at h2
  rw [h1, h2, ← hi.gradient, ← e, inner_add_right, inner_smul_right, LM.jtjOp, h.jvp p.1 hp]

/-- The distance of the trial point. -/
theorem trial_error (hS : LMSpec S ip ip) (h : LMLocal S J xs R s b c) {p : E × LMState ℝ E F M A} (hi : LMInv S ip p)
    (hp : p.1 ∈ Metric.closedBall xs R) :
    ‖p.1 - S.velocity p.1 p.2 - xs‖ ≤ lmRate s c p.2.dampingFactor ‖p.1 - xs‖ * ‖p.1 - xs‖ := by
  have hnt := normal_test hS h hi hp
  set v := S.velocity p.1 p.2 with hv
  set mu := p.2.dampingFactor with hmu
  have hmu0 : 0 < mu := hi.damping
  have hs := h.spos
  have hc := h.cnonneg
  set d := p.1 - xs with hd
  set e := p.1 - v - xs with he
  have hev : v = d - e := by rw [hd, he]; abel
  set w := (S.residualFun p.1).1 - J p.1 d with hw
  have hwb : ‖w‖ ≤ c / 2 * ‖d‖ ^ 2 := h.residual hp
  have hr : (S.residualFun p.1).1 = J p.1 d + w := by rw [hw]; abel
  have hid : ‖J p.1 e‖ ^ 2 + mu * ‖e‖ ^ 2 = mu * inner ℝ e d - inner ℝ (J p.1 e) w := by
    have h1 := hnt e
    have h2 : J p.1 v = J p.1 d - J p.1 e := by rw [hev]; exact map_sub _ d e
    have h3 : inner ℝ e v = inner ℝ e d - ‖e‖ ^ 2 := by rw [hev]; exact (inner_sub_right e d e).trans (by rw [real_inner_self_eq_norm_sq])
    have h4 : inner ℝ (J p.1 e) (J p.1 d - J p.1 e) = inner ℝ (J p.1 e) (J p.1 d) - ‖J p.1 e‖ ^ 2 :=
      (inner_sub_right _ _ _).trans (by rw [real_inner_self_eq_norm_sq])
    have h5 : inner ℝ (J p.1 e) (J p.1 d + w) = inner ℝ (J p.1 e) (J p.1 d) + inner ℝ (J p.1 e) w := inner_add_right _ _ _
    rw [hr, h2, h3, h4, h5] at h1
    linarith
  have h1 : mu * inner ℝ e d ≤ mu * (‖e‖ * ‖d‖) := mul_le_mul_of_nonneg_left (real_inner_le_norm e d) hmu0.le
  have h2 : -inner ℝ (J p.1 e) w ≤ ‖J p.1 e‖ * ‖w‖ := by
    have := abs_real_inner_le_norm (J p.1 e) w
    linarith [neg_abs_le (inner ℝ (J p.1 e) w)]
  have hlow := h.low p.1 hp e
  set a := ‖J p.1 e‖ with ha
  set W := ‖w‖ with hW
  have hW0 : 0 ≤ W := norm_nonneg _
  have hkey : a ^ 2 - a * W + mu * ‖e‖ ^ 2 ≤ mu * (‖e‖ * ‖d‖) := by linarith
  have hden : 0 < s ^ 2 + mu := by positivity
  -- the bound in terms of `W`
  have hbound : ‖e‖ ≤ mu / (s ^ 2 + mu) * ‖d‖ + W / s := by
    by_cases hcase : W ≤ 2 * (s * ‖e‖)
    · have h3 : (s * ‖e‖) ^ 2 - s * ‖e‖ * W ≤ a ^ 2 - a * W := by
        have : 0 ≤ (a - s * ‖e‖) * (a + s * ‖e‖ - W) := mul_nonneg (by linarith) (by linarith)
        nlinarith
      rcases (norm_nonneg e).eq_or_lt with he0 | he0
      · rw [← he0]; positivity
      · have h4 : (s ^ 2 + mu) * ‖e‖ ≤ mu * ‖d‖ + s * W := by
          have : ((s ^ 2 + mu) * ‖e‖) * ‖e‖ ≤ (mu * ‖d‖ + s * W) * ‖e‖ := by nlinarith
          exact le_of_mul_le_mul_right this he0
        have h5 : ‖e‖ ≤ (mu * ‖d‖ + s * W) / (s ^ 2 + mu) := by rw [le_div_iff₀ hden]; linarith
        refine h5.trans ?_
        have h6 : s * W / (s ^ 2 + mu) ≤ W / s := by
          rw [div_le_div_iff₀ hden hs]
          nlinarith [mul_nonneg hmu0.le hW0]
        rw [add_div]
        have e1 : mu * ‖d‖ / (s ^ 2 + mu) = mu / (s ^ 2 + mu) * ‖d‖ := by ring
        linarith
    · have h3 : ‖e‖ ≤ W / s := by
        rw [le_div_iff₀ hs]
        have := mul_nonneg hs.le (norm_nonneg e)
        linarith [not_le.mp hcase]
      have : 0 ≤ mu / (s ^ 2 + mu) * ‖d‖ := by positivity
      linarith
  refine hbound.trans ?_
  have h7 : W / s ≤ c / (2 * s) * ‖d‖ * ‖d‖ := by
    rw [div_le_iff₀ hs]
    refine hwb.trans (le_of_eq ?_)
    field_simp
  unfold lmRate
  linarith

/-- The step vanishes only at the root. -/
theorem velocity_ne_zero (hS : LMSpec S ip ip) (h : LMLocal S J xs R s b c) {p : E × LMState ℝ E F M A} (hi : LMInv S ip p)
    (hp : p.1 ∈ Metric.closedBall xs R) (hrate : lmRate s c p.2.dampingFactor ‖p.1 - xs‖ < 1) (hx : p.1 ≠ xs) : S.velocity p.1 p.2 ≠ 0 := by
  intro hv
  have h1 := trial_error hS h hi hp
  rw [hv, sub_zero] at h1
  have h2 : 0 < ‖p.1 - xs‖ := norm_pos_iff.mpr (sub_ne_zero.mpr hx)
  nlinarith

/-- The arithmetic of the gain ratio: `D` twice the denominator, `z` the predicted residual, `w` the error of the prediction. -/
theorem gain_scalar {R s b c d v D z w i : ℝ} (hs : 0 < s) (hc : 0 ≤ c) (hb : 0 ≤ b) (hR : 0 ≤ R) (hd0 : 0 ≤ d) (hdR : d ≤ R) (hv0 : 0 ≤ v)
    (hvd : v ≤ 2 * d) (hDs : s ^ 2 * v ^ 2 ≤ D) (hz : z ≤ (b + c / 2 * R) * d) (hw0 : 0 ≤ w) (hw : w ≤ c / 2 * v ^ 2) (hi : i ≤ z * w) :
    (1 - lmKappa R s b c * d) * D ≤ D - 2 * i - w ^ 2 := by
  have hl1 : i ≤ ((b + c / 2 * R) * d) * (c / 2 * v ^ 2) :=
    hi.trans ((mul_le_mul_of_nonneg_right hz hw0).trans (mul_le_mul_of_nonneg_left hw (by positivity)))
  have hl2 : w ^ 2 ≤ c ^ 2 * R * d * v ^ 2 := by
    have h1 := pow_le_pow_left₀ hw0 hw 2
    have h2 : v ^ 2 ≤ 4 * (R * d) := by
      have h3 := pow_le_pow_left₀ hv0 hvd 2
      have h4 := mul_le_mul_of_nonneg_right hdR hd0
      nlinarith
    have h5 := mul_le_mul_of_nonneg_right h2 (by positivity : 0 ≤ c ^ 2 / 4 * v ^ 2)
    nlinarith
  have hkap : lmKappa R s b c * d * (s ^ 2 * v ^ 2) = c * (b + 3 / 2 * c * R) * d * v ^ 2 := by
    unfold lmKappa; field_simp
  have hkap0 : 0 ≤ lmKappa R s b c * d := by unfold lmKappa; positivity
  have hl3 := mul_le_mul_of_nonneg_left hDs hkap0
  rw [hkap] at hl3
  nlinarith

/-- The exact form of the gain ratio. -/
theorem gain_ratio_form (hS : LMSpec S ip ip) (h : LMLocal S J xs R s b c) {p : E × LMState ℝ E F M A} (hi : LMInv S ip p)
    (hp : p.1 ∈ Metric.closedBall xs R) (hv : S.velocity p.1 p.2 ≠ 0) :
    ∃ z w : F, ∃ D : ℝ, ‖z‖ ≤ ‖(S.residualFun p.1).1‖ ∧
      w = (S.residualFun (p.1 - S.velocity p.1 p.2)).1 - (S.residualFun p.1).1 - J p.1 (p.1 - S.velocity p.1 p.2 - p.1) ∧
      s ^ 2 * ‖S.velocity p.1 p.2‖ ^ 2 ≤ D ∧ 0 < D ∧ gainRatio S ip ip p * D = D - 2 * inner ℝ z w - ‖w‖ ^ 2 := by
  have hnt := normal_test hS h hi hp
  have hden := denom_eq hS hi
  have hmu0 : 0 < p.2.dampingFactor := hi.damping
  have hs := h.spos
  have hg : gainRatio S ip ip p = (lmCost S ip p.1 - lmCost S ip (p.1 - S.velocity p.1 p.2)) /
      (inner ℝ (-S.velocity p.1 p.2) (p.2.dampingFactor • -S.velocity p.1 p.2 - p.2.gradient) / 2) := rfl
  have hden' : inner ℝ (-S.velocity p.1 p.2) (p.2.dampingFactor • -S.velocity p.1 p.2 - p.2.gradient) =
      2 * p.2.dampingFactor * ‖S.velocity p.1 p.2‖ ^ 2 + ‖J p.1 (S.velocity p.1 p.2)‖ ^ 2 := by
    refine hden.trans ?_
    rw [h.jvp p.1 hp]
    change 2 * p.2.dampingFactor * inner ℝ (S.velocity p.1 p.2) (S.velocity p.1 p.2) +
      inner ℝ (J p.1 (S.velocity p.1 p.2)) (J p.1 (S.velocity p.1 p.2)) = _
    rw [real_inner_self_eq_norm_sq, real_inner_self_eq_norm_sq]
  have hvv := hnt (S.velocity p.1 p.2)
  have hlow := h.low p.1 hp (S.velocity p.1 p.2)
  have hc1 : lmCost S ip p.1 = ‖(S.residualFun p.1).1‖ ^ 2 / 2 := by
    unfold lmCost
    change inner ℝ (S.residualFun p.1).1 (S.residualFun p.1).1 / 2 = _
    rw [real_inner_self_eq_norm_sq]
  have hc2 : lmCost S ip (p.1 - S.velocity p.1 p.2) = ‖(S.residualFun (p.1 - S.velocity p.1 p.2)).1‖ ^ 2 / 2 := by
    unfold lmCost
    change inner ℝ (S.residualFun (p.1 - S.velocity p.1 p.2)).1 (S.residualFun (p.1 - S.velocity p.1 p.2)).1 / 2 = _
    rw [real_inner_self_eq_norm_sq]
  rw [hc1, hc2, hden'] at hg
  clear hc1 hc2 hden' hden hnt
  generalize S.velocity p.1 p.2 = v at *
  generalize p.2.dampingFactor = mu at *
  generalize gainRatio S ip ip p = rho at *
  generalize hr : (S.residualFun p.1).1 = r at *
  generalize hr2 : (S.residualFun (p.1 - v)).1 = r2 at *
  rw [real_inner_self_eq_norm_sq, real_inner_self_eq_norm_sq] at hvv
  have hv0 : 0 < ‖v‖ := norm_pos_iff.mpr hv
  have hJv : (s * ‖v‖) ^ 2 ≤ ‖J p.1 v‖ ^ 2 := pow_le_pow_left₀ (by positivity) hlow 2
  have hDs : s ^ 2 * ‖v‖ ^ 2 ≤ 2 * mu * ‖v‖ ^ 2 + ‖J p.1 v‖ ^ 2 := by
    have : 0 ≤ 2 * mu * ‖v‖ ^ 2 := by positivity
    rw [mul_pow] at hJv
    linarith
  have hD0 : 0 < 2 * mu * ‖v‖ ^ 2 + ‖J p.1 v‖ ^ 2 := lt_of_lt_of_le (by positivity) hDs
  have hzsq : ‖r - J p.1 v‖ ^ 2 = ‖r‖ ^ 2 - (2 * mu * ‖v‖ ^ 2 + ‖J p.1 v‖ ^ 2) := by
    rw [norm_sub_sq_real, real_inner_comm]
    linarith
  have hnext : r2 = (r - J p.1 v) + (r2 - r - J p.1 (p.1 - v - p.1)) := by
    rw [show p.1 - v - p.1 = -v by abel, map_neg]; abel
  refine ⟨r - J p.1 v, r2 - r - J p.1 (p.1 - v - p.1), 2 * mu * ‖v‖ ^ 2 + ‖J p.1 v‖ ^ 2, ?_, rfl, hDs, hD0, ?_⟩
  · have : ‖r - J p.1 v‖ ^ 2 ≤ ‖r‖ ^ 2 := by linarith
    exact (abs_le_of_sq_le_sq' this (norm_nonneg _)).2
  · have h1 : ‖r2‖ ^ 2 = ‖r - J p.1 v‖ ^ 2 + 2 * inner ℝ (r - J p.1 v) (r2 - r - J p.1 (p.1 - v - p.1)) + ‖r2 - r - J p.1 (p.1 - v - p.1)‖ ^ 2 := by
      conv_lhs => rw [hnext]
      exact norm_add_sq_real _ _
    rw [hg, div_mul_eq_mul_div, div_eq_iff (by positivity), h1, hzsq]
    ring

/-- The gain ratio is close to one. -/
theorem gain_ratio_local (hS : LMSpec S ip ip) (h : LMLocal S J xs R s b c) {p : E × LMState ℝ E F M A} (hi : LMInv S ip p)
    (hp : p.1 ∈ Metric.closedBall xs R) (hrate : lmRate s c p.2.dampingFactor ‖p.1 - xs‖ < 1) (hx : p.1 ≠ xs) :
    1 - lmKappa R s b c * ‖p.1 - xs‖ ≤ gainRatio S ip ip p := by
  have hne := velocity_ne_zero hS h hi hp hrate hx
  have htr := trial_error hS h hi hp
  obtain ⟨z, w, D, hz, hw, hDs, hD0, hg⟩ := gain_ratio_form hS h hi hp hne
  have hdR : ‖p.1 - xs‖ ≤ R := by rw [← dist_eq_norm]; exact hp
  have hd0 := norm_nonneg (p.1 - xs)
  have hed : ‖p.1 - S.velocity p.1 p.2 - xs‖ ≤ ‖p.1 - xs‖ := htr.trans (by nlinarith)
  have hy : p.1 - S.velocity p.1 p.2 ∈ Metric.closedBall xs R := by rw [Metric.mem_closedBall, dist_eq_norm]; exact hed.trans hdR
  have hvd : ‖S.velocity p.1 p.2‖ ≤ 2 * ‖p.1 - xs‖ := by
    have e1 : S.velocity p.1 p.2 = (p.1 - xs) - (p.1 - S.velocity p.1 p.2 - xs) := by abel
    have := norm_sub_le (p.1 - xs) (p.1 - S.velocity p.1 p.2 - xs)
    rw [← e1] at this
    linarith
  have hrb : ‖(S.residualFun p.1).1‖ ≤ (b + c / 2 * R) * ‖p.1 - xs‖ := by
    have h1 := h.residual hp
    have h2 := h.high p.1 hp (p.1 - xs)
    have h3 := norm_add_le ((S.residualFun p.1).1 - J p.1 (p.1 - xs)) (J p.1 (p.1 - xs))
    rw [sub_add_cancel] at h3
    have hc := h.cnonneg
    have h4 : c / 2 * ‖p.1 - xs‖ ^ 2 ≤ c / 2 * R * ‖p.1 - xs‖ := by
      have := mul_le_mul_of_nonneg_right hdR hd0
      have := mul_le_mul_of_nonneg_left this (by positivity : 0 ≤ c / 2)
      nlinarith
    linarith
  have hwb : ‖w‖ ≤ c / 2 * ‖S.velocity p.1 p.2‖ ^ 2 := by
    have := h.linearisation hp hy
    have e1 : p.1 - S.velocity p.1 p.2 - p.1 = -S.velocity p.1 p.2 := by abel
    rw [show ‖p.1 - S.velocity p.1 p.2 - p.1‖ = ‖S.velocity p.1 p.2‖ by rw [e1, norm_neg], ← hw] at this
    exact this
  have := gain_scalar h.spos h.cnonneg h.bnonneg h.rnonneg hd0 hdR (norm_nonneg _) hvd hDs (hz.trans hrb) (norm_nonneg w) hwb (real_inner_le_norm z w)
  rw [← hg] at this
  exact le_of_mul_le_mul_right this hD0

/-- The damping multiplier of a step with a gain ratio close to one. -/
theorem multiplier_local {rho k : ℝ} (hk0 : 0 ≤ k) (hk : 8 * k ≤ 1) (h : 1 - k ≤ rho) :
    max (1 / 3) (1 - (2 * rho - 1) ^ 3) ≤ max (1 / 3) (6 * k) := by
  refine max_le_max le_rfl ?_
  have h1 : (1 - 2 * k) ^ 3 ≤ (2 * rho - 1) ^ 3 := pow_le_pow_left₀ (by linarith) (by linarith) 3
  nlinarith [mul_nonneg hk0 hk0, mul_nonneg (mul_nonneg hk0 hk0) (by linarith : 0 ≤ 1 - 8 * k)]

/-- **C119**, one update near the root: the step is accepted, contracts the distance, and the damping is divided by at least `4/3`. -/
theorem C119_step (hS : LMSpec S ip ip) (h : LMLocal S J xs R s b c) {p : E × LMState ℝ E F M A} (hi : LMInv S ip p)
    (hp : p.1 ∈ Metric.closedBall xs R) (hrate : lmRate s c p.2.dampingFactor ‖p.1 - xs‖ < 1) (hk : 8 * (lmKappa R s b c * ‖p.1 - xs‖) ≤ 1)
    (hx : p.1 ≠ xs) :
    lmCost S ip (S.update p).1 < lmCost S ip p.1 ∧
    ‖(S.update p).1 - xs‖ ≤ lmRate s c p.2.dampingFactor ‖p.1 - xs‖ * ‖p.1 - xs‖ ∧
    p.2.dampingFactor / 3 ≤ (S.update p).2.dampingFactor ∧
    (S.update p).2.dampingFactor ≤ p.2.dampingFactor * max (1 / 3) (6 * (lmKappa R s b c * ‖p.1 - xs‖)) := by
  have hg := gain_ratio_local hS h hi hp hrate hx
  have ht := trial_error hS h hi hp
  have hiff := gainRatio_pos_iff hS hi
  have hk0 : 0 ≤ lmKappa R s b c * ‖p.1 - xs‖ := by
    have := h.cnonneg; have := h.bnonneg; have := h.rnonneg
    unfold lmKappa; positivity
  have hmu := hi.damping
  rcases update_closed hS hi with ⟨c0, c1, -, -, -, -, c6, -, -⟩ | ⟨c0, -⟩
  · refine ⟨by rw [c1]; exact hiff.mp c0, by rw [c1]; exact ht, ?_, ?_⟩
    · rw [c6]
      have := mul_le_mul_of_nonneg_left (multiplier_bounds c0).1 hmu.le
      linarith
    · rw [c6]
      exact mul_le_mul_of_nonneg_left (multiplier_local hk0 hk hg) hmu.le
  · exfalso; linarith

/-- The root is not left. -/
theorem root_stays (hS : LMSpec S ip ip) (h : LMLocal S J xs R s b c) {p : E × LMState ℝ E F M A} (hi : LMInv S ip p) (hx : p.1 = xs) :
    (S.update p).1 = xs := by
  have hp : p.1 ∈ Metric.closedBall xs R := by rw [hx]; exact Metric.mem_closedBall_self h.rnonneg
  have ht := trial_error hS h hi hp
  rw [hx, sub_self, norm_zero, mul_zero] at ht
  have hv : xs - S.velocity xs p.2 - xs = 0 := norm_le_zero_iff.mp ht
  rcases update_closed hS hi with ⟨-, c1, -⟩ | ⟨-, c1, -⟩
  · rw [c1, hx]; exact sub_eq_zero.mp hv
  · rw [c1, hx]

theorem lmRate_mono {s c mu mu' d d' : ℝ} (hs : 0 < s) (hc : 0 ≤ c) (hmu : 0 ≤ mu) (h1 : mu ≤ mu') (h2 : d ≤ d') :
    lmRate s c mu d ≤ lmRate s c mu' d' := by
  unfold lmRate
  have a1 : mu / (s ^ 2 + mu) ≤ mu' / (s ^ 2 + mu') := by
    rw [div_le_div_iff₀ (by positivity) (by have : 0 ≤ mu' := hmu.trans h1; positivity)]
    nlinarith [sq_nonneg s]
  have a2 : c / (2 * s) * d ≤ c / (2 * s) * d' := mul_le_mul_of_nonneg_left h2 (by positivity)
  linarith

/-- **C119**, linear convergence: from every consistent state in the ball the iterates stay in it, the distances decrease at the rate
`q`, and the damping decreases at the rate `3/4` until the root is reached. -/
theorem C119_linear (hS : LMSpec S ip ip) (h : LMLocal S J xs R s b c) {p : E × LMState ℝ E F M A} (hi : LMInv S ip p)
    (hp : p.1 ∈ Metric.closedBall xs R) {q : ℝ} (hq : lmRate s c p.2.dampingFactor R ≤ q) (hq1 : q < 1) (hk : 8 * (lmKappa R s b c * R) ≤ 1) (k : ℕ) :
    (S.update^[k] p).1 ∈ Metric.closedBall xs R ∧ ‖(S.update^[k] p).1 - xs‖ ≤ q ^ k * ‖p.1 - xs‖ ∧
    ((S.update^[k] p).1 = xs ∨ (S.update^[k] p).2.dampingFactor ≤ (3 / 4) ^ k * p.2.dampingFactor) := by
  have hs := h.spos
  have hc := h.cnonneg
  have hmu := hi.damping
  have hq0 : 0 ≤ q := le_trans (by have := h.rnonneg; unfold lmRate; positivity) hq
  have hkap : 0 ≤ lmKappa R s b c := by
    have := h.bnonneg; have := h.rnonneg
    unfold lmKappa; positivity
  induction k with
  | zero => exact ⟨hp, by simp, Or.inr (by simp)⟩
  | succ k ih =>
    obtain ⟨i1, i2, i3⟩ := ih
    have hinv := (C44_history hS hi k).1
    rw [Function.iterate_succ_apply']
    set P := S.update^[k] p with hP
    have hdR : ‖P.1 - xs‖ ≤ R := by rw [← dist_eq_norm]; exact i1
    by_cases hx : P.1 = xs
    · have := root_stays hS h hinv hx
      refine ⟨by rw [this]; exact Metric.mem_closedBall_self h.rnonneg, ?_, Or.inl this⟩
      rw [this, sub_self, norm_zero]
      positivity
    · have i3 : P.2.dampingFactor ≤ (3 / 4) ^ k * p.2.dampingFactor := by
        rcases i3 with i3 | i3
        · exact absurd i3 hx
        · exact i3
      have hle1 : P.2.dampingFactor ≤ p.2.dampingFactor := by
        refine i3.trans ?_
        have : (3 / 4 : ℝ) ^ k ≤ 1 := pow_le_one₀ (by norm_num) (by norm_num)
        nlinarith
      have hr : lmRate s c P.2.dampingFactor ‖P.1 - xs‖ ≤ q := (lmRate_mono hs hc hinv.damping.le hle1 hdR).trans hq
      have hkk : lmKappa R s b c * ‖P.1 - xs‖ ≤ lmKappa R s b c * R := mul_le_mul_of_nonneg_left hdR hkap
      obtain ⟨-, s2, -, s4⟩ := C119_step hS h hinv i1 (by linarith) (by linarith) hx
      have hstep : ‖(S.update P).1 - xs‖ ≤ q * ‖P.1 - xs‖ := s2.trans (mul_le_mul_of_nonneg_right hr (norm_nonneg _))
      refine ⟨?_, ?_, Or.inr ?_⟩
      · rw [Metric.mem_closedBall, dist_eq_norm]
        have := norm_nonneg (P.1 - xs)
        nlinarith
      · rw [pow_succ]
        have := mul_le_mul_of_nonneg_left i2 hq0
        linarith
      · have h34 : max (1 / 3) (6 * (lmKappa R s b c * ‖P.1 - xs‖)) ≤ 3 / 4 := max_le (by norm_num) (by linarith)
        have h1 := mul_le_mul_of_nonneg_left h34 hinv.damping.le
        rw [pow_succ]
        linarith

/-- **C119**, superlinear convergence: the ratio of consecutive distances is at most a null sequence. -/
theorem C119_superlinear (hS : LMSpec S ip ip) (h : LMLocal S J xs R s b c) {p : E × LMState ℝ E F M A} (hi : LMInv S ip p)
    (hp : p.1 ∈ Metric.closedBall xs R) {q : ℝ} (hq : lmRate s c p.2.dampingFactor R ≤ q) (hq1 : q < 1) (hk : 8 * (lmKappa R s b c * R) ≤ 1) :
    (∀ k, ‖(S.update^[k + 1] p).1 - xs‖ ≤
      ((3 / 4) ^ k * p.2.dampingFactor / s ^ 2 + c / (2 * s) * (q ^ k * ‖p.1 - xs‖)) * ‖(S.update^[k] p).1 - xs‖) ∧
    ∀ ε > 0, ∃ N, ∀ k, N ≤ k → ‖(S.update^[k + 1] p).1 - xs‖ ≤ ε * ‖(S.update^[k] p).1 - xs‖ := by
  have hs := h.spos
  have hc := h.cnonneg
  have hmu := hi.damping
  have hq0 : 0 ≤ q := le_trans (by have := h.rnonneg; unfold lmRate; positivity) hq
  have hkap : 0 ≤ lmKappa R s b c := by
    have := h.bnonneg; have := h.rnonneg
    unfold lmKappa; positivity
  have hbound : ∀ k, ‖(S.update^[k + 1] p).1 - xs‖ ≤
      ((3 / 4) ^ k * p.2.dampingFactor / s ^ 2 + c / (2 * s) * (q ^ k * ‖p.1 - xs‖)) * ‖(S.update^[k] p).1 - xs‖ := by
    intro k
    obtain ⟨i1, i2, i3⟩ := C119_linear hS h hi hp hq hq1 hk k
    have hinv := (C44_history hS hi k).1
    rw [Function.iterate_succ_apply']
    set P := S.update^[k] p with hP
    have hdR : ‖P.1 - xs‖ ≤ R := by rw [← dist_eq_norm]; exact i1
    by_cases hx : P.1 = xs
    · rw [root_stays hS h hinv hx, hx, sub_self, norm_zero, mul_zero]
    · have i3 : P.2.dampingFactor ≤ (3 / 4) ^ k * p.2.dampingFactor := by
        rcases i3 with i3 | i3
        · exact absurd i3 hx
        · exact i3
      refine (le_trans ?_ (mul_le_mul_of_nonneg_right (?_ : lmRate s c P.2.dampingFactor ‖P.1 - xs‖ ≤ _) (norm_nonneg _)))
      · have hle1 : P.2.dampingFactor ≤ p.2.dampingFactor := by
          refine i3.trans ?_
          have : (3 / 4 : ℝ) ^ k ≤ 1 := pow_le_one₀ (by norm_num) (by norm_num)
          nlinarith
        have hr : lmRate s c P.2.dampingFactor ‖P.1 - xs‖ ≤ q := (lmRate_mono hs hc hinv.damping.le hle1 hdR).trans hq
        have hkk : lmKappa R s b c * ‖P.1 - xs‖ ≤ lmKappa R s b c * R := mul_le_mul_of_nonneg_left hdR hkap
        exact (C119_step hS h hinv i1 (by linarith) (by linarith) hx).2.1
      · unfold lmRate
        have a1 : P.2.dampingFactor / (s ^ 2 + P.2.dampingFactor) ≤ (3 / 4) ^ k * p.2.dampingFactor / s ^ 2 :=
          div_le_div₀ (by positivity) i3 (by positivity) (by linarith [hinv.damping])
        have a2 := mul_le_mul_of_nonneg_left i2 (by positivity : 0 ≤ c / (2 * s))
        linarith
  refine ⟨hbound, fun ε hε => ?_⟩
  have l1 : Filter.Tendsto (fun k : ℕ => (3 / 4 : ℝ) ^ k * p.2.dampingFactor / s ^ 2 + c / (2 * s) * (q ^ k * ‖p.1 - xs‖)) Filter.atTop (nhds 0) := by
    have t1 := ((tendsto_pow_atTop_nhds_zero_of_lt_one (by norm_num : (0 : ℝ) ≤ 3 / 4) (by norm_num)).mul_const p.2.dampingFactor).div_const (s ^ 2)
    have t2 := ((tendsto_pow_atTop_nhds_zero_of_lt_one hq0 hq1).mul_const ‖p.1 - xs‖).const_mul (c / (2 * s))
    simpa using t1.add t2
  obtain ⟨N, hN⟩ := Filter.eventually_atTop.mp (l1.eventually (gt_mem_nhds hε))
  exact ⟨N, fun k hk => (hbound k).trans (mul_le_mul_of_nonneg_right (hN k hk).le (norm_nonneg _))⟩

/-- **C119**: the damping is eventually divided by exactly three in every update (until the root is reached). -/
theorem C119_damping (hS : LMSpec S ip ip) (h : LMLocal S J xs R s b c) {p : E × LMState ℝ E F M A} (hi : LMInv S ip p)
    (hp : p.1 ∈ Metric.closedBall xs R) {q : ℝ} (hq : lmRate s c p.2.dampingFactor R ≤ q) (hq1 : q < 1) (hk : 8 * (lmKappa R s b c * R) ≤ 1) :
    ∃ N, ∀ k, N ≤ k → (S.update^[k] p).1 ≠ xs → (S.update^[k + 1] p).2.dampingFactor = (S.update^[k] p).2.dampingFactor / 3 := by
  have hs := h.spos
  have hc := h.cnonneg
  have hmu := hi.damping
  have hq0 : 0 ≤ q := le_trans (by have := h.rnonneg; unfold lmRate; positivity) hq
  have hkap : 0 ≤ lmKappa R s b c := by
    have := h.bnonneg; have := h.rnonneg
    unfold lmKappa; positivity
  have l1 : Filter.Tendsto (fun k : ℕ => lmKappa R s b c * (q ^ k * ‖p.1 - xs‖)) Filter.atTop (nhds 0) := by
    simpa using ((tendsto_pow_atTop_nhds_zero_of_lt_one hq0 hq1).mul_const ‖p.1 - xs‖).const_mul (lmKappa R s b c)
  obtain ⟨N, hN⟩ := Filter.eventually_atTop.mp (l1.eventually (gt_mem_nhds (by norm_num : (0 : ℝ) < 1 / 18)))
  refine ⟨N, fun k hkN hx => ?_⟩
  obtain ⟨i1, i2, i3⟩ := C119_linear hS h hi hp hq hq1 hk k
  have hinv := (C44_history hS hi k).1
  rw [Function.iterate_succ_apply']
  set P := S.update^[k] p with hP
  have hdR : ‖P.1 - xs‖ ≤ R := by rw [← dist_eq_norm]; exact i1
  have i3 : P.2.dampingFactor ≤ (3 / 4) ^ k * p.2.dampingFactor := by
    rcases i3 with i3 | i3
    · exact absurd i3 hx
    · exact i3
  have hle1 : P.2.dampingFactor ≤ p.2.dampingFactor := by
    refine i3.trans ?_
    have : (3 / 4 : ℝ) ^ k ≤ 1 := pow_le_one₀ (by norm_num) (by norm_num)
    nlinarith
  have hr : lmRate s c P.2.dampingFactor ‖P.1 - xs‖ ≤ q := (lmRate_mono hs hc hinv.damping.le hle1 hdR).trans hq
  have hkk : lmKappa R s b c * ‖P.1 - xs‖ ≤ lmKappa R s b c * R := mul_le_mul_of_nonneg_left hdR hkap
  obtain ⟨-, -, s3, s4⟩ := C119_step hS h hinv i1 (by linarith) (by linarith) hx
  have h18 : lmKappa R s b c * ‖P.1 - xs‖ < 1 / 18 := lt_of_le_of_lt (mul_le_mul_of_nonneg_left i2 hkap) (hN k hkN)
  rw [max_eq_left (by linarith)] at s4
  linarith

/-- The gradient norm bounds the distance. -/
theorem distance_le_grad (hS : LMSpec S ip ip) (h : LMLocal S J xs R s b c) (hR : c * R ≤ s) {x : E} (hx : x ∈ Metric.closedBall xs R) :
    s ^ 2 / 2 * ‖x - xs‖ ≤ ‖lmGrad S x‖ := by
  have hs := h.spos
  have hc := h.cnonneg
  have hdR : ‖x - xs‖ ≤ R := by rw [← dist_eq_norm]; exact hx
  have h1 := h.residual hx
  have h2 : inner ℝ (J x (x - xs)) (S.residualFun x).1 = inner ℝ (x - xs) (lmGrad S x) := by
    have := hS.ad.adjoint x (x - xs) (S.residualFun x).1
    rw [h.jvp x hx] at this
    exact this
  have h3 := real_inner_le_norm (x - xs) (lmGrad S x)
  have hlow := h.low x hx (x - xs)
  set d := x - xs with hd
  set r := (S.residualFun x).1
  have h4 : inner ℝ (J x d) r = ‖J x d‖ ^ 2 + inner ℝ (J x d) (r - J x d) := by
    rw [inner_sub_right, real_inner_self_eq_norm_sq]; ring
  have h5 : -(‖J x d‖ * (c / 2 * ‖d‖ ^ 2)) ≤ inner ℝ (J x d) (r - J x d) := by
    have a1 := abs_real_inner_le_norm (J x d) (r - J x d)
    have a2 := mul_le_mul_of_nonneg_left h1 (norm_nonneg (J x d))
    linarith [neg_abs_le (inner ℝ (J x d) (r - J x d))]
  rcases (norm_nonneg d).eq_or_lt with hd0 | hd0
  · rw [← hd0, mul_zero]; exact norm_nonneg _
  · have h6 : c / 2 * ‖d‖ ^ 2 ≤ s / 2 * ‖d‖ := by
      have := mul_le_mul_of_nonneg_left hdR hc
      nlinarith
    have h7 : s ^ 2 / 2 * ‖d‖ * ‖d‖ ≤ ‖lmGrad S x‖ * ‖d‖ := by
      have a0 : 0 ≤ (‖J x d‖ - s * ‖d‖) * ‖J x d‖ := mul_nonneg (by linarith) (norm_nonneg _)
      have a1 := mul_le_mul_of_nonneg_left h6 (norm_nonneg (J x d))
      have a2 : s / 2 * ‖d‖ * (s * ‖d‖) ≤ s / 2 * ‖d‖ * ‖J x d‖ := mul_le_mul_of_nonneg_left hlow (by positivity)
      nlinarith
    exact le_of_mul_le_mul_right h7 hd0

/-- **C119**, a run: with a positive tolerance on the gradient norm and enough iterations, a run started in the ball stops by the tolerance,
at a point whose distance to the root is at most `2 tol / s²`. -/
theorem C119_run (hS : LMSpec S ip ip) (h : LMLocal S J xs R s b c) (hn : ∀ v, S.norm v = ‖v‖) (hstop : S.stopCriterion = .gradL2Norm) (htol : 0 < S.tol)
    {x0 : E} (hx : x0 ∈ Metric.closedBall xs R) (hd : 0 < S.dampingParameter) (hdiag : 0 < S.maxDiag x0) (hR : c * R ≤ s)
    (hq : lmRate s c (S.dampingParameter * S.maxDiag x0) R < 1) (hk : 8 * (lmKappa R s b c * R) ≤ 1) :
    ∃ N, ∀ m, N ≤ m → ∀ r, ({ S with maxiter := m } : LM ℝ E F M A).run x0 = .ok r →
      ‖lmGrad S r.1‖ ≤ S.tol ∧ ‖r.1 - xs‖ ≤ 2 * S.tol / s ^ 2 ∧ r.2.iterNum ≤ N := by
  have hi := init_inv hS hd hdiag
  have hs := h.spos
  have hq' : lmRate s c (x0, S.initState x0).2.dampingFactor R < 1 := by
    have : (x0, S.initState x0).2.dampingFactor = S.dampingParameter * S.maxDiag x0 := by simp only [LM.initState]; rw [hS.ar]; rfl
    rw [this]; exact hq
  have hlin := C119_linear hS h hi hx le_rfl hq' hk
  set q := lmRate s c (x0, S.initState x0).2.dampingFactor R with hqd
  have hq0 : 0 ≤ q := by
    have := h.rnonneg; have := h.cnonneg; have := hi.damping
    rw [hqd]; unfold lmRate; positivity
  set P : ℕ → E × LMState ℝ E F M A := fun k => S.update^[k] (x0, S.initState x0) with hP
  have hiter : ∀ k, (P k).2.iterNum = k := by
    intro k
    induction k with
    | zero => rfl
    | succ k ih =>
      simp only [hP] at ih ⊢
      rw [Function.iterate_succ_apply']
      change (S.update^[k] (x0, S.initState x0)).2.iterNum + 1 = k + 1
      rw [ih]
  have hcont : ∀ k, S.cont (P k) = false ↔ ‖lmGrad S (P k).1‖ ≤ S.tol := by
    intro k
    have hk := (C44_history hS hi k).1
    unfold LM.cont
    rw [hstop, hS.ar]
    simp only [exactArith, decide_eq_false_iff_not, not_lt]
    rw [hk.error, hk.gradient, hn]
    rfl
  -- the gradients become small
  have hgrad : ∀ k, ‖lmGrad S (P k).1‖ ≤ b * ((b + c / 2 * R) * (q ^ k * ‖x0 - xs‖)) := by
    intro k
    obtain ⟨i1, i2, -⟩ := hlin k
    change (P k).1 ∈ Metric.closedBall xs R at i1
    change ‖(P k).1 - xs‖ ≤ q ^ k * ‖x0 - xs‖ at i2
    have hc := h.cnonneg
    have hb := h.bnonneg
    have hdR : ‖(P k).1 - xs‖ ≤ R := by rw [← dist_eq_norm]; exact i1
    have hrb : ‖(S.residualFun (P k).1).1‖ ≤ (b + c / 2 * R) * ‖(P k).1 - xs‖ := by
      have h1 := h.residual i1
      have h2 := h.high (P k).1 i1 ((P k).1 - xs)
      have h3 := norm_add_le ((S.residualFun (P k).1).1 - J (P k).1 ((P k).1 - xs)) (J (P k).1 ((P k).1 - xs))
      rw [sub_add_cancel] at h3
      have h4 : c / 2 * ‖(P k).1 - xs‖ ^ 2 ≤ c / 2 * R * ‖(P k).1 - xs‖ := by
        have := mul_le_mul_of_nonneg_right hdR (norm_nonneg ((P k).1 - xs))
        have := mul_le_mul_of_nonneg_left this (by positivity : 0 ≤ c / 2)
        nlinarith
      linarith
    have hg : ‖lmGrad S (P k).1‖ ≤ b * ‖(S.residualFun (P k).1).1‖ := by
      set g := lmGrad S (P k).1 with hg
      have h1 : inner ℝ (J (P k).1 g) (S.residualFun (P k).1).1 = inner ℝ g g := by
        have := hS.ad.adjoint (P k).1 g (S.residualFun (P k).1).1
        rw [h.jvp (P k).1 i1] at this
        exact this
      rw [real_inner_self_eq_norm_sq] at h1
      have h2 := real_inner_le_norm (J (P k).1 g) (S.residualFun (P k).1).1
      have h3 := mul_le_mul_of_nonneg_right (h.high (P k).1 i1 g) (norm_nonneg (S.residualFun (P k).1).1)
      rcases (norm_nonneg g).eq_or_lt with hg0 | hg0
      · rw [← hg0]; positivity
      · have : ‖g‖ * ‖g‖ ≤ (b * ‖(S.residualFun (P k).1).1‖) * ‖g‖ := by nlinarith
        exact le_of_mul_le_mul_right this hg0
    have hR0 := h.rnonneg
    exact hg.trans (mul_le_mul_of_nonneg_left (hrb.trans (mul_le_mul_of_nonneg_left i2 (by positivity))) hb)
  have l1 : Filter.Tendsto (fun k : ℕ => b * ((b + c / 2 * R) * (q ^ k * ‖x0 - xs‖))) Filter.atTop (nhds 0) := by
    simpa using (((tendsto_pow_atTop_nhds_zero_of_lt_one hq0 hq').mul_const ‖x0 - xs‖).const_mul (b + c / 2 * R)).const_mul b
  obtain ⟨N0, hN0⟩ := Filter.eventually_atTop.mp (l1.eventually (gt_mem_nhds htol))
  have hsmall : ‖lmGrad S (P (N0 + 1)).1‖ ≤ S.tol := (hgrad _).trans (hN0 (N0 + 1) (by omega)).le
  refine ⟨N0 + 1, fun m hm r hr => ?_⟩
  unfold LM.run at hr
  cases hpi : ({ S with maxiter := m } : LM ℝ E F M A).postInit with
  | error er => rw [hpi] at hr; cases hr
  | ok u =>
    rw [hpi] at hr
    obtain ⟨k, h1, h2, h3, h4, h5⟩ := runS_spec (by omega : 1 ≤ m) hr
    change r = P k at h3
    change ∀ j, 1 ≤ j → j < k → S.cont (P j) = true at h4
    change k = m ∨ S.cont (P k) = false at h5
    have hkN : k ≤ N0 + 1 := by
      by_contra hc
      have := h4 (N0 + 1) (by omega) (by omega)
      rw [(hcont (N0 + 1)).mpr hsmall] at this
      cases this
    have hfin : ‖lmGrad S (P k).1‖ ≤ S.tol := by
      rcases h5 with h5 | h5
      · have : k = N0 + 1 := by omega
        rw [this]; exact hsmall
      · exact (hcont k).mp h5
    rw [h3, hiter]
    refine ⟨hfin, ?_, hkN⟩
    have := distance_le_grad hS h hR (hlin k).1
    change s ^ 2 / 2 * ‖(P k).1 - xs‖ ≤ ‖lmGrad S (P k).1‖ at this
    rw [le_div_iff₀ (by positivity)]
    linarith

/-- **C119**: for every bound on the damping there is a ball in which all the conditions hold. -/
theorem C119_ball (h : LMLocal S J xs R s b c) (hR : 0 < R) {Lam : ℝ} (hL : 0 < Lam) :
    ∃ r, 0 < r ∧ r ≤ R ∧ LMLocal S J xs r s b c ∧ c * r ≤ s ∧ lmRate s c Lam r < 1 ∧ 8 * (lmKappa r s b c * r) ≤ 1 := by
  have hs := h.spos
  have hc := h.cnonneg
  have hb := h.bnonneg
  have hkap : 0 ≤ lmKappa R s b c := by unfold lmKappa; positivity
  set r := min R (min (1 / (8 * lmKappa R s b c + 1)) (min (s / (c + 1)) (s ^ 3 / ((s ^ 2 + Lam) * (c + 1))))) with hr
  have r0 : 0 < r := by
    refine lt_min hR (lt_min ?_ (lt_min ?_ ?_)) <;> positivity
  have r1 : r ≤ R := min_le_left _ _
  have r2 : r ≤ 1 / (8 * lmKappa R s b c + 1) := (min_le_right _ _).trans (min_le_left _ _)
  have r3 : r ≤ s / (c + 1) := (min_le_right _ _).trans ((min_le_right _ _).trans (min_le_left _ _))
  have r4 : r ≤ s ^ 3 / ((s ^ 2 + Lam) * (c + 1)) := (min_le_right _ _).trans ((min_le_right _ _).trans (min_le_right _ _))
  have hsub : Metric.closedBall xs r ⊆ Metric.closedBall xs R := Metric.closedBall_subset_closedBall r1
  refine ⟨r, r0, r1, ⟨fun x hx => h.deriv x (hsub hx), fun x hx => h.jvp x (hsub hx), fun x hx y hy => h.lip x (hsub hx) y (hsub hy),
    fun x hx => h.low x (hsub hx), fun x hx => h.high x (hsub hx), hs, hb, hc, r0.le, h.root⟩, ?_, ?_, ?_⟩
  · rw [le_div_iff₀ (by positivity)] at r3
    nlinarith
  · rw [le_div_iff₀ (by positivity)] at r4
    unfold lmRate
    have h1 : c / (2 * s) * r ≤ s ^ 2 / (2 * (s ^ 2 + Lam)) := by
      rw [div_mul_eq_mul_div, div_le_div_iff₀ (by positivity) (by positivity)]
      have : c * r * (s ^ 2 + Lam) ≤ s ^ 3 := by
        have : 0 ≤ r * (s ^ 2 + Lam) := by positivity
        nlinarith
      nlinarith
    have h2 : Lam / (s ^ 2 + Lam) + s ^ 2 / (2 * (s ^ 2 + Lam)) < 1 := by
      rw [div_add_div _ _ (by positivity) (by positivity), div_lt_one (by positivity)]
      nlinarith [mul_pos (pow_pos hs 2) (by positivity : 0 < s ^ 2 + Lam)]
    linarith
  · have h1 : lmKappa r s b c ≤ lmKappa R s b c := by
      unfold lmKappa
      have : c * (b + 3 / 2 * c * r) ≤ c * (b + 3 / 2 * c * R) := by
        have := mul_le_mul_of_nonneg_left r1 (by positivity : 0 ≤ 3 / 2 * c)
        exact mul_le_mul_of_nonneg_left (by linarith) hc
      exact div_le_div_of_nonneg_right this (by positivity)
    rw [le_div_iff₀ (by positivity)] at r2
    have := mul_le_mul_of_nonneg_right h1 r0.le
    nlinarith

end

/-! ## The convergence is not quadratic -/

/-- One update for `r(x) = x`. -/
theorem exLM_zero_step {mu : ℚ} {p : ℚ × LMState ℚ ℚ ℚ ℚ Unit} (hi : LMInv (exLM 0 mu) (fun x y => x * y) p) (hx : 0 < p.1) :
    ((exLM 0 mu).update p).1 = p.2.dampingFactor / (1 + p.2.dampingFactor) * p.1 ∧
    ((exLM 0 mu).update p).2.dampingFactor = p.2.dampingFactor / 3 := by
  have hmu := hi.damping
  have hv := velocity_exact (exLM_spec 0 mu) hi
  have hres : ∀ y, ((exLM 0 mu).residualFun y).1 = y := by
    intro y
    change 1 + (y - 1) + 0 * ((y - 1) * (y - 1)) = y
    ring
  rw [hi.gradient, hres] at hv
  have hv2 : (exLM 0 mu).velocity p.1 p.2 = p.1 / (1 + p.2.dampingFactor) := by
    change (1 + 2 * 0 * (p.1 - 1)) * ((1 + 2 * 0 * (p.1 - 1)) * (exLM 0 mu).velocity p.1 p.2) + p.2.dampingFactor * (exLM 0 mu).velocity p.1 p.2 =
      (1 + 2 * 0 * (p.1 - 1)) * p.1 at hv
    rw [eq_div_iff (by positivity)]
    linarith
  have hrho : gainRatio (exLM 0 mu) (fun x y => x * y) (fun x y => x * y) p = 1 := by
    unfold gainRatio lmCost
    simp only [hres]
    rw [hi.gradient, hres, hv2]
    change (p.1 * p.1 / 2 - (p.1 - p.1 / (1 + p.2.dampingFactor)) * (p.1 - p.1 / (1 + p.2.dampingFactor)) / 2) /
      (-(p.1 / (1 + p.2.dampingFactor)) * (p.2.dampingFactor * -(p.1 / (1 + p.2.dampingFactor)) - (1 + 2 * 0 * (p.1 - 1)) * p.1) / 2) = 1
    have h1 : 1 + p.2.dampingFactor ≠ 0 := by positivity
    set t := p.1 / (1 + p.2.dampingFactor) with ht
    have hp : p.1 = t * (1 + p.2.dampingFactor) := by rw [ht]; field_simp
    have ht0 : 0 < t := by rw [ht]; positivity
    rw [hp, div_eq_one_iff_eq]
    · ring
    · have : 0 < t * t * (1 + 2 * p.2.dampingFactor) := by positivity
      intro h0
      nlinarith
  rcases update_closed (exLM_spec 0 mu) hi with ⟨c0, c1, -, -, -, -, c6, -⟩ | ⟨c0, -⟩
  · refine ⟨?_, ?_⟩
    · rw [c1, hv2]
      field_simp
      ring
    · rw [c6, hrho]
      norm_num
      ring
  · rw [hrho] at c0; norm_num at c0

/-- **C119**, false for quadratic convergence: for `r(x) = x`, every damping parameter and every start, no constant bounds the next distance
by a multiple of the squared distance. -/
theorem C119_quadratic_false (mu : ℚ) (hmu : 0 < mu) (x0 : ℚ) (hx0 : 0 < x0) (C : ℚ) : ∃ N, ∀ k, N ≤ k →
    C * ((exLM 0 mu).update^[k] (x0, (exLM 0 mu).initState x0)).1 ^ 2 < ((exLM 0 mu).update^[k + 1] (x0, (exLM 0 mu).initState x0)).1 := by
  have hdiag : (0 : ℚ) < (exLM 0 mu).maxDiag x0 := by
    change (0 : ℚ) < (1 + 2 * 0 * (x0 - 1)) * (1 + 2 * 0 * (x0 - 1))
    norm_num
  have hi := init_inv (exLM_spec 0 mu) (show 0 < (exLM 0 mu).dampingParameter from hmu) hdiag
  set P : ℕ → ℚ × LMState ℚ ℚ ℚ ℚ Unit := fun k => (exLM 0 mu).update^[k] (x0, (exLM 0 mu).initState x0) with hP
  have hinv : ∀ k, LMInv (exLM 0 mu) (fun x y => x * y) (P k) := fun k => (C44_history (exLM_spec 0 mu) hi k).1
  have hsucc : ∀ k, P (k + 1) = (exLM 0 mu).update (P k) := fun k => Function.iterate_succ_apply' _ _ _
  have hpos : ∀ k, 0 < (P k).1 := by
    intro k
    induction k with
    | zero => exact hx0
    | succ k ih =>
      rw [hsucc, (exLM_zero_step (hinv k) ih).1]
      have := (hinv k).damping
      positivity
  have hle : ∀ k, (P k).2.dampingFactor ≤ (P 0).2.dampingFactor := by
    intro k
    induction k with
    | zero => exact le_rfl
    | succ k ih =>
      rw [hsucc, (exLM_zero_step (hinv k) (hpos k)).2]
      have := (hinv k).damping
      linarith
  set q := (P 0).2.dampingFactor / (1 + (P 0).2.dampingFactor) with hq
  have hm0 := (hinv 0).damping
  have hq0 : 0 ≤ q := by positivity
  have hq1 : q < 1 := by rw [hq, div_lt_one (by positivity)]; linarith
  have hgeo : ∀ k, (P k).1 ≤ q ^ k * x0 := by
    intro k
    induction k with
    | zero => simp [hP]
    | succ k ih =>
      rw [hsucc, (exLM_zero_step (hinv k) (hpos k)).1, pow_succ]
      have hm := (hinv k).damping
      have h1 : (P k).2.dampingFactor / (1 + (P k).2.dampingFactor) ≤ q := by
        rw [hq, div_le_div_iff₀ (by positivity) (by positivity)]
        nlinarith [hle k]
      have h2 := mul_le_mul h1 ih (hpos k).le hq0
      linarith
  -- `C x_k < mu_k / (1 + mu_k)` eventually
  have key : ∀ k, C * (3 * (P k).1) < 1 / (1 + (P 0).2.dampingFactor) → C * (P (k + 1)).1 ^ 2 < (P (k + 2)).1 := by
    intro k hk
    rw [hsucc (k + 1), (exLM_zero_step (hinv (k + 1)) (hpos (k + 1))).1]
    have hm := (hinv k).damping
    have hx1 := hpos (k + 1)
    have hd : (P (k + 1)).2.dampingFactor = (P k).2.dampingFactor / 3 := by rw [hsucc, (exLM_zero_step (hinv k) (hpos k)).2]
    have hxe : (P (k + 1)).1 = (P k).2.dampingFactor / (1 + (P k).2.dampingFactor) * (P k).1 := by
      rw [hsucc, (exLM_zero_step (hinv k) (hpos k)).1]
    have hlt : C * (P (k + 1)).1 < (P (k + 1)).2.dampingFactor / (1 + (P (k + 1)).2.dampingFactor) := by
      rw [hxe, hd]
      have h0 := hle k
      set m := (P k).2.dampingFactor
      set m0 := (P 0).2.dampingFactor
      set x := (P k).1 with hxk
      have hxp := hpos k
      have e1 : m / 3 / (1 + m / 3) = m * (1 / (3 + m)) := by field_simp
      have e2 : C * (m / (1 + m) * x) = m * (C * x / (1 + m)) := by field_simp
      rw [e1, e2]
      refine mul_lt_mul_of_pos_left ?_ hm
      rcases le_or_gt C 0 with hC | hC
      · have : C * x / (1 + m) ≤ 0 := div_nonpos_of_nonpos_of_nonneg (mul_nonpos_of_nonpos_of_nonneg hC hxp.le) (by positivity)
        have : 0 < 1 / (3 + m) := by positivity
        linarith
      · rw [lt_div_iff₀ (by positivity)] at hk
        rw [div_lt_div_iff₀ (by positivity) (by positivity)]
        have hCx : 0 < C * x := mul_pos hC hxp
        nlinarith [mul_nonneg hCx.le (by linarith : 0 ≤ m0 - m)]
    have := mul_lt_mul_of_pos_right hlt hx1
    calc C * (P (k + 1)).1 ^ 2 = C * (P (k + 1)).1 * (P (k + 1)).1 := by ring
      _ < _ := this
  have hD : 0 < 1 / (1 + (P 0).2.dampingFactor) := by positivity
  have hB : 0 < |C| * 3 * x0 + 1 := by positivity
  obtain ⟨n, hn⟩ := exists_pow_lt_of_lt_one (div_pos hD hB) hq1
  refine ⟨n + 1, fun k hk => ?_⟩
  obtain ⟨j, rfl⟩ : ∃ j, k = j + 1 := ⟨k - 1, by omega⟩
  refine key j ?_
  have h1 : q ^ j ≤ q ^ n := pow_le_pow_of_le_one hq0 hq1.le (by omega)
  have h2 : (P j).1 ≤ q ^ n * x0 := (hgeo j).trans (mul_le_mul_of_nonneg_right h1 hx0.le)
  rw [lt_div_iff₀ hB] at hn
  have h3 : C * (3 * (P j).1) ≤ |C| * (3 * (q ^ n * x0)) := by
    refine (mul_le_mul_of_nonneg_right (le_abs_self C) (by have := hpos j; positivity)).trans ?_
    exact mul_le_mul_of_nonneg_left (by linarith) (abs_nonneg C)
  have h4 : 0 ≤ q ^ n := pow_nonneg hq0 n
  nlinarith

/-! ## Non-vacuity -/

/-- One unknown, one residual `r(x) = x + x² / 16`. -/
noncomputable def exLocal (mu : ℝ) : LM ℝ ℝ ℝ ℝ Unit where
  ar := exactArith ℝ
  residualFun := fun x => (x + x * x / 16, ())
  jvp := fun x v => (1 + x / 8) * v
  vjp := fun x w => (1 + x / 8) * w
  d2fvv := fun x u v => u * v / 8
  jacFun := fun x => 1 + x / 8
  jacT := fun J r => J * r
  maxDiag := fun x => (1 + x / 8) * (1 + x / 8)
  solverFn := fun op b ridge _ => b / (op 1 + ridge)
  solveMat := fun J mu g _ => g / (J * J + mu)
  accMat := fun J mu r => J * r / (J * J + mu)
  dot := fun x y => x * y
  sumSq := fun r => r * r
  norm := fun x => |x|
  infNorm := fun x => |x|
  zero := 0
  solver := .callable
  materializeJac := false
  geodesic := false
  contributionRatioThreshold := 3 / 4
  dampingParameter := mu
  stopCriterion := .gradL2Norm
  tol := 1 / 1000
  xtol := 1 / 1000
  gtol := 1 / 1000
  maxiter := 10
  unroll := false
  jit := true

theorem exLocal_spec (mu : ℝ) : LMSpec (exLocal mu) (fun x y => inner ℝ x y) (fun x y => inner ℝ x y) := by
  have hip : (fun x y : ℝ => inner ℝ x y) = fun x y => x * y := by
    funext x y
    simp [mul_comm]
  rw [hip]
  exact {
    ar := rfl
    hE := IsVdot.mul
    hF := IsVdot.mul
    dot := fun _ _ => rfl
    sumSq := fun _ => rfl
    ad := ⟨fun x u v => by simp only [exLocal]; ring, fun x a u => by simp only [exLocal, smul_eq_mul]; ring, fun x u w => by simp only [exLocal]; ring⟩
    mat := fun _ _ => rfl
    exactMat := by
      intro x mu' hmu
      simp only [exLocal, LM.jtjOp, smul_eq_mul]
      set j := 1 + x / 8
      have hne : j * j + mu' ≠ 0 := by nlinarith [mul_self_nonneg j]
      field_simp
    exactFn := by
      intro x mu' i hmu
      simp only [exLocal, LM.jtjOp, smul_eq_mul, mul_one]
      set j := 1 + x / 8
      have hne : j * j + mu' ≠ 0 := by nlinarith [mul_self_nonneg j]
      field_simp
    geodesic := rfl }

theorem exLocal_local (mu : ℝ) : LMLocal (exLocal mu) (fun x => (1 + x / 8) • ContinuousLinearMap.id ℝ ℝ) 0 (1 / 2) (7 / 8) (9 / 8) (1 / 8) where
  deriv := by
    intro x _
    have h1 : HasDerivAt (fun y : ℝ => y + y * y / 16) (1 + x / 8) x :=
      ((hasDerivAt_id' x).add (((hasDerivAt_id' x).mul (hasDerivAt_id' x)).div_const 16)).congr_deriv (by ring)
    refine h1.hasFDerivAt.congr_fderiv ?_
    apply ContinuousLinearMap.ext
    intro v
    simp [mul_comm]
  jvp := by
    intro x _ v
    simp [exLocal]
  lip := by
    intro x _ y _
    rw [← sub_smul, norm_smul]
    have : ‖ContinuousLinearMap.id ℝ ℝ‖ ≤ 1 := ContinuousLinearMap.norm_id_le
    have e : ‖1 + x / 8 - (1 + y / 8)‖ = 1 / 8 * ‖x - y‖ := by
      rw [show 1 + x / 8 - (1 + y / 8) = 1 / 8 * (x - y) by ring, norm_mul]
      norm_num
    rw [e]
    have := mul_le_mul_of_nonneg_left this (by positivity : 0 ≤ 1 / 8 * ‖x - y‖)
    linarith
  low := by
    intro x hx v
    rw [mem_closedBall_zero_iff, Real.norm_eq_abs, abs_le] at hx
    have : ‖((1 + x / 8) • ContinuousLinearMap.id ℝ ℝ) v‖ = (1 + x / 8) * ‖v‖ := by
      simp only [_root_.smul_apply, ContinuousLinearMap.id_apply, norm_smul, Real.norm_eq_abs]
      rw [abs_of_nonneg (by linarith)]
    rw [this]
    exact mul_le_mul_of_nonneg_right (by linarith) (norm_nonneg v)
  high := by
    intro x hx v
    rw [mem_closedBall_zero_iff, Real.norm_eq_abs, abs_le] at hx
    have : ‖((1 + x / 8) • ContinuousLinearMap.id ℝ ℝ) v‖ = (1 + x / 8) * ‖v‖ := by
      simp only [_root_.smul_apply, ContinuousLinearMap.id_apply, norm_smul, Real.norm_eq_abs]
      rw [abs_of_nonneg (by linarith)]
    rw [this]
    exact mul_le_mul_of_nonneg_right (by linarith) (norm_nonneg v)
  spos := by norm_num
  bnonneg := by norm_num
  cnonneg := by norm_num
  rnonneg := by norm_num
  root := by simp [exLocal]

/-- From `1/2` with damping parameter `1/2`, the run stops at a distance of at most `2 tol / s²` from the root. -/
example : ∃ N, ∀ m, N ≤ m → ∀ r, ({ exLocal (1 / 2) with maxiter := m } : LM ℝ ℝ ℝ ℝ Unit).run (1 / 2) = .ok r →
    ‖lmGrad (exLocal (1 / 2)) r.1‖ ≤ 1 / 1000 ∧ ‖r.1 - 0‖ ≤ 2 * (1 / 1000) / (7 / 8) ^ 2 ∧ r.2.iterNum ≤ N := by
  refine C119_run (exLocal_spec _) (exLocal_local _) (fun v => rfl) rfl (by norm_num [exLocal]) ?_ (by norm_num [exLocal]) (by norm_num [exLocal]) (by norm_num) ?_ ?_
  · rw [mem_closedBall_zero_iff]; norm_num
  · norm_num [exLocal, lmRate]
  · norm_num [lmKappa]

end Jaxopt.LeastSquares
