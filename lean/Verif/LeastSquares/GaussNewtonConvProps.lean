import Verif.LeastSquares.GaussNewtonProps
import Mathlib.Analysis.Calculus.MeanValue
import Mathlib.Analysis.SpecificLimits.Basic
import Mathlib.Tactic.Linarith
import Mathlib.Tactic.FieldSimp

/-!
# Property C92: local convergence of Gauss-Newton

Near a stationary point whose Jacobian is injective, Gauss-Newton contracts with the factor
`γ / (2 s) ‖x - x*‖ + γ ‖r(x*)‖ / s²`: quadratically if the residual vanishes, linearly if it is small compared to the curvature.
-/

set_option autoImplicit false
set_option linter.unusedSectionVars false
set_option linter.unusedVariables false

namespace Jaxopt.LeastSquares

open Jaxopt.Base

section
variable {E F A : Type*} [NormedAddCommGroup E] [InnerProductSpace ℝ E] [NormedAddCommGroup F] [InnerProductSpace ℝ F]

/-! ## Specification -/

/-- On the ball with centre `xs` and radius `R`: the residual function is differentiable, its derivatives `J` are Lipschitz continuous with
constant `c` and bounded below by `s`; `jvp` and `vjp` are the derivative and its adjoint; the inner solve is exact; and `xs` is stationary. -/
structure GNLocal (S : GN ℝ E F A) (J : E → E →L[ℝ] F) (xs : E) (R s c : ℝ) : Prop where
  deriv : ∀ x ∈ Metric.closedBall xs R, HasFDerivAt S.residualFun.fn (J x) x
  jvp : ∀ x ∈ Metric.closedBall xs R, ∀ v, S.jvp x v = J x v
  vjp : ∀ x ∈ Metric.closedBall xs R, ∀ u w, inner ℝ (J x u) w = inner ℝ u (S.vjp x w)
  lip : ∀ x ∈ Metric.closedBall xs R, ∀ y ∈ Metric.closedBall xs R, ‖J x - J y‖ ≤ c * ‖x - y‖
  low : ∀ x ∈ Metric.closedBall xs R, ∀ v, s * ‖v‖ ≤ ‖J x v‖
  spos : 0 < s
  cnonneg : 0 ≤ c
  solve : ∀ x ∈ Metric.closedBall xs R, S.jtjOp x (S.solve (S.jtjOp x) (S.optimalityFun x)) = S.optimalityFun x
  stationary : S.optimalityFun xs = 0

variable {S : GN ℝ E F A} {J : E → E →L[ℝ] F} {xs : E} {R s c : ℝ}

/-- The error of the linearisation, with the constant `c / 2`. -/
theorem GNLocal.linearisation (h : GNLocal S J xs R s c) {x : E} (hx : x ∈ Metric.closedBall xs R) :
    ‖S.residualFun.fn x - S.residualFun.fn xs - J x (x - xs)‖ ≤ c / 2 * ‖x - xs‖ ^ 2 := by
  set f := S.residualFun.fn
  set d := x - xs with hd
  have hR : ‖d‖ ≤ R := by rw [hd, ← dist_eq_norm]; exact hx
  have hmem : ∀ t : ℝ, 0 ≤ t → t ≤ 1 → xs + t • d ∈ Metric.closedBall xs R := by
    intro t h0 h1
    rw [Metric.mem_closedBall, dist_eq_norm, add_sub_cancel_left, norm_smul, Real.norm_of_nonneg h0]
    have := mul_le_mul_of_nonneg_right h1 (norm_nonneg d)
    linarith
  have hderiv : ∀ t : ℝ, 0 ≤ t → t ≤ 1 →
      HasDerivAt (fun t : ℝ => f (xs + t • d) - f xs - t • J x d) (J (xs + t • d) d - J x d) t := by
    intro t h0 h1
    have hl : HasDerivAt (fun t : ℝ => xs + t • d) d t := by
      have := ((hasDerivAt_id t).smul_const d).const_add xs
      simpa using this
    have h2 := (h.deriv _ (hmem t h0 h1)).comp_hasDerivAt t hl
    have h3 : HasDerivAt (fun t : ℝ => t • J x d) (J x d) t := by
      simpa using (hasDerivAt_id t).smul_const (J x d)
    exact (h2.sub_const (f xs)).sub h3
  have key := image_norm_le_of_norm_deriv_right_le_deriv_boundary (a := 0) (b := 1)
    (f := fun t : ℝ => f (xs + t • d) - f xs - t • J x d) (f' := fun t => J (xs + t • d) d - J x d)
    (B := fun t => c * ‖d‖ ^ 2 * (t - t ^ 2 / 2)) (B' := fun t => c * ‖d‖ ^ 2 * (1 - t))
    (fun t ht => (hderiv t ht.1 ht.2).continuousAt.continuousWithinAt)
    (fun t ht => (hderiv t ht.1 ht.2.le).hasDerivWithinAt)
    (by simp)
    (fun t => by
      have h1 : HasDerivAt (fun t : ℝ => t - t ^ 2 / 2) (1 - t) t := by
        have := (hasDerivAt_id t).sub (((hasDerivAt_id t).pow 2).div_const 2)
        refine this.congr_deriv ?_
        simp
      exact h1.const_mul _)
    (fun t ht => by
      have h1 := h.lip _ (hmem t ht.1 ht.2.le) x hx
      have e : xs + t • d - x = -((1 - t) • d) := by rw [hd, sub_smul, one_smul]; abel
      rw [e, norm_neg, norm_smul, Real.norm_of_nonneg (by linarith [ht.2])] at h1
      have h2 := (J (xs + t • d) - J x).le_opNorm d
      have h3 := mul_le_mul_of_nonneg_right h1 (norm_nonneg d)
      have e2 : (J (xs + t • d) - J x) d = J (xs + t • d) d - J x d := rfl
      rw [e2] at h2
      nlinarith)
    (Set.right_mem_Icc.mpr zero_le_one)
  simp only [one_smul] at key
  have e : xs + d = x := by rw [hd]; abel
  rw [e] at key
  refine le_trans key (le_of_eq ?_)
  ring

/-- **C92**: the distance to the stationary point after one update from any state. -/
theorem C92_step (h : GNLocal S J xs R s c) (hR : 0 ≤ R) (p : E × GNState ℝ E F A) (hp : p.1 ∈ Metric.closedBall xs R) :
    ‖(S.update p).1 - xs‖ ≤ (c / (2 * s) * ‖p.1 - xs‖ + c * ‖S.residualFun.fn xs‖ / s ^ 2) * ‖p.1 - xs‖ := by
  set f := S.residualFun.fn
  set d := p.1 - xs with hd
  set dl := S.solve (S.jtjOp p.1) (S.optimalityFun p.1) with hdl
  have hq : (S.update p).1 = p.1 - dl := by
    simp only [GN.update, GN.fnAux_fst]; rfl
  set e := (S.update p).1 - xs with he
  have hed : e = d - dl := by rw [he, hq, hd]; abel
  have hs := h.spos
  have hxs : xs ∈ Metric.closedBall xs R := Metric.mem_closedBall_self hR
  -- the normal equations
  have hnorm : ∀ u, inner ℝ (J p.1 u) (J p.1 dl) = inner ℝ (J p.1 u) (f p.1) := by
    intro u
    have h1 : S.vjp p.1 (S.jvp p.1 dl) = S.vjp p.1 (f p.1) := h.solve p.1 hp
    rw [h.vjp p.1 hp, h.vjp p.1 hp, ← h.jvp p.1 hp, h1]
  have hstat : inner ℝ (J xs e) (f xs) = 0 := by
    rw [h.vjp xs hxs]
    have : S.vjp xs (f xs) = 0 := h.stationary
    rw [this, inner_zero_right]
  set w := f p.1 - f xs - J p.1 d with hw
  have hwb : ‖w‖ ≤ c / 2 * ‖d‖ ^ 2 := h.linearisation hp
  have hJe : J p.1 e = J p.1 d - J p.1 dl := by rw [hed, map_sub]
  have hsq : ‖J p.1 e‖ ^ 2 = -inner ℝ (J p.1 e) w - inner ℝ (J p.1 e - J xs e) (f xs) := by
    rw [← real_inner_self_eq_norm_sq]
    have h1 : inner ℝ (J p.1 e) (J p.1 e) = inner ℝ (J p.1 e) (J p.1 d) - inner ℝ (J p.1 e) (f p.1) := by
      rw [← hnorm e, ← inner_sub_right, ← hJe]
    have h2 : inner ℝ (J p.1 e) w = inner ℝ (J p.1 e) (f p.1) - inner ℝ (J p.1 e) (f xs) - inner ℝ (J p.1 e) (J p.1 d) := by
      rw [hw, inner_sub_right, inner_sub_right]
    rw [h1, h2, inner_sub_left, hstat]
    ring
  have hb1 : -inner ℝ (J p.1 e) w ≤ ‖J p.1 e‖ * (c / 2 * ‖d‖ ^ 2) := by
    have h1 := abs_real_inner_le_norm (J p.1 e) w
    have h2 := mul_le_mul_of_nonneg_left hwb (norm_nonneg (J p.1 e))
    linarith [neg_abs_le (inner ℝ (J p.1 e) w)]
  have hb2 : -inner ℝ (J p.1 e - J xs e) (f xs) ≤ c * ‖d‖ * ‖e‖ * ‖f xs‖ := by
    have h1 := abs_real_inner_le_norm (J p.1 e - J xs e) (f xs)
    have h2 : ‖J p.1 e - J xs e‖ ≤ c * ‖d‖ * ‖e‖ :=
      le_trans ((J p.1 - J xs).le_opNorm e) (mul_le_mul_of_nonneg_right (h.lip p.1 hp xs hxs) (norm_nonneg e))
    have h3 := mul_le_mul_of_nonneg_right h2 (norm_nonneg (f xs))
    linarith [neg_abs_le (inner ℝ (J p.1 e - J xs e) (f xs))]
  have hlow := h.low p.1 hp e
  rcases (norm_nonneg e).eq_or_lt with he0 | he0
  · rw [← he0]
    have := h.cnonneg
    positivity
  · have ha : 0 < ‖J p.1 e‖ := lt_of_lt_of_le (mul_pos hs he0) hlow
    have hc := h.cnonneg
    have h1 : ‖J p.1 e‖ ^ 2 ≤ ‖J p.1 e‖ * (c / 2 * ‖d‖ ^ 2) + c * ‖d‖ * ‖f xs‖ / s * ‖J p.1 e‖ := by
      have h2 : c * ‖d‖ * ‖e‖ * ‖f xs‖ ≤ c * ‖d‖ * ‖f xs‖ / s * ‖J p.1 e‖ := by
        have : c * ‖d‖ * ‖e‖ * ‖f xs‖ = c * ‖d‖ * ‖f xs‖ / s * (s * ‖e‖) := by field_simp
        rw [this]
        exact mul_le_mul_of_nonneg_left hlow (by positivity)
      linarith
    have h2 : ‖J p.1 e‖ ≤ c / 2 * ‖d‖ ^ 2 + c * ‖d‖ * ‖f xs‖ / s := by
      have : ‖J p.1 e‖ * ‖J p.1 e‖ ≤ (c / 2 * ‖d‖ ^ 2 + c * ‖d‖ * ‖f xs‖ / s) * ‖J p.1 e‖ := by nlinarith
      exact le_of_mul_le_mul_right this ha
    have h3 : s * ‖e‖ ≤ s * ((c / (2 * s) * ‖d‖ + c * ‖f xs‖ / s ^ 2) * ‖d‖) := by
      refine le_trans (le_trans hlow h2) (le_of_eq ?_)
      field_simp
    exact le_of_mul_le_mul_left h3 hs

/-- The contraction factor on the ball. -/
noncomputable def gnRate (S : GN ℝ E F A) (xs : E) (R s c : ℝ) : ℝ := c / (2 * s) * R + c * ‖S.residualFun.fn xs‖ / s ^ 2

theorem gnRate_nonneg (h : GNLocal S J xs R s c) (hR : 0 ≤ R) : 0 ≤ gnRate S xs R s c := by
  have := h.spos
  have := h.cnonneg
  unfold gnRate
  positivity

theorem gn_step_rate (h : GNLocal S J xs R s c) (hR : 0 ≤ R) (p : E × GNState ℝ E F A) (hp : p.1 ∈ Metric.closedBall xs R) :
    ‖(S.update p).1 - xs‖ ≤ gnRate S xs R s c * ‖p.1 - xs‖ := by
  refine le_trans (C92_step h hR p hp) (mul_le_mul_of_nonneg_right ?_ (norm_nonneg _))
  have hs := h.spos
  have hc := h.cnonneg
  have hd : ‖p.1 - xs‖ ≤ R := by rw [← dist_eq_norm]; exact hp
  unfold gnRate
  have := mul_le_mul_of_nonneg_left hd (by positivity : 0 ≤ c / (2 * s))
  linarith

/-- **C92**, linear convergence: if the factor is below 1, the iterates from any start in the ball stay in it and converge to the stationary
point at this rate. -/
theorem C92_linear (h : GNLocal S J xs R s c) (hR : 0 ≤ R) (hq : gnRate S xs R s c < 1) (p : E × GNState ℝ E F A)
    (hp : p.1 ∈ Metric.closedBall xs R) (k : ℕ) :
    (S.update^[k] p).1 ∈ Metric.closedBall xs R ∧ ‖(S.update^[k] p).1 - xs‖ ≤ gnRate S xs R s c ^ k * ‖p.1 - xs‖ := by
  have h0 := gnRate_nonneg h hR
  induction k with
  | zero => exact ⟨hp, by simp⟩
  | succ k ih =>
    rw [Function.iterate_succ_apply']
    have h1 := gn_step_rate h hR _ ih.1
    have h2 : ‖(S.update^[k] p).1 - xs‖ ≤ R := by rw [← dist_eq_norm]; exact ih.1
    refine ⟨?_, ?_⟩
    · rw [Metric.mem_closedBall, dist_eq_norm]
      nlinarith [norm_nonneg ((S.update^[k] p).1 - xs)]
    · rw [pow_succ]
      have := mul_le_mul_of_nonneg_left ih.2 h0
      linarith

/-- **C92**, quadratic convergence: if the residual vanishes at the stationary point and the start is within `2 s / c`, the scaled distances are
squared by every update. -/
theorem C92_quadratic (h : GNLocal S J xs R s c) (hR : 0 ≤ R) (hzero : S.residualFun.fn xs = 0) (hcR : c * R < 2 * s) (p : E × GNState ℝ E F A)
    (hp : p.1 ∈ Metric.closedBall xs R) (k : ℕ) :
    c / (2 * s) * ‖(S.update^[k] p).1 - xs‖ ≤ (c / (2 * s) * ‖p.1 - xs‖) ^ 2 ^ k ∧
    ‖(S.update (S.update^[k] p)).1 - xs‖ ≤ c / (2 * s) * ‖(S.update^[k] p).1 - xs‖ ^ 2 := by
  have hs := h.spos
  have hc := h.cnonneg
  have hrate : gnRate S xs R s c < 1 := by
    unfold gnRate
    rw [hzero, norm_zero, mul_zero, zero_div, add_zero, div_mul_eq_mul_div, div_lt_one (by positivity)]
    linarith
  have hstep : ∀ k, ‖(S.update (S.update^[k] p)).1 - xs‖ ≤ c / (2 * s) * ‖(S.update^[k] p).1 - xs‖ ^ 2 := by
    intro k
    have := C92_step h hR _ (C92_linear h hR hrate p hp k).1
    rw [hzero, norm_zero, mul_zero, zero_div, add_zero] at this
    linarith [sq (‖(S.update^[k] p).1 - xs‖)]
  refine ⟨?_, hstep k⟩
  induction k with
  | zero => simp
  | succ k ih =>
    rw [Function.iterate_succ_apply', pow_succ, pow_mul]
    have h0 : 0 ≤ c / (2 * s) := by positivity
    have h1 := mul_le_mul_of_nonneg_left (hstep k) h0
    have h2 : (c / (2 * s) * ‖(S.update^[k] p).1 - xs‖) ^ 2 ≤ ((c / (2 * s) * ‖p.1 - xs‖) ^ 2 ^ k) ^ 2 :=
      pow_le_pow_left₀ (by positivity) ih 2
    have e : c / (2 * s) * (c / (2 * s) * ‖(S.update^[k] p).1 - xs‖ ^ 2) = (c / (2 * s) * ‖(S.update^[k] p).1 - xs‖) ^ 2 := by ring
    linarith

/-- **C92**, runs: from any start in the ball and with a positive tolerance, every run with a large enough budget stops by the tolerance, and
the returned point is within `q / (1 - q) * tol` of the stationary point (`q` the contraction factor). -/
theorem C92_run (h : GNLocal S J xs R s c) (hR : 0 ≤ R) (hq : gnRate S xs R s c < 1) (hn : ∀ v, S.norm v = ‖v‖) (htol : 0 < S.tol)
    {x0 : E} (hx : x0 ∈ Metric.closedBall xs R) :
    ∃ N, ∀ m, N ≤ m → ∀ r, ({ S with maxiter := m } : GN ℝ E F A).run x0 = .ok r →
      ‖r.1 - xs‖ ≤ gnRate S xs R s c / (1 - gnRate S xs R s c) * S.tol ∧ r.2.iterNum ≤ N ∧
      ∃ e, r.2.error = .fin e ∧ e ≤ S.tol := by
  set q := gnRate S xs R s c with hqdef
  have h0 : 0 ≤ q := gnRate_nonneg h hR
  have h1q : 0 < 1 - q := by linarith
  have hlin := C92_linear h hR hq (x0, S.initState x0) hx
  set P : ℕ → E × GNState ℝ E F A := fun k => S.update^[k] (x0, S.initState x0) with hP
  have hPs : ∀ k, P (k + 1) = S.update (P k) := fun k => Function.iterate_succ_apply' _ _ _
  have hdelta : ∀ k, (P (k + 1)).2.error = .fin ‖(P k).1 - (P (k + 1)).1‖ := by
    intro k
    rw [hPs]
    have e1 : (S.update (P k)).2.error = .fin (S.norm (S.update (P k)).2.delta) := rfl
    have e2 : (S.update (P k)).1 = (P k).1 - (S.update (P k)).2.delta := rfl
    rw [e1, e2, sub_sub_cancel, hn]
  have hiter : ∀ k, (P k).2.iterNum = k := by
    intro k
    induction k with
    | zero => rfl
    | succ k ih =>
      rw [hPs]
      change (P k).2.iterNum + 1 = k + 1
      rw [ih]
  have hcont : ∀ k, S.cont (P (k + 1)) = false ↔ ‖(P k).1 - (P (k + 1)).1‖ ≤ S.tol := by
    intro k
    unfold GN.cont
    rw [hdelta]
    simp [Ext.gt, Ext.lt]
  -- the steps become small
  have hsmall : ∃ k, ‖(P k).1 - (P (k + 1)).1‖ ≤ S.tol := by
    obtain ⟨k, hk⟩ := exists_pow_lt_of_lt_one (div_pos htol (by have := norm_nonneg (x0 - xs); linarith : 0 < 2 * ‖x0 - xs‖ + 1)) hq
    refine ⟨k, ?_⟩
    have a1 := (hlin k).2
    have a2 := (hlin (k + 1)).2
    change ‖(P k).1 - xs‖ ≤ q ^ k * ‖x0 - xs‖ at a1
    change ‖(P (k + 1)).1 - xs‖ ≤ q ^ (k + 1) * ‖x0 - xs‖ at a2
    have a3 : ‖(P k).1 - (P (k + 1)).1‖ ≤ ‖(P k).1 - xs‖ + ‖(P (k + 1)).1 - xs‖ := by
      have e : (P k).1 - (P (k + 1)).1 = ((P k).1 - xs) - ((P (k + 1)).1 - xs) := by abel
      rw [e]
      exact norm_sub_le _ _
    have hqk : 0 ≤ q ^ k := pow_nonneg h0 k
    have a4 : q ^ (k + 1) ≤ q ^ k := by rw [pow_succ]; nlinarith
    have a5 := mul_le_mul_of_nonneg_right a4 (norm_nonneg (x0 - xs))
    have hpos : 0 < 2 * ‖x0 - xs‖ + 1 := by have := norm_nonneg (x0 - xs); linarith
    rw [lt_div_iff₀ hpos] at hk
    nlinarith
  obtain ⟨n, hnn⟩ := hsmall
  refine ⟨n + 1, fun m hm r hr => ?_⟩
  obtain ⟨k, k1, k2, k3, k4, k5⟩ := runS_spec (by omega : 1 ≤ m) hr
  change r = P k at k3
  change ∀ j, 1 ≤ j → j < k → S.cont (P j) = true at k4
  change k = m ∨ S.cont (P k) = false at k5
  have hk : k ≤ n + 1 := by
    by_contra hc
    have := k4 (n + 1) (by omega) (by omega)
    rw [(hcont n).mpr hnn] at this
    cases this
  obtain ⟨j, rfl⟩ : ∃ j, k = j + 1 := ⟨k - 1, by omega⟩
  have hstop : ‖(P j).1 - (P (j + 1)).1‖ ≤ S.tol := by
    rcases k5 with k5 | k5
    · have : j = n := by omega
      rw [this]; exact hnn
    · exact (hcont j).mp k5
  refine ⟨?_, by rw [k3, hiter]; exact hk, ‖(P j).1 - (P (j + 1)).1‖, by rw [k3]; exact hdelta j, hstop⟩
  rw [k3]
  have b1 : ‖(P (j + 1)).1 - xs‖ ≤ q * ‖(P j).1 - xs‖ := by
    rw [hPs]
    exact gn_step_rate h hR _ (hlin j).1
  have b2 : ‖(P j).1 - xs‖ ≤ ‖(P j).1 - (P (j + 1)).1‖ + ‖(P (j + 1)).1 - xs‖ := by
    have e : (P j).1 - xs = ((P j).1 - (P (j + 1)).1) + ((P (j + 1)).1 - xs) := by abel
    rw [e]
    exact norm_add_le _ _
  rw [div_mul_eq_mul_div, le_div_iff₀ h1q]
  nlinarith [norm_nonneg ((P j).1 - xs)]

end

/-! ## The condition on the residual is needed -/

/-- `r(x) = (x + 1, -2 x^2 + x - 1)`, with its derivative and the exact solve. -/
def exRep : GN ℚ ℚ (ℚ × ℚ) Unit where
  residualFun := .noAux fun x => (x + 1, -2 * x ^ 2 + x - 1)
  jvp := fun x v => (v, (1 - 4 * x) * v)
  vjp := fun x w => w.1 + (1 - 4 * x) * w.2
  solve := fun op b => b / op 1
  sumSq := fun r => r.1 * r.1 + r.2 * r.2
  norm := fun x => |x|
  maxiter := 50
  tol := 1 / 1000
  unroll := false
  jit := true

/-- **C92** is sharp: here the residual at the strict local minimiser `0` is too large for its curvature (`c ‖r‖ = 4 sqrt 2 > 2 = s²`), and
although every step solves its normal equations exactly, every start near `0` except `0` itself is driven away from it. -/
theorem C92_sharp :
    (∀ x, exRep.jtjOp x (exRep.solve (exRep.jtjOp x) (exRep.optimalityFun x)) = exRep.optimalityFun x) ∧ exRep.optimalityFun 0 = 0 ∧
    (∀ x : ℚ, x ≠ 0 → |x| ≤ 1 / 2 → exRep.sumSq (exRep.residualFun.fn 0) < exRep.sumSq (exRep.residualFun.fn x)) ∧
    ∀ p : ℚ × GNState ℚ ℚ (ℚ × ℚ) Unit, p.1 ≠ 0 → ∃ k, 1 / 20 < |(exRep.update^[k] p).1| := by
  have hpos : ∀ x : ℚ, 0 < 1 + (1 - 4 * x) * ((1 - 4 * x) * 1) := fun x => by nlinarith [mul_self_nonneg (1 - 4 * x)]
  have hupd : ∀ p : ℚ × GNState ℚ ℚ (ℚ × ℚ) Unit,
      (exRep.update p).1 = p.1 - (p.1 + 1 + (1 - 4 * p.1) * (-2 * p.1 ^ 2 + p.1 - 1)) / (1 + (1 - 4 * p.1) * ((1 - 4 * p.1) * 1)) :=
    fun p => rfl
  refine ⟨fun x => ?_, ?_, ?_, ?_⟩
  · change (x + 1 + (1 - 4 * x) * (-2 * x ^ 2 + x - 1)) / (1 + (1 - 4 * x) * ((1 - 4 * x) * 1)) +
      (1 - 4 * x) * ((1 - 4 * x) * ((x + 1 + (1 - 4 * x) * (-2 * x ^ 2 + x - 1)) / (1 + (1 - 4 * x) * ((1 - 4 * x) * 1)))) =
      x + 1 + (1 - 4 * x) * (-2 * x ^ 2 + x - 1)
    have := (hpos x).ne'
    field_simp
  · change (0 : ℚ) + 1 + (1 - 4 * 0) * (-2 * 0 ^ 2 + 0 - 1) = 0
    norm_num
  · intro x hx hx2
    change ((0 : ℚ) + 1) * (0 + 1) + (-2 * 0 ^ 2 + 0 - 1) * (-2 * 0 ^ 2 + 0 - 1) <
      (x + 1) * (x + 1) + (-2 * x ^ 2 + x - 1) * (-2 * x ^ 2 + x - 1)
    obtain ⟨h1, h2⟩ := abs_le.mp hx2
    have hx0 : 0 < x * x := mul_self_pos.mpr hx
    have e : (x + 1) * (x + 1) + (-2 * x ^ 2 + x - 1) * (-2 * x ^ 2 + x - 1) = 2 + x * x * (6 - 4 * x + 4 * (x * x)) := by ring
    rw [e]
    have : 0 < x * x * (6 - 4 * x + 4 * (x * x)) := mul_pos hx0 (by nlinarith)
    norm_num
    linarith
  · intro p hp
    by_contra hc
    push Not at hc
    have hgrow : ∀ q : ℚ × GNState ℚ ℚ (ℚ × ℚ) Unit, |q.1| ≤ 1 / 20 → 3 / 2 * |q.1| ≤ |(exRep.update q).1| := by
      intro q hq
      obtain ⟨h1, h2⟩ := abs_le.mp hq
      set x := q.1 with hx
      have e : (exRep.update q).1 = x * (-(4 + 2 * x - 8 * x ^ 2) / (2 - 8 * x + 16 * x ^ 2)) := by
        rw [hupd, ← hx]
        have h3 := (hpos x).ne'
        have h4 : 2 - 8 * x + 16 * x ^ 2 = 1 + (1 - 4 * x) * ((1 - 4 * x) * 1) := by ring
        rw [h4]
        field_simp
        ring
      rw [e, abs_mul, abs_div, abs_neg]
      have h5 : 0 < 2 - 8 * x + 16 * x ^ 2 := by nlinarith
      have h6 : 0 < 4 + 2 * x - 8 * x ^ 2 := by nlinarith
      rw [abs_of_pos h5, abs_of_pos h6]
      have h7 : 3 / 2 ≤ (4 + 2 * x - 8 * x ^ 2) / (2 - 8 * x + 16 * x ^ 2) := by
        rw [le_div_iff₀ h5]
        nlinarith
      have := mul_le_mul_of_nonneg_left h7 (abs_nonneg x)
      linarith
    have hpow : ∀ k : ℕ, (3 / 2) ^ k * |p.1| ≤ |(exRep.update^[k] p).1| := by
      intro k
      induction k with
      | zero => simp
      | succ k ih =>
        rw [Function.iterate_succ_apply', pow_succ]
        have := hgrow _ (hc k)
        linarith
    have hp0 : 0 < |p.1| := abs_pos.mpr hp
    obtain ⟨k, hk⟩ := pow_unbounded_of_one_lt (1 / 20 / |p.1|) (by norm_num : (1 : ℚ) < 3 / 2)
    rw [div_lt_iff₀ hp0] at hk
    linarith [hpow k, hc k]

/-! ## Non-vacuity -/

/-- `r(x) = x^2 - 1`. -/
noncomputable def exSq : GN ℝ ℝ ℝ Unit where
  residualFun := .noAux fun x => x ^ 2 - 1
  jvp := fun x v => 2 * x * v
  vjp := fun x w => 2 * x * w
  solve := fun op b => b / op 1
  sumSq := fun r => r * r
  norm := fun x => ‖x‖
  maxiter := 50
  tol := 1 / 1000
  unroll := false
  jit := true

theorem exSq_local : GNLocal exSq (fun x => (2 * x) • ContinuousLinearMap.id ℝ ℝ) 1 (1 / 4) (3 / 2) 2 where
  deriv := by
    intro x _
    have h : HasDerivAt (fun x : ℝ => x ^ 2 - 1) (2 * x) x := by
      have := ((hasDerivAt_id x).pow 2).sub_const 1
      refine this.congr_deriv ?_
      simp
    refine h.hasFDerivAt.congr_fderiv ?_
    ext
    simp
  jvp := fun x _ v => by simp [exSq]
  vjp := fun x _ u w => by simp [exSq]; ring
  lip := by
    intro x _ y _
    rw [← sub_smul, norm_smul, ContinuousLinearMap.norm_id, mul_one, ← mul_sub, norm_mul]
    simp
  low := by
    intro x hx v
    rw [Metric.mem_closedBall, Real.dist_eq, abs_le] at hx
    have h1 : (3 / 2 : ℝ) ≤ ‖2 * x‖ := by
      rw [Real.norm_of_nonneg (by linarith)]
      linarith
    simp only [ContinuousLinearMap.smul_apply, ContinuousLinearMap.id_apply, norm_smul]
    exact mul_le_mul_of_nonneg_right h1 (norm_nonneg v)
  spos := by norm_num
  cnonneg := by norm_num
  solve := by
    intro x hx
    rw [Metric.mem_closedBall, Real.dist_eq, abs_le] at hx
    change 2 * x * (2 * x * (2 * x * (x ^ 2 - 1) / (2 * x * (2 * x * 1)))) = 2 * x * (x ^ 2 - 1)
    have : x ≠ 0 := by linarith
    field_simp
  stationary := by
    change 2 * 1 * (1 ^ 2 - 1) = (0 : ℝ)
    norm_num

/-- Quadratic convergence to the square root of one from every start in `[3/4, 5/4]`. -/
example (x0 : ℝ) (hx : x0 ∈ Metric.closedBall 1 (1 / 4)) (k : ℕ) :
    2 / (2 * (3 / 2)) * ‖(exSq.update^[k] (x0, exSq.initState x0)).1 - 1‖ ≤ (2 / (2 * (3 / 2)) * ‖x0 - 1‖) ^ 2 ^ k :=
  (C92_quadratic exSq_local (by norm_num) (by change (1 : ℝ) ^ 2 - 1 = 0; norm_num) (by norm_num) _ hx k).1

end Jaxopt.LeastSquares
