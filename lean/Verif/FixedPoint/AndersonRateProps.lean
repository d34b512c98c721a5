import Verif.FixedPoint.AndersonProps
import Mathlib.Analysis.InnerProductSpace.Basic
import Mathlib.Algebra.Order.Chebyshev

/-!
# Property C86: Anderson acceleration on affine contractions

The residuals of the extrapolated points are bounded by those of the history, whatever the history size, the ridge and the mixing frequency; on
an affine contraction the iterates converge to the fixed point.
-/

set_option autoImplicit false
set_option linter.unusedSectionVars false
set_option linter.unusedVariables false

namespace Jaxopt.FixedPoint

open Jaxopt.Base

variable {V A : Type*} {m : ℕ} [NormedAddCommGroup V] [InnerProductSpace ℝ V]

/-- The inner product as `tree_vdot`. -/
theorem isVdot_inner : IsVdot (K := ℝ) (E := V) (fun u v => inner ℝ u v) where
  add_left := fun x y z => inner_add_left x y z
  smul_left := fun a x z => by simp [inner_smul_left]
  symm := fun x y => real_inner_comm y x
  pos := fun x hx => by
    rw [real_inner_self_eq_norm_sq]
    have := norm_pos_iff.mpr hx
    positivity

/-- Weights that sum to one have a squared norm of at least `1 / m`. -/
theorem one_le_sum_sq (w : Fin m → ℝ) (hw : ∑ i, w i = 1) : 1 ≤ m * ∑ i, w i * w i := by
  have h := sq_sum_le_card_mul_sum_sq (s := (Finset.univ : Finset (Fin m))) (f := w)
  rw [hw, Finset.card_univ, Fintype.card_fin] at h
  simpa [sq] using h

section
variable {h : AHist ℝ V m} {ridge : ℝ} {solve : LinSolve ℝ m}

/-- The combined residual is at most as long as that of the best stored point, up to the ridge. -/
theorem combined_best (hm : 0 < m) (hg : IsGram (fun u v => inner ℝ u v) h) (hr : 0 < ridge) (hs : ExactSolve solve) (w : Fin m → ℝ)
    (hw : ∑ i, w i = 1) : ‖treeAverage h.residuals fun i => minimizeResiduals solve h.gram ridge (.inr i)‖ ^ 2 ≤
      ‖∑ i, w i • h.residuals i‖ ^ 2 + ridge * (∑ i, w i * w i - 1 / m) := by
  obtain ⟨h1, h2⟩ := C29_weights isVdot_inner hm hg hr hs
  have h3 := h2 w hw
  simp only [real_inner_self_eq_norm_sq] at h3
  have h4 := one_le_sum_sq _ h1
  have hm' : (0 : ℝ) < m := by exact_mod_cast hm
  have h5 : 1 / (m : ℝ) ≤ ∑ i, minimizeResiduals solve h.gram ridge (.inr i) * minimizeResiduals solve h.gram ridge (.inr i) := by
    rw [div_le_iff₀ hm']; linarith
  have h6 := mul_le_mul_of_nonneg_left h5 hr.le
  unfold treeAverage
  rw [mul_sub]
  linarith

/-- The combined residual is at most as long as the longest stored residual, whatever the ridge. -/
theorem combined_max (hm : 0 < m) (hg : IsGram (fun u v => inner ℝ u v) h) (hr : 0 < ridge) (hs : ExactSolve solve) (R : ℝ) (hR : 0 ≤ R)
    (hb : ∀ i, ‖h.residuals i‖ ≤ R) : ‖treeAverage h.residuals fun i => minimizeResiduals solve h.gram ridge (.inr i)‖ ≤ R := by
  have hm' : (0 : ℝ) < m := by exact_mod_cast hm
  have hsum : ∑ i : Fin m, (1 / m : ℝ) = 1 := by
    simp only [Finset.sum_const, Finset.card_univ, Fintype.card_fin, nsmul_eq_mul]
    field_simp
  have h1 := combined_best hm hg hr hs (fun _ => 1 / m) hsum
  have h2 : ∑ i : Fin m, (1 / m : ℝ) * (1 / m) = 1 / m := by
    simp only [Finset.sum_const, Finset.card_univ, Fintype.card_fin, nsmul_eq_mul]
    field_simp
  rw [h2, sub_self, mul_zero, add_zero] at h1
  have h3 : ‖∑ i, (1 / m : ℝ) • h.residuals i‖ ≤ R := by
    refine le_trans (norm_sum_le _ _) ?_
    calc ∑ i, ‖(1 / m : ℝ) • h.residuals i‖ ≤ ∑ i : Fin m, (1 / m : ℝ) * R := by
          refine Finset.sum_le_sum fun i _ => ?_
          rw [norm_smul, Real.norm_of_nonneg (by positivity)]
          exact mul_le_mul_of_nonneg_left (hb i) (by positivity)
      _ = R := by rw [← Finset.sum_mul, hsum, one_mul]
  have h4 := pow_le_pow_left₀ (norm_nonneg _) h3 2
  exact abs_le_of_sq_le_sq' (le_trans h1 h4) hR |>.2

end

namespace Anderson

variable [NeZero m]

/-- The solver applied to the affine map `x ↦ M x + b`, in exact arithmetic. -/
structure OnAffine (S : Anderson ℝ V A m) (M : V →ₗ[ℝ] V) (b : V) : Prop where
  fn : ∀ x, (S.fixedPointFun.fn x).1 = M x + b
  vdot : S.vdot = fun u v => inner ℝ u v
  sqrt : S.sqrt = Real.sqrt
  ridge : 0 < S.ridge
  solve : ExactSolve S.solve

/-- The residual of the point of iteration `k`. -/
noncomputable def residual (S : Anderson ℝ V A m) (x0 : V) (k : ℕ) : V := (S.fixedPointFun.fn (S.point x0 k)).1 - S.point x0 k

variable {S : Anderson ℝ V A m} {M : V →ₗ[ℝ] V} {b : V}

theorem residual_plain (ha : OnAffine S M b) (x0 : V) (k : ℕ) (hk : ¬ (S.mixingFrequency ∣ k + 1 ∧ m ≤ k + 1)) :
    S.residual x0 (k + 1) = M (S.residual x0 k) := by
  have hv : IsVdot S.vdot := by rw [ha.vdot]; exact isVdot_inner
  have h1 := (C29_warmup S hv x0).2.1 (k + 1) hk
  have h2 := ((C29_bookkeeping S hv x0 (k + 1)).2.2.2.2 (by omega)).1
  rw [h2] at h1
  simp only [Nat.add_sub_cancel] at h1
  unfold residual
  rw [h1, ha.fn, ha.fn, map_sub M]
  abel

theorem residual_mixed (ha : OnAffine S M b) (x0 : V) (k : ℕ) (hk : S.mixingFrequency ∣ k) (hmk : m ≤ k) :
    let h := (S.update^[k] (x0, S.initState x0)).2.hist
    let ra := treeAverage h.residuals fun i => minimizeResiduals S.solve h.gram S.ridge (.inr i)
    S.residual x0 k = ra + S.beta • (M ra - ra) := by
  have hv : IsVdot S.vdot := by rw [ha.vdot]; exact isVdot_inner
  intro h ra
  obtain ⟨hg, hslot, hit, -, -⟩ := C29_bookkeeping S hv x0 k
  have hm : 0 < m := Nat.pos_of_ne_zero (NeZero.ne m)
  have hsum := (C29_weights hv hm (h := h) hg ha.ridge ha.solve).1
  have hpt : S.point x0 k = andersonStep S.solve h.params h.residuals h.gram S.ridge S.beta := by
    unfold point extrapolated
    rw [hit, if_pos ⟨Nat.mod_eq_zero_of_dvd hk, hmk⟩]
  have hres : ∀ i, h.residuals i = M (h.params i) + b - h.params i := by
    intro i
    rcases hslot i with ⟨j, -, -, -, -, h5⟩ | ⟨h1, -, -⟩
    · rw [← ha.fn]; exact h5
    · have := i.isLt; omega
  set w := fun i => minimizeResiduals S.solve h.gram S.ridge (.inr i) with hw
  have hpa : M (treeAverage h.params w) + b - treeAverage h.params w = ra := by
    show _ = treeAverage h.residuals w
    unfold treeAverage
    simp only [hres, smul_add, smul_sub, Finset.sum_add_distrib, Finset.sum_sub_distrib, map_sum, map_smul]
    rw [← Finset.sum_smul, hsum, one_smul]
  unfold residual
  rw [hpt, ha.fn]
  show M (treeAverage h.params w + S.beta • ra) + b - (treeAverage h.params w + S.beta • ra) = _
  have e : M (treeAverage h.params w + S.beta • ra) + b - (treeAverage h.params w + S.beta • ra) =
      (M (treeAverage h.params w) + b - treeAverage h.params w) + S.beta • (M ra - ra) := by
    rw [map_add, map_smul, smul_sub]; abel
  rw [e, hpa]

/-- The factor of one iteration: `c` for a plain one, `|1 - beta| + |beta| c` for one that mixes. -/
noncomputable def factor (S : Anderson ℝ V A m) (c : ℝ) : ℝ := max c (|1 - S.beta| + |S.beta| * c)

/-- **C86** (extrapolation).  At an iteration that mixes, the residual of the extrapolated point is at most `|1 - beta| + |beta| c` times the
residual of any affine combination of the stored points, up to a term proportional to the ridge that vanishes for uniform weights. -/
theorem C86_extrapolation (ha : OnAffine S M b) {c : ℝ} (hc0 : 0 ≤ c) (hM : ∀ v, ‖M v‖ ≤ c * ‖v‖) (x0 : V) (k : ℕ)
    (hk : S.mixingFrequency ∣ k) (hmk : m ≤ k) (w : Fin m → ℝ) (hw : ∑ i, w i = 1) :
    ‖S.residual x0 k‖ ^ 2 ≤ (|1 - S.beta| + |S.beta| * c) ^ 2 *
      (‖∑ i, w i • (S.update^[k] (x0, S.initState x0)).2.hist.residuals i‖ ^ 2 + S.ridge * (∑ i, w i * w i - 1 / m)) := by
  have hv : IsVdot S.vdot := by rw [ha.vdot]; exact isVdot_inner
  have hm : 0 < m := Nat.pos_of_ne_zero (NeZero.ne m)
  have hg := (C29_bookkeeping S hv x0 k).1
  rw [ha.vdot] at hg
  rw [residual_mixed ha x0 k hk hmk]
  have h1 := combined_best hm hg ha.ridge ha.solve w hw
  set ra := treeAverage (S.update^[k] (x0, S.initState x0)).2.hist.residuals
    fun i => minimizeResiduals S.solve (S.update^[k] (x0, S.initState x0)).2.hist.gram S.ridge (.inr i) with hra
  have h2 : ‖ra + S.beta • (M ra - ra)‖ ≤ (|1 - S.beta| + |S.beta| * c) * ‖ra‖ := by
    have e : ra + S.beta • (M ra - ra) = (1 - S.beta) • ra + S.beta • M ra := by
      rw [smul_sub, sub_smul, one_smul]; abel
    rw [e]
    refine le_trans (norm_add_le _ _) ?_
    rw [norm_smul, norm_smul, Real.norm_eq_abs, Real.norm_eq_abs]
    have := mul_le_mul_of_nonneg_left (hM ra) (abs_nonneg S.beta)
    linarith
  have h3 := pow_le_pow_left₀ (norm_nonneg _) h2 2
  rw [mul_pow] at h3
  exact le_trans h3 (mul_le_mul_of_nonneg_left h1 (sq_nonneg _))

/-- Every residual is at most `factor` times one of the previous `m` residuals. -/
theorem residual_window (ha : OnAffine S M b) {c : ℝ} (hc0 : 0 ≤ c) (hM : ∀ v, ‖M v‖ ≤ c * ‖v‖) (x0 : V) (k : ℕ) (R : ℝ) (hR : 0 ≤ R)
    (hb : ∀ j, j ≤ k → k + 1 ≤ j + m → ‖S.residual x0 j‖ ≤ R) : ‖S.residual x0 (k + 1)‖ ≤ S.factor c * R := by
  have hv : IsVdot S.vdot := by rw [ha.vdot]; exact isVdot_inner
  have hm : 0 < m := Nat.pos_of_ne_zero (NeZero.ne m)
  by_cases hk : S.mixingFrequency ∣ k + 1 ∧ m ≤ k + 1
  · obtain ⟨hg, hslot, -⟩ := C29_bookkeeping S hv x0 (k + 1)
    rw [ha.vdot] at hg
    rw [residual_mixed ha x0 (k + 1) hk.1 hk.2]
    have h1 := combined_max hm hg ha.ridge ha.solve R hR (fun i => by
      rcases hslot i with ⟨j, h1, h2, -, h4, h5⟩ | ⟨h1, -, -⟩
      · rw [h5, h4]; exact hb j (by omega) h2
      · have := i.isLt; omega)
    set ra := treeAverage (S.update^[k + 1] (x0, S.initState x0)).2.hist.residuals
      fun i => minimizeResiduals S.solve (S.update^[k + 1] (x0, S.initState x0)).2.hist.gram S.ridge (.inr i) with hra
    have e : ra + S.beta • (M ra - ra) = (1 - S.beta) • ra + S.beta • M ra := by
      rw [smul_sub, sub_smul, one_smul]; abel
    show ‖ra + S.beta • (M ra - ra)‖ ≤ _
    rw [e]
    refine le_trans (norm_add_le _ _) ?_
    rw [norm_smul, norm_smul, Real.norm_eq_abs, Real.norm_eq_abs]
    have h2 := mul_le_mul_of_nonneg_left (hM ra) (abs_nonneg S.beta)
    have h3 : (|1 - S.beta| + |S.beta| * c) * ‖ra‖ ≤ S.factor c * R :=
      mul_le_mul (le_max_right _ _) h1 (norm_nonneg _) (le_trans hc0 (le_max_left _ _))
    linarith
  · rw [residual_plain ha x0 k hk]
    refine le_trans (hM _) (mul_le_mul (le_max_left _ _) (hb k le_rfl (by omega)) (norm_nonneg _) (le_trans hc0 (le_max_left _ _)))

/-- **C86** (rate).  On an affine contraction the residual of iteration `k` is at most `factor ^ ⌈k / m⌉` times the initial one, for every
history size `m`, ridge and mixing frequency. -/
theorem C86_rate (ha : OnAffine S M b) {c : ℝ} (hc0 : 0 ≤ c) (hM : ∀ v, ‖M v‖ ≤ c * ‖v‖) (hq : S.factor c ≤ 1) (x0 : V) (k : ℕ) :
    ‖S.residual x0 k‖ ≤ S.factor c ^ ((k + m - 1) / m) * ‖M x0 + b - x0‖ := by
  have hv : IsVdot S.vdot := by rw [ha.vdot]; exact isVdot_inner
  have hm : 0 < m := Nat.pos_of_ne_zero (NeZero.ne m)
  have hq0 : 0 ≤ S.factor c := le_trans hc0 (le_max_left _ _)
  induction k using Nat.strong_induction_on with
  | _ k ih =>
    cases k with
    | zero =>
      have h0 : S.point x0 0 = x0 := by
        have h := (C29_warmup S hv x0).2.1 0 (fun h => by omega)
        exact h
      unfold residual
      rw [h0, ha.fn, Nat.div_eq_of_lt (by omega), pow_zero, one_mul]
    | succ k =>
      have h1 := residual_window ha hc0 hM x0 k (S.factor c ^ (k / m) * ‖M x0 + b - x0‖) (by positivity) (fun j hj hj2 => by
        refine le_trans (ih j (by omega)) (mul_le_mul_of_nonneg_right ?_ (norm_nonneg _))
        apply pow_le_pow_of_le_one hq0 hq
        apply Nat.div_le_div_right
        omega)
      refine le_trans h1 (le_of_eq ?_)
      rw [show k + 1 + m - 1 = k + m by omega, Nat.add_div_right _ hm, pow_succ]
      ring

/-- **C86** (run).  If `0 ≤ c < 1`, `0 < beta < 2 / (1 + c)` and the budget is large enough, a run on an affine contraction returns with an error
within the tolerance, and its parameters are within `c / (1 - c)` times the tolerance of the fixed point. -/
theorem C86_run (ha : OnAffine S M b) {c : ℝ} (hc0 : 0 ≤ c) (hM : ∀ v, ‖M v‖ ≤ c * ‖v‖) (hc1 : c < 1) (hb0 : 0 < S.beta)
    (hb1 : S.beta * (1 + c) < 2) (x0 xs : V) (hxs : M xs + b = xs) (hm : 1 ≤ S.maxiter)
    (hN : S.factor c ^ ((S.maxiter - 1 + m - 1) / m) * ‖M x0 + b - x0‖ ≤ S.tol) {r : V × AndersonState ℝ V A m} (hr : S.run x0 = .ok r) :
    S.factor c < 1 ∧ Ext.gt r.2.error (.fin S.tol) = false ∧ ‖r.1 - xs‖ ≤ c / (1 - c) * S.tol := by
  have hv : IsVdot S.vdot := by rw [ha.vdot]; exact isVdot_inner
  have hq : S.factor c < 1 := by
    apply max_lt hc1
    rw [abs_of_pos hb0]
    rcases abs_cases (1 - S.beta) with ⟨h, _⟩ | ⟨h, _⟩
    · rw [h]; nlinarith
    · rw [h]; nlinarith
  have h2 := C29_history_size S x0 hr
  simp only [run, postInit] at hr
  rw [if_neg (by omega)] at hr
  obtain ⟨k, hk1, hk2, rfl, -, hstop⟩ := runS_spec hm hr
  obtain ⟨b1, b2⟩ := (C29_bookkeeping S hv x0 k).2.2.2.2 hk1
  have eerr : (S.update^[k] (x0, S.initState x0)).2.error = .fin ‖S.residual x0 (k - 1)‖ := by
    rw [b2, ha.sqrt, ha.vdot]
    simp only [real_inner_self_eq_norm_sq, Real.sqrt_sq (norm_nonneg _)]
    rfl
  have hle : ‖S.residual x0 (k - 1)‖ ≤ S.tol := by
    rcases hstop with h | h
    · rw [h]
      exact le_trans (C86_rate ha hc0 hM hq.le x0 (S.maxiter - 1)) hN
    · unfold cont at h
      rw [eerr] at h
      simpa [Ext.gt, Ext.lt] using h
  refine ⟨hq, ?_, ?_⟩
  · rw [eerr]; simpa [Ext.gt, Ext.lt] using hle
  · set x := S.point x0 (k - 1) with hx
    have hres : S.residual x0 (k - 1) = M x + b - x := by unfold residual; rw [ha.fn]
    have e1 : (S.update^[k] (x0, S.initState x0)).1 - xs = M (x - xs) := by
      rw [b1]
      simp only
      rw [ha.fn, map_sub]
      nth_rw 1 [← hxs]
      abel
    have e2 : M x + b - x = M (x - xs) - (x - xs) := by
      rw [map_sub]
      have : b = xs - M xs := by rw [eq_sub_iff_add_eq, add_comm]; exact hxs
      rw [this]; abel
    rw [e1]
    have h3 := hM (x - xs)
    have h4 : (1 - c) * ‖x - xs‖ ≤ ‖S.residual x0 (k - 1)‖ := by
      rw [hres, e2]
      have := norm_sub_norm_le (x - xs) (M (x - xs))
      rw [norm_sub_rev (x - xs) (M (x - xs))] at this
      linarith
    have h5 : ‖x - xs‖ ≤ S.tol / (1 - c) := by
      rw [le_div_iff₀ (by linarith)]; linarith
    calc ‖M (x - xs)‖ ≤ c * ‖x - xs‖ := h3
      _ ≤ c * (S.tol / (1 - c)) := mul_le_mul_of_nonneg_left h5 hc0
      _ = c / (1 - c) * S.tol := by ring

/-- The hypotheses hold, e.g. for `x ↦ x / 2 + 1` on the real line with the default attributes. -/
example : OnAffine (V := ℝ) (A := Unit) (m := 5) ⟨.noAux fun x => x / 2 + 1, fun u v => inner ℝ u v, Real.sqrt, cramerSolve, 1, 1, 1 / 100000, 100,
    1 / 100000, false, true⟩ ((1 / 2 : ℝ) • LinearMap.id) 1 ∧
    factor (V := ℝ) (A := Unit) (m := 5) ⟨.noAux fun x => x / 2 + 1, fun u v => inner ℝ u v, Real.sqrt, cramerSolve, 1, 1, 1 / 100000, 100,
    1 / 100000, false, true⟩ (1 / 2) = 1 / 2 := by
  refine ⟨⟨fun x => ?_, rfl, rfl, by norm_num, exactSolve_cramer⟩, ?_⟩
  · simp [UserMap.fn]; ring
  · simp [factor]

end Anderson

end Jaxopt.FixedPoint
