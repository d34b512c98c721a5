import Verif.QuasiNewton.BfgsDennisMoreProps

/-!
# Property C121: BFGS with the Armijo backtracking line search converges superlinearly

bfgs.py with `linesearch=BacktrackingLineSearch(condition="armijo", ...)`, `max_stepsize=1` and `linesearch_init` one of "max" and "increase".
-/

set_option autoImplicit false
set_option linter.unusedSectionVars false
set_option linter.unusedVariables false

namespace Jaxopt.QuasiNewton

open Matrix Filter Topology Jaxopt.Base Jaxopt.LineSearch

namespace Bfgs

variable {ι : Type*} [Fintype ι] [DecidableEq ι]

/-- The gradient has the derivative `G` at `xs`, and its derivative is Lipschitz continuous at `xs`: near `xs`, differences of gradients are `G`
times the differences of the points, up to a relative error proportional to the distance from `xs`. -/
def HessNear (S : Bfgs ℝ ι ℝ) (xs : ι → ℝ) (G : Matrix ι ι ℝ) (C R : ℝ) : Prop :=
  ∀ x y : ι → ℝ, ‖pt (x - xs)‖ ≤ R → ‖pt (y - xs)‖ ≤ R →
    ‖pt (S.grad x - S.grad y - G *ᵥ (x - y))‖ ≤ C * (‖pt (x - xs)‖ + ‖pt (y - xs)‖) * ‖pt (x - y)‖

/-- From any step, the next first trial is the unit step or a fixed factor above the step: `linesearch_init="max"`, or "increase" with
`increase_factor > 1`. -/
def GrowsToOne (S : Bfgs ℝ ι ℝ) (ρ : ℝ) : Prop := 1 < ρ ∧ ∀ s, 0 < s → min 1 (ρ * s) ≤ S.initStep s

theorem growsToOne_max (S : Bfgs ℝ ι ℝ) (minStep inc : ℝ) (h : ∀ s, initStepsize "max" 1 minStep inc s = .ok (S.initStep s)) :
    S.GrowsToOne 2 := by
  refine ⟨by norm_num, fun s hs => ?_⟩
  have := h s
  simp only [initStepsize, if_true] at this
  rw [← Except.ok.inj this]
  exact min_le_left _ _

theorem growsToOne_increase (S : Bfgs ℝ ι ℝ) (minStep inc : ℝ) (hinc : 1 < inc)
    (h : ∀ s, initStepsize "increase" 1 minStep inc s = .ok (S.initStep s)) : S.GrowsToOne inc := by
  refine ⟨hinc, fun s hs => ?_⟩
  have := h s
  simp only [initStepsize, show ¬ ("increase" = "max") by decide, show ¬ ("increase" = "current") by decide, if_false, if_true] at this
  rw [← Except.ok.inj this]
  by_cases hm : s ≤ minStep
  · rw [if_pos hm]; exact min_le_left _ _
  · rw [if_neg hm, mul_comm]; exact min_le_right _ _

/-! ## One iteration -/

/-- The step of iteration `k`; it is the first trial step when that one satisfies Armijo's condition. -/
theorem step_facts {S : Bfgs ℝ ι ℝ} {ls : Backtracking ℝ (ι → ℝ)} {a : ℝ} (hu : S.UsesArmijo ls a) (x0 : ι → ℝ) (k : ℕ) :
    let x := (S.iter x0 k).1
    let d := direction (S.iter x0 k).2
    let t := min ls.maxStepsize (S.initStep (S.iter x0 k).2.stepsize)
    0 < (S.iter x0 (k + 1)).2.stepsize ∧ (S.iter x0 (k + 1)).2.stepsize ≤ ls.maxStepsize ∧
      (S.iter x0 (k + 1)).1 = x + (S.iter x0 (k + 1)).2.stepsize • d ∧
      (S.f (x + t • d) ≤ S.f x + ls.c1 * t * (S.grad x ⬝ᵥ d) → (S.iter x0 (k + 1)).2.stepsize = t) := by
  intro x d t
  have hval := (S.C74_bfgs_state (lsSound_of_uses hu) x0 k).1
  have hgr := (S.C74_bfgs_state (lsSound_of_uses hu) x0 k).2.1
  have hs1 : (S.iter x0 (k + 1)).1 = (S.step (S.iter x0 k).1 (S.iter x0 k).2 (direction (S.iter x0 k).2)).params := by
    rw [iter_succ]; rfl
  have hs2 : (S.iter x0 (k + 1)).2.stepsize = (S.step (S.iter x0 k).1 (S.iter x0 k).2 (direction (S.iter x0 k).2)).stepsize := by
    rw [iter_succ]; rfl
  obtain ⟨b, hb, hb0⟩ := hu.search
  have hstep : S.step (S.iter x0 k).1 (S.iter x0 k).2 (direction (S.iter x0 k).2) =
      S.runLs (S.initStep (S.iter x0 k).2.stepsize) (S.iter x0 k).1 (S.f (S.iter x0 k).1) (S.grad (S.iter x0 k).1)
        (direction (S.iter x0 k).2) := by
    unfold step
    rw [hb]
    simp only [if_pos hb0, hval, hgr]
  rw [hs1, hs2, hstep]
  have hi : 0 < S.initStep (S.iter x0 k).2.stepsize := lt_of_lt_of_le hu.initPos (hu.init _)
  have hxd : x = (S.iter x0 k).1 := rfl
  have hdd : d = direction (S.iter x0 k).2 := rfl
  have htd : t = min ls.maxStepsize (S.initStep (S.iter x0 k).2.stepsize) := rfl
  rw [← hxd, ← hdd]
  clear_value x d t
  generalize S.initStep (S.iter x0 k).2.stepsize = i0 at *
  obtain ⟨st, hr, e1, e2, e3, e4⟩ := hu.runs i0 x (S.f x) (S.grad x) d
  obtain ⟨j, hj, f1, f2, f3, f4, f5, f6, f7, f8⟩ := C18_backtracking ls hu.attrs.tol.ge hu.attrs.maxStep.le hu.attrs.decPos hu.attrs.decLe
    hu.attrs.iters i0 (S.f x) x (S.grad x) _ _ (some d) (Or.inl ⟨rfl, rfl⟩) _ st hr
  rw [Option.getD_some] at f2 f3
  have hp : 0 < min ls.maxStepsize i0 := lt_min hu.attrs.maxStep hi
  refine ⟨by rw [f1]; exact mul_pos hp (pow_pos hu.attrs.decPos j), ?_, by rw [← e1, f3], fun hacc => ?_⟩
  · rw [f1]
    have h1 : ls.decreaseFactor ^ j ≤ 1 := pow_le_one₀ hu.attrs.decPos.le hu.attrs.decLe
    have h2 : min ls.maxStepsize i0 ≤ ls.maxStepsize := min_le_left _ _
    nlinarith
  · have hj0 : j = 0 := by
      by_contra hj0
      refine f2 0 (Nat.pos_of_ne_zero hj0) ?_
      simp only [AcceptAt, Accept, hu.attrs.armijo, hu.attrs.value, Ext.AtMost, and_true, hu.attrs.tol, add_zero, pow_zero, mul_one, hu.vdot]
      rw [← htd]
      exact hacc
    rw [f1, hj0, pow_zero, mul_one, htd]

/-! ## The unit step near the solution -/

theorem SymPos.lower {G : Matrix ι ι ℝ} (h : SymPos G) : ∃ m : ℝ, 0 < m ∧ ∀ v : ι → ℝ, m * ‖pt v‖ ^ 2 ≤ v ⬝ᵥ G *ᵥ v := by
  obtain ⟨P, Q, hGP, hPQ, hQP⟩ := h.factor
  obtain ⟨c, hc, hcb⟩ := mulVec_bound Q
  refine ⟨1 / c ^ 2, by positivity, fun v => ?_⟩
  have h1 := hcb (P *ᵥ v)
  rw [mulVec_mulVec, hQP, one_mulVec] at h1
  have h2 : v ⬝ᵥ G *ᵥ v = ‖pt (P *ᵥ v)‖ ^ 2 := by
    rw [norm_pt, hGP, ← mulVec_mulVec, dotProduct_mulVec, vecMul_transpose]
  rw [h2, div_mul_eq_mul_div, one_mul, div_le_iff₀ (by positivity), ← mul_pow, mul_comm]
  exact pow_le_pow_left₀ (norm_nonneg _) h1 2

/-- The objective along a short step. -/
theorem taylor {S : Bfgs ℝ ι ℝ} {L : ℝ} (hsm : LSmooth S.fE S.gE L) {xs : ι → ℝ} {G : Matrix ι ι ℝ} {C R : ℝ} (hC : 0 ≤ C)
    (hG : S.HessNear xs G C R) (x d : ι → ℝ) (hR : ‖pt (x - xs)‖ + ‖pt d‖ ≤ R) :
    S.f (x + d) ≤ S.f x + S.grad x ⬝ᵥ d + 1 / 2 * (d ⬝ᵥ G *ᵥ d) + C * (2 * ‖pt (x - xs)‖ + ‖pt d‖) * ‖pt d‖ ^ 2 ∧
      ‖pt (S.grad (x + d) - S.grad x - G *ᵥ d)‖ ≤ C * (2 * ‖pt (x - xs)‖ + ‖pt d‖) * ‖pt d‖ := by
  have hxR : ‖pt (x - xs)‖ ≤ R := by have := norm_nonneg (pt d); linarith
  have hnear : ∀ t : ℝ, 0 ≤ t → t ≤ 1 → ‖pt (S.grad (x + t • d) - S.grad x - G *ᵥ (t • d))‖ ≤
      C * (2 * ‖pt (x - xs)‖ + ‖pt d‖) * ‖pt d‖ := by
    intro t h0 h1
    have hn : ‖pt (x + t • d - xs)‖ ≤ ‖pt (x - xs)‖ + ‖pt d‖ := by
      have e : pt (x + t • d - xs) = pt (x - xs) + t • pt d := by
        rw [show x + t • d - xs = (x - xs) + t • d by abel]; rfl
      rw [e]
      refine le_trans (norm_add_le _ _) ?_
      rw [norm_smul, Real.norm_eq_abs, abs_of_nonneg h0]
      have := norm_nonneg (pt d)
      nlinarith
    have h := hG (x + t • d) x (le_trans hn hR) hxR
    rw [show x + t • d - x = t • d by abel] at h
    refine le_trans h ?_
    have e2 : ‖pt (t • d)‖ ≤ ‖pt d‖ := by
      rw [show pt (t • d) = t • pt d from rfl, norm_smul, Real.norm_eq_abs, abs_of_nonneg h0]
      have := norm_nonneg (pt d)
      nlinarith
    have h3 : C * (‖pt (x + t • d - xs)‖ + ‖pt (x - xs)‖) ≤ C * (2 * ‖pt (x - xs)‖ + ‖pt d‖) :=
      mul_le_mul_of_nonneg_left (by linarith) hC
    exact mul_le_mul h3 e2 (norm_nonneg _) (by positivity)
  refine ⟨?_, by have := hnear 1 zero_le_one (le_refl _); rwa [one_smul] at this⟩
  set E := C * (2 * ‖pt (x - xs)‖ + ‖pt d‖) * ‖pt d‖ ^ 2 with hE
  -- the difference is decreasing in `t`
  have hderiv : ∀ t : ℝ, HasDerivAt (fun t : ℝ => S.fE (pt x + t • pt d) - t * (S.grad x ⬝ᵥ d) - 1 / 2 * t ^ 2 * (d ⬝ᵥ G *ᵥ d) - t * E)
      (S.grad (x + t • d) ⬝ᵥ d - S.grad x ⬝ᵥ d - t * (d ⬝ᵥ G *ᵥ d) - E) t := by
    intro t
    have h1 := hsm.deriv_line (pt x) (pt d) t
    have h2 : inner ℝ (S.gE (pt x + t • pt d)) (pt d) = S.grad (x + t • d) ⬝ᵥ d := inner_pt _ _
    rw [h2] at h1
    have h3 := ((h1.sub ((hasDerivAt_id' t).mul_const (S.grad x ⬝ᵥ d))).sub
      ((((hasDerivAt_id' t).pow 2).const_mul (1 / 2 : ℝ)).mul_const (d ⬝ᵥ G *ᵥ d))).sub ((hasDerivAt_id' t).mul_const E)
    refine h3.congr_deriv ?_
    simp
  have hle : ∀ t ∈ interior (Set.Icc (0 : ℝ) 1),
      deriv (fun t : ℝ => S.fE (pt x + t • pt d) - t * (S.grad x ⬝ᵥ d) - 1 / 2 * t ^ 2 * (d ⬝ᵥ G *ᵥ d) - t * E) t ≤ 0 := by
    intro t ht
    rw [interior_Icc] at ht
    rw [(hderiv t).deriv]
    have h1 := hnear t ht.1.le ht.2.le
    have h2 := real_inner_le_norm (pt (S.grad (x + t • d) - S.grad x - G *ᵥ (t • d))) (pt d)
    rw [inner_pt, sub_dotProduct, sub_dotProduct, mulVec_smul, smul_dotProduct, smul_eq_mul, dotProduct_comm (G *ᵥ d) d] at h2
    have h3 := mul_le_mul_of_nonneg_right h1 (norm_nonneg (pt d))
    have h4 : C * (2 * ‖pt (x - xs)‖ + ‖pt d‖) * ‖pt d‖ * ‖pt d‖ = E := by rw [hE]; ring
    rw [mulVec_smul] at h3
    linarith
  have hanti := antitoneOn_of_deriv_nonpos (convex_Icc 0 1)
    (fun t _ => (hderiv t).continuousAt.continuousWithinAt) (fun t _ => (hderiv t).differentiableAt.differentiableWithinAt) hle
  have h := hanti (Set.left_mem_Icc.mpr zero_le_one) (Set.right_mem_Icc.mpr zero_le_one) zero_le_one
  simp only [zero_smul, one_smul, add_zero, zero_mul, sub_zero, one_mul, one_pow, mul_one, ne_eq, OfNat.ofNat_ne_zero, not_false_eq_true,
    zero_pow, mul_zero] at h
  have e1 : S.fE (pt x) = S.f x := rfl
  have e2 : S.fE (pt x + pt d) = S.f (x + d) := rfl
  rw [e1, e2] at h
  linarith

theorem progress_aux {C K η X D : ℝ} (hC : 0 ≤ C) (hK : 0 ≤ K) (hη : 0 ≤ η) (hX : 0 ≤ X) (hD0 : 0 ≤ D) (hD : D ≤ K * X) :
    (η + C * (2 * X + D)) * D ≤ K * (1 + C * (2 + K)) * (η + X) * X := by
  have hCK : 0 ≤ C * (2 + K) := by positivity
  have he : C * (2 * X + D) ≤ C * (2 + K) * X := by
    have := mul_le_mul_of_nonneg_left (show 2 * X + D ≤ (2 + K) * X by linarith) hC
    linarith
  calc (η + C * (2 * X + D)) * D ≤ (η + C * (2 + K) * X) * (K * X) := mul_le_mul (by linarith) hD hD0 (by positivity)
    _ ≤ ((1 + C * (2 + K)) * (η + X)) * (K * X) := by
      refine mul_le_mul_of_nonneg_right ?_ (by positivity)
      nlinarith [mul_nonneg hCK hη]
    _ = K * (1 + C * (2 + K)) * (η + X) * X := by ring

/-- Near the solution, along a direction that nearly solves Newton's equation, the unit step satisfies Armijo's condition with any `c1 < 1/2`,
and nearly reaches the solution. -/
theorem unit_step {S : Bfgs ℝ ι ℝ} {μ L : ℝ} (hμ : 0 < μ) (hL : 0 < L) (hsm : LSmooth S.fE S.gE L) (hsc : StrongConvexWith S.fE S.gE μ)
    {xs : ι → ℝ} (hxs : S.grad xs = 0) {G : Matrix ι ι ℝ} (hSG : SymPos G) {C R : ℝ} (hC : 0 ≤ C) (hR : 0 < R) (hG : S.HessNear xs G C R)
    {c1 : ℝ} (hc1 : c1 < 1 / 2) :
    ∃ δ A : ℝ, 0 < δ ∧ 0 ≤ A ∧ ∀ (x d : ι → ℝ) (η : ℝ), ‖pt (x - xs)‖ ≤ δ → 0 ≤ η → η ≤ δ → ‖pt (S.grad x + G *ᵥ d)‖ ≤ η * ‖pt d‖ →
      S.f (x + d) ≤ S.f x + c1 * (S.grad x ⬝ᵥ d) ∧ ‖pt (x + d - xs)‖ ≤ A * (η + ‖pt (x - xs)‖) * ‖pt (x - xs)‖ := by
  obtain ⟨m, hm, hmG⟩ := hSG.lower
  set κ := (1 / 2 - c1) * m / 4 with hκ
  have hκ0 : 0 < κ := by
    have : 0 < 1 / 2 - c1 := by linarith
    positivity
  set K := 2 * L / m with hK
  have hK0 : 0 < K := by positivity
  refine ⟨min (min (m / 2) (2 * κ)) (min (R / (1 + K)) (κ / (C * (2 + K) + 1))), K * (1 + C * (2 + K)) / μ, by positivity, by positivity, ?_⟩
  intro x d η hx hη0 hη hN
  have hη1 : η ≤ m / 2 := le_trans hη (le_trans (min_le_left _ _) (min_le_left _ _))
  have hη2 : η ≤ 2 * κ := le_trans hη (le_trans (min_le_left _ _) (min_le_right _ _))
  have hx1 : ‖pt (x - xs)‖ ≤ R / (1 + K) := le_trans hx (le_trans (min_le_right _ _) (min_le_left _ _))
  have hx2 : ‖pt (x - xs)‖ ≤ κ / (C * (2 + K) + 1) := le_trans hx (le_trans (min_le_right _ _) (min_le_right _ _))
  rw [le_div_iff₀ (by positivity)] at hx1 hx2
  -- the length of the direction
  have hgx : ‖pt (S.grad x)‖ ≤ L * ‖pt (x - xs)‖ := by
    have := hsm.lip (pt x) (pt xs)
    have e : S.gE (pt xs) = 0 := by
      show pt (S.grad xs) = 0
      rw [hxs]; rfl
    rw [e, sub_zero] at this
    exact this
  have hcurv := hmG d
  have hin := real_inner_le_norm (pt (S.grad x + G *ᵥ d)) (pt d)
  rw [inner_pt, add_dotProduct, dotProduct_comm (G *ᵥ d) d] at hin
  have hin2 := abs_le.mp (abs_real_inner_le_norm (pt (S.grad x)) (pt d))
  rw [inner_pt] at hin2
  have hNd := mul_le_mul_of_nonneg_right hN (norm_nonneg (pt d))
  set D := ‖pt d‖ with hD
  have hD0 : 0 ≤ D := norm_nonneg _
  set X := ‖pt (x - xs)‖ with hX
  have hX0 : 0 ≤ X := norm_nonneg _
  have hDle : D ≤ K * X := by
    by_contra hcon
    have hcon := not_le.mp hcon
    have hDp : 0 < D := lt_of_le_of_lt (by positivity) hcon
    have h1 : m * D ^ 2 ≤ L * X * D + η * D * D := by
      have := mul_le_mul_of_nonneg_right hgx hD0
      linarith [hin2.1]
    have h2 : m / 2 * D ≤ L * X := by
      have h3 : m / 2 * D * D ≤ L * X * D := by nlinarith [mul_nonneg hD0 hD0]
      exact le_of_mul_le_mul_right h3 hDp
    have h4 : K * X = 2 / m * (L * X) := by rw [hK]; ring
    have h5 : D = 2 / m * (m / 2 * D) := by field_simp
    have h6 : D ≤ K * X := by
      rw [h4, h5]
      exact mul_le_mul_of_nonneg_left h2 (by positivity)
    linarith
  have hball : X + D ≤ R := by nlinarith
  obtain ⟨t1, t2⟩ := taylor hsm hC hG x d hball
  have he : C * (2 * X + D) ≤ C * (2 + K) * X := by
    have := mul_le_mul_of_nonneg_left (show 2 * X + D ≤ (2 + K) * X by linarith) hC
    linarith
  have heκ : C * (2 * X + D) ≤ κ := by nlinarith
  refine ⟨?_, ?_⟩
  · have h1 : C * (2 * X + D) * D ^ 2 ≤ κ * D ^ 2 := mul_le_mul_of_nonneg_right heκ (sq_nonneg _)
    have h2 : η * D * D ≤ m / 2 * D ^ 2 := by nlinarith [sq_nonneg D]
    have h3 : η * D * D ≤ 2 * κ * D ^ 2 := by nlinarith [sq_nonneg D]
    -- `-gᵀd ≥ m/2 ‖d‖²`
    have h4 : m / 2 * D ^ 2 ≤ -(S.grad x ⬝ᵥ d) := by linarith
    have h5 := mul_le_mul_of_nonneg_left h4 (show 0 ≤ 1 / 2 - c1 by linarith)
    have h6 : (1 / 2 - c1) * (m / 2 * D ^ 2) = 2 * κ * D ^ 2 := by rw [hκ]; ring
    linarith
  · have h1 : ‖pt (S.grad (x + d))‖ ≤ (η + C * (2 * X + D)) * D := by
      have e : pt (S.grad (x + d)) = pt (S.grad x + G *ᵥ d) + pt (S.grad (x + d) - S.grad x - G *ᵥ d) := by
        have : S.grad (x + d) = (S.grad x + G *ᵥ d) + (S.grad (x + d) - S.grad x - G *ᵥ d) := by abel
        conv_lhs => rw [this]
        rfl
      rw [e]
      refine le_trans (norm_add_le _ _) ?_
      linarith
    have h2 : μ * ‖pt (x + d - xs)‖ ≤ ‖pt (S.grad (x + d))‖ := by
      have h3 := hsc.mono (pt xs) (pt (x + d))
      have e : S.gE (pt xs) = 0 := by
        show pt (S.grad xs) = 0
        rw [hxs]; rfl
      rw [e, sub_zero] at h3
      have h4 := real_inner_le_norm (pt (x + d) - pt xs) (S.gE (pt (x + d)))
      have e2 : pt (x + d) - pt xs = pt (x + d - xs) := rfl
      have e3 : S.gE (pt (x + d)) = pt (S.grad (x + d)) := rfl
      rw [e2, e3] at h3 h4
      rcases eq_or_lt_of_le (norm_nonneg (pt (x + d - xs))) with h0 | h0
      · rw [← h0, mul_zero]; exact norm_nonneg _
      · refine le_of_mul_le_mul_left ?_ h0
        linarith
    rw [div_mul_eq_mul_div, div_mul_eq_mul_div, le_div_iff₀ hμ]
    have h3 := progress_aux hC hK0.le hη0 hX0 hD0 hDle
    rw [mul_comm]
    exact le_trans h2 (le_trans h1 h3)

/-- By convexity, Armijo's condition at the unit step implies it at the shorter steps. -/
theorem armijo_shorter {S : Bfgs ℝ ι ℝ} {μ : ℝ} (hμ : 0 < μ) (hsc : StrongConvexWith S.fE S.gE μ) {c1 : ℝ} {x d : ι → ℝ}
    (h : S.f (x + d) ≤ S.f x + c1 * (S.grad x ⬝ᵥ d)) {t : ℝ} (h0 : 0 ≤ t) (h1 : t ≤ 1) :
    S.f (x + t • d) ≤ S.f x + c1 * t * (S.grad x ⬝ᵥ d) := by
  have hcx : ∀ u v : ι → ℝ, S.f u + S.grad u ⬝ᵥ (v - u) ≤ S.f v := fun u v => by
    have h3 := hsc (pt u) (pt v)
    have e1 : inner ℝ (S.gE (pt u)) (pt v - pt u) = S.grad u ⬝ᵥ (v - u) := inner_pt _ _
    have h4 : 0 ≤ μ / 2 * ‖pt v - pt u‖ ^ 2 := by positivity
    rw [e1] at h3
    have e2 : S.fE (pt u) = S.f u := rfl
    have e3 : S.fE (pt v) = S.f v := rfl
    rw [e2, e3] at h3
    linarith
  have a1 := hcx (x + t • d) x
  have a2 := hcx (x + t • d) (x + d)
  have e1 : x - (x + t • d) = (-t) • d := by rw [neg_smul]; abel
  have e2 : x + d - (x + t • d) = (1 - t) • d := by rw [sub_smul, one_smul]; abel
  rw [e1, dotProduct_smul, smul_eq_mul] at a1
  rw [e2, dotProduct_smul, smul_eq_mul] at a2
  have b1 := mul_le_mul_of_nonneg_left a1 (show 0 ≤ 1 - t by linarith)
  have b2 := mul_le_mul_of_nonneg_left a2 h0
  have b3 := mul_le_mul_of_nonneg_left h h0
  nlinarith

/-! ## The run -/

/-- Steps that are the first trials grow to one. -/
theorem steps_to_one {u i : ℕ → ℝ} {ρ : ℝ} (hρ : 1 < ρ) (hpos : ∀ k, 0 < u (k + 1)) (hi : ∀ k, 0 < u k → min 1 (ρ * u k) ≤ i k) {N : ℕ}
    (hu : ∀ k ≥ N, u (k + 1) = min 1 (i k)) : ∃ M, ∀ k ≥ M, u k = 1 := by
  have key : ∀ j, min 1 (ρ ^ j * u (N + 1)) ≤ u (N + 1 + j) := by
    intro j
    induction j with
    | zero => simp
    | succ j ih =>
      have h1 := hu (N + 1 + j) (by omega)
      have h2 := hi (N + 1 + j) (by rw [show N + 1 + j = N + j + 1 by omega]; exact hpos _)
      rw [show N + 1 + (j + 1) = N + 1 + j + 1 by omega, h1]
      refine le_min (min_le_left _ _) (le_trans ?_ h2)
      refine le_min (min_le_left _ _) ?_
      rcases min_le_iff.mp ih with h | h
      · exact le_trans (min_le_left _ _) (by nlinarith)
      · refine le_trans (min_le_right _ _) ?_
        rw [pow_succ']
        nlinarith
  obtain ⟨j, hj⟩ := pow_unbounded_of_one_lt (1 / u (N + 1)) hρ
  refine ⟨N + 1 + j, fun k hk => ?_⟩
  have h1 := key (k - (N + 1))
  rw [show N + 1 + (k - (N + 1)) = k by omega] at h1
  have h2 : (1 : ℝ) ≤ ρ ^ (k - (N + 1)) * u (N + 1) := by
    have h3 : ρ ^ j ≤ ρ ^ (k - (N + 1)) := pow_le_pow_right₀ hρ.le (by omega)
    have h4 := (div_lt_iff₀ (hpos N)).mp hj
    nlinarith [hpos N]
  rw [min_eq_left h2] at h1
  refine le_antisymm ?_ h1
  have := hu (k - 1) (by omega)
  rw [show k - 1 + 1 = k by omega] at this
  rw [this]
  exact min_le_left _ _

/-- **C121.**  BFGS with the Armijo backtracking line search, `c1 < 1/2`, `max_stepsize = 1` and first trial steps that grow to one
(`linesearch_init` "max" or "increase"), on a strongly convex function with Lipschitz continuous gradient, whose Hessian exists at the
minimiser and is Lipschitz continuous there.  If no search fails, then from some iteration on all steps are one, and the iterates converge
superlinearly: the distance to the minimiser is eventually divided by any given factor at every iteration. -/
theorem C121_superlinear (S : Bfgs ℝ ι ℝ) (ls : Backtracking ℝ (ι → ℝ)) (a : ℝ) (hu : S.UsesArmijo ls a) (μ L : ℝ) (hμ : 0 < μ)
    (hL : μ ≤ L) (hsm : LSmooth S.fE S.gE L) (hsc : StrongConvexWith S.fE S.gE μ) (hc0 : 0 < ls.c1) (hc1 : ls.c1 < 1 / 2)
    (hmax : ls.maxStepsize = 1) (ρ : ℝ) (hgrow : S.GrowsToOne ρ) (xs : ι → ℝ) (hxs : S.grad xs = 0)
    (G : Matrix ι ι ℝ) (hSG : SymPos G) (C R : ℝ) (hC : 0 ≤ C) (hR : 0 < R) (hG : S.HessNear xs G C R) (x0 : ι → ℝ)
    (hok : ∀ k, (S.step (S.iter x0 k).1 (S.iter x0 k).2 (direction (S.iter x0 k).2)).failed = false) :
    (∃ N, ∀ k ≥ N, (S.iter x0 k).2.stepsize = 1) ∧
    ∀ ε > 0, ∃ N, ∀ k ≥ N, ‖pt ((S.iter x0 (k + 1)).1 - xs)‖ ≤ ε * ‖pt ((S.iter x0 k).1 - xs)‖ := by
  have hL0 : 0 < L := lt_of_lt_of_le hμ hL
  have hsf := fun k => step_facts hu x0 k
  have hgr := fun k => (S.C74_bfgs_state (lsSound_of_uses hu) x0 k).2.1
  set x : ℕ → ι → ℝ := fun k => (S.iter x0 k).1 with hx
  set u : ℕ → ℝ := fun k => (S.iter x0 k).2.stepsize with hud
  set d : ℕ → ι → ℝ := fun k => direction (S.iter x0 k).2 with hd
  set H : ℕ → Matrix ι ι ℝ := fun k => (S.iter x0 k).2.H with hHd
  have hdH : ∀ k, d k = -(H k *ᵥ S.grad (x k)) := fun k => by
    simp only [hd, hHd, hx, direction, hgr]
  have hupos : ∀ k, 0 < u (k + 1) := fun k => (hsf k).1
  have hxk : ∀ k, x (k + 1) = x k + u (k + 1) • d k := fun k => (hsf k).2.2.1
  have hacc : ∀ k, S.f (x k + d k) ≤ S.f (x k) + ls.c1 * (S.grad (x k) ⬝ᵥ d k) → u (k + 1) = min 1 (S.initStep (u k)) := by
    intro k h
    have h4 := (hsf k).2.2.2
    rw [hmax] at h4
    refine h4 (armijo_shorter hμ hsc h (le_min zero_le_one ?_) (min_le_left _ _))
    exact (lt_of_lt_of_le hu.initPos (hu.init _)).le
  -- it suffices to accept unit steps and make progress along them
  have finish : (∀ ε > 0, ∃ N, ∀ k ≥ N, S.f (x k + d k) ≤ S.f (x k) + ls.c1 * (S.grad (x k) ⬝ᵥ d k) ∧
      ‖pt (x k + d k - xs)‖ ≤ ε * ‖pt (x k - xs)‖) → (∃ N, ∀ k ≥ N, u k = 1) ∧
      ∀ ε > 0, ∃ N, ∀ k ≥ N, ‖pt (x (k + 1) - xs)‖ ≤ ε * ‖pt (x k - xs)‖ := by
    intro h
    obtain ⟨N0, hN0⟩ := h 1 one_pos
    obtain ⟨M, hM⟩ := steps_to_one (i := fun k => S.initStep (u k)) hgrow.1 hupos (fun k hk => hgrow.2 _ hk)
      (fun k hk => hacc k (hN0 k hk).1)
    refine ⟨⟨M, hM⟩, fun ε hε => ?_⟩
    obtain ⟨N, hN⟩ := h ε hε
    refine ⟨max N M, fun k hk => ?_⟩
    rw [hxk, hM (k + 1) (by have := le_max_right N M; omega), one_smul]
    exact (hN k (le_trans (le_max_left _ _) hk)).2
  apply finish
  by_cases hz : ∃ k, S.grad (x k) = 0
  · -- a run that reaches the minimiser stays there
    obtain ⟨N, hN⟩ := hz
    have hstay : ∀ k ≥ N, S.grad (x k) = 0 := by
      intro k hk
      induction k, hk using Nat.le_induction with
      | base => exact hN
      | succ k hk ih => rw [hxk, hdH, ih, mulVec_zero, neg_zero, smul_zero, add_zero]; exact ih
    have hxeq : ∀ k ≥ N, x k = xs := by
      intro k hk
      have h3 := hsc.mono (pt xs) (pt (x k))
      have e1 : S.gE (pt xs) = 0 := by
        show pt (S.grad xs) = 0
        rw [hxs]; rfl
      have e2 : S.gE (pt (x k)) = 0 := by
        show pt (S.grad (x k)) = 0
        rw [hstay k hk]; rfl
      rw [e1, e2, sub_zero, inner_zero_right] at h3
      have h4 : ‖pt (x k) - pt xs‖ ^ 2 ≤ 0 := by nlinarith [sq_nonneg ‖pt (x k) - pt xs‖]
      have h5 : ‖pt (x k) - pt xs‖ = 0 := pow_eq_zero_iff two_ne_zero |>.mp (le_antisymm h4 (sq_nonneg _))
      exact congrArg (fun z => z.ofLp) (sub_eq_zero.mp (norm_eq_zero.mp h5))
    intro ε hε
    refine ⟨N, fun k hk => ?_⟩
    have hd0 : d k = 0 := by rw [hdH, hstay k hk, mulVec_zero, neg_zero]
    rw [hd0, add_zero, dotProduct_zero, mul_zero, add_zero, hxeq k hk, sub_self]
    refine ⟨le_refl _, ?_⟩
    rw [show pt (0 : ι → ℝ) = 0 from rfl, norm_zero, mul_zero]
  · have hne : ∀ k, S.grad (x k) ≠ 0 := fun k h => hz ⟨k, h⟩
    have hSP : ∀ k, SymPos (H k) := fun k =>
      (S.C89_bfgs_quality (fun s x v g d => (lsSound_of_uses hu s x v g d).2) μ L hμ hL hsm hsc x0 k (fun j _ => hne j)
        (fun j _ _ => ⟨u (j + 1), hupos j, hxk j⟩)).1 k (le_refl _)
    have hv := isVdot_dotProduct (K := ℝ) (ι := ι)
    have hdne : ∀ k, d k ≠ 0 := fun k h => by
      have h1 := (hSP k).2 _ (hne k)
      have h2 : H k *ᵥ S.grad (x k) = 0 := by
        have := hdH k
        rw [h] at this
        exact neg_eq_zero.mp this.symm
      rw [h2, dotProduct_zero] at h1
      exact lt_irrefl _ h1
    -- summable distances
    obtain ⟨r, K, hr0, hK0, hlin⟩ : ∃ r K : ℝ, 0 < r ∧ 0 ≤ K ∧ ∀ n : ℕ, ‖pt (x n - xs)‖ ^ 2 ≤ K * Real.exp (-r) ^ n := by
      have h := fun n => S.C89_bfgs_backtracking ls a hu μ L hμ hL hsm hsc hc0 (by linarith) x0 n (fun k _ => hne k) (fun k _ => hok k) xs hxs
      have hr := (h 0).1
      have h2 := fun n => (h n).2.2
      set r := bfgsStepRate μ L (ls.c1 * (ls.decreaseFactor * (2 * (1 - ls.c1) / L))) (ls.c1 * min ls.maxStepsize a) with hrd
      refine ⟨r, 2 / μ * (S.f x0 - S.f xs), hr, ?_, fun n => ?_⟩
      · have h3 := h2 0
        rw [← norm_pt] at h3
        have h4 : (0 : ℝ) ≤ 2 / μ * (Real.exp (-(r * (0 : ℕ))) * (S.f x0 - S.f xs)) := le_trans (sq_nonneg _) h3
        simpa using h4
      · rw [norm_pt, ← Real.exp_nat_mul]
        refine le_trans (h2 n) (le_of_eq ?_)
        rw [show -(r * (n : ℝ)) = n * -r by ring]
        ring
    have hexp1 : Real.exp (-r) < 1 := by rw [Real.exp_lt_one_iff]; linarith
    have hsumX : Summable fun n => ‖pt (x n - xs)‖ ^ 2 :=
      Summable.of_nonneg_of_le (fun n => sq_nonneg _) hlin ((summable_geometric_of_lt_one (Real.exp_pos _).le hexp1).mul_left K)
    have hX0 : Tendsto (fun n => ‖pt (x n - xs)‖) atTop (𝓝 0) := by
      have := hsumX.tendsto_atTop_zero.sqrt
      rw [Real.sqrt_zero] at this
      exact this.congr fun n => Real.sqrt_sq (norm_nonneg _)
    -- the pairs
    set s : ℕ → ι → ℝ := fun k => u (k + 1) • d k with hs
    set y : ℕ → ι → ℝ := fun k => S.grad (x (k + 1)) - S.grad (x k) with hy
    have hsx : ∀ k, x (k + 1) - x k = s k := fun k => by rw [hxk]; simp only [hs]; abel
    have hHs : ∀ k, H (k + 1) = newH (H k) (s k) (y k) := fun k => by
      have h1 := S.H_succ x0 k
      have e1 : (S.pair x0 k).1 = s k := hsx k
      have e2 : (S.pair x0 k).2 = y k := by simp only [pair, hy, hx, hgr]
      rw [e1, e2] at h1
      exact h1
    have hsne : ∀ k, s k ≠ 0 := fun k => smul_ne_zero (hupos k).ne' (hdne k)
    have hsn : ∀ k, 0 < ‖pt (s k)‖ := fun k => norm_pos_iff.mpr fun h => hsne k (congrArg (fun z => z.ofLp) h)
    set e : ℕ → ℝ := fun k => ‖pt (y k - G *ᵥ s k)‖ / ‖pt (s k)‖ with he
    have hesum : Summable fun k => e k ^ 2 := by
      have hR2 := hX0.eventually_le_const hR
      obtain ⟨N, hN⟩ := eventually_atTop.mp hR2
      have hmaj : Summable fun k => 2 * C ^ 2 * (‖pt (x (k + N + 1) - xs)‖ ^ 2 + ‖pt (x (k + N) - xs)‖ ^ 2) := by
        refine Summable.mul_left _ (Summable.add ?_ ?_)
        · have := (summable_nat_add_iff (f := fun n => ‖pt (x n - xs)‖ ^ 2) (N + 1)).mpr hsumX
          exact this.congr fun k => by rw [show k + (N + 1) = k + N + 1 by omega]
        · exact (summable_nat_add_iff (f := fun n => ‖pt (x n - xs)‖ ^ 2) N).mpr hsumX
      refine (summable_nat_add_iff N).mp (Summable.of_nonneg_of_le (fun k => sq_nonneg _) (fun k => ?_) hmaj)
      have h1 := hG (x (k + N + 1)) (x (k + N)) (hN _ (by omega)) (hN _ (by omega))
      rw [hsx] at h1
      have h2 : e (k + N) ≤ C * (‖pt (x (k + N + 1) - xs)‖ + ‖pt (x (k + N) - xs)‖) := by
        simp only [he]
        rw [div_le_iff₀ (hsn _)]
        exact h1
      have h3 : 0 ≤ e (k + N) := div_nonneg (norm_nonneg _) (norm_nonneg _)
      have h4 := pow_le_pow_left₀ h3 h2 2
      refine le_trans h4 ?_
      rw [mul_pow]
      nlinarith [sq_nonneg (‖pt (x (k + N + 1) - xs)‖ - ‖pt (x (k + N) - xs)‖), sq_nonneg C,
        mul_nonneg (sq_nonneg C) (sq_nonneg (‖pt (x (k + N + 1) - xs)‖ - ‖pt (x (k + N) - xs)‖))]
    have hDM := dennisMore G hSG H s y e hSP hHs hsne (fun k => div_nonneg (norm_nonneg _) (norm_nonneg _)) hesum
      (fun k => by simp only [he]; rw [div_mul_cancel₀ _ (hsn k).ne'])
    -- Newton's equation
    set η : ℕ → ℝ := fun k => ‖pt (S.grad (x k) + G *ᵥ d k)‖ / ‖pt (d k)‖ with hη
    have hdn : ∀ k, 0 < ‖pt (d k)‖ := fun k => norm_pos_iff.mpr fun h => hdne k (congrArg (fun z => z.ofLp) h)
    have hηt : Tendsto η atTop (𝓝 0) := by
      refine hDM.congr fun k => ?_
      have e1 : (H k)⁻¹ *ᵥ s k = -(u (k + 1) • S.grad (x k)) := by
        have hdet : IsUnit (H k).det := (hSP k).posDef.det_pos.ne'.isUnit
        simp only [hs]
        rw [hdH, mulVec_smul, mulVec_neg, mulVec_mulVec, nonsing_inv_mul _ hdet, one_mulVec, smul_neg]
      have e2 : (H k)⁻¹ *ᵥ s k - G *ᵥ s k = -(u (k + 1) • (S.grad (x k) + G *ᵥ d k)) := by
        rw [e1]
        simp only [hs]
        rw [mulVec_smul, smul_add]
        abel
      rw [e2]
      have e3 : pt (-(u (k + 1) • (S.grad (x k) + G *ᵥ d k))) = -(u (k + 1) • pt (S.grad (x k) + G *ᵥ d k)) := rfl
      have e4 : pt (s k) = u (k + 1) • pt (d k) := rfl
      rw [e3, e4, norm_neg, norm_smul, norm_smul, mul_div_mul_left _ _ (norm_ne_zero_iff.mpr (hupos k).ne')]
    obtain ⟨δ, A, hδ, hA, hunit⟩ := unit_step hμ hL0 hsm hsc hxs hSG hC hR hG hc1
    intro ε hε
    have hsumt : Tendsto (fun k => A * (η k + ‖pt (x k - xs)‖)) atTop (𝓝 0) := by
      have := (hηt.add hX0).const_mul A
      simpa using this
    obtain ⟨N, hN⟩ := eventually_atTop.mp
      ((hηt.eventually_le_const hδ).and ((hX0.eventually_le_const hδ).and (hsumt.eventually_le_const hε)))
    refine ⟨N, fun k hk => ?_⟩
    obtain ⟨n1, n2, n3⟩ := hN k hk
    obtain ⟨m1, m2⟩ := hunit (x k) (d k) (η k) n2 (div_nonneg (norm_nonneg _) (norm_nonneg _)) n1
      (by simp only [hη]; rw [div_mul_cancel₀ _ (hdn k).ne'])
    exact ⟨m1, le_trans m2 (mul_le_mul_of_nonneg_right n3 (norm_nonneg _))⟩

end Bfgs

end Jaxopt.QuasiNewton
