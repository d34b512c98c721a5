import Verif.QuasiNewton.ArmijoRateProps
import Verif.LineSearch.ZoomLiveProps

/-!
# Property C97: L-BFGS with its default line search, end to end

The solver of lbfgs.py with `linesearch="zoom"` (the default; linesearch_util.py lines 48-58 create the `ZoomLineSearch`) and with the
initial stepsizes of `_init_stepsize` (linesearch_util.py lines 81-103).
-/

set_option autoImplicit false
set_option linter.unusedSectionVars false
set_option linter.unusedVariables false

namespace Jaxopt.QuasiNewton

open Jaxopt.Base Jaxopt.LineSearch

/-! ## What a search returns -/

section Sound

variable {K E : Type*} [Field K] [LinearOrder K] [IsStrictOrderedRing K] [AddCommGroup E] [Module K E]

theorem zoom_raw_iter (ls : Zoom K E) (z : K × ZState K E) : (ls.rawUpdate z).2.iterNum = z.2.iterNum + 1 := by
  unfold Zoom.rawUpdate
  by_cases h : z.2.intervalFound = true
  · rw [if_pos h]; rfl
  · rw [if_neg h]; rfl

theorem zoom_update_iter (ls : Zoom K E) (z : K × ZState K E) : (ls.update z).2.iterNum = z.2.iterNum + 1 := by
  unfold Zoom.update
  by_cases h : (ls.rawUpdate z).2.failed = true
  · simp only [h, if_true]; exact zoom_raw_iter ls z
  · simp only [h]; exact zoom_raw_iter ls z

theorem zoom_raw_done (ls : Zoom K E) (z : K × ZState K E) (h : (ls.rawUpdate z).2.done = true) :
    (ls.rawUpdate z).2.value = ls.f (ls.rawUpdate z).2.params ∧ (ls.rawUpdate z).2.grad = ls.grad (ls.rawUpdate z).2.params := by
  unfold Zoom.rawUpdate at h ⊢
  by_cases hf : z.2.intervalFound = true
  · rw [if_pos hf] at h ⊢
    simp only [Zoom.zoomIntoInterval] at h ⊢
    simp only [h, if_true, and_self]
  · rw [if_neg hf] at h ⊢
    simp only [Zoom.searchInterval] at h ⊢
    simp only [h, if_true, and_self]

theorem zoom_raw_budget (ls : Zoom K E) (z : K × ZState K E) (h : (ls.rawUpdate z).2.done = false)
    (hb : ls.maxiter ≤ z.2.iterNum + 1) : (ls.rawUpdate z).2.failed = true := by
  unfold Zoom.rawUpdate at h ⊢
  by_cases hf : z.2.intervalFound = true
  · rw [if_pos hf] at h ⊢
    simp only [Zoom.zoomIntoInterval] at h ⊢
    simp [h, hb]
  · rw [if_neg hf] at h ⊢
    simp only [Zoom.searchInterval] at h ⊢
    simp only [h]
    simp [hb]

/-- Whatever the initial stepsize, the returned state carries the value and the gradient of the returned parameters. -/
theorem zoom_sound (ls : Zoom K E) (hm : 1 ≤ ls.maxiter) (init : K) (x : E) (value : Option (Ext K)) (grad dir : Option E) (s : K)
    (st : ZState K E) (hr : ls.run init x value grad dir = .ok (s, st)) : st.value = ls.f st.params ∧ st.grad = ls.grad st.params := by
  obtain ⟨k, hk1, hk2, hrk, _, hstop⟩ := runS_spec hm hr
  set z0 := (init, ls.initState x value grad dir) with hz0
  have hit : ∀ j, (ls.update^[j] z0).2.iterNum = j := by
    intro j
    induction j with
    | zero => rfl
    | succ j ih => rw [Function.iterate_succ_apply', zoom_update_iter, ih]
  obtain ⟨j, rfl⟩ := Nat.exists_eq_succ_of_ne_zero (by omega : k ≠ 0)
  rw [Nat.succ_eq_add_one, Function.iterate_succ_apply'] at hrk hstop
  set z := ls.update^[j] z0 with hz
  have hst : st = (ls.update z).2 := congrArg Prod.snd hrk
  rw [hst]
  cases hf : (ls.rawUpdate z).2.failed
  · have e : ls.update z = ls.rawUpdate z := by simp [Zoom.update, hf]
    have hd : (ls.rawUpdate z).2.done = true := by
      cases hd : (ls.rawUpdate z).2.done
      · rcases hstop with h | h
        · rw [zoom_raw_budget ls z hd (by rw [hit j]; omega)] at hf; cases hf
        · rw [e] at h
          simp [hd, hf] at h
      · rfl
    rw [e]
    exact zoom_raw_done ls z hd
  · have e : ls.update z = ls.makeSafeStep (ls.rawUpdate z) := by simp [Zoom.update, hf]
    rw [e]
    exact ⟨rfl, rfl⟩

/-- `runLs` runs the zoom line search `ls` with the value and the gradient of the state, and keeps the step, the parameters, the value,
the gradient and the failure flag that it returns (lbfgs.py lines 333-358). -/
def RunsZoom (ls : Zoom K E) (runLs : K → E → K → E → E → LsOut K E K) : Prop :=
  ∀ s x v g d, ∃ st, ls.run s x (some (.fin v)) (some g) (some d) = .ok ((runLs s x v g d).stepsize, st) ∧
    st.params = (runLs s x v g d).params ∧ st.value = .fin (runLs s x v g d).value ∧ st.grad = (runLs s x v g d).grad ∧
    st.failed = (runLs s x v g d).failed

/-- A line search function that runs `ls`. -/
def zoomLs (ls : Zoom K E) (s : K) (x : E) (v : K) (g d : E) : LsOut K E K :=
  match ls.run s x (some (.fin v)) (some g) (some d) with
  | .ok (s', st) => ⟨s', st.params, (match st.value with | .fin w => w | _ => v), st.grad, st.failed⟩
  | .error _ => ⟨s, x, v, g, true⟩

/-- The function that runs `ls` is one. -/
theorem runsZoom_zoomLs {ls : Zoom K E} {F : E → K} (hF : ∀ x, ls.f x = .fin (F x)) (hm : 1 ≤ ls.maxiter)
    (hb : ls.unroll = true ∨ ls.jit = true) : RunsZoom ls (zoomLs ls) := by
  intro s x v g d
  obtain ⟨⟨s', st⟩, hr⟩ := runS_ok (fun _ => ls.initState x (some (.fin v)) (some g) (some d)) ls.update
    (fun x => !(x.2.done || x.2.failed)) s hm hb
  have hr' : ls.run s x (some (.fin v)) (some g) (some d) = .ok (s', st) := hr
  have hv : st.value = .fin (F st.params) := by rw [(zoom_sound ls hm s x _ _ _ s' st hr').1, hF]
  have e : zoomLs ls s x v g d = ⟨s', st.params, F st.params, st.grad, st.failed⟩ := by
    unfold zoomLs
    rw [hr']
    simp only [hv]
  rw [e]
  exact ⟨st, hr', rfl, hv, rfl, rfl⟩

end Sound

/-! ## L-BFGS -/

namespace Lbfgs

variable {V : Type*} [NormedAddCommGroup V] [InnerProductSpace ℝ V] [CompleteSpace V]

/-- L-BFGS with a zoom line search at every iteration, and the initial stepsizes of `_init_stepsize` with the given strategy: lbfgs.py
lines 210-240 and 333-358. -/
structure UsesZoom (S : Lbfgs ℝ V ℝ) (ls : Zoom ℝ V) (r : ℝ) (strategy : String) (minStep inc : ℝ) : Prop where
  runs : RunsZoom ls S.runLs
  live : LiveOK ls r
  real : OnReal ls S.f S.grad
  tol : ls.tol = 0
  svdot : S.vdot = fun u v => inner ℝ u v
  search : ∃ a, S.stepsize = .const a ∧ a ≤ 0
  maxStep : S.maxStepsize = ls.maxStepsize
  init : ∀ s, initStepsize strategy S.maxStepsize minStep inc s = .ok (S.initStep s)
  incr : 1 ≤ inc

/-- The smallest step of a successful search on a `μ`-strongly convex `L`-smooth function. -/
noncomputable def _root_.Jaxopt.QuasiNewton.zoomStep (μ L c2 M : ℝ) (m : ℕ) : ℝ :=
  min M ((1 - c2) * lbfgsLower L m / (L * lbfgsUpper μ L m ^ 2))

/-- The contraction per iteration on quadratics is `1 - zoomRate`. -/
noncomputable def _root_.Jaxopt.QuasiNewton.zoomRate (μ L c1 c2 M : ℝ) (m : ℕ) : ℝ :=
  2 * μ * c1 * zoomStep μ L c2 M m * lbfgsLower L m

/-- The budget of the line searches: `Ns` increases lead from the smallest step to `max_stepsize`, `Nz` reductions to an interval in which
all steps satisfy the conditions, and the solver allows for their sum. -/
structure _root_.Jaxopt.QuasiNewton.ZoomBudget (ls : Zoom ℝ V) (r inc μ L : ℝ) (m Ns Nz : ℕ) : Prop where
  grow : ls.maxStepsize ≤ zoomStep μ L ls.c2 ls.maxStepsize m * ls.increaseFactor ^ Ns
  shrink : L * lbfgsUpper μ L m ^ 2 * ((1 - r) ^ Nz * (inc * ls.maxStepsize * ls.increaseFactor ^ Ns)) ≤ (ls.c2 - ls.c1) * lbfgsLower L m
  threshold : L * lbfgsUpper μ L m ^ 2 * ls.intervalThreshold ≤ (ls.c2 - ls.c1) * lbfgsLower L m
  iters : Ns + Nz + 1 < ls.maxiter

theorem lsSound_of_zoom {S : Lbfgs ℝ V ℝ} {ls : Zoom ℝ V} {r : ℝ} {strategy : String} {minStep inc : ℝ}
    (hu : S.UsesZoom ls r strategy minStep inc) (hm : 1 ≤ ls.maxiter) : S.LsSound := by
  intro s x v g d
  obtain ⟨st, hr, h1, h2, h3, h4⟩ := hu.runs s x v g d
  obtain ⟨e1, e2⟩ := zoom_sound ls hm s x _ _ _ _ st hr
  rw [h2, h1, hu.real.f] at e1
  rw [h3, h1, hu.real.grad] at e2
  exact ⟨Ext.fin.inj e1, e2⟩

theorem gradSound_of_zoom {S : Lbfgs ℝ V ℝ} {ls : Zoom ℝ V} {r : ℝ} {strategy : String} {minStep inc : ℝ}
    (hu : S.UsesZoom ls r strategy minStep inc) (hm : 1 ≤ ls.maxiter) : S.GradSound :=
  fun s x v g d => (lsSound_of_zoom hu hm s x v g d).2

theorem zoomStep_pos {μ L c2 M : ℝ} (hμ : 0 < μ) (hL : μ ≤ L) (hc2 : c2 < 1) (hM : 0 < M) (m : ℕ) : 0 < zoomStep μ L c2 M m := by
  have hL0 : 0 < L := lt_of_lt_of_le hμ hL
  have hh := lbfgsLower_pos hL0 m
  have hC := lbfgsUpper_pos hμ hL m
  have : 0 < 1 - c2 := by linarith
  exact lt_min hM (by positivity)

/-- One iteration at a point that is not stationary. -/
theorem zoom_iteration {S : Lbfgs ℝ V ℝ} {ls : Zoom ℝ V} {r : ℝ} {strategy : String} {minStep inc : ℝ}
    (hu : S.UsesZoom ls r strategy minStep inc) {μ L : ℝ} (hμ : 0 < μ) (hL : μ ≤ L) (hsm : LSmooth S.f S.grad L)
    (hsc : StrongConvexWith S.f S.grad μ) {Ns Nz : ℕ} (hB : ZoomBudget ls r inc μ L S.historySize Ns Nz) (x0 : V) (k : ℕ)
    (hg : S.grad (S.iter x0 k).1 ≠ 0)
    (hk : zoomStep μ L ls.c2 ls.maxStepsize S.historySize ≤ (S.iter x0 k).2.stepsize) (hk' : (S.iter x0 k).2.stepsize ≤ ls.maxStepsize) :
    let x := (S.iter x0 k).1
    let d := S.direction (S.iter x0 k).2
    let s := (S.iter x0 (k + 1)).2.stepsize
    (S.iter x0 (k + 1)).2.failedLinesearch = false ∧
    zoomStep μ L ls.c2 ls.maxStepsize S.historySize ≤ s ∧ s ≤ ls.maxStepsize ∧
    (S.iter x0 (k + 1)).1 = x + s • d ∧
    inner ℝ (S.grad x) d ≤ -(lbfgsLower L S.historySize * ‖S.grad x‖ ^ 2) ∧
    (S.f (x + s • d) ≤ S.f x + ls.c1 * s * inner ℝ (S.grad x) d ∨
      (inner ℝ (S.grad (x + s • d)) d ≤ (2 * ls.c1 - 1) * inner ℝ (S.grad x) d ∧ S.f (x + s • d) ≤ S.f x + ls.c3 * |S.f x|)) := by
  intro x d s
  have hL0 : 0 < L := lt_of_lt_of_le hμ hL
  have hm1 : 1 ≤ ls.maxiter := by have := hB.iters; omega
  have hgs := gradSound_of_zoom hu hm1
  have hgr := S.grad_iter hgs x0
  have hval := fun k => (S.C74_lbfgs_state (lsSound_of_zoom hu hm1) x0 k).1
  set m := S.historySize with hmd
  have hh := lbfgsLower_pos hL0 m
  have hC := lbfgsUpper_pos hμ hL m
  have hM := hu.live.max
  have hc2 := hu.live.c2
  have hc12 := hu.live.c12
  have hIF : 1 < ls.increaseFactor := hu.live.inc
  set σ := zoomStep μ L ls.c2 ls.maxStepsize m with hσd
  have hσ : 0 < σ := zoomStep_pos hμ hL hc2 hM m
  have hσM : σ ≤ ls.maxStepsize := min_le_left _ _
  obtain ⟨d1, d2⟩ := S.C83_direction (fun u v => by rw [hu.svdot]) hgs μ L hμ hL hsm hsc x0 k
  rw [← hmd] at d1 d2
  change inner ℝ (S.grad x) d ≤ _ at d1
  change ‖d‖ ≤ lbfgsUpper μ L m * ‖S.grad x‖ at d2
  have hgn : 0 < ‖S.grad x‖ := norm_pos_iff.mpr hg
  have hneg : inner ℝ (S.grad x) d < 0 := by
    have : 0 < lbfgsLower L m * ‖S.grad x‖ ^ 2 := by positivity
    linarith
  have hdn : 0 < ‖d‖ := by
    rw [norm_pos_iff]
    intro h0
    rw [h0, inner_zero_right] at hneg
    exact lt_irrefl _ hneg
  -- the initial stepsize
  have hinit : σ ≤ S.initStep (S.iter x0 k).2.stepsize ∧ S.initStep (S.iter x0 k).2.stepsize ≤ inc * ls.maxStepsize := by
    have h1 := hu.init (S.iter x0 k).2.stepsize
    have h2 := hu.incr
    unfold initStepsize at h1
    rw [hu.maxStep] at h1
    by_cases c1 : strategy = "max"
    · rw [if_pos c1] at h1; rw [← Except.ok.inj h1]; exact ⟨hσM, by nlinarith⟩
    · rw [if_neg c1] at h1
      by_cases c2 : strategy = "current"
      · rw [if_pos c2] at h1; rw [← Except.ok.inj h1]; exact ⟨hk, by nlinarith⟩
      · rw [if_neg c2] at h1
        by_cases c3 : strategy = "increase"
        · rw [if_pos c3] at h1
          rw [← Except.ok.inj h1]
          by_cases c4 : (S.iter x0 k).2.stepsize ≤ minStep
          · rw [if_pos c4]; exact ⟨hσM, by nlinarith⟩
          · rw [if_neg c4]
            exact ⟨by nlinarith, by nlinarith⟩
        · rw [if_neg c3] at h1; cases h1
  obtain ⟨hi1, hi2⟩ := hinit
  obtain ⟨a, ha, ha0⟩ := hu.search
  have hstep : S.step x (S.iter x0 k).2 d = S.runLs (S.initStep (S.iter x0 k).2.stepsize) x (S.f x) (S.grad x) d := by
    unfold step
    rw [ha]
    simp only [if_pos ha0, hval, hgr]
    rfl
  have hsucc : (S.iter x0 (k + 1)).1 = (S.step x (S.iter x0 k).2 d).params ∧
      s = (S.step x (S.iter x0 k).2 d).stepsize ∧
      (S.iter x0 (k + 1)).2.failedLinesearch = (S.step x (S.iter x0 k).2 d).failed := by
    show _ ∧ (S.iter x0 (k + 1)).2.stepsize = _ ∧ _
    rw [iter_succ]
    exact ⟨rfl, rfl, rfl⟩
  obtain ⟨st, hr, e1, e2, e3, e4⟩ := hu.runs (S.initStep (S.iter x0 k).2.stepsize) x (S.f x) (S.grad x) d
  rw [← hstep] at hr e1 e4
  rw [← hsucc.2.1] at hr
  rw [← hsucc.1] at e1
  rw [← hsucc.2.2] at e4
  -- the search succeeds
  have key : ∀ t : ℝ, 0 ≤ t → L * lbfgsUpper μ L m ^ 2 * t ≤ (ls.c2 - ls.c1) * lbfgsLower L m →
      L * ‖d‖ ^ 2 * t ≤ (ls.c2 - ls.c1) * |inner ℝ (S.grad x) d| := by
    intro t ht hle
    have h1 : ‖d‖ ^ 2 ≤ (lbfgsUpper μ L m * ‖S.grad x‖) ^ 2 := pow_le_pow_left₀ hdn.le d2 2
    rw [abs_of_neg hneg]
    calc L * ‖d‖ ^ 2 * t ≤ L * (lbfgsUpper μ L m * ‖S.grad x‖) ^ 2 * t := by gcongr
      _ = L * lbfgsUpper μ L m ^ 2 * t * ‖S.grad x‖ ^ 2 := by ring
      _ ≤ (ls.c2 - ls.c1) * lbfgsLower L m * ‖S.grad x‖ ^ 2 := mul_le_mul_of_nonneg_right hle (by positivity)
      _ = (ls.c2 - ls.c1) * (lbfgsLower L m * ‖S.grad x‖ ^ 2) := by ring
      _ ≤ _ := mul_le_mul_of_nonneg_left (by linarith) (by linarith)
  have hcx : ∀ x y, S.f x + inner ℝ (S.grad x) (y - x) ≤ S.f y := fun x y => by
    have := hsc x y
    have h2 : 0 ≤ μ / 2 * ‖y - x‖ ^ 2 := by positivity
    linarith
  have h1r : 0 ≤ 1 - r := by have := hu.live.half; linarith
  have hIFp : 0 ≤ ls.increaseFactor ^ Ns := pow_nonneg (by linarith) _
  have hS := C84_succeeds ls r hu.live S.f S.grad hu.real L hsm (Or.inl hcx) x d hneg (S.initStep (S.iter x0 k).2.stepsize)
    (lt_of_lt_of_le hσ hi1) Ns Nz (le_trans hB.grow (mul_le_mul_of_nonneg_right hi1 hIFp))
    (by
      refine key _ (by have := lt_of_lt_of_le hσ hi1; positivity) (le_trans ?_ hB.shrink)
      gcongr)
    (by
      by_cases ht : 0 ≤ ls.intervalThreshold
      · exact key _ ht hB.threshold
      · rw [not_le] at ht
        have h1 : L * ‖d‖ ^ 2 * ls.intervalThreshold ≤ 0 := mul_nonpos_of_nonneg_of_nonpos (by positivity) ht.le
        have h2 : 0 ≤ (ls.c2 - ls.c1) * |inner ℝ (S.grad x) d| := mul_nonneg (by linarith) (abs_nonneg _)
        linarith)
    hB.iters _ _ (Or.inr rfl) (Or.inr rfl) s st hr
  have hdec := hS.decrease
  have hcur := hS.curvature
  rw [hu.tol] at hdec hcur
  simp only [add_zero] at hdec hcur
  refine ⟨by rw [← e4]; exact hS.failed, ?_, hS.pos.2, by rw [← e1]; exact hS.params, d1, hdec⟩
  rcases hcur with h | ⟨h, _⟩
  · refine le_trans (min_le_right _ _) ?_
    rw [div_le_iff₀ (by positivity)]
    have h1 := hsm.lip (x + s • d) x
    rw [add_sub_cancel_left, norm_smul, Real.norm_eq_abs, abs_of_nonneg hS.pos.1] at h1
    have h2 : inner ℝ (S.grad (x + s • d) - S.grad x) d ≤ L * (s * ‖d‖) * ‖d‖ :=
      le_trans (le_trans (le_abs_self _) (abs_real_inner_le_norm _ _)) (mul_le_mul_of_nonneg_right h1 (norm_nonneg d))
    rw [inner_sub_left] at h2
    rw [abs_of_neg hneg] at h
    have h3 := (abs_le.mp h).1
    have h4 : (1 - ls.c2) * -inner ℝ (S.grad x) d ≤ L * s * ‖d‖ ^ 2 := by nlinarith
    have h5 : (1 - ls.c2) * (lbfgsLower L m * ‖S.grad x‖ ^ 2) ≤ (1 - ls.c2) * -inner ℝ (S.grad x) d :=
      mul_le_mul_of_nonneg_left (by linarith) (by linarith)
    have h6 : ‖d‖ ^ 2 ≤ (lbfgsUpper μ L m * ‖S.grad x‖) ^ 2 := pow_le_pow_left₀ hdn.le d2 2
    have hs0 := hS.pos.1
    have h7 : L * s * ‖d‖ ^ 2 ≤ L * s * (lbfgsUpper μ L m * ‖S.grad x‖) ^ 2 := mul_le_mul_of_nonneg_left h6 (by positivity)
    have h8 : ((1 - ls.c2) * lbfgsLower L m) * ‖S.grad x‖ ^ 2 ≤ (s * (L * lbfgsUpper μ L m ^ 2)) * ‖S.grad x‖ ^ 2 := by nlinarith
    exact le_of_mul_le_mul_right h8 (by positivity)
  · rw [h]; exact hσM

/-- **C97** (no line search fails).  On a `μ`-strongly convex `L`-smooth function, `LBFGS` with the zoom line search, for any of the three
`linesearch_init` strategies, any history size, with or without `use_gamma`: if `maxls` allows for the budget, then, as long as the
gradient does not vanish, no line search fails, all steps are between `zoomStep` and `max_stepsize`, and every step either satisfies
Armijo's condition or increases the value by at most `c3` times its size. -/
theorem C97_no_failure (S : Lbfgs ℝ V ℝ) (ls : Zoom ℝ V) (r : ℝ) (strategy : String) (minStep inc : ℝ)
    (hu : S.UsesZoom ls r strategy minStep inc) (μ L : ℝ) (hμ : 0 < μ) (hL : μ ≤ L) (hsm : LSmooth S.f S.grad L)
    (hsc : StrongConvexWith S.f S.grad μ) (Ns Nz : ℕ) (hB : ZoomBudget ls r inc μ L S.historySize Ns Nz) (x0 : V) (n : ℕ)
    (hne : ∀ k < n, S.grad (S.iter x0 k).1 ≠ 0) :
    0 < zoomStep μ L ls.c2 ls.maxStepsize S.historySize ∧
    (S.iter x0 n).2.failedLinesearch = false ∧
    zoomStep μ L ls.c2 ls.maxStepsize S.historySize ≤ (S.iter x0 n).2.stepsize ∧ (S.iter x0 n).2.stepsize ≤ ls.maxStepsize ∧
    (∀ k < n, S.f (S.iter x0 (k + 1)).1 ≤
        S.f (S.iter x0 k).1 - ls.c1 * zoomStep μ L ls.c2 ls.maxStepsize S.historySize * (lbfgsLower L S.historySize *
          ‖S.grad (S.iter x0 k).1‖ ^ 2) ∨
      S.f (S.iter x0 (k + 1)).1 ≤ S.f (S.iter x0 k).1 + ls.c3 * |S.f (S.iter x0 k).1|) := by
  have hσ : 0 < zoomStep μ L ls.c2 ls.maxStepsize S.historySize := zoomStep_pos hμ hL hu.live.c2 hu.live.max S.historySize
  have hL0 : 0 < L := lt_of_lt_of_le hμ hL
  have hh := lbfgsLower_pos hL0 S.historySize
  have hsteps : ∀ k ≤ n, zoomStep μ L ls.c2 ls.maxStepsize S.historySize ≤ (S.iter x0 k).2.stepsize ∧
      (S.iter x0 k).2.stepsize ≤ ls.maxStepsize := by
    intro k
    induction k with
    | zero =>
      intro _
      show _ ≤ S.maxStepsize ∧ S.maxStepsize ≤ _
      rw [hu.maxStep]
      exact ⟨min_le_left _ _, le_refl _⟩
    | succ k ih =>
      intro hk
      obtain ⟨i1, i2⟩ := ih (by omega)
      obtain ⟨_, j1, j2, _⟩ := zoom_iteration hu hμ hL hsm hsc hB x0 k (hne k (by omega)) i1 i2
      exact ⟨j1, j2⟩
  refine ⟨hσ, ?_, (hsteps n (le_refl _)).1, (hsteps n (le_refl _)).2, fun k hk => ?_⟩
  · cases n with
    | zero => rfl
    | succ n =>
      obtain ⟨i1, i2⟩ := hsteps n (by omega)
      exact (zoom_iteration hu hμ hL hsm hsc hB x0 n (hne n (by omega)) i1 i2).1
  · obtain ⟨i1, i2⟩ := hsteps k (by omega)
    obtain ⟨_, j1, j2, j3, j4, j5⟩ := zoom_iteration hu hμ hL hsm hsc hB x0 k (hne k hk) i1 i2
    rw [j3]
    rcases j5 with h | ⟨_, h⟩
    · left
      have hc1 := hu.live.c1
      set s := (S.iter x0 (k + 1)).2.stepsize
      set q := lbfgsLower L S.historySize * ‖S.grad (S.iter x0 k).1‖ ^ 2
      have hq : 0 ≤ q := by positivity
      have h1 : ls.c1 * zoomStep μ L ls.c2 ls.maxStepsize S.historySize * q ≤ ls.c1 * s * q :=
        mul_le_mul_of_nonneg_right (mul_le_mul_of_nonneg_left j1 hc1) hq
      have h2 : ls.c1 * s * inner ℝ (S.grad (S.iter x0 k).1) (S.direction (S.iter x0 k).2) ≤ ls.c1 * s * -q :=
        mul_le_mul_of_nonneg_left j4 (mul_nonneg hc1 (le_trans hσ.le j1))
      linarith
    · exact Or.inr h

/-- Quadratic functions: the trapezoidal rule is exact. -/
def _root_.Jaxopt.QuasiNewton.Quadratic (f : V → ℝ) (g : V → V) : Prop :=
  ∀ x y, f y - f x = (inner ℝ (g x) (y - x) + inner ℝ (g y) (y - x)) / 2

/-- `½ ⟨x, A x⟩ + ⟨b, x⟩ + c` with `A` symmetric is one. -/
theorem _root_.Jaxopt.QuasiNewton.quadratic_of_symm (A : V →ₗ[ℝ] V) (hA : ∀ u v, inner ℝ (A u) v = inner ℝ u (A v)) (b : V) (c : ℝ) :
    Quadratic (fun x => inner ℝ x (A x) / 2 + inner ℝ b x + c) (fun x => A x + b) := by
  intro x y
  simp only [inner_add_left, inner_sub_right]
  have h1 := hA x y
  have h2 := hA x x
  have h3 := hA y y
  have h4 := hA y x
  rw [real_inner_comm] at h1
  rw [h2, h3, ← real_inner_comm (A x) y, h4]
  ring

/-- **C97, quadratics.**  On a strongly convex quadratic the excess over the value at any point contracts by the factor `1 - zoomRate < 1`
per iteration. -/
theorem C97_quadratic_linear (S : Lbfgs ℝ V ℝ) (ls : Zoom ℝ V) (r : ℝ) (strategy : String) (minStep inc : ℝ)
    (hu : S.UsesZoom ls r strategy minStep inc) (μ L : ℝ) (hμ : 0 < μ) (hL : μ ≤ L) (hsm : LSmooth S.f S.grad L)
    (hsc : StrongConvexWith S.f S.grad μ) (hquad : Quadratic S.f S.grad) (hc1 : 0 < ls.c1) (Ns Nz : ℕ)
    (hB : ZoomBudget ls r inc μ L S.historySize Ns Nz) (x0 : V) (n : ℕ) (hne : ∀ k < n, S.grad (S.iter x0 k).1 ≠ 0) :
    0 < zoomRate μ L ls.c1 ls.c2 ls.maxStepsize S.historySize ∧ zoomRate μ L ls.c1 ls.c2 ls.maxStepsize S.historySize ≤ 1 ∧
    (∀ y, S.f (S.iter x0 n).1 - S.f y ≤
      (1 - zoomRate μ L ls.c1 ls.c2 ls.maxStepsize S.historySize) ^ n * (S.f x0 - S.f y)) ∧
    (∀ xs, S.grad xs = 0 → ‖(S.iter x0 n).1 - xs‖ ^ 2 ≤
      2 / μ * ((1 - zoomRate μ L ls.c1 ls.c2 ls.maxStepsize S.historySize) ^ n * (S.f x0 - S.f xs))) := by
  have hL0 : 0 < L := lt_of_lt_of_le hμ hL
  set m := S.historySize with hmd
  have hh := lbfgsLower_pos hL0 m
  have hC := lbfgsUpper_pos hμ hL m
  set σ := zoomStep μ L ls.c2 ls.maxStepsize m with hσd
  have hσ : 0 < σ := zoomStep_pos hμ hL hu.live.c2 hu.live.max m
  have hδe : zoomRate μ L ls.c1 ls.c2 ls.maxStepsize m = 2 * μ * (ls.c1 * σ * lbfgsLower L m) := by
    simp only [zoomRate]; rw [← hσd]; ring
  have hδ0 : 0 < zoomRate μ L ls.c1 ls.c2 ls.maxStepsize m := by rw [hδe]; positivity
  have hδ1 : zoomRate μ L ls.c1 ls.c2 ls.maxStepsize m ≤ 1 := by
    have hC1 : 1 ≤ lbfgsUpper μ L m := le_trans (le_max_left 1 (1 / μ) : (1 : ℝ) ≤ lbfgsUpper μ L 0) (lbfgsUpper_mono hμ hL (Nat.zero_le m))
    have hh1 : lbfgsLower L m ≤ 1 := by
      refine le_trans (lbfgsLower_anti hL0 (Nat.zero_le m)) ?_
      simp only [lbfgsLower, Nat.cast_zero, zero_mul, add_zero]
      rw [div_le_one (lt_of_lt_of_le one_pos (le_max_left _ _))]
      exact le_max_left _ _
    have hc2 := hu.live.c2
    have hc12 := hu.live.c12
    have hch := hu.live.c1'
    have hσ1 : σ ≤ 1 / L := by
      refine le_trans (min_le_right _ _) ?_
      rw [div_le_div_iff₀ (by positivity) hL0, one_mul]
      have h1 : (1 - ls.c2) * lbfgsLower L m ≤ 1 := by nlinarith
      have h2 : 1 ≤ lbfgsUpper μ L m ^ 2 := by nlinarith
      nlinarith
    rw [hδe]
    have h1 : μ * σ ≤ 1 := by
      have := mul_le_mul_of_nonneg_left hσ1 hμ.le
      have h2 : μ * (1 / L) ≤ 1 := by rw [mul_one_div, div_le_one hL0]; exact hL
      linarith
    have h2 : ls.c1 * lbfgsLower L m ≤ 1 / 2 := by nlinarith
    have h3 : 0 ≤ μ * σ := by positivity
    have h4 : 0 ≤ ls.c1 * lbfgsLower L m := by positivity
    nlinarith
  set δ := zoomRate μ L ls.c1 ls.c2 ls.maxStepsize m with hδd
  have hsteps := fun k (hk : k ≤ n) =>
    S.C97_no_failure ls r strategy minStep inc hu μ L hμ hL hsm hsc Ns Nz hB x0 k (fun j hj => hne j (by omega))
  have one : ∀ k < n, ls.c1 * σ * lbfgsLower L m * ‖S.grad (S.iter x0 k).1‖ ^ 2 ≤ S.f (S.iter x0 k).1 - S.f (S.iter x0 (k + 1)).1 := by
    intro k hk
    obtain ⟨_, _, i1, i2, _⟩ := hsteps k hk.le
    obtain ⟨_, j1, j2, j3, j4, j5⟩ := zoom_iteration hu hμ hL hsm hsc hB x0 k (hne k hk) i1 i2
    rw [← hmd] at j1 j4
    rw [← hσd] at j1
    set x := (S.iter x0 k).1
    set d := S.direction (S.iter x0 k).2
    set s := (S.iter x0 (k + 1)).2.stepsize
    have hs : 0 ≤ s := le_trans hσ.le j1
    have harm : S.f (x + s • d) ≤ S.f x + ls.c1 * s * inner ℝ (S.grad x) d := by
      rcases j5 with h | ⟨h, _⟩
      · exact h
      · have h1 := hquad x (x + s • d)
        rw [add_sub_cancel_left, inner_smul_right, inner_smul_right] at h1
        have h2 := mul_le_mul_of_nonneg_left h hs
        nlinarith
    rw [j3]
    have hq : 0 ≤ lbfgsLower L m * ‖S.grad x‖ ^ 2 := by positivity
    have h1 : ls.c1 * σ * (lbfgsLower L m * ‖S.grad x‖ ^ 2) ≤ ls.c1 * s * (lbfgsLower L m * ‖S.grad x‖ ^ 2) :=
      mul_le_mul_of_nonneg_right (mul_le_mul_of_nonneg_left j1 hc1.le) hq
    have h2 : ls.c1 * s * inner ℝ (S.grad x) d ≤ ls.c1 * s * -(lbfgsLower L m * ‖S.grad x‖ ^ 2) :=
      mul_le_mul_of_nonneg_left j4 (mul_nonneg hc1.le hs)
    linarith
  have main : ∀ y, S.f (S.iter x0 n).1 - S.f y ≤ (1 - δ) ^ n * (S.f x0 - S.f y) := by
    intro y
    have : ∀ k ≤ n, S.f (S.iter x0 k).1 - S.f y ≤ (1 - δ) ^ k * (S.f x0 - S.f y) := by
      intro k
      induction k with
      | zero => intro _; simp [iter]
      | succ k ih =>
        intro hk
        have h1 := one k (by omega)
        have h2 := hsc.grad_bound hμ (S.iter x0 k).1 y
        have h3 := mul_le_mul_of_nonneg_left h2 (show 0 ≤ ls.c1 * σ * lbfgsLower L m by positivity)
        have h4 := mul_le_mul_of_nonneg_left (ih (by omega)) (show 0 ≤ 1 - δ by linarith)
        rw [pow_succ']
        rw [hδe] at h4 ⊢
        nlinarith
    exact this n (le_refl _)
  refine ⟨hδ0, hδ1, main, ?_⟩
  intro xs hxs
  have h1 := hsc xs (S.iter x0 n).1
  rw [hxs, inner_zero_left, add_zero] at h1
  have h2 := main xs
  rw [div_mul_eq_mul_div, le_div_iff₀ hμ]
  linarith

/-- **C97, a run on a quadratic.**  If `maxiter` is large enough for `2 L (1 - zoomRate) ^ maxiter` times the initial excess to be below
`tol²`, then `run` returns parameters whose gradient norm is at most `tol`, with that error in the state and no failed line search. -/
theorem C97_quadratic_run (S : Lbfgs ℝ V ℝ) (ls : Zoom ℝ V) (r : ℝ) (strategy : String) (minStep inc : ℝ)
    (hu : S.UsesZoom ls r strategy minStep inc) (μ L : ℝ) (hμ : 0 < μ) (hL : μ ≤ L) (hsm : LSmooth S.f S.grad L)
    (hsc : StrongConvexWith S.f S.grad μ) (hquad : Quadratic S.f S.grad) (hc1 : 0 < ls.c1) (Ns Nz : ℕ)
    (hB : ZoomBudget ls r inc μ L S.historySize Ns Nz)
    (hnorm : ∀ v, S.norm v = ‖v‖) (htol : 0 ≤ S.tol) (hm : 1 ≤ S.maxiter) (x0 xs : V) (hxs : S.grad xs = 0)
    (hmax : 2 * L * ((1 - zoomRate μ L ls.c1 ls.c2 ls.maxStepsize S.historySize) ^ S.maxiter * (S.f x0 - S.f xs)) ≤ S.tol ^ 2)
    {q : V × LbfgsState ℝ V ℝ} (hr : S.run x0 = .ok q) :
    ‖S.grad q.1‖ ≤ S.tol ∧ q.2.error = .fin ‖S.grad q.1‖ ∧ q.2.value = S.f q.1 ∧ q.2.grad = S.grad q.1 ∧
      (S.grad x0 ≠ 0 → q.2.failedLinesearch = false) := by
  have hL0 : 0 < L := lt_of_lt_of_le hμ hL
  have hm1 : 1 ≤ ls.maxiter := by have := hB.iters; omega
  have hls := lsSound_of_zoom hu hm1
  obtain ⟨k, hk1, hk2, hrk, hcont, hstop⟩ := runS_spec hm hr
  have hrk' : q = S.iter x0 k := hrk
  have hcont' : ∀ j, 1 ≤ j → j < k → S.grad (S.iter x0 j).1 ≠ 0 := by
    intro j hj hjk h0
    have h1 : S.cont (S.iter x0 j) = true := hcont j hj hjk
    have he := (S.C74_lbfgs_state hls x0 j).2.2.2 hj
    unfold cont at h1
    rw [he, hnorm, h0, norm_zero] at h1
    simp only [Bool.and_eq_true] at h1
    have := gt_fin.mp h1.1
    linarith
  obtain ⟨s1, s2, _, s4⟩ := S.C74_lbfgs_state hls x0 k
  rw [hrk']
  refine ⟨?_, by rw [s4 hk1, hnorm], s1, s2, fun h0 => ?_⟩
  · by_cases h0 : S.grad x0 = 0
    · -- the first iteration stays
      have hd : S.direction (S.iter x0 0).2 = 0 := by
        have := (S.C83_direction (fun u v => by rw [hu.svdot]) (gradSound_of_zoom hu hm1) μ L hμ hL hsm hsc x0 0).2
        have e : S.grad (S.iter x0 0).1 = 0 := h0
        rw [e, norm_zero, mul_zero] at this
        exact norm_le_zero_iff.mp this
      have hx1 : S.grad (S.iter x0 1).1 = 0 := by
        obtain ⟨a, ha, ha0⟩ := hu.search
        have hst : S.step x0 (S.initState x0) 0 = S.runLs (S.initStep S.maxStepsize) x0 (S.f x0) (S.grad x0) 0 := by
          unfold step
          rw [ha]
          simp only [if_pos ha0]
          rfl
        have e1 : (S.iter x0 1).1 = (S.step x0 (S.initState x0) (S.direction (S.initState x0))).params := rfl
        have hd' : S.direction (S.initState x0) = 0 := hd
        rw [e1, hd', hst]
        obtain ⟨st, hr, f1, _, _, _⟩ := hu.runs (S.initStep S.maxStepsize) x0 (S.f x0) (S.grad x0) 0
        have hpos : 0 < S.initStep S.maxStepsize := by
          have hM := hu.live.max
          have h1 := hu.init S.maxStepsize
          have h2 := hu.incr
          unfold initStepsize at h1
          rw [hu.maxStep] at h1 ⊢
          by_cases c1 : strategy = "max"
          · rw [if_pos c1] at h1; rw [← Except.ok.inj h1]; exact hM
          · rw [if_neg c1] at h1
            by_cases c2 : strategy = "current"
            · rw [if_pos c2] at h1; rw [← Except.ok.inj h1]; exact hM
            · rw [if_neg c2] at h1
              by_cases c3 : strategy = "increase"
              · rw [if_pos c3] at h1
                rw [← Except.ok.inj h1]
                by_cases c4 : ls.maxStepsize ≤ minStep
                · rw [if_pos c4]; exact hM
                · rw [if_neg c4]; positivity
              · rw [if_neg c3] at h1; cases h1
        have hC := C20_zoom_partial ls hu.live.zoomOK hm1 _ hpos x0 (S.grad x0) (S.f x0) 0 _ _ (some 0) (Or.inl ⟨rfl, rfl⟩)
          (by simp [hu.real.vdot]) _ st hr
        obtain ⟨_, _, q3, _⟩ := hC
        rw [← f1, q3]
        simp [h0]
      have hk : k = 1 := by
        by_contra hne
        exact hcont' 1 (le_refl _) (by omega) hx1
      rw [hk, hx1, norm_zero]
      exact htol
    · have hne : ∀ j < k, S.grad (S.iter x0 j).1 ≠ 0 := by
        intro j hj
        rcases Nat.eq_zero_or_pos j with h | h
        · rw [h]; exact h0
        · exact hcont' j h hj
      rcases hstop with h | h
      · have h1 := (S.C97_quadratic_linear ls r strategy minStep inc hu μ L hμ hL hsm hsc hquad hc1 Ns Nz hB x0 k hne).2.2.1 xs
        have hmin : ∀ y, S.f xs ≤ S.f y := fun y => by
          have := hsc.grad_bound hμ xs y
          rw [hxs, norm_zero] at this
          nlinarith
        have h2 := grad_sq_le hL0 hsm hmin (S.iter x0 k).1
        rw [h] at h1 h2 ⊢
        have h3 := mul_le_mul_of_nonneg_left h1 (show 0 ≤ 2 * L by positivity)
        exact le_of_sq_le_sq (le_trans h2 (le_trans h3 hmax)) htol
      · have h1 : S.cont (S.iter x0 k) = false := h
        have hf := (S.C97_no_failure ls r strategy minStep inc hu μ L hμ hL hsm hsc Ns Nz hB x0 k hne).2.1
        unfold cont at h1
        rw [s4 hk1, hf, hnorm] at h1
        simp only [Bool.not_false, Bool.or_true, Bool.and_true] at h1
        by_contra hcon
        rw [gt_fin.mpr (not_le.mp hcon)] at h1
        cases h1
  · refine (S.C97_no_failure ls r strategy minStep inc hu μ L hμ hL hsm hsc Ns Nz hB x0 k fun j hj => ?_).2.1
    rcases Nat.eq_zero_or_pos j with h | h
    · rw [h]; exact h0
    · exact hcont' j h hj

/-! ### The default configuration -/

/-- The zoom line search with its default constants (zoom_linesearch.py lines 233-243), bisecting. -/
noncomputable def _root_.Jaxopt.QuasiNewton.stdZoom (f : V → ℝ) (g : V → V) (maxStep : ℝ) (maxls : ℕ) : Zoom ℝ V where
  f := fun x => .fin (f x)
  grad := g
  vdot := fun u v => .fin (inner ℝ u v)
  c1 := 1 / 10000
  c2 := 9 / 10
  c3 := 1 / 1000000
  relTolCubic := 1 / 5
  relTolQuad := 1 / 10
  intervalThreshold := 1 / 1000000
  increaseFactor := 2
  tol := 0
  maxiter := maxls
  maxStepsize := maxStep
  cubicmin := fun _ _ _ _ _ _ _ => .nan
  quadmin := fun _ _ _ _ _ => .nan
  unroll := false
  jit := true

/-- L-BFGS with this line search and its default options (lbfgs.py lines 210-240) except `max_stepsize`, `history_size` and `maxls`. -/
noncomputable def _root_.Jaxopt.QuasiNewton.stdLbfgs (f : V → ℝ) (g : V → V) (m : ℕ) (maxStep : ℝ) (maxls : ℕ) : Lbfgs ℝ V ℝ where
  f := f
  grad := g
  vdot := fun u v => inner ℝ u v
  norm := fun v => ‖v‖
  historySize := m
  useGamma := true
  stepsize := .const 0
  maxStepsize := maxStep
  initStep := fun s => if s ≤ 1 / 1000000 then maxStep else s * (3 / 2)
  stopIfLinesearchFails := false
  tol := 1 / 1000
  maxiter := 500
  unroll := false
  jit := true
  runLs := zoomLs (stdZoom f g maxStep maxls)

theorem std_uses (f : V → ℝ) (g : V → V) (m : ℕ) {maxStep : ℝ} (hM : 0 < maxStep) {maxls : ℕ} (hm : 1 ≤ maxls) :
    (stdLbfgs f g m maxStep maxls).UsesZoom (stdZoom f g maxStep maxls) (1 / 10) "increase" (1 / 1000000) (3 / 2) := by
  have hr : OnReal (stdZoom f g maxStep maxls) f g := ⟨fun _ => rfl, fun _ => rfl, fun _ _ => rfl⟩
  refine ⟨runsZoom_zoomLs hr.f hm (Or.inr rfl), ?_, hr, rfl, rfl, ⟨0, rfl, le_refl _⟩, rfl, fun s => ?_, by norm_num⟩
  · constructor <;> first | exact hM | (simp only [stdZoom]; norm_num) | norm_num
  · simp [initStepsize, stdLbfgs]

/-- The hypotheses of `C97_no_failure`, `C97_quadratic_linear` and `C97_quadratic_run` hold for `x² / 2` on the reals with one memory slot
and `maxls=120`. -/
example : let S := stdLbfgs (fun x : ℝ => x ^ 2 / 2) (fun x => x) 1 1 120
    let ls := stdZoom (fun x : ℝ => x ^ 2 / 2) (fun x => x) 1 120
    S.UsesZoom ls (1 / 10) "increase" (1 / 1000000) (3 / 2) ∧ LSmooth S.f S.grad 1 ∧ StrongConvexWith S.f S.grad 1 ∧
      Quadratic S.f S.grad ∧ 0 < ls.c1 ∧ ZoomBudget ls (1 / 10) (3 / 2) 1 1 S.historySize 9 102 := by
  intro S ls
  have hin : ∀ a b : ℝ, inner ℝ a b = a * b := fun a b => by simp [mul_comm]
  refine ⟨std_uses _ _ 1 one_pos (by norm_num), ⟨fun x => ?_, fun x y => ?_⟩, fun x y => ?_, fun x y => ?_, ?_, ?_⟩
  · have h1 : HasDerivAt (fun x : ℝ => x ^ 2 / 2) x x := by
      have := (hasDerivAt_pow 2 x).div_const 2
      simpa using this
    exact h1.hasGradientAt'
  · show ‖x - y‖ ≤ 1 * ‖x - y‖
    rw [one_mul]
  · show x ^ 2 / 2 + inner ℝ x (y - x) + 1 / 2 * ‖y - x‖ ^ 2 ≤ y ^ 2 / 2
    rw [hin, Real.norm_eq_abs, sq_abs]
    nlinarith
  · show y ^ 2 / 2 - x ^ 2 / 2 = (inner ℝ x (y - x) + inner ℝ y (y - x)) / 2
    rw [hin, hin]
    ring
  · show (0 : ℝ) < 1 / 10000
    norm_num
  · have e1 : lbfgsUpper 1 1 1 = 5 := by unfold lbfgsUpper; norm_num
    have e2 : lbfgsLower 1 1 = 1 / 2 := by unfold lbfgsLower; norm_num
    have e3 : zoomStep 1 1 (9 / 10) 1 1 = 1 / 500 := by unfold zoomStep; rw [e1, e2]; norm_num
    constructor
    · show (1 : ℝ) ≤ zoomStep 1 1 (9 / 10) 1 1 * 2 ^ 9
      rw [e3]; norm_num
    · show 1 * lbfgsUpper 1 1 1 ^ 2 * ((1 - 1 / 10) ^ 102 * (3 / 2 * 1 * 2 ^ 9)) ≤ (9 / 10 - 1 / 10000) * lbfgsLower 1 1
      rw [e1, e2]; norm_num
    · show 1 * lbfgsUpper 1 1 1 ^ 2 * (1 / 1000000) ≤ (9 / 10 - 1 / 10000) * lbfgsLower 1 1
      rw [e1, e2]; norm_num
    · show 9 + 102 + 1 < 120
      norm_num

end Lbfgs

end Jaxopt.QuasiNewton
