import Verif.QuasiNewton.BfgsRateProps
import Verif.QuasiNewton.RunProps
import Verif.LineSearch.BacktrackingProps

/-!
# Property C89: L-BFGS and BFGS with the Armijo backtracking line search, end to end

The solvers of lbfgs.py and bfgs.py are run with `linesearch=BacktrackingLineSearch(condition="armijo", ...)` (linesearch_util.py lines
69-70 pass such an object through), and with the initial stepsizes of `_init_stepsize` (linesearch_util.py lines 81-103).
-/

set_option autoImplicit false
set_option linter.unusedSectionVars false
set_option linter.unusedVariables false

namespace Jaxopt.QuasiNewton

open Matrix Jaxopt.Base Jaxopt.LineSearch

/-! ## One line search -/

section Bt

variable {E : Type*} [AddCommGroup E] [Module ℝ E]

/-- `runLs` runs the backtracking line search `ls` with the value and the gradient of the state, and keeps the step, the parameters, the
value, the gradient and the failure flag that it returns (lbfgs.py lines 333-358, bfgs.py lines 202-226). -/
def RunsBt (ls : Backtracking ℝ E) (runLs : ℝ → E → ℝ → E → E → LsOut ℝ E ℝ) : Prop :=
  ∀ s x v g d, ∃ st, ls.run s x (some (.fin v)) (some g) (some d) = .ok ((runLs s x v g d).stepsize, st) ∧
    st.params = (runLs s x v g d).params ∧ st.value = .fin (runLs s x v g d).value ∧ st.grad = (runLs s x v g d).grad ∧
    st.failed = (runLs s x v g d).failed

/-- A line search function that runs `ls`. -/
noncomputable def btLs (ls : Backtracking ℝ E) (s : ℝ) (x : E) (v : ℝ) (g d : E) : LsOut ℝ E ℝ :=
  match ls.run s x (some (.fin v)) (some g) (some d) with
  | .ok (s', st) => ⟨s', st.params, (match st.value with | .fin w => w | _ => v), st.grad, st.failed⟩
  | .error _ => ⟨s, x, v, g, true⟩

/-- The attributes of the line search: Armijo's condition with constants in the range of the theory, no tolerance. -/
structure ArmijoLs (ls : Backtracking ℝ E) (F : E → ℝ) : Prop where
  value : ls.f = fun x => .fin (F x)
  armijo : ls.condition = .armijo
  tol : ls.tol = 0
  maxStep : 0 < ls.maxStepsize
  decPos : 0 < ls.decreaseFactor
  decLe : ls.decreaseFactor ≤ 1
  iters : 1 ≤ ls.maxiter

/-- One search from a point, its value and its gradient, along a direction that satisfies Armijo's condition for all steps up to
`bound`. -/
theorem bt_step {ls : Backtracking ℝ E} {F : E → ℝ} (h : ArmijoLs ls F) {bound init : ℝ} (hinit : 0 < init)
    (x d : E) (hacc : ∀ s, 0 ≤ s → s ≤ bound → F (x + s • d) ≤ F x + ls.c1 * s * ls.vdot (ls.grad x) d) {stepsize : ℝ} {st : BState ℝ E}
    (hrun : ls.run init x (some (.fin (F x))) (some (ls.grad x)) (some d) = .ok (stepsize, st)) :
    0 < stepsize ∧ stepsize ≤ ls.maxStepsize ∧ min (min ls.maxStepsize init) (ls.decreaseFactor * bound) ≤ stepsize ∧
      st.params = x + stepsize • d ∧ st.value = .fin (F st.params) ∧ st.grad = ls.grad st.params ∧
      (st.failed = false → F st.params ≤ F x + ls.c1 * stepsize * ls.vdot (ls.grad x) d) ∧
      (min ls.maxStepsize init * ls.decreaseFactor ^ (ls.maxiter - 1) ≤ bound → st.failed = false) := by
  obtain ⟨k, hk, e1, e2, e3, e4, e5, e6, e7, e8⟩ := C18_backtracking ls h.tol.ge h.maxStep.le h.decPos h.decLe h.iters init (F x) x
    (ls.grad x) _ _ (some d) (Or.inl ⟨rfl, rfl⟩) stepsize st hrun
  rw [Option.getD_some] at e2 e3 e6 e8
  have hA : ∀ s, AcceptAt ls x d (ls.grad x) (F x) s ↔ F (x + s • d) ≤ F x + ls.c1 * s * ls.vdot (ls.grad x) d := by
    intro s
    simp only [AcceptAt, Accept, h.armijo, h.value, Ext.AtMost, and_true, h.tol, add_zero]
  have hp : 0 < min ls.maxStepsize init := lt_min h.maxStep hinit
  have hpos : ∀ j, 0 < min ls.maxStepsize init * ls.decreaseFactor ^ j := fun j => mul_pos hp (pow_pos h.decPos j)
  refine ⟨by rw [e1]; exact hpos k, ?_, ?_, e3, by rw [e4, h.value], e5, ?_, ?_⟩
  · rw [e1]
    have h1 : ls.decreaseFactor ^ k ≤ 1 := pow_le_one₀ h.decPos.le h.decLe
    have h2 : min ls.maxStepsize init ≤ ls.maxStepsize := min_le_left _ _
    nlinarith
  · rcases Nat.eq_zero_or_pos k with h0 | h0
    · rw [e1, h0, pow_zero, mul_one]; exact min_le_left _ _
    · have hr : bound < min ls.maxStepsize init * ls.decreaseFactor ^ (k - 1) := by
        by_contra hcon
        exact e2 (k - 1) (by omega) ((hA _).mpr (hacc _ (hpos _).le (not_lt.mp hcon)))
      refine le_trans (min_le_right _ _) ?_
      have : stepsize = ls.decreaseFactor * (min ls.maxStepsize init * ls.decreaseFactor ^ (k - 1)) := by
        rw [e1]
        have : ls.decreaseFactor ^ k = ls.decreaseFactor ^ (k - 1) * ls.decreaseFactor := by
          rw [← pow_succ, Nat.sub_add_cancel h0]
        rw [this]; ring
      rw [this]
      exact mul_le_mul_of_nonneg_left hr.le h.decPos.le
  · intro hf
    have hd : st.done = true := by
      cases hdd : st.done
      · rw [e7.mpr hdd] at hf; cases hf
      · rfl
    have := (hA _).mp (e6.mp hd)
    rw [e3]
    exact this
  · intro hlast
    rw [← Bool.not_eq_true]
    intro hf
    exact (e8.mp hf) (ls.maxiter - 1) (by have := h.iters; omega) ((hA _).mpr (hacc _ (hpos _).le hlast))

/-- The function that runs `ls` is one. -/
theorem runsBt_btLs {ls : Backtracking ℝ E} {F : E → ℝ} (h : ArmijoLs ls F) (hb : ls.unroll = true ∨ ls.jit = true) :
    RunsBt ls (btLs ls) := by
  intro s x v g d
  obtain ⟨⟨s', st⟩, hr⟩ := runS_ok (fun _ => ls.initState x (some (.fin v)) (some g)) (ls.update x (some d))
    (fun x => Ext.gt x.2.error (.fin ls.tol)) s h.iters hb
  have hr' : ls.run s x (some (.fin v)) (some g) (some d) = .ok (s', st) := hr
  obtain ⟨k, hk, e1, e2, e3, e4, e5, e6, e7, e8⟩ := C18_backtracking ls h.tol.ge h.maxStep.le h.decPos h.decLe h.iters s v x
    g _ _ (some d) (Or.inl ⟨rfl, rfl⟩) s' st hr'
  have hv : st.value = .fin (F st.params) := by rw [e4, h.value]
  have e : btLs ls s x v g d = ⟨s', st.params, F st.params, st.grad, st.failed⟩ := by
    unfold btLs
    rw [hr']
    simp only [hv]
  rw [e]
  exact ⟨st, hr', rfl, hv, rfl, rfl⟩

end Bt

/-! ## Smooth functions -/

section Smooth

variable {V : Type*} [NormedAddCommGroup V] [InnerProductSpace ℝ V] [CompleteSpace V]

/-- For an `L`-smooth function, the squared gradient norm is at most `2 L` times the excess over a lower bound. -/
theorem grad_sq_le {f : V → ℝ} {g : V → V} {L : ℝ} (hL : 0 < L) (hsm : LSmooth f g L) {fs : ℝ} (hs : ∀ y, fs ≤ f y) (x : V) :
    ‖g x‖ ^ 2 ≤ 2 * L * (f x - fs) := by
  have h1 := hsm.descent x (x - (1 / L) • g x)
  have h2 := hs (x - (1 / L) • g x)
  have e : x - (1 / L) • g x - x = (-(1 / L)) • g x := by rw [neg_smul]; abel
  rw [e, inner_smul_right, real_inner_self_eq_norm_sq, norm_smul, mul_pow, Real.norm_eq_abs, sq_abs] at h1
  have e2 : L / 2 * ((-(1 / L)) ^ 2 * ‖g x‖ ^ 2) = ‖g x‖ ^ 2 / (2 * L) := by field_simp
  have e3 : -(1 / L) * ‖g x‖ ^ 2 = -(2 * (‖g x‖ ^ 2 / (2 * L))) := by field_simp
  rw [e2, e3] at h1
  have h3 : ‖g x‖ ^ 2 / (2 * L) ≤ f x - fs := by linarith
  rw [div_le_iff₀ (by positivity)] at h3
  linarith

end Smooth

/-! ## L-BFGS -/

namespace Lbfgs

variable {V : Type*} [NormedAddCommGroup V] [InnerProductSpace ℝ V] [CompleteSpace V]

/-- `L-BFGS` with a line search of `ls` at every iteration, and the initial stepsizes of `_init_stepsize` with the given strategy:
lbfgs.py lines 210-240 and 333-358. -/
structure UsesArmijo (S : Lbfgs ℝ V ℝ) (ls : Backtracking ℝ V) (strategy : String) (minStep inc : ℝ) : Prop where
  runs : RunsBt ls S.runLs
  attrs : ArmijoLs ls S.f
  grad : ls.grad = S.grad
  vdot : ls.vdot = fun u v => inner ℝ u v
  svdot : S.vdot = fun u v => inner ℝ u v
  search : ∃ a, S.stepsize = .const a ∧ a ≤ 0
  maxStep : S.maxStepsize = ls.maxStepsize
  init : ∀ s, initStepsize strategy S.maxStepsize minStep inc s = .ok (S.initStep s)
  incr : 1 ≤ inc

/-- The steps that satisfy Armijo's condition along the directions of L-BFGS on a `μ`-strongly convex `L`-smooth function. -/
noncomputable def _root_.Jaxopt.QuasiNewton.lbfgsBound (μ L c1 : ℝ) (m : ℕ) : ℝ :=
  2 * (1 - c1) * lbfgsLower L m / (L * lbfgsUpper μ L m ^ 2)

/-- The contraction per iteration is `1 - lbfgsBtRate`. -/
noncomputable def _root_.Jaxopt.QuasiNewton.lbfgsBtRate (μ L c1 df M : ℝ) (m : ℕ) : ℝ :=
  2 * μ * c1 * min M (df * lbfgsBound μ L c1 m) * lbfgsLower L m

theorem _root_.Jaxopt.QuasiNewton.lbfgsBtRate_le_one {μ L c1 df : ℝ} (hμ : 0 < μ) (hL : μ ≤ L) (hc0 : 0 < c1) (hc1 : c1 < 1) (hd0 : 0 < df)
    (hd1 : df ≤ 1) (M : ℝ) (m : ℕ) : lbfgsBtRate μ L c1 df M m ≤ 1 := by
  have hL0 : 0 < L := lt_of_lt_of_le hμ hL
  have hh := lbfgsLower_pos hL0 m
  have hC1 : 1 ≤ lbfgsUpper μ L m := le_trans (le_max_left 1 (1 / μ) : (1 : ℝ) ≤ lbfgsUpper μ L 0) (lbfgsUpper_mono hμ hL (Nat.zero_le m))
  have hh1 : lbfgsLower L m ≤ 1 := by
    refine le_trans (lbfgsLower_anti hL0 (Nat.zero_le m)) ?_
    simp only [lbfgsLower, Nat.cast_zero, zero_mul, add_zero]
    rw [div_le_one (lt_of_lt_of_le one_pos (le_max_left _ _))]
    exact le_max_left _ _
  set h := lbfgsLower L m with hhd
  set C := lbfgsUpper μ L m with hCd
  have hb : lbfgsBound μ L c1 m ≤ 2 * (1 - c1) / L := by
    rw [lbfgsBound, ← hhd, ← hCd, div_le_div_iff₀ (by positivity) hL0]
    have : h ≤ C ^ 2 := by nlinarith
    have h2 : 0 < 1 - c1 := by linarith
    have h3 := mul_le_mul_of_nonneg_left this (show 0 ≤ 2 * (1 - c1) * L by positivity)
    linarith
  have hb0 : 0 ≤ lbfgsBound μ L c1 m := by
    rw [lbfgsBound, ← hhd, ← hCd]
    have h2 : 0 < 1 - c1 := by linarith
    positivity
  have h1 : min M (df * lbfgsBound μ L c1 m) ≤ 2 * (1 - c1) / L := by
    refine le_trans (min_le_right _ _) ?_
    nlinarith
  have h2 : 2 * μ * c1 * min M (df * lbfgsBound μ L c1 m) ≤ 2 * μ * c1 * (2 * (1 - c1) / L) := mul_le_mul_of_nonneg_left h1 (by positivity)
  have h3 : 2 * μ * c1 * (2 * (1 - c1) / L) ≤ 1 := by
    have e : 2 * μ * c1 * (2 * (1 - c1) / L) = (4 * (c1 * (1 - c1)) * μ) / L := by ring
    rw [e, div_le_one hL0]
    have : 4 * (c1 * (1 - c1)) ≤ 1 := by nlinarith [sq_nonneg (2 * c1 - 1)]
    nlinarith
  unfold lbfgsBtRate
  rw [← hhd]
  nlinarith

theorem gradSound_of_uses {S : Lbfgs ℝ V ℝ} {ls : Backtracking ℝ V} {strategy : String} {minStep inc : ℝ}
    (hu : S.UsesArmijo ls strategy minStep inc) : S.GradSound := by
  intro s x v g d
  obtain ⟨st, hr, h1, h2, h3, h4⟩ := hu.runs s x v g d
  obtain ⟨k, hk, e1, e2, e3, e4, e5, _⟩ := C18_backtracking ls hu.attrs.tol.ge hu.attrs.maxStep.le hu.attrs.decPos hu.attrs.decLe
    hu.attrs.iters s v x g _ _ (some d) (Or.inl ⟨rfl, rfl⟩) _ st hr
  rw [← h3, ← h1, e5, hu.grad]

theorem lsSound_of_uses {S : Lbfgs ℝ V ℝ} {ls : Backtracking ℝ V} {strategy : String} {minStep inc : ℝ}
    (hu : S.UsesArmijo ls strategy minStep inc) : S.LsSound := by
  intro s x v g d
  obtain ⟨st, hr, h1, h2, h3, h4⟩ := hu.runs s x v g d
  obtain ⟨k, hk, e1, e2, e3, e4, e5, _⟩ := C18_backtracking ls hu.attrs.tol.ge hu.attrs.maxStep.le hu.attrs.decPos hu.attrs.decLe
    hu.attrs.iters s v x g _ _ (some d) (Or.inl ⟨rfl, rfl⟩) _ st hr
  refine ⟨?_, by rw [← h3, ← h1, e5, hu.grad]⟩
  rw [h2, hu.attrs.value, h1] at e4
  exact Ext.fin.inj e4

/-- **C89, L-BFGS.**  On a `μ`-strongly convex `L`-smooth function, `LBFGS` with the Armijo backtracking line search, for any of the three
`linesearch_init` strategies, any history size, with or without `use_gamma`: if `maxls` is large enough for `max_stepsize` to be reduced
below a bound that depends only on `μ`, `L`, `c1` and the history size, then no line search ever fails, all steps are in
`[min (max_stepsize, decrease_factor · bound), max_stepsize]`, and the excess over the value at any point contracts by the factor
`1 - lbfgsBtRate < 1` per iteration. -/
theorem C89_lbfgs_linear (S : Lbfgs ℝ V ℝ) (ls : Backtracking ℝ V) (strategy : String) (minStep inc : ℝ)
    (hu : S.UsesArmijo ls strategy minStep inc) (μ L : ℝ) (hμ : 0 < μ) (hL : μ ≤ L) (hsm : LSmooth S.f S.grad L)
    (hsc : StrongConvexWith S.f S.grad μ) (hc0 : 0 < ls.c1) (hc1 : ls.c1 < 1)
    (hls : ls.maxStepsize * ls.decreaseFactor ^ (ls.maxiter - 1) ≤ lbfgsBound μ L ls.c1 S.historySize) (x0 : V) (n : ℕ) :
    (S.iter x0 n).2.failedLinesearch = false ∧
    min ls.maxStepsize (ls.decreaseFactor * lbfgsBound μ L ls.c1 S.historySize) ≤ (S.iter x0 n).2.stepsize ∧
    (S.iter x0 n).2.stepsize ≤ ls.maxStepsize ∧
    0 < lbfgsBtRate μ L ls.c1 ls.decreaseFactor ls.maxStepsize S.historySize ∧
    lbfgsBtRate μ L ls.c1 ls.decreaseFactor ls.maxStepsize S.historySize ≤ 1 ∧
    (∀ y, S.f (S.iter x0 n).1 - S.f y ≤
      (1 - lbfgsBtRate μ L ls.c1 ls.decreaseFactor ls.maxStepsize S.historySize) ^ n * (S.f x0 - S.f y)) ∧
    (∀ xs, S.grad xs = 0 → ‖(S.iter x0 n).1 - xs‖ ^ 2 ≤
      2 / μ * ((1 - lbfgsBtRate μ L ls.c1 ls.decreaseFactor ls.maxStepsize S.historySize) ^ n * (S.f x0 - S.f xs))) := by
  have hL0 : 0 < L := lt_of_lt_of_le hμ hL
  set m := S.historySize with hmd
  have hh := lbfgsLower_pos hL0 m
  have hC := lbfgsUpper_pos hμ hL m
  have hM := hu.attrs.maxStep
  have hdf := hu.attrs.decPos
  set β := lbfgsBound μ L ls.c1 m with hβd
  have hβ : 0 < β := by
    rw [hβd, lbfgsBound]
    have : 0 < 1 - ls.c1 := by linarith
    positivity
  set σ := min ls.maxStepsize (ls.decreaseFactor * β) with hσd
  have hσ : 0 < σ := lt_min hM (by positivity)
  have hδe : lbfgsBtRate μ L ls.c1 ls.decreaseFactor ls.maxStepsize m = 2 * μ * (ls.c1 * σ * lbfgsLower L m) := by
    simp only [lbfgsBtRate]; rw [← hβd, ← hσd]; ring
  set δ := lbfgsBtRate μ L ls.c1 ls.decreaseFactor ls.maxStepsize m with hδd
  have hδ0 : 0 < δ := by rw [hδe]; positivity
  have hδ1 : δ ≤ 1 := lbfgsBtRate_le_one hμ hL hc0 hc1 hdf hu.attrs.decLe _ m
  have hgs := gradSound_of_uses hu
  have hgr := S.grad_iter hgs x0
  have hval := fun k => (S.C74_lbfgs_state (lsSound_of_uses hu) x0 k).1
  -- the initial stepsize of a search
  have hinit : ∀ s, σ ≤ s → σ ≤ S.initStep s := by
    intro s hs
    have h1 := hu.init s
    unfold initStepsize at h1
    have hσM : σ ≤ S.maxStepsize := by rw [hu.maxStep]; exact min_le_left _ _
    by_cases c1 : strategy = "max"
    · rw [if_pos c1] at h1; rw [← Except.ok.inj h1]; exact hσM
    · rw [if_neg c1] at h1
      by_cases c2 : strategy = "current"
      · rw [if_pos c2] at h1; rw [← Except.ok.inj h1]; exact hs
      · rw [if_neg c2] at h1
        by_cases c3 : strategy = "increase"
        · rw [if_pos c3] at h1
          rw [← Except.ok.inj h1]
          by_cases c4 : s ≤ minStep
          · rw [if_pos c4]; exact hσM
          · rw [if_neg c4]
            have := hu.incr
            nlinarith
        · rw [if_neg c3] at h1; cases h1
  -- one iteration
  have one : ∀ k, σ ≤ (S.iter x0 k).2.stepsize → (S.iter x0 (k + 1)).2.failedLinesearch = false ∧ σ ≤ (S.iter x0 (k + 1)).2.stepsize ∧
      (S.iter x0 (k + 1)).2.stepsize ≤ ls.maxStepsize ∧
      ls.c1 * σ * lbfgsLower L m * ‖S.grad (S.iter x0 k).1‖ ^ 2 ≤ S.f (S.iter x0 k).1 - S.f (S.iter x0 (k + 1)).1 := by
    intro k hk
    obtain ⟨d1, d2⟩ := S.C83_direction (fun u v => by rw [hu.svdot]) hgs μ L hμ hL hsm hsc x0 k
    rw [← hmd] at d1 d2
    set x := (S.iter x0 k).1 with hx
    set d := S.direction (S.iter x0 k).2 with hd
    obtain ⟨a, ha, ha0⟩ := hu.search
    have hstep : S.step x (S.iter x0 k).2 d =
        S.runLs (S.initStep (S.iter x0 k).2.stepsize) x (S.f x) (S.grad x) d := by
      unfold step
      rw [ha]
      simp only [if_pos ha0, hval, hgr]
      rw [← hx]
    have hsucc : (S.iter x0 (k + 1)).1 = (S.step x (S.iter x0 k).2 d).params ∧
        (S.iter x0 (k + 1)).2.stepsize = (S.step x (S.iter x0 k).2 d).stepsize ∧
        (S.iter x0 (k + 1)).2.failedLinesearch = (S.step x (S.iter x0 k).2 d).failed := by
      rw [iter_succ]
      exact ⟨rfl, rfl, rfl⟩
    obtain ⟨st, hr, e1, e2, e3, e4⟩ := hu.runs (S.initStep (S.iter x0 k).2.stepsize) x (S.f x) (S.grad x) d
    have hi := hinit _ hk
    have hacc : ∀ s, 0 ≤ s → s ≤ β → S.f (x + s • d) ≤ S.f x + ls.c1 * s * ls.vdot (ls.grad x) d := by
      intro s hs0 hs
      rw [hu.vdot, hu.grad]
      by_cases hg0 : S.grad x = 0
      · have hd0 : d = 0 := by
          rw [hg0, norm_zero, mul_zero] at d2
          exact norm_le_zero_iff.mp d2
        simp only [hd0, smul_zero, add_zero, inner_zero_right, mul_zero, le_refl]
      · have hgn : 0 < ‖S.grad x‖ := norm_pos_iff.mpr hg0
        have hneg : inner ℝ (S.grad x) d < 0 := by
          have : 0 < lbfgsLower L m * ‖S.grad x‖ ^ 2 := by positivity
          linarith
        have hdn : 0 < ‖d‖ := by
          rw [norm_pos_iff]
          intro h0
          rw [h0, inner_zero_right] at hneg
          exact lt_irrefl _ hneg
        refine armijo_of_smooth (c1 := ls.c1) hL0 hsm x d hneg hs0 (le_trans hs ?_)
        rw [hβd, lbfgsBound, abs_of_neg hneg, div_le_div_iff₀ (by positivity) (by positivity)]
        have h1 : ‖d‖ ^ 2 ≤ (lbfgsUpper μ L m * ‖S.grad x‖) ^ 2 := pow_le_pow_left₀ hdn.le d2 2
        have h2 : 0 < 1 - ls.c1 := by linarith
        have h3 : lbfgsLower L m * ‖d‖ ^ 2 ≤ -inner ℝ (S.grad x) d * lbfgsUpper μ L m ^ 2 := by
          calc lbfgsLower L m * ‖d‖ ^ 2 ≤ lbfgsLower L m * (lbfgsUpper μ L m * ‖S.grad x‖) ^ 2 := mul_le_mul_of_nonneg_left h1 hh.le
            _ = lbfgsLower L m * ‖S.grad x‖ ^ 2 * lbfgsUpper μ L m ^ 2 := by ring
            _ ≤ -inner ℝ (S.grad x) d * lbfgsUpper μ L m ^ 2 := mul_le_mul_of_nonneg_right (by linarith) (by positivity)
        have h4 := mul_le_mul_of_nonneg_left h3 (show 0 ≤ 2 * (1 - ls.c1) * L by positivity)
        nlinarith
    rw [← hu.grad] at hr
    obtain ⟨b1, b2, b3, b4, b5, b6, b7, b8⟩ := bt_step hu.attrs (lt_of_lt_of_le hσ hi) x d hacc hr
    have hfail : st.failed = false := by
      apply b8
      refine le_trans (mul_le_mul_of_nonneg_right (min_le_left _ _) (pow_nonneg hdf.le _)) hls
    have hσs : σ ≤ (S.runLs (S.initStep (S.iter x0 k).2.stepsize) x (S.f x) (ls.grad x) d).stepsize := by
      refine le_trans ?_ b3
      exact le_min (le_min (min_le_left _ _) hi) (min_le_right _ _)
    rw [hsucc.1, hsucc.2.1, hsucc.2.2, hstep, ← hu.grad]
    rw [← hu.grad] at e1 e4
    refine ⟨by rw [← e4]; exact hfail, hσs, b2, ?_⟩
    have h1 := b7 hfail
    rw [e1, hu.vdot] at h1
    simp only [hu.grad] at h1 hσs b1 ⊢
    set s := (S.runLs (S.initStep (S.iter x0 k).2.stepsize) x (S.f x) (S.grad x) d).stepsize
    have h2 : ls.c1 * σ * (lbfgsLower L m * ‖S.grad x‖ ^ 2) ≤ ls.c1 * s * (lbfgsLower L m * ‖S.grad x‖ ^ 2) :=
      mul_le_mul_of_nonneg_right (mul_le_mul_of_nonneg_left hσs hc0.le) (by positivity)
    have h3 : ls.c1 * s * (lbfgsLower L m * ‖S.grad x‖ ^ 2) ≤ ls.c1 * s * -inner ℝ (S.grad x) d :=
      mul_le_mul_of_nonneg_left (by linarith) (by positivity)
    nlinarith
  have hsteps : ∀ k, σ ≤ (S.iter x0 k).2.stepsize := by
    intro k
    induction k with
    | zero => show σ ≤ S.maxStepsize; rw [hu.maxStep]; exact min_le_left _ _
    | succ k ih => exact (one k ih).2.1
  have contr : ∀ k, ∀ y, S.f (S.iter x0 (k + 1)).1 - S.f y ≤ (1 - δ) * (S.f (S.iter x0 k).1 - S.f y) := by
    intro k y
    have h1 := (one k (hsteps k)).2.2.2
    have h2 := hsc.grad_bound hμ (S.iter x0 k).1 y
    have h3 := mul_le_mul_of_nonneg_left h2 (show 0 ≤ ls.c1 * σ * lbfgsLower L m by positivity)
    rw [hδe]
    nlinarith
  have main : ∀ y, S.f (S.iter x0 n).1 - S.f y ≤ (1 - δ) ^ n * (S.f x0 - S.f y) := by
    intro y
    have : ∀ k, S.f (S.iter x0 k).1 - S.f y ≤ (1 - δ) ^ k * (S.f x0 - S.f y) := by
      intro k
      induction k with
      | zero => simp [iter]
      | succ k ih =>
        have h1 := contr k y
        have h2 := mul_le_mul_of_nonneg_left ih (show 0 ≤ 1 - δ by linarith)
        rw [pow_succ']
        linarith
    exact this n
  refine ⟨?_, hsteps n, ?_, hδ0, hδ1, main, ?_⟩
  · cases n with
    | zero => rfl
    | succ n => exact (one n (hsteps n)).1
  · cases n with
    | zero => show S.maxStepsize ≤ _; rw [hu.maxStep]
    | succ n => exact (one n (hsteps n)).2.2.1
  · intro xs hxs
    have h1 := hsc xs (S.iter x0 n).1
    rw [hxs, inner_zero_left, add_zero] at h1
    have h2 := main xs
    rw [div_mul_eq_mul_div, le_div_iff₀ hμ]
    linarith

/-- **C89, a run of L-BFGS.**  Under the hypotheses of `C89_lbfgs_linear`: if `maxiter` is large enough for
`2 L (1 - lbfgsBtRate) ^ maxiter` times the initial excess to be below `tol²`, then `run` returns parameters whose gradient norm is at
most `tol`, with that error in the state and no failed line search. -/
theorem C89_lbfgs_run (S : Lbfgs ℝ V ℝ) (ls : Backtracking ℝ V) (strategy : String) (minStep inc : ℝ)
    (hu : S.UsesArmijo ls strategy minStep inc) (μ L : ℝ) (hμ : 0 < μ) (hL : μ ≤ L) (hsm : LSmooth S.f S.grad L)
    (hsc : StrongConvexWith S.f S.grad μ) (hc0 : 0 < ls.c1) (hc1 : ls.c1 < 1)
    (hls : ls.maxStepsize * ls.decreaseFactor ^ (ls.maxiter - 1) ≤ lbfgsBound μ L ls.c1 S.historySize)
    (hnorm : ∀ v, S.norm v = ‖v‖) (htol : 0 ≤ S.tol) (hm : 1 ≤ S.maxiter) (x0 xs : V) (hxs : S.grad xs = 0)
    (hmax : 2 * L * ((1 - lbfgsBtRate μ L ls.c1 ls.decreaseFactor ls.maxStepsize S.historySize) ^ S.maxiter * (S.f x0 - S.f xs)) ≤
      S.tol ^ 2) {r : V × LbfgsState ℝ V ℝ} (hr : S.run x0 = .ok r) :
    ‖S.grad r.1‖ ≤ S.tol ∧ r.2.error = .fin ‖S.grad r.1‖ ∧ r.2.value = S.f r.1 ∧ r.2.grad = S.grad r.1 ∧
      r.2.failedLinesearch = false := by
  have hL0 : 0 < L := lt_of_lt_of_le hμ hL
  obtain ⟨k, hk1, hk2, hrk, _, hstop⟩ := runS_spec hm hr
  have hrk' : r = S.iter x0 k := hrk
  have hfin : ‖S.grad (S.iter x0 k).1‖ ≤ S.tol := by
    rcases hstop with h | h
    · have h1 := (S.C89_lbfgs_linear ls strategy minStep inc hu μ L hμ hL hsm hsc hc0 hc1 hls x0 k).2.2.2.2.2.1 xs
      have hmin : ∀ y, S.f xs ≤ S.f y := fun y => by
        have := hsc.grad_bound hμ xs y
        rw [hxs, norm_zero] at this
        nlinarith
      have h2 := grad_sq_le hL0 hsm hmin (S.iter x0 k).1
      rw [h] at h1 h2 ⊢
      have h3 := mul_le_mul_of_nonneg_left h1 (show 0 ≤ 2 * L by positivity)
      exact le_of_sq_le_sq (le_trans h2 (le_trans h3 hmax)) htol
    · have h1 : S.cont (S.iter x0 k) = false := h
      have he := (S.C74_lbfgs_state (lsSound_of_uses hu) x0 k).2.2.2 hk1
      have hf := (S.C89_lbfgs_linear ls strategy minStep inc hu μ L hμ hL hsm hsc hc0 hc1 hls x0 k).1
      unfold cont at h1
      rw [he, hf, hnorm] at h1
      simp only [Bool.not_false, Bool.or_true, Bool.and_true] at h1
      by_contra hcon
      rw [gt_fin.mpr (not_le.mp hcon)] at h1
      cases h1
  obtain ⟨s1, s2, _, s4⟩ := S.C74_lbfgs_state (lsSound_of_uses hu) x0 k
  rw [hrk']
  exact ⟨hfin, by rw [s4 hk1, hnorm], s1, s2,
    (S.C89_lbfgs_linear ls strategy minStep inc hu μ L hμ hL hsm hsc hc0 hc1 hls x0 k).1⟩

/-! ### Example: `x² / 2` on the reals, one memory slot, `linesearch_init="increase"` -/

/-- The line search of the example: Armijo with `c1 = 1/4`, halving, at most 7 trials, `max_stepsize = 1`. -/
noncomputable def exBt : Backtracking ℝ ℝ where
  f := fun x => .fin (x ^ 2 / 2)
  grad := fun x => x
  vdot := fun x y => inner ℝ x y
  maxiter := 7
  tol := 0
  condition := .armijo
  c1 := 1 / 4
  c2 := 9 / 10
  decreaseFactor := 1 / 2
  maxStepsize := 1
  unroll := false
  jit := true

/-- The solver of the example. -/
noncomputable def exArmijo : Lbfgs ℝ ℝ ℝ where
  f := fun x => x ^ 2 / 2
  grad := fun x => x
  vdot := fun x y => inner ℝ x y
  norm := fun x => ‖x‖
  historySize := 1
  useGamma := true
  stepsize := .const 0
  maxStepsize := 1
  initStep := fun s => if s ≤ 1 / 1000000 then 1 else s * (3 / 2)
  stopIfLinesearchFails := false
  tol := 1 / 1000
  maxiter := 5000
  unroll := false
  jit := true
  runLs := btLs exBt

/-- The hypotheses of C89 hold for the example, with `μ = L = 1`. -/
example : exArmijo.UsesArmijo exBt "increase" (1 / 1000000) (3 / 2) ∧ LSmooth exArmijo.f exArmijo.grad 1 ∧
    StrongConvexWith exArmijo.f exArmijo.grad 1 ∧
    exBt.maxStepsize * exBt.decreaseFactor ^ (exBt.maxiter - 1) ≤ lbfgsBound 1 1 exBt.c1 exArmijo.historySize := by
  have ha : ArmijoLs exBt exArmijo.f :=
    ⟨rfl, rfl, rfl, show (0 : ℝ) < 1 from one_pos, show (0 : ℝ) < 1 / 2 by norm_num, show (1 / 2 : ℝ) ≤ 1 by norm_num,
      show 1 ≤ 7 by omega⟩
  refine ⟨⟨runsBt_btLs ha (Or.inr rfl), ha, rfl, rfl, rfl, ⟨0, rfl, le_refl _⟩, rfl, fun s => ?_, by norm_num⟩, ⟨fun x => ?_, fun x y => ?_⟩,
    fun x y => ?_, ?_⟩
  · simp [initStepsize, exArmijo]
  · have h1 : HasDerivAt (fun x : ℝ => x ^ 2 / 2) x x := by
      have := (hasDerivAt_pow 2 x).div_const 2
      simpa using this
    exact h1.hasGradientAt'
  · show ‖x - y‖ ≤ 1 * ‖x - y‖
    rw [one_mul]
  · show x ^ 2 / 2 + inner ℝ x (y - x) + 1 / 2 * ‖y - x‖ ^ 2 ≤ y ^ 2 / 2
    have hin : ∀ a b : ℝ, inner ℝ a b = a * b := fun a b => by simp [mul_comm]
    rw [hin, Real.norm_eq_abs, sq_abs]
    nlinarith
  · show (1 : ℝ) * (1 / 2) ^ 6 ≤ lbfgsBound 1 1 (1 / 4) 1
    unfold lbfgsBound lbfgsLower lbfgsUpper
    norm_num

end Lbfgs

/-! ## BFGS -/

namespace Bfgs

variable {ι V : Type*} [Fintype ι] [DecidableEq ι]

/-- One update of `psi`, with the term dropped in `psi_step`. -/
theorem psi_step_eq {H : Matrix ι ι ℝ} (h : SymPos H) (s y : ι → ℝ) (hs : s ≠ 0) (hys : 0 < y ⬝ᵥ s) :
    let r := ((H⁻¹ *ᵥ s) ⬝ᵥ (H⁻¹ *ᵥ s)) / (s ⬝ᵥ H⁻¹ *ᵥ s)
    psi (newH H s y) = psi H + (y ⬝ᵥ y / (y ⬝ᵥ s) - Real.log (y ⬝ᵥ s / s ⬝ᵥ s) - 1) +
      Real.log ((s ⬝ᵥ H⁻¹ *ᵥ s) ^ 2 / (s ⬝ᵥ s * ((H⁻¹ *ᵥ s) ⬝ᵥ (H⁻¹ *ᵥ s)))) - (r - 1 - Real.log r) := by
  intro r
  have hr : r = ((H⁻¹ *ᵥ s) ⬝ᵥ (H⁻¹ *ᵥ s)) / (s ⬝ᵥ H⁻¹ *ᵥ s) := rfl
  have hp := h.inv
  rw [hr]
  set B := H⁻¹ with hBd
  have hdet : IsUnit H.det := h.posDef.det_pos.ne'.isUnit
  have hBH : B * H = 1 := nonsing_inv_mul H hdet
  have hBt : Bᵀ = B := by
    have := hp.1
    rwa [IsHermitian, conjTranspose_eq_transpose_of_trivial] at this
  have hσ : 0 < s ⬝ᵥ B *ᵥ s := by simpa using hp.dotProduct_mulVec_pos hs
  have hv := isVdot_dotProduct (K := ℝ) (ι := ι)
  have hBs : B *ᵥ s ≠ 0 := by
    intro h0; rw [h0, dotProduct_zero] at hσ; exact lt_irrefl _ hσ
  have hss : 0 < s ⬝ᵥ s := hv.pos s hs
  have hbb : 0 < (B *ᵥ s) ⬝ᵥ (B *ᵥ s) := hv.pos _ hBs
  have hinv : (newH H s y)⁻¹ = newB B s y := inv_eq_left_inv (newB_mul_newH B H hBt hBH s y hσ.ne' hys.ne')
  have hBdet : 0 < B.det := hp.det_pos
  rw [psi, psi, hinv, newB_trace, newB_det B H hBt hBH s y hσ.ne' hys.ne']
  generalize s ⬝ᵥ B *ᵥ s = σ at *
  generalize (B *ᵥ s) ⬝ᵥ (B *ᵥ s) = b at *
  generalize y ⬝ᵥ s = m at *
  generalize s ⬝ᵥ s = q at *
  rw [Real.log_mul hBdet.ne' (div_pos hys hσ).ne', Real.log_div hys.ne' hσ.ne', Real.log_div hys.ne' hss.ne',
    Real.log_div (by positivity) (by positivity), Real.log_pow, Real.log_mul hss.ne' hbb.ne', Real.log_div hbb.ne' hσ.ne']
  push_cast
  ring

/-- `2 |gᵀd| / ‖g‖²` at iteration `k`: small when the search direction is short. -/
noncomputable def lenRatio (S : Bfgs ℝ ι ℝ) (x0 : ι → ℝ) (k : ℕ) : ℝ :=
  let g := S.grad (S.iter x0 k).1
  let d := direction (S.iter x0 k).2
  2 * |g ⬝ᵥ d| / (g ⬝ᵥ g)

theorem exp_bound {r : ℝ} (hr : 0 < r) : Real.exp (-(r - 1 - Real.log r)) ≤ 2 / r := by
  have e : -(r - 1 - Real.log r) = Real.log r + (1 - r) := by ring
  rw [e, Real.exp_add, Real.exp_log hr, le_div_iff₀ hr]
  have h1 := Real.add_one_le_exp (r / 2 - 1)
  have h2 : r ^ 2 / 4 ≤ Real.exp (r - 2) := by
    have e2 : r - 2 = (r / 2 - 1) + (r / 2 - 1) := by ring
    rw [e2, Real.exp_add]
    nlinarith
  have h3 := Real.add_one_le_exp (1 : ℝ)
  have e4 : Real.exp (r - 2) * (Real.exp (1 - r) * Real.exp 1) = 1 := by
    rw [← Real.exp_add, ← Real.exp_add]
    have : r - 2 + (1 - r + 1) = 0 := by ring
    rw [this, Real.exp_zero]
  have h5 := Real.exp_pos (1 - r)
  have h6 : r ^ 2 / 4 * (Real.exp (1 - r) * Real.exp 1) ≤ 1 := by
    calc r ^ 2 / 4 * (Real.exp (1 - r) * Real.exp 1) ≤ Real.exp (r - 2) * (Real.exp (1 - r) * Real.exp 1) :=
          mul_le_mul_of_nonneg_right h2 (by positivity)
      _ = 1 := e4
  nlinarith [mul_nonneg (sq_nonneg r) h5.le]

/-- **C89, quality of the BFGS directions.**  On a `μ`-strongly convex `L`-smooth function, with any positive steps whatsoever along the
search directions, the matrix `H` stays symmetric positive definite, the directions are descent directions, and the average over the
first `n` iterations of `min (cos², 2 |gᵀd| / ‖g‖²)` is at least `μ exp (1 - L)`, in any dimension. -/
theorem C89_bfgs_quality (S : Bfgs ℝ ι ℝ) (hl : S.GradSound) (μ L : ℝ) (hμ : 0 < μ) (hL : μ ≤ L)
    (hsm : LSmooth S.fE S.gE L) (hsc : StrongConvexWith S.fE S.gE μ) (x0 : ι → ℝ) (n : ℕ)
    (hne : ∀ k < n, S.grad (S.iter x0 k).1 ≠ 0)
    (hw : ∀ k < n, S.grad (S.iter x0 k).1 ⬝ᵥ direction (S.iter x0 k).2 < 0 →
      ∃ t : ℝ, 0 < t ∧ (S.iter x0 (k + 1)).1 = (S.iter x0 k).1 + t • direction (S.iter x0 k).2) :
    (∀ k ≤ n, SymPos (S.iter x0 k).2.H) ∧
    (∀ k < n, S.grad (S.iter x0 k).1 ⬝ᵥ direction (S.iter x0 k).2 < 0) ∧
    n * (μ * Real.exp (1 - L)) ≤ ∑ k ∈ Finset.range n, min (S.cosSq x0 k) (S.lenRatio x0 k) := by
  have hL0 : 0 < L := lt_of_lt_of_le hμ hL
  have hv := isVdot_dotProduct (K := ℝ) (ι := ι)
  have hgr := S.grad_iter hl x0
  have hcx : ∀ x y, S.fE x + inner ℝ (S.gE x) (y - x) ≤ S.fE y := fun x y => by
    have := hsc x y
    have h2 : 0 ≤ μ / 2 * ‖y - x‖ ^ 2 := by positivity
    linarith
  -- pairs
  have hgood : ∀ k, μ * ((S.pair x0 k).1 ⬝ᵥ (S.pair x0 k).1) ≤ (S.pair x0 k).2 ⬝ᵥ (S.pair x0 k).1 ∧
      (S.pair x0 k).2 ⬝ᵥ (S.pair x0 k).2 ≤ L * ((S.pair x0 k).2 ⬝ᵥ (S.pair x0 k).1) := by
    intro k
    have e1 : pt (S.pair x0 k).1 = pt (S.iter x0 (k + 1)).1 - pt (S.iter x0 k).1 := rfl
    have e2 : pt (S.pair x0 k).2 = S.gE (pt (S.iter x0 (k + 1)).1) - S.gE (pt (S.iter x0 k).1) := by
      simp only [pair, hgr]; rfl
    have h1 := hsc.mono (pt (S.iter x0 k).1) (pt (S.iter x0 (k + 1)).1)
    have h2 := Jaxopt.LSmooth.cocoercive hL0 hsm hcx (pt (S.iter x0 k).1) (pt (S.iter x0 (k + 1)).1)
    rw [← e1, ← e2, norm_pt, inner_pt] at h1
    rw [← e1, ← e2, norm_pt, inner_pt] at h2
    rw [dotProduct_comm (S.pair x0 k).2 (S.pair x0 k).1]
    exact ⟨h1, h2⟩
  -- one iteration
  have hdesc : ∀ k < n, SymPos (S.iter x0 k).2.H → S.grad (S.iter x0 k).1 ⬝ᵥ direction (S.iter x0 k).2 < 0 := by
    intro k hk hH
    have := hH.2 _ (hne k hk)
    rw [direction, hgr, dotProduct_neg]
    linarith
  have hstep : ∀ k < n, SymPos (S.iter x0 k).2.H → ∃ t : ℝ, 0 < t ∧ (S.pair x0 k).1 = t • direction (S.iter x0 k).2 ∧
      (S.pair x0 k).1 ≠ 0 ∧ 0 < (S.pair x0 k).2 ⬝ᵥ (S.pair x0 k).1 := by
    intro k hk hH
    have hd := hdesc k hk hH
    obtain ⟨t, ht, hx'⟩ := hw k hk hd
    have hs : (S.pair x0 k).1 = t • direction (S.iter x0 k).2 := by
      simp only [pair, hx']; abel
    have hdne : direction (S.iter x0 k).2 ≠ 0 := by
      intro h0; rw [h0, dotProduct_zero] at hd; exact lt_irrefl _ hd
    have hsne : (S.pair x0 k).1 ≠ 0 := by rw [hs]; exact smul_ne_zero ht.ne' hdne
    exact ⟨t, ht, hs, hsne, lt_of_lt_of_le (mul_pos hμ (hv.pos _ hsne)) (hgood k).1⟩
  have hpos : ∀ k ≤ n, ∀ j < k, 0 < (S.pair x0 j).2 ⬝ᵥ (S.pair x0 j).1 := by
    intro k
    induction k with
    | zero => intro _ j hj; omega
    | succ k ih =>
      intro hk j hj
      have ih' := ih (by omega)
      rcases Nat.lt_succ_iff_lt_or_eq.mp hj with h | h
      · exact ih' j h
      · subst h
        have hc := S.C26_bfgs x0 j
        obtain ⟨_, _, _, _, h5⟩ := hstep j (by omega) ⟨hc.1, (hc.2.2.2 ih').1⟩
        exact h5
  have hsp : ∀ k ≤ n, SymPos (S.iter x0 k).2.H := fun k hk =>
    ⟨(S.C26_bfgs x0 k).1, ((S.C26_bfgs x0 k).2.2.2 (hpos k hk)).1⟩
  -- the potential
  set C := L - 1 - Real.log μ with hC
  set ρ : ℕ → ℝ := fun k => (S.grad (S.iter x0 k).1 ⬝ᵥ S.grad (S.iter x0 k).1) /
    |S.grad (S.iter x0 k).1 ⬝ᵥ direction (S.iter x0 k).2| with hρd
  have hcos : ∀ k < n, 0 < S.cosSq x0 k ∧ S.cosSq x0 k ≤ 1 := by
    intro k hk
    have hd := hdesc k hk (hsp k hk.le)
    have h1 := hv.pos _ (hne k hk)
    have h2 : 0 < direction (S.iter x0 k).2 ⬝ᵥ direction (S.iter x0 k).2 := hv.pos _ (by
      intro h0; rw [h0, dotProduct_zero] at hd; exact lt_irrefl _ hd)
    refine ⟨div_pos (by have := hd.ne; positivity) (mul_pos h1 h2), ?_⟩
    unfold cosSq
    rw [div_le_one (mul_pos h1 h2)]
    have h3 := real_inner_mul_inner_self_le (pt (S.grad (S.iter x0 k).1)) (pt (direction (S.iter x0 k).2))
    rw [inner_pt, inner_pt, inner_pt] at h3
    rw [sq]
    exact h3
  have hρ : ∀ k < n, 0 < ρ k := fun k hk => div_pos (hv.pos _ (hne k hk)) (abs_pos.mpr (hdesc k hk (hsp k hk.le)).ne)
  set u : ℕ → ℝ := fun k => ρ k - 1 - Real.log (ρ k) - Real.log (S.cosSq x0 k) with hud
  have hpsi : ∀ k < n, psi (S.iter x0 (k + 1)).2.H ≤ psi (S.iter x0 k).2.H + C - u k := by
    intro k hk
    have hH := hsp k hk.le
    obtain ⟨t, ht, hs, hsne, hys⟩ := hstep k hk hH
    obtain ⟨g1, g2⟩ := hgood k
    have hss := hv.pos _ hsne
    have h1 := psi_step_eq hH (S.pair x0 k).1 (S.pair x0 k).2 hsne hys
    have hdet : IsUnit (S.iter x0 k).2.H.det := hH.posDef.det_pos.ne'.isUnit
    have hBs : (S.iter x0 k).2.H⁻¹ *ᵥ (S.pair x0 k).1 = -t • S.grad (S.iter x0 k).1 := by
      rw [hs, mulVec_smul, direction, mulVec_neg, mulVec_mulVec, nonsing_inv_mul _ hdet, one_mulVec, hgr, smul_neg, neg_smul]
    have hce : ((S.pair x0 k).1 ⬝ᵥ (S.iter x0 k).2.H⁻¹ *ᵥ (S.pair x0 k).1) ^ 2 / ((S.pair x0 k).1 ⬝ᵥ (S.pair x0 k).1 *
        (((S.iter x0 k).2.H⁻¹ *ᵥ (S.pair x0 k).1) ⬝ᵥ ((S.iter x0 k).2.H⁻¹ *ᵥ (S.pair x0 k).1))) = S.cosSq x0 k := by
      rw [hBs, hs]
      simp only [cosSq, smul_dotProduct, dotProduct_smul, smul_eq_mul]
      rw [dotProduct_comm (direction (S.iter x0 k).2) (S.grad (S.iter x0 k).1)]
      generalize S.grad (S.iter x0 k).1 ⬝ᵥ direction (S.iter x0 k).2 = p
      generalize S.grad (S.iter x0 k).1 ⬝ᵥ S.grad (S.iter x0 k).1 = q
      generalize direction (S.iter x0 k).2 ⬝ᵥ direction (S.iter x0 k).2 = r
      have e1 : (-t * (t * p)) ^ 2 = t ^ 4 * p ^ 2 := by ring
      have e2 : t * (t * r) * (-t * (-t * q)) = t ^ 4 * (q * r) := by ring
      rw [e1, e2, mul_div_mul_left _ _ (by positivity)]
    have hre : (((S.iter x0 k).2.H⁻¹ *ᵥ (S.pair x0 k).1) ⬝ᵥ ((S.iter x0 k).2.H⁻¹ *ᵥ (S.pair x0 k).1)) /
        ((S.pair x0 k).1 ⬝ᵥ (S.iter x0 k).2.H⁻¹ *ᵥ (S.pair x0 k).1) = ρ k := by
      have hd := hdesc k hk hH
      rw [hBs, hs]
      simp only [hρd, smul_dotProduct, dotProduct_smul, smul_eq_mul]
      rw [dotProduct_comm (direction (S.iter x0 k).2) (S.grad (S.iter x0 k).1), abs_of_neg hd]
      generalize S.grad (S.iter x0 k).1 ⬝ᵥ direction (S.iter x0 k).2 = p at hd
      generalize S.grad (S.iter x0 k).1 ⬝ᵥ S.grad (S.iter x0 k).1 = q
      have e1 : -t * (-t * q) = t ^ 2 * q := by ring
      have e2 : -t * (t * p) = t ^ 2 * (-p) := by ring
      rw [e1, e2, mul_div_mul_left _ _ (by positivity)]
    simp only [hce, hre] at h1
    rw [H_succ]
    have h2 : (S.pair x0 k).2 ⬝ᵥ (S.pair x0 k).2 / (S.pair x0 k).2 ⬝ᵥ (S.pair x0 k).1 ≤ L := by rw [div_le_iff₀ hys]; exact g2
    have h3 : Real.log μ ≤ Real.log ((S.pair x0 k).2 ⬝ᵥ (S.pair x0 k).1 / (S.pair x0 k).1 ⬝ᵥ (S.pair x0 k).1) :=
      Real.log_le_log hμ (by rw [le_div_iff₀ hss]; exact g1)
    simp only [hud]
    linarith
  have hsum : ∀ m ≤ n, psi (S.iter x0 m).2.H ≤ Fintype.card ι + m * C - ∑ k ∈ Finset.range m, u k := by
    intro m
    induction m with
    | zero => intro _; simp [iter, initState, psi_one]
    | succ m ih =>
      intro hm
      have h1 := ih (by omega)
      have h2 := hpsi m (by omega)
      rw [Finset.sum_range_succ]
      push_cast
      linarith
  refine ⟨hsp, fun k hk => hdesc k hk (hsp k hk.le), ?_⟩
  have h1 := hsum n (le_refl _)
  have h2 := le_psi (hsp n (le_refl _))
  have hexp : Real.exp (-C) = μ * Real.exp (1 - L) := by
    have : -C = Real.log μ + (1 - L) := by rw [hC]; ring
    rw [this, Real.exp_add, Real.exp_log hμ]
  have hq : ∀ k < n, Real.exp (-u k) ≤ min (S.cosSq x0 k) (S.lenRatio x0 k) := by
    intro k hk
    obtain ⟨c0, c1⟩ := hcos k hk
    have r0 := hρ k hk
    have hl1 := Real.log_le_sub_one_of_pos r0
    have hl2 : Real.log (S.cosSq x0 k) ≤ 0 := Real.log_nonpos c0.le c1
    refine le_min ?_ ?_
    · calc Real.exp (-u k) ≤ Real.exp (Real.log (S.cosSq x0 k)) := Real.exp_le_exp.mpr (by simp only [hud]; linarith)
        _ = S.cosSq x0 k := Real.exp_log c0
    · calc Real.exp (-u k) ≤ Real.exp (-(ρ k - 1 - Real.log (ρ k))) := Real.exp_le_exp.mpr (by simp only [hud]; linarith)
        _ ≤ 2 / ρ k := exp_bound r0
        _ = S.lenRatio x0 k := by simp only [hρd, lenRatio]; rw [div_div_eq_mul_div]
  have h3 : ∑ k ∈ Finset.range n, Real.exp (-C) * (-u k + C + 1) ≤ ∑ k ∈ Finset.range n, min (S.cosSq x0 k) (S.lenRatio x0 k) := by
    refine Finset.sum_le_sum fun k hk => ?_
    have hk' := Finset.mem_range.mp hk
    refine le_trans ?_ (hq k hk')
    have e : Real.exp (-u k) = Real.exp (-C) * Real.exp (-u k + C) := by
      rw [← Real.exp_add]
      congr 1
      ring
    rw [e]
    exact mul_le_mul_of_nonneg_left (Real.add_one_le_exp _) (Real.exp_pos _).le
  rw [← Finset.mul_sum, Finset.sum_add_distrib, Finset.sum_add_distrib, Finset.sum_const, Finset.sum_const, Finset.card_range,
    nsmul_eq_mul, nsmul_eq_mul, mul_one, Finset.sum_neg_distrib] at h3
  rw [← hexp]
  refine le_trans ?_ h3
  rw [mul_comm]
  exact mul_le_mul_of_nonneg_left (by linarith) (Real.exp_pos _).le

/-- A step along `d` with sufficient decrease, in one of two forms: proportional to the squared cosine (steps limited by the curvature)
or to the slope (steps limited by `max_stepsize`). -/
def GoodStep (S : Bfgs ℝ ι ℝ) (η1 η2 : ℝ) (x d x' : ι → ℝ) : Prop :=
  ∃ t : ℝ, 0 < t ∧ x' = x + t • d ∧
    (η1 * ((S.grad x ⬝ᵥ d) ^ 2 / (d ⬝ᵥ d)) ≤ S.f x - S.f x' ∨ η2 * |S.grad x ⬝ᵥ d| ≤ S.f x - S.f x')

/-- The exponent of the rate. -/
noncomputable def _root_.Jaxopt.QuasiNewton.bfgsStepRate (μ L η1 η2 : ℝ) : ℝ := 2 * μ ^ 2 * min η1 (η2 / 2) * Real.exp (1 - L)

/-- **C89, BFGS with sufficient decrease.**  On a `μ`-strongly convex `L`-smooth function, if every step gives a sufficient decrease in one
of the two forms, the excess over the minimum after `n` iterations of BFGS is at most `exp (-bfgsStepRate n)` times the initial excess.  No
curvature condition is required of the steps. -/
theorem C89_bfgs_linear (S : Bfgs ℝ ι ℝ) (hl : S.GradSound) (μ L : ℝ) (hμ : 0 < μ) (hL : μ ≤ L)
    (hsm : LSmooth S.fE S.gE L) (hsc : StrongConvexWith S.fE S.gE μ) (η1 η2 : ℝ) (h1 : 0 < η1) (h2 : 0 < η2) (x0 : ι → ℝ) (n : ℕ)
    (hne : ∀ k < n, S.grad (S.iter x0 k).1 ≠ 0)
    (hw : ∀ k < n, S.grad (S.iter x0 k).1 ⬝ᵥ direction (S.iter x0 k).2 < 0 →
      S.GoodStep η1 η2 (S.iter x0 k).1 (direction (S.iter x0 k).2) (S.iter x0 (k + 1)).1)
    (xs : ι → ℝ) (hxs : S.grad xs = 0) :
    S.f (S.iter x0 n).1 - S.f xs ≤ Real.exp (-(bfgsStepRate μ L η1 η2 * n)) * (S.f x0 - S.f xs) ∧
    ((S.iter x0 n).1 - xs) ⬝ᵥ ((S.iter x0 n).1 - xs) ≤ 2 / μ * (Real.exp (-(bfgsStepRate μ L η1 η2 * n)) * (S.f x0 - S.f xs)) := by
  have hL0 : 0 < L := lt_of_lt_of_le hμ hL
  obtain ⟨hsp, hdesc, hq⟩ := S.C89_bfgs_quality hl μ L hμ hL hsm hsc x0 n hne
    (fun k hk hd => by obtain ⟨t, ht, hx, _⟩ := hw k hk hd; exact ⟨t, ht, hx⟩)
  have hv := isVdot_dotProduct (K := ℝ) (ι := ι)
  have hA : 0 < min η1 (η2 / 2) := lt_min h1 (by positivity)
  set A := min η1 (η2 / 2) with hAd
  have hA1 : A ≤ η1 := min_le_left _ _
  have hA2 : 2 * A ≤ η2 := by have := min_le_right η1 (η2 / 2); linarith
  have hg0 : S.gE (pt xs) = 0 := by
    show pt (S.grad xs) = 0
    rw [hxs]; rfl
  have hmin : ∀ x : ι → ℝ, μ / 2 * ((x - xs) ⬝ᵥ (x - xs)) ≤ S.f x - S.f xs := by
    intro x
    have h1 := hsc (pt xs) (pt x)
    rw [hg0, inner_zero_left, add_zero] at h1
    have e : pt x - pt xs = pt (x - xs) := rfl
    rw [e, norm_pt] at h1
    have e2 : S.fE (pt x) = S.f x := rfl
    have e3 : S.fE (pt xs) = S.f xs := rfl
    rw [e2, e3] at h1
    linarith
  have hnn : ∀ x : ι → ℝ, 0 ≤ S.f x - S.f xs := fun x =>
    le_trans (mul_nonneg (by positivity) (by
      have := norm_pt (x - xs)
      rw [← this]; positivity)) (hmin x)
  set Q : ℕ → ℝ := fun k => min (S.cosSq x0 k) (S.lenRatio x0 k) with hQd
  have contr : ∀ k < n, S.f (S.iter x0 (k + 1)).1 - S.f xs ≤
      Real.exp (-(2 * μ * A * Q k)) * (S.f (S.iter x0 k).1 - S.f xs) := by
    intro k hk
    have hd := hdesc k hk
    have hgb := hsc.grad_bound hμ (pt (S.iter x0 k).1) (pt xs)
    rw [show ‖S.gE (pt (S.iter x0 k).1)‖ ^ 2 = S.grad (S.iter x0 k).1 ⬝ᵥ S.grad (S.iter x0 k).1 from norm_pt _] at hgb
    change 2 * μ * (S.f (S.iter x0 k).1 - S.f xs) ≤ _ at hgb
    have hgg := hv.pos _ (hne k hk)
    have hdd : 0 < direction (S.iter x0 k).2 ⬝ᵥ direction (S.iter x0 k).2 := hv.pos _ (by
      intro h0; rw [h0, dotProduct_zero] at hd; exact lt_irrefl _ hd)
    have hce : (S.grad (S.iter x0 k).1 ⬝ᵥ direction (S.iter x0 k).2) ^ 2 / (direction (S.iter x0 k).2 ⬝ᵥ direction (S.iter x0 k).2) =
        S.cosSq x0 k * (S.grad (S.iter x0 k).1 ⬝ᵥ S.grad (S.iter x0 k).1) := by
      simp only [cosSq]
      rw [div_mul_eq_mul_div, mul_comm (S.grad (S.iter x0 k).1 ⬝ᵥ S.grad (S.iter x0 k).1), mul_div_mul_right _ _ hgg.ne']
    have hle : 2 * |S.grad (S.iter x0 k).1 ⬝ᵥ direction (S.iter x0 k).2| =
        S.lenRatio x0 k * (S.grad (S.iter x0 k).1 ⬝ᵥ S.grad (S.iter x0 k).1) := by
      simp only [lenRatio]
      rw [div_mul_cancel₀ _ hgg.ne']
    have hc0 : 0 ≤ S.cosSq x0 k := div_nonneg (by positivity) (mul_nonneg hgg.le hdd.le)
    have hl0 : 0 ≤ S.lenRatio x0 k := div_nonneg (by positivity) hgg.le
    have hQ0 : 0 ≤ Q k := le_min hc0 hl0
    obtain ⟨t, ht, hx, hdec⟩ := hw k hk hd
    have hdec' : A * Q k * (S.grad (S.iter x0 k).1 ⬝ᵥ S.grad (S.iter x0 k).1) ≤ S.f (S.iter x0 k).1 - S.f (S.iter x0 (k + 1)).1 := by
      rcases hdec with hdec | hdec
      · rw [hce] at hdec
        refine le_trans ?_ hdec
        rw [mul_assoc]
        exact mul_le_mul hA1 (mul_le_mul_of_nonneg_right (min_le_left _ _) hgg.le) (mul_nonneg hQ0 hgg.le) h1.le
      · refine le_trans ?_ hdec
        have h3 : Q k * (S.grad (S.iter x0 k).1 ⬝ᵥ S.grad (S.iter x0 k).1) ≤ 2 * |S.grad (S.iter x0 k).1 ⬝ᵥ direction (S.iter x0 k).2| := by
          rw [hle]
          exact mul_le_mul_of_nonneg_right (min_le_right _ _) hgg.le
        have h4 := mul_le_mul_of_nonneg_left h3 hA.le
        have h5 := mul_le_mul_of_nonneg_right hA2 (abs_nonneg (S.grad (S.iter x0 k).1 ⬝ᵥ direction (S.iter x0 k).2))
        linarith
    have h3 := mul_le_mul_of_nonneg_left hgb (mul_nonneg hA.le hQ0)
    have h4 := Real.add_one_le_exp (-(2 * μ * A * Q k))
    have h5 := mul_le_mul_of_nonneg_right h4 (hnn (S.iter x0 k).1)
    nlinarith
  have main : ∀ m ≤ n, S.f (S.iter x0 m).1 - S.f xs ≤
      Real.exp (-(2 * μ * A * ∑ k ∈ Finset.range m, Q k)) * (S.f x0 - S.f xs) := by
    intro m
    induction m with
    | zero => intro _; simp [iter]
    | succ m ih =>
      intro hm
      have h1 := contr m (by omega)
      have h2 := mul_le_mul_of_nonneg_left (ih (by omega)) (Real.exp_pos (-(2 * μ * A * Q m))).le
      refine le_trans h1 (le_trans h2 (le_of_eq ?_))
      rw [← mul_assoc, ← Real.exp_add, Finset.sum_range_succ]
      congr 2
      ring
  have hfin : S.f (S.iter x0 n).1 - S.f xs ≤ Real.exp (-(bfgsStepRate μ L η1 η2 * n)) * (S.f x0 - S.f xs) := by
    refine le_trans (main n (le_refl _)) (mul_le_mul_of_nonneg_right (Real.exp_le_exp.mpr ?_) (hnn x0))
    have h1 := mul_le_mul_of_nonneg_left hq (show 0 ≤ 2 * μ * A by positivity)
    have e : 2 * μ * A * (n * (μ * Real.exp (1 - L))) = bfgsStepRate μ L η1 η2 * n := by
      simp only [bfgsStepRate]; rw [← hAd]; ring
    rw [e] at h1
    linarith
  refine ⟨hfin, ?_⟩
  have h1 := hmin (S.iter x0 n).1
  rw [div_mul_eq_mul_div, le_div_iff₀ hμ]
  linarith

/-- `BFGS` with a line search of `ls` at every iteration, and initial stepsizes at least `a` (for instance `linesearch_init="max"`, with
`a = max_stepsize`): bfgs.py lines 119-145 and 202-226. -/
structure UsesArmijo (S : Bfgs ℝ ι ℝ) (ls : Backtracking ℝ (ι → ℝ)) (a : ℝ) : Prop where
  runs : RunsBt ls S.runLs
  attrs : ArmijoLs ls S.f
  grad : ls.grad = S.grad
  vdot : ls.vdot = fun u v => u ⬝ᵥ v
  search : ∃ b, S.stepsize = .const b ∧ b ≤ 0
  init : ∀ s, a ≤ S.initStep s
  initPos : 0 < a

theorem lsSound_of_uses {S : Bfgs ℝ ι ℝ} {ls : Backtracking ℝ (ι → ℝ)} {a : ℝ} (hu : S.UsesArmijo ls a) : S.LsSound := by
  intro s x v g d
  obtain ⟨st, hr, h1, h2, h3, h4⟩ := hu.runs s x v g d
  obtain ⟨k, hk, e1, e2, e3, e4, e5, _⟩ := C18_backtracking ls hu.attrs.tol.ge hu.attrs.maxStep.le hu.attrs.decPos hu.attrs.decLe
    hu.attrs.iters s v x g _ _ (some d) (Or.inl ⟨rfl, rfl⟩) _ st hr
  refine ⟨?_, by rw [← h3, ← h1, e5, hu.grad]⟩
  rw [h2, hu.attrs.value, h1] at e4
  exact Ext.fin.inj e4

/-- The steps of the line search, when it succeeds, are good. -/
theorem goodStep_of_uses {S : Bfgs ℝ ι ℝ} {ls : Backtracking ℝ (ι → ℝ)} {a : ℝ} (hu : S.UsesArmijo ls a) {L : ℝ} (hL : 0 < L)
    (hsm : LSmooth S.fE S.gE L) (hc0 : 0 < ls.c1) (hc1 : ls.c1 < 1) (x0 : ι → ℝ) (k : ℕ)
    (hok : (S.step (S.iter x0 k).1 (S.iter x0 k).2 (direction (S.iter x0 k).2)).failed = false)
    (hd : S.grad (S.iter x0 k).1 ⬝ᵥ direction (S.iter x0 k).2 < 0) :
    S.GoodStep (ls.c1 * (ls.decreaseFactor * (2 * (1 - ls.c1) / L))) (ls.c1 * min ls.maxStepsize a)
      (S.iter x0 k).1 (direction (S.iter x0 k).2) (S.iter x0 (k + 1)).1 := by
  have hval := (S.C74_bfgs_state (lsSound_of_uses hu) x0 k).1
  have hgr := (S.C74_bfgs_state (lsSound_of_uses hu) x0 k).2.1
  have hs1 : (S.iter x0 (k + 1)).1 = (S.step (S.iter x0 k).1 (S.iter x0 k).2 (direction (S.iter x0 k).2)).params := by
    rw [iter_succ]; rfl
  obtain ⟨b, hb, hb0⟩ := hu.search
  have hstep : S.step (S.iter x0 k).1 (S.iter x0 k).2 (direction (S.iter x0 k).2) =
      S.runLs (S.initStep (S.iter x0 k).2.stepsize) (S.iter x0 k).1 (S.f (S.iter x0 k).1) (S.grad (S.iter x0 k).1)
        (direction (S.iter x0 k).2) := by
    unfold step
    rw [hb]
    simp only [if_pos hb0, hval, hgr]
  rw [hstep] at hok hs1
  rw [hs1]
  have hi := hu.init (S.iter x0 k).2.stepsize
  generalize S.initStep (S.iter x0 k).2.stepsize = i0 at *
  generalize direction (S.iter x0 k).2 = d at *
  generalize (S.iter x0 k).1 = x at *
  obtain ⟨st, hr, e1, e2, e3, e4⟩ := hu.runs i0 x (S.f x) (S.grad x) d
  have hdne : d ≠ 0 := by intro h0; rw [h0, dotProduct_zero] at hd; exact lt_irrefl _ hd
  have hdd : 0 < d ⬝ᵥ d := (isVdot_dotProduct (K := ℝ) (ι := ι)).pos d hdne
  have hc : 0 < 1 - ls.c1 := by linarith
  have hi0 : inner ℝ (S.gE (pt x)) (pt d) = S.grad x ⬝ᵥ d := inner_pt _ _
  have hacc : ∀ s, 0 ≤ s → s ≤ 2 * (1 - ls.c1) * |S.grad x ⬝ᵥ d| / (L * (d ⬝ᵥ d)) →
      S.f (x + s • d) ≤ S.f x + ls.c1 * s * ls.vdot (ls.grad x) d := by
    intro s hs0 hs
    rw [hu.vdot, hu.grad]
    have := armijo_of_smooth (c1 := ls.c1) hL hsm (pt x) (pt d) (by rw [hi0]; exact hd) hs0 (by rw [hi0, norm_pt]; exact hs)
    rw [hi0] at this
    exact this
  rw [← hu.grad] at hr
  obtain ⟨b1, b2, b3, b4, b5, b6, b7, b8⟩ := bt_step hu.attrs (lt_of_lt_of_le hu.initPos hi) x d hacc hr
  rw [hu.grad] at b1 b2 b3 b4 b7
  set o := S.runLs i0 x (S.f x) (S.grad x) d
  have hfl : st.failed = false := by rw [e4]; exact hok
  have h1 := b7 hfl
  rw [e1, hu.vdot] at h1
  have h1' : S.f o.params ≤ S.f x + ls.c1 * o.stepsize * (S.grad x ⬝ᵥ d) := h1
  refine ⟨o.stepsize, b1, by rw [← e1, b4], ?_⟩
  rcases min_le_iff.mp b3 with h | h
  · right
    have h2 : min ls.maxStepsize a ≤ o.stepsize := le_trans (min_le_min_left _ hi) h
    rw [abs_of_neg hd]
    have h3 := mul_le_mul_of_nonneg_left h2 hc0.le
    have h4 := mul_le_mul_of_nonneg_right h3 (show 0 ≤ -(S.grad x ⬝ᵥ d) by linarith)
    linarith
  · left
    rw [abs_of_neg hd] at h
    have h3 := mul_le_mul_of_nonneg_left h hc0.le
    have h4 := mul_le_mul_of_nonneg_right h3 (show 0 ≤ -(S.grad x ⬝ᵥ d) by linarith)
    refine le_trans (le_of_eq ?_) (le_trans h4 (by linarith))
    field_simp

/-- **C89, BFGS with the Armijo backtracking line search.**  On a `μ`-strongly convex `L`-smooth function, with `linesearch_init="max"`
(or any initial stepsizes bounded below by `a > 0`), as long as no line search fails: the excess over the minimum after `n` iterations is
at most `exp (-r n)` times the initial excess, with `r = bfgsStepRate μ L (2 c1 (1 - c1) decrease_factor / L) (c1 min (max_stepsize, a))`. -/
theorem C89_bfgs_backtracking (S : Bfgs ℝ ι ℝ) (ls : Backtracking ℝ (ι → ℝ)) (a : ℝ) (hu : S.UsesArmijo ls a) (μ L : ℝ) (hμ : 0 < μ)
    (hL : μ ≤ L) (hsm : LSmooth S.fE S.gE L) (hsc : StrongConvexWith S.fE S.gE μ) (hc0 : 0 < ls.c1) (hc1 : ls.c1 < 1)
    (x0 : ι → ℝ) (n : ℕ) (hne : ∀ k < n, S.grad (S.iter x0 k).1 ≠ 0)
    (hok : ∀ k < n, (S.step (S.iter x0 k).1 (S.iter x0 k).2 (direction (S.iter x0 k).2)).failed = false)
    (xs : ι → ℝ) (hxs : S.grad xs = 0) :
    let r := bfgsStepRate μ L (ls.c1 * (ls.decreaseFactor * (2 * (1 - ls.c1) / L))) (ls.c1 * min ls.maxStepsize a)
    0 < r ∧ S.f (S.iter x0 n).1 - S.f xs ≤ Real.exp (-(r * n)) * (S.f x0 - S.f xs) ∧
    ((S.iter x0 n).1 - xs) ⬝ᵥ ((S.iter x0 n).1 - xs) ≤ 2 / μ * (Real.exp (-(r * n)) * (S.f x0 - S.f xs)) := by
  intro r
  have hL0 : 0 < L := lt_of_lt_of_le hμ hL
  have hc : 0 < 1 - ls.c1 := by linarith
  have hdf := hu.attrs.decPos
  have h1 : 0 < ls.c1 * (ls.decreaseFactor * (2 * (1 - ls.c1) / L)) := by positivity
  have h2 : 0 < ls.c1 * min ls.maxStepsize a := mul_pos hc0 (lt_min hu.attrs.maxStep hu.initPos)
  refine ⟨?_, S.C89_bfgs_linear (fun s x v g d => (lsSound_of_uses hu s x v g d).2) μ L hμ hL hsm hsc _ _ h1 h2 x0 n hne
    (fun k hk hd => goodStep_of_uses hu hL0 hsm hc0 hc1 x0 k (hok k hk) hd) xs hxs⟩
  have h3 := lt_min h1 (half_pos h2)
  have h4 := Real.exp_pos (1 - L)
  show 0 < bfgsStepRate _ _ _ _
  unfold bfgsStepRate
  positivity

/-- **C89, a run of BFGS.**  Under the same hypotheses, if no line search fails and `maxiter` is large enough for `2 L exp (-r maxiter)` times
the initial excess to be below `tol²`, then `run` returns parameters whose gradient norm is at most `tol`. -/
theorem C89_bfgs_run (S : Bfgs ℝ ι ℝ) (ls : Backtracking ℝ (ι → ℝ)) (a : ℝ) (hu : S.UsesArmijo ls a) (μ L : ℝ) (hμ : 0 < μ)
    (hL : μ ≤ L) (hsm : LSmooth S.fE S.gE L) (hsc : StrongConvexWith S.fE S.gE μ) (hc0 : 0 < ls.c1) (hc1 : ls.c1 < 1)
    (hnorm : ∀ v, S.norm v = ‖pt v‖) (htol : 0 ≤ S.tol) (hm : 1 ≤ S.maxiter) (x0 xs : ι → ℝ) (hx0 : S.grad x0 ≠ 0)
    (hok : ∀ k < S.maxiter, (S.step (S.iter x0 k).1 (S.iter x0 k).2 (direction (S.iter x0 k).2)).failed = false)
    (hxs : S.grad xs = 0)
    (hmax : 2 * L * (Real.exp (-(bfgsStepRate μ L (ls.c1 * (ls.decreaseFactor * (2 * (1 - ls.c1) / L))) (ls.c1 * min ls.maxStepsize a) *
      S.maxiter)) * (S.f x0 - S.f xs)) ≤ S.tol ^ 2) {r : (ι → ℝ) × BfgsState ℝ ι ℝ} (hr : S.run x0 = .ok r) :
    ‖pt (S.grad r.1)‖ ≤ S.tol ∧ r.2.error = .fin ‖pt (S.grad r.1)‖ ∧ r.2.value = S.f r.1 ∧ r.2.grad = S.grad r.1 := by
  have hL0 : 0 < L := lt_of_lt_of_le hμ hL
  obtain ⟨k, hk1, hk2, hrk, hcont, hstop⟩ := runS_spec hm hr
  have hrk' : r = S.iter x0 k := hrk
  have hstate := S.C74_bfgs_state (lsSound_of_uses hu) x0
  have herr : ∀ j, 1 ≤ j → (S.iter x0 j).2.error = .fin ‖pt (S.grad (S.iter x0 j).1)‖ := fun j hj => by
    rw [(hstate j).2.2.2 hj, hnorm]
  have hfin : ‖pt (S.grad (S.iter x0 k).1)‖ ≤ S.tol := by
    rcases hstop with h | h
    · have hne : ∀ j < k, S.grad (S.iter x0 j).1 ≠ 0 := by
        intro j hj h0
        rcases Nat.eq_zero_or_pos j with hj0 | hj0
        · rw [hj0] at h0; exact hx0 h0
        · have h1 : Ext.gt (S.iter x0 j).2.error (.fin S.tol) = true := hcont j hj0 hj
          rw [herr j hj0, gt_fin, h0, show pt (0 : ι → ℝ) = 0 from rfl, norm_zero] at h1
          linarith
      have h1 := (S.C89_bfgs_backtracking ls a hu μ L hμ hL hsm hsc hc0 hc1 x0 k hne (fun j hj => hok j (by omega)) xs hxs).2.1
      have hg0 : S.gE (pt xs) = 0 := by
        show pt (S.grad xs) = 0
        rw [hxs]; rfl
      have hmin : ∀ y, S.fE (pt xs) ≤ S.fE y := fun y => by
        have := hsc.grad_bound hμ (pt xs) y
        rw [hg0, norm_zero] at this
        nlinarith
      have h2 := grad_sq_le hL0 hsm hmin (pt (S.iter x0 k).1)
      have h2' : ‖pt (S.grad (S.iter x0 k).1)‖ ^ 2 ≤ 2 * L * (S.f (S.iter x0 k).1 - S.f xs) := h2
      rw [h] at h1 h2' ⊢
      have h3 := mul_le_mul_of_nonneg_left h1 (show 0 ≤ 2 * L by positivity)
      exact le_of_sq_le_sq (le_trans h2' (le_trans h3 hmax)) htol
    · have h1 : Ext.gt (S.iter x0 k).2.error (.fin S.tol) = false := h
      rw [herr k hk1] at h1
      by_contra hcon
      rw [gt_fin.mpr (not_le.mp hcon)] at h1
      cases h1
  rw [hrk']
  exact ⟨hfin, herr k hk1, (hstate k).1, (hstate k).2.1⟩

/-! ### Example: `‖x‖² / 2` on the plane -/

/-- The line search of the example. -/
noncomputable def exBt : Backtracking ℝ (Fin 2 → ℝ) where
  f := fun x => .fin ((x ⬝ᵥ x) / 2)
  grad := fun x => x
  vdot := fun x y => x ⬝ᵥ y
  maxiter := 30
  tol := 0
  condition := .armijo
  c1 := 1 / 4
  c2 := 9 / 10
  decreaseFactor := 1 / 2
  maxStepsize := 1 / 2
  unroll := false
  jit := true

/-- The solver of the example. -/
noncomputable def exArmijo : Bfgs ℝ (Fin 2) ℝ where
  f := fun x => (x ⬝ᵥ x) / 2
  grad := fun x => x
  norm := fun x => ‖pt x‖
  stepsize := .const 0
  maxStepsize := 1 / 2
  initStep := fun _ => 1 / 2
  tol := 1 / 1000
  maxiter := 500
  unroll := false
  jit := true
  runLs := btLs exBt

theorem exArmijo_uses : exArmijo.UsesArmijo exBt (1 / 2) := by
  have ha : ArmijoLs exBt exArmijo.f :=
    ⟨rfl, rfl, rfl, show (0 : ℝ) < 1 / 2 by norm_num, show (0 : ℝ) < 1 / 2 by norm_num, show (1 / 2 : ℝ) ≤ 1 by norm_num,
      show 1 ≤ 30 by omega⟩
  exact ⟨runsBt_btLs ha (Or.inr rfl), ha, rfl, rfl, ⟨0, rfl, le_refl _⟩, fun s => le_refl _, by norm_num⟩

/-- In the example all searches succeed at the first trial, and the solver halves the point. -/
theorem exArmijo_iter (x0 : Fin 2 → ℝ) (k : ℕ) :
    (exArmijo.iter x0 k).1 = (1 / 2 : ℝ) ^ k • x0 ∧ (exArmijo.iter x0 k).2.H = 1 ∧
      (exArmijo.step (exArmijo.iter x0 k).1 (exArmijo.iter x0 k).2 (direction (exArmijo.iter x0 k).2)).failed = false := by
  have hst := exArmijo.C74_bfgs_state (lsSound_of_uses exArmijo_uses) x0
  have key : ∀ j, (exArmijo.iter x0 j).2.H = 1 →
      (exArmijo.step (exArmijo.iter x0 j).1 (exArmijo.iter x0 j).2 (direction (exArmijo.iter x0 j).2)).failed = false ∧
      (exArmijo.iter x0 (j + 1)).1 = (1 / 2 : ℝ) • (exArmijo.iter x0 j).1 := by
    intro j hH
    have hg : (exArmijo.iter x0 j).2.grad = (exArmijo.iter x0 j).1 := (hst j).2.1
    have hd : direction (exArmijo.iter x0 j).2 = -(exArmijo.iter x0 j).1 := by rw [direction, hH, one_mulVec, hg]
    have hs1 : (exArmijo.iter x0 (j + 1)).1 =
        (exArmijo.step (exArmijo.iter x0 j).1 (exArmijo.iter x0 j).2 (direction (exArmijo.iter x0 j).2)).params := by
      rw [iter_succ]; rfl
    have hstep : exArmijo.step (exArmijo.iter x0 j).1 (exArmijo.iter x0 j).2 (direction (exArmijo.iter x0 j).2) =
        exArmijo.runLs (1 / 2) (exArmijo.iter x0 j).1 (exArmijo.f (exArmijo.iter x0 j).1) (exBt.grad (exArmijo.iter x0 j).1)
          (direction (exArmijo.iter x0 j).2) := by
      have e : exArmijo.stepsize = .const 0 := rfl
      unfold step
      rw [e]
      simp only [le_refl, if_true, (hst j).1, hg]
      rfl
    rw [hs1, hstep, hd]
    generalize (exArmijo.iter x0 j).1 = x
    obtain ⟨st, hr, e1, e2, e3, e4⟩ := exArmijo_uses.runs (1 / 2) x (exArmijo.f x) (exBt.grad x) (-x)
    have hacc : ∀ s, 0 ≤ s → s ≤ 1 → exArmijo.f (x + s • -x) ≤ exArmijo.f x + exBt.c1 * s * exBt.vdot (exBt.grad x) (-x) := by
      intro s h0 h1
      show (x + s • -x) ⬝ᵥ (x + s • -x) / 2 ≤ x ⬝ᵥ x / 2 + 1 / 4 * s * (x ⬝ᵥ -x)
      have e : x + s • -x = (1 - s) • x := by rw [smul_neg, sub_smul, one_smul]; abel
      rw [e, smul_dotProduct, dotProduct_smul, dotProduct_neg, smul_eq_mul, smul_eq_mul]
      have hxx : 0 ≤ x ⬝ᵥ x := by rw [← norm_pt]; positivity
      nlinarith [mul_nonneg h0 hxx, mul_nonneg (mul_nonneg h0 hxx) (sub_nonneg.mpr h1)]
    obtain ⟨b1, b2, b3, b4, b5, b6, b7, b8⟩ := bt_step exArmijo_uses.attrs (by norm_num : (0 : ℝ) < 1 / 2) x (-x) hacc hr
    have hm : exBt.maxStepsize = 1 / 2 := rfl
    have hdf : exBt.decreaseFactor = 1 / 2 := rfl
    have hs : (exArmijo.runLs (1 / 2) x (exArmijo.f x) (exBt.grad x) (-x)).stepsize = 1 / 2 := by
      refine le_antisymm b2 ?_
      rw [hm, hdf] at b3
      refine le_trans ?_ b3
      norm_num
    refine ⟨?_, ?_⟩
    · rw [← e4]
      apply b8
      rw [hm, hdf, min_self]
      have : exBt.maxiter - 1 = 29 := rfl
      rw [this]
      norm_num
    · rw [← e1, b4, hs]
      ext i
      simp
      ring
  induction k with
  | zero => exact ⟨by simp [iter], rfl, (key 0 rfl).1⟩
  | succ k ih =>
    obtain ⟨h1, h2, h3⟩ := ih
    have hx := (key k h2).2
    have hH : (exArmijo.iter x0 (k + 1)).2.H = 1 := by
      rw [H_succ, h2]
      have hg := fun j => (hst j).2.1
      have : (exArmijo.pair x0 k).2 = (exArmijo.pair x0 k).1 := by simp only [pair, hg]; rfl
      rw [this, newH_one]
    refine ⟨?_, hH, (key (k + 1) hH).1⟩
    rw [hx, h1, smul_smul, pow_succ']

/-- The hypotheses of C89 hold for the example at every iteration. -/
example : exArmijo.UsesArmijo exBt (1 / 2) ∧ LSmooth exArmijo.fE exArmijo.gE 1 ∧ StrongConvexWith exArmijo.fE exArmijo.gE 1 ∧
    ∀ k, exArmijo.grad (exArmijo.iter ![1, 2] k).1 ≠ 0 ∧
      (exArmijo.step (exArmijo.iter ![1, 2] k).1 (exArmijo.iter ![1, 2] k).2 (direction (exArmijo.iter ![1, 2] k).2)).failed = false := by
  have hf : ∀ x, exArmijo.fE x = ‖x‖ ^ 2 / 2 := fun x => by
    show (x.ofLp ⬝ᵥ x.ofLp) / 2 = _
    rw [← norm_pt]
  have hgE : ∀ x, exArmijo.gE x = x := fun x => rfl
  refine ⟨exArmijo_uses, ⟨fun x => ?_, fun x y => ?_⟩, fun x y => ?_, fun k => ⟨?_, (exArmijo_iter _ k).2.2⟩⟩
  · have e : exArmijo.fE = fun x => ‖x‖ ^ 2 / 2 := funext hf
    rw [e, hgE]
    rw [hasGradientAt_iff_hasFDerivAt]
    have h1 := (hasStrictFDerivAt_norm_sq x).hasFDerivAt.const_mul (1 / 2 : ℝ)
    have e2 : (fun x : EuclideanSpace ℝ (Fin 2) => ‖x‖ ^ 2 / 2) = fun x => 1 / 2 * ‖x‖ ^ 2 := by funext x; ring
    rw [e2]
    refine h1.congr_fderiv ?_
    ext v
    simp
  · rw [hgE, hgE, one_mul]
  · rw [hf, hf, hgE]
    have := norm_sub_sq_real y x
    rw [inner_sub_right, real_inner_self_eq_norm_sq, real_inner_comm]
    linarith
  · show (exArmijo.iter ![1, 2] k).1 ≠ 0
    rw [(exArmijo_iter _ k).1]
    refine smul_ne_zero (by positivity) ?_
    intro h
    have := congrFun h 0
    simp at this

end Bfgs

end Jaxopt.QuasiNewton
