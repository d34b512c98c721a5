import Verif.SGD.InterpProps
import Verif.LineSearch.ZoomLiveProps

/-!
# Property C112: when the Goldstein search of `ArmijoSGD` ends with an accepted step

`reset_option="goldstein"` makes the loop of `armijo_line_search` (armijo_sgd.py lines 90-114) shrink the step when the decrease is
too small and enlarge it when the decrease is too large.
-/

set_option autoImplicit false
set_option linter.unusedSectionVars false
set_option linter.unusedVariables false

namespace Jaxopt.SGD

open Jaxopt.Base Jaxopt.Loop

namespace Armijo

section field

variable {K E D : Type*} [Field K] [LinearOrder K] [IsStrictOrderedRing K] [AddCommGroup E] [Module K E]

/-- **C112**, conflicting conditions: a step accepted at a finite value satisfies `(1 - 2·aggressiveness)·stepsize·‖grad‖² ≤ eps`. -/
theorem C112_conflict (s : Armijo K E D) (hreset : s.reset = .goldstein) (b : D) (x : E) (fc step : K) (t : LSState K E)
    (h : s.lineSearch b x (.fin fc) step (s.grad b x) = .ok t) (hv : t.violated = false) (fn : K)
    (hfn : s.f b (x - t.stepsize • s.grad b x) = .fin fn) :
    (1 - 2 * s.aggressiveness) * (t.stepsize * s.sqnorm (s.grad b x)) ≤ s.eps := by
  have h1 := C22_goldstein_curvature s hreset b x fc step t h hv fn hfn
  obtain ⟨h2, h3, -⟩ := C22_armijo_goldstein s hreset b x fc step t h hv
  rw [h2, hfn] at h3
  rcases h3 with h3 | h3
  · cases h3
  · unfold ArmijoOK at h3
    rw [hfn] at h3
    have h3' : fn ≤ fc - t.stepsize * (1 - s.aggressiveness) * s.sqnorm (s.grad b x) + s.eps := h3
    linarith

/-- **C112**, `aggressiveness < 1/2`: in exact arithmetic no step is ever accepted away from stationary points: the search uses all its
`maxls` passes, whatever the (finite) objective. -/
theorem C112_never_accepts (s : Armijo K E D) (hreset : s.reset = .goldstein) (hag : s.aggressiveness < 1 / 2) (heps : s.eps = 0)
    (hdec : 0 < s.decreaseFactor) (hinc : 0 < s.increaseFactor) (hmax : 0 < s.maxStepsize) {F : D → E → K} (hf : ∀ b x, s.f b x = .fin (F b x))
    (b : D) (x : E) (hg : 0 < s.sqnorm (s.grad b x)) {step : K} (hstep : 0 < step) (t : LSState K E)
    (h : s.lineSearch b x (.fin (F b x)) step (s.grad b x) = .ok t) :
    t.violated = true ∧ t = (s.body b x (s.grad b x) (.fin (F b x)))^[s.maxls] (s.at_ b x (s.grad b x) step true) := by
  have hpos : 0 < t.stepsize := lineSearch_inv s b x _ step _ t h (fun u => 0 < u) hstep
    (fun u hu _ => lt_min (mul_pos hu hdec) hmax) (fun _ u hu => lt_min (mul_pos hu hinc) hmax)
  have hv : t.violated = true := by
    by_contra hv
    have := C112_conflict s hreset b x _ step t h (by simpa using hv) _ (hf _ _)
    rw [heps] at this
    have := mul_pos (show 0 < 1 - 2 * s.aggressiveness by linarith) (mul_pos hpos hg)
    linarith
  obtain ⟨k, _, e, _, h4⟩ := lineSearch_cases s b x _ step _ t h
  rcases h4 with rfl | h4
  · exact ⟨hv, e⟩
  · rw [hv] at h4; cases h4

end field

section real

variable {V D : Type*} [NormedAddCommGroup V] [InnerProductSpace ℝ V] [CompleteSpace V]

/-- One pass of the search from a consistent state with stepsize `u`, when the Armijo condition holds below `hi` and the curvature
condition above `lo`. -/
theorem pass_window (s : Armijo ℝ V D) (hreset : s.reset = .goldstein) (b : D) (x : V) (fc : Ext ℝ) {lo hi : ℝ} (hlo : 0 < lo)
    (hd : 0 < s.decreaseFactor) (hd1 : s.decreaseFactor ≤ 1) (hdw : lo ≤ hi * s.decreaseFactor) (hiw : lo * s.increaseFactor ≤ hi)
    (hmax : lo ≤ s.maxStepsize)
    (hw : ∀ u, 0 < u → u ≤ hi → wolfeViolated s.eps u s.coef fc (s.f b (x + (-u) • s.grad b x)) (s.sqnorm (s.grad b x)) = false)
    (hc : ∀ u, lo ≤ u → curvatureViolated u s.coef fc (s.f b (x + (-u) • s.grad b x)) (s.sqnorm (s.grad b x)) = false)
    (t : LSState ℝ V) (ht : s.Consistent b x (s.grad b x) t) (h0 : 0 < t.stepsize) (h1 : t.stepsize ≤ s.maxStepsize) :
    let t' := s.body b x (s.grad b x) fc t
    t'.violated = false ∨ (hi < t.stepsize ∧ t'.stepsize = t.stepsize * s.decreaseFactor) ∨
      (t.stepsize < lo ∧ (t'.stepsize = t.stepsize * s.increaseFactor ∨ lo ≤ t'.stepsize) ∧ t'.stepsize ≤ hi ∧ t'.stepsize ≤ s.maxStepsize) := by
  intro t'
  obtain ⟨c1, c2⟩ := ht
  by_cases hu : t.stepsize ≤ hi
  · have hw0 := hw t.stepsize h0 hu
    rw [← c2] at hw0
    cases hcv : curvatureViolated t.stepsize s.coef fc t.fNext (s.sqnorm (s.grad b x))
    · left
      simp [t', body, hreset, hw0, hcv]
    · have hlt : t.stepsize < lo := by
        by_contra hge
        have := hc t.stepsize (not_lt.mp hge)
        rw [← c2, hcv] at this; cases this
      have e : t'.stepsize = min (t.stepsize * s.increaseFactor) s.maxStepsize := by
        simp [t', body, hreset, hw0, hcv, updateStepsize, at_]
      refine .inr (.inr ⟨hlt, ?_, ?_, ?_⟩)
      · rw [e]
        rcases le_total (t.stepsize * s.increaseFactor) s.maxStepsize with h | h
        · exact .inl (min_eq_left h)
        · exact .inr (by rw [min_eq_right h]; exact hmax)
      · rw [e]
        rcases le_total 0 s.increaseFactor with hi0 | hi0
        · exact (min_le_left _ _).trans ((mul_le_mul_of_nonneg_right hlt.le hi0).trans hiw)
        · have : t.stepsize * s.increaseFactor ≤ 0 := mul_nonpos_of_nonneg_of_nonpos h0.le hi0
          have : 0 ≤ hi := by nlinarith
          exact (min_le_left _ _).trans (by linarith)
      · rw [e]; exact min_le_right _ _
  · have hgt : hi < t.stepsize := not_le.mp hu
    have hlo' : lo ≤ t.stepsize := by nlinarith
    cases hwv : wolfeViolated s.eps t.stepsize s.coef fc t.fNext (s.sqnorm (s.grad b x))
    · left
      have := hc t.stepsize hlo'
      rw [← c2] at this
      simp [t', body, hreset, hwv, this]
    · refine .inr (.inl ⟨hgt, ?_⟩)
      have e : min (t.stepsize * s.decreaseFactor) s.maxStepsize = t.stepsize * s.decreaseFactor :=
        min_eq_left ((mul_le_of_le_one_right h0.le hd1).trans h1)
      have hc' := hc (t.stepsize * s.decreaseFactor) (hdw.trans (mul_le_mul_of_nonneg_right hgt.le hd.le))
      simp only [t', body, hreset, hwv, updateStepsize, at_, e, hc', if_true, Bool.false_eq_true, if_false]

/-- **C112**, well-conditioned objectives: let the objective of the batch be `L`-smooth and `μ`-strongly convex, and let the window
`[2(1-aggressiveness)/μ, 2·aggressiveness/L]` be wide enough for both factors and reach below `max_stepsize`.  When `n` reductions
bring the initial step below the upper end and `n` enlargements bring it above the lower end, `maxls > n` passes end with an accepted step. -/
theorem C112_accepts (s : Armijo ℝ V D) (hreset : s.reset = .goldstein) (F : D → V → ℝ) (hf : ∀ b x, s.f b x = .fin (F b x))
    (hsq : ∀ v, s.sqnorm v = ‖v‖ ^ 2) (heps : 0 ≤ s.eps) (b : D) (x : V) {L μ : ℝ} (hL : 0 < L) (hμ : 0 < μ)
    (hsm : LSmooth (F b) (s.grad b) L)
    (hsc : ∀ y, F b x + inner ℝ (s.grad b x) (y - x) + μ / 2 * ‖y - x‖ ^ 2 ≤ F b y)
    (ha0 : 0 < s.aggressiveness) (ha : s.aggressiveness < 1) (hd : 0 < s.decreaseFactor) (hd1 : s.decreaseFactor ≤ 1) (hi1 : 1 ≤ s.increaseFactor)
    (hdw : (1 - s.aggressiveness) * L ≤ s.aggressiveness * μ * s.decreaseFactor)
    (hiw : (1 - s.aggressiveness) * L * s.increaseFactor ≤ s.aggressiveness * μ)
    (hmax : 2 * (1 - s.aggressiveness) / μ ≤ s.maxStepsize) {step : ℝ} (h0 : 0 < step) (h1 : step ≤ s.maxStepsize) {n : ℕ}
    (hn1 : step * s.decreaseFactor ^ n ≤ 2 * s.aggressiveness / L) (hn2 : 2 * (1 - s.aggressiveness) / μ ≤ step * s.increaseFactor ^ n)
    (hm : n < s.maxls) {t : LSState ℝ V} (h : s.lineSearch b x (.fin (F b x)) step (s.grad b x) = .ok t) :
    t.violated = false ∧ F b (x - t.stepsize • s.grad b x) ≤ F b x - (1 - s.aggressiveness) * (t.stepsize * ‖s.grad b x‖ ^ 2) + s.eps ∧
      F b x - s.aggressiveness * (t.stepsize * ‖s.grad b x‖ ^ 2) ≤ F b (x - t.stepsize • s.grad b x) := by
  set lo := 2 * (1 - s.aggressiveness) / μ with hlo
  set hi := 2 * s.aggressiveness / L with hhi
  have hlo0 : 0 < lo := div_pos (by linarith) hμ
  have hhi0 : 0 < hi := div_pos (by linarith) hL
  have e1 : lo * μ = 2 * (1 - s.aggressiveness) := div_mul_cancel₀ _ hμ.ne'
  have e2 : hi * L = 2 * s.aggressiveness := div_mul_cancel₀ _ hL.ne'
  have w1 : lo ≤ hi * s.decreaseFactor := by
    have : lo * (μ * L) ≤ hi * s.decreaseFactor * (μ * L) := by
      have a1 : lo * (μ * L) = 2 * ((1 - s.aggressiveness) * L) := by rw [← mul_assoc, e1]; ring
      have a2 : hi * s.decreaseFactor * (μ * L) = 2 * (s.aggressiveness * μ * s.decreaseFactor) := by
        rw [show hi * s.decreaseFactor * (μ * L) = hi * L * (s.decreaseFactor * μ) by ring, e2]; ring
      rw [a1, a2]; linarith
    exact le_of_mul_le_mul_right this (mul_pos hμ hL)
  have w2 : lo * s.increaseFactor ≤ hi := by
    have : lo * s.increaseFactor * (μ * L) ≤ hi * (μ * L) := by
      have a1 : lo * s.increaseFactor * (μ * L) = 2 * ((1 - s.aggressiveness) * L * s.increaseFactor) := by
        rw [show lo * s.increaseFactor * (μ * L) = lo * μ * (s.increaseFactor * L) by ring, e1]; ring
      have a2 : hi * (μ * L) = 2 * (s.aggressiveness * μ) := by
        rw [show hi * (μ * L) = hi * L * μ by ring, e2]; ring
      rw [a1, a2]; linarith
    exact le_of_mul_le_mul_right this (mul_pos hμ hL)
  have hg0 : 0 ≤ ‖s.grad b x‖ ^ 2 := by positivity
  have hmove : ∀ u : ℝ, x + (-u) • s.grad b x = x - u • s.grad b x := fun u => by rw [neg_smul, ← sub_eq_add_neg]
  have e : ∀ u : ℝ, x - u • s.grad b x - x = (-u) • s.grad b x := fun u => by rw [neg_smul]; abel
  have hw : ∀ u, 0 < u → u ≤ hi →
      wolfeViolated s.eps u s.coef (.fin (F b x)) (s.f b (x + (-u) • s.grad b x)) (s.sqnorm (s.grad b x)) = false := by
    intro u hu hu'
    rw [not_violated_iff]
    right
    have hdesc := hsm.descent x (x - u • s.grad b x)
    rw [e, inner_smul_right, real_inner_self_eq_norm_sq, norm_smul, mul_pow, norm_neg, Real.norm_eq_abs, sq_abs] at hdesc
    rw [hmove, hf, hsq]
    change F b _ ≤ _
    have hLu : u * L ≤ 2 * s.aggressiveness := by rw [← e2]; exact mul_le_mul_of_nonneg_right hu' hL.le
    have := mul_le_mul_of_nonneg_right hLu (mul_nonneg hu.le hg0)
    simp only [coef]
    nlinarith
  have hc : ∀ u, lo ≤ u →
      curvatureViolated u s.coef (.fin (F b x)) (s.f b (x + (-u) • s.grad b x)) (s.sqnorm (s.grad b x)) = false := by
    intro u hu
    have hu0 : 0 < u := hlo0.trans_le hu
    have hdesc := hsc (x - u • s.grad b x)
    rw [e, inner_smul_right, real_inner_self_eq_norm_sq, norm_smul, mul_pow, norm_neg, Real.norm_eq_abs, sq_abs] at hdesc
    rw [hmove, hf, hsq]
    simp only [curvatureViolated, Ext.lt, Ext.sub, Ext.neg, Ext.add, coef, decide_eq_false_iff_not, not_lt]
    have hmu : 2 * (1 - s.aggressiveness) ≤ u * μ := by rw [← e1]; exact mul_le_mul_of_nonneg_right hu hμ.le
    have := mul_le_mul_of_nonneg_right hmu (mul_nonneg hu0.le hg0)
    nlinarith
  set B := s.body b x (s.grad b x) (.fin (F b x)) with hB
  set t0 := s.at_ b x (s.grad b x) step true with ht0
  have hcons : ∀ k, s.Consistent b x (s.grad b x) (B^[k] t0) := by
    intro k
    induction k with
    | zero => exact ⟨rfl, rfl⟩
    | succ k ih => rw [Function.iterate_succ_apply']; exact body_consistent s b x _ _ _ ih
  have hpass := fun t => pass_window s hreset b x (.fin (F b x)) hlo0 hd hd1 w1 w2 hmax hw hc t
  -- as long as nothing was accepted the step is in the window or still on one side of it
  have hinv : ∀ k, (∀ j, 1 ≤ j → j ≤ k → (B^[j] t0).violated = true) →
      0 < (B^[k] t0).stepsize ∧ (B^[k] t0).stepsize ≤ s.maxStepsize ∧
      ((lo ≤ (B^[k] t0).stepsize ∧ (B^[k] t0).stepsize ≤ hi) ∨ (hi < (B^[k] t0).stepsize ∧ (B^[k] t0).stepsize = step * s.decreaseFactor ^ k) ∨
        ((B^[k] t0).stepsize < lo ∧ (B^[k] t0).stepsize = step * s.increaseFactor ^ k)) := by
    intro k
    induction k with
    | zero =>
      intro _
      refine ⟨h0, h1, ?_⟩
      change (lo ≤ step ∧ step ≤ hi) ∨ (hi < step ∧ step = step * s.decreaseFactor ^ 0) ∨ (step < lo ∧ step = step * s.increaseFactor ^ 0)
      rw [pow_zero, mul_one, pow_zero, mul_one]
      rcases lt_or_ge step lo with h | h
      · exact .inr (.inr ⟨h, rfl⟩)
      · rcases le_or_gt step hi with h' | h'
        · exact .inl ⟨h, h'⟩
        · exact .inr (.inl ⟨h', rfl⟩)
    | succ k ih =>
      intro hall
      obtain ⟨p1, p2, p3⟩ := ih fun j h1 h2 => hall j h1 (by omega)
      have hv := hall (k + 1) (by omega) le_rfl
      rw [Function.iterate_succ_apply'] at hv ⊢
      rcases hpass _ (hcons k) p1 p2 with q | ⟨q1, q2⟩ | ⟨q1, q2, q3, q4⟩
      · rw [hv] at q; cases q
      · have hge : lo ≤ (B^[k] t0).stepsize * s.decreaseFactor := w1.trans (mul_le_mul_of_nonneg_right q1.le hd.le)
        rcases p3 with p3 | p3 | p3
        · linarith [p3.2]
        · rw [q2]
          refine ⟨mul_pos p1 hd, (mul_le_of_le_one_right p1.le hd1).trans p2, ?_⟩
          rcases le_or_gt ((B^[k] t0).stepsize * s.decreaseFactor) hi with h' | h'
          · exact .inl ⟨hge, h'⟩
          · exact .inr (.inl ⟨h', by rw [p3.2, pow_succ]; ring⟩)
        · linarith [p3.1, (show lo ≤ hi by nlinarith)]
      · rcases p3 with p3 | p3 | p3
        · linarith [p3.1]
        · linarith [p3.1, (show lo ≤ hi by nlinarith)]
        · have hpos : 0 < (B (B^[k] t0)).stepsize := by
            rcases q2 with q2 | q2
            · rw [q2]; exact mul_pos p1 (by linarith)
            · linarith
          refine ⟨hpos, q4, ?_⟩
          rcases q2 with q2 | q2
          · rcases lt_or_ge (B (B^[k] t0)).stepsize lo with h' | h'
            · exact .inr (.inr ⟨h', by rw [q2, p3.2, pow_succ]; ring⟩)
            · exact .inl ⟨h', q3⟩
          · exact .inl ⟨q2, q3⟩
  obtain ⟨k, k1, k2, k3, k4⟩ := lineSearch_cases s b x _ step _ t h
  have hv : t.violated = false := by
    rcases k4 with rfl | k4
    · by_contra hne
      have hvt : (B^[s.maxls] t0).violated = true := by rw [← k2]; simpa using hne
      have hall : ∀ j, 1 ≤ j → j ≤ n + 1 → (B^[j] t0).violated = true := by
        intro j _ hj
        rcases Nat.lt_or_ge j s.maxls with h' | h'
        · exact k3 j h'
        · have : j = s.maxls := by omega
          rw [this]; exact hvt
      obtain ⟨p1, p2, p3⟩ := hinv n fun j h1 h2 => hall j h1 (by omega)
      have hin : lo ≤ (B^[n] t0).stepsize ∧ (B^[n] t0).stepsize ≤ hi := by
        rcases p3 with p3 | p3 | p3
        · exact p3
        · rw [p3.2] at p3; linarith [p3.1]
        · rw [p3.2] at p3; linarith [p3.1]
      have hv1 := hall (n + 1) (by omega) le_rfl
      rw [Function.iterate_succ_apply'] at hv1
      rcases hpass _ (hcons n) p1 p2 with q | ⟨q1, -⟩ | ⟨q1, -⟩
      · rw [hv1] at q; cases q
      · linarith [hin.2]
      · linarith [hin.1]
    · exact k4
  refine ⟨hv, ?_, ?_⟩
  · obtain ⟨h2, h3, -⟩ := C22_armijo_goldstein s hreset b x _ step t h hv
    rw [h2, hf] at h3
    rcases h3 with h3 | h3
    · cases h3
    · unfold ArmijoOK at h3
      rw [hf, hsq] at h3
      have h3' : F b (x - t.stepsize • s.grad b x) ≤ F b x - t.stepsize * (1 - s.aggressiveness) * ‖s.grad b x‖ ^ 2 + s.eps := h3
      linarith
  · have := C22_goldstein_curvature s hreset b x _ step t h hv _ (hf _ _)
    rw [hsq] at this
    linarith

end real

end Armijo

/-! ## The search can cycle -/

/-- A convex function with slope `-1` up to `17/20` and a steep rise afterwards. -/
noncomputable def rise (x : ℝ) : ℝ := -x + 100 * max (x - 17 / 20) 0 ^ 2

/-- Its derivative. -/
noncomputable def riseGrad (x : ℝ) : ℝ := -1 + 200 * max (x - 17 / 20) 0

/-- `ArmijoSGD(rise, reset_option="goldstein")`: the other options have their default values, except for the number `maxls` of passes and
the machine epsilon. -/
noncomputable def goldsteinSolver (eps : ℝ) (maxls : ℕ) (unroll : Bool) : Armijo ℝ ℝ Unit :=
  { f := fun _ x => .fin (rise x), grad := fun _ x => riseGrad x, sqnorm := fun g => g ^ 2, norm := fun g => |g|, eps := eps,
    aggressiveness := 9 / 10, decreaseFactor := 4 / 5, increaseFactor := 3 / 2, reset := .goldstein, momentum := 0, maxStepsize := 1,
    maxls := maxls, unroll := unroll, jit := true }

theorem rise_deriv (x : ℝ) : HasDerivAt rise (riseGrad x) x := by
  have h1 : HasDerivAt (fun x : ℝ => x - 17 / 20) 1 x := (hasDerivAt_id x).sub_const _
  have h2 := (Jaxopt.LineSearch.hasDerivAt_posPart_sq (x - 17 / 20)).comp x h1
  have h3 := (hasDerivAt_id x).neg.add (h2.const_mul 100)
  refine h3.congr_deriv ?_
  unfold riseGrad; ring

theorem rise_convex (x y : ℝ) : rise x + riseGrad x * (y - x) ≤ rise y := by
  unfold rise riseGrad
  have h1 : max (x - 17 / 20) 0 ^ 2 + 2 * max (x - 17 / 20) 0 * (y - x) ≤ max (y - 17 / 20) 0 ^ 2 := by
    rcases le_total (x - 17 / 20) 0 with h | h
    · rw [max_eq_right h]
      have := sq_nonneg (max (y - 17 / 20) 0)
      linarith
    · rw [max_eq_left h]
      have h2 := le_max_left (y - 17 / 20) 0
      have h3 := le_max_right (y - 17 / 20) 0
      nlinarith [sq_nonneg (max (y - 17 / 20) 0 - (x - 17 / 20))]
  nlinarith

theorem rise_lip (x y : ℝ) : |riseGrad x - riseGrad y| ≤ 200 * |x - y| := by
  unfold riseGrad
  have h := abs_max_sub_max_le_abs (x - 17 / 20) (y - 17 / 20) 0
  have e : -1 + 200 * max (x - 17 / 20) 0 - (-1 + 200 * max (y - 17 / 20) 0) = 200 * (max (x - 17 / 20) 0 - max (y - 17 / 20) 0) := by ring
  rw [e, abs_mul, abs_of_pos (by norm_num : (0 : ℝ) < 200)]
  have e2 : x - 17 / 20 - (y - 17 / 20) = x - y := by ring
  rw [e2] at h
  linarith

/-- **C112**, cycling: on a convex function with Lipschitz derivative the first update from `0`, with the default factors, aggressiveness and
maximal stepsize, tries the steps `1`, `0.8`, `1.2 → 1`, … forever: whatever `maxls`, it returns the step `1` and the objective goes up
from `0` to `5/4`. -/
theorem C112_cycle_false (eps : ℝ) (h0 : 0 ≤ eps) (h1 : eps < 1) (maxls : ℕ) (unroll : Bool) :
    (∀ x, HasDerivAt rise (riseGrad x) x) ∧ (∀ x y, rise x + riseGrad x * (y - x) ≤ rise y) ∧ (∀ x y, |riseGrad x - riseGrad y| ≤ 200 * |x - y|) ∧
    ∃ r, (goldsteinSolver eps maxls unroll).update (0, (goldsteinSolver eps maxls unroll).initState) () = .ok r ∧ r.1 = 1 ∧ r.2.stepsize = 1 ∧
      rise 0 = 0 ∧ rise r.1 = 5 / 4 := by
  refine ⟨rise_deriv, rise_convex, rise_lip, ?_⟩
  set s := goldsteinSolver eps maxls unroll with hs
  have g0 : riseGrad 0 = -1 := by unfold riseGrad; rw [max_eq_right (by norm_num)]; norm_num
  have f0 : rise 0 = 0 := by unfold rise; rw [max_eq_right (by norm_num)]; norm_num
  have f1 : rise 1 = 5 / 4 := by unfold rise; rw [max_eq_left (by norm_num)]; norm_num
  have f8 : rise (4 / 5) = -4 / 5 := by unfold rise; rw [max_eq_right (by norm_num)]; norm_num
  set t0 : LSState ℝ ℝ := ⟨1, 1, .fin (5 / 4), true⟩ with ht0
  have hat : ∀ (u : ℝ) (v : Bool), s.at_ () 0 (s.grad () 0) u v = ⟨u, u, .fin (rise u), v⟩ := by
    intro u v
    have : (0 : ℝ) + (-u) • riseGrad 0 = u := by rw [g0]; simp
    change (⟨u, (0 : ℝ) + (-u) • riseGrad 0, .fin (rise ((0 : ℝ) + (-u) • riseGrad 0)), v⟩ : LSState ℝ ℝ) = _
    rw [this]
  have hsq : s.sqnorm (s.grad () 0) = 1 := by change riseGrad 0 ^ 2 = 1; rw [g0]; norm_num
  have hco : s.coef = 1 / 10 := by change (1 : ℝ) - 9 / 10 = 1 / 10; norm_num
  have hbody : s.body () 0 (s.grad () 0) (.fin (rise 0)) t0 = t0 := by
    have hw : wolfeViolated s.eps t0.stepsize s.coef (.fin (rise 0)) t0.fNext (s.sqnorm (s.grad () 0)) = true := by
      rw [hsq, hco, f0]
      refine decide_eq_true ?_
      change (0 : ℝ) + -(5 / 4) + eps < 1 * (1 / 10) * 1
      linarith
    have e1 : s.updateStepsize () 0 (s.grad () 0) t0 s.decreaseFactor = ⟨4 / 5, 4 / 5, .fin (-4 / 5), true⟩ := by
      unfold Armijo.updateStepsize
      rw [hat]
      have : min (t0.stepsize * s.decreaseFactor) s.maxStepsize = 4 / 5 := by
        change min ((1 : ℝ) * (4 / 5)) 1 = 4 / 5
        rw [min_eq_left (by norm_num)]; norm_num
      rw [this, f8]
    have hc : curvatureViolated (4 / 5) s.coef (.fin (rise 0)) (.fin (-4 / 5)) (s.sqnorm (s.grad () 0)) = true := by
      rw [hsq, hco, f0]
      refine decide_eq_true ?_
      change (-4 / 5 : ℝ) < 0 + -(4 / 5 * (1 - 1 / 10) * 1)
      norm_num
    have e2 : s.updateStepsize () 0 (s.grad () 0) ⟨4 / 5, 4 / 5, .fin (-4 / 5), true⟩ s.increaseFactor = t0 := by
      unfold Armijo.updateStepsize
      rw [hat]
      have : min ((4 / 5 : ℝ) * s.increaseFactor) s.maxStepsize = 1 := by
        change min ((4 / 5 : ℝ) * (3 / 2)) 1 = 1
        rw [min_eq_right (by norm_num)]
      simp only [this, f1, ht0]
    have hr : s.reset = .goldstein := rfl
    unfold Armijo.body
    simp only [hw, if_true, e1, hr, hc, e2, Bool.true_or]
    rfl
  have hit : ∀ k, (s.body () 0 (s.grad () 0) (.fin (rise 0)))^[k] t0 = t0 := fun k => Function.iterate_fixed hbody k
  have hstart : s.at_ () 0 (s.grad () 0) 1 true = t0 := by rw [hat, f1]
  obtain ⟨t, ht⟩ : ∃ t, s.lineSearch () 0 (.fin (rise 0)) 1 (s.grad () 0) = .ok t := by
    rcases C01_loop_backends_agree (fun t : LSState ℝ ℝ => t.violated) (s.body () 0 (s.grad () 0) (.fin (rise 0))) (s.at_ () 0 (s.grad () 0) 1 true)
      s.maxls s.unroll s.jit with ⟨_, hj, _⟩ | ⟨_, r, hr, _⟩
    · cases hj
    · exact ⟨r, hr⟩
  have ht0' : t = t0 := by
    obtain ⟨k, _, e, _⟩ := Armijo.lineSearch_cases s () 0 _ 1 _ t ht
    rw [e, hstart, hit]
  have hup : s.update (0, s.initState) () = .ok (t.params, ⟨1, .fin (s.norm (s.grad () 0)), t.fNext, t.stepsize, none⟩) := by
    have e1 : s.resetStepsize (s.initState).stepsize = 1 := rfl
    have e2 : s.momentum = 0 := rfl
    unfold Armijo.update
    simp only [e1, e2, if_true]
    change (s.lineSearch () 0 (.fin (rise 0)) 1 (s.grad () 0)).bind _ = _
    rw [ht]
    rfl
  exact ⟨_, hup, by rw [ht0'], by rw [ht0'], f0, by rw [ht0']; exact f1⟩

/-! ## Examples -/

/-- With `aggressiveness = 0.4` and no rounding the search on `x²/2` is never satisfied; the default `0.9` accepts at once. -/
example : (∀ t, ({ exampleArmijo .goldstein 1 (2 / 5) with eps := 0 } : Armijo ℚ ℚ ℚ).lineSearch 1 1 (.fin (1 / 2)) 1 1 = .ok t → t.violated = true) ∧
    (((exampleArmijo .goldstein 1 (9 / 10)).lineSearch 1 1 (.fin (1 / 2)) 1 1).toOption.map fun t => (t.violated, t.stepsize)) = some (false, 1) := by
  constructor
  · intro t ht
    refine (Armijo.C112_never_accepts ({ exampleArmijo .goldstein 1 (2 / 5) with eps := 0 } : Armijo ℚ ℚ ℚ) rfl (by norm_num [exampleArmijo]) rfl
      (by norm_num [exampleArmijo]) (by norm_num [exampleArmijo]) (by norm_num [exampleArmijo]) (F := fun a x => a * x * x / 2) (fun _ _ => rfl) 1 1
      (by norm_num [exampleArmijo]) one_pos t ?_).1
    have e1 : ((1 : ℚ) * 1 * 1 / 2) = 1 / 2 := by norm_num
    have e2 : ({ exampleArmijo .goldstein 1 (2 / 5) with eps := 0 } : Armijo ℚ ℚ ℚ).grad 1 1 = 1 := by norm_num [exampleArmijo]
    rw [e1, e2]; exact ht
  · decide +kernel

/-- `x²` (`L = μ = 2`) with the default factors and aggressiveness: a first step of `1/1000` is enlarged 12 times at most and accepted. -/
example (s : Armijo ℝ ℝ Unit) (hs : s = { goldsteinSolver 0 15 false with f := fun _ x => .fin (x ^ 2), grad := fun _ x => 2 * x, sqnorm := fun v => ‖v‖ ^ 2 })
    (x : ℝ) {t : LSState ℝ ℝ} (h : s.lineSearch () x (.fin (x ^ 2)) (1 / 1000) (2 * x) = .ok t) : t.violated = false := by
  have hsm : LSmooth (fun x : ℝ => x ^ 2) (fun x => 2 * x) 2 := by
    constructor
    · intro x
      rw [hasGradientAt_iff_hasFDerivAt]
      have := (hasDerivAt_pow 2 x).hasFDerivAt
      refine this.congr_fderiv ?_
      ext
      simp
    · intro x y
      rw [← mul_sub, norm_mul]; simp
  subst hs
  exact (Armijo.C112_accepts _ rfl (fun _ x => x ^ 2) (fun _ _ => rfl) (fun _ => rfl) le_rfl () x (L := 2) (μ := 2) two_pos two_pos hsm
    (fun y => by simp [sq_abs]; nlinarith) (by norm_num [goldsteinSolver]) (by norm_num [goldsteinSolver]) (by norm_num [goldsteinSolver])
    (by norm_num [goldsteinSolver]) (by norm_num [goldsteinSolver]) (by norm_num [goldsteinSolver]) (by norm_num [goldsteinSolver])
    (by norm_num [goldsteinSolver]) (by norm_num) (by norm_num [goldsteinSolver]) (n := 12) (by norm_num [goldsteinSolver])
    (by norm_num [goldsteinSolver]) (by norm_num [goldsteinSolver]) h).1

end Jaxopt.SGD
