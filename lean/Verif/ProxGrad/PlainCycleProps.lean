import Verif.ProxGrad.AccelDivProps

/-!
# Property C100: a cycle without acceleration, the failure of convergence, and what holds with enough halvings
-/

set_option autoImplicit false
set_option linter.unusedSectionVars false
set_option linter.unusedVariables false

namespace Jaxopt.ProxGrad

open Jaxopt.Base Jaxopt.Loop Set Filter
open Jaxopt.QuasiNewton (Stepsize)

namespace PG

/-! ## Without acceleration -/

/-- Gradient descent without acceleration and otherwise default attributes on the function that is `x²/2` for `x ≥ -1` and affine with slope `-1`
on the left. -/
def slope (tol : ℚ) (maxiter : ℕ) : PG ℚ ℚ where
  f x := if x ≤ -1 then -x - 1 / 2 else x * x / 2
  grad x := if x ≤ -1 then -1 else x
  prox x _ := x
  vdot x y := x * y
  norm x := |x|
  sqrt x := x
  eps := 0
  stepsize := .const 0
  maxiter := maxiter
  maxls := 15
  tol := tol
  acceleration := false
  decreaseFactor := 1 / 2
  unroll := true
  jit := true

theorem slope_vdot (tol : ℚ) (maxiter : ℕ) : IsVdot (slope tol maxiter).vdot :=
  ⟨fun x y z => by simp only [slope]; ring, fun a x z => by simp only [slope, smul_eq_mul]; ring,
    fun x y => by simp only [slope]; ring, fun x hx => by simp only [slope]; exact mul_self_pos.mpr hx⟩

theorem slope_convex (tol : ℚ) (maxiter : ℕ) : GradIneq (slope tol maxiter).vdot (slope tol maxiter).f (slope tol maxiter).grad := by
  intro x y
  simp only [slope]
  split_ifs with h1 h2 h2
  · linarith
  · nlinarith [mul_self_nonneg (y + 1)]
  · nlinarith [mul_self_nonneg (x + 1), mul_nonneg (sub_nonneg.mpr (not_le.mp h1).le) (sub_nonneg.mpr h2)]
  · nlinarith [mul_self_nonneg (x - y)]

theorem slope_smooth (tol : ℚ) (maxiter : ℕ) : QuadUpper (slope tol maxiter).vdot (slope tol maxiter).f (slope tol maxiter).grad 1 := by
  intro x y
  simp only [slope]
  split_ifs with h1 h2 h2
  · nlinarith [mul_self_nonneg (x - y)]
  · nlinarith [mul_self_nonneg (y + 1)]
  · nlinarith [mul_self_nonneg (x + 1), mul_nonneg (sub_nonneg.mpr (not_le.mp h1).le) (sub_nonneg.mpr h2)]
  · nlinarith [mul_self_nonneg (x - y)]

/-- The parameters and the stepsize after one update. -/
def slopeStep (q : ℚ × ℚ) : ℚ × ℚ :=
  (slope 0 0).iter 0 q.1 ((slope 0 0).f q.1) ((slope 0 0).grad q.1) q.2

/-- The starting point. -/
def slopeStart : ℚ := -2147450881

theorem slope_iterate (tol : ℚ) (maxiter : ℕ) (k : ℕ) :
    (((slope tol maxiter).iterate slopeStart k).1, ((slope tol maxiter).iterate slopeStart k).2.stepsize) = slopeStep^[k] (slopeStart, 1) := by
  induction k with
  | zero => rfl
  | succ k ih =>
    rw [Function.iterate_succ_apply', ← ih, iterate_succ]
    rfl

theorem slope_enter : slopeStep^[31] (slopeStart, 1) = (32766, 2147483648) := by decide +kernel

theorem slope_period : slopeStep^[15] (32766, 2147483648) = (32766, 2147483648) := by decide +kernel

theorem slope_cycle (n : ℕ) : slopeStep^[15 * n + 31] (slopeStart, 1) = (32766, 2147483648) := by
  induction n with
  | zero => rw [Nat.mul_zero, Nat.zero_add]; exact slope_enter
  | succ n ih =>
    rw [show 15 * (n + 1) + 31 = 15 + (15 * n + 31) by ring, Function.iterate_add_apply, ih]
    exact slope_period

/-- What is checked along the cycle. -/
def slopeOk (q : ℚ × ℚ) : Bool :=
  decide (536805378 ≤ (slope 0 0).f q.1) && decide (1 / 2 ≤ |(slopeStep q).1 - q.1| / (slopeStep q).2)

theorem slope_ok (k : ℕ) : slopeOk (slopeStep^[k] (slopeStart, 1)) = true := by
  have h1 : ∀ i < 31, slopeOk (slopeStep^[i] (slopeStart, 1)) = true := by decide +kernel
  have h2 : ∀ i < 15, slopeOk (slopeStep^[i] (32766, 2147483648)) = true := by decide +kernel
  by_cases hk : k < 31
  · exact h1 k hk
  · have : k = (k - 31) % 15 + (15 * ((k - 31) / 15) + 31) := by omega
    rw [this, Function.iterate_add_apply, slope_cycle]
    exact h2 _ (Nat.mod_lt _ (by norm_num))

/-- **C100, a cycle without acceleration**: gradient descent with `acceleration=False` and otherwise default attributes returns to the point 32766
every 15 iterations; the objective (with minimum 0) stays above `5·10⁸` and the error above `1/2`. -/
theorem C100_plain_cycle (tol : ℚ) (maxiter : ℕ) :
    (∀ n, ((slope tol maxiter).iterate slopeStart (15 * n + 31)).1 = 32766) ∧
      ∀ k, 536805378 ≤ (slope tol maxiter).f ((slope tol maxiter).iterate slopeStart k).1 ∧
        ∃ e, ((slope tol maxiter).iterate slopeStart (k + 1)).2.error = .fin e ∧ 1 / 2 ≤ e := by
  refine ⟨fun n => ?_, fun k => ?_⟩
  · have := slope_iterate tol maxiter (15 * n + 31)
    rw [slope_cycle] at this
    exact (Prod.ext_iff.mp this).1
  · have h := slope_ok k
    rw [← slope_iterate tol maxiter k, slopeOk, Bool.and_eq_true, decide_eq_true_eq, decide_eq_true_eq] at h
    refine ⟨h.1, _, ?_, h.2⟩
    rw [iterate_succ]
    rfl

/-- **C100, the runs without acceleration**: with every tolerance below `1/2` all iterations are used and the result is as far from optimal. -/
theorem C100_plain_run {tol : ℚ} (ht : tol < 1 / 2) {maxiter : ℕ} (hm : 1 ≤ maxiter) :
    ∃ r, (slope tol maxiter).run slopeStart = .ok r ∧ r.2.iterNum = maxiter ∧ 536805378 ≤ (slope tol maxiter).f r.1 := by
  set S := slope tol maxiter with hS
  obtain ⟨r, hr⟩ := runS_ok S.initState S.update S.cont (maxiter := maxiter) (unroll := true) (jit := true) slopeStart hm (by simp)
  refine ⟨r, hr, ?_⟩
  obtain ⟨k, h1, h2, h3, h4, h5⟩ := runS_spec hm hr
  have h3 : r = S.iterate slopeStart k := h3
  have hc := C100_plain_cycle tol maxiter
  have hk : k = maxiter := by
    rcases h5 with h5 | h5
    · exact h5
    · obtain ⟨j, rfl⟩ : ∃ j, k = j + 1 := ⟨k - 1, by omega⟩
      obtain ⟨e, h6, h7⟩ := (hc.2 j).2
      change S.cont (S.iterate slopeStart (j + 1)) = false at h5
      have h6 : (S.iterate slopeStart (j + 1)).2.error = .fin e := h6
      simp only [cont, h6] at h5
      have : Ext.gt (.fin e) (.fin S.tol) = true := by
        simp only [Ext.gt, Ext.lt, decide_eq_true_eq]
        change tol < e
        linarith
      rw [this] at h5; cases h5
  refine ⟨by rw [h3, iterNum_iterate, hk], ?_⟩
  rw [h3]
  exact (hc.2 k).1

/-! ## The property fails -/

/-- **C100 fails**: it is not true that the objective along a run of gradient descent with all default attributes converges to its minimum for
every convex function with 1-Lipschitz gradient, whatever the machine epsilon between 0 and 1. -/
theorem C100_default_false :
    ¬ ∀ (S : PG ℝ ℝ) (x0 u : ℝ), S.acceleration = true → S.stepsize = .const 0 → S.maxls = 15 → S.decreaseFactor = 1 / 2 →
      (∀ x s, S.prox x s = x) → IsVdot S.vdot → (∀ v, S.norm v = |v|) → (∀ a, 0 ≤ a → 0 ≤ S.sqrt a ∧ S.sqrt a * S.sqrt a = a) →
      0 ≤ S.eps → S.eps ≤ 1 → QuadUpper S.vdot S.f S.grad 1 → GradIneq S.vdot S.f S.grad → (∀ y, S.f u ≤ S.f y) →
      ∃ k, S.f (S.iterate x0 k).1 < S.f u + 1 := by
  intro hall
  obtain ⟨x0, h⟩ := C100_diverges (L := 1) (eps := 0) le_rfl le_rfl zero_le_one
  have h0 : rampFun 1 0 = 0 := by unfold rampFun; rw [if_neg (by norm_num)]; ring
  obtain ⟨k, hk⟩ := hall (ramp 1 0 (1 / 1000) 500) x0 0 rfl rfl rfl rfl (fun _ _ => rfl) (ramp_vdot _ _ _ _) (fun _ => rfl) real_sqrt_ok le_rfl
    zero_le_one (ramp_smooth one_pos) (ramp_convex one_pos) (fun y => by
      change rampFun 1 0 ≤ rampFun 1 y
      rw [h0]
      unfold rampFun
      split_ifs with h
      · norm_num at h ⊢; linarith
      · nlinarith [mul_self_nonneg y])
  have h1 := (h (1 / 1000) 500).1 k
  have h2 : (ramp 1 0 (1 / 1000) 500).f 0 = 0 := h0
  rw [h2] at hk
  linarith

/-! ## What holds -/

section Enough

variable {K E : Type*} [Field K] [LinearOrder K] [IsStrictOrderedRing K] [AddCommGroup E] [Module K E]

/-- **C100, what holds**: without acceleration, if `maxls` allows for as many reductions as there are iterations and `log L` more
(`L·decrease_factor^maxls ≤ decrease_factor^maxiter`), the result of a run of `n` iterations satisfies
`F(x) - F(u) ≤ ‖x0 - u‖²/(2σn) + n·eps/σ` with `σ = min(1, decrease_factor/L)`, for all convex `f` and `h` with `f` `L`-smooth. -/
theorem C100_enough_halvings_partial (S : PG K E) (hv : IsVdot S.vdot) {C : Set E} {h : E → K} (hp : IsProx S.vdot C h S.prox) (hh : ConvexOn K C h)
    {a : K} (hstep : S.stepsize = .const a) (ha : a ≤ 0) (hd : 0 < S.decreaseFactor) (hd1 : S.decreaseFactor ≤ 1) (hacc : S.acceleration = false)
    (he : 0 ≤ S.eps) {L : K} (hL : 0 ≤ L) (hq : QuadUpper S.vdot S.f S.grad L) (hc : GradIneq S.vdot S.f S.grad)
    (hm : 1 ≤ S.maxiter) (hls : L * S.decreaseFactor ^ S.maxls ≤ S.decreaseFactor ^ S.maxiter) {sg : K} (hsg : 0 < sg) (h1 : sg ≤ 1)
    (h2 : sg * L ≤ S.decreaseFactor) {x0 : E} {r : E × PGState K E} (hr : S.run x0 = .ok r) {u : E} (hu : u ∈ C) :
    1 ≤ r.2.iterNum ∧ S.f r.1 + h r.1 - (S.f u + h u) ≤
      S.vdot (x0 - u) (x0 - u) / (2 * sg * r.2.iterNum) + r.2.iterNum * S.eps / sg := by
  obtain ⟨k, k1, k2, h3, h4, h5⟩ := runS_spec hm hr
  have h3 : r = S.iterate x0 k := h3
  have e : r.2.iterNum = k := by rw [h3, iterNum_iterate]
  rw [e, h3]
  refine ⟨k1, ?_⟩
  refine S.C98_plain_rate hv hp hh hstep ha hd hc hacc he x0 hsg k1 (fun i hi => ?_) (fun i _ => ?_) hu
  · refine S.C98_succeeds_first hstep ha hd hd1 hv hq he x0 i (hls.trans ?_)
    exact pow_le_pow_of_le_one hd.le hd1 (by omega)
  · exact S.C98_step_lower hstep ha hd hd1 hv hq he h1 h2 hL x0 i

end Enough

/-- Non-vacuity: on the same function with `maxls = 600`, a run of `n` iterations from -8 ends within `64/n` of the minimum. -/
example : ∃ r, ({ slope (1 / 1000) 500 with maxls := 600 } : PG ℚ ℚ).run (-8) = .ok r ∧
    ({ slope (1 / 1000) 500 with maxls := 600 } : PG ℚ ℚ).f r.1 + 0 - (({ slope (1 / 1000) 500 with maxls := 600 } : PG ℚ ℚ).f 0 + 0) ≤
      64 / r.2.iterNum := by
  obtain ⟨r, hr⟩ : ∃ r, ({ slope (1 / 1000) 500 with maxls := 600 } : PG ℚ ℚ).run (-8) = .ok r :=
    runS_ok _ _ _ (-8) (by norm_num [slope]) (by simp [slope])
  refine ⟨r, hr, ?_⟩
  have := C100_enough_halvings_partial ({ slope (1 / 1000) 500 with maxls := 600 } : PG ℚ ℚ) (slope_vdot 0 0)
    ((slope (1 / 1000) 500).C77_gd_prox (slope_vdot _ _)) ⟨convex_univ, fun x _ y _ a b _ _ _ => by simp⟩ (a := 0) rfl le_rfl
    (by norm_num [slope]) (by norm_num [slope]) rfl le_rfl (L := 1) zero_le_one (slope_smooth 0 0) (slope_convex 0 0) (by norm_num [slope])
    (by rw [one_mul]; exact pow_le_pow_of_le_one (by norm_num [slope]) (by norm_num [slope]) (by norm_num [slope])) (sg := 1 / 2) (by norm_num)
    (by norm_num) (by norm_num [slope]) hr (u := 0) (Set.mem_univ _)
  refine this.2.trans (le_of_eq ?_)
  have : (slope (1 / 1000) 500).vdot (-8 - 0) (-8 - 0) = 64 := by norm_num [slope]
  change (slope (1 / 1000) 500).vdot (-8 - 0) (-8 - 0) / _ + _ * 0 / _ = _
  rw [this]; norm_num

end PG

end Jaxopt.ProxGrad
