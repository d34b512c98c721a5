import Verif.ProxGrad.Props

/-!
# C32, C33 and C54 on real Hilbert spaces, projected gradient, and the counterexample for the accelerated error
-/

set_option autoImplicit false
set_option linter.unusedSectionVars false
set_option linter.unusedVariables false

namespace Jaxopt.ProxGrad

open Jaxopt.Base Jaxopt.Loop
open Jaxopt.QuasiNewton (Stepsize)

section hilbert

variable {E : Type*} [NormedAddCommGroup E] [InnerProductSpace ℝ E] [CompleteSpace E]

theorem LSmooth.quadUpper {f : E → ℝ} {g : E → E} {L : ℝ} (h : LSmooth f g L) :
    QuadUpper (K := ℝ) (fun x y => inner ℝ x y) f g L := by
  intro x y
  have := h.descent x y
  rw [real_inner_comm] at this
  simpa [real_inner_self_eq_norm_sq] using this

theorem gradIneq_of_convex {f : E → ℝ} {g : E → E} (hf : ConvexOn ℝ Set.univ f) (hg : ∀ x, HasGradientAt f (g x) x) :
    GradIneq (K := ℝ) (fun x y => inner ℝ x y) f g := fun x y => convex_grad_le hf hg x y

/-- **C33** on a real Hilbert space, with calculus hypotheses: `f` convex and differentiable with `L`-Lipschitz gradient `grad`. -/
theorem C33_hilbert (S : PG ℝ E) (hvd : S.vdot = fun x y => inner ℝ x y) (hsq : S.sqrt = Real.sqrt) {C : Set E} {h : E → ℝ}
    (hp : IsProx S.vdot C h S.prox) (hh : ConvexOn ℝ C h) {L : ℝ} (hf : LSmooth S.f S.grad L) (hc : ConvexOn ℝ Set.univ S.f)
    (hacc : S.acceleration = true) {s : ℝ} (hstep : S.stepsize = .const s) (hs : 0 < s) (hsL : s * L ≤ 1) (x0 : E) {u : E}
    (hu : u ∈ C) (k : ℕ) (hk : 1 ≤ k) :
    S.f (S.iterate x0 k).1 + h (S.iterate x0 k).1 - (S.f u + h u) ≤ 2 * ‖x0 - u‖ ^ 2 / (s * ((k : ℝ) + 1) ^ 2) := by
  have := S.C33_rate (C := C) (h := h) (L := L) (by rw [hvd]; exact isVdot_inner) hp hh (by rw [hvd]; exact LSmooth.quadUpper hf)
    (by rw [hvd]; exact gradIneq_of_convex hc hf.grad)
    (by intro a ha; rw [hsq]; exact ⟨Real.sqrt_nonneg a, Real.mul_self_sqrt ha⟩) hacc hstep hs hsL x0 hu k hk
  rw [hvd] at this
  simpa [real_inner_self_eq_norm_sq, pow_two] using this

/-- **C32** on a real Hilbert space: steps at most `1/L` never increase the objective of the unaccelerated method. -/
theorem C32_hilbert (S : PG ℝ E) (hvd : S.vdot = fun x y => inner ℝ x y) {C : Set E} {h : E → ℝ}
    (hp : IsProx S.vdot C h S.prox) {L : ℝ} (hf : LSmooth S.f S.grad L) (hacc : S.acceleration = false) (hs : S.StepsBelow L)
    {x0 : E} (hx : x0 ∈ C) (k : ℕ) :
    S.f (S.iterate x0 (k + 1)).1 + h (S.iterate x0 (k + 1)).1 ≤ S.f (S.iterate x0 k).1 + h (S.iterate x0 k).1 :=
  (S.C32_monotone (C := C) (h := h) (L := L) (by rw [hvd]; exact isVdot_inner) hp (by rw [hvd]; exact LSmooth.quadUpper hf) hacc
    hs hx k).2

end hilbert

/-! ## C54: projected gradient -/

section projected

variable {K E : Type*} [Field K] [LinearOrder K] [IsStrictOrderedRing K] [AddCommGroup E] [Module K E]

/-- `proj z` is a closest point of `C` to `z`, for every `z`. -/
def IsProjOn (vdot : E → E → K) (C : Set E) (proj : E → E) : Prop :=
  ∀ z, proj z ∈ C ∧ ∀ u ∈ C, vdot (proj z - z) (proj z - z) ≤ vdot (u - z) (u - z)

/-- `make_prox_from_projection` of a projection is the prox of the indicator function of `C`. -/
theorem isProx_of_isProj {vdot : E → E → K} {C : Set E} {projection : E → Unit → E}
    (h : IsProjOn vdot C fun x => projection x ()) :
    IsProx vdot C (fun _ => 0) fun x s => Jaxopt.Prox.makeProxFromProjection projection x () s := by
  intro z s hs
  refine ⟨(h z).1, fun u hu => ?_⟩
  have := (h z).2 u hu
  simp only [Jaxopt.Prox.makeProxFromProjection]
  linarith

/-- **C54**, feasibility: every iterate after the first update lies in `C`, whatever the objective, the stepsize mode, the line
search outcome and the momentum. -/
theorem C54_feasible (S : PG K E) {C : Set E} {projection : E → Unit → E} (hp : ∀ z, projection z () ∈ C) (x0 : E) (k : ℕ)
    (hk : 1 ≤ k) : ((S.projected projection).iterate x0 k).1 ∈ C := by
  set T := S.projected projection with hT
  have hprox : ∀ z s, T.prox z s ∈ C := fun z s => hp z
  have hiter : ∀ n x v g st, (T.iter n x v g st).1 ∈ C := by
    intro n x v g st
    cases hstep : T.stepsize with
    | const a =>
      by_cases ha : a ≤ 0
      · obtain ⟨k, _, hr, _, _⟩ := python_spec (T.lsCond x v g) (T.lsBody x g) T.maxls (T.proxGrad x g st, st)
        simp only [PG.iter, hstep, if_pos ha, PG.fistaLineSearch, hr, PG.lsBody_iterate]
        exact hprox _ _
      · simp only [PG.iter, hstep, if_neg ha]
        exact hprox _ _
    | fn a =>
      simp only [PG.iter, hstep]
      exact hprox _ _
  obtain ⟨j, rfl⟩ : ∃ j, k = j + 1 := ⟨k - 1, by omega⟩
  rw [PG.iterate_succ]
  simp only [PG.update]
  split_ifs
  · exact hiter _ _ _ _ _
  · exact hiter _ _ _ _ _

/-- A run of `ProjectedGradient` returns a feasible point. -/
theorem C54_run_feasible (S : PG K E) {C : Set E} {projection : E → Unit → E} (hp : ∀ z, projection z () ∈ C) {x0 : E}
    (hm : 1 ≤ S.maxiter) {r : E × PGState K E} (hr : (S.projected projection).run x0 = .ok r) : r.1 ∈ C := by
  obtain ⟨k, h1, _, rfl, _, _⟩ := runS_spec (show 1 ≤ (S.projected projection).maxiter from hm) hr
  exact C54_feasible S hp x0 k h1

/-- **C54**, stationarity: for a convex `C` with exact projection, the following are equivalent for a point `x` and any positive
stepsize `s`: `x` is fixed by the projected gradient map with step `s`; `x` is fixed by the solver's `update` from a state without
momentum, in every stepsize mode; `optimality_fun` vanishes at `x`; `x ∈ C` and `⟨u - x, ∇f(x)⟩ ≥ 0` for all `u ∈ C`. -/
theorem C54_stationary (S : PG K E) (hv : IsVdot S.vdot) {C : Set E} (hC : Convex K C) {projection : E → Unit → E}
    (hp : IsProjOn S.vdot C fun x => projection x ()) (hd : 0 < S.decreaseFactor)
    (hs : ∀ a, S.stepsize = .fn a → ∀ k, 0 < a k) (x : E) :
    let T := S.projected projection
    let stationary := x ∈ C ∧ ∀ u ∈ C, 0 ≤ S.vdot (u - x) (S.grad x)
    (∀ s : K, 0 < s → (projection (x + (-s) • S.grad x) () = x ↔ stationary)) ∧
    (∀ st : PGState K E, 0 < st.stepsize → (S.acceleration = true → st.velocity = x) → ((T.update (x, st)).1 = x ↔ stationary)) ∧
    (T.optimalityFun x = 0 ↔ stationary) := by
  intro T stationary
  have hprox : IsProx S.vdot C (fun _ => (0 : K)) T.prox := isProx_of_isProj hp
  have hconv : ConvexOn K C (fun _ => (0 : K)) := convexOn_const 0 hC
  have hfix : ∀ s : K, 0 < s → (T.prox (x + (-s) • S.grad x) s = x ↔ stationary) := by
    intro s hs0
    rw [fixed_iff hv hprox hconv x (S.grad x) hs0]
    simp [stationary]
  refine ⟨fun s hs0 => hfix s hs0, fun st hst hvel => ?_, ?_⟩
  · have key : ∀ y, y = x → ((T.iter st.iterNum y (T.f y) (T.grad y) st.stepsize).1 = x ↔ stationary) := by
      rintro y rfl
      obtain ⟨s, hs0, he, _⟩ := T.iter_step hd hs st.iterNum y (T.f y) (T.grad y) hst
      rw [he]
      exact hfix s hs0
    simp only [PG.update]
    split_ifs with hacc
    · exact key _ (hvel hacc)
    · exact key _ rfl
  · have e : T.optimalityFun x = T.prox (x + (-(1 : K)) • S.grad x) 1 - x := by
      simp only [PG.optimalityFun, PG.fixedPointFun]
      rw [neg_smul, one_smul, ← sub_eq_add_neg]; rfl
    rw [e, sub_eq_zero]
    exact hfix 1 one_pos

/-- For convex `f`, stationary points are the global minimisers on `C`. -/
theorem C54_minimiser (vdot : E → E → K) {f : E → K} {grad : E → E} (hc : GradIneq vdot f grad) {C : Set E} {x : E}
    (hx : x ∈ C ∧ ∀ u ∈ C, 0 ≤ vdot (u - x) (grad x)) (u : E) (hu : u ∈ C) : f x ≤ f u := by
  have h1 := hx.2 u hu
  have h2 := hc x u
  linarith

end projected

/-! ## Examples and the counterexample -/

/-- Projection on `[1, ∞)`. -/
theorem exProj : IsProjOn (K := ℝ) (E := ℝ) (fun x y => inner ℝ x y) (Set.Ici 1) (fun z => max z 1) := by
  intro z
  refine ⟨show (1 : ℝ) ≤ max z 1 from le_max_right _ _, fun u hu => ?_⟩
  have hu : (1 : ℝ) ≤ u := hu
  simp only [real_inner_self_eq_norm_sq, Real.norm_eq_abs, sq_abs]
  rcases le_total z 1 with h | h
  · rw [max_eq_right h]; nlinarith
  · rw [max_eq_left h]; simp; positivity

/-- Non-vacuity of C32, C33 and C54: minimising `x²/2` on `[1, ∞)` with step 1. -/
example (acc : Bool) : ∃ S : PG ℝ ℝ, S.vdot = (fun x y => inner ℝ x y) ∧ S.sqrt = Real.sqrt ∧
    IsProx S.vdot (Set.Ici 1) (fun _ => 0) S.prox ∧ LSmooth S.f S.grad 1 ∧ ConvexOn ℝ Set.univ S.f ∧ S.acceleration = acc ∧
    S.StepsBelow 1 ∧ S.stepsize = .const 1 ∧ 0 < S.decreaseFactor ∧ (∀ v, S.norm v = 0 ↔ v = 0) ∧
    ¬ (0 ≤ inner ℝ ((1 : ℝ) - 2) (S.grad 2)) ∧ 0 ≤ inner ℝ ((2 : ℝ) - 1) (S.grad 1) := by
  let S0 : PG ℝ ℝ := ⟨fun x => x ^ 2 / 2, fun x => x, fun x _ => x, fun x y => inner ℝ x y, fun x => ‖x‖, Real.sqrt, 0, .const 1,
    5, 5, 0, acc, 1 / 2, true, true⟩
  have hd : ∀ x : ℝ, HasDerivAt (fun x : ℝ => x ^ 2 / 2) x x := by
    intro x
    have := (hasDerivAt_pow 2 x).div_const 2
    have e : ((2 : ℕ) : ℝ) * x ^ (2 - 1) / 2 = x := by norm_num
    rw [e] at this; exact this
  refine ⟨S0.projected (fun z _ => max z 1), rfl, rfl,
    isProx_of_isProj (projection := fun z _ => max z 1) exProj, ⟨fun x => ?_, fun x y => by simp [S0, PG.projected]⟩,
    ?_, rfl, Or.inl ⟨1, rfl, one_pos, by norm_num⟩, rfl, by norm_num [S0, PG.projected], fun v => norm_eq_zero, ?_, ?_⟩
  · exact (hd x).hasGradientAt'
  · refine ⟨convex_univ, fun x _ y _ a b ha hb hab => ?_⟩
    simp only [S0, PG.projected, smul_eq_mul]
    have : b = 1 - a := by linarith
    subst this
    nlinarith [mul_nonneg (mul_nonneg ha hb) (sq_nonneg (x - y))]
  · simp only [S0, PG.projected, RCLike.inner_apply, conj_trivial]; norm_num
  · simp only [S0, PG.projected, RCLike.inner_apply, conj_trivial]; norm_num

/-- The solver of the counterexample: `f(u) = 64/3·u³ + u²/2 - u/4` on the box `[0, 1]`, step 1, with acceleration. -/
noncomputable def exAccel : PG ℝ ℝ :=
  ⟨fun u => 64 / 3 * u ^ 3 + u ^ 2 / 2 - u / 4, fun u => 64 * u ^ 2 + u - 1 / 4, fun z _ => max 0 (min z 1), fun x y => x * y,
    fun x => |x|, Real.sqrt, 0, .const 1, 500, 15, 1 / 1000, true, 1 / 2, true, true⟩

theorem exAccel_update (x : ℝ) (st : PGState ℝ ℝ) :
    exAccel.update (x, st) =
      (max 0 (min (1 / 4 - 64 * st.velocity ^ 2) 1),
        ⟨st.iterNum + 1, 1, .fin |max 0 (min (1 / 4 - 64 * st.velocity ^ 2) 1) - x|,
          max 0 (min (1 / 4 - 64 * st.velocity ^ 2) 1) + ((st.t - 1) / (1 / 2 * (1 + √(1 + 4 * (st.t * st.t))))) *
            (max 0 (min (1 / 4 - 64 * st.velocity ^ 2) 1) - x), 1 / 2 * (1 + √(1 + 4 * (st.t * st.t)))⟩) := by
  have e : st.velocity + (-1 : ℝ) * (64 * st.velocity ^ 2 + st.velocity - 1 / 4) = 1 / 4 - 64 * st.velocity ^ 2 := by ring
  simp only [PG.update, exAccel, PG.updateAccel, PG.iter, PG.proxGrad, PG.errorOf, if_true]
  rw [if_neg (by norm_num)]
  simp only [div_one, smul_eq_mul, e]

/-- **C32 is false for the accelerated method**: the error is computed from `next_x - x` although the step starts at the
extrapolated point `y` (lines 269-271), so it can vanish at a point that is not a fixed point.  With the default tolerance the run
of `exAccel` from `0` stops after three updates at `0` with error `0`, although the prox-gradient step from `0` goes to `1/4`. -/
theorem C32_accel_error_false :
    (∀ u, HasDerivAt exAccel.f (exAccel.grad u) u) ∧
    ∃ r, exAccel.run 0 = .ok r ∧ r.2.error = .fin 0 ∧ r.2.iterNum = 3 ∧
      exAccel.prox (r.1 + (-1 : ℝ) • exAccel.grad r.1) 1 = 1 / 4 ∧ r.1 = 0 := by
  constructor
  · intro u
    have h1 := ((hasDerivAt_pow 3 u).const_mul (64 / 3)).add ((hasDerivAt_pow 2 u).div_const 2)
    have h2 := h1.sub ((hasDerivAt_id u).div_const 4)
    have e : 64 / 3 * (((3 : ℕ) : ℝ) * u ^ (3 - 1)) + ((2 : ℕ) : ℝ) * u ^ (2 - 1) / 2 - 1 / 4 = 64 * u ^ 2 + u - 1 / 4 := by
      norm_num; ring
    rw [e] at h2
    exact h2
  obtain ⟨r, hr⟩ := runS_ok exAccel.initState exAccel.update exAccel.cont (maxiter := exAccel.maxiter) (unroll := exAccel.unroll)
    (jit := exAccel.jit) 0 (by simp [exAccel]) (Or.inl rfl)
  -- the three updates
  have u1 : exAccel.update (0, exAccel.initState 0) = (1 / 4, ⟨1, 1, .fin (1 / 4), 1 / 4, 1 / 2 * (1 + √5)⟩) := by
    rw [exAccel_update]
    have : max (0 : ℝ) (min (1 / 4) 1) = 1 / 4 := by norm_num
    simp only [PG.initState]
    norm_num [this]
  have u2 : ∃ t, 1 / 4 ≤ (1 / 2 * (1 + √5) - 1) / t ∧ exAccel.update (1 / 4, ⟨1, 1, .fin (1 / 4), 1 / 4, 1 / 2 * (1 + √5)⟩) =
      (0, ⟨2, 1, .fin (1 / 4), -((1 / 2 * (1 + √5) - 1) / t) / 4, t⟩) := by
    refine ⟨1 / 2 * (1 + √(1 + 4 * (1 / 2 * (1 + √5) * (1 / 2 * (1 + √5))))), ?_, ?_⟩
    · have h5 : √5 ^ 2 = 5 := Real.sq_sqrt (by norm_num)
      have h5a : 2.2 ≤ √5 := Real.le_sqrt_of_sq_le (by norm_num)
      have h5b : √5 ≤ 2.3 := by rw [Real.sqrt_le_left (by norm_num)]; norm_num
      have hq : √(1 + 4 * (1 / 2 * (1 + √5) * (1 / 2 * (1 + √5)))) ≤ 3.5 := by
        rw [Real.sqrt_le_left (by norm_num)]; nlinarith
      have hq0 := Real.sqrt_nonneg (1 + 4 * (1 / 2 * (1 + √5) * (1 / 2 * (1 + √5))))
      rw [le_div_iff₀ (by positivity)]
      linarith
    · rw [exAccel_update]
      have e1 : max (0 : ℝ) (min (1 / 4 - 64 * (1 / 4) ^ 2) 1) = 0 := by norm_num
      simp only [e1]
      refine Prod.ext rfl ?_
      simp only [zero_add, PGState.mk.injEq, true_and]
      refine ⟨by norm_num, by ring, trivial⟩
  obtain ⟨t, ht, u2⟩ := u2
  have u3 : ∃ st, exAccel.update (0, ⟨2, 1, .fin (1 / 4), -((1 / 2 * (1 + √5) - 1) / t) / 4, t⟩) = (0, st) ∧ st.error = .fin 0 ∧
      st.iterNum = 3 := by
    rw [exAccel_update]
    have e1 : max (0 : ℝ) (min (1 / 4 - 64 * (-((1 / 2 * (1 + √5) - 1) / t) / 4) ^ 2) 1) = 0 := by
      apply max_eq_left
      apply min_le_of_left_le
      nlinarith
    simp only [e1]
    exact ⟨_, rfl, by norm_num, rfl⟩
  obtain ⟨st, u3, h3, h4⟩ := u3
  have i1 : exAccel.update^[1] (0, exAccel.initState 0) = _ := u1
  have i2 := congrArg exAccel.update i1
  rw [← Function.iterate_succ_apply' exAccel.update, u2] at i2
  have i3 := congrArg exAccel.update i2
  rw [← Function.iterate_succ_apply' exAccel.update, u3] at i3
  have hrun := runS_eq hr (k := 3) (by norm_num) (by norm_num [exAccel]) ?_ (Or.inr ?_)
  · refine ⟨r, hr, ?_, ?_, ?_, ?_⟩
    · rw [hrun, i3]; exact h3
    · rw [hrun, i3]; exact h4
    · rw [hrun, i3]
      simp only [exAccel]; norm_num
    · rw [hrun, i3]
  · intro j hj1 hj3
    have hj : j = 1 ∨ j = 2 := by omega
    rcases hj with rfl | rfl
    · rw [i1]; simp only [PG.cont, exAccel, Ext.gt, Ext.lt]; norm_num
    · rw [i2]; simp only [PG.cont, exAccel, Ext.gt, Ext.lt]; norm_num
  · rw [i3]; simp only [PG.cont, exAccel, Ext.gt, Ext.lt, h3]; norm_num

end Jaxopt.ProxGrad
