import Verif.Base.Diff
import Verif.Base.Props
import Verif.Implicit.ApproxProps
import Mathlib.Analysis.Calculus.FDeriv.Comp
import Mathlib.Analysis.Calculus.FDeriv.Linear
import Mathlib.Analysis.InnerProductSpace.Adjoint
import Mathlib.Analysis.Calculus.Deriv.Mul
import Mathlib.Tactic.NormNum
import Mathlib.Tactic.Ring

/-!
# C107: differentiating through the loops
-/

set_option autoImplicit false
set_option linter.unusedSectionVars false
set_option linter.unusedVariables false

namespace Jaxopt.Loop

open Filter Topology RealInnerProductSpace Jaxopt.Base

/-- `v` is reached before the budget `n` is used up. -/
def Reached {V : Type*} (cond : V → Bool) (body : V → V) (n : ℕ) (x v : V) : Prop :=
  ∃ k < n, v = body^[k] x ∧ ∀ j < k, cond (body^[j] x) = true

theorem Reached.start {V : Type*} {cond : V → Bool} {body : V → V} {n : ℕ} {x : V} : Reached cond body (n + 1) x x :=
  ⟨0, by omega, rfl, by omega⟩

theorem Reached.next {V : Type*} {cond : V → Bool} {body : V → V} {n : ℕ} {x v : V} (hc : cond x = true) (h : Reached cond body n (body x) v) :
    Reached cond body (n + 1) x v := by
  obtain ⟨k, hk, e, h⟩ := h
  refine ⟨k + 1, by omega, e, fun j hj => ?_⟩
  cases j with
  | zero => exact hc
  | succ j => exact h j (by omega)

section Forward

variable {V : Type*} [NormedAddCommGroup V] [NormedSpace ℝ V]

/-- The derivative of the bounded loop. -/
theorem python_deriv (cond : V → Bool) (body : V → V) (D : V → V →L[ℝ] V) (n : ℕ) (x : V)
    (hD : ∀ v, Reached cond body n x v → cond v = true → HasFDerivAt body (D v) v)
    (hc : ∀ v, Reached cond body n x v → ∀ᶠ y in 𝓝 v, cond y = cond v) :
    ∃ L : V →L[ℝ] V, HasFDerivAt (fun y => whileLoopPython cond body y n) L x ∧
      ∀ t, whileLoopPython (fun p : V × V => cond p.1) (jvpBody body fun v => D v) (x, t) n = (whileLoopPython cond body x n, L t) := by
  induction n generalizing x with
  | zero => exact ⟨.id ℝ V, hasFDerivAt_id x, fun t => rfl⟩
  | succ n ih =>
    have hloc := hc x .start
    cases hx : cond x
    · refine ⟨.id ℝ V, (hasFDerivAt_id x).congr_of_eventuallyEq ?_, fun t => ?_⟩
      · filter_upwards [hloc] with y hy
        simp [whileLoopPython, hy, hx]
      · simp [whileLoopPython, hx]
    · obtain ⟨L, h1, h2⟩ := ih (body x) (fun v hv => hD v (.next hx hv)) (fun v hv => hc v (.next hx hv))
      refine ⟨L.comp (D x), (h1.comp x (hD x .start hx)).congr_of_eventuallyEq ?_, fun t => ?_⟩
      · filter_upwards [hloc] with y hy
        simp [whileLoopPython, hy, hx]
      · simp only [whileLoopPython, hx, Bool.not_true, Bool.false_eq_true, if_false]
        exact h2 (D x t)

/-- Every accepted loop returns what the Python loop returns. -/
theorem loop_eq {W : Type*} {cond : W → Bool} {body : W → W} {x r : W} {n : ℕ} {u j : Bool} (h : whileLoop cond body x n u j = .ok r) :
    r = whileLoopPython cond body x n :=
  C01_same_result cond body x n u j true false r _ h (by simp [whileLoop])

/-- **C107 (forward mode).**  Where the body is differentiable at the values it is applied to and the condition is locally constant at the values it
is tested on, forward mode through an accepted loop returns the result of the loop and its derivative. -/
theorem C107_jvp (cond : V → Bool) (body : V → V) (D : V → V →L[ℝ] V) (n : ℕ) (u j : Bool) (g : V → V)
    (hg : ∀ y, whileLoop cond body y n u j = .ok (g y)) (x : V)
    (hD : ∀ v, Reached cond body n x v → cond v = true → HasFDerivAt body (D v) v)
    (hc : ∀ v, Reached cond body n x v → ∀ᶠ y in 𝓝 v, cond y = cond v) :
    DifferentiableAt ℝ g x ∧ ∀ t, whileLoopJvp cond body (fun v => D v) x t n u j = .ok (g x, fderiv ℝ g x t) := by
  obtain ⟨L, h1, h2⟩ := python_deriv cond body D n x hD hc
  have e : g = fun y => whileLoopPython cond body y n := funext fun y => loop_eq (hg y)
  rw [← e] at h1
  refine ⟨h1.differentiableAt, fun t => ?_⟩
  rcases C01_loop_backends_agree (fun p : V × V => cond p.1) (jvpBody body fun v => D v) (x, t) n u j with ⟨hu, hj, er, he⟩ | ⟨_, s, hs, _⟩
  · subst hu; subst hj
    have := hg x
    simp [whileLoop] at this
  · rw [whileLoopJvp, hs, loop_eq hs, h2, h1.fderiv, e]

end Forward

section Reverse

variable {V : Type*} [NormedAddCommGroup V] [InnerProductSpace ℝ V] [CompleteSpace V]

theorem scanBack_false {W : Type*} (cond : W → Bool) (body : W → W) (vjp : W → W → W) (n : ℕ) (x w : W) :
    scanBack vjp (scanTape cond body (x, false) n) w = w := by
  induction n with
  | zero => rfl
  | succ n ih =>
    simp only [scanTape, scanBack, List.foldr_cons, Bool.false_eq_true, if_false]
    exact ih

/-- The no-ops of the scan do not change the backward pass. -/
theorem scanBack_eq {W : Type*} (cond : W → Bool) (body : W → W) (vjp : W → W → W) (n : ℕ) (x w : W) :
    scanBack vjp (scanTape cond body (x, cond x) n) w = (pythonTape cond body x n).foldr vjp w := by
  induction n generalizing x with
  | zero => rfl
  | succ n ih =>
    cases hx : cond x
    · rw [scanBack_false]; simp [pythonTape, hx]
    · simp only [scanTape, scanBack, List.foldr_cons, if_true, pythonTape, hx, Bool.not_true, Bool.false_eq_true, if_false]
      congr 1
      exact ih (body x)

theorem tape_adjoint (cond : V → Bool) (body : V → V) (D : V → V →L[ℝ] V) (n : ℕ) (x w t : V) :
    ⟪(pythonTape cond body x n).foldr (fun v => ContinuousLinearMap.adjoint (D v)) w, t⟫ =
      ⟪w, (whileLoopPython (fun p : V × V => cond p.1) (jvpBody body fun v => D v) (x, t) n).2⟫ := by
  induction n generalizing x t with
  | zero => rfl
  | succ n ih =>
    cases hx : cond x
    · simp [pythonTape, whileLoopPython, hx]
    · simp only [pythonTape, whileLoopPython, hx, Bool.not_true, Bool.false_eq_true, if_false, List.foldr_cons,
        ContinuousLinearMap.adjoint_inner_left]
      exact ih (body x) (D x t)

/-- **C107 (reverse mode).**  Reverse mode through an unrolled loop returns the adjoint of the derivative of the loop applied to the cotangent. -/
theorem C107_vjp (cond : V → Bool) (body : V → V) (D : V → V →L[ℝ] V) (n : ℕ) (j : Bool) (g : V → V)
    (hg : ∀ y, whileLoop cond body y n true j = .ok (g y)) (x : V)
    (hD : ∀ v, Reached cond body n x v → cond v = true → HasFDerivAt body (D v) v)
    (hc : ∀ v, Reached cond body n x v → ∀ᶠ y in 𝓝 v, cond y = cond v) (w : V) :
    DifferentiableAt ℝ g x ∧
      whileLoopVjp cond body (fun v => ContinuousLinearMap.adjoint (D v)) x w n true j = .ok (ContinuousLinearMap.adjoint (fderiv ℝ g x) w) := by
  obtain ⟨hd, hj⟩ := C107_jvp cond body D n true j g hg x hD hc
  refine ⟨hd, ?_⟩
  have key : (pythonTape cond body x n).foldr (fun v => ContinuousLinearMap.adjoint (D v)) w = ContinuousLinearMap.adjoint (fderiv ℝ g x) w := by
    refine ext_inner_right ℝ fun t => ?_
    rw [tape_adjoint, ContinuousLinearMap.adjoint_inner_left]
    have := hj t
    rw [whileLoopJvp] at this
    rw [← loop_eq this]
  cases j
  · simp only [whileLoopVjp, if_true, Bool.false_eq_true, if_false, Int.toNat_natCast, key]
  · simp only [whileLoopVjp, if_true, Int.toNat_natCast]
    rw [if_neg (by omega), scanBack_eq, key]

end Reverse

/-- **C107 (availability).**  For the default `unroll="auto"`, reverse mode through the loop of `run` is possible exactly when implicit
differentiation or compilation is switched off. -/
theorem C107_reverse_available {K P ι V W : Type*} [LinearOrder K] (s : Solver K P ι V) (hu : s.unroll = none) (cond : W → Bool) (body : W → W)
    (vjp : W → W → W) (x w : W) (n : ℕ) :
    (∃ r, whileLoopVjp cond body vjp x w n s.getUnrollOption s.jit = .ok r) ↔ s.implicitDiff = false ∨ s.jit = false := by
  cases h1 : s.implicitDiff <;> cases h2 : s.jit <;>
    simp [whileLoopVjp, Solver.getUnrollOption, hu, h1, h2]
  all_goals rw [if_neg (by omega)]; exact ⟨_, rfl⟩

end Jaxopt.Loop

namespace Jaxopt.Implicit

open Filter Topology Jaxopt.Base Jaxopt.FixedPoint

variable {ι : Type*} [Fintype ι] [DecidableEq ι]
variable {E : Type*} [NormedAddCommGroup E] [InnerProductSpace ℝ E] [CompleteSpace E]
variable {P : ι → Type*} [∀ i, NormedAddCommGroup (P i)] [∀ i, InnerProductSpace ℝ (P i)] [∀ i, CompleteSpace (P i)]

/-- `FixedPointIteration` on `T(·, θ)`. -/
noncomputable def fpiOf (T : E → (∀ i, P i) → E) (maxiter : ℕ) (tol : ℝ) (unroll jit : Bool) (θ : ∀ i, P i) : FPI ℝ E Unit :=
  ⟨.noAux fun s => T s θ, (‖·‖), maxiter, tol, unroll, jit⟩

/-- **C107 (runs).**  If no error met by a run of `FixedPointIteration` equals the tolerance, then nearby arguments need the same number of
iterations, and the derivative of the result is that of the unrolled iteration (studied in C101). -/
theorem C107_fixed_point {T : E → (∀ i, P i) → E} (hT : ∀ p : E × (∀ i, P i), DifferentiableAt ℝ (fun p : E × (∀ i, P i) => T p.1 p.2) p)
    (x0 : E) {maxiter : ℕ} (hm : 1 ≤ maxiter) (tol : ℝ) (unroll jit : Bool) (R : (∀ i, P i) → E × FPIState ℝ Unit)
    (hR : ∀ t, (fpiOf T maxiter tol unroll jit t).run x0 = .ok (R t)) (θ : ∀ i, P i)
    (htie : ∀ j, j < (R θ).2.iterNum → j + 1 < maxiter → dist (unrolled T x0 j θ) (unrolled T x0 (j + 1) θ) ≠ tol) :
    (∀ᶠ t in 𝓝 θ, (R t).2.iterNum = (R θ).2.iterNum) ∧
      HasFDerivAt (fun t => (R t).1) (fderiv ℝ (unrolled T x0 (R θ).2.iterNum) θ) θ := by
  have hit : ∀ t j, ((fpiOf T maxiter tol unroll jit t).update^[j] (x0, (fpiOf T maxiter tol unroll jit t).initState x0)).2.iterNum = j ∧
      ((fpiOf T maxiter tol unroll jit t).update^[j] (x0, (fpiOf T maxiter tol unroll jit t).initState x0)).1 = unrolled T x0 j t := fun t j =>
    ⟨(FPI.C30_count _ rfl x0 j).2.1, FPI.iterate_params _ x0 j⟩
  have hcont : ∀ t j, (fpiOf T maxiter tol unroll jit t).cont ((fpiOf T maxiter tol unroll jit t).update^[j + 1]
      (x0, (fpiOf T maxiter tol unroll jit t).initState x0)) = decide (tol < dist (unrolled T x0 j t) (unrolled T x0 (j + 1) t)) := by
    intro t j
    simp only [FPI.cont, (FPI.C30_count (fpiOf T maxiter tol unroll jit t) rfl x0 (j + 1)).2.2.2 (by omega)]
    rfl
  obtain ⟨k, h1, h2, h3, h4, h5⟩ := runS_spec hm (hR θ)
  have hk : (R θ).2.iterNum = k := by rw [h3]; exact (hit θ k).1
  rw [hk] at htie ⊢
  have hsame : ∀ᶠ t in 𝓝 θ, ∀ j ∈ Finset.range k, j + 1 < maxiter →
      ((tol < dist (unrolled T x0 j t) (unrolled T x0 (j + 1) t)) ↔ tol < dist (unrolled T x0 j θ) (unrolled T x0 (j + 1) θ)) := by
    rw [eventually_all_finset]
    intro j hj
    rw [Finset.mem_range] at hj
    by_cases hjm : j + 1 < maxiter
    · have c : ContinuousAt (fun t => dist (unrolled T x0 j t) (unrolled T x0 (j + 1) t)) θ :=
        (unrolled_diff hT x0 j θ).1.continuousAt.dist (unrolled_diff hT x0 (j + 1) θ).1.continuousAt
      rcases lt_or_gt_of_ne (htie j hj hjm) with h | h
      · filter_upwards [c.eventually_lt continuousAt_const h] with t ht _
        exact ⟨fun h' => absurd h' (not_lt.mpr ht.le), fun h' => absurd h' (not_lt.mpr h.le)⟩
      · filter_upwards [continuousAt_const.eventually_lt c h] with t ht _
        exact ⟨fun _ => h, fun _ => ht⟩
    · exact Eventually.of_forall fun t h => absurd h hjm
  have hres : ∀ᶠ t in 𝓝 θ, R t = (fpiOf T maxiter tol unroll jit t).update^[k] (x0, (fpiOf T maxiter tol unroll jit t).initState x0) := by
    filter_upwards [hsame] with t ht
    refine runS_eq (hR t) h1 h2 (fun j hj1 hjk => ?_) ?_
    · obtain ⟨i, rfl⟩ : ∃ i, j = i + 1 := ⟨j - 1, by omega⟩
      have := h4 (i + 1) hj1 hjk
      rw [hcont, decide_eq_true_eq] at this ⊢
      exact (ht i (Finset.mem_range.mpr (by omega)) (by omega)).mpr this
    · rcases Nat.lt_or_ge k maxiter with hlt | hge
      · right
        rcases h5 with h5 | h5
        · omega
        · obtain ⟨i, rfl⟩ : ∃ i, k = i + 1 := ⟨k - 1, by omega⟩
          rw [hcont, decide_eq_false_iff_not] at h5 ⊢
          exact fun h => h5 ((ht i (Finset.mem_range.mpr (by omega)) hlt).mp h)
      · left; exact le_antisymm h2 hge
  constructor
  · filter_upwards [hres] with t ht
    rw [ht]; exact (hit t k).1
  · refine (unrolled_diff hT x0 k θ).1.hasFDerivAt.congr_of_eventuallyEq ?_
    filter_upwards [hres] with t ht
    rw [ht]; exact (hit t k).2

/-- The run of the next theorem: `x/2 + θ` from 2, at most two iterations, tolerance 1. -/
noncomputable def tieRun (θ : ∀ _ : Fin 1, ℝ) : ℝ × FPIState ℝ Unit :=
  if 1 < |θ 0 - 1| then ((1 + θ 0) / 2 + θ 0, ⟨2, .fin |(1 + θ 0) / 2 + θ 0 - (1 + θ 0)|, none, 2⟩) else (1 + θ 0, ⟨1, .fin |θ 0 - 1|, none, 1⟩)

/-- **C107 fails at ties**: when an error equals the tolerance the result of the run may jump, so that it has no derivative; differentiating through
the loop returns a number all the same. -/
theorem C107_tie_false : (∀ t, (fpiOf halfMap 2 1 true true t).run 2 = .ok (tieRun t)) ∧
    ¬ ContinuousAt (fun t => (tieRun t).1) (fun _ => 0) := by
  constructor
  · intro t
    obtain ⟨r, hr⟩ := runS_ok (fpiOf halfMap 2 1 true true t).initState (fpiOf halfMap 2 1 true true t).update (fpiOf halfMap 2 1 true true t).cont
      (maxiter := 2) (unroll := true) (jit := true) (2 : ℝ) (by norm_num) (.inl rfl)
    have e1 : (fpiOf halfMap 2 1 true true t).update^[1] (2, (fpiOf halfMap 2 1 true true t).initState 2) = (1 + t 0, ⟨1, .fin |t 0 - 1|, none, 1⟩) := by
      simp only [Function.iterate_one, FPI.update, fpiOf, UserMap.fn, halfMap, FPI.initState, Real.norm_eq_abs]
      norm_num
      ring_nf
    have hr' : (fpiOf halfMap 2 1 true true t).run 2 = .ok r := hr
    rw [hr']
    congr 1
    by_cases h : 1 < |t 0 - 1|
    · rw [runS_eq hr (k := 2) (by norm_num) (by norm_num) (fun j h1 h2 => ?_) (.inl rfl)]
      · rw [tieRun, if_pos h, Function.iterate_succ_apply' _ 1, e1]
        simp only [FPI.update, fpiOf, UserMap.fn, halfMap, Real.norm_eq_abs]
      · obtain rfl : j = 1 := by omega
        rw [e1]
        exact decide_eq_true h
    · rw [runS_eq hr (k := 1) (by norm_num) (by norm_num) (fun j h1 h2 => by omega) (.inr ?_), e1, tieRun, if_neg h]
      rw [e1]
      exact decide_eq_false h
  · intro hc
    have h0 : (tieRun fun _ => 0).1 = 1 := by simp [tieRun]
    have h1 : ∀ᶠ t : ∀ _ : Fin 1, ℝ in 𝓝 (fun _ => 0), 3 / 4 < (tieRun t).1 := by
      refine hc.eventually (lt_mem_nhds ?_)
      show (3 / 4 : ℝ) < (tieRun fun _ => 0).1
      rw [h0]; norm_num
    have c : Tendsto (fun n : ℕ => (fun _ : Fin 1 => -(1 / ((n : ℝ) + 1)))) atTop (𝓝 fun _ => 0) := by
      rw [tendsto_pi_nhds]
      intro _
      have := tendsto_one_div_add_atTop_nhds_zero_nat (𝕜 := ℝ)
      simpa using this.neg
    obtain ⟨n, hn⟩ := (c.eventually h1).exists
    have hpos : 0 < 1 / ((n : ℝ) + 1) := by positivity
    rw [tieRun, if_pos (by rw [abs_of_neg] <;> linarith)] at hn
    dsimp only at hn
    linarith

/-- The loop `while v > 1: v = v * v / 4` from 8 with three iterations (8, 16, 64, 1024) and its derivative. -/
example : Loop.whileLoopJvp (fun v : ℚ => decide (v > 1)) (fun v => v * v / 4) (fun v t => v * t / 2) 8 1 3 true true = .ok (1024, 1024) := by
  decide +kernel

example : Loop.whileLoopVjp (fun v : ℚ => decide (v > 1)) (fun v => v * v / 4) (fun v t => v * t / 2) 8 1 3 true true = .ok 1024 ∧
    Loop.whileLoopVjp (fun v : ℚ => decide (v > 1)) (fun v => v * v / 4) (fun v t => v * t / 2) 2 1 3 true false = .ok 1 := by
  decide +kernel

/-- The hypotheses of `C107_jvp` hold for it. -/
example (g : ℝ → ℝ) (hg : ∀ y, Loop.whileLoop (fun v : ℝ => decide (1 < v)) (fun v => v * v / 4) y (3 : ℕ) true true = .ok (g y)) :
    DifferentiableAt ℝ g 8 := by
  refine (Loop.C107_jvp _ _ (fun v => (v / 2) • ContinuousLinearMap.id ℝ ℝ) 3 true true g hg 8 (fun v _ _ => ?_) ?_).1
  · have := ((hasDerivAt_id v).mul (hasDerivAt_id v)).div_const 4
    refine (this.hasFDerivAt).congr_fderiv ?_
    ext
    simp
    ring
  · rintro v ⟨k, hk, rfl, -⟩
    have h1 : 1 < (fun v : ℝ => v * v / 4)^[k] 8 := by
      have : k = 0 ∨ k = 1 ∨ k = 2 := by omega
      rcases this with rfl | rfl | rfl <;> norm_num [Function.iterate_succ_apply]
    filter_upwards [lt_mem_nhds h1] with y hy
    simp only [hy, h1]

end Jaxopt.Implicit
