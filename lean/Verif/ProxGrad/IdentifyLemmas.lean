import Verif.ProxGrad.RegressionProps
import Mathlib.Topology.MetricSpace.ProperSpace
import Mathlib.Topology.Order.Compact
import Mathlib.Analysis.Normed.Group.Constructions
import Mathlib.Analysis.SpecificLimits.Basic
import Mathlib.Tactic.LinearCombination

/-!
# Convergence of the iterates of the proximal gradient methods when the minimiser is unique

Helper file of `IdentifyProps.lean`.
-/

set_option autoImplicit false
set_option linter.unusedSectionVars false
set_option linter.unusedVariables false

namespace Jaxopt.ProxGrad

open Jaxopt.Base Jaxopt.BlockCD Jaxopt.Proj Jaxopt.Prox Filter Topology

variable {n : ℕ}

theorem sq_le_dot (x : Fin n → ℝ) (j : Fin n) : x j ^ 2 ≤ dot x x := by
  unfold dot
  rw [sq]
  exact Finset.single_le_sum (f := fun j => x j * x j) (fun i _ => mul_self_nonneg _) (Finset.mem_univ j)

theorem dot_le_norm (x : Fin n → ℝ) : dot x x ≤ n * ‖x‖ ^ 2 := by
  unfold dot
  calc ∑ j, x j * x j ≤ ∑ _j : Fin n, ‖x‖ ^ 2 := Finset.sum_le_sum fun j _ => by
        have := norm_le_pi_norm x j
        rw [Real.norm_eq_abs] at this
        nlinarith [abs_mul_abs_self (x j), abs_nonneg (x j)]
    _ = n * ‖x‖ ^ 2 := by simp

theorem norm_le_sqrt_dot (x : Fin n → ℝ) : ‖x‖ ≤ Real.sqrt (dot x x) := by
  refine (pi_norm_le_iff_of_nonneg (Real.sqrt_nonneg _)).mpr fun j => ?_
  rw [Real.norm_eq_abs, ← Real.sqrt_sq_eq_abs]
  exact Real.sqrt_le_sqrt (sq_le_dot x j)

/-! ## The gradient and the prox are Lipschitz -/

/-- Cocoercivity with the constant `s ≤ 1/L`. -/
theorem coco_half {f : (Fin n → ℝ) → ℝ} {grad : (Fin n → ℝ) → (Fin n → ℝ)} {L s : ℝ} (hq : QuadUpper dot f grad L)
    (hc : GradIneq dot f grad) (hs : 0 < s) (hsL : s * L ≤ 1) (x y : Fin n → ℝ) :
    s / 2 * dot (grad y - grad x) (grad y - grad x) ≤ f y - f x - dot (y - x) (grad x) := by
  have hv := isVdot_dot (n := n)
  set d := grad y - grad x with hd
  have h1 := hc x (y + (-s) • d)
  have h2 := hq y (y + (-s) • d)
  have e1 : y + (-s) • d - x = (y - x) + (-s) • d := by abel
  have e2 : y + (-s) • d - y = (-s) • d := by abel
  rw [e1] at h1
  rw [e2] at h2
  simp only [hv.add_left, hv.smul_left, hv.smul_right] at h1 h2
  have e3 : dot d d = dot d (grad y) - dot d (grad x) := by rw [← hv.sub_right]
  have h4 := mul_nonneg (mul_nonneg hs.le (sub_nonneg.mpr hsL)) (hv.nonneg d)
  nlinarith

/-- A gradient step of length `s ≤ 1/L` is nonexpansive. -/
theorem gradStep_nonexpansive {f : (Fin n → ℝ) → ℝ} {grad : (Fin n → ℝ) → (Fin n → ℝ)} {L s : ℝ} (hq : QuadUpper dot f grad L)
    (hc : GradIneq dot f grad) (hs : 0 < s) (hsL : s * L ≤ 1) (x y : Fin n → ℝ) :
    dot ((y + (-s) • grad y) - (x + (-s) • grad x)) ((y + (-s) • grad y) - (x + (-s) • grad x)) ≤ dot (y - x) (y - x) := by
  have hv := isVdot_dot (n := n)
  have h1 := coco_half hq hc hs hsL x y
  have h2 := coco_half hq hc hs hsL y x
  have e0 : grad x - grad y = -(grad y - grad x) := by abel
  have e1 : x - y = -(y - x) := by abel
  rw [e0, e1] at h2
  have e : (y + (-s) • grad y) - (x + (-s) • grad x) = (y - x) + (-s) • (grad y - grad x) := by
    rw [smul_sub]; abel
  rw [e]
  have e3 : dot (y - x) (grad y - grad x) = dot (y - x) (grad y) - dot (y - x) (grad x) := hv.sub_right _ _ _
  set d := grad y - grad x
  set w := y - x
  simp only [hv.neg_left, hv.neg_right] at h2
  simp only [hv.add_left, hv.add_right, hv.smul_left, hv.smul_right]
  rw [hv.symm d w]
  have h3 : s * dot d d ≤ dot w d := by linarith
  nlinarith [mul_le_mul_of_nonneg_left h3 hs.le, mul_nonneg (mul_nonneg hs.le hs.le) (hv.nonneg d)]

theorem prox_nonexpansive {C : Set (Fin n → ℝ)} {h : (Fin n → ℝ) → ℝ} {prox : (Fin n → ℝ) → ℝ → (Fin n → ℝ)} (hp : IsProx dot C h prox)
    (hh : ConvexOn ℝ C h) {s : ℝ} (hs : 0 < s) (v w : Fin n → ℝ) :
    dot (prox v s - prox w s) (prox v s - prox w s) ≤ dot (v - w) (v - w) := by
  have hv := isVdot_dot (n := n)
  have h1 := prox_vi hv hp hh v hs (hp w s hs).1
  have h2 := prox_vi hv hp hh w hs (hp v s hs).1
  set P := prox v s
  set Q := prox w s
  have n1 := hv.nonneg ((v - w) - (P - Q))
  simp only [hv.sub_left, hv.sub_right, hv.symm Q P, hv.symm w v, hv.symm P v, hv.symm P w, hv.symm Q v, hv.symm Q w] at h1 h2 n1 ⊢
  nlinarith

theorem continuous_of_dot_le {F : (Fin n → ℝ) → (Fin n → ℝ)} (h : ∀ x y, dot (F y - F x) (F y - F x) ≤ dot (y - x) (y - x)) : Continuous F := by
  have hl : ∀ x y, dist (F x) (F y) ≤ Real.sqrt n * dist x y := by
    intro x y
    rw [dist_comm, dist_eq_norm, dist_comm, dist_eq_norm]
    refine (norm_le_sqrt_dot _).trans ((Real.sqrt_le_sqrt ((h x y).trans (dot_le_norm _))).trans_eq ?_)
    rw [Real.sqrt_mul (Nat.cast_nonneg _), Real.sqrt_sq (norm_nonneg _)]
  exact (LipschitzWith.of_dist_le_mul (K := ⟨Real.sqrt n, Real.sqrt_nonneg _⟩) hl).continuous

theorem continuous_f {f : (Fin n → ℝ) → ℝ} {grad : (Fin n → ℝ) → (Fin n → ℝ)} {L : ℝ} (hq : QuadUpper dot f grad L)
    (hc : GradIneq dot f grad) : Continuous f := by
  have hv := isVdot_dot (n := n)
  rw [continuous_iff_continuousAt]
  intro x
  have cd : ∀ g : Fin n → ℝ, Continuous fun y : Fin n → ℝ => dot (y - x) g := fun g => by
    unfold dot
    exact continuous_finsetSum _ fun j _ => ((continuous_apply j).sub continuous_const).mul continuous_const
  have cs : Continuous fun y : Fin n → ℝ => dot (y - x) (y - x) := by
    unfold dot
    exact continuous_finsetSum _ fun j _ => ((continuous_apply j).sub continuous_const).mul ((continuous_apply j).sub continuous_const)
  have z : ∀ g : Fin n → ℝ, dot (x - x) g = 0 := fun g => by rw [sub_self, hv.zero_left]
  have l1 : Tendsto (fun y => f x + dot (y - x) (grad x)) (𝓝 x) (𝓝 (f x)) := by
    have := ((cd (grad x)).tendsto x).const_add (f x)
    rwa [z, add_zero] at this
  have l2 : Tendsto (fun y => f x + dot (y - x) (grad x) + L / 2 * dot (y - x) (y - x)) (𝓝 x) (𝓝 (f x)) := by
    have := l1.add ((cs.tendsto x).const_mul (L / 2))
    rwa [z, mul_zero, add_zero] at this
  exact tendsto_of_tendsto_of_tendsto_of_le_of_le l1 l2 (fun y => hc x y) (fun y => hq x y)

/-! ## Values converging to the minimum -/

/-- If a convex continuous function has a unique minimiser on a closed set, sequences whose values converge to the minimum converge to
the minimiser. -/
theorem tendsto_of_values {C : Set (Fin n → ℝ)} (hCc : IsClosed C) {F : (Fin n → ℝ) → ℝ} (hF : ConvexOn ℝ C F) (hFc : ContinuousOn F C)
    {u : Fin n → ℝ} (hu : IsUniqueMin C F u) {X : ℕ → Fin n → ℝ} (hX : ∀ᶠ k in atTop, X k ∈ C)
    (hval : Tendsto (fun k => F (X k)) atTop (𝓝 (F u))) : Tendsto X atTop (𝓝 u) := by
  rw [Metric.tendsto_nhds]
  intro ε hε
  -- every point of `C` at distance at least `ε` has a value at least that of a point of `C` at distance `ε`
  have key : ∀ x ∈ C, ε ≤ dist x u → ∃ z ∈ C, dist z u = ε ∧ F z ≤ F x := by
    intro x hx hd
    have hd0 : 0 < dist x u := hε.trans_le hd
    set l := ε / dist x u
    have hl0 : 0 < l := div_pos hε hd0
    have hl1 : l ≤ 1 := (div_le_one hd0).mpr hd
    refine ⟨(1 - l) • u + l • x, hF.1 hu.1 hx (by linarith) hl0.le (by ring), ?_, ?_⟩
    · have e : (1 - l) • u + l • x - u = l • (x - u) := by rw [sub_smul, one_smul, smul_sub]; abel
      rw [dist_eq_norm, e, norm_smul, Real.norm_eq_abs, abs_of_pos hl0, ← dist_eq_norm]
      exact div_mul_cancel₀ _ hd0.ne'
    · have h1 := hF.2 hu.1 hx (show 0 ≤ 1 - l by linarith) hl0.le (by ring)
      have h2 := hu.2 x hx (by rintro rfl; simp at hd0)
      simp only [smul_eq_mul] at h1
      nlinarith
  rcases (C ∩ Metric.sphere u ε).eq_empty_or_nonempty with he | hne
  · filter_upwards [hX] with k hk
    by_contra hcon
    obtain ⟨z, hz, hzd, -⟩ := key _ hk (not_lt.mp hcon)
    exact Set.notMem_empty z (he ▸ ⟨hz, Metric.mem_sphere.mpr hzd⟩)
  · obtain ⟨z0, hz0, hmin⟩ := ((isCompact_sphere u ε).inter_left hCc).exists_isMinOn hne (hFc.mono Set.inter_subset_left)
    have hlt : F u < F z0 := hu.2 z0 hz0.1 (by
      rintro rfl
      have := hz0.2
      simp only [Metric.mem_sphere, dist_self] at this
      linarith)
    filter_upwards [hX, hval.eventually_lt_const hlt] with k hk hk2
    by_contra hcon
    obtain ⟨z, hz, hzd, hle⟩ := key _ hk (not_lt.mp hcon)
    have := hmin (show z ∈ C ∩ Metric.sphere u ε from ⟨hz, Metric.mem_sphere.mpr hzd⟩)
    simp only [Set.mem_ofPred_eq] at this
    linarith

/-! ## The iterates -/

/-- The point from which the next step is taken. -/
def PG.base (S : PG ℝ (Fin n → ℝ)) (p : (Fin n → ℝ) × PGState ℝ (Fin n → ℝ)) : Fin n → ℝ := if S.acceleration then p.2.velocity else p.1

theorem PG.iterate_base (S : PG ℝ (Fin n → ℝ)) {s : ℝ} (hstep : S.stepsize = .const s) (hs : 0 < s) (x0 : Fin n → ℝ) (k : ℕ) :
    (S.iterate x0 (k + 1)).1 = S.prox (S.base (S.iterate x0 k) + (-s) • S.grad (S.base (S.iterate x0 k))) s := by
  rw [PG.iterate_succ]
  unfold PG.base
  cases hacc : S.acceleration
  · simp only [PG.update, hacc, Bool.false_eq_true, if_false, PG.updatePlain, PG.iter, hstep, if_neg (not_le.mpr hs), PG.proxGrad]
  · simp only [PG.update, hacc, if_true, PG.updateAccel, PG.iter, hstep, if_neg (not_le.mpr hs), PG.proxGrad]

/-- The extrapolated point is `x_{k+1} + β (x_{k+1} - x_k)` with `0 ≤ β ≤ 1`, and `β = 0` after the first update. -/
theorem PG.velocity_succ (S : PG ℝ (Fin n → ℝ)) (hsq : S.sqrt = Real.sqrt) (hacc : S.acceleration = true) (x0 : Fin n → ℝ) (k : ℕ) :
    1 ≤ (S.iterate x0 k).2.t ∧ ∃ b : ℝ, 0 ≤ b ∧ b ≤ 1 ∧ (k = 0 → b = 0) ∧
      (S.iterate x0 (k + 1)).2.velocity = (S.iterate x0 (k + 1)).1 + b • ((S.iterate x0 (k + 1)).1 - (S.iterate x0 k).1) := by
  have hsq' : ∀ a : ℝ, 0 ≤ a → 0 ≤ S.sqrt a ∧ S.sqrt a * S.sqrt a = a := by
    intro a ha; rw [hsq]; exact ⟨Real.sqrt_nonneg a, Real.mul_self_sqrt ha⟩
  have ht : ∀ k, 1 ≤ (S.iterate x0 k).2.t := by
    intro k
    induction k with
    | zero => simp [PG.iterate, PG.initState]
    | succ k ih =>
      rw [PG.iterate_succ]
      simp only [PG.update, hacc, if_true, PG.updateAccel]
      have := (next_t hsq' (show 0 ≤ (S.iterate x0 k).2.t by linarith)).2
      linarith
  refine ⟨ht k, ((S.iterate x0 k).2.t - 1) / (S.iterate x0 (k + 1)).2.t, div_nonneg (by linarith [ht k]) (by linarith [ht (k + 1)]), ?_, ?_, ?_⟩
  · rw [div_le_one (by linarith [ht (k + 1)])]
    rw [PG.iterate_succ]
    simp only [PG.update, hacc, if_true, PG.updateAccel]
    have := (next_t hsq' (show 0 ≤ (S.iterate x0 k).2.t by linarith [ht k])).2
    linarith
  · rintro rfl
    simp [PG.iterate, PG.initState]
  · rw [PG.iterate_succ]
    simp only [PG.update, hacc, if_true, PG.updateAccel]

/-- The values of the iterates, for both variants. -/
theorem PG.gap (S : PG ℝ (Fin n → ℝ)) (hvd : S.vdot = dot) (hsq : S.sqrt = Real.sqrt) {C : Set (Fin n → ℝ)} {h : (Fin n → ℝ) → ℝ}
    (hp : IsProx dot C h S.prox) (hh : ConvexOn ℝ C h) {L : ℝ} (hq : QuadUpper dot S.f S.grad L) (hc : GradIneq dot S.f S.grad) {s : ℝ}
    (hstep : S.stepsize = .const s) (hs : 0 < s) (hsL : s * L ≤ 1) (x0 : Fin n → ℝ) {u : Fin n → ℝ} (hu : u ∈ C) {k : ℕ} (hk : 1 ≤ k) :
    S.f (S.iterate x0 k).1 + h (S.iterate x0 k).1 - (S.f u + h u) ≤ gapBound S.acceleration s (dot (x0 - u) (x0 - u)) k := by
  cases hacc : S.acceleration
  · have := S.C77_rate (by rw [hvd]; exact isVdot_dot) (by rw [hvd]; exact hp) hh (by rw [hvd]; exact hq) (by rw [hvd]; exact hc) hacc hstep
      hs hsL x0 hu hk
    rw [hvd] at this
    simpa [gapBound] using this
  · have := S.C33_rate (by rw [hvd]; exact isVdot_dot) (by rw [hvd]; exact hp) hh (by rw [hvd]; exact hq) (by rw [hvd]; exact hc)
      (by intro a ha; rw [hsq]; exact ⟨Real.sqrt_nonneg a, Real.mul_self_sqrt ha⟩) hacc hstep hs hsL x0 hu k hk
    rw [hvd] at this
    simpa [gapBound] using this

theorem gapBound_tendsto (acc : Bool) {s : ℝ} (hs : 0 < s) (D : ℝ) : Tendsto (gapBound acc s D) atTop (𝓝 0) := by
  have h1 : Tendsto (fun k : ℕ => ((k : ℝ))⁻¹) atTop (𝓝 0) := tendsto_inv_atTop_nhds_zero_nat
  have h2 : Tendsto (fun k : ℕ => ((k : ℝ) + 1)⁻¹) atTop (𝓝 0) := by simpa using tendsto_one_div_add_atTop_nhds_zero_nat (𝕜 := ℝ)
  cases acc
  · have := h1.const_mul (D / (2 * s))
    rw [mul_zero] at this
    refine this.congr fun k => ?_
    simp only [gapBound, Bool.false_eq_true, if_false]
    rw [div_eq_mul_inv, div_eq_mul_inv, mul_inv (2 * s), mul_assoc]
  · have := (h2.mul h2).const_mul (2 * D / s)
    rw [mul_zero, mul_zero] at this
    refine this.congr fun k => ?_
    simp only [gapBound, if_true]
    rw [div_eq_mul_inv, div_eq_mul_inv, mul_inv s, mul_inv, mul_assoc (2 * D)]

/-- What the results assume of the solver: a convex smooth function, a constant step of at most `1/L`, the euclidean inner product and the
real square root. -/
structure SmoothStep (S : PG ℝ (Fin n → ℝ)) (s L : ℝ) : Prop where
  vdot : S.vdot = dot
  sqrt : S.sqrt = Real.sqrt
  upper : QuadUpper dot S.f S.grad L
  lower : GradIneq dot S.f S.grad
  step : S.stepsize = .const s
  pos : 0 < s
  le : s * L ≤ 1

/-- Together with a closed convex domain and a continuous convex penalty with its exact prox. -/
structure Setup (S : PG ℝ (Fin n → ℝ)) (C : Set (Fin n → ℝ)) (h : (Fin n → ℝ) → ℝ) (s L : ℝ) : Prop extends SmoothStep S s L where
  prox : IsProx dot C h S.prox
  pen : ConvexOn ℝ C h
  closed : IsClosed C
  cont : ContinuousOn h C

namespace Setup

variable {S : PG ℝ (Fin n → ℝ)} {C : Set (Fin n → ℝ)} {h : (Fin n → ℝ) → ℝ} {s L : ℝ}

/-- The objective is convex. -/
theorem convexOn (H : Setup S C h s L) : ConvexOn ℝ C fun w => S.f w + h w := by
  have hv := isVdot_dot (n := n)
  refine ConvexOn.add ⟨H.pen.1, fun x _ y _ a b ha hb hab => ?_⟩ H.pen
  have h1 := mul_le_mul_of_nonneg_left (H.lower (a • x + b • y) x) ha
  have h2 := mul_le_mul_of_nonneg_left (H.lower (a • x + b • y) y) hb
  have e : a * dot (x - (a • x + b • y)) (S.grad (a • x + b • y)) + b * dot (y - (a • x + b • y)) (S.grad (a • x + b • y)) = 0 := by
    rw [← hv.smul_left, ← hv.smul_left, ← hv.add_left]
    have : a • (x - (a • x + b • y)) + b • (y - (a • x + b • y)) = 0 := by
      funext j
      simp only [Pi.add_apply, Pi.smul_apply, Pi.sub_apply, smul_eq_mul, Pi.zero_apply]
      linear_combination (-(a * x j + b * y j)) * hab
    rw [this, hv.zero_left]
  simp only [smul_eq_mul]
  have e2 : (a + b) * S.f (a • x + b • y) = S.f (a • x + b • y) := by rw [hab, one_mul]
  nlinarith

/-- A minimiser is a fixed point of the step. -/
theorem fixed (H : Setup S C h s L) {u : Fin n → ℝ} (hu : IsUniqueMin C (fun w => S.f w + h w) u) :
    S.prox (u + (-s) • S.grad u) s = u := by
  have hv := isVdot_dot (n := n)
  rw [fixed_iff hv H.prox H.pen u (S.grad u) H.pos]
  refine ⟨hu.1, fun w hw => ?_⟩
  -- the directional derivative is non-negative
  have key : 0 ≤ h w - h u + dot (w - u) (S.grad u) := by
    refine linear_coeff_nonneg (b := |L| / 2 * dot (w - u) (w - u)) (mul_nonneg (by positivity) (hv.nonneg _)) fun l hl hl1 => ?_
    have hm : u + l • (w - u) ∈ C := by
      have := H.pen.1 hu.1 hw (sub_nonneg.mpr hl1) hl.le (by ring)
      have e : (1 - l) • u + l • w = u + l • (w - u) := by rw [sub_smul, one_smul, smul_sub]; abel
      rwa [e] at this
    have hhw : h (u + l • (w - u)) ≤ (1 - l) * h u + l * h w := by
      have := H.pen.2 hu.1 hw (sub_nonneg.mpr hl1) hl.le (by ring)
      have e : (1 - l) • u + l • w = u + l • (w - u) := by rw [sub_smul, one_smul, smul_sub]; abel
      rwa [e] at this
    have h1 := H.upper u (u + l • (w - u))
    have h2 : S.f u + h u ≤ S.f (u + l • (w - u)) + h (u + l • (w - u)) := by
      rcases eq_or_ne (u + l • (w - u)) u with he | he
      · rw [he]
      · exact (hu.2 _ hm he).le
    rw [add_sub_cancel_left] at h1
    simp only [hv.smul_left, hv.smul_right] at h1
    have h3 : L / 2 * (l * (l * dot (w - u) (w - u))) ≤ |L| / 2 * (l * (l * dot (w - u) (w - u))) :=
      mul_le_mul_of_nonneg_right (by linarith [le_abs_self L]) (mul_nonneg hl.le (mul_nonneg hl.le (hv.nonneg _)))
    nlinarith
  linarith

theorem continuous_step (H : Setup S C h s L) : Continuous fun y => y + (-s) • S.grad y :=
  continuous_of_dot_le fun x y => gradStep_nonexpansive H.upper H.lower H.pos H.le x y

theorem continuous_prox (H : Setup S C h s L) : Continuous fun v => S.prox v s :=
  continuous_of_dot_le fun x y => prox_nonexpansive H.prox H.pen H.pos y x

/-- The iterates and the points from which the steps are taken converge to the unique minimiser. -/
theorem tendsto (H : Setup S C h s L) {u : Fin n → ℝ} (hu : IsUniqueMin C (fun w => S.f w + h w) u) (x0 : Fin n → ℝ) :
    Tendsto (fun k => (S.iterate x0 k).1) atTop (𝓝 u) ∧ Tendsto (fun k => S.base (S.iterate x0 k)) atTop (𝓝 u) := by
  have hmem : ∀ k, 1 ≤ k → (S.iterate x0 k).1 ∈ C := by
    intro k hk
    obtain ⟨j, rfl⟩ : ∃ j, k = j + 1 := ⟨k - 1, by omega⟩
    rw [S.iterate_base H.step H.pos]
    exact (H.prox _ s H.pos).1
  have h1 : Tendsto (fun k => (S.iterate x0 k).1) atTop (𝓝 u) := by
    refine tendsto_of_values H.closed H.convexOn ((continuous_f H.upper H.lower).continuousOn.add H.cont) hu
      (eventually_atTop.mpr ⟨1, hmem⟩) ?_
    have hb := (gapBound_tendsto S.acceleration H.pos (dot (x0 - u) (x0 - u))).const_add (S.f u + h u)
    rw [add_zero] at hb
    refine tendsto_of_tendsto_of_tendsto_of_le_of_le' tendsto_const_nhds hb (eventually_atTop.mpr ⟨1, fun k hk => ?_⟩)
      (eventually_atTop.mpr ⟨1, fun k hk => ?_⟩)
    · rcases eq_or_ne (S.iterate x0 k).1 u with he | he
      · rw [he]
      · exact (hu.2 _ (hmem k hk) he).le
    · have := S.gap H.vdot H.sqrt H.prox H.pen H.upper H.lower H.step H.pos H.le x0 hu.1 hk
      linarith
  refine ⟨h1, ?_⟩
  cases hacc : S.acceleration
  · simpa only [PG.base, hacc, Bool.false_eq_true, if_false] using h1
  · simp only [PG.base, hacc, if_true]
    rw [← tendsto_add_atTop_iff_nat 1]
    have h2 := (tendsto_add_atTop_iff_nat 1).mpr h1
    have h3 : Tendsto (fun k => (S.iterate x0 (k + 1)).1 - (S.iterate x0 k).1) atTop (𝓝 0) := by
      have := h2.sub h1
      rwa [sub_self] at this
    have h4 : Tendsto (fun k => (S.iterate x0 (k + 1)).2.velocity - (S.iterate x0 (k + 1)).1) atTop (𝓝 0) := by
      refine squeeze_zero_norm (fun k => ?_) (tendsto_norm_zero.comp h3)
      obtain ⟨-, b, hb0, hb1, -, he⟩ := S.velocity_succ H.sqrt hacc x0 k
      rw [he, add_sub_cancel_left, norm_smul, Real.norm_eq_abs, abs_of_nonneg hb0]
      exact mul_le_of_le_one_left (norm_nonneg _) hb1
    have h5 := h4.add h2
    rw [zero_add] at h5
    refine h5.congr fun k => ?_
    rw [sub_add_cancel]

/-- Whatever holds for the results of steps near the minimiser holds for all but finitely many iterates. -/
theorem eventually (H : Setup S C h s L) {u : Fin n → ℝ} (hu : IsUniqueMin C (fun w => S.f w + h w) u) (x0 : Fin n → ℝ)
    {P : (Fin n → ℝ) → Prop} (hP : ∀ᶠ v in 𝓝 (u + (-s) • S.grad u), P (S.prox v s)) : ∃ N, ∀ k, N ≤ k → P (S.iterate x0 k).1 := by
  have h1 := ((H.continuous_step.tendsto u).comp (H.tendsto hu x0).2).eventually hP
  obtain ⟨N, hN⟩ := eventually_atTop.mp h1
  refine ⟨N + 1, fun k hk => ?_⟩
  obtain ⟨j, rfl⟩ : ∃ j, k = j + 1 := ⟨k - 1, by omega⟩
  rw [S.iterate_base H.step H.pos]
  exact hN j (by omega)

end Setup

end Jaxopt.ProxGrad
