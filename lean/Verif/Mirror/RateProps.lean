import Verif.Mirror.Props
import Mathlib.Analysis.Calculus.Deriv.MeanValue
import Mathlib.Analysis.SpecialFunctions.Log.Deriv
import Mathlib.Analysis.Complex.ExponentialBounds
import Mathlib.Algebra.Order.BigOperators.Ring.Finset
import Mathlib.Analysis.Real.Sqrt

/-!
# Property C85: rates of mirror descent on the simplex

Pinsker's inequality makes the Kullback-Leibler divergence strongly convex in the `ℓ₁` norm; with the three-point identity of C52 this gives
the rates of mirror descent, for smooth and for non-smooth convex objectives.
-/

set_option autoImplicit false
set_option linter.unusedSectionVars false
set_option linter.unusedVariables false

namespace Jaxopt.Mirror

open Jaxopt.Base

variable {n : ℕ} {value : ℝ}

/-! ## Specification -/

/-- The `ℓ₁` norm. -/
noncomputable def l1 {ι : Type*} [Fintype ι] (v : ι → ℝ) : ℝ := ∑ i, |v i|

/-- The points of the simplex of mass `value`. -/
def Simplex {n : ℕ} (value : ℝ) : Set (Fin n → ℝ) := {x | (∀ i, 0 ≤ x i) ∧ ∑ i, x i = value}

/-- `g` is a subgradient of `f` on the positive simplex. -/
def ConvexOnSimplex {n : ℕ} (value : ℝ) (f : (Fin n → ℝ) → ℝ) (g : (Fin n → ℝ) → Fin n → ℝ) : Prop :=
  ∀ x ∈ PosSimplex value, ∀ z ∈ Simplex value, f x + ∑ i, g x i * (z i - x i) ≤ f z

/-- `f` is smooth with respect to the `ℓ₁` norm on the positive simplex. -/
def SmoothOnSimplex {n : ℕ} (value L : ℝ) (f : (Fin n → ℝ) → ℝ) (g : (Fin n → ℝ) → Fin n → ℝ) : Prop :=
  ∀ x ∈ PosSimplex value, ∀ z ∈ PosSimplex value, f z ≤ f x + ∑ i, g x i * (z i - x i) + L / 2 * l1 (z - x) ^ 2

/-! ## Pinsker's inequality -/

theorem log_lower {t : ℝ} (ht : 0 < t) : (t - 1) * (5 * t + 1) / (2 * t * (t + 2)) ≤ Real.log t := by
  have hder : ∀ s : ℝ, 0 < s → HasDerivAt (fun s => Real.log s - (s - 1) * (5 * s + 1) / (2 * s * (s + 2)))
      ((s - 1) ^ 3 / (s ^ 2 * (s + 2) ^ 2)) s := by
    intro s hs
    have h1 := Real.hasDerivAt_log hs.ne'
    have h2 : HasDerivAt (fun s : ℝ => (s - 1) * (5 * s + 1)) (1 * (5 * s + 1) + (s - 1) * (5 * 1)) s :=
      ((hasDerivAt_id s).sub_const 1).mul (((hasDerivAt_id s).const_mul 5).add_const 1)
    have h3 : HasDerivAt (fun s : ℝ => 2 * s * (s + 2)) (2 * 1 * (s + 2) + 2 * s * 1) s :=
      ((hasDerivAt_id s).const_mul 2).mul ((hasDerivAt_id s).add_const 2)
    have h4 := h1.sub (h2.div h3 (by positivity))
    refine h4.congr_deriv ?_
    have h5 : s + 2 ≠ 0 := by positivity
    field_simp
    ring
  set D : ℝ → ℝ := fun s => Real.log s - (s - 1) * (5 * s + 1) / (2 * s * (s + 2)) with hD
  have h1 : D 1 = 0 := by simp [hD]
  have hgoal : D 1 ≤ D t := by
    rcases le_total 1 t with h | h
    · have hm : MonotoneOn D (Set.Ici 1) := by
        refine monotoneOn_of_deriv_nonneg (convex_Ici 1) ?_ ?_ ?_
        · intro s hs
          exact (hder s (lt_of_lt_of_le one_pos hs)).continuousAt.continuousWithinAt
        · intro s hs
          rw [interior_Ici] at hs
          exact (hder s (lt_trans one_pos hs)).differentiableAt.differentiableWithinAt
        · intro s hs
          rw [interior_Ici] at hs
          have hs1 : 1 < s := hs
          rw [(hder s (by linarith)).deriv]
          have : 0 ≤ s - 1 := by linarith
          positivity
      exact hm (Set.mem_Ici.mpr le_rfl) (Set.mem_Ici.mpr h) h
    · have hm : AntitoneOn D (Set.Ioc 0 1) := by
        refine antitoneOn_of_deriv_nonpos (convex_Ioc 0 1) ?_ ?_ ?_
        · intro s hs
          exact (hder s hs.1).continuousAt.continuousWithinAt
        · intro s hs
          rw [interior_Ioc] at hs
          exact (hder s hs.1).differentiableAt.differentiableWithinAt
        · intro s hs
          rw [interior_Ioc] at hs
          rw [(hder s hs.1).deriv]
          have h3 : (s - 1) ^ 3 ≤ 0 := by
            have : s - 1 ≤ 0 := by linarith [hs.2]
            exact Odd.pow_nonpos (by decide) this
          have : 0 < s := hs.1
          exact div_nonpos_of_nonpos_of_nonneg h3 (by positivity)
      exact hm ⟨ht, h⟩ ⟨one_pos, le_rfl⟩ h
  rw [h1] at hgoal
  simp only [hD] at hgoal
  linarith

theorem kl_term {a b : ℝ} (ha : 0 ≤ a) (hb : 0 < b) : 3 * (a - b) ^ 2 / (2 * (a + 2 * b)) ≤ a * Real.log (a / b) - a + b := by
  rcases ha.eq_or_lt with h | h
  · rw [← h]
    simp only [zero_mul, zero_sub, zero_add, neg_zero]
    rw [div_le_iff₀ (by positivity)]
    nlinarith
  · have h1 := log_lower (div_pos h hb)
    have h2 := mul_le_mul_of_nonneg_left h1 h.le
    have e : a * ((a / b - 1) * (5 * (a / b) + 1) / (2 * (a / b) * (a / b + 2))) = 3 * (a - b) ^ 2 / (2 * (a + 2 * b)) + a - b := by
      field_simp
      ring
    rw [e] at h2
    linarith

/-- Pinsker's inequality for vectors of equal mass. -/
theorem pinsker (hv : 0 < value) {z x : Fin n → ℝ} (hz : z ∈ Simplex value) (hx : x ∈ PosSimplex value) :
    l1 (z - x) ^ 2 ≤ 2 * value * KL z x := by
  have hw : ∀ i, 0 < z i + 2 * x i := fun i => by have := hz.1 i; have := hx.1 i; linarith
  have h1 : ∑ i, 3 * (z i - x i) ^ 2 / (2 * (z i + 2 * x i)) ≤ KL z x :=
    Finset.sum_le_sum fun i _ => kl_term (hz.1 i) (hx.1 i)
  have h2 : l1 (z - x) ^ 2 ≤ (∑ i, (z i - x i) ^ 2 / (z i + 2 * x i)) * ∑ i, (z i + 2 * x i) := by
    refine Finset.sum_sq_le_sum_mul_sum_of_sq_le_mul Finset.univ (fun i _ => ?_) (fun i _ => (hw i).le) (fun i _ => ?_)
    · exact div_nonneg (sq_nonneg _) (hw i).le
    · rw [div_mul_cancel₀ _ (hw i).ne', sq_abs]; exact le_refl _
  have h3 : ∑ i, (z i + 2 * x i) = 3 * value := by
    rw [Finset.sum_add_distrib, ← Finset.mul_sum, hz.2, hx.2]; ring
  have h4 : ∑ i, 3 * (z i - x i) ^ 2 / (2 * (z i + 2 * x i)) = 3 / 2 * ∑ i, (z i - x i) ^ 2 / (z i + 2 * x i) := by
    rw [Finset.mul_sum]
    refine Finset.sum_congr rfl fun i _ => ?_
    have := (hw i).ne'
    field_simp
  rw [h3] at h2
  rw [h4] at h1
  nlinarith

theorem posSimplex_le : PosSimplex (n := n) value ⊆ Simplex value := fun x hx => ⟨fun i => (hx.1 i).le, hx.2⟩

/-! ## Rates -/

section Rate
variable (S : MD ℝ (Fin (n + 1) → ℝ)) (f : (Fin (n + 1) → ℝ) → ℝ)

theorem update_fst (hS : S.projectionGrad = klStep value) (p : (Fin (n + 1) → ℝ) × MDState ℝ) :
    (S.update p).1 = klStep value p.1 (S.grad p.1) (S.stepsize p.2.iterNum) := by
  unfold MD.update
  simp only [hS]

theorem iter_mem (hS : S.projectionGrad = klStep value) (hv : 0 < value) (p : (Fin (n + 1) → ℝ) × MDState ℝ) (hp : p.1 ∈ PosSimplex value)
    (t : ℕ) : (S.update^[t] p).1 ∈ PosSimplex value := by
  cases t with
  | zero => exact hp
  | succ t => exact C52_feasible S hS hv p (t + 1) (by omega)

/-- One step on a smooth convex objective. -/
theorem smooth_step (hv : 0 < value) (g : (Fin (n + 1) → ℝ) → Fin (n + 1) → ℝ) (L s : ℝ) (hs : 0 < s) (hL : s * L * value ≤ 1)
    (hc : ConvexOnSimplex value f g) (hsm : SmoothOnSimplex value L f g) (x z : Fin (n + 1) → ℝ) (hx : x ∈ PosSimplex value)
    (hz : z ∈ Simplex value) : s * (f (klStep value x (g x) s) - f z) ≤ KL z x - KL z (klStep value x (g x) s) := by
  have hp : klStep value x (g x) s ∈ PosSimplex value := klProjection_mem hv _
  have h3 := C52_three_point hv x (g x) z s hx hz.1 hz.2
  set p := klStep value x (g x) s with hpdef
  have h1 := hsm x hx p hp
  have h2 := hc x hx z hz
  have h4 := pinsker hv (posSimplex_le hp) hx
  have e : ∑ i, g x i * (p i - z i) = ∑ i, g x i * (p i - x i) - ∑ i, g x i * (z i - x i) := by
    rw [← Finset.sum_sub_distrib]; exact Finset.sum_congr rfl fun i _ => by ring
  have h5 : f p - f z ≤ ∑ i, g x i * (p i - z i) + L / 2 * l1 (p - x) ^ 2 := by rw [e]; linarith
  have h6 := mul_le_mul_of_nonneg_left h5 hs.le
  have h7 : s * (L / 2 * l1 (p - x) ^ 2) ≤ KL p x := by
    have hkl : 0 ≤ KL p x := KL_nonneg (fun i => (hp.1 i).le) hx.1
    have hsq := sq_nonneg (l1 (p - x))
    rcases le_total 0 L with hL0 | hL0
    · have := mul_le_mul_of_nonneg_left h4 (by positivity : 0 ≤ s * (L / 2))
      nlinarith
    · have : s * (L / 2 * l1 (p - x) ^ 2) ≤ 0 := by
        have h8 : L * l1 (p - x) ^ 2 ≤ 0 := mul_nonpos_of_nonpos_of_nonneg hL0 hsq
        nlinarith
      linarith
  rw [mul_add] at h6
  linarith

/-- **C85** (smooth objectives).  For a convex objective that is `L`-smooth in the `ℓ₁` norm and a constant stepsize `s ≤ 1 / (L value)`, mirror
descent never increases the objective, and after `T` updates the gap to any point `z` of the simplex is at most `KL(z, x₀) / (s T)`. -/
theorem C85_smooth (hS : S.projectionGrad = klStep value) (hv : 0 < value) (L s : ℝ) (hs : 0 < s) (hL : s * L * value ≤ 1)
    (hst : ∀ k, S.stepsize k = s) (hc : ConvexOnSimplex value f S.grad) (hsm : SmoothOnSimplex value L f S.grad)
    (x0 : Fin (n + 1) → ℝ) (hx0 : x0 ∈ PosSimplex value) :
    (∀ t, f (S.update^[t + 1] (x0, S.initState x0)).1 ≤ f (S.update^[t] (x0, S.initState x0)).1) ∧
    ∀ z ∈ Simplex value, ∀ T : ℕ, s * T * (f (S.update^[T] (x0, S.initState x0)).1 - f z) ≤ KL z x0 := by
  set p := (x0, S.initState x0) with hp
  have hmem := iter_mem S hS hv p hx0
  have hstep : ∀ t, ∀ z ∈ Simplex value, s * (f (S.update^[t + 1] p).1 - f z) ≤ KL z (S.update^[t] p).1 - KL z (S.update^[t + 1] p).1 := by
    intro t z hz
    rw [Function.iterate_succ_apply', update_fst S hS, hst]
    exact smooth_step f hv S.grad L s hs hL hc hsm _ z (hmem t) hz
  have hdec : ∀ t, f (S.update^[t + 1] p).1 ≤ f (S.update^[t] p).1 := by
    intro t
    have h := hstep t _ (posSimplex_le (hmem t))
    rw [KL_self (hmem t).1] at h
    have := KL_nonneg (fun i => ((hmem t).1 i).le) (hmem (t + 1)).1
    by_contra hcon
    push Not at hcon
    nlinarith [mul_pos hs (sub_pos.mpr hcon)]
  refine ⟨hdec, fun z hz T => ?_⟩
  have hsum : ∀ T : ℕ, s * T * (f (S.update^[T] p).1 - f z) ≤ KL z x0 - KL z (S.update^[T] p).1 := by
    intro T
    induction T with
    | zero => simp [hp]
    | succ T ih =>
      have h1 := hstep T z hz
      have h2 := hdec T
      have h3 : s * T * (f (S.update^[T + 1] p).1 - f z) ≤ s * T * (f (S.update^[T] p).1 - f z) := by
        apply mul_le_mul_of_nonneg_left _ (by positivity)
        linarith
      push_cast
      linarith
  have := KL_nonneg hz.1 (hmem T).1
  linarith [hsum T]

/-- **C85** (the run).  What `run` returns after `iter_num` updates satisfies the same bound. -/
theorem C85_run (hS : S.projectionGrad = klStep value) (hv : 0 < value) (L s : ℝ) (hs : 0 < s) (hL : s * L * value ≤ 1)
    (hst : ∀ k, S.stepsize k = s) (hc : ConvexOnSimplex value f S.grad) (hsm : SmoothOnSimplex value L f S.grad)
    (x0 : Fin (n + 1) → ℝ) (hx0 : x0 ∈ PosSimplex value) (hm : 1 ≤ S.maxiter) {r} (hr : S.run x0 = .ok r) :
    1 ≤ r.2.iterNum ∧ f r.1 ≤ f x0 ∧ ∀ z ∈ Simplex value, f r.1 - f z ≤ KL z x0 / (s * r.2.iterNum) := by
  obtain ⟨k, h1, -, rfl, -, -⟩ := runS_spec hm hr
  obtain ⟨hdec, hrate⟩ := C85_smooth S f hS hv L s hs hL hst hc hsm x0 hx0
  have hk : (S.update^[k] (x0, S.initState x0)).2.iterNum = k := (C52_state S x0 k).1
  refine ⟨by rw [hk]; exact h1, ?_, fun z hz => ?_⟩
  · have : ∀ t, f (S.update^[t] (x0, S.initState x0)).1 ≤ f x0 := by
      intro t
      induction t with
      | zero => exact le_rfl
      | succ t ih => exact le_trans (hdec t) ih
    exact this k
  · rw [hk, le_div_iff₀ (by positivity)]
    have := hrate z hz k
    linarith

/-- **C85** (non-smooth objectives, any schedule).  For a convex objective whose subgradients have entries of size at most `G`, the weighted gaps
of the iterates sum up to at most `KL(z, x₀) + value G² / 2 ∑ s_t²`. -/
theorem C85_nonsmooth (hS : S.projectionGrad = klStep value) (hv : 0 < value) (G : ℝ) (hst : ∀ k, 0 ≤ S.stepsize k)
    (hc : ConvexOnSimplex value f S.grad) (hG : ∀ x ∈ PosSimplex value, ∀ i, |S.grad x i| ≤ G)
    (x0 : Fin (n + 1) → ℝ) (hx0 : x0 ∈ PosSimplex value) (z : Fin (n + 1) → ℝ) (hz : z ∈ Simplex value) (T : ℕ) :
    ∑ t ∈ Finset.range T, S.stepsize t * (f (S.update^[t] (x0, S.initState x0)).1 - f z) ≤
      KL z x0 + value * G ^ 2 / 2 * ∑ t ∈ Finset.range T, S.stepsize t ^ 2 := by
  set p := (x0, S.initState x0) with hp
  have hmem := iter_mem S hS hv p hx0
  have hstep : ∀ t, S.stepsize t * (f (S.update^[t] p).1 - f z) ≤
      KL z (S.update^[t] p).1 - KL z (S.update^[t + 1] p).1 + value * G ^ 2 / 2 * S.stepsize t ^ 2 := by
    intro t
    have hit : (S.update^[t] p).2.iterNum = t := (C52_state S x0 t).1
    have hx := hmem t
    have hq := hmem (t + 1)
    have e : (S.update^[t + 1] p).1 = klStep value (S.update^[t] p).1 (S.grad (S.update^[t] p).1) (S.stepsize t) := by
      rw [Function.iterate_succ_apply', update_fst S hS, hit]
    have h3 := C52_three_point hv (S.update^[t] p).1 (S.grad (S.update^[t] p).1) z (S.stepsize t) hx hz.1 hz.2
    rw [← e] at h3
    set x := (S.update^[t] p).1 with hxdef
    set q := (S.update^[t + 1] p).1 with hqdef
    set s := S.stepsize t with hsdef
    have hs : 0 ≤ s := hst t
    have h2 := hc x hx z hz
    have h4 := pinsker hv (posSimplex_le hq) hx
    have h5 : -(∑ i, S.grad x i * (q i - x i)) ≤ G * l1 (q - x) := by
      rw [← Finset.sum_neg_distrib]
      unfold l1
      rw [Finset.mul_sum]
      refine Finset.sum_le_sum fun i _ => ?_
      calc -(S.grad x i * (q i - x i)) ≤ |S.grad x i * (q i - x i)| := neg_le_abs _
        _ = |S.grad x i| * |q i - x i| := abs_mul _ _
        _ ≤ G * |(q - x) i| := mul_le_mul_of_nonneg_right (hG x hx i) (abs_nonneg _)
    have e2 : ∑ i, S.grad x i * (q i - z i) = ∑ i, S.grad x i * (q i - x i) - ∑ i, S.grad x i * (z i - x i) := by
      rw [← Finset.sum_sub_distrib]; exact Finset.sum_congr rfl fun i _ => by ring
    have h6 : f x - f z ≤ ∑ i, S.grad x i * (q i - z i) + G * l1 (q - x) := by rw [e2]; linarith
    have h7 := mul_le_mul_of_nonneg_left h6 hs
    have h8 : s * (G * l1 (q - x)) ≤ KL q x + value * G ^ 2 / 2 * s ^ 2 := by
      have h9 : l1 (q - x) ^ 2 / (2 * value) ≤ KL q x := by
        rw [div_le_iff₀ (by positivity)]; linarith
      have h10 : s * (G * l1 (q - x)) - value * G ^ 2 / 2 * s ^ 2 ≤ l1 (q - x) ^ 2 / (2 * value) := by
        rw [le_div_iff₀ (by positivity)]
        nlinarith [sq_nonneg (l1 (q - x) - value * s * G)]
      linarith
    rw [mul_add] at h7
    linarith
  have hsum : ∀ T : ℕ, ∑ t ∈ Finset.range T, S.stepsize t * (f (S.update^[t] p).1 - f z) ≤
      KL z x0 - KL z (S.update^[T] p).1 + value * G ^ 2 / 2 * ∑ t ∈ Finset.range T, S.stepsize t ^ 2 := by
    intro T
    induction T with
    | zero => simp [hp]
    | succ T ih =>
      rw [Finset.sum_range_succ, Finset.sum_range_succ]
      have := hstep T
      linarith
  have := KL_nonneg hz.1 (hmem T).1
  linarith [hsum T]

end Rate

/-- From the uniform start the divergence to any point of the simplex is at most `value log n`. -/
theorem C85_uniform (hv : 0 < value) (z : Fin (n + 1) → ℝ) (hz : z ∈ Simplex value) :
    KL z (fun _ => value / (n + 1)) ≤ value * Real.log (n + 1) := by
  have hn : (0 : ℝ) < n + 1 := by positivity
  have hle : ∀ i, z i ≤ value := fun i => by
    rw [← hz.2]
    exact Finset.single_le_sum (f := z) (fun j _ => hz.1 j) (Finset.mem_univ i)
  have h : ∀ i, z i * Real.log (z i / (value / (n + 1))) - z i + value / (n + 1) ≤
      z i * Real.log (n + 1) - z i + value / (n + 1) := by
    intro i
    rcases (hz.1 i).eq_or_lt with h0 | h0
    · rw [← h0]; simp
    · have : Real.log (z i / (value / (n + 1))) ≤ Real.log (n + 1) := by
        apply Real.log_le_log (by positivity)
        rw [div_div_eq_mul_div, div_le_iff₀ hv]
        nlinarith [hle i]
      have := mul_le_mul_of_nonneg_left this h0.le
      linarith
  unfold KL
  refine le_trans (Finset.sum_le_sum fun i _ => h i) (le_of_eq ?_)
  rw [Finset.sum_add_distrib, Finset.sum_sub_distrib, ← Finset.sum_mul, hz.2]
  simp only [Finset.sum_const, Finset.card_univ, Fintype.card_fin, nsmul_eq_mul]
  push_cast
  field_simp
  ring

/-! ## What the error does not say -/

/-- Minimisation of the first coordinate over the simplex with two coordinates, with the Euclidean norm for the error. -/
noncomputable def exLin (maxiter : ℕ) (tol : ℝ) : MD ℝ (Fin 2 → ℝ) where
  grad := fun _ => ![1, 0]
  projectionGrad := klStep 1
  stepsize := fun _ => 1
  norm := fun v => Real.sqrt (∑ i, v i ^ 2)
  maxiter := maxiter
  tol := tol
  unroll := false
  jit := true

theorem exLin_step (a : ℝ) (h0 : 0 < a) (h1 : a < 1) :
    klStep 1 (![1 - a, a] : Fin 2 → ℝ) ![1, 0] 1 = ![(1 - a) / ((1 - a) + a * Real.exp 1), a * Real.exp 1 / ((1 - a) + a * Real.exp 1)] := by
  have he := Real.exp_pos 1
  have h1a : 0 < 1 - a := by linarith
  funext i
  show 1 * softmax (n := 1) _ i = _
  rw [softmax_eq, Fin.sum_univ_succ, Fin.sum_univ_succ, Fin.sum_univ_zero]
  have e0 : Real.exp ((logMap (![1 - a, a] : Fin 2 → ℝ) + (-(1 : ℝ)) • (![1, 0] : Fin 2 → ℝ) : Fin 2 → ℝ) 0) = (1 - a) * (Real.exp 1)⁻¹ := by
    simp only [logMap, Pi.add_apply, Pi.smul_apply, Matrix.cons_val_zero, smul_eq_mul, mul_one]
    rw [Real.exp_add, Real.exp_log h1a, Real.exp_neg]
  have e1 : Real.exp ((logMap (![1 - a, a] : Fin 2 → ℝ) + (-(1 : ℝ)) • (![1, 0] : Fin 2 → ℝ) : Fin 2 → ℝ) 1) = a := by
    simp only [logMap, Pi.add_apply, Pi.smul_apply, Matrix.cons_val_one, Matrix.cons_val_zero, smul_eq_mul, mul_zero, add_zero]
    exact Real.exp_log h0
  have e1' : Real.exp ((logMap (![1 - a, a] : Fin 2 → ℝ) + (-(1 : ℝ)) • (![1, 0] : Fin 2 → ℝ) : Fin 2 → ℝ) (Fin.succ 0)) = a := e1
  rw [e0, e1']
  fin_cases i
  · show 1 * (Real.exp _ / _) = (1 - a) / _
    erw [e0]
    field_simp
    simp [mul_comm]
  · show 1 * (Real.exp _ / _) = a * Real.exp 1 / _
    erw [e1]
    field_simp
    simp [mul_comm]

/-- **C85** (negation: a small error does not mean a small gap).  For every tolerance there is a start in the interior of the simplex from which
the run of mirror descent on a linear objective stops after one update, because its error is below the tolerance, although the gap to the
minimum is more than one half of the largest possible gap. -/
theorem C85_error_false (tol : ℝ) (ht : 0 < tol) : ∃ x0 ∈ PosSimplex (n := 2) 1, ∀ maxiter, 1 ≤ maxiter → ∀ r,
    (exLin maxiter tol).run x0 = .ok r → r.2.iterNum = 1 ∧ Ext.gt r.2.error (.fin tol) = false ∧ 1 / 2 ≤ r.1 0 ∧
      (![0, 1] : Fin 2 → ℝ) ∈ Simplex 1 ∧ (![0, 1] : Fin 2 → ℝ) 0 = 0 := by
  set a := min (tol / 4) (1 / 8) with ha
  have a0 : 0 < a := lt_min (by linarith) (by norm_num)
  have a1 : a ≤ 1 / 8 := min_le_right _ _
  have a2 : a ≤ tol / 4 := min_le_left _ _
  have hE := Real.exp_one_lt_d9
  have hE1 := Real.exp_one_gt_d9
  refine ⟨![1 - a, a], ⟨fun i => ?_, ?_⟩, ?_⟩
  · fin_cases i
    · show 0 < 1 - a; linarith
    · exact a0
  · rw [Fin.sum_univ_two]; simp
  · intro maxiter hm r hr
    have hm' : 1 ≤ (exLin maxiter tol).maxiter := hm
    obtain ⟨k, hk1, -, rfl, hcont, -⟩ := runS_spec hm' hr
    set D := (1 - a) + a * Real.exp 1 with hD
    have hDpos : 1 ≤ D := by nlinarith
    have hst : ((exLin maxiter tol).update (![1 - a, a], (exLin maxiter tol).initState ![1 - a, a])).1 =
        ![(1 - a) / D, a * Real.exp 1 / D] := exLin_step a a0 (by linarith)
    have herr : ((exLin maxiter tol).update (![1 - a, a], (exLin maxiter tol).initState ![1 - a, a])).2.error =
        .fin (Real.sqrt (∑ i, ((![(1 - a) / D, a * Real.exp 1 / D] : Fin 2 → ℝ) - ![1 - a, a]) i ^ 2) / 1) := by
      rw [← hst]; rfl
    have hsmall : Real.sqrt (∑ i, ((![(1 - a) / D, a * Real.exp 1 / D] : Fin 2 → ℝ) - ![1 - a, a]) i ^ 2) / 1 ≤ tol := by
      rw [div_one, Real.sqrt_le_left ht.le, Fin.sum_univ_two]
      simp only [Pi.sub_apply, Matrix.cons_val_zero, Matrix.cons_val_one]
      have hd0 : (1 - a) - (1 - a) / D ≤ 2 * a := by
        have : (1 - a) - (1 - a) / D = (1 - a) * (a * (Real.exp 1 - 1)) / D := by
          field_simp; rw [hD]; ring
        rw [this, div_le_iff₀ (by linarith)]
        nlinarith
      have hd1 : 0 ≤ (1 - a) - (1 - a) / D := by
        rw [sub_nonneg, div_le_iff₀ (by linarith)]
        nlinarith
      have hsum : a * Real.exp 1 / D = 1 - (1 - a) / D := by
        field_simp; rw [hD]; ring
      rw [hsum]
      nlinarith
    have hcf : (exLin maxiter tol).cont ((exLin maxiter tol).update (![1 - a, a], (exLin maxiter tol).initState ![1 - a, a])) = false := by
      unfold MD.cont
      rw [herr]
      simpa [Ext.gt, Ext.lt, exLin] using hsmall
    have hk : k = 1 := by
      by_contra hne
      have h := hcont 1 le_rfl (by omega)
      rw [Function.iterate_one, hcf] at h
      cases h
    subst hk
    rw [Function.iterate_one]
    refine ⟨rfl, hcf, ?_, ⟨fun i => ?_, ?_⟩, rfl⟩
    · rw [hst]
      show 1 / 2 ≤ (1 - a) / D
      rw [le_div_iff₀ (by linarith)]
      nlinarith
    · fin_cases i <;> simp
    · rw [Fin.sum_univ_two]; simp

/-! ## Non-vacuity -/

/-- The linear objective of the example is convex and smooth with any constant. -/
example : ConvexOnSimplex (n := 2) 1 (fun x => x 0) (exLin 10 0).grad ∧ SmoothOnSimplex (n := 2) 1 1 (fun x => x 0) (exLin 10 0).grad := by
  refine ⟨fun x _ z _ => ?_, fun x _ z _ => ?_⟩
  · rw [Fin.sum_univ_two]
    simp [exLin]
  · rw [Fin.sum_univ_two]
    have := sq_nonneg (l1 (z - x))
    simp [exLin]
    linarith

end Jaxopt.Mirror
