import Verif.Prox.Autodiff
import Verif.Loss.AutodiffProps
import Verif.Proj.ModelE
import Mathlib.Analysis.Calculus.Deriv.Inv

/-!
# C133: automatic differentiation of the proximal operators and projections
-/

set_option autoImplicit false
set_option linter.unusedSectionVars false
set_option linter.unusedVariables false

namespace Jaxopt.ProxAD

open Jaxopt.Proj Jaxopt.Prox Jaxopt.Loss Jaxopt.Loss.Dual Filter Topology

/-! ## Rules -/

theorem tracks_congr {f g : ℝ → ℝ} {d e : Dual ℝ} (h : Tracks g d) (hfg : f =ᶠ[𝓝 0] g) (hd : d.val = e.val) (ht : d.tan = e.tan) : Tracks f e :=
  ⟨by rw [hfg.eq_of_nhds, h.1, hd], ht ▸ h.2.congr_of_eventuallyEq hfg⟩

theorem tracks_const (c : ℝ) : Tracks (fun _ => c) (const c) := ⟨rfl, hasDerivAt_const _ _⟩

theorem tracks_add {f g : ℝ → ℝ} {a b : Dual ℝ} (hf : Tracks f a) (hg : Tracks g b) : Tracks (fun t => f t + g t) (add a b) :=
  ⟨by simp only [hf.1, hg.1, add], hf.2.add hg.2⟩

theorem tracks_sub {f g : ℝ → ℝ} {a b : Dual ℝ} (hf : Tracks f a) (hg : Tracks g b) : Tracks (fun t => f t - g t) (sub a b) :=
  ⟨by simp only [hf.1, hg.1, sub], hf.2.sub hg.2⟩

theorem tracks_neg {f : ℝ → ℝ} {a : Dual ℝ} (hf : Tracks f a) : Tracks (fun t => -f t) (neg a) := ⟨by simp only [hf.1, neg], hf.2.neg⟩

theorem tracks_mul {f g : ℝ → ℝ} {a b : Dual ℝ} (hf : Tracks f a) (hg : Tracks g b) : Tracks (fun t => f t * g t) (mul a b) :=
  ⟨by simp only [hf.1, hg.1, mul], (hf.2.mul hg.2).congr_deriv (by simp only [hf.1, hg.1, mul])⟩

theorem tracks_div {f g : ℝ → ℝ} {a b : Dual ℝ} (hf : Tracks f a) (hg : Tracks g b) (hb : b.val ≠ 0) : Tracks (fun t => f t / g t) (div a b) :=
  ⟨by simp only [hf.1, hg.1, div], (hf.2.div hg.2 (by rw [hg.1]; exact hb)).congr_deriv (by
    simp only [hf.1, hg.1, div]
    field_simp
    ring)⟩

theorem tracks_dot {n : ℕ} {f g : Fin n → ℝ → ℝ} {a b : Fin n → Dual ℝ} (hf : ∀ j, Tracks (f j) (a j)) (hg : ∀ j, Tracks (g j) (b j)) :
    Tracks (fun t => ∑ j, f j t * g j t) (Dual.dot a b) :=
  ⟨Finset.sum_congr rfl fun j _ => (tracks_mul (hf j) (hg j)).1, HasDerivAt.fun_sum fun j _ => (tracks_mul (hf j) (hg j)).2⟩

theorem eventually_pos {f : ℝ → ℝ} {a : Dual ℝ} (hf : Tracks f a) (h : 0 < a.val) : ∀ᶠ t in 𝓝 (0 : ℝ), 0 < f t :=
  hf.2.continuousAt.eventually_const_lt (by rw [hf.1]; exact h)

theorem eventually_neg {f : ℝ → ℝ} {a : Dual ℝ} (hf : Tracks f a) (h : a.val < 0) : ∀ᶠ t in 𝓝 (0 : ℝ), f t < 0 :=
  hf.2.continuousAt.eventually_lt_const (by rw [hf.1]; exact h)

theorem eventually_lt {f g : ℝ → ℝ} {a b : Dual ℝ} (hf : Tracks f a) (hg : Tracks g b) (h : a.val < b.val) : ∀ᶠ t in 𝓝 (0 : ℝ), f t < g t := by
  filter_upwards [eventually_pos (tracks_sub hg hf) (sub_pos.mpr h)] with t ht
  linarith

theorem tracks_abs {f : ℝ → ℝ} {a : Dual ℝ} (hf : Tracks f a) (h : a.val ≠ 0) : Tracks (fun t => |f t|) (Dual.abs a) := by
  rcases lt_or_gt_of_ne h with h | h
  · refine tracks_congr (tracks_neg hf) ?_ (by simp only [neg, Dual.abs, abs_of_neg h]) ?_
    · filter_upwards [eventually_neg hf h] with t ht
      exact abs_of_neg ht
    · simp [neg, Dual.abs, not_lt.mpr h.le, h]
  · refine tracks_congr hf ?_ (by simp only [Dual.abs, abs_of_pos h]) ?_
    · filter_upwards [eventually_pos hf h] with t ht
      exact abs_of_pos ht
    · simp [Dual.abs, h]

theorem tracks_sign {f : ℝ → ℝ} {a : Dual ℝ} (hf : Tracks f a) (h : a.val ≠ 0) : Tracks (fun t => sgn (f t)) (sign a) := by
  rcases lt_or_gt_of_ne h with h | h
  · refine tracks_congr (tracks_const (-1)) ?_ (by simp [const, sign, sgn, not_lt.mpr h.le, h]) rfl
    filter_upwards [eventually_neg hf h] with t ht
    simp [sgn, not_lt.mpr ht.le, ht]
  · refine tracks_congr (tracks_const 1) ?_ (by simp [const, sign, sgn, h]) rfl
    filter_upwards [eventually_pos hf h] with t ht
    simp [sgn, ht]

theorem tracks_relu {f : ℝ → ℝ} {a : Dual ℝ} (hf : Tracks f a) (h : a.val ≠ 0) : Tracks (fun t => Proj.relu (f t)) (Dual.relu a) := by
  rcases lt_or_gt_of_ne h with h | h
  · refine tracks_congr (tracks_const 0) ?_ (by simp [const, Dual.relu, Proj.relu, h.le]) ?_
    · filter_upwards [eventually_neg hf h] with t ht
      exact max_eq_right ht.le
    · simp [const, Dual.relu, not_lt.mpr h.le]
  · refine tracks_congr hf ?_ (by simp [Dual.relu, Proj.relu, h.le]) ?_
    · filter_upwards [eventually_pos hf h] with t ht
      exact max_eq_left ht.le
    · simp [Dual.relu, h]

theorem tracks_maximum {f g : ℝ → ℝ} {a b : Dual ℝ} (hf : Tracks f a) (hg : Tracks g b) (h : a.val ≠ b.val) :
    Tracks (fun t => max (f t) (g t)) (maximum a b) := by
  have key : ∀ z, z = max a.val b.val → (maximum a b).tan =
      a.tan * (if a.val = z then (if b.val = z then 1 / 2 else 1) else 0) + b.tan * (if b.val = z then (if a.val = z then 1 / 2 else 1) else 0) := by
    rintro z rfl; rfl
  rcases lt_or_gt_of_ne h with h' | h'
  · refine tracks_congr hg ?_ (max_eq_right h'.le).symm ?_
    · filter_upwards [eventually_lt hf hg h'] with t ht
      exact max_eq_right ht.le
    · rw [key b.val (max_eq_right h'.le).symm]; simp [h]
  · refine tracks_congr hf ?_ (max_eq_left h'.le).symm ?_
    · filter_upwards [eventually_lt hg hf h'] with t ht
      exact max_eq_left ht.le
    · rw [key a.val (max_eq_left h'.le).symm]; simp [h.symm]

theorem tracks_minimum {f g : ℝ → ℝ} {a b : Dual ℝ} (hf : Tracks f a) (hg : Tracks g b) (h : a.val ≠ b.val) :
    Tracks (fun t => min (f t) (g t)) (minimum a b) := by
  have key : ∀ z, z = min a.val b.val → (minimum a b).tan =
      a.tan * (if a.val = z then (if b.val = z then 1 / 2 else 1) else 0) + b.tan * (if b.val = z then (if a.val = z then 1 / 2 else 1) else 0) := by
    rintro z rfl; rfl
  rcases lt_or_gt_of_ne h with h' | h'
  · refine tracks_congr hf ?_ (min_eq_left h'.le).symm ?_
    · filter_upwards [eventually_lt hf hg h'] with t ht
      exact min_eq_left ht.le
    · rw [key a.val (min_eq_left h'.le).symm]; simp [h.symm]
  · refine tracks_congr hg ?_ (min_eq_right h'.le).symm ?_
    · filter_upwards [eventually_lt hg hf h'] with t ht
      exact min_eq_right ht.le
    · rw [key b.val (min_eq_right h'.le).symm]; simp [h]

/-- Soft thresholding, off the kink. -/
theorem tracks_soft {X T : ℝ → ℝ} {x l : Dual ℝ} (hX : Tracks X x) (hT : Tracks T l) (h : |x.val| ≠ l.val) (h0 : x.val ≠ 0 ∨ 0 < l.val) :
    Tracks (fun t => sgn (X t) * Proj.relu (|X t| - T t)) (mul (sign x) (Dual.relu (sub (Dual.abs x) l))) := by
  by_cases hx : x.val = 0
  · have hl : 0 < l.val := h0.resolve_left (not_not.mpr hx)
    have hs : x.val - l.val < 0 := by rw [hx]; linarith
    have hs' : 0 < x.val + l.val := by rw [hx]; linarith
    refine tracks_congr (tracks_const 0) ?_ ?_ ?_
    · filter_upwards [eventually_neg (tracks_sub hX hT) hs, eventually_pos (tracks_add hX hT) hs'] with t h1 h2
      have : |X t| - T t ≤ 0 := by
        rcases abs_cases (X t) with ⟨h3, -⟩ | ⟨h3, -⟩ <;> rw [h3] <;> linarith
      rw [Proj.relu, max_eq_right this, mul_zero]
    · simp [const, mul, sign, sgn, hx]
    · have : ¬ (0 : ℝ) < 0 - l.val := by linarith
      simp [const, mul, sign, sgn, Dual.relu, sub, Dual.abs, hx, hl.le]
  · refine tracks_mul (tracks_sign hX hx) (tracks_relu (tracks_sub (tracks_abs hX hx) hT) ?_)
    exact sub_ne_zero.mpr h

/-! ## Proximal operators -/

section
variable {ι : Type*} {X V W : ι → ℝ → ℝ} {x v w : ι → Dual ℝ} {L S : ℝ → ℝ} {l s : Dual ℝ}

/-- C133.  Off the kinks differentiating `prox_lasso` gives the derivative in the point, the weights and the scaling, also at a zero coordinate if its
threshold is positive. -/
theorem C133_lasso_partial (hX : ∀ i, Tracks (X i) (x i)) (hV : ∀ i, Tracks (V i) (v i)) (hS : Tracks S s) (i : ι)
    (h : |(x i).val| ≠ (v i).val * s.val) (h0 : (x i).val ≠ 0 ∨ 0 < (v i).val * s.val) :
    Tracks (fun t => proxLasso (fun i => X i t) (fun i => V i t) (S t) i) (lassoD (x i) (v i) s) :=
  tracks_soft (hX i) (tracks_mul (hV i) hS) h h0

/-- C133.  The same for `prox_elastic_net`. -/
theorem C133_elastic_net_partial (hX : ∀ i, Tracks (X i) (x i)) (hV : ∀ i, Tracks (V i) (v i)) (hW : ∀ i, Tracks (W i) (w i)) (hS : Tracks S s) (i : ι)
    (h : |(x i).val| ≠ s.val * (v i).val) (h0 : (x i).val ≠ 0 ∨ 0 < s.val * (v i).val) (h1 : 1 + s.val * (v i).val * (w i).val ≠ 0) :
    Tracks (fun t => proxElasticNet (fun i => X i t) (fun i => V i t) (fun i => W i t) (S t) i) (elasticNetD (x i) (v i) (w i) s) :=
  tracks_div (tracks_soft (hX i) (tracks_mul hS (hV i)) h h0) (tracks_add (tracks_const 1) (tracks_mul (tracks_mul hS (hV i)) (hW i))) h1

/-- C133.  `prox_non_negative_lasso`, off the kink. -/
theorem C133_non_negative_lasso (hX : ∀ i, Tracks (X i) (x i)) (hL : Tracks L l) (hS : Tracks S s) (i : ι) (h : (x i).val ≠ l.val * s.val) :
    Tracks (fun t => proxNonNegativeLasso (fun i => X i t) (L t) (S t) i) (nonNegativeLassoD (x i) l s) :=
  tracks_relu (tracks_sub (hX i) (tracks_mul hL hS)) (sub_ne_zero.mpr h)

/-- C133.  `prox_ridge`, everywhere. -/
theorem C133_ridge (hX : ∀ i, Tracks (X i) (x i)) (hL : Tracks L l) (hS : Tracks S s) (i : ι) (h : 1 + s.val * l.val ≠ 0) :
    Tracks (fun t => proxRidge (fun i => X i t) (L t) (S t) i) (ridgeD (x i) l s) :=
  tracks_mul (tracks_div (tracks_const 1) (tracks_add (tracks_const 1) (tracks_mul hS hL)) h) (hX i)

/-- C133.  `prox_non_negative_ridge`, off the kink. -/
theorem C133_non_negative_ridge (hX : ∀ i, Tracks (X i) (x i)) (hL : Tracks L l) (hS : Tracks S s) (i : ι) (h : 1 + l.val * s.val ≠ 0)
    (h0 : (x i).val ≠ 0) : Tracks (fun t => proxNonNegativeRidge (fun i => X i t) (L t) (S t) i) (nonNegativeRidgeD (x i) l s) :=
  tracks_relu (tracks_mul (tracks_div (tracks_const 1) (tracks_add (tracks_const 1) (tracks_mul hL hS)) h) (hX i))
    (mul_ne_zero (one_div_ne_zero h) h0)

/-! ## Coordinate-wise projections -/

/-- C133.  `projection_non_negative`, off the kink. -/
theorem C133_non_negative (hX : ∀ i, Tracks (X i) (x i)) (i : ι) (h : (x i).val ≠ 0) :
    Tracks (fun t => projectionNonNegative (fun i => X i t) i) (nonNegativeD (x i)) := tracks_relu (hX i) h

/-- The minimum of two curves that touch with the same slope. -/
theorem min_hasDerivAt {a b : ℝ → ℝ} {d : ℝ} (ha : HasDerivAt a d 0) (hb : HasDerivAt b d 0) (h : a 0 = b 0) : HasDerivAt (fun t => min (a t) (b t)) d 0 := by
  have hd : HasDerivAt (fun t => a t - b t) 0 0 := (ha.sub hb).congr_deriv (sub_self d)
  have habs : HasDerivAt (fun t => |a t - b t|) 0 0 := by
    rw [hasDerivAt_iff_isLittleO] at hd ⊢
    have h0 : a 0 - b 0 = 0 := sub_eq_zero.mpr h
    simp only [h0, abs_zero, smul_zero, sub_zero] at hd ⊢
    exact hd.norm_left
  have := ((ha.add hb).sub habs).const_mul (1 / 2 : ℝ)
  refine (this.congr_deriv (by ring)).congr_of_eventuallyEq (Eventually.of_forall fun t => ?_)
  simp only [Pi.add_apply, Pi.sub_apply]
  rcases le_total (a t) (b t) with h' | h'
  · rw [min_eq_left h', abs_of_nonpos (by linarith)]; ring
  · rw [min_eq_right h', abs_of_nonneg (by linarith)]; ring

theorem tracks_clip {f a b : ℝ → ℝ} {y p q : Dual ℝ} (hf : Tracks f y) (ha : Tracks a p) (hb : Tracks b q)
    (hpq : p.val < q.val ∨ p.val = q.val ∧ p.tan = q.tan) (h1 : y.val ≠ p.val)
    (h2 : y.val ≠ q.val) : Tracks (fun t => Proj.clip (f t) (a t) (b t)) (Dual.clip y p q) := by
  by_cases h : p.val = q.val ∧ y.val < p.val
  · obtain ⟨he, hlt⟩ := h
    have ht : p.tan = q.tan := (hpq.resolve_left (by rw [he]; exact lt_irrefl _)).2
    obtain ⟨m1, m2⟩ := tracks_maximum hf ha h1
    have hv : (maximum y p).val = q.val := (max_eq_right hlt.le).trans he
    have htan : (maximum y p).tan = q.tan := by
      have : (maximum y p).tan = y.tan * (if y.val = (maximum y p).val then (if p.val = (maximum y p).val then 1 / 2 else 1) else 0) +
        p.tan * (if p.val = (maximum y p).val then (if y.val = (maximum y p).val then 1 / 2 else 1) else 0) := rfl
      rw [this, hv]
      simp [h2, he, ht]
    have hmin : min (maximum y p).val q.val = q.val := by rw [hv, min_self]
    constructor
    · show min (max (f 0) (a 0)) (b 0) = min (maximum y p).val q.val
      rw [show max (f 0) (a 0) = (maximum y p).val from m1, hb.1]
    · have e : (Dual.clip y p q).tan = (maximum y p).tan * (if (maximum y p).val = min (maximum y p).val q.val then (if q.val = min (maximum y p).val q.val then 1 / 2 else 1) else 0) +
        q.tan * (if q.val = min (maximum y p).val q.val then (if (maximum y p).val = min (maximum y p).val q.val then 1 / 2 else 1) else 0) := rfl
      rw [e, hmin, hv, htan]
      rw [htan] at m2
      refine (min_hasDerivAt m2 hb.2 ?_).congr_deriv (by simp; ring)
      rw [hb.1, ← hv]
      exact m1
  · refine tracks_minimum (tracks_maximum hf ha h1) hb ?_
    show max y.val p.val ≠ q.val
    intro hc
    rcases lt_or_gt_of_ne h1 with h' | h'
    · rw [max_eq_right h'.le] at hc
      exact h ⟨hc, h'⟩
    · rw [max_eq_left h'.le] at hc
      exact h2 hc

/-- C133.  Off the bounds differentiating `projection_box` gives the derivative in the point and in both bounds; a variable may be fixed, if both its
bounds move alike. -/
theorem C133_box_partial (hX : ∀ i, Tracks (X i) (x i)) (hV : ∀ i, Tracks (V i) (v i)) (hW : ∀ i, Tracks (W i) (w i)) (i : ι)
    (hvw : (v i).val < (w i).val ∨ (v i).val = (w i).val ∧ (v i).tan = (w i).tan) (h1 : (x i).val ≠ (v i).val) (h2 : (x i).val ≠ (w i).val) :
    Tracks (fun t => projectionBox (fun i => X i t) (fun i => V i t) (fun i => W i t) i) (boxD (x i) (v i) (w i)) :=
  tracks_clip (hX i) (hV i) (hW i) hvw h1 h2

/-- C133.  `projection_hypercube`. -/
theorem C133_hypercube (hX : ∀ i, Tracks (X i) (x i)) (hL : Tracks L l) (hl : 0 < l.val) (i : ι) (h1 : (x i).val ≠ 0) (h2 : (x i).val ≠ l.val) :
    Tracks (fun t => projectionHypercube (fun i => X i t) (L t) i) (hypercubeD (x i) l) :=
  tracks_clip (hX i) (tracks_const 0) hL (Or.inl hl) h1 h2

/-- C133.  `projection_linf_ball`. -/
theorem C133_linf_ball (hX : ∀ i, Tracks (X i) (x i)) (hL : Tracks L l) (hl : 0 < l.val) (i : ι) (h : |(x i).val| ≠ l.val) :
    Tracks (fun t => projectionLinfBall (fun i => X i t) (L t) i) (linfBallD (x i) l) :=
  tracks_clip (hX i) (tracks_neg hL) hL (Or.inl (by show -l.val < l.val; linarith))
    (fun h' => h (by rw [h']; show |-l.val| = l.val; rw [abs_neg, abs_of_pos hl])) (fun h' => h (by rw [h', abs_of_pos hl]))

end

/-! ## What happens on the kinks -/

/-- C133.  On the kink of soft thresholding the result is 0, the derivative from the side of zero; the one from the other side is 1. -/
theorem C133_lasso_kink (x l dx : ℝ) (hl : 0 < l) (h : |x| = l) :
    (lassoD ⟨x, dx⟩ (const l) (const 1)).tan = 0 ∧
      HasDerivWithinAt (fun u => sgn u * Proj.relu (|u| - l)) 0 {u | |u| ≤ l} x ∧
      HasDerivWithinAt (fun u => sgn u * Proj.relu (|u| - l)) 1 {u | l ≤ |u| ∧ 0 < u * x} x := by
  have hx : x ≠ 0 := fun h' => by rw [h', abs_zero] at h; exact hl.ne h
  have hz : ∀ u : ℝ, |u| ≤ l → sgn u * Proj.relu (|u| - l) = 0 := fun u hu => by rw [Proj.relu, max_eq_right (by linarith), mul_zero]
  refine ⟨?_, ?_, ?_⟩
  · show 0 * Proj.relu (|x| - l * 1) + sgn x * (if |x| - l * 1 > 0 then dx * (if 0 < x then 1 else if x < 0 then -1 else 0) - (0 * 1 + l * 0) else 0) = 0
    rw [h]
    simp
  · exact (hasDerivWithinAt_const x _ (0 : ℝ)).congr (fun u hu => hz u hu) (hz x h.le)
  · have hs : ∀ u ∈ {u : ℝ | l ≤ |u| ∧ 0 < u * x}, sgn u * Proj.relu (|u| - l) = u - sgn x * l := by
      rintro u ⟨hu, hux⟩
      rw [Proj.relu, max_eq_left (by linarith)]
      rcases lt_or_gt_of_ne hx with h' | h'
      · have hu' : u < 0 := by nlinarith
        simp only [sgn, not_lt.mpr h'.le, h', not_lt.mpr hu'.le, hu', if_true, if_false, abs_of_neg hu']
        ring
      · have hu' : 0 < u := by by_contra hc; nlinarith
        simp only [sgn, h', hu', if_true, abs_of_pos hu']
        ring
    exact ((hasDerivAt_id' x).sub_const _).hasDerivWithinAt.congr hs (hs x ⟨h.ge, mul_self_pos.mpr hx⟩)

/-- C133.  On a bound of a box with interior the result is the mean of the tangents of the point and of the bound. -/
theorem C133_box_kink (y p q : Dual ℝ) (hpq : p.val < q.val) :
    (y.val = p.val → (boxD y p q).tan = (y.tan + p.tan) / 2) ∧ (y.val = q.val → (boxD y p q).tan = (y.tan + q.tan) / 2) := by
  have e : ∀ z m, m = max y.val p.val → z = min m q.val → (boxD y p q).tan =
      (y.tan * (if y.val = m then (if p.val = m then 1 / 2 else 1) else 0) + p.tan * (if p.val = m then (if y.val = m then 1 / 2 else 1) else 0)) *
          (if m = z then (if q.val = z then 1 / 2 else 1) else 0) +
        q.tan * (if q.val = z then (if m = z then 1 / 2 else 1) else 0) := by
    rintro z m rfl rfl; rfl
  constructor
  · intro h
    rw [e p.val p.val (by rw [h, max_self]) (min_eq_left hpq.le).symm]
    simp [h, hpq.ne']
    ring
  · intro h
    rw [e q.val q.val (by rw [h, max_eq_left hpq.le]) (min_self _).symm]
    simp [h, hpq.ne]
    ring

/-! ## Where the result is no derivative -/

/-- C133, negation.  Without a penalty `prox_lasso` is the identity, but at a zero coordinate differentiating it gives 0.  The same for
`prox_elastic_net`. -/
theorem C133_unpenalised_false (s g u : ℝ) :
    (∀ u : ℝ, proxLasso (fun _ : Unit => u) (fun _ => 0) s () = u) ∧ (lassoD ⟨0, 1⟩ (const 0) (const s) : Dual ℝ).tan = 0 ∧
    (∀ u : ℝ, proxElasticNet (fun _ : Unit => u) (fun _ => 0) (fun _ => g) s () = u) ∧ (elasticNetD ⟨0, 1⟩ (const 0) (const g) (const s) : Dual ℝ).tan = 0 := by
  have h : ∀ u : ℝ, sgn u * Proj.relu (|u| - 0) = u := fun u => by
    rw [sub_zero, Proj.relu, max_eq_left (abs_nonneg u)]
    rcases lt_trichotomy u 0 with hu | hu | hu
    · simp only [sgn, not_lt.mpr hu.le, hu, if_true, if_false, abs_of_neg hu]; ring
    · simp [hu]
    · simp only [sgn, hu, if_true, abs_of_pos hu]; ring
  refine ⟨fun u => ?_, ?_, fun u => ?_, ?_⟩
  · simpa [proxLasso] using h u
  · simp [lassoD, mul, sign, sgn, Dual.relu, sub, Dual.abs, const]
  · simpa [proxElasticNet, proxL1] using h u
  · simp [elasticNetD, mul, sign, sgn, Dual.relu, sub, Dual.abs, const, div, add]

/-- C133, negation.  A fixed variable does not depend on the point, but at its bound differentiating `projection_box` gives 1/4. -/
theorem C133_fixed_false (c : ℝ) :
    (∀ u : ℝ, projectionBox (fun _ : Unit => u) (fun _ => c) (fun _ => c) () = c) ∧ (boxD ⟨c, 1⟩ (const c) (const c) : Dual ℝ).tan = 1 / 4 := by
  refine ⟨fun u => min_eq_right (le_max_right _ _), ?_⟩
  simp [boxD, Dual.clip, minimum, maximum, const]
  norm_num

/-- The residual `prox(x - grad f(x)) - x` of `ProximalGradient.optimality_fun` (proximal_gradient.py lines 307-314) for `f(x) = (x - θ)^2 / 2` in one dimension. -/
noncomputable def lassoResidualD (x θ l : Dual ℝ) : Dual ℝ := sub (lassoD (sub x (sub x θ)) l (const 1)) x

/-- The same for the box. -/
noncomputable def boxResidualD (x θ p q : Dual ℝ) : Dual ℝ := sub (boxD (sub x (sub x θ)) p q) x

/-- C133, negation.  The defect reaches implicit differentiation.  Without a penalty the solution is `θ`, but at `θ = 0` the only tangent with zero
residual is 0 instead of 1.  The solution of a fixed variable is its bound, but if `θ` is the bound then the only tangent with zero residual is 1/4
instead of 0. -/
theorem C133_implicit_false (dx : ℝ) :
    (∀ θ : ℝ, (lassoResidualD (const θ) (const θ) (const 0)).val = 0) ∧ ((lassoResidualD ⟨0, dx⟩ ⟨0, 1⟩ (const 0)).tan = 0 ↔ dx = 0) ∧
    (∀ θ : ℝ, (boxResidualD (const 0) (const θ) (const 0) (const 0)).val = 0) ∧
    ((boxResidualD ⟨0, dx⟩ ⟨0, 1⟩ (const 0) (const 0)).tan = 0 ↔ dx = 1 / 4) := by
  refine ⟨fun θ => ?_, ?_, fun θ => ?_, ?_⟩
  · have := (C133_unpenalised_false 1 0 0).1 θ
    simp only [lassoResidualD, lassoD, sub, mul, sign, Dual.relu, Dual.abs, const]
    simp only [proxLasso] at this
    rw [show θ - (θ - θ) = θ by ring, this, sub_self]
  · simp [lassoResidualD, lassoD, mul, sign, sgn, Dual.relu, sub, Dual.abs, const]
  · have := (C133_fixed_false 0).1 (0 - (0 - θ))
    simp only [boxResidualD, boxD, Dual.clip, minimum, maximum, sub, const]
    simp only [projectionBox, Proj.clip] at this
    rw [this, sub_self]
  · have : (boxResidualD ⟨0, dx⟩ ⟨0, 1⟩ (const 0) (const 0)).tan = 1 / 4 - dx := by
      simp [boxResidualD, boxD, Dual.clip, minimum, maximum, const, sub]
      norm_num
    rw [this]
    constructor <;> intro h <;> linarith

/-! ## Hyperplane and half-space -/

section
variable {n : ℕ} {X A : Fin n → ℝ → ℝ} {x a : Fin n → Dual ℝ} {B : ℝ → ℝ} {b : Dual ℝ}

theorem sq_ne_zero_of {a : Fin n → Dual ℝ} (ha : ∃ j, (a j).val ≠ 0) : (Dual.dot a a).val ≠ 0 := by
  obtain ⟨j, hj⟩ := ha
  have : 0 < ∑ i, (a i).val * (a i).val := Finset.sum_pos' (fun i _ => mul_self_nonneg _) ⟨j, Finset.mem_univ j, mul_self_pos.mpr hj⟩
  exact this.ne'

/-- C133.  `projection_hyperplane`, everywhere if the normal is not zero: in the point, the normal and the offset. -/
theorem C133_hyperplane (hX : ∀ j, Tracks (X j) (x j)) (hA : ∀ j, Tracks (A j) (a j)) (hB : Tracks B b) (ha : ∃ j, (a j).val ≠ 0) (i : Fin n) :
    Tracks (fun t => (projectionHyperplane (WithLp.toLp 2 fun j => X j t : EuclideanSpace ℝ (Fin n)) (WithLp.toLp 2 fun j => A j t) (B t)).ofLp i)
      (hyperplaneD x a b i) := by
  have := tracks_add (hX i) (tracks_mul (tracks_neg (tracks_div (tracks_sub (tracks_dot hA hX) hB) (tracks_dot hA hA) (sq_ne_zero_of ha))) (hA i))
  refine tracks_congr this (Eventually.of_forall fun t => ?_) rfl rfl
  have e : ∀ u w : Fin n → ℝ, inner ℝ (WithLp.toLp 2 u : EuclideanSpace ℝ (Fin n)) (WithLp.toLp 2 w) = ∑ j, u j * w j := fun u w => by
    simp [PiLp.inner_apply, mul_comm]
  simp only [projectionHyperplane, e]
  rfl

/-- C133.  `projection_halfspace`, off the hyperplane; on it the result is the derivative from inside. -/
theorem C133_halfspace (hX : ∀ j, Tracks (X j) (x j)) (hA : ∀ j, Tracks (A j) (a j)) (hB : Tracks B b) (ha : ∃ j, (a j).val ≠ 0) (i : Fin n) :
    (∑ j, (a j).val * (x j).val ≠ b.val →
      Tracks (fun t => (projectionHalfspace (WithLp.toLp 2 fun j => X j t : EuclideanSpace ℝ (Fin n)) (WithLp.toLp 2 fun j => A j t) (B t)).ofLp i)
        (halfspaceD x a b i)) ∧
    (∑ j, (a j).val * (x j).val ≤ b.val → (halfspaceD x a b i).tan = (x i).tan) := by
  constructor
  · intro h
    have := tracks_add (hX i) (tracks_mul (tracks_neg (tracks_div (tracks_relu (tracks_sub (tracks_dot hA hX) hB) (sub_ne_zero.mpr h)) (tracks_dot hA hA)
      (sq_ne_zero_of ha))) (hA i))
    refine tracks_congr this (Eventually.of_forall fun t => ?_) rfl rfl
    have e : ∀ u w : Fin n → ℝ, inner ℝ (WithLp.toLp 2 u : EuclideanSpace ℝ (Fin n)) (WithLp.toLp 2 w) = ∑ j, u j * w j := fun u w => by
      simp [PiLp.inner_apply, mul_comm]
    simp only [projectionHalfspace, e]
    rfl
  · intro h
    have h' : ∑ j, (a j).val * (x j).val - b.val ≤ 0 := by linarith
    simp [halfspaceD, add, mul, neg, div, Dual.relu, sub, Dual.dot, Proj.relu, max_eq_right h', not_lt.mpr h']

end

/-! ## The l1 ball -/

section
variable {n : ℕ} {X : Fin n → ℝ → ℝ} {x : Fin n → Dual ℝ} {R : ℝ → ℝ} {r : Dual ℝ}

theorem sgn_mul_self (u : ℝ) : sgn u * u = |u| := by
  rcases lt_trichotomy u 0 with hu | hu | hu
  · simp only [sgn, not_lt.mpr hu.le, hu, if_true, if_false, abs_of_neg hu]; ring
  · simp [hu]
  · simp only [sgn, hu, if_true, abs_of_pos hu]; ring

/-- Outside the ball every coordinate of the support is non-zero. -/
theorem l1_support {n : ℕ} (hn : 0 < n) (x : Fin n → ℝ) (r : ℝ) (hr : 0 < r) (hout : r < ∑ j, |x j|) {j : Fin n}
    (hj : 0 < projectionUnitSimplex (fun j => |x j| / r) j) : x j ≠ 0 := by
  intro h0
  obtain ⟨τ, h1, h2⟩ := unitSimplex_threshold hn fun j => |x j| / r
  rw [h1 j, h0, abs_zero, zero_div, zero_sub] at hj
  have hτ : τ < 0 := by
    by_contra hc
    rw [Proj.relu, max_eq_right (by linarith)] at hj
    exact lt_irrefl _ hj
  have h3 : ∑ j, |x j| / r ≤ ∑ j, Proj.relu (|x j| / r - τ) := Finset.sum_le_sum fun i _ => (by linarith : |x i| / r ≤ |x i| / r - τ).trans (le_max_left _ _)
  have h4 : 1 < ∑ j, |x j| / r := by rw [← Finset.sum_div, one_lt_div hr]; exact hout
  have h2' : ∑ j, Proj.relu (|x j| / r - τ) = 1 := h2
  linarith

/-- C133.  `projection_l1_ball` with a positive radius: inside the ball, and outside it if no coordinate is at the threshold (zero coordinates are
allowed), differentiating gives the derivative in the point and the radius. -/
theorem C133_l1_ball (hX : ∀ j, Tracks (X j) (x j)) (hR : Tracks R r) (hr : 0 < r.val) (hb : ∑ j, |(x j).val| ≠ r.val)
    (hx : r.val < ∑ j, |(x j).val| → ∀ i j, 0 < projectionSimplex (fun j => |(x j).val|) r.val i → projectionSimplex (fun j => |(x j).val|) r.val j = 0 →
      |(x j).val| < |(x i).val| - projectionSimplex (fun j => |(x j).val|) r.val i) (i : Fin n) :
    Tracks (fun t => projectionL1Ball (fun j => X j t) (R t) i) (l1BallD x r i) := by
  have hn : 0 < n := Fin.pos i
  have hX0 : ∀ j, X j 0 = (x j).val := fun j => (hX j).1
  have hcX : ∀ j, ContinuousAt (X j) 0 := fun j => (hX j).2.continuousAt
  have hcR : ContinuousAt R 0 := hR.2.continuousAt
  have hcsum : ContinuousAt (fun t => ∑ j, |X j t| - R t) 0 :=
    (tendsto_finsetSum _ fun j _ => (hcX j).abs).sub hcR
  have hs0 : ∑ j, |X j 0| - R 0 = ∑ j, |(x j).val| - r.val := by simp only [hX0, hR.1]
  unfold l1BallD
  have hval : ∑ j, (Dual.abs (x j)).val = ∑ j, |(x j).val| := rfl
  rw [hval]
  rcases lt_or_gt_of_ne hb with hlt | hgt
  · rw [if_pos hlt.le]
    refine tracks_congr (hX i) ?_ rfl rfl
    have : ∀ᶠ t in 𝓝 (0 : ℝ), ∑ j, |X j t| - R t < 0 := hcsum.eventually_lt_const (by show ∑ j, |X j 0| - R 0 < 0; rw [hs0]; linarith)
    filter_upwards [this] with t ht
    rw [projectionL1Ball, if_pos (by linarith)]
  · rw [if_neg (not_le.mpr hgt)]
    have hx' := hx hgt
    have hev : ∀ᶠ t in 𝓝 (0 : ℝ), 0 < ∑ j, |X j t| - R t := hcsum.eventually_const_lt (by show 0 < ∑ j, |X j 0| - R 0; rw [hs0]; linarith)
    set a : Fin n → ℝ := fun j => |(x j).val| with ha
    -- the curve of the absolute values with frozen signs
    set Z : Fin n → ℝ → ℝ := fun j t => sgn (x j).val * X j t with hZ
    have hZ0 : ∀ j, Z j 0 = a j := fun j => by simp only [hZ, hX0, sgn_mul_self, ha]
    have hZd : ∀ j, HasDerivAt (Z j) ((Dual.abs (x j)).tan) 0 := fun j => ((hX j).2.const_mul (sgn (x j).val)).congr_deriv (by
      show _ = (x j).tan * (if 0 < (x j).val then 1 else if (x j).val < 0 then -1 else 0)
      rw [mul_comm]; rfl)
    obtain ⟨L, hL, hLj⟩ := C63_simplex hn a r.val hr hx'
    have hcurve : HasDerivAt (fun t => ((fun j => Z j t), R t)) ((fun j => (Dual.abs (x j)).tan), r.tan) 0 := (hasDerivAt_pi.mpr hZd).prodMk hR.2
    have h0 : ((fun j => Z j 0), R 0) = (a, r.val) := by rw [hR.1]; simp only [hZ0]
    have hcomp := HasFDerivAt.comp_hasDerivAt (l := fun q : (Fin n → ℝ) × ℝ => projectionSimplex q.1 q.2) (f := fun t => ((fun j => Z j t), R t)) 0
      (by rw [h0]; exact hL) hcurve
    have hcompi := hasDerivAt_pi.mp hcomp i
    have hJ := (hLj (fun j => (Dual.abs (x j)).tan) r.tan).1
    have hP : Tracks (fun t => projectionSimplex (fun j => Z j t) (R t) i)
        ⟨(projectionSimplexJvp a r.val (fun j => (Dual.abs (x j)).tan) r.tan).1 i, (projectionSimplexJvp a r.val (fun j => (Dual.abs (x j)).tan) r.tan).2 i⟩ := by
      rw [hJ]
      refine ⟨?_, hcompi⟩
      show projectionSimplex (fun j => Z j 0) (R 0) i = projectionSimplex a r.val i
      simp only [hZ0, hR.1]
    -- near 0 both curves have the same projection
    have hpos : ∀ j, 0 < projectionUnitSimplex (fun j => a j / r.val) j ↔ 0 < projectionSimplex a r.val j := fun j => (mul_pos_iff_of_pos_left hr).symm
    have hzero : ∀ j, projectionUnitSimplex (fun j => a j / r.val) j = 0 ↔ projectionSimplex a r.val j = 0 := fun j => by
      simp [projectionSimplex, hr.ne']
    have hsep : ∀ p q, 0 < projectionUnitSimplex (fun j => a j / r.val) p → projectionUnitSimplex (fun j => a j / r.val) q = 0 →
        a q / r.val < a p / r.val - projectionUnitSimplex (fun j => a j / r.val) p := fun p q hp hq => by
      have h5 := hx' p q ((hpos p).mp hp) ((hzero q).mp hq)
      have h6 : a q < a p - r.val * projectionUnitSimplex (fun j => a j / r.val) p := h5
      rw [div_lt_iff₀ hr, sub_mul, div_mul_cancel₀ _ hr.ne']
      linarith
    have hno : NoTie n (fun j => a j / r.val) (projectionUnitSimplex fun j => a j / r.val) :=
      ⟨fun p q hp hq => (hsep p q hp hq).trans (sub_lt_self _ hp), fun _ => hsep⟩
    obtain ⟨-, hnear⟩ := threshold_eventually (isThreshold_simplex hn) (fun j => a j / r.val) hno
    have hR0 : R 0 ≠ 0 := by rw [hR.1]; exact hr.ne'
    have t1 : Tendsto (fun t => fun j => Z j t / R t) (𝓝 0) (𝓝 fun j => a j / r.val) := by
      refine tendsto_pi_nhds.mpr fun j => ?_
      have : Tendsto (fun t => Z j t / R t) (𝓝 0) (𝓝 (Z j 0 / R 0)) := (hZd j).continuousAt.div hcR hR0
      rwa [hZ0, hR.1] at this
    have t2 : Tendsto (fun t => fun j => |X j t| / R t) (𝓝 0) (𝓝 fun j => a j / r.val) := by
      refine tendsto_pi_nhds.mpr fun j => ?_
      have : Tendsto (fun t => |X j t| / R t) (𝓝 0) (𝓝 (|X j 0| / R 0)) := (hcX j).abs.div hcR hR0
      rwa [hX0, hR.1] at this
    have hsame : ∀ᶠ t in 𝓝 (0 : ℝ), ∀ j, (x j).val ≠ 0 → |X j t| = Z j t ∧ sgn (X j t) = sgn (x j).val := by
      refine eventually_all.mpr fun j => ?_
      by_cases h : (x j).val = 0
      · exact Eventually.of_forall fun t h' => absurd h h'
      · have hsg : ∀ᶠ t in 𝓝 (0 : ℝ), sgn (X j t) = sgn (x j).val := by
          rcases lt_or_gt_of_ne h with h | h
          · filter_upwards [eventually_neg (hX j) h] with t ht
            simp [sgn, not_lt.mpr ht.le, ht, not_lt.mpr h.le, h]
          · filter_upwards [eventually_pos (hX j) h] with t ht
            simp [sgn, ht, h]
        filter_upwards [hsg] with t ht _
        exact ⟨by rw [← sgn_mul_self, ht], ht⟩
    have hproj : ∀ᶠ t in 𝓝 (0 : ℝ), projectionSimplex (fun j => |X j t|) (R t) = projectionSimplex (fun j => Z j t) (R t) := by
      filter_upwards [t1.eventually hnear, t2.eventually hnear, hsame] with t e1 e2 e3
      funext k
      show R t * projectionUnitSimplex (fun j => |X j t| / R t) k = R t * projectionUnitSimplex (fun j => Z j t / R t) k
      rw [e1, e2]
      congr 1
      have hS : ∀ j ∈ Finset.univ.filter (fun i => 0 < projectionUnitSimplex (fun j => a j / r.val) i), |X j t| / R t = Z j t / R t := fun j hj => by
        rw [(e3 j (l1_support hn (fun j => (x j).val) r.val hr hgt (Finset.mem_filter.mp hj).2)).1]
      unfold affinePiece
      by_cases hk : k ∈ Finset.univ.filter (fun i => 0 < projectionUnitSimplex (fun j => a j / r.val) i)
      · rw [if_pos hk, if_pos hk, Finset.sum_congr rfl hS]
        exact congrArg (fun u => u - _) (hS k hk)
      · rw [if_neg hk, if_neg hk]
    have hball : (fun t => projectionL1Ball (fun j => X j t) (R t) i) =ᶠ[𝓝 0] fun t => sgn (X i t) * projectionSimplex (fun j => Z j t) (R t) i := by
      filter_upwards [hev, hproj] with t h5 h6
      rw [projectionL1Ball, if_neg (by linarith), projectionL1Sphere, h6]
    by_cases h : (x i).val = 0
    · refine tracks_congr (tracks_const 0) ?_ ?_ ?_
      · filter_upwards [hball, hproj, t1.eventually hnear] with t h5 h6 e1
        rw [h5]
        show _ * (R t * projectionUnitSimplex (fun j => Z j t / R t) i) = 0
        rw [e1, affinePiece, if_neg, mul_zero, mul_zero]
        intro hk
        exact l1_support hn (fun j => (x j).val) r.val hr hgt (Finset.mem_filter.mp hk).2 h
      · simp [const, l1SphereD, mul, sign, sgn, h]
      · simp [const, l1SphereD, mul, sign, sgn, h]
    · refine tracks_congr (tracks_mul (tracks_sign (hX i) h) hP) hball rfl rfl

end

/-! ## Examples -/

/-- Point `(3, 0)` outside the ball of radius 1: the zero coordinate is no kink, and moving it does not move the projection. -/
example : Tracks (fun t => projectionL1Ball (fun j => (![3, t] : Fin 2 → ℝ) j) 1 1) (l1BallD ![⟨3, 0⟩, ⟨0, 1⟩] (const 1) 1) := by
  have hp : projectionSimplex (fun j => |((![⟨3, 0⟩, ⟨0, 1⟩] : Fin 2 → Dual ℝ) j).val|) 1 = ![1, 0] := by
    have e : (fun j => |((![⟨3, 0⟩, ⟨0, 1⟩] : Fin 2 → Dual ℝ) j).val|) = ![3, 0] := by
      funext j; fin_cases j <;> simp
    rw [e]
    obtain ⟨τ, h1, h2⟩ := unitSimplex_threshold (n := 2) (by norm_num) ![(3 : ℝ), 0]
    rw [Fin.sum_univ_two] at h2
    simp only [Matrix.cons_val_zero, Matrix.cons_val_one, Proj.relu] at h2
    have hτ : τ = 2 := by
      rcases max_cases (3 - τ) 0 with ⟨e1, g1⟩ | ⟨e1, g1⟩ <;> rcases max_cases (0 - τ) 0 with ⟨e2, g2⟩ | ⟨e2, g2⟩ <;>
        rw [e1, e2] at h2 <;> linarith
    funext i
    simp only [projectionSimplex, div_one, one_mul]
    rw [h1, hτ]
    fin_cases i <;> norm_num [Proj.relu]
  refine C133_l1_ball (n := 2) (X := fun j t => (![3, t] : Fin 2 → ℝ) j) (R := fun _ => 1) (fun j => ?_) (tracks_const 1) (by norm_num [const])
    (by rw [Fin.sum_univ_two]; norm_num [const]) (fun _ => ?_) 1
  · fin_cases j
    · exact tracks_const 3
    · exact ⟨rfl, hasDerivAt_id' 0⟩
  · show ∀ i j, 0 < projectionSimplex (fun j => |((![⟨3, 0⟩, ⟨0, 1⟩] : Fin 2 → Dual ℝ) j).val|) 1 i →
      projectionSimplex (fun j => |((![⟨3, 0⟩, ⟨0, 1⟩] : Fin 2 → Dual ℝ) j).val|) 1 j = 0 → _ <
        _ - projectionSimplex (fun j => |((![⟨3, 0⟩, ⟨0, 1⟩] : Fin 2 → Dual ℝ) j).val|) 1 i
    rw [hp]
    intro i j hi hj
    fin_cases i <;> fin_cases j <;> simp at hi hj ⊢ <;> norm_num

/-- With weight 1 and scaling 2 the coordinate 5 is shrunk to 3; the derivative in the weight is -2. -/
example : Tracks (fun t => proxLasso (fun _ : Unit => 5) (fun _ => 1 + t) 2 ()) (lassoD ⟨5, 0⟩ ⟨1, 1⟩ (const 2)) ∧
    (lassoD ⟨5, 0⟩ ⟨1, 1⟩ (const 2) : Dual ℝ).tan = -2 := by
  refine ⟨C133_lasso_partial (X := fun _ _ => 5) (V := fun _ t => 1 + t) (S := fun _ => 2) (x := fun _ => ⟨5, 0⟩) (v := fun _ => ⟨1, 1⟩)
    (fun _ => tracks_const 5) (fun _ => ⟨by simp, (hasDerivAt_id' (0 : ℝ)).const_add 1⟩) (tracks_const 2) () (by norm_num [const]) (Or.inl (by norm_num)), ?_⟩
  norm_num [lassoD, mul, sign, sgn, Dual.relu, sub, Dual.abs, const]

/-- A fixed variable away from its bound. -/
example : Tracks (fun t => projectionBox (fun _ : Unit => 5 + t) (fun _ => 1) (fun _ => 1) ()) (boxD ⟨5, 1⟩ (const 1) (const 1)) :=
  C133_box_partial (X := fun _ t => 5 + t) (V := fun _ _ => 1) (W := fun _ _ => 1) (x := fun _ => ⟨5, 1⟩) (v := fun _ => const 1) (w := fun _ => const 1)
    (fun _ => ⟨by simp, (hasDerivAt_id' (0 : ℝ)).const_add 5⟩) (fun _ => tracks_const 1) (fun _ => tracks_const 1) () (Or.inr ⟨rfl, rfl⟩)
    (by norm_num [const]) (by norm_num [const])

end Jaxopt.ProxAD
