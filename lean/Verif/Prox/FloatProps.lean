import Verif.Prox.Float
import Verif.Prox.Props
import Verif.Loss.FloatProps

/-!
# C135: the proximal operators and the l2 projections in floating-point arithmetic
-/

set_option autoImplicit false
set_option linter.unusedSectionVars false
set_option linter.unusedVariables false

namespace Jaxopt.Prox

open Jaxopt.Proj Jaxopt.Loss

variable {K ι : Type*} [Field K] [LinearOrder K] [IsStrictOrderedRing K] {rnd : K → K} {u : K}

/-! ## Specification -/

/-- A product of at most `a` factors `1 + δ` and at most `b` factors `1 / (1 + δ)` with `|δ| ≤ u`. -/
def Fac (u : K) (a b : ℕ) (m : K) : Prop := (1 - u) ^ a / (1 + u) ^ b ≤ m ∧ m ≤ (1 + u) ^ a / (1 - u) ^ b

/-! ## Factors -/

theorem Fac.pos (hS : StdRound rnd u) {a b : ℕ} {m : K} (h : Fac u a b m) : 0 < m :=
  lt_of_lt_of_le (div_pos (pow_pos (by linarith [hS.lt_one]) _) (pow_pos (by linarith [hS.nonneg]) _)) h.1

theorem Fac.mul (hS : StdRound rnd u) {a b a' b' : ℕ} {m m' : K} (h : Fac u a b m) (h' : Fac u a' b' m') : Fac u (a + a') (b + b') (m * m') := by
  have h1 : 0 < 1 - u := by linarith [hS.lt_one]
  have h2 : 0 < 1 + u := by linarith [hS.nonneg]
  constructor
  · rw [pow_add, pow_add, mul_div_mul_comm]
    exact mul_le_mul h.1 h'.1 (by positivity) (h.pos hS).le
  · rw [pow_add, pow_add, mul_div_mul_comm]
    exact mul_le_mul h.2 h'.2 (h'.pos hS).le (by positivity)

theorem Fac.inv (hS : StdRound rnd u) {a b : ℕ} {m : K} (h : Fac u a b m) : Fac u b a m⁻¹ := by
  have h1 : 0 < 1 - u := by linarith [hS.lt_one]
  have h2 : 0 < 1 + u := by linarith [hS.nonneg]
  constructor
  · rw [← inv_div]
    exact inv_anti₀ (h.pos hS) h.2
  · rw [← inv_div]
    exact inv_anti₀ (by positivity) h.1

theorem Fac.one (hS : StdRound rnd u) (a b : ℕ) : Fac u a b 1 := by
  have h1 : 0 < 1 - u := by linarith [hS.lt_one]
  have h2 : 0 < 1 + u := by linarith [hS.nonneg]
  constructor
  · rw [div_le_one (by positivity)]
    exact (pow_le_one₀ h1.le (by linarith [hS.nonneg])).trans (one_le_pow₀ (by linarith [hS.nonneg]))
  · rw [one_le_div (by positivity)]
    exact (pow_le_one₀ h1.le (by linarith [hS.nonneg])).trans (one_le_pow₀ (by linarith [hS.nonneg]))

/-- Rounding multiplies by a factor. -/
theorem rnd_fac (hS : StdRound rnd u) (x : K) : ∃ m, Fac u 1 0 m ∧ rnd x = m * x := by
  by_cases hx : x = 0
  · exact ⟨1, Fac.one hS 1 0, by rw [hx, hS.zero, mul_zero]⟩
  · refine ⟨rnd x / x, ?_, (div_mul_cancel₀ _ hx).symm⟩
    have h : |rnd x / x - 1| ≤ u := by
      have e : rnd x / x - 1 = (rnd x - x) / x := by field_simp
      rw [e, abs_div, div_le_iff₀ (abs_pos.mpr hx)]
      exact hS.err x
    obtain ⟨h1, h2⟩ := abs_le.mp h
    constructor
    · rw [pow_one, pow_zero, div_one]; linarith
    · rw [pow_one, pow_zero, div_one]; linarith

/-- Adding one to a non-negative number does not increase the relative error. -/
theorem one_add_fac (hS : StdRound rnd u) {a b : ℕ} {m z : K} (h : Fac u a b m) (hz : 0 ≤ z) : ∃ m', Fac u a b m' ∧ 1 + m * z = m' * (1 + z) := by
  have hz1 : 0 < 1 + z := by linarith
  refine ⟨(1 + m * z) / (1 + z), ⟨?_, ?_⟩, (div_mul_cancel₀ _ hz1.ne').symm⟩
  · rw [le_div_iff₀ hz1]
    have := mul_le_mul_of_nonneg_right h.1 hz
    linarith [(Fac.one hS a b).1]
  · rw [div_le_iff₀ hz1]
    have := mul_le_mul_of_nonneg_right h.2 hz
    linarith [(Fac.one hS a b).2]

theorem rnd_nonpos (hS : StdRound rnd u) {a : K} (h : a ≤ 0) : rnd a ≤ 0 := by
  have := hS.mono a 0 h
  rwa [hS.zero] at this

theorem rnd_pos (hS : StdRound rnd u) {a : K} (h : 0 < a) : 0 < rnd a :=
  lt_of_le_of_ne (rnd_nonneg hS h.le) fun e => h.ne' ((rnd_eq_zero hS).mp e.symm)

theorem relu_mono {a b : K} (h : a ≤ b) : relu a ≤ relu b := max_le_max h le_rfl

/-! ## Soft thresholding -/

theorem relu_rnd_eq_zero (hS : StdRound rnd u) (a : K) : relu (rnd a) = 0 ↔ a ≤ 0 := by
  constructor
  · intro h
    by_contra hc
    have := rnd_pos hS (not_le.mp hc)
    rw [relu, max_eq_left this.le] at h
    exact this.ne' h
  · intro h
    rw [relu, max_eq_right (rnd_nonpos hS h)]

theorem sgn_pos {x : K} (h : 0 < x) : sgn x = 1 := by rw [sgn, if_pos h]

theorem sgn_neg {x : K} (h : x < 0) : sgn x = -1 := by rw [sgn, if_neg (by linarith), if_pos h]

theorem sgn_zero : sgn (0 : K) = 0 := by simp [sgn]

theorem sgn_ne_zero {x : K} (h : x ≠ 0) : sgn x ≠ 0 := by
  rcases lt_or_gt_of_ne h with h | h
  · rw [sgn_neg h]; norm_num
  · rw [sgn_pos h]; norm_num

theorem softR_pos {x : K} (h : 0 ≤ x) (v : K) (hv : 0 ≤ v) (hS : StdRound rnd u) : softR rnd x v = relu (rnd (x - v)) := by
  rcases h.eq_or_lt with rfl | h
  · rw [softR, sgn_zero, zero_mul, eq_comm, relu_rnd_eq_zero hS]; linarith
  · rw [softR, sgn_pos h, one_mul, abs_of_pos h]

theorem softR_odd (rnd : K → K) (x v : K) : softR rnd (-x) v = -softR rnd x v := by
  unfold softR
  rw [abs_neg]
  rcases lt_trichotomy x 0 with h | rfl | h
  · rw [sgn_neg h, sgn_pos (by linarith)]; ring
  · rw [neg_zero, sgn_zero]; ring
  · rw [sgn_pos h, sgn_neg (by linarith)]; ring

theorem softR_zero (hS : StdRound rnd u) {x v : K} (hv : 0 ≤ v) : softR rnd x v = 0 ↔ |x| ≤ v := by
  unfold softR
  by_cases hx : x = 0
  · simp [hx, sgn_zero, hv]
  · rw [mul_eq_zero, or_iff_right (sgn_ne_zero hx), relu_rnd_eq_zero hS, sub_nonpos]

theorem softR_mono (hS : StdRound rnd u) {x y v : K} (hv : 0 ≤ v) (h : x ≤ y) : softR rnd x v ≤ softR rnd y v := by
  rcases le_total 0 x with hx | hx
  · rw [softR_pos hx v hv hS, softR_pos (hx.trans h) v hv hS]
    exact relu_mono (hS.mono _ _ (by linarith))
  · have e := softR_odd rnd (-x) v
    rw [neg_neg] at e
    rw [e, softR_pos (neg_nonneg.mpr hx) v hv hS]
    rcases le_total 0 y with hy | hy
    · rw [softR_pos hy v hv hS]
      linarith [relu_nonneg (rnd (-x - v)), relu_nonneg (rnd (y - v))]
    · have e := softR_odd rnd (-y) v
      rw [neg_neg] at e
      rw [e, softR_pos (neg_nonneg.mpr hy) v hv hS]
      exact neg_le_neg (relu_mono (hS.mono _ _ (by linarith)))

/-- Between zero and the argument. -/
theorem softR_shrink (hS : BinRound rnd u) {x v : K} (hv : 0 ≤ v) (hx : rnd x = x) : 0 ≤ softR rnd x v * x ∧ |softR rnd x v| ≤ |x| := by
  have key : ∀ z : K, 0 ≤ z → rnd z = z → 0 ≤ softR rnd z v ∧ softR rnd z v ≤ z := fun z hz hr => by
    rw [softR_pos hz v hv hS.toStdRound]
    refine ⟨relu_nonneg _, max_le ?_ hz⟩
    calc rnd (z - v) ≤ rnd z := hS.mono _ _ (by linarith)
      _ = z := hr
  rcases le_total 0 x with h | h
  · obtain ⟨h1, h2⟩ := key x h hx
    exact ⟨mul_nonneg h1 h, by rw [abs_of_nonneg h1, abs_of_nonneg h]; exact h2⟩
  · obtain ⟨h1, h2⟩ := key (-x) (by linarith) (by rw [hS.neg, hx])
    rw [softR_odd] at h1 h2
    refine ⟨mul_nonneg_of_nonpos_of_nonpos (by linarith) h, ?_⟩
    rw [abs_of_nonpos (by linarith), abs_of_nonpos h]; exact h2

/-- The computed value is the exact value times a factor. -/
theorem softR_fac (hS : StdRound rnd u) (x v : K) : ∃ m, Fac u 1 0 m ∧ softR rnd x v = m * (sgn x * relu (|x| - v)) := by
  obtain ⟨m, hm, e⟩ := rnd_fac hS (|x| - v)
  refine ⟨m, hm, ?_⟩
  unfold softR
  have : relu (rnd (|x| - v)) = m * relu (|x| - v) := by
    rw [e, relu, relu, mul_max_of_nonneg _ _ (hm.pos hS).le, mul_zero]
  rw [this]; ring

/-- The computed value is the exact value at a nearby point. -/
theorem softR_backward (hS : StdRound rnd u) {x v : K} (hv : 0 ≤ v) : ∃ x', |x' - x| ≤ u * |x| ∧ softR rnd x v = sgn x' * relu (|x'| - v) := by
  have hu := hS.nonneg
  by_cases h : |x| ≤ v
  · refine ⟨x, by rw [sub_self, abs_zero]; positivity, ?_⟩
    rw [(softR_zero hS hv).mpr h, relu, max_eq_right (by linarith), mul_zero]
  · have h := not_le.mp h
    have hpos : 0 < rnd (|x| - v) := rnd_pos hS (by linarith)
    have hx : x ≠ 0 := by rintro rfl; rw [abs_zero] at h; linarith
    have herr := hS.err (|x| - v)
    rw [abs_of_pos (show 0 < |x| - v by linarith)] at herr
    have hz : 0 < v + rnd (|x| - v) := by linarith
    have hle : u * (|x| - v) ≤ u * |x| := mul_le_mul_of_nonneg_left (by linarith) hu
    refine ⟨sgn x * (v + rnd (|x| - v)), ?_, ?_⟩
    · rcases lt_or_gt_of_ne hx with g | g
      · rw [sgn_neg g]
        have e : -1 * (v + rnd (|x| - v)) - x = -(rnd (|x| - v) - (|x| - v)) := by rw [abs_of_neg g]; ring
        rw [e, abs_neg]
        exact herr.trans hle
      · rw [sgn_pos g]
        have e : 1 * (v + rnd (|x| - v)) - x = rnd (|x| - v) - (|x| - v) := by rw [abs_of_pos g]; ring
        rw [e]
        exact herr.trans hle
    · unfold softR
      rcases lt_or_gt_of_ne hx with g | g
      · rw [sgn_neg g, sgn_neg (show -1 * (v + rnd (|x| - v)) < 0 by linarith), abs_of_neg (show -1 * (v + rnd (|x| - v)) < 0 by linarith)]
        congr 2; ring
      · rw [sgn_pos g, sgn_pos (show 0 < 1 * (v + rnd (|x| - v)) by linarith), abs_of_pos (show 0 < 1 * (v + rnd (|x| - v)) by linarith)]
        congr 2; ring

/-! ## C135, thresholding -/

/-- C135.  `prox_lasso` is backward stable: the computed vector is the exact minimiser for a point and weights with relative errors of at most one rounding. -/
theorem C135_lasso_backward [Fintype ι] (hS : StdRound rnd u) (x l1reg : ι → K) (scaling : K) (h : ∀ i, 0 ≤ l1reg i * scaling) :
    ∃ x' l' : ι → K, (∀ i, |x' i - x i| ≤ u * |x i|) ∧ (∀ i, |l' i - l1reg i * scaling| ≤ u * (l1reg i * scaling)) ∧
      IsUniqueMin Set.univ (fun y => (1 / 2) * ∑ i, (x' i - y i) ^ 2 + ∑ i, l' i * |y i|) (proxLassoR rnd x l1reg scaling) := by
  have hv : ∀ i, 0 ≤ rnd (l1reg i * scaling) := fun i => rnd_nonneg hS (h i)
  choose x' h1 h2 using fun i => softR_backward (x := x i) hS (hv i)
  refine ⟨x', fun i => rnd (l1reg i * scaling), h1, fun i => ?_, ?_⟩
  · have := hS.err (l1reg i * scaling)
    rwa [abs_of_nonneg (h i)] at this
  · have e : proxLassoR rnd x l1reg scaling = proxLasso x' (fun i => rnd (l1reg i * scaling)) 1 := by
      funext i
      show softR rnd (x i) (rnd (l1reg i * scaling)) = sgn (x' i) * relu (|x' i| - rnd (l1reg i * scaling) * 1)
      rw [h2, mul_one]
    have := C14_lasso x' (fun i => rnd (l1reg i * scaling)) 1 (fun i => by rw [one_mul]; exact hv i)
    rw [e]
    simpa using this

/-- C135.  The zeros of `prox_lasso` are exact: a coordinate is zero if and only if it does not exceed the rounded threshold; the other coordinates keep
their sign, no coordinate grows, the order of the coordinates and the symmetry are kept, and a zero weight changes nothing. -/
theorem C135_lasso_shape (hS : BinRound rnd u) {x y l1reg : ι → K} {scaling : K} (h : ∀ i, 0 ≤ l1reg i * scaling) (i : ι) :
    (proxLassoR rnd x l1reg scaling i = 0 ↔ |x i| ≤ rnd (l1reg i * scaling)) ∧
    (rnd (x i) = x i → 0 ≤ proxLassoR rnd x l1reg scaling i * x i ∧ |proxLassoR rnd x l1reg scaling i| ≤ |x i|) ∧
    (x i ≤ y i → proxLassoR rnd x l1reg scaling i ≤ proxLassoR rnd y l1reg scaling i) ∧
    proxLassoR rnd (fun j => -x j) l1reg scaling i = -proxLassoR rnd x l1reg scaling i ∧
    (rnd (x i) = x i → l1reg i = 0 → proxLassoR rnd x l1reg scaling i = x i) := by
  have hv := rnd_nonneg hS.toStdRound (h i)
  refine ⟨softR_zero hS.toStdRound hv, softR_shrink hS hv, softR_mono hS.toStdRound hv, softR_odd rnd _ _, fun hx hl => ?_⟩
  show softR rnd (x i) (rnd (l1reg i * scaling)) = x i
  rw [hl, zero_mul, hS.zero, softR, sub_zero, ← hS.abs, hx, relu, max_eq_left (abs_nonneg _), Proj.sgn_mul_self]

/-- C135.  `prox_non_negative_lasso`. -/
theorem C135_non_negative_lasso [Fintype ι] (hS : StdRound rnd u) (x : ι → K) {l1reg scaling : K} (h : 0 ≤ l1reg * scaling) :
    (∃ (x' : ι → K) (l' : K), (∀ i, |x' i - x i| ≤ u * |x i|) ∧ |l' - l1reg * scaling| ≤ u * (l1reg * scaling) ∧
      IsUniqueMin {y : ι → K | ∀ i, 0 ≤ y i} (fun y => (1 / 2) * ∑ i, (x' i - y i) ^ 2 + l' * ∑ i, |y i|) (proxNonNegativeLassoR rnd x l1reg scaling)) ∧
    ∀ i, (proxNonNegativeLassoR rnd x l1reg scaling i = 0 ↔ x i ≤ rnd (l1reg * scaling)) ∧
      (rnd (x i) = x i → proxNonNegativeLassoR rnd x l1reg scaling i ≤ max (x i) 0) := by
  have hv := rnd_nonneg hS h
  have hu := hS.nonneg
  refine ⟨?_, fun i => ⟨?_, fun hx => ?_⟩⟩
  · refine ⟨fun i => if x i ≤ rnd (l1reg * scaling) then x i else rnd (l1reg * scaling) + rnd (x i - rnd (l1reg * scaling)), rnd (l1reg * scaling),
      fun i => ?_, ?_, ?_⟩
    · show |(if x i ≤ rnd (l1reg * scaling) then x i else rnd (l1reg * scaling) + rnd (x i - rnd (l1reg * scaling))) - x i| ≤ u * |x i|
      by_cases hc : x i ≤ rnd (l1reg * scaling)
      · rw [if_pos hc, sub_self, abs_zero]; positivity
      · rw [if_neg hc]
        have hc := not_le.mp hc
        have := hS.err (x i - rnd (l1reg * scaling))
        have e : rnd (l1reg * scaling) + rnd (x i - rnd (l1reg * scaling)) - x i = rnd (x i - rnd (l1reg * scaling)) - (x i - rnd (l1reg * scaling)) := by ring
        rw [e]
        refine this.trans (mul_le_mul_of_nonneg_left ?_ hu)
        rw [abs_of_pos (by linarith), abs_of_pos (by linarith)]
        linarith
    · have := hS.err (l1reg * scaling)
      rwa [abs_of_nonneg h] at this
    · have e : proxNonNegativeLassoR rnd x l1reg scaling = proxNonNegativeLasso
          (fun i => if x i ≤ rnd (l1reg * scaling) then x i else rnd (l1reg * scaling) + rnd (x i - rnd (l1reg * scaling))) (rnd (l1reg * scaling)) 1 := by
        funext i
        show relu (rnd (x i - rnd (l1reg * scaling))) =
          relu ((if x i ≤ rnd (l1reg * scaling) then x i else rnd (l1reg * scaling) + rnd (x i - rnd (l1reg * scaling))) - rnd (l1reg * scaling) * 1)
        by_cases hc : x i ≤ rnd (l1reg * scaling)
        · rw [if_pos hc, (relu_rnd_eq_zero hS _).mpr (by linarith), relu, max_eq_right (by linarith)]
        · rw [if_neg hc]; congr 1; ring
      have := C14_non_negative_lasso (fun i => if x i ≤ rnd (l1reg * scaling) then x i else rnd (l1reg * scaling) + rnd (x i - rnd (l1reg * scaling)))
        (rnd (l1reg * scaling)) 1
      rw [e]
      simpa using this
  · exact (relu_rnd_eq_zero hS _).trans (by rw [sub_nonpos])
  · refine max_le_max ?_ le_rfl
    have := hS.mono (x i - rnd (l1reg * scaling)) (x i) (by linarith)
    rwa [hx] at this

/-! ## C135, elastic net and ridge -/

theorem denominator_fac (hS : StdRound rnd u) {t g : K} (h : 0 ≤ t * g) : ∃ m, Fac u 2 0 m ∧ rnd (1 + rnd (t * g)) = m * (1 + t * g) := by
  obtain ⟨m1, h1, e1⟩ := rnd_fac hS (t * g)
  obtain ⟨m2, h2, e2⟩ := one_add_fac hS h1 h
  obtain ⟨m3, h3, e3⟩ := rnd_fac hS (1 + rnd (t * g))
  refine ⟨m3 * m2, h3.mul hS h2, ?_⟩
  rw [e3, e1, e2]; ring

theorem one_le_denominator (hS : BinRound rnd u) {z : K} (h : 0 ≤ z) : 1 ≤ rnd (1 + rnd z) := by
  have := hS.mono 1 (1 + rnd z) (by linarith [rnd_nonneg hS.toStdRound h])
  rwa [hS.one] at this

/-- C135.  `prox_elastic_net` computes the exact operator for a threshold with one rounding error, up to a factor with four rounding errors; its zeros are
exact, signs are kept and no coordinate grows. -/
theorem C135_elastic_net (hS : BinRound rnd u) {x lam gam : ι → K} {scaling : K} (h : ∀ i, 0 ≤ scaling * lam i) (hg : ∀ i, 0 ≤ gam i) (i : ι) :
    (∃ t m, |t - scaling * lam i| ≤ u * (scaling * lam i) ∧ Fac u 2 2 m ∧
      proxElasticNetR rnd x lam gam scaling i = m * (sgn (x i) * relu (|x i| - t) / (1 + t * gam i))) ∧
    (proxElasticNetR rnd x lam gam scaling i = 0 ↔ |x i| ≤ rnd (scaling * lam i)) ∧
    (rnd (x i) = x i → 0 ≤ proxElasticNetR rnd x lam gam scaling i * x i ∧ |proxElasticNetR rnd x lam gam scaling i| ≤ |x i|) := by
  have hs := hS.toStdRound
  have hv := rnd_nonneg hs (h i)
  have hD := one_le_denominator hS (mul_nonneg hv (hg i))
  set D := rnd (1 + rnd (rnd (scaling * lam i) * gam i)) with hDdef
  have e0 : proxElasticNetR rnd x lam gam scaling i = rnd (softR rnd (x i) (rnd (scaling * lam i)) / D) := rfl
  refine ⟨?_, ?_, fun hx => ?_⟩
  · obtain ⟨m1, h1, e1⟩ := denominator_fac hs (mul_nonneg hv (hg i))
    obtain ⟨m2, h2, e2⟩ := softR_fac hs (x i) (rnd (scaling * lam i))
    obtain ⟨m3, h3, e3⟩ := rnd_fac hs (softR rnd (x i) (rnd (scaling * lam i)) / D)
    refine ⟨rnd (scaling * lam i), m3 * (m2 * m1⁻¹), ?_, (h3.mul hs (h2.mul hs (h1.inv hs)) :), ?_⟩
    · have := hs.err (scaling * lam i)
      rwa [abs_of_nonneg (h i)] at this
    · have hm1 := (h1.pos hs).ne'
      have hd : (1 + rnd (scaling * lam i) * gam i) ≠ 0 := by nlinarith [mul_nonneg hv (hg i)]
      rw [e0, e3, e2, hDdef, e1]
      field_simp
  · rw [e0, rnd_eq_zero hs, div_eq_zero_iff, or_iff_left (by linarith : D ≠ 0), softR_zero hs hv]
  · obtain ⟨h1, h2⟩ := softR_shrink hS hv hx
    rw [e0]
    set s := softR rnd (x i) (rnd (scaling * lam i)) with hsdef
    have hq : |s / D| ≤ |x i| := by
      rw [abs_div, abs_of_pos (show 0 < D by linarith), div_le_iff₀ (by linarith)]
      nlinarith [abs_nonneg (x i)]
    constructor
    · obtain ⟨m, hm, e⟩ := rnd_fac hs (s / D)
      rw [e]
      have : m * (s / D) * x i = m / D * (s * x i) := by ring
      rw [this]
      exact mul_nonneg (div_nonneg (hm.pos hs).le (by linarith)) h1
    · rw [hS.abs]
      have := hs.mono _ _ hq
      rwa [← hS.abs (x i), hx] at this

/-- C135.  `prox_ridge` and `prox_non_negative_ridge`: relative error of four roundings, no coordinate grows, the order is kept. -/
theorem C135_ridge (hS : BinRound rnd u) {x : ι → K} {l2reg scaling : K} (h : 0 ≤ scaling * l2reg) (i : ι) :
    (∃ m, Fac u 2 2 m ∧ proxRidgeR rnd x l2reg scaling i = m * (x i / (1 + scaling * l2reg))) ∧
    (rnd (x i) = x i → |proxRidgeR rnd x l2reg scaling i| ≤ |x i|) ∧
    (∀ j, x i ≤ x j → proxRidgeR rnd x l2reg scaling i ≤ proxRidgeR rnd x l2reg scaling j) ∧
    proxNonNegativeRidgeR rnd x l2reg scaling i = relu (proxRidgeR rnd x l2reg scaling i) := by
  have hs := hS.toStdRound
  have hD := one_le_denominator hS h
  have hf0 : 0 ≤ rnd (1 / rnd (1 + rnd (scaling * l2reg))) := rnd_nonneg hs (by positivity)
  have hf1 : rnd (1 / rnd (1 + rnd (scaling * l2reg))) ≤ 1 := by
    have := hs.mono (1 / rnd (1 + rnd (scaling * l2reg))) 1 (by rw [div_le_one (by linarith)]; exact hD)
    rwa [hS.one] at this
  have e0 : ∀ j, proxRidgeR rnd x l2reg scaling j = rnd (rnd (1 / rnd (1 + rnd (scaling * l2reg))) * x j) := fun j => rfl
  refine ⟨?_, fun hx => ?_, fun j hij => ?_, ?_⟩
  · obtain ⟨m1, h1, e1⟩ := denominator_fac hs h
    obtain ⟨m2, h2, e2⟩ := rnd_fac hs (1 / rnd (1 + rnd (scaling * l2reg)))
    obtain ⟨m3, h3, e3⟩ := rnd_fac hs (rnd (1 / rnd (1 + rnd (scaling * l2reg))) * x i)
    refine ⟨m3 * (m2 * m1⁻¹), (h3.mul hs (h2.mul hs (h1.inv hs)) :), ?_⟩
    have hm1 := (h1.pos hs).ne'
    have hd : (1 + scaling * l2reg) ≠ 0 := by linarith
    rw [e0, e3, e2, e1]
    field_simp
  · rw [e0, hS.abs]
    have := hs.mono (|rnd (1 / rnd (1 + rnd (scaling * l2reg))) * x i|) (|x i|) (by
      rw [abs_mul, abs_of_nonneg hf0]
      exact mul_le_of_le_one_left (abs_nonneg _) hf1)
    rwa [← hS.abs (x i), hx] at this
  · exact hs.mono _ _ (mul_le_mul_of_nonneg_left hij hf0)
  · show relu (rnd (rnd (1 / rnd (1 + rnd (l2reg * scaling))) * x i)) = _
    rw [mul_comm l2reg]; rfl

/-! ## The norm -/

/-- The relative error of a sum of non-negative numbers, whatever the order of the additions. -/
theorem sums_fac (hS : StdRound rnd u) {l : List K} {s : K} (h : Sums rnd l s) (hl : ∀ a ∈ l, 0 ≤ a) :
    (1 - u) ^ (l.length - 1) * l.sum ≤ s ∧ s ≤ (1 + u) ^ (l.length - 1) * l.sum := by
  have h1 : 0 < 1 - u := by linarith [hS.lt_one]
  have h1' : 1 - u ≤ 1 := by linarith [hS.nonneg]
  have h2 : 1 ≤ 1 + u := by linarith [hS.nonneg]
  induction h with
  | one a => simp
  | @add l1 l2 s1 s2 g1 g2 ih1 ih2 =>
    obtain ⟨a1, b1⟩ := ih1 fun a ha => hl a (List.mem_append_left _ ha)
    obtain ⟨a2, b2⟩ := ih2 fun a ha => hl a (List.mem_append_right _ ha)
    have p1 := List.length_pos_of_ne_nil g1.ne_nil
    have p2 := List.length_pos_of_ne_nil g2.ne_nil
    have n1 : 0 ≤ l1.sum := List.sum_nonneg fun a ha => hl a (List.mem_append_left _ ha)
    have n2 : 0 ≤ l2.sum := List.sum_nonneg fun a ha => hl a (List.mem_append_right _ ha)
    obtain ⟨m, hm, e⟩ := rnd_fac hS (s1 + s2)
    have hm1 := hm.1
    have hm2 := hm.2
    rw [pow_one, pow_zero, div_one] at hm1 hm2
    obtain ⟨k, hk⟩ : ∃ k, (l1 ++ l2).length - 1 = k + 1 := ⟨(l1 ++ l2).length - 2, by rw [List.length_append]; omega⟩
    have k1 : l1.length - 1 ≤ k := by rw [List.length_append] at hk; omega
    have k2 : l2.length - 1 ≤ k := by rw [List.length_append] at hk; omega
    rw [hk, e, List.sum_append, pow_succ', pow_succ', mul_assoc, mul_assoc]
    have c1 : (1 - u) ^ k * l1.sum ≤ s1 := (mul_le_mul_of_nonneg_right (pow_le_pow_of_le_one h1.le h1' k1) n1).trans a1
    have c2 : (1 - u) ^ k * l2.sum ≤ s2 := (mul_le_mul_of_nonneg_right (pow_le_pow_of_le_one h1.le h1' k2) n2).trans a2
    have d1 : s1 ≤ (1 + u) ^ k * l1.sum := b1.trans (mul_le_mul_of_nonneg_right (pow_le_pow_right₀ h2 k1) n1)
    have d2 : s2 ≤ (1 + u) ^ k * l2.sum := b2.trans (mul_le_mul_of_nonneg_right (pow_le_pow_right₀ h2 k2) n2)
    have q1 : 0 ≤ (1 - u) ^ k * l1.sum := by positivity
    have q2 : 0 ≤ (1 - u) ^ k * l2.sum := by positivity
    constructor
    · exact mul_le_mul hm1 (by rw [mul_add]; exact add_le_add c1 c2) (by rw [mul_add]; exact add_nonneg q1 q2) (hm.pos hS).le
    · exact mul_le_mul hm2 (by rw [mul_add]; exact add_le_add d1 d2) (by linarith) (by linarith)

variable {n : ℕ} {x : Fin n → K} {nrm : K}

theorem nrm_nonneg (hS : StdRound rnd u) (h : IsNormR rnd x nrm) : 0 ≤ nrm := by
  obtain ⟨s, r, -, hr, -, rfl⟩ := h
  exact rnd_nonneg hS hr

/-- C135.  The relative error of `tree_l2_norm`, for every order of the additions: `n + 2` roundings in the square. -/
theorem C135_norm (hS : StdRound rnd u) (h : IsNormR rnd x nrm) :
    (1 - u) ^ (n + 2) * ∑ i, x i ^ 2 ≤ nrm ^ 2 ∧ nrm ^ 2 ≤ (1 + u) ^ (n + 2) * ∑ i, x i ^ 2 := by
  obtain ⟨s, r, hs, hr, rfl, rfl⟩ := h
  have h1 : 0 < 1 - u := by linarith [hS.lt_one]
  have h2 : 0 < 1 + u := by linarith [hS.nonneg]
  have hsum := sums_fac hS hs fun a ha => by
    obtain ⟨i, rfl⟩ := List.mem_ofFn.mp ha
    exact rnd_nonneg hS (sq_nonneg _)
  have hn : 0 < n := by
    have := List.length_pos_of_ne_nil hs.ne_nil
    rwa [List.length_ofFn] at this
  rw [List.length_ofFn, List.sum_ofFn] at hsum
  have hsq : (1 - u) * ∑ i, x i ^ 2 ≤ ∑ i, rnd (x i ^ 2) ∧ ∑ i, rnd (x i ^ 2) ≤ (1 + u) * ∑ i, x i ^ 2 := by
    rw [Finset.mul_sum, Finset.mul_sum]
    constructor <;> refine Finset.sum_le_sum fun i _ => ?_ <;>
    · have := abs_le.mp (hS.err (x i ^ 2))
      rw [abs_of_nonneg (sq_nonneg (x i))] at this
      linarith [this.1, this.2]
  have hsum0 : 0 ≤ ∑ i, x i ^ 2 := Finset.sum_nonneg fun i _ => sq_nonneg _
  obtain ⟨m, hm, e⟩ := rnd_fac hS r
  have hm1 := hm.1
  have hm2 := hm.2
  have hm0 := (hm.pos hS).le
  rw [pow_one, pow_zero, div_one] at hm1 hm2
  obtain ⟨k, rfl⟩ : ∃ k, n = k + 1 := ⟨n - 1, by omega⟩
  rw [Nat.add_sub_cancel] at hsum
  rw [e, mul_pow]
  have e1 : ∀ z : K, z ^ (k + 1 + 2) * ∑ i, x i ^ 2 = z ^ 2 * (z ^ k * (z * ∑ i, x i ^ 2)) := fun z => by ring
  rw [e1, e1]
  constructor
  · refine mul_le_mul (pow_le_pow_left₀ h1.le hm1 2) ?_ (by positivity) (by positivity)
    exact (mul_le_mul_of_nonneg_left hsq.1 (by positivity)).trans hsum.1
  · refine mul_le_mul (pow_le_pow_left₀ hm0 hm2 2) ?_ (sq_nonneg _) (by positivity)
    exact hsum.2.trans (mul_le_mul_of_nonneg_left hsq.2 (by positivity))

/-! ## C135, l2 projections -/

/-- Scaling with a rounded quotient. -/
theorem scaled_fac (hS : StdRound rnd u) (v : K) : ∃ m : Fin n → K, (∀ i, Fac u 2 0 (m i)) ∧ ∀ i, rnd (rnd (v / nrm) * x i) = m i * (v / nrm * x i) := by
  obtain ⟨m1, h1, e1⟩ := rnd_fac hS (v / nrm)
  choose m2 h2 e2 using fun i => rnd_fac hS (rnd (v / nrm) * x i)
  refine ⟨fun i => m2 i * m1, fun i => ((h2 i).mul hS h1 :), fun i => ?_⟩
  rw [e2, e1]; ring

theorem scaled_sum (hS : StdRound rnd u) (h : IsNormR rnd x nrm) (hpos : 0 < nrm) (v : K) :
    v ^ 2 * ((1 - u) ^ 4 / (1 + u) ^ (n + 2)) ≤ ∑ i, rnd (rnd (v / nrm) * x i) ^ 2 ∧
      ∑ i, rnd (rnd (v / nrm) * x i) ^ 2 ≤ v ^ 2 * ((1 + u) ^ 4 / (1 - u) ^ (n + 2)) := by
  obtain ⟨m, hm, e⟩ := scaled_fac (x := x) (nrm := nrm) hS v
  have h1 : 0 < 1 - u := by linarith [hS.lt_one]
  have h2 : 0 < 1 + u := by linarith [hS.nonneg]
  obtain ⟨n1, n2⟩ := C135_norm hS h
  have hN : 0 < nrm ^ 2 := by positivity
  have hv : 0 ≤ v ^ 2 := sq_nonneg _
  have hq : 0 ≤ v ^ 2 / nrm ^ 2 := by positivity
  have l1 : (1 - u) ^ 4 * (v ^ 2 / nrm ^ 2 * ∑ i, x i ^ 2) ≤ ∑ i, rnd (rnd (v / nrm) * x i) ^ 2 := by
    rw [Finset.mul_sum, Finset.mul_sum]
    refine Finset.sum_le_sum fun i _ => ?_
    have a := (hm i).1
    rw [pow_zero, div_one] at a
    rw [e, mul_pow, mul_pow, div_pow]
    refine mul_le_mul_of_nonneg_right ?_ (by positivity)
    calc (1 - u) ^ 4 = ((1 - u) ^ 2) ^ 2 := by ring
      _ ≤ m i ^ 2 := pow_le_pow_left₀ (by positivity) a 2
  have l2 : ∑ i, rnd (rnd (v / nrm) * x i) ^ 2 ≤ (1 + u) ^ 4 * (v ^ 2 / nrm ^ 2 * ∑ i, x i ^ 2) := by
    rw [Finset.mul_sum, Finset.mul_sum]
    refine Finset.sum_le_sum fun i _ => ?_
    have a := (hm i).2
    rw [pow_zero, div_one] at a
    rw [e, mul_pow, mul_pow, div_pow]
    refine mul_le_mul_of_nonneg_right ?_ (by positivity)
    calc m i ^ 2 ≤ ((1 + u) ^ 2) ^ 2 := pow_le_pow_left₀ ((hm i).pos hS).le a 2
      _ = (1 + u) ^ 4 := by ring
  constructor
  · refine le_trans ?_ l1
    have : 1 / (1 + u) ^ (n + 2) ≤ (∑ i, x i ^ 2) / nrm ^ 2 := by
      rw [div_le_div_iff₀ (by positivity) hN, one_mul, mul_comm]; exact n2
    calc v ^ 2 * ((1 - u) ^ 4 / (1 + u) ^ (n + 2)) = (1 - u) ^ 4 * v ^ 2 * (1 / (1 + u) ^ (n + 2)) := by ring
      _ ≤ (1 - u) ^ 4 * v ^ 2 * ((∑ i, x i ^ 2) / nrm ^ 2) := mul_le_mul_of_nonneg_left this (by positivity)
      _ = _ := by ring
  · refine l2.trans ?_
    have : (∑ i, x i ^ 2) / nrm ^ 2 ≤ 1 / (1 - u) ^ (n + 2) := by
      rw [div_le_div_iff₀ hN (by positivity), one_mul, mul_comm]; exact n1
    calc (1 + u) ^ 4 * (v ^ 2 / nrm ^ 2 * ∑ i, x i ^ 2) = (1 + u) ^ 4 * v ^ 2 * ((∑ i, x i ^ 2) / nrm ^ 2) := by ring
      _ ≤ (1 + u) ^ 4 * v ^ 2 * (1 / (1 - u) ^ (n + 2)) := mul_le_mul_of_nonneg_left this (by positivity)
      _ = _ := by ring

/-- Multiplication with a number of the interval `[0, 1]`. -/
theorem rnd_mul_shrink (hS : BinRound rnd u) {f y : K} (h0 : 0 ≤ f) (h1 : f ≤ 1) (hy : rnd y = y) : 0 ≤ rnd (f * y) * y ∧ |rnd (f * y)| ≤ |y| := by
  constructor
  · obtain ⟨m, hm, e⟩ := rnd_fac hS.toStdRound (f * y)
    rw [e]
    have : m * (f * y) * y = m * f * (y * y) := by ring
    rw [this]
    exact mul_nonneg (mul_nonneg (hm.pos hS.toStdRound).le h0) (mul_self_nonneg _)
  · rw [hS.abs]
    have := hS.mono (|f * y|) (|y|) (by rw [abs_mul, abs_of_nonneg h0]; exact mul_le_of_le_one_left (abs_nonneg _) h1)
    rwa [← hS.abs y, hy] at this

/-- C135.  `projection_l2_ball`: a point whose computed norm is within the radius is returned unchanged; no coordinate grows or changes its sign; the squared norm of
the result exceeds the squared radius by at most `n + 6` roundings. -/
theorem C135_l2_ball (hS : BinRound rnd u) (h : IsNormR rnd x nrm) {maxValue : K} (hm : 0 ≤ maxValue) :
    (nrm ≤ maxValue → projectionL2BallR rnd nrm x maxValue = x) ∧
    (∀ i, rnd (x i) = x i → 0 ≤ projectionL2BallR rnd nrm x maxValue i * x i ∧ |projectionL2BallR rnd nrm x maxValue i| ≤ |x i|) ∧
    ∑ i, projectionL2BallR rnd nrm x maxValue i ^ 2 ≤ maxValue ^ 2 * ((1 + u) ^ 4 / (1 - u) ^ (n + 2)) := by
  have hs := hS.toStdRound
  have h1 : 0 < 1 - u := by linarith [hs.lt_one]
  have h2 : 0 < 1 + u := by linarith [hs.nonneg]
  by_cases hc : nrm ≤ maxValue
  · have e : projectionL2BallR rnd nrm x maxValue = x := funext fun i => if_pos hc
    rw [e]
    refine ⟨fun _ => rfl, fun i _ => ⟨mul_self_nonneg _, le_rfl⟩, ?_⟩
    have n1 := (C135_norm hs h).1
    have n2 : nrm ^ 2 ≤ maxValue ^ 2 := pow_le_pow_left₀ (nrm_nonneg hs h) hc 2
    have h3 : 1 ≤ (1 + u) ^ 4 := one_le_pow₀ (by linarith [hs.nonneg])
    rw [← mul_div_assoc, le_div_iff₀ (by positivity)]
    calc (∑ i, x i ^ 2) * (1 - u) ^ (n + 2) = (1 - u) ^ (n + 2) * ∑ i, x i ^ 2 := by ring
      _ ≤ maxValue ^ 2 := n1.trans n2
      _ ≤ maxValue ^ 2 * (1 + u) ^ 4 := le_mul_of_one_le_right (sq_nonneg _) h3
  · have hpos : 0 < nrm := lt_of_le_of_lt hm (not_le.mp hc)
    have e : projectionL2BallR rnd nrm x maxValue = fun i => rnd (rnd (maxValue / nrm) * x i) := funext fun i => if_neg hc
    rw [e]
    refine ⟨fun h => absurd h hc, fun i hx => ?_, (scaled_sum hs h hpos maxValue).2⟩
    refine rnd_mul_shrink hS (rnd_nonneg hs (by positivity)) ?_ hx
    have := hs.mono (maxValue / nrm) 1 (by rw [div_le_one hpos]; exact (not_le.mp hc).le)
    rwa [hS.one] at this

/-- C135.  `projection_l2_sphere`: if the computed norm is not zero, the squared norm of the result is the squared radius up to `n + 6` roundings. -/
theorem C135_l2_sphere (hS : StdRound rnd u) (h : IsNormR rnd x nrm) (h0 : nrm ≠ 0) (value : K) :
    value ^ 2 * ((1 - u) ^ 4 / (1 + u) ^ (n + 2)) ≤ ∑ i, projectionL2SphereR rnd nrm x value i ^ 2 ∧
      ∑ i, projectionL2SphereR rnd nrm x value i ^ 2 ≤ value ^ 2 * ((1 + u) ^ 4 / (1 - u) ^ (n + 2)) :=
  scaled_sum hS h (lt_of_le_of_ne (nrm_nonneg hS h) h0.symm) value

/-- The norm of a vector that is not zero is not computed as zero. -/
theorem C135_norm_zero (hS : StdRound rnd u) (h : IsNormR rnd x nrm) : nrm = 0 ↔ ∀ i, x i = 0 := by
  have h1 : 0 < 1 - u := by linarith [hS.lt_one]
  obtain ⟨n1, n2⟩ := C135_norm hS h
  constructor
  · intro e i
    rw [e, zero_pow two_ne_zero] at n1
    have hp : 0 < (1 - u) ^ (n + 2) := by positivity
    have hsum0 : ∑ i, x i ^ 2 ≤ 0 := nonpos_of_mul_nonpos_right n1 hp
    have := Finset.single_le_sum (f := fun i => x i ^ 2) (fun j _ => sq_nonneg (x j)) (Finset.mem_univ i)
    exact pow_eq_zero_iff two_ne_zero |>.mp (le_antisymm (this.trans hsum0) (sq_nonneg _))
  · intro e
    have hz : ∑ i, x i ^ 2 = 0 := Finset.sum_eq_zero fun i _ => by rw [e i, zero_pow two_ne_zero]
    rw [hz, mul_zero] at n2
    exact pow_eq_zero_iff two_ne_zero |>.mp (le_antisymm n2 (sq_nonneg _))

/-- C135.  `prox_group_lasso`: no coordinate grows or changes its sign; a group whose computed norm does not exceed the rounded weight is exactly zero; a group that is set to zero
has a norm that exceeds the rounded weight by at most one rounding; the result is the shrunk point up to `3 u + u^2` times the coordinate. -/
theorem C135_group_lasso (hS : BinRound rnd u) (h : IsNormR rnd x nrm) {l2reg scaling : K} (hw : 0 ≤ l2reg * scaling) :
    (∀ i, rnd (x i) = x i → 0 ≤ proxGroupLassoR rnd nrm x l2reg scaling i * x i ∧ |proxGroupLassoR rnd nrm x l2reg scaling i| ≤ |x i|) ∧
    (nrm ≤ rnd (l2reg * scaling) → ∀ i, proxGroupLassoR rnd nrm x l2reg scaling i = 0) ∧
    (∀ i, x i ≠ 0 → proxGroupLassoR rnd nrm x l2reg scaling i = 0 → nrm ≤ (1 + u) * rnd (l2reg * scaling)) ∧
    (rnd (l2reg * scaling) ≤ nrm → nrm ≠ 0 → ∀ i,
      |proxGroupLassoR rnd nrm x l2reg scaling i - (1 - rnd (l2reg * scaling) / nrm) * x i| ≤ (3 * u + u ^ 2) * |x i|) := by
  have hs := hS.toStdRound
  have hu := hs.nonneg
  have hN := nrm_nonneg hs h
  have hv := rnd_nonneg hs hw
  set v := rnd (l2reg * scaling) with hvdef
  -- the factor
  obtain ⟨f, hf, e⟩ : ∃ f, f = (if nrm = 0 then 0 else if rnd (1 - rnd (v / nrm)) ≥ 0 then rnd (1 - rnd (v / nrm)) else 0) ∧
      ∀ i, proxGroupLassoR rnd nrm x l2reg scaling i = rnd (f * x i) := ⟨_, rfl, fun i => rfl⟩
  have hq0 : 0 ≤ v / nrm := by positivity
  have hq := rnd_nonneg hs hq0
  have hf01 : 0 ≤ f ∧ f ≤ 1 := by
    rw [hf]
    by_cases h0 : nrm = 0
    · rw [if_pos h0]; exact ⟨le_rfl, zero_le_one⟩
    · rw [if_neg h0]
      by_cases h1 : rnd (1 - rnd (v / nrm)) ≥ 0
      · rw [if_pos h1]
        refine ⟨h1, ?_⟩
        have := hs.mono (1 - rnd (v / nrm)) 1 (by linarith)
        rwa [hS.one] at this
      · rw [if_neg h1]; exact ⟨le_rfl, zero_le_one⟩
  have hfz : f = 0 ↔ nrm = 0 ∨ 1 ≤ rnd (v / nrm) := by
    rw [hf]
    by_cases h0 : nrm = 0
    · simp [h0]
    · rw [if_neg h0]
      by_cases h1 : rnd (1 - rnd (v / nrm)) ≥ 0
      · rw [if_pos h1, rnd_eq_zero hs]
        constructor
        · intro h; right; linarith
        · rintro (h | h)
          · exact absurd h h0
          · have := rnd_nonpos hs (show 1 - rnd (v / nrm) ≤ 0 by linarith)
            exact (rnd_eq_zero hs).mp (le_antisymm this h1)
      · rw [if_neg h1]
        refine ⟨fun _ => Or.inr ?_, fun _ => rfl⟩
        by_contra hc
        exact h1 (rnd_nonneg hs (by linarith [not_le.mp hc]))
  refine ⟨fun i hx => ?_, fun hc i => ?_, fun i hx hz => ?_, fun hc h0 i => ?_⟩
  · rw [e]; exact rnd_mul_shrink hS hf01.1 hf01.2 hx
  · rw [e, hfz.mpr, zero_mul, hs.zero]
    by_cases h0 : nrm = 0
    · exact Or.inl h0
    · right
      have hp : 0 < nrm := lt_of_le_of_ne hN (Ne.symm h0)
      have := hs.mono 1 (v / nrm) (by rw [one_le_div hp]; exact hc)
      rwa [hS.one] at this
  · rw [e, rnd_eq_zero hs, mul_eq_zero, or_iff_left hx, hfz] at hz
    rcases hz with h0 | h1
    · rw [h0]; positivity
    · obtain ⟨m, hm, em⟩ := rnd_fac hs (v / nrm)
      have hm2 := hm.2
      rw [pow_one, pow_zero, div_one] at hm2
      have hp : 0 < nrm := lt_of_le_of_ne hN fun h0 => by
        rw [← h0, div_zero, hs.zero] at h1; linarith
      have h2 : 1 ≤ (1 + u) * (v / nrm) := h1.trans (by rw [em]; exact mul_le_mul_of_nonneg_right hm2 hq0)
      rw [← mul_div_assoc, le_div_iff₀ hp, one_mul] at h2
      exact h2
  · have hp : 0 < nrm := lt_of_le_of_ne hN (Ne.symm h0)
    have hq1 : v / nrm ≤ 1 := by rw [div_le_one hp]; exact hc
    have hqr : rnd (v / nrm) ≤ 1 := by
      have := hs.mono (v / nrm) 1 hq1
      rwa [hS.one] at this
    have hff : f = rnd (1 - rnd (v / nrm)) := by
      rw [hf, if_neg h0, if_pos (rnd_nonneg hs (by linarith))]
    have b1 := hs.err (v / nrm)
    have b2 := hs.err (1 - rnd (v / nrm))
    rw [abs_of_nonneg hq0] at b1
    rw [abs_of_nonneg (show 0 ≤ 1 - rnd (v / nrm) by linarith), ← hff] at b2
    have b3 : |f - (1 - v / nrm)| ≤ 2 * u := by
      have e2 : f - (1 - v / nrm) = (f - (1 - rnd (v / nrm))) - (rnd (v / nrm) - v / nrm) := by ring
      rw [e2]
      refine (abs_sub _ _).trans ?_
      have c1 : u * (1 - rnd (v / nrm)) ≤ u * 1 := mul_le_mul_of_nonneg_left (by linarith) hu
      have c2 : u * (v / nrm) ≤ u * 1 := mul_le_mul_of_nonneg_left hq1 hu
      linarith
    have b4 := hs.err (f * x i)
    rw [abs_mul, abs_of_nonneg hf01.1] at b4
    have e3 : proxGroupLassoR rnd nrm x l2reg scaling i - (1 - v / nrm) * x i = (rnd (f * x i) - f * x i) + (f - (1 - v / nrm)) * x i := by rw [e]; ring
    rw [e3]
    refine (abs_add_le _ _).trans ?_
    rw [abs_mul]
    have c3 : u * (f * |x i|) ≤ u * (1 * |x i|) := mul_le_mul_of_nonneg_left (mul_le_mul_of_nonneg_right hf01.2 (abs_nonneg _)) hu
    have c4 : |f - (1 - v / nrm)| * |x i| ≤ 2 * u * |x i| := mul_le_mul_of_nonneg_right b3 (abs_nonneg _)
    nlinarith [mul_nonneg (sq_nonneg u) (abs_nonneg (x i))]

/-! ## The limit of the claim and non-vacuity -/

/-- C135, the limit of the claim.  In double precision the projection of `(3, 4)` on the unit ball lies outside the ball. -/
theorem C135_l2_ball_false :
    IsNormR (roundBin 52) ![(3 : ℚ), 4] 5 ∧ (∀ i, roundBin 52 (![(3 : ℚ), 4] i) = ![(3 : ℚ), 4] i) ∧
      1 < ∑ i, projectionL2BallR (roundBin 52) 5 ![(3 : ℚ), 4] 1 i ^ 2 := by
  refine ⟨⟨25, 5, ?_, by norm_num, by norm_num, by decide +kernel⟩, by decide +kernel, by decide +kernel⟩
  have e : List.ofFn (fun i => roundBin 52 (![(3 : ℚ), 4] i ^ 2)) = [9] ++ [16] := by decide +kernel
  have e2 : roundBin 52 (9 + 16) = 25 := by decide +kernel
  rw [e, ← e2]
  exact Sums.add (Sums.one 9) (Sums.one 16)

/-- The hypotheses hold in double precision. -/
example : BinRound (roundBin 52) (1 / 2 ^ 53) := binary_bin 52

example : proxLassoR (roundBin 52) ![(3 : ℚ), -1 / 2, -2] ![1, 1, 0] 1 = ![2, 0, -2] := by decide +kernel

example : proxGroupLassoR (roundBin 52) 5 ![(3 : ℚ), 4] (5 / 2) 1 = ![3 / 2, 2] ∧ proxGroupLassoR (roundBin 52) 5 ![(3 : ℚ), 4] 6 1 = ![0, 0] := by
  decide +kernel

/-- The lasso operator rounds: `1 - 1/3` is not a double-precision number. -/
example : proxLassoR (roundBin 52) ![(1 : ℚ)] ![roundBin 52 (1 / 3)] 1 0 ≠ proxLasso ![(1 : ℚ)] ![1 / 3] 1 0 := by decide +kernel

end Jaxopt.Prox
