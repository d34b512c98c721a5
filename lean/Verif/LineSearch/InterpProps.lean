import Verif.LineSearch.Interp
import Mathlib.Tactic.FieldSimp
import Mathlib.Tactic.Ring
import Mathlib.Tactic.Linarith
import Mathlib.Tactic.LinearCombination
import Mathlib.Tactic.Positivity
import Mathlib.Topology.Order.LocalExtr
import Mathlib.Analysis.Normed.Field.Basic

/-!
# Property C60: the interpolation steps of the zoom line search are critical points of the interpolating polynomials
-/

set_option autoImplicit false
set_option linter.unusedSectionVars false
set_option linter.unusedVariables false

namespace Jaxopt.LineSearch

/-- The polynomial `A (x-a)^3 + B (x-a)^2 + C (x-a) + D` of the docstrings. -/
def poly (a A B C D x : ℝ) : ℝ := A * (x - a) ^ 3 + B * (x - a) ^ 2 + C * (x - a) + D

/-- Its derivative. -/
def dpoly (a A B C x : ℝ) : ℝ := 3 * A * (x - a) ^ 2 + 2 * B * (x - a) + C

/-- Its second derivative. -/
def ddpoly (a A B x : ℝ) : ℝ := 6 * A * (x - a) + 2 * B

/-- The cubic goes through the three points and has the given slope at `a`. -/
def CubicInterp (a fa fpa b fb c fc A B C D : ℝ) : Prop :=
  poly a A B C D a = fa ∧ dpoly a A B C a = fpa ∧ poly a A B C D b = fb ∧ poly a A B C D c = fc

/-- The quadratic goes through the two points and has the given slope at `a`. -/
def QuadInterp (a fa fpa b fb B C D : ℝ) : Prop :=
  poly a 0 B C D a = fa ∧ dpoly a 0 B C a = fpa ∧ poly a 0 B C D b = fb

theorem cubicDenom_ne {a b c : ℝ} : ((b - a) * (c - a)) ^ 2 * ((b - a) - (c - a)) ≠ 0 ↔ a ≠ b ∧ a ≠ c ∧ b ≠ c := by
  have e : (b - a) - (c - a) = b - c := by ring
  rw [e, mul_ne_zero_iff, pow_ne_zero_iff (by norm_num), mul_ne_zero_iff, sub_ne_zero, sub_ne_zero, sub_ne_zero, ne_comm, ne_comm (a := c)]
  tauto

/-- For distinct points the interpolating cubic exists, is unique, and has the coefficients computed by the code. -/
theorem cubicInterp_iff {a fa fpa b fb c fc : ℝ} (h : a ≠ b ∧ a ≠ c ∧ b ≠ c) (A B C D : ℝ) :
    CubicInterp a fa fpa b fb c fc A B C D ↔
      A = (cubicCoefs a fa fpa b fb c fc).1 ∧ B = (cubicCoefs a fa fpa b fb c fc).2 ∧ C = fpa ∧ D = fa := by
  have hd := cubicDenom_ne.mpr h
  have hb : b - a ≠ 0 := sub_ne_zero.mpr h.1.symm
  have hc : c - a ≠ 0 := sub_ne_zero.mpr h.2.1.symm
  have hbc : (b - a) - (c - a) ≠ 0 := by
    have : (b - a) - (c - a) = b - c := by ring
    rw [this]; exact sub_ne_zero.mpr h.2.2
  simp only [CubicInterp, cubicCoefs, poly, dpoly, sub_self]
  generalize b - a = u at *
  generalize c - a = v at *
  constructor
  · rintro ⟨h1, h2, h3, h4⟩
    have hD : D = fa := by linarith
    have hC : C = fpa := by linarith
    refine ⟨?_, ?_, hC, hD⟩
    · rw [eq_div_iff hd, ← h3, ← h4, hD, hC]; ring
    · rw [eq_div_iff hd, ← h3, ← h4, hD, hC]; ring
  · rintro ⟨rfl, rfl, rfl, rfl⟩
    refine ⟨by ring, by ring, ?_, ?_⟩
    · have hu : u ≠ 0 := hb
      have hv : v ≠ 0 := hc
      field_simp
      ring
    · have hu : u ≠ 0 := hb
      have hv : v ≠ 0 := hc
      field_simp
      ring

/-- **C60**: a number returned by the cubic interpolation is a critical point of the interpolating cubic with non-negative second
derivative; if that is positive it is a strict local minimiser, and it minimises the cubic on its side of the other critical point. -/
theorem C60_cubic_critical {a fa fpa b fb c fc x A B C D : ℝ} (h : cubicmin a fa fpa b fb c fc = some x)
    (hp : CubicInterp a fa fpa b fb c fc A B C D) :
    dpoly a A B C x = 0 ∧ 0 ≤ ddpoly a A B x ∧
      (∀ y, 0 ≤ 2 * A * (y - x) + ddpoly a A B x → poly a A B C D x ≤ poly a A B C D y) ∧
      (0 < ddpoly a A B x → IsLocalMin (poly a A B C D) x) := by
  unfold cubicmin at h
  simp only at h
  by_cases hd : ((b - a) * (c - a)) ^ 2 * ((b - a) - (c - a)) = 0
  · rw [if_pos hd] at h; cases h
  rw [if_neg hd] at h
  obtain ⟨rfl, rfl, rfl, rfl⟩ := (cubicInterp_iff (cubicDenom_ne.mp hd) A B C D).mp hp
  generalize (cubicCoefs a D C b fb c fc).1 = A at *
  generalize (cubicCoefs a D C b fb c fc).2 = B at *
  by_cases hr : B * B - 3 * A * C < 0
  · rw [if_pos hr] at h; cases h
  rw [if_neg hr] at h
  by_cases hA : 3 * A = 0
  · rw [if_pos hA] at h; cases h
  rw [if_neg hA] at h
  rw [not_lt] at hr
  have hx : 3 * A * (x - a) = -B + √(B * B - 3 * A * C) := by
    have := (Option.some.inj h)
    rw [← this, add_sub_cancel_left, mul_div_cancel₀ _ hA]
  set s := √(B * B - 3 * A * C) with hs
  have hs2 : s * s = B * B - 3 * A * C := Real.mul_self_sqrt hr
  have hs0 : 0 ≤ s := Real.sqrt_nonneg _
  have hA' : A ≠ 0 := fun h0 => hA (by rw [h0]; ring)
  have h1 : dpoly a A B C x = 0 := by
    have e : 3 * A * dpoly a A B C x = (3 * A * (x - a)) ^ 2 + 2 * B * (3 * A * (x - a)) + 3 * A * C := by unfold dpoly; ring
    have : 3 * A * dpoly a A B C x = 0 := by rw [e, hx]; linear_combination hs2
    exact (mul_eq_zero.mp this).resolve_left hA
  have h2 : ddpoly a A B x = 2 * s := by unfold ddpoly; linear_combination 2 * hx
  have hdiff : ∀ y, poly a A B C D y - poly a A B C D x = (y - x) ^ 2 * (A * (y - x) + s) := by
    intro y
    have e : poly a A B C D y - poly a A B C D x
        = (y - x) * dpoly a A B C x + (y - x) ^ 2 * (A * (y - x) + ddpoly a A B x / 2) := by
      unfold poly dpoly ddpoly; ring
    rw [e, h1, h2]; ring
  refine ⟨h1, by rw [h2]; linarith, fun y hy => ?_, fun hpos => ?_⟩
  · rw [h2] at hy
    have := mul_nonneg (sq_nonneg (y - x)) (by linarith : 0 ≤ A * (y - x) + s)
    have := hdiff y
    linarith
  · have hspos : 0 < s := by rw [h2] at hpos; linarith
    have hcont : Filter.Tendsto (fun y => A * (y - x) + s) (nhds x) (nhds (A * (x - x) + s)) := by
      have : Continuous fun y : ℝ => A * (y - x) + s := by fun_prop
      exact this.tendsto x
    have hev : ∀ᶠ y in nhds x, 0 < A * (y - x) + s :=
      hcont.eventually (lt_mem_nhds (by rw [sub_self, mul_zero, zero_add]; exact hspos))
    refine hev.mono fun y hy => ?_
    have := mul_nonneg (sq_nonneg (y - x)) hy.le
    have := hdiff y
    linarith

/-- **C60**: the cubic interpolation has no (finite) result exactly when two of the points coincide, or the interpolating cubic is at most
quadratic, or it has no critical point. -/
theorem C60_cubic_none {a fa fpa b fb c fc : ℝ} :
    cubicmin a fa fpa b fb c fc = none ↔
      (a = b ∨ a = c ∨ b = c) ∨
        ∃ A B C D, CubicInterp a fa fpa b fb c fc A B C D ∧ (A = 0 ∨ ∀ y, dpoly a A B C y ≠ 0) := by
  by_cases hd : ((b - a) * (c - a)) ^ 2 * ((b - a) - (c - a)) = 0
  · have h1 : cubicmin a fa fpa b fb c fc = none := by unfold cubicmin; simp only; rw [if_pos hd]
    have h2 : a = b ∨ a = c ∨ b = c := by
      by_contra hcon
      simp only [not_or] at hcon
      exact cubicDenom_ne.mpr hcon hd
    simp [h1, h2]
  have hne := cubicDenom_ne.mp hd
  have hno : ¬ (a = b ∨ a = c ∨ b = c) := by tauto
  rw [or_iff_right hno]
  have key : (∃ A B C D, CubicInterp a fa fpa b fb c fc A B C D ∧ (A = 0 ∨ ∀ y, dpoly a A B C y ≠ 0)) ↔
      ((cubicCoefs a fa fpa b fb c fc).1 = 0 ∨
        ∀ y, dpoly a (cubicCoefs a fa fpa b fb c fc).1 (cubicCoefs a fa fpa b fb c fc).2 fpa y ≠ 0) := by
    constructor
    · rintro ⟨A, B, C, D, h, h'⟩
      obtain ⟨rfl, rfl, rfl, rfl⟩ := (cubicInterp_iff hne A B C D).mp h
      exact h'
    · intro h
      exact ⟨_, _, _, _, (cubicInterp_iff hne _ _ fpa fa).mpr ⟨rfl, rfl, rfl, rfl⟩, h⟩
  rw [key]
  unfold cubicmin
  simp only
  rw [if_neg hd]
  generalize (cubicCoefs a fa fpa b fb c fc).1 = A
  generalize (cubicCoefs a fa fpa b fb c fc).2 = B
  by_cases hr : B * B - 3 * A * fpa < 0
  · rw [if_pos hr]
    refine iff_of_true rfl (Or.inr fun y hy => ?_)
    have : (3 * A * (y - a) + B) ^ 2 = B * B - 3 * A * fpa := by
      unfold dpoly at hy; linear_combination 3 * A * hy
    nlinarith [sq_nonneg (3 * A * (y - a) + B)]
  rw [if_neg hr]
  by_cases hA : 3 * A = 0
  · rw [if_pos hA]
    exact iff_of_true rfl (Or.inl (by linarith))
  rw [if_neg hA]
  have hA' : A ≠ 0 := fun h0 => hA (by rw [h0]; ring)
  refine iff_of_false (by simp) ?_
  rintro (h | h)
  · exact hA' h
  · apply h (a + (-B + √(B * B - 3 * A * fpa)) / (3 * A))
    have hs2 : √(B * B - 3 * A * fpa) * √(B * B - 3 * A * fpa) = B * B - 3 * A * fpa := Real.mul_self_sqrt (not_lt.mp hr)
    generalize √(B * B - 3 * A * fpa) = s at *
    unfold dpoly
    field_simp
    linear_combination hs2

/-- **C60**: the quadratic interpolation returns `x` exactly when the two points differ and `x` is the only critical point of the
interpolating quadratic. -/
theorem C60_quad {a fa fpa b fb x : ℝ} :
    quadmin a fa fpa b fb = some x ↔
      a ≠ b ∧ ∃ B C D, QuadInterp a fa fpa b fb B C D ∧ B ≠ 0 ∧ ∀ y, dpoly a 0 B C y = 0 ↔ y = x := by
  unfold quadmin
  simp only
  by_cases hd : (b - a) ^ 2 = 0
  · rw [if_pos hd]
    have hab : a = b := by
      have := pow_eq_zero_iff (two_ne_zero) |>.mp hd
      linarith
    exact iff_of_false (by simp) fun h => h.1 hab
  rw [if_neg hd]
  have hb : b - a ≠ 0 := fun h0 => hd (by rw [h0]; ring)
  have hab : a ≠ b := fun h0 => hb (by rw [h0]; ring)
  have hQ : ∀ B C D, QuadInterp a fa fpa b fb B C D ↔ B = (fb - fa - fpa * (b - a)) / (b - a) ^ 2 ∧ C = fpa ∧ D = fa := by
    intro B C D
    simp only [QuadInterp, poly, dpoly, sub_self]
    constructor
    · rintro ⟨h1, h2, h3⟩
      have hD : D = fa := by linarith
      have hC : C = fpa := by linarith
      refine ⟨?_, hC, hD⟩
      rw [eq_div_iff hd, ← h3, hD, hC]; ring
    · rintro ⟨rfl, rfl, rfl⟩
      refine ⟨by ring, by ring, ?_⟩
      field_simp
      ring
  generalize (fb - fa - fpa * (b - a)) / (b - a) ^ 2 = q at *
  by_cases hq : 2 * q = 0
  · rw [if_pos hq]
    refine iff_of_false (by simp) ?_
    rintro ⟨-, B, C, D, h, h', -⟩
    obtain ⟨rfl, -, -⟩ := (hQ B C D).mp h
    exact h' (by linarith)
  rw [if_neg hq]
  have hq' : q ≠ 0 := fun h0 => hq (by rw [h0]; ring)
  have hcrit : ∀ y, dpoly a 0 q fpa y = 0 ↔ y = a - fpa / (2 * q) := by
    intro y
    unfold dpoly
    have e : y = a - fpa / (2 * q) ↔ fpa = (a - y) * (2 * q) := by
      rw [← div_eq_iff hq]
      constructor <;> intro h <;> linarith
    rw [e]
    constructor <;> intro h <;> linarith
  constructor
  · intro h
    obtain rfl := Option.some.inj h
    exact ⟨hab, q, fpa, fa, (hQ _ _ _).mpr ⟨rfl, rfl, rfl⟩, hq', hcrit⟩
  · rintro ⟨-, B, C, D, h, -, hx⟩
    obtain ⟨rfl, rfl, rfl⟩ := (hQ B C D).mp h
    rw [((hcrit x).mp ((hx x).mpr rfl))]

/-- **C60**: when the function value at `b` is above the tangent line at `a` the quadratic is convex and the returned point is its global
minimiser, strictly between `a` and `b` if moreover the slope at `a` points towards `b` and `fb ≥ fa`. -/
theorem C60_quad_minimiser {a fa fpa b fb x B C D : ℝ} (h : quadmin a fa fpa b fb = some x)
    (hp : QuadInterp a fa fpa b fb B C D) (hB : fa + fpa * (b - a) < fb) :
    (∀ y, poly a 0 B C D x ≤ poly a 0 B C D y) ∧
      (fpa * (b - a) < 0 → fa ≤ fb → ∃ t, 0 < t ∧ t ≤ 1 / 2 ∧ x = a + t * (b - a)) := by
  obtain ⟨hab, B', C', D', hp', hB0, hx⟩ := C60_quad.mp h
  have hb : b - a ≠ 0 := sub_ne_zero.mpr hab.symm
  have hb2 : 0 < (b - a) ^ 2 := by positivity
  simp only [QuadInterp, poly, dpoly, sub_self] at hp hp'
  have hD : D = fa := by linarith [hp.1]
  have hC : C = fpa := by linarith [hp.2.1]
  have hD' : D' = fa := by linarith [hp'.1]
  have hC' : C' = fpa := by linarith [hp'.2.1]
  have hBeq : B' = B := by
    have : (B' - B) * (b - a) ^ 2 = 0 := by
      have h1 := hp.2.2; have h2 := hp'.2.2
      rw [hC, hD] at h1; rw [hC', hD'] at h2
      linarith
    rcases mul_eq_zero.mp this with h | h
    · linarith
    · exact absurd h hb2.ne'
  subst hBeq hD' hD hC
  have hval : B' * (b - a) ^ 2 = fb - D - C * (b - a) := by have := hp.2.2; linarith
  have hBpos : 0 < B' := by
    by_contra hcon
    have := mul_nonneg (sub_nonneg.mpr (not_lt.mp hcon)) hb2.le
    linarith
  have hcrit : dpoly a 0 B' C x = 0 := by rw [← hC']; exact (hx x).mpr rfl
  refine ⟨fun y => ?_, fun hslope hge => ?_⟩
  · have e : poly a 0 B' C D y - poly a 0 B' C D x = (y - x) * dpoly a 0 B' C x + B' * (y - x) ^ 2 := by
      unfold poly dpoly; ring
    rw [hcrit] at e
    have := mul_nonneg hBpos.le (sq_nonneg (y - x))
    linarith
  · refine ⟨(x - a) / (b - a), ?_, ?_, by field_simp; ring⟩
    · have e : 2 * B' * (x - a) * (b - a) = -(C * (b - a)) := by
        unfold dpoly at hcrit; linear_combination (b - a) * hcrit
      have h1 : 0 < (x - a) * (b - a) := by
        by_contra hcon
        have := mul_nonneg hBpos.le (sub_nonneg.mpr (not_lt.mp hcon))
        nlinarith
      have : (x - a) / (b - a) = (x - a) * (b - a) / (b - a) ^ 2 := by field_simp
      rw [this]; positivity
    · have e : 2 * B' * (x - a) * (b - a) = -(C * (b - a)) := by
        unfold dpoly at hcrit; linear_combination (b - a) * hcrit
      have : (x - a) / (b - a) = (x - a) * (b - a) / (b - a) ^ 2 := by field_simp
      rw [this, div_le_iff₀ hb2]
      have h1 : B' * ((x - a) * (b - a)) ≤ B' * (1 / 2 * (b - a) ^ 2) := by nlinarith
      exact le_of_mul_le_mul_left h1 hBpos

/-- The cubic `x^3 - 3 x` through `0`, `2`, `-2` with slope `-3` at `0`: the local minimiser `1` is found. -/
example : cubicmin 0 0 (-3) 2 2 (-2) (-2) = some 1 := by
  have h : √(9 : ℝ) = 3 := by rw [show (9 : ℝ) = 3 ^ 2 by norm_num]; exact Real.sqrt_sq (by norm_num)
  unfold cubicmin cubicCoefs
  norm_num
  rw [h]; norm_num

/-- The parabola `(x-1)^2` seen from `0` and `3`. -/
example : quadmin 0 1 (-2) 3 4 = some 1 := by unfold quadmin; norm_num

/-- A cubic without critical points: no candidate. -/
example : cubicmin 0 0 3 1 4 (-1) (-4) = none := by unfold cubicmin cubicCoefs; norm_num

end Jaxopt.LineSearch
