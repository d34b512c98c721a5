import Verif.ProxGrad.Model
import Verif.Num.Vdot
import Mathlib.Analysis.Convex.Function
import Mathlib.Algebra.Order.Module.Field
import Mathlib.Tactic.LinearCombination
import Mathlib.Tactic.Abel
import Mathlib.Tactic.FieldSimp

/-!
# Specification of proximity operators and the basic inequalities of the proximal gradient method
-/

set_option autoImplicit false
set_option linter.unusedSectionVars false
set_option linter.unusedVariables false

namespace Jaxopt.ProxGrad

open Jaxopt.Base Jaxopt.Loop

variable {K E : Type*} [Field K] [LinearOrder K] [IsStrictOrderedRing K] [AddCommGroup E] [Module K E]

/-- `prox` is the proximity operator of `h` on the domain `C` (`h = +∞` outside `C`): `prox z s` minimises
`s·h(u) + ½‖u - z‖²` over `u ∈ C`, for every scaling `s > 0` (prox.py, docstrings). -/
def IsProx (vdot : E → E → K) (C : Set E) (h : E → K) (prox : E → K → E) : Prop :=
  ∀ z s, 0 < s → prox z s ∈ C ∧ ∀ u ∈ C, s * h (prox z s) + 1 / 2 * vdot (prox z s - z) (prox z s - z) ≤
    s * h u + 1 / 2 * vdot (u - z) (u - z)

/-- The quadratic upper bound that `L`-smooth functions satisfy (`LSmooth.descent`). -/
def QuadUpper (vdot : E → E → K) (f : E → K) (grad : E → E) (L : K) : Prop :=
  ∀ x y, f y ≤ f x + vdot (y - x) (grad x) + L / 2 * vdot (y - x) (y - x)

/-- The gradient inequality that differentiable convex functions satisfy (`convex_grad_le`). -/
def GradIneq (vdot : E → E → K) (f : E → K) (grad : E → E) : Prop :=
  ∀ x y, f x + vdot (y - x) (grad x) ≤ f y

variable {vdot : E → E → K}

/-- A quadratic in `l` that is non-negative on `(0, 1]` has a non-negative linear coefficient. -/
theorem linear_coeff_nonneg {a b : K} (hb : 0 ≤ b) (h : ∀ l, 0 < l → l ≤ 1 → 0 ≤ l * a + l * l * b) : 0 ≤ a := by
  by_contra ha
  have ha' : a < 0 := not_le.mp ha
  have hden : 0 < 2 * b - a := by linarith
  have h1 := h (-a / (2 * b - a)) (div_pos (by linarith) hden) (by rw [div_le_one hden]; linarith)
  have h2 : -a / (2 * b - a) * a + -a / (2 * b - a) * (-a / (2 * b - a)) * b =
      (a * a * (a - b)) / ((2 * b - a) * (2 * b - a)) := by
    field_simp; ring
  rw [h2] at h1
  have h3 : a * a * (a - b) < 0 := mul_neg_of_pos_of_neg (mul_pos_of_neg_of_neg ha' ha') (by linarith)
  have := div_neg_of_neg_of_pos h3 (mul_pos hden hden)
  linarith

/-- The variational inequality of a proximal point. -/
theorem prox_vi (hv : IsVdot vdot) {C : Set E} {h : E → K} {prox : E → K → E} (hp : IsProx vdot C h prox)
    (hh : ConvexOn K C h) (z : E) {s : K} (hs : 0 < s) {u : E} (hu : u ∈ C) :
    0 ≤ s * (h u - h (prox z s)) + vdot (prox z s - z) (u - prox z s) := by
  obtain ⟨hP, hmin⟩ := hp z s hs
  set P := prox z s
  refine linear_coeff_nonneg (b := 1 / 2 * vdot (u - P) (u - P)) (by have := hv.nonneg (u - P); linarith) ?_
  intro l hl hl1
  have hw : P + l • (u - P) ∈ C := by
    have := hh.1 hP hu (sub_nonneg.mpr hl1) hl.le (by ring)
    have e : (1 - l) • P + l • u = P + l • (u - P) := by rw [sub_smul, one_smul, smul_sub]; abel
    rwa [e] at this
  have hhw : h (P + l • (u - P)) ≤ (1 - l) * h P + l * h u := by
    have := hh.2 hP hu (sub_nonneg.mpr hl1) hl.le (by ring)
    have e : (1 - l) • P + l • u = P + l • (u - P) := by rw [sub_smul, one_smul, smul_sub]; abel
    rwa [e] at this
  have hm := hmin _ hw
  have e : P + l • (u - P) - z = (P - z) + l • (u - P) := by abel
  rw [e] at hm
  simp only [hv.add_left, hv.add_right, hv.smul_left, hv.smul_right] at hm
  rw [hv.symm (u - P) (P - z)] at hm
  have := mul_le_mul_of_nonneg_left hhw hs.le
  nlinarith

/-- One prox-gradient step does not increase the model `h + ⟨g, ·⟩ + ‖·‖²/(2s)`; no convexity needed. -/
theorem prox_step (hv : IsVdot vdot) {C : Set E} {h : E → K} {prox : E → K → E} (hp : IsProx vdot C h prox)
    {x : E} (hx : x ∈ C) (g : E) {s : K} (hs : 0 < s) :
    let P := prox (x + (-s) • g) s
    s * h P + s * vdot (P - x) g + 1 / 2 * vdot (P - x) (P - x) ≤ s * h x := by
  intro P
  have hm := (hp (x + (-s) • g) s hs).2 x hx
  have e1 : P - (x + (-s) • g) = (P - x) + s • g := by rw [neg_smul]; abel
  have e2 : x - (x + (-s) • g) = s • g := by rw [neg_smul]; abel
  change s * h P + 1 / 2 * vdot (P - (x + (-s) • g)) (P - (x + (-s) • g)) ≤ _ at hm
  rw [e1, e2] at hm
  simp only [hv.add_left, hv.add_right, hv.smul_left, hv.smul_right] at hm
  rw [hv.symm g (P - x)] at hm
  linarith

/-- The key inequality of the accelerated method: one step from `y`, compared with any point `u` of the domain. -/
theorem key_ineq (hv : IsVdot vdot) {C : Set E} {f h : E → K} {grad : E → E} {prox : E → K → E} (hp : IsProx vdot C h prox)
    (hh : ConvexOn K C h) {L : K} (hq : QuadUpper vdot f grad L) (hc : GradIneq vdot f grad) (y : E) {s : K} (hs : 0 < s)
    (hsL : s * L ≤ 1) {u : E} (hu : u ∈ C) :
    let P := prox (y + (-s) • grad y) s
    s * (f P + h P) ≤ s * (f u + h u) + 1 / 2 * vdot (P - y) (P - y) - vdot (P - y) (P - u) := by
  intro P
  have h1 := mul_le_mul_of_nonneg_left (hq y P) hs.le
  have h2 := mul_le_mul_of_nonneg_left (hc y u) hs.le
  have h3 := prox_vi hv hp hh (y + (-s) • grad y) hs hu
  change 0 ≤ s * (h u - h P) + vdot (P - (y + (-s) • grad y)) (u - P) at h3
  have e1 : P - (y + (-s) • grad y) = (P - y) + s • grad y := by rw [neg_smul]; abel
  have e2 : u - P = -(P - u) := by abel
  have e3 : u - y = (P - y) - (P - u) := by abel
  rw [e1, e2] at h3
  rw [e3] at h2
  simp only [hv.add_left, hv.smul_left, hv.neg_right, hv.sub_left] at h2 h3 h1 ⊢
  simp only [hv.sub_right, hv.symm (grad y)] at h1 h2 h3 ⊢
  have n := hv.nonneg (P - y)
  simp only [hv.sub_left, hv.sub_right] at n
  nlinarith [mul_nonneg (sub_nonneg.mpr hsL) n]

/-- Fixed points of the prox-gradient map are the points satisfying the first-order optimality condition, whatever the
stepsize. -/
theorem fixed_iff (hv : IsVdot vdot) {C : Set E} {h : E → K} {prox : E → K → E} (hp : IsProx vdot C h prox)
    (hh : ConvexOn K C h) (x g : E) {s : K} (hs : 0 < s) :
    prox (x + (-s) • g) s = x ↔ x ∈ C ∧ ∀ u ∈ C, h x ≤ h u + vdot (u - x) g := by
  constructor
  · intro hfix
    refine ⟨hfix ▸ (hp (x + (-s) • g) s hs).1, fun u hu => ?_⟩
    have := prox_vi hv hp hh (x + (-s) • g) hs hu
    rw [hfix] at this
    have e : x - (x + (-s) • g) = s • g := by rw [neg_smul]; abel
    rw [e, hv.smul_left, hv.symm, ← mul_add] at this
    have := nonneg_of_mul_nonneg_right this hs
    linarith
  · rintro ⟨hx, hopt⟩
    have h1 := prox_vi hv hp hh (x + (-s) • g) hs hx
    have hP := (hp (x + (-s) • g) s hs).1
    set P := prox (x + (-s) • g) s
    have h2 := mul_le_mul_of_nonneg_left (hopt P hP) hs.le
    have e1 : P - (x + (-s) • g) = (P - x) + s • g := by rw [neg_smul]; abel
    have e2 : x - P = -(P - x) := by abel
    rw [e1, e2] at h1
    simp only [hv.add_left, hv.smul_left, hv.neg_right] at h1
    rw [hv.symm g] at h1
    have h3 : vdot (P - x) (P - x) ≤ 0 := by nlinarith
    have h4 := hv.eq_zero (le_antisymm h3 (hv.nonneg _))
    exact sub_eq_zero.mp h4

end Jaxopt.ProxGrad
