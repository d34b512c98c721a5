import Verif.ProxGrad.LineSearchDivProps
import Mathlib.Topology.Order.IntermediateValue
import Mathlib.Topology.Instances.Real.Lemmas
import Mathlib.Topology.Order.Compact

/-!
# Property C100: gradient descent with all default options on convex functions with a Lipschitz gradient

`ProximalGradient` (hence `GradientDescent` and `ProjectedGradient`) doubles the step after every iteration (proximal_gradient.py lines
229-232) and halves it at most `maxls = 15` times in the next one.  Where the objective is affine every step is accepted, so that the step
grows without bound; near the minimiser 15 halvings are then not enough, and the far too long step is used as if the line search had
succeeded.  On the function that is `L/2 x²` for `x ≥ -1/L` and affine with slope `-1` on the left, the default (accelerated) method
diverges from some starting point for every `L ≥ 1`, and the method without acceleration runs on a cycle.
-/

set_option autoImplicit false
set_option linter.unusedSectionVars false
set_option linter.unusedVariables false

namespace Jaxopt.ProxGrad

open Jaxopt.Base Jaxopt.Loop Set
open Jaxopt.QuasiNewton (Stepsize)

namespace PG

/-- The derivative of `ramp`. -/
noncomputable def rampGrad (L x : ℝ) : ℝ := if x ≤ -1 / L then -1 else L * x

/-- `L/2 x²` for `x ≥ -1/L`, continued by its tangent on the left. -/
noncomputable def rampFun (L x : ℝ) : ℝ := if x ≤ -1 / L then -x - 1 / (2 * L) else L / 2 * (x * x)

/-- `GradientDescent` with all default attributes except `maxiter` and `tol`, which are arbitrary. -/
noncomputable def ramp (L eps tol : ℝ) (maxiter : ℕ) : PG ℝ ℝ where
  f := rampFun L
  grad := rampGrad L
  prox x _ := x
  vdot x y := x * y
  norm x := |x|
  sqrt := Real.sqrt
  eps := eps
  stepsize := .const 0
  maxiter := maxiter
  maxls := 15
  tol := tol
  acceleration := true
  decreaseFactor := 1 / 2
  unroll := true
  jit := true

theorem ramp_vdot (L eps tol : ℝ) (maxiter : ℕ) : IsVdot (ramp L eps tol maxiter).vdot :=
  ⟨fun x y z => by simp only [ramp]; ring, fun a x z => by simp only [ramp, smul_eq_mul]; ring,
    fun x y => by simp only [ramp]; ring, fun x hx => by simp only [ramp]; exact mul_self_pos.mpr hx⟩

theorem ramp_convex {L eps tol : ℝ} {maxiter : ℕ} (hL : 0 < L) :
    GradIneq (ramp L eps tol maxiter).vdot (ramp L eps tol maxiter).f (ramp L eps tol maxiter).grad := by
  intro x y
  simp only [ramp, rampFun, rampGrad]
  have e : -1 / L * L = -1 := by field_simp
  set w := -1 / L
  have hw : 1 / (2 * L) = -w / 2 := by simp only [w]; field_simp
  have ew : w * L * w = -w := by rw [e]; ring
  have ex : w * L * x = -x := by rw [e]; ring
  have ey : w * L * y = -y := by rw [e]; ring
  rw [hw]
  split_ifs with h1 h2 h2
  · linarith
  · nlinarith [mul_nonneg hL.le (mul_self_nonneg (y - w))]
  · have h3 := not_le.mp h1
    nlinarith [mul_nonneg hL.le (mul_self_nonneg (x - w)), mul_nonneg (mul_nonneg hL.le (sub_nonneg.mpr h3.le)) (sub_nonneg.mpr h2)]
  · nlinarith [mul_nonneg hL.le (mul_self_nonneg (x - y))]

theorem ramp_smooth {L eps tol : ℝ} {maxiter : ℕ} (hL : 0 < L) :
    QuadUpper (ramp L eps tol maxiter).vdot (ramp L eps tol maxiter).f (ramp L eps tol maxiter).grad L := by
  intro x y
  simp only [ramp, rampFun, rampGrad]
  have e : -1 / L * L = -1 := by field_simp
  set w := -1 / L
  have hw : 1 / (2 * L) = -w / 2 := by simp only [w]; field_simp
  have ew : w * L * w = -w := by rw [e]; ring
  have ex : w * L * x = -x := by rw [e]; ring
  have ey : w * L * y = -y := by rw [e]; ring
  rw [hw]
  split_ifs with h1 h2 h2
  · nlinarith [mul_nonneg hL.le (mul_self_nonneg (x - y))]
  · nlinarith [mul_nonneg hL.le (mul_self_nonneg (y - w))]
  · have h3 := not_le.mp h1
    nlinarith [mul_nonneg hL.le (mul_self_nonneg (x - w)), mul_nonneg (mul_nonneg hL.le (sub_nonneg.mpr h3.le)) (sub_nonneg.mpr h2)]
  · nlinarith [mul_nonneg hL.le (mul_self_nonneg (x - y))]

/-! ## The momentum coefficients -/

/-- The sequence `t`, line 270. -/
noncomputable def tt : ℕ → ℝ
  | 0 => 1
  | k + 1 => 1 / 2 * (1 + Real.sqrt (1 + 4 * (tt k * tt k)))

/-- The momentum coefficient of iteration `k`, line 272. -/
noncomputable def mom (k : ℕ) : ℝ := (tt k - 1) / tt (k + 1)

theorem tt_bounds (k : ℕ) : 1 ≤ tt k ∧ tt k + 1 / 2 ≤ tt (k + 1) ∧ tt (k + 1) ≤ tt k + 1 := by
  have step : ∀ t : ℝ, 1 ≤ t → t + 1 / 2 ≤ 1 / 2 * (1 + Real.sqrt (1 + 4 * (t * t))) ∧
      1 / 2 * (1 + Real.sqrt (1 + 4 * (t * t))) ≤ t + 1 := by
    intro t ht
    have h1 : 2 * t ≤ Real.sqrt (1 + 4 * (t * t)) := Real.le_sqrt_of_sq_le (by nlinarith)
    have h2 : Real.sqrt (1 + 4 * (t * t)) ≤ 2 * t + 1 := Real.sqrt_le_iff.mpr ⟨by linarith, by nlinarith⟩
    constructor <;> linarith
  induction k with
  | zero => exact ⟨le_rfl, step 1 le_rfl⟩
  | succ k ih =>
    have h1 : 1 ≤ tt (k + 1) := by linarith [ih.1, ih.2.1]
    exact ⟨h1, step _ h1⟩

theorem mom_nonneg (k : ℕ) : 0 ≤ mom k :=
  div_nonneg (by linarith [(tt_bounds k).1]) (by linarith [(tt_bounds (k + 1)).1])

theorem mom_le_one (k : ℕ) : mom k ≤ 1 := by
  unfold mom
  rw [div_le_one (by linarith [(tt_bounds (k + 1)).1])]
  linarith [(tt_bounds k).2.1]

theorem tt_lower (k : ℕ) : (k : ℝ) / 2 + 1 ≤ tt k := by
  induction k with
  | zero => simp [tt]
  | succ k ih => push_cast; linarith [(tt_bounds k).2.1]

theorem mom_half {k : ℕ} (hk : 4 ≤ k) : 1 / 2 ≤ mom k := by
  unfold mom
  have h1 := tt_lower k
  have h2 : (4 : ℝ) ≤ k := by exact_mod_cast hk
  rw [le_div_iff₀ (by linarith [(tt_bounds (k + 1)).1])]
  linarith [(tt_bounds k).2.2]

/-! ## The motion on the affine part

`x`, the differences `v` of consecutive `x` and `y` after `i` accepted steps `2κ, 4κ, 8κ, …`, when the momentum coefficients are `b 0, b 1, …`,
`x` starts at `-X` and `v` at `-V`. -/

/-- Products of the coefficients. -/
def damp (b : ℕ → ℝ) : ℕ → ℝ
  | 0 => 1
  | i + 1 => b i * damp b i

/-- Sums of these products. -/
def drift (b : ℕ → ℝ) : ℕ → ℝ
  | 0 => 0
  | i + 1 => drift b i + damp b (i + 1)

/-- The velocity from rest with `κ = 1`. -/
def pushV (b : ℕ → ℝ) : ℕ → ℝ
  | 0 => 0
  | i + 1 => b i * pushV b i + 2 ^ (i + 1)

/-- The position from rest with `κ = 1`. -/
def pushX (b : ℕ → ℝ) : ℕ → ℝ
  | 0 => 0
  | i + 1 => pushX b i + pushV b (i + 1)

/-- The position. -/
def posX (b : ℕ → ℝ) (kap X V : ℝ) (i : ℕ) : ℝ := kap * pushX b i - X - drift b i * V

/-- The velocity. -/
def velV (b : ℕ → ℝ) (kap V : ℝ) (i : ℕ) : ℝ := kap * pushV b i - damp b i * V

/-- The extrapolated point. -/
def posY (b : ℕ → ℝ) (kap X V : ℝ) (i : ℕ) : ℝ := posX b kap X V i + b i * velV b kap V i

theorem velV_succ (b : ℕ → ℝ) (kap V : ℝ) (i : ℕ) : velV b kap V (i + 1) = b i * velV b kap V i + 2 ^ (i + 1) * kap := by
  simp only [velV, pushV, damp]; ring

theorem posX_succ (b : ℕ → ℝ) (kap X V : ℝ) (i : ℕ) : posX b kap X V (i + 1) = posY b kap X V i + 2 ^ (i + 1) * kap := by
  simp only [posY, posX, velV, pushX, pushV, drift, damp]; ring

theorem posX_succ' (b : ℕ → ℝ) (kap X V : ℝ) (i : ℕ) : posX b kap X V (i + 1) = posX b kap X V i + velV b kap V (i + 1) := by
  rw [posX_succ, velV_succ, posY]; ring

theorem posY_eq (b : ℕ → ℝ) (kap X V : ℝ) (i : ℕ) :
    posY b kap X V i = kap * (pushX b i + b i * pushV b i) - X - drift b (i + 1) * V := by
  simp only [posY, posX, velV, drift, damp]; ring

section motion

variable {b : ℕ → ℝ} (hb0 : ∀ i, 0 ≤ b i) (hb1 : ∀ i, b i ≤ 1)
include hb0 hb1

theorem damp_mem (i : ℕ) : 0 ≤ damp b i ∧ damp b i ≤ 1 := by
  induction i with
  | zero => simp [damp]
  | succ i ih =>
    exact ⟨mul_nonneg (hb0 i) ih.1, mul_le_one₀ (hb1 i) ih.1 ih.2⟩

theorem drift_mem (i : ℕ) : 0 ≤ drift b i ∧ drift b i ≤ i := by
  induction i with
  | zero => simp [drift]
  | succ i ih =>
    have := damp_mem hb0 hb1 (i + 1)
    simp only [drift]; push_cast
    constructor <;> linarith [ih.1, ih.2, this.1, this.2]

theorem pushV_mem (i : ℕ) : 0 ≤ pushV b i ∧ pushV b i ≤ 2 ^ (i + 1) - 2 ∧ (2 : ℝ) ^ i - 1 ≤ pushV b i := by
  induction i with
  | zero => simp [pushV]
  | succ i ih =>
    have h1 := mul_nonneg (hb0 i) ih.1
    have h2 : b i * pushV b i ≤ pushV b i := mul_le_of_le_one_left ih.1 (hb1 i)
    have h3 : (0 : ℝ) < 2 ^ (i + 1) := by positivity
    have e : (2 : ℝ) ^ (i + 1 + 1) = 2 * 2 ^ (i + 1) := by ring
    simp only [pushV]
    rw [e]
    refine ⟨by linarith, by linarith [ih.2.1], by linarith⟩

theorem pushV_lower (i : ℕ) : (2 : ℝ) ^ (i + 1) ≤ pushV b (i + 1) := by
  have h1 := mul_nonneg (hb0 i) (pushV_mem hb0 hb1 i).1
  simp only [pushV]; linarith

theorem pushX_mem (i : ℕ) : (2 : ℝ) ^ (i + 1) - 2 ≤ pushX b i ∧ pushX b i ≤ 2 ^ (i + 2) - 4 := by
  induction i with
  | zero => simp only [pushX]; norm_num
  | succ i ih =>
    have h1 := pushV_lower hb0 hb1 i
    have h2 := (pushV_mem hb0 hb1 (i + 1)).2.1
    have e : (2 : ℝ) ^ (i + 1 + 1) = 2 * 2 ^ (i + 1) := by ring
    have e2 : (2 : ℝ) ^ (i + 1 + 2) = 4 * 2 ^ (i + 1) := by ring
    have e3 : (2 : ℝ) ^ (i + 2) = 2 * 2 ^ (i + 1) := by ring
    simp only [pushX]
    rw [e] at h2 ⊢
    rw [e2]
    rw [e3] at ih
    constructor <;> linarith [ih.1, ih.2]

/-- The position from rest of the extrapolated point. -/
theorem pushY_mem (i : ℕ) : (2 : ℝ) ^ (i + 1) - 2 ≤ pushX b i + b i * pushV b i ∧ pushX b i + b i * pushV b i ≤ 2 ^ (i + 3) := by
  have h1 := pushX_mem hb0 hb1 i
  have h2 := pushV_mem hb0 hb1 i
  have h3 := mul_nonneg (hb0 i) h2.1
  have h4 : b i * pushV b i ≤ pushV b i := mul_le_of_le_one_left h2.1 (hb1 i)
  have e : (2 : ℝ) ^ (i + 3) = 4 * 2 ^ (i + 1) := by ring
  have e2 : (2 : ℝ) ^ (i + 2) = 2 * 2 ^ (i + 1) := by ring
  have h5 : (0 : ℝ) < 2 ^ (i + 1) := by positivity
  rw [e]
  rw [e2] at h1
  constructor <;> linarith [h1.1, h1.2, h2.2.1]

/-- While the velocity is negative, the position is on the left of its start. -/
theorem posX_of_neg {kap X V : ℝ} (hk : 0 < kap) (i : ℕ) (h : velV b kap V i < 0) : posX b kap X V i ≤ -X := by
  induction i with
  | zero => simp [posX, pushX, drift]
  | succ i ih =>
    rw [posX_succ']
    have hv := velV_succ b kap V i
    have h2 : (0 : ℝ) < 2 ^ (i + 1) * kap := by positivity
    have h3 : velV b kap V i < 0 := by
      by_contra hc
      have := mul_nonneg (hb0 i) (not_lt.mp hc)
      linarith
    linarith [ih h3]

/-- When the extrapolated point becomes positive, the velocity is at least a quarter of the last step. -/
theorem velV_lower {kap X V : ℝ} (hk : 0 < kap) (hV : 0 ≤ V) (hX : V ≤ X) {j : ℕ} (h : 0 ≤ posY b kap X V (j + 1)) :
    2 ^ (j + 1) * kap ≤ 4 * velV b kap V (j + 1) := by
  have hv := velV_succ b kap V j
  have h2 : (0 : ℝ) < 2 ^ (j + 1) * kap := by positivity
  by_cases hc : 0 ≤ velV b kap V j
  · have := mul_nonneg (hb0 j) hc
    linarith
  · have hc := not_le.mp hc
    have h3 := posX_of_neg hb0 hb1 (X := X) hk j hc
    have h4 : -V ≤ velV b kap V j := by
      have e1 := mul_nonneg hk.le (pushV_mem hb0 hb1 j).1
      have e2 := mul_le_mul_of_nonneg_right (damp_mem hb0 hb1 j).2 hV
      unfold velV; linarith
    rw [posY, posX_succ'] at h
    set v := velV b kap V (j + 1)
    have h5 : 0 ≤ v := by
      by_contra h6
      have := mul_nonneg (hb0 (j + 1)) (neg_nonneg.mpr (not_le.mp h6).le)
      linarith
    have h6 : b (j + 1) * v ≤ v := mul_le_of_le_one_left h5 (hb1 _)
    have h7 : b j * -velV b kap V j ≤ -velV b kap V j := mul_le_of_le_one_left (by linarith) (hb1 j)
    linarith

theorem velV_upper {kap V : ℝ} (hk : 0 ≤ kap) (hV : 0 ≤ V) (j : ℕ) : velV b kap V j ≤ 2 ^ (j + 1) * kap := by
  have h1 := mul_le_mul_of_nonneg_left (pushV_mem hb0 hb1 j).2.1 hk
  have h2 := mul_nonneg (damp_mem hb0 hb1 j).1 hV
  unfold velV; linarith

/-- All positions before the last one are on the left of the start or of the last one. -/
theorem posX_le {kap X V : ℝ} (hk : 0 < kap) {j : ℕ} : ∀ i ≤ j, posX b kap X V i ≤ max (-X) (posX b kap X V j) := by
  intro i hi
  by_cases hc : velV b kap V i < 0
  · exact le_max_of_le_left (posX_of_neg hb0 hb1 hk i hc)
  · refine le_max_of_le_right ?_
    have key : ∀ d, 0 ≤ velV b kap V (i + d) ∧ posX b kap X V i ≤ posX b kap X V (i + d) := by
      intro d
      induction d with
      | zero => exact ⟨not_lt.mp hc, le_rfl⟩
      | succ d ih =>
        have hv := velV_succ b kap V (i + d)
        have h2 : (0 : ℝ) < 2 ^ (i + d + 1) * kap := by positivity
        have h3 := mul_nonneg (hb0 (i + d)) ih.1
        have h4 : 0 ≤ velV b kap V (i + d + 1) := by linarith
        refine ⟨h4, ?_⟩
        have := posX_succ' b kap X V (i + d)
        change _ ≤ posX b kap X V (i + d + 1)
        linarith [ih.2]
    have := (key (j - i)).2
    rwa [Nat.add_sub_cancel' hi] at this

/-- The number of steps after which the extrapolated point first exceeds a sixteenth of the last step. -/
theorem exists_first {kap X V : ℝ} (hk : 0 < kap) (hX : 0 ≤ X) (hV : 0 ≤ V) :
    ∃ j, 2 ^ j * kap ≤ 16 * posY b kap X V j ∧ ∀ i < j, 16 * posY b kap X V i < 2 ^ i * kap := by
  have hex : ∃ j, 2 ^ j * kap ≤ 16 * posY b kap X V j := by
    obtain ⟨M, hM⟩ := exists_nat_ge ((X + V) / kap)
    rw [div_le_iff₀ hk] at hM
    set m := 2 * M + 1 with hm
    refine ⟨2 * m, ?_⟩
    have h1 : ((2 * m + 1 : ℕ) : ℝ) * M ≤ 2 ^ (2 * m) := by
      have : (2 * m + 1) * M ≤ 2 ^ (2 * m) := by
        have e1 : m + 1 ≤ 2 ^ m := Nat.lt_two_pow_self
        have e2 : (m + 1) * (m + 1) ≤ 2 ^ m * 2 ^ m := Nat.mul_le_mul e1 e1
        rw [← pow_add, ← two_mul] at e2
        refine le_trans ?_ e2
        nlinarith
      exact_mod_cast this
    have h2 := (pushY_mem hb0 hb1 (2 * m)).1
    have h3 := (drift_mem hb0 hb1 (2 * m + 1)).2
    have h4 := mul_le_mul_of_nonneg_right h3 hV
    have h5 : (4 : ℝ) ≤ 2 ^ (2 * m) := by
      have : (2 : ℝ) ^ 2 ≤ 2 ^ (2 * m) := pow_le_pow_right₀ (by norm_num) (by omega)
      linarith
    have h6 := mul_le_mul_of_nonneg_left h2 hk.le
    have h7 := mul_le_mul_of_nonneg_right h1 hk.le
    have h8 : X + ((2 * m + 1 : ℕ) : ℝ) * V ≤ ((2 * m + 1 : ℕ) : ℝ) * (M * kap) := by
      have e0 : (1 : ℝ) ≤ ((2 * m + 1 : ℕ) : ℝ) := by exact_mod_cast Nat.le_add_left 1 _
      have e1 : X ≤ ((2 * m + 1 : ℕ) : ℝ) * X := le_mul_of_one_le_left hX e0
      have e2 := mul_le_mul_of_nonneg_left hM (by linarith : (0 : ℝ) ≤ ((2 * m + 1 : ℕ) : ℝ))
      linarith
    have e : (2 : ℝ) ^ (2 * m + 1) = 2 * 2 ^ (2 * m) := by ring
    rw [e] at h6
    rw [posY_eq]
    have h9 := mul_le_mul_of_nonneg_left h5 hk.le
    nlinarith
  classical
  refine ⟨Nat.find hex, Nat.find_spec hex, fun i hi => ?_⟩
  exact not_le.mp (Nat.find_min hex hi)

/-- From seven times the start, the extrapolated point is then still negative. -/
theorem far_neg {kap X V X' V' : ℝ} (hk : 0 < kap) (hX : 0 ≤ X) (hV : 0 ≤ V) (hX' : 7 * X ≤ X') (hV' : 7 * V ≤ V') {j : ℕ} (hj : 2 ≤ j)
    (h : 16 * posY b kap X V j < 2 ^ j * kap) : posY b kap X' V' (j + 1) ≤ 0 := by
  rw [posY_eq] at h ⊢
  have h1 := (pushY_mem hb0 hb1 j).1
  have h2 := pushV_mem hb0 hb1 (j + 1)
  have h3 : b (j + 1) * pushV b (j + 1) ≤ pushV b (j + 1) := mul_le_of_le_one_left h2.1 (hb1 _)
  have h4 : pushX b (j + 1) = pushX b j + b j * pushV b j + 2 ^ (j + 1) := by simp only [pushX, pushV]; ring
  have h5 : drift b (j + 1) ≤ drift b (j + 1 + 1) := by
    have := (damp_mem hb0 hb1 (j + 1 + 1)).1
    change _ ≤ drift b (j + 1) + damp b (j + 1 + 1)
    linarith
  have h6 := mul_le_mul_of_nonneg_left hV' (drift_mem hb0 hb1 (j + 1 + 1)).1
  have h7 := mul_le_mul_of_nonneg_right h5 hV
  have h8 : (4 : ℝ) ≤ 2 ^ j := by
    have : (2 : ℝ) ^ 2 ≤ 2 ^ j := pow_le_pow_right₀ (by norm_num) hj
    linarith
  have e : (2 : ℝ) ^ (j + 1) = 2 * 2 ^ j := by ring
  have e2 : (2 : ℝ) ^ (j + 1 + 1) = 4 * 2 ^ j := by ring
  rw [e] at h1 h4
  rw [e2] at h2
  set T := pushX b j + b j * pushV b j
  have h9 : pushX b (j + 1) + b (j + 1) * pushV b (j + 1) ≤ T + 6 * 2 ^ j - 2 := by linarith [h2.2.1]
  have h10 := mul_le_mul_of_nonneg_left h9 hk.le
  have h11 := mul_le_mul_of_nonneg_left h1 hk.le
  have h12 := mul_le_mul_of_nonneg_left h8 hk.le
  nlinarith

end motion

end PG

end Jaxopt.ProxGrad
