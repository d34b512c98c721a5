import Verif.Mirror.Model
import Mathlib.Analysis.SpecialFunctions.Log.NegMulLog
import Mathlib.Tactic.Linarith
import Mathlib.Tactic.FieldSimp
import Mathlib.Algebra.BigOperators.Field
import Mathlib.Data.Fin.VecNotation
import Mathlib.Tactic.FinCases

/-!
# Property C52: mirror descent in the Kullback-Leibler geometry
-/

set_option autoImplicit false
set_option linter.unusedSectionVars false
set_option linter.unusedVariables false

namespace Jaxopt.Mirror

open Jaxopt.Base

/-! ## Specification -/

/-- The generalised Kullback-Leibler divergence. -/
noncomputable def KL {ι : Type*} [Fintype ι] (z x : ι → ℝ) : ℝ := ∑ i, (z i * Real.log (z i / x i) - z i + x i)

/-- Strictly positive vectors of the requested mass. -/
def PosSimplex {n : ℕ} (value : ℝ) : Set (Fin n → ℝ) := {x | (∀ i, 0 < x i) ∧ ∑ i, x i = value}

variable {n : ℕ} {value : ℝ}

/-! ## Lemmas -/

theorem softmax_eq (u : Fin (n + 1) → ℝ) (i : Fin (n + 1)) : softmax u i = Real.exp (u i) / ∑ j, Real.exp (u j) := by
  unfold softmax
  have hm := Real.exp_pos (Finset.univ.sup' Finset.univ_nonempty u)
  simp only [Real.exp_sub]
  rw [← Finset.sum_div, div_div_div_cancel_right₀ hm.ne']

theorem sumexp_pos (u : Fin (n + 1) → ℝ) : 0 < ∑ j, Real.exp (u j) := Finset.sum_pos (fun j _ => Real.exp_pos _) Finset.univ_nonempty

theorem klProjection_mem (hv : 0 < value) (u : Fin (n + 1) → ℝ) : klProjectionSimplex value u ∈ PosSimplex value := by
  have h := sumexp_pos u
  refine ⟨fun i => ?_, ?_⟩
  · unfold klProjectionSimplex
    rw [softmax_eq]
    have := Real.exp_pos (u i)
    positivity
  · unfold klProjectionSimplex
    rw [← Finset.mul_sum]
    simp only [softmax_eq]
    rw [← Finset.sum_div, div_self h.ne', mul_one]

theorem log_klProjection (hv : 0 < value) (u : Fin (n + 1) → ℝ) (i : Fin (n + 1)) :
    Real.log (klProjectionSimplex value u i) = u i + (Real.log value - Real.log (∑ j, Real.exp (u j))) := by
  have h := sumexp_pos u
  unfold klProjectionSimplex
  rw [softmax_eq, Real.log_mul hv.ne' (div_pos (Real.exp_pos _) h).ne', Real.log_div (Real.exp_pos _).ne' h.ne', Real.log_exp]
  ring

theorem KL_nonneg {ι : Type*} [Fintype ι] {z x : ι → ℝ} (hz : ∀ i, 0 ≤ z i) (hx : ∀ i, 0 < x i) : 0 ≤ KL z x := by
  refine Finset.sum_nonneg fun i _ => ?_
  rcases (hz i).eq_or_lt with h | h
  · rw [← h]; simp; exact (hx i).le
  · have h1 : Real.log (x i / z i) ≤ x i / z i - 1 := Real.log_le_sub_one_of_pos (div_pos (hx i) h)
    have h2 : Real.log (z i / x i) = -Real.log (x i / z i) := by rw [← Real.log_inv, inv_div]
    have h3 : z i * (x i / z i) = x i := mul_div_cancel₀ _ h.ne'
    have h4 := mul_le_mul_of_nonneg_left h1 h.le
    rw [h2]
    nlinarith

theorem KL_self {ι : Type*} [Fintype ι] {x : ι → ℝ} (hx : ∀ i, 0 < x i) : KL x x = 0 := by
  unfold KL
  refine Finset.sum_eq_zero fun i _ => ?_
  rw [div_self (hx i).ne', Real.log_one]; ring

/-- The KL projection is the divergence-closest point of the simplex to `exp u`. -/
theorem C52_projection (hv : 0 < value) (u : Fin (n + 1) → ℝ) (z : Fin (n + 1) → ℝ) (hz : ∀ i, 0 ≤ z i) (hzs : ∑ i, z i = value) :
    KL z (fun i => Real.exp (u i)) = KL (klProjectionSimplex value u) (fun i => Real.exp (u i)) + KL z (klProjectionSimplex value u) := by
  obtain ⟨hp, hps⟩ := klProjection_mem hv u
  set p := klProjectionSimplex value u with hpdef
  set c := Real.log value - Real.log (∑ j, Real.exp (u j)) with hc
  have hlog : ∀ i, Real.log (p i) = u i + c := fun i => log_klProjection hv u i
  have key : ∀ i, (z i * Real.log (z i / Real.exp (u i)) - z i + Real.exp (u i)) =
      (p i * Real.log (p i / Real.exp (u i)) - p i + Real.exp (u i)) + (z i * Real.log (z i / p i) - z i + p i) + c * (z i - p i) := by
    intro i
    have e1 : Real.log (p i / Real.exp (u i)) = c := by
      rw [Real.log_div (hp i).ne' (Real.exp_pos _).ne', hlog i, Real.log_exp]; ring
    rw [e1]
    rcases (hz i).eq_or_lt with h | h
    · rw [← h]; ring
    · rw [Real.log_div h.ne' (Real.exp_pos _).ne', Real.log_div h.ne' (hp i).ne', hlog i, Real.log_exp]
      ring
  unfold KL
  rw [Finset.sum_congr rfl fun i _ => key i, Finset.sum_add_distrib, Finset.sum_add_distrib, ← Finset.mul_sum, Finset.sum_sub_distrib, hzs, hps,
    sub_self, mul_zero, add_zero]

/-! ## C52: feasibility along every history -/

/-- **C52**: after any number of updates (at least one), for every gradient function, stepsize schedule and start, the iterate is strictly
positive and sums to the requested value. -/
theorem C52_feasible (S : MD ℝ (Fin (n + 1) → ℝ)) (hS : S.projectionGrad = klStep value) (hv : 0 < value)
    (p : (Fin (n + 1) → ℝ) × MDState ℝ) (k : ℕ) (hk : 1 ≤ k) : (S.update^[k] p).1 ∈ PosSimplex value := by
  obtain ⟨m, rfl⟩ := Nat.exists_eq_add_of_le' hk
  rw [Function.iterate_succ_apply']
  unfold MD.update
  simp only [hS]
  exact klProjection_mem hv _

/-- **C52**: what `run` returns is strictly positive and sums to the requested value (`maxiter ≥ 1`). -/
theorem C52_run (S : MD ℝ (Fin (n + 1) → ℝ)) (hS : S.projectionGrad = klStep value) (hv : 0 < value) (hm : 1 ≤ S.maxiter)
    (x0 : Fin (n + 1) → ℝ) {r} (hr : S.run x0 = .ok r) : r.1 ∈ PosSimplex value := by
  obtain ⟨k, h1, -, rfl, -, -⟩ := runS_spec hm hr
  exact C52_feasible S hS hv _ k h1

/-! ## C52: three-point identity -/

/-- **C52**: the three-point property of the mirror step, with equality: for every point `z` of the simplex,
`stepsize * <g, x⁺ - z> = KL(z, x) - KL(z, x⁺) - KL(x⁺, x)`. -/
theorem C52_three_point (hv : 0 < value) (x g z : Fin (n + 1) → ℝ) (eta : ℝ) (hx : x ∈ PosSimplex value) (hz : ∀ i, 0 ≤ z i)
    (hzs : ∑ i, z i = value) : eta * ∑ i, g i * (klStep value x g eta i - z i) =
      KL z x - KL z (klStep value x g eta) - KL (klStep value x g eta) x := by
  obtain ⟨hp, hps⟩ : klStep value x g eta ∈ PosSimplex value := klProjection_mem hv _
  set p := klStep value x g eta with hpdef
  set u := logMap x + (-eta) • g with hu
  set c := Real.log value - Real.log (∑ j, Real.exp (u j)) with hc
  have hlog : ∀ i, Real.log (p i) = Real.log (x i) - eta * g i + c := fun i => by
    have h := log_klProjection hv u i
    rw [hpdef]
    show Real.log (klProjectionSimplex value u i) = _
    have hui : u i = Real.log (x i) + -eta * g i := rfl
    rw [h, ← hc, hui]; ring
  have key : ∀ i, (z i * Real.log (z i / x i) - z i + x i) - (z i * Real.log (z i / p i) - z i + p i) -
      (p i * Real.log (p i / x i) - p i + x i) = eta * (g i * (p i - z i)) + c * (z i - p i) := by
    intro i
    have hxi := hx.1 i
    rw [Real.log_div (hp i).ne' hxi.ne', hlog i]
    rcases (hz i).eq_or_lt with h | h
    · rw [← h]; ring
    · rw [Real.log_div h.ne' hxi.ne', Real.log_div h.ne' (hp i).ne', hlog i]
      ring
  unfold KL
  rw [← Finset.sum_sub_distrib, ← Finset.sum_sub_distrib, Finset.sum_congr rfl fun i _ => key i, Finset.sum_add_distrib, ← Finset.mul_sum,
    ← Finset.mul_sum, Finset.sum_sub_distrib (f := z), hzs, hps]
  ring

/-- **C52**: the three-point inequality of mirror descent. -/
theorem C52_three_point_le (hv : 0 < value) (x g z : Fin (n + 1) → ℝ) (eta : ℝ) (hx : x ∈ PosSimplex value) (hz : ∀ i, 0 ≤ z i)
    (hzs : ∑ i, z i = value) : eta * ∑ i, g i * (klStep value x g eta i - z i) ≤ KL z x - KL z (klStep value x g eta) := by
  have h1 := C52_three_point hv x g z eta hx hz hzs
  have h2 : 0 ≤ KL (klStep value x g eta) x := KL_nonneg (fun i => ((klProjection_mem hv _).1 i).le) hx.1
  linarith

/-- **C52**, every history: summed over any number of updates, the weighted gaps to any point of the simplex are at most its initial
divergence. -/
theorem C52_regret (S : MD ℝ (Fin (n + 1) → ℝ)) (hS : S.projectionGrad = klStep value) (hv : 0 < value)
    (p : (Fin (n + 1) → ℝ) × MDState ℝ) (hp : p.1 ∈ PosSimplex value) (z : Fin (n + 1) → ℝ) (hz : ∀ i, 0 ≤ z i) (hzs : ∑ i, z i = value) (T : ℕ) :
    ∑ t ∈ Finset.range T, S.stepsize (S.update^[t] p).2.iterNum *
      ∑ i, S.grad (S.update^[t] p).1 i * ((S.update^[t + 1] p).1 i - z i) ≤ KL z p.1 - KL z (S.update^[T] p).1 := by
  induction T with
  | zero => simp
  | succ T ih =>
    rw [Finset.sum_range_succ]
    have hq : (S.update^[T] p).1 ∈ PosSimplex value := by
      cases T with
      | zero => exact hp
      | succ T => exact C52_feasible S hS hv p (T + 1) (by omega)
    have h := C52_three_point_le hv (S.update^[T] p).1 (S.grad (S.update^[T] p).1) z (S.stepsize (S.update^[T] p).2.iterNum) hq hz hzs
    have e : (S.update^[T + 1] p).1 = klStep value (S.update^[T] p).1 (S.grad (S.update^[T] p).1) (S.stepsize (S.update^[T] p).2.iterNum) := by
      rw [Function.iterate_succ_apply']
      unfold MD.update
      simp only [hS]
    rw [e]
    linarith

/-! ## C52: fixed points -/

/-- **C52**: for every non-zero stepsize, a point of the simplex is a fixed point of the mirror step exactly when the gradient is constant on
all coordinates. -/
theorem C52_fixed_point (hv : 0 < value) (x g : Fin (n + 1) → ℝ) (eta : ℝ) (heta : eta ≠ 0) (hx : x ∈ PosSimplex value) :
    klStep value x g eta = x ↔ ∃ c, ∀ i, g i = c := by
  set u := logMap x + (-eta) • g with hu
  have hlog : ∀ i, Real.log (klStep value x g eta i) = Real.log (x i) - eta * g i + (Real.log value - Real.log (∑ j, Real.exp (u j))) := by
    intro i
    show Real.log (klProjectionSimplex value u i) = _
    have hui : u i = Real.log (x i) + -eta * g i := rfl
    rw [log_klProjection hv u i, hui]
    ring
  constructor
  · intro h
    refine ⟨(Real.log value - Real.log (∑ j, Real.exp (u j))) / eta, fun i => ?_⟩
    have := hlog i
    rw [h] at this
    rw [eq_div_iff heta]
    linarith
  · rintro ⟨c, hc⟩
    funext i
    have hux : ∀ j, Real.exp (u j) = x j * Real.exp (-(eta * c)) := by
      intro j
      rw [hu]
      simp only [Pi.add_apply, Pi.smul_apply, smul_eq_mul, logMap, hc j]
      rw [Real.exp_add, Real.exp_log (hx.1 j), neg_mul]
    show value * softmax u i = x i
    rw [softmax_eq]
    simp only [hux]
    rw [← Finset.sum_mul, hx.2]
    have := Real.exp_pos (-(eta * c))
    field_simp

/-- **C52**: the optimality function used for implicit differentiation vanishes exactly when the gradient is constant on all coordinates. -/
theorem C52_optimality (S : MD ℝ (Fin (n + 1) → ℝ)) (hS : S.projectionGrad = klStep value) (hv : 0 < value) (x : Fin (n + 1) → ℝ)
    (hx : x ∈ PosSimplex value) : S.optimalityFun x = 0 ↔ ∃ c, ∀ i, S.grad x i = c := by
  rw [← C52_fixed_point hv x (S.grad x) 1 one_ne_zero hx]
  unfold MD.optimalityFun MD.fixedPointFun
  rw [hS, sub_eq_zero]

/-- **C52**: for a convex objective (`f y ≥ f x + <grad, y - x>`) such a point minimises it over the simplex. -/
theorem C52_minimises (f : (Fin (n + 1) → ℝ) → ℝ) (x g : Fin (n + 1) → ℝ) (hxs : ∑ i, x i = value) (hg : ∃ c, ∀ i, g i = c)
    (hf : ∀ y, f x + ∑ i, g i * (y i - x i) ≤ f y) (y : Fin (n + 1) → ℝ) (hys : ∑ i, y i = value) : f x ≤ f y := by
  obtain ⟨c, hc⟩ := hg
  have h := hf y
  have e : ∑ i, g i * (y i - x i) = 0 := by
    simp only [hc]
    rw [← Finset.mul_sum, Finset.sum_sub_distrib, hxs, hys, sub_self, mul_zero]
  linarith

/-! ## C52: the solver state -/

section
variable {K E : Type*} [Field K] [LinearOrder K] [AddCommGroup E] [Module K E]

/-- **C52**: after `k` updates the counters are `k`, and the error is the length of the last step divided by the stepsize that produced it. -/
theorem C52_state (S : MD K E) (x0 : E) (k : ℕ) :
    let p := S.update^[k] (x0, S.initState x0)
    p.2.iterNum = k ∧ p.2.numGradEval = k ∧ p.2.numFunEval = k ∧ p.2.numProjEval = k ∧
    (S.update^[k + 1] (x0, S.initState x0)).2.error =
      .fin (S.norm ((S.update^[k + 1] (x0, S.initState x0)).1 - p.1) / S.stepsize k) := by
  have h : ∀ k, (S.update^[k] (x0, S.initState x0)).2.iterNum = k ∧ (S.update^[k] (x0, S.initState x0)).2.numGradEval = k ∧
      (S.update^[k] (x0, S.initState x0)).2.numFunEval = k ∧ (S.update^[k] (x0, S.initState x0)).2.numProjEval = k := by
    intro k
    induction k with
    | zero => exact ⟨rfl, rfl, rfl, rfl⟩
    | succ k ih =>
      obtain ⟨i1, i2, i3, i4⟩ := ih
      rw [Function.iterate_succ_apply']
      exact ⟨congrArg (· + 1) i1, congrArg (· + 1) i2, congrArg (· + 1) i3, congrArg (· + 1) i4⟩
  intro p
  obtain ⟨i1, i2, i3, i4⟩ := h k
  refine ⟨i1, i2, i3, i4, ?_⟩
  rw [Function.iterate_succ_apply']
  show Ext.fin (S.norm ((S.update p).1 - p.1) / S.stepsize p.2.iterNum) = Ext.fin (S.norm ((S.update p).1 - p.1) / S.stepsize k)
  rw [show p.2.iterNum = k from i1]

end

/-! ## Non-vacuity -/

/-- Two coordinates, gradient `(0, 1)` and stepsize `log 2`: the second weight is halved. -/
example : klStep 1 (![1 / 2, 1 / 2] : Fin 2 → ℝ) ![0, 1] (Real.log 2) 0 = 2 / 3 := by
  show 1 * softmax (n := 1) _ 0 = _
  have h2 : Real.log (1 / 2) = -Real.log 2 := by rw [one_div, Real.log_inv]
  have e : Real.exp (-Real.log 2) = 1 / 2 := by rw [Real.exp_neg, Real.exp_log (by norm_num : (0 : ℝ) < 2), one_div]
  rw [softmax_eq, Fin.sum_univ_succ, Fin.sum_univ_succ, Fin.sum_univ_zero]
  simp [logMap, h2, e, Real.exp_add, -one_div, -Real.exp_neg]
  norm_num

example : (![1 / 2, 1 / 2] : Fin 2 → ℝ) ∈ PosSimplex 1 := by
  refine ⟨fun i => ?_, ?_⟩
  · fin_cases i <;> norm_num
  · rw [Fin.sum_univ_two]; norm_num

end Jaxopt.Mirror
