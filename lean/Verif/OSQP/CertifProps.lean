import Verif.OSQP.BoxProps

/-!
# C39: what an accepted dual certificate is worth

`_check_dual_infeasability` (osqp.py lines 544-556) compares `‖Q dx‖∞`, `c·dx` and `A dx` with the same threshold `+criterion`,
`criterion = dual_infeasible_tol * ‖dx‖∞`.  The OSQP paper asks for `c·dx < 0`.  Here: what the test does say about the problem, and a
run that reports dual infeasibility of a problem with a solution, along a direction of ascent.
-/

set_option autoImplicit false
set_option linter.unusedSectionVars false
set_option linter.unusedVariables false

open Finset Matrix

namespace Jaxopt.OSQP.BoxOSQP

variable {K : Type*} [Field K] [LinearOrder K] [IsStrictOrderedRing K] {n m : ℕ}

/-- The sum of the absolute values. -/
def oneNorm {k : ℕ} (v : Fin k → K) : K := ∑ i, |v i|

/-- Hölder's inequality for the sup norm and the sum norm. -/
theorem dot_le_norms {k : ℕ} (u v : Fin k → K) : u ⬝ᵥ v ≤ infNorm v * oneNorm u := by
  unfold dotProduct oneNorm
  rw [Finset.mul_sum]
  refine Finset.sum_le_sum fun i _ => ?_
  calc u i * v i ≤ |u i * v i| := le_abs_self _
    _ = |v i| * |u i| := by rw [abs_mul, mul_comm]
    _ ≤ infNorm v * |u i| := mul_le_mul_of_nonneg_right (abs_le_infNorm v i) (abs_nonneg _)

/-- The test as a proposition. -/
theorem certifDual_iff (S : BoxOSQP K n m) (dx : Fin n → K) :
    S.certifDual dx = true ↔ infNorm (S.Q.mulVec dx) ≤ S.dualInfeasibleTol * infNorm dx ∧
      S.c ⬝ᵥ dx ≤ S.dualInfeasibleTol * infNorm dx ∧
      ∀ i, (S.l i ≠ none → -(S.dualInfeasibleTol * infNorm dx) ≤ S.A.mulVec dx i) ∧
        (S.u i ≠ none → S.A.mulVec dx i ≤ S.dualInfeasibleTol * infNorm dx) := by
  unfold certifDual
  simp only [Bool.and_eq_true, decide_eq_true_eq, List.all_eq_true, List.mem_finRange, true_implies, Bool.or_eq_true,
    Option.isNone_iff_eq_none, and_assoc, ne_eq]
  constructor
  · rintro ⟨h1, h2, h3⟩
    refine ⟨h1, h2, fun i => ⟨fun h => ?_, fun h => ?_⟩⟩
    · exact (h3 i).1.resolve_left h
    · exact (h3 i).2.resolve_left h
  · rintro ⟨h1, h2, h3⟩
    refine ⟨h1, h2, fun i => ⟨?_, ?_⟩⟩
    · by_cases h : S.l i = none
      · exact .inl h
      · exact .inr ((h3 i).1 h)
    · by_cases h : S.u i = none
      · exact .inl h
      · exact .inr ((h3 i).2 h)

/-- **What an accepted certificate says**: with `δ = dual_infeasible_tol * ‖dx‖∞`, a ray from any feasible point in the direction `dx`
violates the bounds by at most `t δ`, and the objective grows by at most `t δ (1 + ‖x‖₁) + t²/2 δ ‖dx‖₁`. -/
theorem C39_dual_quant (S : BoxOSQP K n m) (hQ : S.Q.transpose = S.Q) {dx : Fin n → K} (h : S.certifDual dx = true) {δ : K}
    (hδ : δ = S.dualInfeasibleTol * infNorm dx) {x : Fin n → K} (hx : S.Feasible x) {t : K} (ht : 0 ≤ t) :
    (∀ i, (∀ a, S.l i = some a → a - t * δ ≤ S.A.mulVec (x + t • dx) i) ∧
      (∀ b, S.u i = some b → S.A.mulVec (x + t • dx) i ≤ b + t * δ)) ∧
    S.obj (x + t • dx) ≤ S.obj x + t * (δ + δ * oneNorm x) + t ^ 2 / 2 * (δ * oneNorm dx) := by
  obtain ⟨h1, h2, h3⟩ := (S.certifDual_iff dx).mp h
  rw [← hδ] at h1 h2 h3
  constructor
  · intro i
    have e : S.A.mulVec (x + t • dx) i = S.A.mulVec x i + t * S.A.mulVec dx i := by
      rw [Matrix.mulVec_add, Matrix.mulVec_smul]; simp
    rw [e]
    constructor
    · intro a ha
      have p1 := (hx i).1 a ha
      have p2 := (h3 i).1 (by rw [ha]; simp)
      nlinarith
    · intro b hb
      have p1 := (hx i).2 b hb
      have p2 := (h3 i).2 (by rw [hb]; simp)
      nlinarith
  · rw [S.obj_expand hQ]
    have e1 : (t • dx) ⬝ᵥ (S.Q.mulVec x + S.c) = t * (x ⬝ᵥ S.Q.mulVec dx) + t * (S.c ⬝ᵥ dx) := by
      rw [smul_dotProduct, dotProduct_add, dotProduct_comm dx S.c, Matrix.dotProduct_mulVec dx, ← Matrix.mulVec_transpose, hQ,
        dotProduct_comm _ x]
      simp [mul_add]
    have e2 : (t • dx) ⬝ᵥ S.Q.mulVec (t • dx) = t ^ 2 * (dx ⬝ᵥ S.Q.mulVec dx) := by
      rw [Matrix.mulVec_smul, smul_dotProduct, dotProduct_smul]
      simp; ring
    have n1 : 0 ≤ oneNorm x := Finset.sum_nonneg fun i _ => abs_nonneg _
    have n2 : 0 ≤ oneNorm dx := Finset.sum_nonneg fun i _ => abs_nonneg _
    have b1 : x ⬝ᵥ S.Q.mulVec dx ≤ δ * oneNorm x := (dot_le_norms _ _).trans (mul_le_mul_of_nonneg_right h1 n1)
    have b2 : dx ⬝ᵥ S.Q.mulVec dx ≤ δ * oneNorm dx := (dot_le_norms _ _).trans (mul_le_mul_of_nonneg_right h1 n2)
    rw [e1, e2]
    have c1 := mul_le_mul_of_nonneg_left b1 ht
    have c2 := mul_le_mul_of_nonneg_left h2 ht
    have c3 := mul_le_mul_of_nonneg_left b2 (sq_nonneg t)
    linarith

/-- **With the tolerance `0`** an accepted certificate is a ray inside the feasible set along which the objective does not increase. -/
theorem C39_dual_exact (S : BoxOSQP K n m) (hQ : S.Q.transpose = S.Q) (h0 : S.dualInfeasibleTol = 0) {dx : Fin n → K}
    (h : S.certifDual dx = true) {x : Fin n → K} (hx : S.Feasible x) {t : K} (ht : 0 ≤ t) :
    S.Feasible (x + t • dx) ∧ S.obj (x + t • dx) ≤ S.obj x := by
  obtain ⟨h1, h2⟩ := S.C39_dual_quant hQ h (δ := 0) (by rw [h0]; simp) hx ht
  refine ⟨fun i => ⟨fun a ha => ?_, fun b hb => ?_⟩, ?_⟩
  · have := (h1 i).1 a ha; simpa using this
  · have := (h1 i).2 b hb; simpa using this
  · simpa using h2

/-- **C39 is false for dual infeasibility too**: `min x/2000` subject to `1 ≤ x` has the solution `1`, every step from the default start
towards it is a direction of *ascent*, and the run with `jit=False` raises "Dual infeasible." -/
theorem C39_dual_ascent_false :
    let S := exBoxOSQP (n := 1) (m := 1) !![0] ![1 / 2000] !![1] ![some 1] ![none] false
    (match S.run none with | .error e => e | .ok _ => "") = "Dual infeasible." ∧
    (S.Feasible ![1] ∧ ∀ x, S.Feasible x → S.obj ![1] ≤ S.obj x) ∧
    S.certifDual ![1] = true ∧ 0 < S.c ⬝ᵥ ![1] := by
  intro S
  refine ⟨by decide +kernel, ⟨?_, ?_⟩, by decide +kernel, by decide +kernel⟩
  · intro i
    fin_cases i
    refine ⟨fun a ha => ?_, fun a ha => ?_⟩
    · have : (1 : ℚ) = a := by simpa [S, exBoxOSQP] using ha
      rw [← this]; simp [S, exBoxOSQP, Matrix.mulVec, dotProduct]
    · simp [S, exBoxOSQP] at ha
  · intro x hx
    have h := (hx 0).1 1 (by simp [S, exBoxOSQP])
    have h' : 1 ≤ x 0 := by simpa [S, exBoxOSQP, Matrix.mulVec, dotProduct] using h
    simp only [obj, S, exBoxOSQP, Matrix.mulVec, dotProduct, Fin.sum_univ_one]
    simp
    linarith

/-- Non-vacuity of `C39_dual_quant`: a problem that really is unbounded, `min -x` subject to `0 ≤ x`. -/
example : let S := exBoxOSQP (n := 1) (m := 1) !![0] ![-1] !![1] ![some 0] ![none] false
    S.certifDual ![1] = true ∧ S.certifDual ![-1] = false := by decide +kernel

end Jaxopt.OSQP.BoxOSQP
