import Verif.Proj.Simplex
import Verif.Proj.ModelE
import Mathlib.Tactic.NormNum
import Mathlib.Tactic.FinCases

/-!
# Properties C07-C11: projections on boxes, simplex, balls, hyperplanes
-/

set_option autoImplicit false
set_option linter.unusedSectionVars false
set_option linter.unusedVariables false

namespace Jaxopt.Proj

section coord
variable {K ι : Type*} [Field K] [LinearOrder K] [IsStrictOrderedRing K] [Fintype ι]

/-! ## C07 -/

/-- The box `lower ≤ y ≤ upper`. -/
def Box (lower upper : ι → K) : Set (ι → K) := {y | ∀ i, lower i ≤ y i ∧ y i ≤ upper i}

theorem clip_mem {x lo hi : K} (h : lo ≤ hi) : lo ≤ clip x lo hi ∧ clip x lo hi ≤ hi := by
  unfold clip
  exact ⟨le_min (le_max_right _ _) h, min_le_right _ _⟩

theorem clip_vi {x lo hi y : K} (h1 : lo ≤ y) (h2 : y ≤ hi) : (x - clip x lo hi) * (y - clip x lo hi) ≤ 0 := by
  unfold clip
  rcases le_total x lo with h | h
  · rw [max_eq_right h, min_eq_left (le_trans h1 h2)]
    exact mul_nonpos_of_nonpos_of_nonneg (by linarith) (by linarith)
  · rw [max_eq_left h]
    rcases le_total x hi with h' | h'
    · rw [min_eq_left h']; simp
    · rw [min_eq_right h']
      exact mul_nonpos_of_nonneg_of_nonpos (by linarith) (by linarith)

/-- **C07**: `projection_box`. -/
theorem C07_box (x lower upper : ι → K) (h : ∀ i, lower i ≤ upper i) :
    IsUniqueProj (Box lower upper) x (projectionBox x lower upper) :=
  isUniqueProj_of_vi (fun i => clip_mem (h i)) fun y hy =>
    Finset.sum_nonpos fun i _ => clip_vi (hy i).1 (hy i).2

/-- **C07**: `projection_hypercube`. -/
theorem C07_hypercube (x : ι → K) (unit : K) (h : 0 ≤ unit) :
    IsUniqueProj {y | ∀ i, 0 ≤ y i ∧ y i ≤ unit} x (projectionHypercube x unit) :=
  C07_box x _ _ fun _ => h

/-- **C07**: `projection_linf_ball`. -/
theorem C07_linf_ball (x : ι → K) (v : K) (h : 0 ≤ v) :
    IsUniqueProj {y | ∀ i, |y i| ≤ v} x (projectionLinfBall x v) := by
  have := C07_box x (fun _ => -v) (fun _ => v) fun _ => by linarith
  have e : {y : ι → K | ∀ i, |y i| ≤ v} = Box (fun _ => -v) (fun _ => v) := by
    ext y; simp [Box, abs_le]
  rw [e]; exact this

/-- **C07**: `projection_non_negative`. -/
theorem C07_non_negative (x : ι → K) :
    IsUniqueProj {y | ∀ i, 0 ≤ y i} x (projectionNonNegative x) := by
  refine isUniqueProj_of_vi (fun i => relu_nonneg _) fun y hy => Finset.sum_nonpos fun i _ => ?_
  have := hy i
  simp only [projectionNonNegative, relu]
  rcases le_total (x i) 0 with h | h
  · rw [max_eq_right h]; exact mul_nonpos_of_nonpos_of_nonneg (by linarith) (by linarith)
  · rw [max_eq_left h]; simp

/-- What the code does on an empty box (`lower > upper`): it silently returns `upper`, an infeasible point. -/
theorem C07_box_empty (x lower upper : ι → K) (i : ι) (h : upper i < lower i) :
    projectionBox x lower upper i = upper i := by
  unfold projectionBox clip
  exact min_eq_right (le_trans (le_of_lt h) (le_max_right _ _))

example : IsUniqueProj (Box (fun _ => (0 : ℚ)) (fun _ => 1)) ![-1, 1 / 2, 3] ![0, 1 / 2, 1] := by
  have := C07_box ![-1, (1 / 2 : ℚ), 3] (fun _ => 0) (fun _ => 1) (fun _ => by norm_num)
  have e : projectionBox ![-1, (1 / 2 : ℚ), 3] (fun _ => 0) (fun _ => 1) = ![0, 1 / 2, 1] := by
    funext i; fin_cases i <;> norm_num [projectionBox, clip]
  rwa [e] at this

/-! ## C08 -/

theorem simplex_threshold {n : ℕ} (hn : 0 < n) (x : Fin n → K) (value : K) (hv : 0 < value) :
    ∃ τ, (∀ i, projectionSimplex x value i = relu (x i - τ)) ∧ ∑ i, relu (x i - τ) = value := by
  obtain ⟨τ, h1, h2⟩ := unitSimplex_threshold hn (fun j => x j / value)
  have key : ∀ y : K, value * relu (y / value - τ) = relu (y - value * τ) := by
    intro y
    unfold relu
    rw [mul_max_of_nonneg _ _ (le_of_lt hv), mul_zero, mul_sub, mul_div_cancel₀ _ (ne_of_gt hv)]
  refine ⟨value * τ, fun i => ?_, ?_⟩
  · simp only [projectionSimplex, h1, key]
  · have : ∑ i, relu (x i - value * τ) = value * ∑ i, relu (x i / value - τ) := by
      rw [Finset.mul_sum]; exact Finset.sum_congr rfl fun i _ => (key _).symm
    rw [this, h2, mul_one]

/-- **C08**: `projection_simplex` is the unique Euclidean projection onto the simplex of mass `value`, for every non-empty
input (ties included) and every `value > 0`. -/
theorem C08_simplex {n : ℕ} (hn : 0 < n) (x : Fin n → K) (value : K) (hv : 0 < value) :
    IsUniqueProj {y | (∀ i, 0 ≤ y i) ∧ ∑ i, y i = value} x (projectionSimplex x value) := by
  obtain ⟨τ, h1, h2⟩ := simplex_threshold hn x value hv
  have e : projectionSimplex x value = fun i => relu (x i - τ) := funext h1
  rw [e]
  exact threshold_isUniqueProj x τ value h2

/-- The model computes, with ties: `[3,3,1]` onto the simplex of mass 2 is `[1,1,0]`. -/
example : projectionSimplex ![(3 : ℚ), 3, 1] 2 = ![1, 1, 0] := by decide +kernel

/-! ## C09 -/

theorem sgn_mul_self (x : K) : sgn x * |x| = x := by
  unfold sgn
  split_ifs with h1 h2
  · rw [abs_of_pos h1, one_mul]
  · rw [abs_of_neg h2]; ring
  · have : x = 0 := le_antisymm (not_lt.mp h1) (not_lt.mp h2)
    simp [this]

theorem abs_sgn (x : K) (h : x ≠ 0) : |sgn x| = 1 := by
  unfold sgn
  split_ifs with h1 h2
  · simp
  · simp
  · exact absurd (le_antisymm (not_lt.mp h1) (not_lt.mp h2)) h

theorem sgn_sq (x : K) (h : x ≠ 0) : sgn x * sgn x = 1 := by
  rw [← abs_mul_abs_self, abs_sgn x h, one_mul]

theorem abs_sgn_le (x : K) : |sgn x| ≤ 1 := by
  unfold sgn; split_ifs <;> simp

/-- **C09**: `projection_l1_ball` is the unique Euclidean projection onto the l1 ball of radius `v > 0`. -/
theorem C09_l1_ball {n : ℕ} (hn : 0 < n) (x : Fin n → K) (v : K) (hv : 0 < v) :
    IsUniqueProj {y | ∑ i, |y i| ≤ v} x (projectionL1Ball x v) := by
  unfold projectionL1Ball
  split_ifs with hle
  · exact isUniqueProj_of_vi hle fun y _ => by simp
  · obtain ⟨τ, h1, h2⟩ := simplex_threshold hn (fun j => |x j|) v hv
    have hτ : 0 < τ := by
      by_contra hcon
      have hcon := not_lt.mp hcon
      apply hle
      rw [← h2]
      refine Finset.sum_le_sum fun i _ => le_trans ?_ (le_max_left _ _)
      linarith
    have hp : ∀ i, projectionL1Sphere x v i = sgn (x i) * relu (|x i| - τ) := fun i => by
      simp only [projectionL1Sphere, h1]
    have hz : ∀ i, x i = 0 → relu (|x i| - τ) = 0 := fun i hi => by
      rw [hi, abs_zero]; exact max_eq_right (by linarith)
    have habs : ∀ i, |projectionL1Sphere x v i| = relu (|x i| - τ) := fun i => by
      rw [hp, abs_mul, abs_of_nonneg (relu_nonneg (|x i| - τ))]
      by_cases hi : x i = 0
      · rw [hz i hi, mul_zero]
      · rw [abs_sgn _ hi, one_mul]
    refine isUniqueProj_of_vi ?_ ?_
    · show ∑ i, |projectionL1Sphere x v i| ≤ v
      simp only [habs, h2, le_refl]
    · intro y hy
      have key : ∀ i, (x i - projectionL1Sphere x v i) * (y i - projectionL1Sphere x v i)
          ≤ τ * (|y i| - relu (|x i| - τ)) := by
        intro i
        have e1 : x i - projectionL1Sphere x v i = sgn (x i) * (|x i| - relu (|x i| - τ)) := by
          rw [hp, mul_sub, sgn_mul_self]
        have hm0 : 0 ≤ |x i| - relu (|x i| - τ) := by
          unfold relu
          rcases le_total (|x i| - τ) 0 with h | h
          · rw [max_eq_right h]; simp
          · rw [max_eq_left h]; linarith
        have hm1 : |x i| - relu (|x i| - τ) ≤ τ := by
          have := le_max_left (|x i| - τ) 0
          unfold relu; linarith
        have hcs : (|x i| - relu (|x i| - τ)) * relu (|x i| - τ) = τ * relu (|x i| - τ) := by
          unfold relu
          rcases le_total (|x i| - τ) 0 with h | h
          · rw [max_eq_right h]; simp
          · rw [max_eq_left h]; ring
        have e2 : (x i - projectionL1Sphere x v i) * projectionL1Sphere x v i = τ * relu (|x i| - τ) := by
          rw [e1, hp]
          by_cases hi : x i = 0
          · rw [hz i hi]; simp
          · have := sgn_sq _ hi
            calc sgn (x i) * (|x i| - relu (|x i| - τ)) * (sgn (x i) * relu (|x i| - τ))
                = (sgn (x i) * sgn (x i)) * ((|x i| - relu (|x i| - τ)) * relu (|x i| - τ)) := by ring
              _ = _ := by rw [this, one_mul, hcs]
        have e3 : (x i - projectionL1Sphere x v i) * y i ≤ τ * |y i| := by
          calc (x i - projectionL1Sphere x v i) * y i ≤ |(x i - projectionL1Sphere x v i) * y i| := le_abs_self _
            _ = |sgn (x i)| * (|x i| - relu (|x i| - τ)) * |y i| := by rw [e1, abs_mul, abs_mul, abs_of_nonneg hm0]
            _ ≤ τ * |y i| := by
              refine mul_le_mul_of_nonneg_right ?_ (abs_nonneg _)
              calc |sgn (x i)| * (|x i| - relu (|x i| - τ)) ≤ 1 * (|x i| - relu (|x i| - τ)) :=
                    mul_le_mul_of_nonneg_right (abs_sgn_le _) hm0
                _ ≤ τ := by rw [one_mul]; exact hm1
        linarith
      calc ∑ i, (x i - projectionL1Sphere x v i) * (y i - projectionL1Sphere x v i)
          ≤ ∑ i, τ * (|y i| - relu (|x i| - τ)) := Finset.sum_le_sum fun i _ => key i
        _ = τ * (∑ i, |y i| - v) := by rw [← Finset.mul_sum, Finset.sum_sub_distrib, h2]
        _ ≤ 0 := mul_nonpos_of_nonneg_of_nonpos (le_of_lt hτ) (by
            have : ∑ i, |y i| ≤ v := hy
            linarith)

/-- **C09** (sphere, exact range of validity): `projection_l1_sphere` returns a closest point of the l1 sphere of radius
`v > 0` **iff** the input has no zero coordinate or l1 norm at least `v`.  Missing from the full property: inputs with
a zero coordinate and small norm, where the output is not even on the sphere (`C09_l1_sphere_false`). -/
theorem C09_l1_sphere_iff_partial {n : ℕ} (hn : 0 < n) (x : Fin n → K) (v : K) (hv : 0 < v) :
    IsProj {y | ∑ i, |y i| = v} x (projectionL1Sphere x v) ↔ ((∀ i, x i ≠ 0) ∨ v ≤ ∑ i, |x i|) := by
  obtain ⟨τ, h1, h2⟩ := simplex_threshold hn (fun j => |x j|) v hv
  have hp : ∀ i, projectionL1Sphere x v i = sgn (x i) * relu (|x i| - τ) := fun i => by
      simp only [projectionL1Sphere, h1]
  constructor
  · rintro ⟨hmem, _⟩
    by_contra hcon
    simp only [not_or, not_forall, not_le, not_not] at hcon
    obtain ⟨⟨j, hj⟩, hlt⟩ := hcon
    have hτ : τ < 0 := by
      by_contra hc
      have hc := not_lt.mp hc
      have : v ≤ ∑ i, |x i| := by
        rw [← h2]
        refine Finset.sum_le_sum fun i _ => ?_
        exact max_le (by linarith) (abs_nonneg _)
      linarith
    have hmem' : ∑ i, |projectionL1Sphere x v i| = v := hmem
    have : ∑ i, |projectionL1Sphere x v i| < ∑ i, relu (|x i| - τ) := by
      refine Finset.sum_lt_sum (fun i _ => ?_) ⟨j, Finset.mem_univ _, ?_⟩
      · rw [hp, abs_mul, abs_of_nonneg (relu_nonneg (|x i| - τ))]
        exact mul_le_of_le_one_left (relu_nonneg _) (abs_sgn_le _)
      · rw [hp, hj]
        simp only [sgn, lt_irrefl, if_false, zero_mul, abs_zero, zero_sub]
        exact lt_of_lt_of_le (by linarith) (le_max_left _ _)
    rw [hmem', h2] at this
    exact lt_irrefl _ this
  · intro hcase
    have hz : ∀ i, x i = 0 → relu (|x i| - τ) = 0 := by
      intro i hi
      rcases hcase with h | h
      · exact absurd hi (h i)
      · have hτ : 0 ≤ τ := by
          by_contra hc
          have hc := not_le.mp hc
          have : ∑ i, |x i| < ∑ i, relu (|x i| - τ) := by
            refine Finset.sum_lt_sum (fun i _ => le_trans (by linarith) (le_max_left _ _))
              ⟨i, Finset.mem_univ _, lt_of_lt_of_le (by linarith) (le_max_left _ _)⟩
          rw [h2] at this
          linarith
        rw [hi, abs_zero]; exact max_eq_right (by linarith)
    have habs : ∀ i, |projectionL1Sphere x v i| = relu (|x i| - τ) := fun i => by
      rw [hp, abs_mul, abs_of_nonneg (relu_nonneg (|x i| - τ))]
      by_cases hi : x i = 0
      · rw [hz i hi, mul_zero]
      · rw [abs_sgn _ hi, one_mul]
    refine ⟨?_, ?_⟩
    · show ∑ i, |projectionL1Sphere x v i| = v
      simp only [habs, h2]
    · intro y hy
      have hu := (threshold_isUniqueProj (fun i => |x i|) τ v h2).isProj.2 (fun i => |y i|)
        ⟨fun i => abs_nonneg _, hy⟩
      have e1 : sqDist x (projectionL1Sphere x v) = sqDist (fun i => |x i|) (fun i => relu (|x i| - τ)) := by
        refine Finset.sum_congr rfl fun i _ => ?_
        by_cases hi : x i = 0
        · simp only [hp, hz i hi]; simp [hi]
        · have e : x i - projectionL1Sphere x v i = sgn (x i) * (|x i| - relu (|x i| - τ)) := by
            rw [hp, mul_sub, sgn_mul_self]
          rw [e, mul_pow, pow_two (sgn (x i)), sgn_sq _ hi, one_mul]
      have e2 : sqDist (fun i => |x i|) (fun i => |y i|) ≤ sqDist x y := by
        refine Finset.sum_le_sum fun i _ => ?_
        rw [← sq_abs (x i - y i)]
        exact sq_le_sq' (by linarith [abs_sub_abs_le_abs_sub (y i) (x i), abs_sub_comm (x i) (y i)])
          (abs_sub_abs_le_abs_sub _ _)
      rw [e1]
      exact le_trans hu e2

/-- **C09 is false for the sphere**: the projection of `(0, 1/4)` on the unit l1 sphere is returned as a point of
l1 norm `5/8`. -/
theorem C09_l1_sphere_false : projectionL1Sphere ![(0 : ℚ), 1 / 4] 1 = ![0, 5 / 8] ∧
    ¬ IsProj {y : Fin 2 → ℚ | ∑ i, |y i| = 1} ![0, 1 / 4] (projectionL1Sphere ![0, 1 / 4] 1) := by
  refine ⟨by decide +kernel, ?_⟩
  rw [C09_l1_sphere_iff_partial (by norm_num) _ _ (by norm_num)]
  simp only [not_or, not_forall, not_not]
  refine ⟨⟨0, rfl⟩, ?_⟩
  simp [Fin.sum_univ_two, abs_of_nonneg]
  norm_num

example : projectionL1Ball ![(2 : ℚ), -1, 0] 2 = ![3 / 2, -1 / 2, 0] := by decide +kernel

end coord

/-! ## C10, C11 -/

section innerSpace
variable {E : Type*} [NormedAddCommGroup E] [InnerProductSpace ℝ E]

/-- Unique closest point, in an inner product space. -/
def IsUniqueProjE (C : Set E) (x p : E) : Prop := p ∈ C ∧ ∀ y ∈ C, y ≠ p → ‖x - p‖ < ‖x - y‖

theorem isUniqueProjE_of_vi {C : Set E} {x p : E} (hp : p ∈ C)
    (h : ∀ y ∈ C, inner ℝ (x - p) (y - p) ≤ 0) : IsUniqueProjE C x p := by
  refine ⟨hp, fun y hy hne => ?_⟩
  have h1 := h y hy
  have h2 : 0 < ‖y - p‖ := norm_pos_iff.mpr (sub_ne_zero.mpr hne)
  have h3 : ‖x - y‖ ^ 2 = ‖x - p‖ ^ 2 - 2 * inner ℝ (x - p) (y - p) + ‖y - p‖ ^ 2 := by
    rw [← norm_sub_sq_real]; congr 2; abel
  have h4 : ‖x - p‖ ^ 2 < ‖x - y‖ ^ 2 := by nlinarith
  exact lt_of_pow_lt_pow_left₀ 2 (norm_nonneg _) h4

/-- **C10**: `projection_l2_sphere` of a non-zero input is the unique closest point of the sphere of radius `v > 0`
(although the sphere is not convex). -/
theorem C10_l2_sphere (x : E) (v : ℝ) (hx : x ≠ 0) (hv : 0 < v) :
    IsUniqueProjE {y : E | ‖y‖ = v} x (projectionL2Sphere x v) := by
  have hx' : 0 < ‖x‖ := norm_pos_iff.mpr hx
  have hnorm : ‖projectionL2Sphere x v‖ = v := by
    simp only [projectionL2Sphere]
    rw [norm_smul, Real.norm_of_nonneg (by positivity)]
    field_simp
  refine ⟨hnorm, fun y hy hne => ?_⟩
  have hy : ‖y‖ = v := hy
  set p := projectionL2Sphere x v with hp
  have hxp : inner ℝ x p = ‖x‖ * v := by
    rw [hp]; simp only [projectionL2Sphere]
    rw [inner_smul_right, real_inner_self_eq_norm_sq]; field_simp
  have h1 : ‖x - p‖ ^ 2 = ‖x‖ ^ 2 - 2 * (‖x‖ * v) + v ^ 2 := by
    rw [norm_sub_sq_real, hxp, hnorm]
  have h2 : ‖x - y‖ ^ 2 = ‖x‖ ^ 2 - 2 * inner ℝ x y + v ^ 2 := by
    rw [norm_sub_sq_real, hy]
  have h3 : ‖y - p‖ ^ 2 = 2 * v ^ 2 - 2 * (v / ‖x‖ * inner ℝ x y) := by
    rw [norm_sub_sq_real, hy, hnorm, hp]
    simp only [projectionL2Sphere]
    rw [inner_smul_right, real_inner_comm]; ring
  have h4 : 0 < ‖y - p‖ ^ 2 := by
    have : 0 < ‖y - p‖ := norm_pos_iff.mpr (sub_ne_zero.mpr hne)
    positivity
  have h5 : inner ℝ x y < ‖x‖ * v := by
    rw [h3] at h4
    have : v / ‖x‖ * inner ℝ x y < v ^ 2 := by linarith
    have h6 : v * inner ℝ x y < v * (‖x‖ * v) := by
      have := mul_lt_mul_of_pos_left this hx'
      have e : ‖x‖ * (v / ‖x‖ * inner ℝ x y) = v * inner ℝ x y := by field_simp
      rw [e] at this; linarith
    exact lt_of_mul_lt_mul_left h6 (le_of_lt hv)
  have h7 : ‖x - p‖ ^ 2 < ‖x - y‖ ^ 2 := by rw [h1, h2]; linarith
  exact lt_of_pow_lt_pow_left₀ 2 (norm_nonneg _) h7

/-- **C10**: `projection_l2_ball` is the unique closest point of the ball of radius `v ≥ 0`, `x = 0` included. -/
theorem C10_l2_ball (x : E) (v : ℝ) (hv : 0 ≤ v) :
    IsUniqueProjE {y : E | ‖y‖ ≤ v} x (projectionL2Ball x v) := by
  simp only [projectionL2Ball]
  split_ifs with h
  · exact isUniqueProjE_of_vi h fun y _ => by simp
  · have hlt : v < ‖x‖ := not_le.mp h
    have hx' : 0 < ‖x‖ := lt_of_le_of_lt hv hlt
    refine isUniqueProjE_of_vi ?_ fun y hy => ?_
    · show ‖(v / ‖x‖) • x‖ ≤ v
      rw [norm_smul, Real.norm_of_nonneg (by positivity)]
      field_simp; exact le_refl _
    · have hy : ‖y‖ ≤ v := hy
      have e : x - (v / ‖x‖) • x = (1 - v / ‖x‖) • x := by rw [sub_smul, one_smul]
      rw [e, inner_smul_left, inner_sub_right, inner_smul_right, real_inner_self_eq_norm_sq]
      have h1 : inner ℝ x y ≤ ‖x‖ * v :=
        le_trans (real_inner_le_norm x y) (mul_le_mul_of_nonneg_left hy (norm_nonneg _))
      have h2 : v / ‖x‖ * ‖x‖ ^ 2 = ‖x‖ * v := by field_simp
      rw [h2]
      have h3 : 0 ≤ 1 - v / ‖x‖ := by
        rw [sub_nonneg, div_le_one hx']; exact le_of_lt hlt
      simp only [conj_trivial]
      exact mul_nonpos_of_nonneg_of_nonpos h3 (by linarith)

/-- **C11**: `projection_hyperplane`, for a non-zero normal. -/
theorem C11_hyperplane (x a : E) (b : ℝ) (ha : a ≠ 0) :
    IsUniqueProjE {y : E | inner ℝ a y = b} x (projectionHyperplane x a b) := by
  have haa : inner ℝ a a ≠ 0 := by rwa [ne_eq, inner_self_eq_zero]
  have hmem : inner ℝ a (projectionHyperplane x a b) = b := by
    simp only [projectionHyperplane]
    rw [inner_add_right, inner_smul_right]; field_simp; ring
  refine isUniqueProjE_of_vi hmem fun y hy => ?_
  have hy : inner ℝ a y = b := hy
  have e : x - projectionHyperplane x a b = ((inner ℝ a x - b) / inner ℝ a a) • a := by
    simp only [projectionHyperplane]; rw [neg_smul]; abel
  rw [e, inner_smul_left, inner_sub_right, hmem, hy]
  simp

/-- **C11**: `projection_halfspace`, for a non-zero normal. -/
theorem C11_halfspace (x a : E) (b : ℝ) (ha : a ≠ 0) :
    IsUniqueProjE {y : E | inner ℝ a y ≤ b} x (projectionHalfspace x a b) := by
  have haa : 0 < inner ℝ a a := real_inner_self_pos.mpr ha
  have e : x - projectionHalfspace x a b = (max (inner ℝ a x - b) 0 / inner ℝ a a) • a := by
    simp only [projectionHalfspace]; rw [neg_smul]; abel
  have hval : inner ℝ a (projectionHalfspace x a b) = inner ℝ a x - max (inner ℝ a x - b) 0 := by
    simp only [projectionHalfspace]
    rw [inner_add_right, inner_smul_right]; field_simp; ring
  refine isUniqueProjE_of_vi ?_ fun y hy => ?_
  · show inner ℝ a (projectionHalfspace x a b) ≤ b
    rw [hval]; linarith [le_max_left (inner ℝ a x - b) 0]
  · have hy : inner ℝ a y ≤ b := hy
    rw [e, inner_smul_left, inner_sub_right, hval]
    simp only [conj_trivial]
    rcases le_total (inner ℝ a x - b) 0 with h | h
    · rw [max_eq_right h]; simp
    · rw [max_eq_left h]
      exact mul_nonpos_of_nonneg_of_nonpos (by positivity) (by linarith)

/-- Non-vacuity in `E = ℝ`: the projection of `5` on the ball of radius 2 is `2`. -/
example : projectionL2Ball (5 : ℝ) 2 = 2 ∧ projectionHalfspace (5 : ℝ) 2 4 = 2 := by
  constructor
  · norm_num [projectionL2Ball]
  · norm_num [projectionHalfspace]

end innerSpace

end Jaxopt.Proj
