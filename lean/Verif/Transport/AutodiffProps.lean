import Verif.Transport.Autodiff
import Verif.Transport.Entropic
import Verif.Prox.AutodiffProps
import Verif.Implicit.KktProps

/-!
# C136: derivatives of the optimal transport projections
-/

set_option autoImplicit false
set_option linter.unusedSectionVars false
set_option linter.unusedVariables false

namespace Jaxopt.Transport

open Jaxopt.Proj Jaxopt.Loss Jaxopt.Loss.Dual Jaxopt.ProxAD Filter Topology

/-! ## Semi-dual formulation with squared l2 regularisation -/

/-- C136.  `projection_transport` with its default `use_semi_dual=True`: whatever the derivatives of the cost matrix, of the marginals and of the potentials,
the computed tangent of the plan is the plan times the relative change of the column marginal; the derivative in the similarity matrix is zero. -/
theorem C136_semi_dual_l2 {m n : ℕ} (t : Fin m → ℝ) (gamma : ℝ) (cost : Fin m → Fin n → Dual ℝ) (b : Fin n → Dual ℝ) (alpha : Fin m → Dual ℝ) (i : Fin m)
    (j : Fin n) :
    (semiDualPlanD (maxL2GradD t) gamma cost b alpha i j).val =
      semiDualPlan maxL2Grad gamma (fun i j => (cost i j).val) (fun j => (b j).val) (fun i => (alpha i).val) i j ∧
    (semiDualPlanD (maxL2GradD t) gamma cost b alpha i j).tan * (b j).val = (semiDualPlanD (maxL2GradD t) gamma cost b alpha i j).val * (b j).tan ∧
    ((b j).tan = 0 → (semiDualPlanD (maxL2GradD t) gamma cost b alpha i j).tan = 0) := by
  have e : (semiDualPlanD (maxL2GradD t) gamma cost b alpha i j).tan =
      0 * (b j).val + maxL2Arg (fun i => (alpha i).val - (cost i j).val) (b j).val gamma i * (b j).tan := rfl
  refine ⟨rfl, ?_, fun h => by rw [e, h]; ring⟩
  rw [e]
  show _ = maxL2Arg (fun i => (alpha i).val - (cost i j).val) (b j).val gamma i * (b j).val * (b j).tan
  ring

/-- The plan closest to `[[t, 0], [0, 0]]`. -/
noncomputable def nearPlan (t : ℝ) : Fin 2 → Fin 2 → ℝ := fun i j => if i = j then 1 / 2 + t / 4 else 1 / 2 - t / 4

/-- The similarity matrix `[[t, 0], [0, 0]]`. -/
noncomputable def corner (t : ℝ) : Fin 2 → Fin 2 → ℝ := fun i j => if i = 0 ∧ j = 0 then t else 0

/-- C136, false of the code.  `projection_birkhoff` on the matrices `[[t, 0], [0, 0]]`: the closest doubly stochastic matrix has the entries
`1/2 ± t/4`, the code finds the one for `t = 0` exactly with the potentials zero, but every computed derivative is zero. -/
theorem C136_semi_dual_l2_false :
    (∀ t : ℝ, -2 ≤ t → t ≤ 2 → IsUniqueProj (Polytope (fun _ => 1) (fun _ => 1)) (flat (corner t)) (flat (nearPlan t))) ∧
    (∀ i j, HasDerivAt (fun t => nearPlan t i j) (if i = j then 1 / 4 else -1 / 4) 0) ∧
    semiDualPlan maxL2Grad 1 (fun i j => -corner 0 i j) (fun _ => 1) (fun _ => 0) = nearPlan 0 ∧
    ∀ (s : Fin 2 → ℝ) (alpha : Fin 2 → Dual ℝ) (i j : Fin 2),
      (semiDualPlanD (maxL2GradD s) 1 (fun i j => ⟨-corner 0 i j, -(if i = 0 ∧ j = 0 then 1 else 0)⟩) (fun _ => const 1) alpha i j).tan = 0 := by
  have hproj : ∀ t : ℝ, -2 ≤ t → t ≤ 2 → IsUniqueProj (Polytope (fun _ => 1) (fun _ => 1)) (flat (corner t)) (flat (nearPlan t)) := fun t h1 h2 => by
    have := potentials_isUniqueProj (gamma := (1 : ℝ)) one_pos (fun i j => -corner t i j) (fun _ => 1) (fun _ => 1) (nearPlan t)
      (fun i => if i = 0 then 1 / 4 - 3 / 8 * t else 1 / 4 + t / 8) (fun j => if j = 0 then 1 / 4 - 3 / 8 * t else 1 / 4 + t / 8) ?_ ?_ ?_
    · have e : (fun ij : Fin 2 × Fin 2 => - -corner t ij.1 ij.2 / 1) = flat (corner t) := by
        funext ij; rw [neg_neg, div_one]; rfl
      rwa [e] at this
    · intro i j
      rw [div_one, sub_neg_eq_add]
      fin_cases i <;> fin_cases j <;> simp [nearPlan, corner, Proj.relu] <;> rw [max_eq_left] <;> linarith
    · intro i
      rw [Fin.sum_univ_two]
      fin_cases i <;> simp [nearPlan] <;> ring
    · intro i
      rw [Fin.sum_univ_two]
      fin_cases i <;> simp [nearPlan] <;> ring
  refine ⟨hproj, fun i j => ?_, ?_, fun s alpha i j => (C136_semi_dual_l2 s 1 _ _ alpha i j).2.2 rfl⟩
  · by_cases h : i = j
    · simp only [nearPlan, if_pos h]
      exact (((hasDerivAt_id' (0 : ℝ)).div_const 4).const_add (1 / 2)).congr_deriv (by norm_num)
    · simp only [nearPlan, if_neg h]
      exact (((hasDerivAt_id' (0 : ℝ)).div_const 4).const_sub (1 / 2)).congr_deriv (by norm_num)
  · obtain ⟨τ, h1, h2⟩ := arg_threshold (K := ℝ) (m := 2) (by norm_num) (fun _ => 0) 1 1
    have hz : (fun i : Fin 2 => (0 : ℝ) - -corner 0 i 0) = fun _ => 0 := by funext i; simp [corner]
    have hz' : (fun i : Fin 2 => (0 : ℝ) - -corner 0 i 1) = fun _ => 0 := by funext i; simp [corner]
    have hv : ∀ i : Fin 2, maxL2Arg (fun _ : Fin 2 => (0 : ℝ)) 1 1 i = 1 / 2 := fun i => by
      rw [Fin.sum_univ_two, h1 0, h1 1] at h2
      rw [h1 i]
      linarith
    funext i j
    have e : semiDualPlan maxL2Grad 1 (fun i j => -corner 0 i j) (fun _ => 1) (fun _ => 0) i j =
        maxL2Arg (fun i => (0 : ℝ) - -corner 0 i j) 1 1 i * 1 := rfl
    rw [e]
    have hj : (fun i : Fin 2 => (0 : ℝ) - -corner 0 i j) = fun _ => 0 := by
      funext i; simp [corner]
    rw [hj, hv]
    by_cases h : i = j <;> simp [nearPlan, h]

/-! ## Dual formulation -/

section
variable {m n : ℕ}

/-- A weighted bipartite Laplacian with nonnegative weights: potentials in its kernel do not change any weighted edge sum. -/
theorem laplacian_kernel (h : Fin m → Fin n → ℝ) (h0 : ∀ i j, 0 ≤ h i j) (u : Fin m → ℝ) (v : Fin n → ℝ) (hr : ∀ i, ∑ j, h i j * (u i + v j) = 0)
    (hc : ∀ j, ∑ i, h i j * (u i + v j) = 0) (i : Fin m) (j : Fin n) : h i j * (u i + v j) = 0 := by
  have e : ∑ i, ∑ j, h i j * (u i + v j) ^ 2 = 0 := by
    have e1 : ∑ i, ∑ j, h i j * (u i + v j) ^ 2 = (∑ i, u i * ∑ j, h i j * (u i + v j)) + ∑ j, v j * ∑ i, h i j * (u i + v j) := by
      simp only [Finset.mul_sum]
      rw [Finset.sum_comm (f := fun j i => v j * (h i j * (u i + v j))), ← Finset.sum_add_distrib]
      refine Finset.sum_congr rfl fun i _ => ?_
      rw [← Finset.sum_add_distrib]
      exact Finset.sum_congr rfl fun j _ => by ring
    rw [e1]
    simp [hr, hc]
  have hi := (Finset.sum_eq_zero_iff_of_nonneg fun i _ => Finset.sum_nonneg fun j _ => mul_nonneg (h0 i j) (sq_nonneg _)).1 e i (Finset.mem_univ i)
  have hj := (Finset.sum_eq_zero_iff_of_nonneg fun j _ => mul_nonneg (h0 i j) (sq_nonneg _)).1 hi j (Finset.mem_univ j)
  rcases mul_eq_zero.1 hj with hz | hz
  · rw [hz, zero_mul]
  · rw [pow_eq_zero_iff (two_ne_zero)] at hz
    rw [hz, mul_zero]

theorem tracks_exp {f : ℝ → ℝ} {x : Dual ℝ} (h : Tracks f x) : Tracks (fun t => Real.exp (f t)) (expD x) := by
  refine ⟨?_, ?_⟩
  · show Real.exp (f 0) = Real.exp x.val
    rw [h.1]
  · have := h.2.exp
    rw [h.1] at this
    exact this

theorem tracks_sumD {k : ℕ} {f : Fin k → ℝ → ℝ} {x : Fin k → Dual ℝ} (h : ∀ i, Tracks (f i) (x i)) : Tracks (fun t => ∑ i, f i t) (sumD x) :=
  ⟨Finset.sum_congr rfl fun i _ => (h i).1, HasDerivAt.fun_sum fun i _ => (h i).2⟩

/-- A curve has one tangent. -/
theorem tracks_unique {f : ℝ → ℝ} {x y : Dual ℝ} (h : Tracks f x) (h' : Tracks f y) : x.tan = y.tan := h.2.unique h'.2

/-- The weighted edge sums are determined by the row and column equations. -/
theorem edges_unique (h : Fin m → Fin n → ℝ) (h0 : ∀ i j, 0 ≤ h i j) (c : Fin m → Fin n → ℝ) (a : Fin m → ℝ) (b : Fin n → ℝ) (u u' : Fin m → ℝ)
    (v v' : Fin n → ℝ) (hr : ∀ i, ∑ j, h i j * (u i + v j - c i j) = a i) (hc : ∀ j, ∑ i, h i j * (u i + v j - c i j) = b j)
    (hr' : ∀ i, ∑ j, h i j * (u' i + v' j - c i j) = a i) (hc' : ∀ j, ∑ i, h i j * (u' i + v' j - c i j) = b j) (i : Fin m) (j : Fin n) :
    h i j * (u i + v j - c i j) = h i j * (u' i + v' j - c i j) := by
  have e : ∀ i j, h i j * ((u i - u' i) + (v j - v' j)) = h i j * (u i + v j - c i j) - h i j * (u' i + v' j - c i j) := fun i j => by ring
  have k := laplacian_kernel h h0 (fun i => u i - u' i) (fun j => v j - v' j)
    (fun i => by simp only [e]; rw [Finset.sum_sub_distrib, hr, hr', sub_self]) (fun j => by simp only [e]; rw [Finset.sum_sub_distrib, hc, hc', sub_self]) i j
  rw [e] at k
  linarith

theorem dualEnt_tan {gamma : ℝ} (hg : gamma ≠ 0) (cost : Fin m → Fin n → Dual ℝ) (alpha : Fin m → Dual ℝ) (beta : Fin n → Dual ℝ) (i : Fin m) (j : Fin n) :
    (dualPlanD deltaEntGradD gamma cost alpha beta i j).tan =
      Real.exp (((alpha i).val + (beta j).val - (cost i j).val) / gamma - 1) / gamma * ((alpha i).tan + (beta j).tan - (cost i j).tan) := by
  simp only [dualPlanD, deltaEntGradD, expD, sub, add, div, const]
  field_simp
  ring

theorem dualL2_tan {gamma : ℝ} (hg : 0 < gamma) (cost : Fin m → Fin n → Dual ℝ) (alpha : Fin m → Dual ℝ) (beta : Fin n → Dual ℝ) (i : Fin m) (j : Fin n) :
    (dualPlanD deltaL2GradD gamma cost alpha beta i j).tan =
      (if 0 < (alpha i).val + (beta j).val - (cost i j).val then 1 / gamma else 0) * ((alpha i).tan + (beta j).tan - (cost i j).tan) := by
  simp only [dualPlanD, deltaL2GradD, mul, sub, add, Dual.relu, const, gt_iff_lt]
  by_cases h : 0 < (alpha i).val + (beta j).val - (cost i j).val
  · simp only [if_pos h]
    field_simp
    ring
  · simp only [if_neg h]
    ring

theorem tracks_deltaEnt {gamma : ℝ} (hg : gamma ≠ 0) {f : ℝ → ℝ} {x : Fin m → Dual ℝ} {i : Fin m} (h : Tracks f (x i)) :
    Tracks (fun t => Real.exp (f t / gamma - 1)) (deltaEntGradD x gamma i) :=
  tracks_exp (tracks_sub (tracks_div h (tracks_const gamma) hg) (tracks_const 1))

/-- A dual potential for the plans: two solutions of the implicit equations with the same potentials give the same tangents of the plan. -/
theorem dual_tan_unique {deltaGradD : (Fin m → Dual ℝ) → ℝ → Fin m → Dual ℝ} {gamma : ℝ} (h : Fin m → Fin n → ℝ) (h0 : ∀ i j, 0 ≤ h i j)
    (cost : Fin m → Fin n → Dual ℝ) (a : Fin m → Dual ℝ) (b : Fin n → Dual ℝ) (alpha alpha' : Fin m → Dual ℝ) (beta beta' : Fin n → Dual ℝ)
    (ht : ∀ i j, (dualPlanD deltaGradD gamma cost alpha beta i j).tan = h i j * ((alpha i).tan + (beta j).tan - (cost i j).tan))
    (ht' : ∀ i j, (dualPlanD deltaGradD gamma cost alpha' beta' i j).tan = h i j * ((alpha' i).tan + (beta' j).tan - (cost i j).tan))
    (hs : (∀ i, (dualGradAD deltaGradD gamma cost a alpha beta i).tan = 0) ∧ ∀ j, (dualGradBD deltaGradD gamma cost b alpha beta j).tan = 0)
    (hs' : (∀ i, (dualGradAD deltaGradD gamma cost a alpha' beta' i).tan = 0) ∧ ∀ j, (dualGradBD deltaGradD gamma cost b alpha' beta' j).tan = 0)
    (i : Fin m) (j : Fin n) : (dualPlanD deltaGradD gamma cost alpha beta i j).tan = (dualPlanD deltaGradD gamma cost alpha' beta' i j).tan := by
  rw [ht, ht']
  refine edges_unique h h0 (fun i j => (cost i j).tan) (fun i => (a i).tan) (fun j => (b j).tan) (fun i => (alpha i).tan) (fun i => (alpha' i).tan)
    (fun j => (beta j).tan) (fun j => (beta' j).tan) ?_ ?_ ?_ ?_ i j
  · intro i
    have := hs.1 i
    simp only [dualGradAD, sub, sumD, ht] at this
    linarith
  · intro j
    have := hs.2 j
    simp only [dualGradBD, sub, sumD, ht] at this
    linarith
  · intro i
    have := hs'.1 i
    simp only [dualGradAD, sub, sumD, ht'] at this
    linarith
  · intro j
    have := hs'.2 j
    simp only [dualGradBD, sub, sumD, ht'] at this
    linarith

/-- The tangents of a curve of stationary potentials solve the implicit equations. -/
theorem curve_solves {P : Fin m → Fin n → ℝ → ℝ} {p : Fin m → Fin n → Dual ℝ} {A : Fin m → ℝ → ℝ} {a : Fin m → Dual ℝ}
    (hP : ∀ i j, Tracks (P i j) (p i j)) (hA : ∀ i, Tracks (A i) (a i)) (hst : ∀ᶠ t in 𝓝 (0 : ℝ), ∀ i, ∑ j, P i j t = A i t) (i : Fin m) :
    (sub (sumD fun j => p i j) (a i)).tan = 0 := by
  have h1 := tracks_sub (tracks_sumD fun j => hP i j) (hA i)
  have h2 : Tracks (fun t => ∑ j, P i j t - A i t) (const 0) := by
    refine tracks_congr (tracks_const 0) ?_ rfl rfl
    filter_upwards [hst] with t ht
    rw [ht i, sub_self]
  exact tracks_unique h1 h2

/-- C136, dual formulation with squared l2 regularisation (`use_semi_dual=False`), away from the kinks: along a curve of stationary potentials the plans are
the projections, and every solution of the singular implicit equations gives their derivatives. -/
theorem C136_dual_l2 {gamma : ℝ} (hg : 0 < gamma) {C : Fin m → Fin n → ℝ → ℝ} {A : Fin m → ℝ → ℝ} {B : Fin n → ℝ → ℝ} {U : Fin m → ℝ → ℝ}
    {V : Fin n → ℝ → ℝ} {cost : Fin m → Fin n → Dual ℝ} {a : Fin m → Dual ℝ} {b : Fin n → Dual ℝ} (hC : ∀ i j, Tracks (C i j) (cost i j))
    (hA : ∀ i, Tracks (A i) (a i)) (hB : ∀ j, Tracks (B j) (b j)) (hU : ∀ i, DifferentiableAt ℝ (U i) 0) (hV : ∀ j, DifferentiableAt ℝ (V j) 0)
    (hst : ∀ᶠ t in 𝓝 (0 : ℝ), (∀ i, ∑ j, dualPlan deltaL2Grad gamma (fun i j => C i j t) (fun i => U i t, fun j => V j t) i j = A i t) ∧
      ∀ j, ∑ i, dualPlan deltaL2Grad gamma (fun i j => C i j t) (fun i => U i t, fun j => V j t) i j = B j t)
    (hk : ∀ i j, U i 0 + V j 0 - C i j 0 ≠ 0) (alpha' : Fin m → ℝ) (beta' : Fin n → ℝ)
    (hs : (∀ i, (dualGradAD deltaL2GradD gamma cost a (fun i => ⟨U i 0, alpha' i⟩) (fun j => ⟨V j 0, beta' j⟩) i).tan = 0) ∧
      ∀ j, (dualGradBD deltaL2GradD gamma cost b (fun i => ⟨U i 0, alpha' i⟩) (fun j => ⟨V j 0, beta' j⟩) j).tan = 0) :
    ∃ P : ℝ → Fin m → Fin n → ℝ,
      (∀ᶠ t in 𝓝 (0 : ℝ), IsUniqueProj (Polytope (fun i => A i t) (fun j => B j t)) (fun ij => -C ij.1 ij.2 t / gamma) (flat (P t))) ∧
      ∀ i j, Tracks (fun t => P t i j) (dualPlanD deltaL2GradD gamma cost (fun i => ⟨U i 0, alpha' i⟩) (fun j => ⟨V j 0, beta' j⟩) i j) := by
  set P : ℝ → Fin m → Fin n → ℝ := fun t => dualPlan deltaL2Grad gamma (fun i j => C i j t) (fun i => U i t, fun j => V j t) with hPdef
  set al : Fin m → Dual ℝ := fun i => ⟨U i 0, deriv (U i) 0⟩ with hal
  set be : Fin n → Dual ℝ := fun j => ⟨V j 0, deriv (V j) 0⟩ with hbe
  have tU : ∀ i, Tracks (U i) (al i) := fun i => ⟨rfl, (hU i).hasDerivAt⟩
  have tV : ∀ j, Tracks (V j) (be j) := fun j => ⟨rfl, (hV j).hasDerivAt⟩
  have hc0 : ∀ i j, (cost i j).val = C i j 0 := fun i j => (hC i j).1.symm
  have tP : ∀ i j, Tracks (fun t => P t i j) (dualPlanD deltaL2GradD gamma cost al be i j) := fun i j =>
    tracks_mul (tracks_const _) (tracks_mul (tracks_const 2) (tracks_relu (tracks_sub (tracks_add (tU i) (tV j)) (hC i j)) (by
      show U i 0 + V j 0 - (cost i j).val ≠ 0
      rw [hc0]; exact hk i j)))
  refine ⟨P, ?_, fun i j => ?_⟩
  · filter_upwards [hst] with t ht
    refine potentials_isUniqueProj hg (fun i j => C i j t) _ _ (P t) (fun i => U i t) (fun j => V j t) (fun i j => ?_) ht.1 ht.2
    show 1 / 2 / gamma * (2 * Proj.relu (U i t + V j t - C i j t)) = Proj.relu ((U i t + V j t - C i j t) / gamma)
    unfold Proj.relu
    rw [← zero_div gamma, max_div_div_right hg.le, zero_div]
    field_simp
  · have hsol : (∀ i, (dualGradAD deltaL2GradD gamma cost a al be i).tan = 0) ∧ ∀ j, (dualGradBD deltaL2GradD gamma cost b al be j).tan = 0 :=
      ⟨curve_solves tP hA (by filter_upwards [hst] with t ht using ht.1),
        curve_solves (fun j i => tP i j) hB (by filter_upwards [hst] with t ht using ht.2)⟩
    have e := dual_tan_unique (deltaGradD := deltaL2GradD) (gamma := gamma) (fun i j => if 0 < U i 0 + V j 0 - (cost i j).val then 1 / gamma else 0)
      (fun i j => by split <;> positivity) cost a b al (fun i => ⟨U i 0, alpha' i⟩) be (fun j => ⟨V j 0, beta' j⟩) (fun i j => dualL2_tan hg cost _ _ i j)
      (fun i j => dualL2_tan hg cost _ _ i j) hsol hs i j
    exact tracks_congr (tP i j) (Filter.EventuallyEq.refl _ _) rfl e

/-- Weighted least squares over the cells of a support. -/
theorem least_squares (s : Fin m → Fin n → ℝ) (hs : ∀ i j, s i j * s i j = s i j) (c : Fin m → Fin n → ℝ) :
    ∃ (u : Fin m → ℝ) (v : Fin n → ℝ), (∀ i, ∑ j, s i j * (u i + v j - c i j) = 0) ∧ ∀ j, ∑ i, s i j * (u i + v j - c i j) = 0 := by
  let T : ((Fin m → ℝ) × (Fin n → ℝ)) →ₗ[ℝ] EuclideanSpace ℝ (Fin m × Fin n) :=
    { toFun := fun w => WithLp.toLp 2 fun ij => s ij.1 ij.2 * (w.1 ij.1 + w.2 ij.2)
      map_add' := fun w w' => by
        ext ij
        show s ij.1 ij.2 * ((w.1 ij.1 + w'.1 ij.1) + (w.2 ij.2 + w'.2 ij.2)) = s ij.1 ij.2 * (w.1 ij.1 + w.2 ij.2) + s ij.1 ij.2 * (w'.1 ij.1 + w'.2 ij.2)
        ring
      map_smul' := fun r w => by
        ext ij
        show s ij.1 ij.2 * (r * w.1 ij.1 + r * w.2 ij.2) = r * (s ij.1 ij.2 * (w.1 ij.1 + w.2 ij.2))
        ring }
  obtain ⟨y, ⟨w, hw⟩, z, hz, he⟩ := (LinearMap.range T).exists_add_mem_mem_orthogonal (WithLp.toLp 2 fun ij : Fin m × Fin n => c ij.1 ij.2)
  have hzv : ∀ i j, z (i, j) = c i j - s i j * (w.1 i + w.2 j) := fun i j => by
    have h1 : c i j = y (i, j) + z (i, j) := congrArg (fun q : EuclideanSpace ℝ (Fin m × Fin n) => q (i, j)) he
    have h2 : s i j * (w.1 i + w.2 j) = y (i, j) := congrArg (fun q : EuclideanSpace ℝ (Fin m × Fin n) => q (i, j)) hw
    linarith
  have horth : ∀ w' : (Fin m → ℝ) × (Fin n → ℝ), ∑ i, ∑ j, (c i j - s i j * (w.1 i + w.2 j)) * (s i j * (w'.1 i + w'.2 j)) = 0 := fun w' => by
    have := (Submodule.mem_orthogonal _ z).1 hz (T w') ⟨w', rfl⟩
    rw [PiLp.inner_apply, Fintype.sum_prod_type] at this
    rw [← this]
    refine Finset.sum_congr rfl fun i _ => Finset.sum_congr rfl fun j _ => ?_
    rw [← hzv]
    rfl
  refine ⟨w.1, w.2, fun i => ?_, fun j => ?_⟩
  · have := horth (Pi.single i 1, 0)
    rw [Finset.sum_eq_single i (fun k _ hk => Finset.sum_eq_zero fun j _ => by simp [Pi.single_eq_of_ne hk]) (fun h => absurd (Finset.mem_univ i) h)] at this
    rw [← neg_eq_zero, ← Finset.sum_neg_distrib, ← this]
    refine Finset.sum_congr rfl fun j _ => ?_
    simp only [Pi.single_eq_same, Pi.zero_apply, add_zero, mul_one]
    linear_combination (w.1 i + w.2 j) * hs i j
  · have := horth (0, Pi.single j 1)
    rw [Finset.sum_comm,
      Finset.sum_eq_single j (fun k _ hk => Finset.sum_eq_zero fun i _ => by simp [Pi.single_eq_of_ne hk]) (fun h => absurd (Finset.mem_univ j) h)] at this
    rw [← neg_eq_zero, ← Finset.sum_neg_distrib, ← this]
    refine Finset.sum_congr rfl fun i _ => ?_
    simp only [Pi.single_eq_same, Pi.zero_apply, zero_add, mul_one]
    linear_combination (w.1 i + w.2 j) * hs i j

/-- Stationary potentials of the l2 dual off the kinks extend, for fixed marginals, to a differentiable curve of stationary potentials. -/
theorem l2_branch {gamma : ℝ} (hg : 0 < gamma) {C : Fin m → Fin n → ℝ → ℝ} {cost : Fin m → Fin n → Dual ℝ} (hC : ∀ i j, Tracks (C i j) (cost i j))
    (a : Fin m → ℝ) (b : Fin n → ℝ) (alpha : Fin m → ℝ) (beta : Fin n → ℝ)
    (h0 : (∀ i, ∑ j, dualPlan deltaL2Grad gamma (fun i j => C i j 0) (alpha, beta) i j = a i) ∧
      ∀ j, ∑ i, dualPlan deltaL2Grad gamma (fun i j => C i j 0) (alpha, beta) i j = b j) (hk : ∀ i j, alpha i + beta j - C i j 0 ≠ 0) :
    ∃ (U : Fin m → ℝ → ℝ) (V : Fin n → ℝ → ℝ), (∀ i, U i 0 = alpha i) ∧ (∀ j, V j 0 = beta j) ∧ (∀ i, DifferentiableAt ℝ (U i) 0) ∧
      (∀ j, DifferentiableAt ℝ (V j) 0) ∧
      ∀ᶠ t in 𝓝 (0 : ℝ), (∀ i, ∑ j, dualPlan deltaL2Grad gamma (fun i j => C i j t) (fun i => U i t, fun j => V j t) i j = a i) ∧
        ∀ j, ∑ i, dualPlan deltaL2Grad gamma (fun i j => C i j t) (fun i => U i t, fun j => V j t) i j = b j := by
  set s : Fin m → Fin n → ℝ := fun i j => if 0 < alpha i + beta j - C i j 0 then 1 else 0 with hsdef
  have hs : ∀ i j, s i j * s i j = s i j := fun i j => by simp only [hsdef]; split <;> norm_num
  choose u v hu hv using fun kl : Fin m × Fin n => least_squares s hs (fun i j => if (i, j) = kl then 1 else 0)
  set D : Fin m × Fin n → ℝ → ℝ := fun kl t => C kl.1 kl.2 t - C kl.1 kl.2 0 with hD
  set U : Fin m → ℝ → ℝ := fun i t => alpha i + ∑ kl, D kl t * u kl i with hUdef
  set V : Fin n → ℝ → ℝ := fun j t => beta j + ∑ kl, D kl t * v kl j with hVdef
  have hDd : ∀ kl, DifferentiableAt ℝ (D kl) 0 := fun kl => ((hC kl.1 kl.2).2.sub_const _).differentiableAt
  have hU0 : ∀ i, U i 0 = alpha i := fun i => by simp [hUdef, hD]
  have hV0 : ∀ j, V j 0 = beta j := fun j => by simp [hVdef, hD]
  have hUd : ∀ i, DifferentiableAt ℝ (U i) 0 := fun i =>
    (differentiableAt_const (alpha i)).add (DifferentiableAt.fun_sum fun kl _ => (hDd kl).mul_const _)
  have hVd : ∀ j, DifferentiableAt ℝ (V j) 0 := fun j =>
    (differentiableAt_const (beta j)).add (DifferentiableAt.fun_sum fun kl _ => (hDd kl).mul_const _)
  refine ⟨U, V, hU0, hV0, hUd, hVd, ?_⟩
  have hsign : ∀ᶠ t in 𝓝 (0 : ℝ), ∀ i j, dualPlan deltaL2Grad gamma (fun i j => C i j t) (fun i => U i t, fun j => V j t) i j =
      s i j * (U i t + V j t - C i j t) / gamma := by
    rw [eventually_all]; intro i
    rw [eventually_all]; intro j
    have tr : Tracks (fun t => U i t + V j t - C i j t) ⟨alpha i + beta j - C i j 0, deriv (U i) 0 + deriv (V j) 0 - (cost i j).tan⟩ :=
      ⟨by simp only [hU0, hV0], ((hUd i).hasDerivAt.add (hVd j).hasDerivAt).sub (hC i j).2⟩
    rcases lt_or_gt_of_ne (hk i j) with h | h
    · filter_upwards [eventually_neg tr h] with t ht
      show 1 / 2 / gamma * (2 * Proj.relu (U i t + V j t - C i j t)) = _
      simp only [hsdef, if_neg (not_lt.mpr h.le), Proj.relu]
      rw [max_eq_right ht.le]
      ring
    · filter_upwards [eventually_pos tr h] with t ht
      show 1 / 2 / gamma * (2 * Proj.relu (U i t + V j t - C i j t)) = _
      simp only [hsdef, if_pos h, Proj.relu]
      rw [max_eq_left ht.le]
      ring
  have hz := hsign.self_of_nhds
  have hUe : (fun i => U i 0) = alpha := funext hU0
  have hVe : (fun j => V j 0) = beta := funext hV0
  have hsplit : ∀ t i j, s i j * (U i t + V j t - C i j t) / gamma = s i j * (U i 0 + V j 0 - C i j 0) / gamma +
      (∑ kl, D kl t * (s i j * (u kl i + v kl j - if (i, j) = kl then 1 else 0))) / gamma := fun t i j => by
    have e1 : ∑ kl, D kl t * (s i j * (u kl i + v kl j - if (i, j) = kl then 1 else 0)) =
        s i j * ((∑ kl, D kl t * u kl i) + (∑ kl, D kl t * v kl j) - D (i, j) t) := by
      have e2 : ∑ kl : Fin m × Fin n, D kl t * (if (i, j) = kl then 1 else 0) = D (i, j) t := by simp
      rw [← e2, ← Finset.sum_add_distrib, ← Finset.sum_sub_distrib, Finset.mul_sum]
      exact Finset.sum_congr rfl fun kl _ => by ring
    rw [e1, hU0, hV0, ← add_div]
    congr 1
    simp only [hUdef, hVdef, hD]
    ring
  filter_upwards [hsign] with t ht
  simp only [ht]
  constructor
  · intro i
    simp only [hsplit t]
    rw [Finset.sum_add_distrib, ← Finset.sum_div (f := fun j => ∑ kl, D kl t * (s i j * (u kl i + v kl j - if (i, j) = kl then 1 else 0))), Finset.sum_comm]
    rw [Finset.sum_eq_zero (f := fun kl => ∑ j, D kl t * (s i j * (u kl i + v kl j - if (i, j) = kl then 1 else 0))) fun kl _ => by
      rw [← Finset.mul_sum, hu kl i, mul_zero]]
    rw [zero_div, add_zero, ← h0.1 i]
    refine Finset.sum_congr rfl fun j _ => ?_
    rw [← hz i j, hUe, hVe]
  · intro j
    simp only [hsplit t]
    rw [Finset.sum_add_distrib, ← Finset.sum_div (f := fun i => ∑ kl, D kl t * (s i j * (u kl i + v kl j - if (i, j) = kl then 1 else 0))), Finset.sum_comm]
    rw [Finset.sum_eq_zero (f := fun kl => ∑ i, D kl t * (s i j * (u kl i + v kl j - if (i, j) = kl then 1 else 0))) fun kl _ => by
      rw [← Finset.mul_sum, hv kl j, mul_zero]]
    rw [zero_div, add_zero, ← h0.2 j]
    refine Finset.sum_congr rfl fun i _ => ?_
    rw [← hz i j, hUe, hVe]

/-- C136, dual formulation with squared l2 regularisation and fixed marginals: stationary potentials off the kinks give the derivative of the projection in the
cost matrix through every solution of the implicit equations, and there is one. -/
theorem C136_dual_l2_fixed {gamma : ℝ} (hg : 0 < gamma) {C : Fin m → Fin n → ℝ → ℝ} {cost : Fin m → Fin n → Dual ℝ} (hC : ∀ i j, Tracks (C i j) (cost i j))
    (a : Fin m → ℝ) (b : Fin n → ℝ) (alpha : Fin m → ℝ) (beta : Fin n → ℝ)
    (h0 : (∀ i, ∑ j, dualPlan deltaL2Grad gamma (fun i j => C i j 0) (alpha, beta) i j = a i) ∧
      ∀ j, ∑ i, dualPlan deltaL2Grad gamma (fun i j => C i j 0) (alpha, beta) i j = b j) (hk : ∀ i j, alpha i + beta j - C i j 0 ≠ 0) :
    (∃ (alpha' : Fin m → ℝ) (beta' : Fin n → ℝ),
      (∀ i, (dualGradAD deltaL2GradD gamma cost (fun i => const (a i)) (fun i => ⟨alpha i, alpha' i⟩) (fun j => ⟨beta j, beta' j⟩) i).tan = 0) ∧
      ∀ j, (dualGradBD deltaL2GradD gamma cost (fun j => const (b j)) (fun i => ⟨alpha i, alpha' i⟩) (fun j => ⟨beta j, beta' j⟩) j).tan = 0) ∧
    ∀ (alpha' : Fin m → ℝ) (beta' : Fin n → ℝ),
      ((∀ i, (dualGradAD deltaL2GradD gamma cost (fun i => const (a i)) (fun i => ⟨alpha i, alpha' i⟩) (fun j => ⟨beta j, beta' j⟩) i).tan = 0) ∧
      ∀ j, (dualGradBD deltaL2GradD gamma cost (fun j => const (b j)) (fun i => ⟨alpha i, alpha' i⟩) (fun j => ⟨beta j, beta' j⟩) j).tan = 0) →
      ∃ P : ℝ → Fin m → Fin n → ℝ,
        (∀ᶠ t in 𝓝 (0 : ℝ), IsUniqueProj (Polytope a b) (fun ij => -C ij.1 ij.2 t / gamma) (flat (P t))) ∧
        ∀ i j, Tracks (fun t => P t i j) (dualPlanD deltaL2GradD gamma cost (fun i => ⟨alpha i, alpha' i⟩) (fun j => ⟨beta j, beta' j⟩) i j) := by
  obtain ⟨U, V, hU0, hV0, hU, hV, hst⟩ := l2_branch hg hC a b alpha beta h0 hk
  obtain rfl : (fun i => U i 0) = alpha := funext hU0
  obtain rfl : (fun j => V j 0) = beta := funext hV0
  refine ⟨⟨fun i => deriv (U i) 0, fun j => deriv (V j) 0, ?_⟩, fun alpha' beta' hs =>
    C136_dual_l2 hg hC (A := fun i _ => a i) (B := fun j _ => b j) (fun i => tracks_const (a i)) (fun j => tracks_const (b j)) hU hV hst hk alpha' beta' hs⟩
  have tP : ∀ i j, Tracks (fun t => dualPlan deltaL2Grad gamma (fun i j => C i j t) (fun i => U i t, fun j => V j t) i j)
      (dualPlanD deltaL2GradD gamma cost (fun i => ⟨U i 0, deriv (U i) 0⟩) (fun j => ⟨V j 0, deriv (V j) 0⟩) i j) := fun i j =>
    tracks_mul (tracks_const _) (tracks_mul (tracks_const 2) (tracks_relu (tracks_sub (tracks_add ⟨rfl, (hU i).hasDerivAt⟩ ⟨rfl, (hV j).hasDerivAt⟩) (hC i j)) (by
      show U i 0 + V j 0 - (cost i j).val ≠ 0
      rw [← (hC i j).1]; exact hk i j)))
  exact ⟨curve_solves tP (fun i => tracks_const (a i)) (by filter_upwards [hst] with t ht using ht.1),
    curve_solves (fun j i => tP i j) (fun j => tracks_const (b j)) (by filter_upwards [hst] with t ht using ht.2)⟩

/-! ## Entropic regularisation -/

/-- The gradient of the entropic dual objective with a term that pins the free constant. -/
noncomputable def pinned (gamma κ0 : ℝ) (C : Fin m → Fin n → ℝ → ℝ) (A : Fin m → ℝ → ℝ) (B : Fin n → ℝ → ℝ) (s : EuclideanSpace ℝ (Fin m ⊕ Fin n))
    (θ : Unit → ℝ) : EuclideanSpace ℝ (Fin m ⊕ Fin n) :=
  WithLp.toLp 2 (Sum.elim
    (fun i => (∑ j, Real.exp ((s (Sum.inl i) + s (Sum.inr j) - C i j (θ ())) / gamma - 1)) - A i (θ ()) +
      ((∑ i, s (Sum.inl i)) - (∑ j, s (Sum.inr j)) - κ0))
    (fun j => (∑ i, Real.exp ((s (Sum.inl i) + s (Sum.inr j) - C i j (θ ())) / gamma - 1)) - B j (θ ()) -
      ((∑ i, s (Sum.inl i)) - (∑ j, s (Sum.inr j)) - κ0)))

theorem partial_diff {E P G : Type*} [NormedAddCommGroup E] [NormedSpace ℝ E] [NormedAddCommGroup P] [NormedSpace ℝ P] [NormedAddCommGroup G]
    [NormedSpace ℝ G] {F : E → P → G} {s : E} {θ : P} (hF : ContDiffAt ℝ 1 (fun v : P × E => F v.2 v.1) (θ, s)) : DifferentiableAt ℝ (fun s => F s θ) s :=
  (HasFDerivAt.comp (g := fun v : P × E => F v.2 v.1) s (f := fun s => (θ, s)) (hF.differentiableAt (by norm_num)).hasFDerivAt
    (hasFDerivAt_prodMk_right θ s)).differentiableAt

theorem line_deriv_zero {E ι : Type*} [NormedAddCommGroup E] [NormedSpace ℝ E] [Fintype ι] {G : E → EuclideanSpace ℝ ι} {s : E}
    (hG : DifferentiableAt ℝ G s) {d : E} (hd : fderiv ℝ G s d = 0) (k : ι) : HasDerivAt (fun r : ℝ => G (s + r • d) k) 0 0 := by
  have hline : HasDerivAt (fun r : ℝ => s + r • d) d 0 := by
    simpa using ((hasDerivAt_id' (0 : ℝ)).smul_const d).const_add s
  have hf' : HasFDerivAt G (fderiv ℝ G s) (s + (0 : ℝ) • d) := by
    rw [zero_smul, add_zero]; exact hG.hasFDerivAt
  have h1 := HasFDerivAt.comp_hasDerivAt (l := G) (f := fun r : ℝ => s + r • d) 0 hf' hline
  rw [hd] at h1
  have h2 := (EuclideanSpace.proj k : EuclideanSpace ℝ ι →L[ℝ] ℝ).hasFDerivAt.comp_hasDerivAt (0 : ℝ) h1
  rw [map_zero] at h2
  exact h2

theorem pinned_contDiff {gamma : ℝ} (hg : 0 < gamma) (κ0 : ℝ) (C : Fin m → Fin n → ℝ → ℝ) (A : Fin m → ℝ → ℝ) (B : Fin n → ℝ → ℝ)
    (hC : ∀ i j, ContDiffAt ℝ 1 (C i j) 0) (hA : ∀ i, ContDiffAt ℝ 1 (A i) 0) (hB : ∀ j, ContDiffAt ℝ 1 (B j) 0) (s0 : EuclideanSpace ℝ (Fin m ⊕ Fin n)) :
    ContDiffAt ℝ 1 (fun v : (Unit → ℝ) × EuclideanSpace ℝ (Fin m ⊕ Fin n) => pinned gamma κ0 C A B v.2 v.1) ((fun _ => 0), s0) := by
  rw [contDiffAt_euclidean]
  have ht : ContDiffAt ℝ 1 (fun v : (Unit → ℝ) × EuclideanSpace ℝ (Fin m ⊕ Fin n) => v.1 ()) ((fun _ => 0), s0) :=
    ((contDiff_apply ℝ ℝ ()).comp contDiff_fst).contDiffAt
  have hs : ∀ k, ContDiffAt ℝ 1 (fun v : (Unit → ℝ) × EuclideanSpace ℝ (Fin m ⊕ Fin n) => v.2 k) ((fun _ => 0), s0) := fun k =>
    (contDiffAt_euclidean.1 contDiffAt_snd) k
  have hc : ∀ i j, ContDiffAt ℝ 1 (fun v : (Unit → ℝ) × EuclideanSpace ℝ (Fin m ⊕ Fin n) => C i j (v.1 ())) ((fun _ => 0), s0) := fun i j =>
    ContDiffAt.comp (g := C i j) _ (hC i j) ht
  have ha : ∀ i, ContDiffAt ℝ 1 (fun v : (Unit → ℝ) × EuclideanSpace ℝ (Fin m ⊕ Fin n) => A i (v.1 ())) ((fun _ => 0), s0) := fun i =>
    ContDiffAt.comp (g := A i) _ (hA i) ht
  have hb : ∀ j, ContDiffAt ℝ 1 (fun v : (Unit → ℝ) × EuclideanSpace ℝ (Fin m ⊕ Fin n) => B j (v.1 ())) ((fun _ => 0), s0) := fun j =>
    ContDiffAt.comp (g := B j) _ (hB j) ht
  have he : ∀ i j, ContDiffAt ℝ 1 (fun v : (Unit → ℝ) × EuclideanSpace ℝ (Fin m ⊕ Fin n) =>
      Real.exp ((v.2 (Sum.inl i) + v.2 (Sum.inr j) - C i j (v.1 ())) / gamma - 1)) ((fun _ => 0), s0) := fun i j =>
    (((((hs (Sum.inl i)).add (hs (Sum.inr j))).sub (hc i j)).div_const gamma).sub contDiffAt_const).exp
  have hk : ContDiffAt ℝ 1 (fun v : (Unit → ℝ) × EuclideanSpace ℝ (Fin m ⊕ Fin n) =>
      (∑ i, v.2 (Sum.inl i)) - (∑ j, v.2 (Sum.inr j)) - κ0) ((fun _ => 0), s0) :=
    ((ContDiffAt.sum fun i _ => hs (Sum.inl i)).sub (ContDiffAt.sum fun j _ => hs (Sum.inr j))).sub contDiffAt_const
  rintro (i | j)
  · exact ((ContDiffAt.sum fun j _ => he i j).sub (ha i)).add hk
  · exact ((ContDiffAt.sum fun i _ => he i j).sub (hb j)).sub hk

theorem pinned_inj (hm : 0 < m) (hn : 0 < n) {gamma : ℝ} (hg : 0 < gamma) (κ0 : ℝ) (C : Fin m → Fin n → ℝ → ℝ) (A : Fin m → ℝ → ℝ) (B : Fin n → ℝ → ℝ)
    (hC : ∀ i j, ContDiffAt ℝ 1 (C i j) 0) (hA : ∀ i, ContDiffAt ℝ 1 (A i) 0) (hB : ∀ j, ContDiffAt ℝ 1 (B j) 0) (s0 : EuclideanSpace ℝ (Fin m ⊕ Fin n))
    (d : EuclideanSpace ℝ (Fin m ⊕ Fin n)) (hd : fderiv ℝ (fun s => pinned gamma κ0 C A B s (fun _ => 0)) s0 d = 0) : d = 0 := by
  have hk : ∀ k, HasDerivAt (fun r : ℝ => pinned gamma κ0 C A B (s0 + r • d) (fun _ => 0) k) 0 0 :=
    line_deriv_zero (partial_diff (pinned_contDiff hg κ0 C A B hC hA hB s0)) hd
  have hsc : ∀ k, HasDerivAt (fun r : ℝ => s0 k + r * d k) (d k) 0 := fun k =>
    (((hasDerivAt_id' (0 : ℝ)).mul_const (d k)).const_add (s0 k)).congr_deriv (by ring)
  set h : Fin m → Fin n → ℝ := fun i j => Real.exp ((s0 (Sum.inl i) + s0 (Sum.inr j) - C i j 0) / gamma - 1) / gamma with hh
  have hpos : ∀ i j, 0 < h i j := fun i j => div_pos (Real.exp_pos _) hg
  set κ : ℝ := (∑ i, d (Sum.inl i)) - ∑ j, d (Sum.inr j) with hκ'
  have hexp : ∀ i j, HasDerivAt (fun r : ℝ => Real.exp (((s0 (Sum.inl i) + r * d (Sum.inl i)) + (s0 (Sum.inr j) + r * d (Sum.inr j)) - C i j 0) / gamma - 1))
      (h i j * (d (Sum.inl i) + d (Sum.inr j))) 0 := fun i j => by
    refine (((((hsc (Sum.inl i)).add (hsc (Sum.inr j))).sub_const (C i j 0)).div_const gamma).sub_const 1).exp.congr_deriv ?_
    show Real.exp (((s0 (Sum.inl i) + 0 * d (Sum.inl i)) + (s0 (Sum.inr j) + 0 * d (Sum.inr j)) - C i j 0) / gamma - 1) *
      ((d (Sum.inl i) + d (Sum.inr j)) / gamma) = _
    rw [zero_mul, zero_mul, add_zero, add_zero, hh]
    ring
  have hpin : HasDerivAt (fun r : ℝ => (∑ i, (s0 (Sum.inl i) + r * d (Sum.inl i))) - (∑ j, (s0 (Sum.inr j) + r * d (Sum.inr j))) - κ0) κ 0 :=
    ((HasDerivAt.fun_sum fun i _ => hsc (Sum.inl i)).sub (HasDerivAt.fun_sum fun j _ => hsc (Sum.inr j))).sub_const κ0
  have hr : ∀ i, ∑ j, h i j * (d (Sum.inl i) + d (Sum.inr j)) + κ = 0 := fun i =>
    (((HasDerivAt.fun_sum fun j _ => hexp i j).sub_const (A i 0)).add hpin).unique (hk (Sum.inl i))
  have hcl : ∀ j, ∑ i, h i j * (d (Sum.inl i) + d (Sum.inr j)) - κ = 0 := fun j =>
    (((HasDerivAt.fun_sum fun i _ => hexp i j).sub_const (B j 0)).sub hpin).unique (hk (Sum.inr j))
  have hκ0 : κ = 0 := by
    have e1 : ∑ i, (∑ j, h i j * (d (Sum.inl i) + d (Sum.inr j)) + κ) = 0 := Finset.sum_eq_zero fun i _ => hr i
    have e2 : ∑ j, (∑ i, h i j * (d (Sum.inl i) + d (Sum.inr j)) - κ) = 0 := Finset.sum_eq_zero fun j _ => hcl j
    rw [Finset.sum_add_distrib] at e1
    rw [Finset.sum_sub_distrib, Finset.sum_comm] at e2
    simp only [Finset.sum_const, Finset.card_univ, Fintype.card_fin, nsmul_eq_mul] at e1 e2
    have hm' : (0 : ℝ) < m := Nat.cast_pos.mpr hm
    have hn' : (0 : ℝ) < n := Nat.cast_pos.mpr hn
    have : ((m : ℝ) + n) * κ = 0 := by linarith
    exact (mul_eq_zero.1 this).resolve_left (by positivity)
  have hker := laplacian_kernel h (fun i j => (hpos i j).le) (fun i => d (Sum.inl i)) (fun j => d (Sum.inr j))
    (fun i => by have := hr i; rw [hκ0, add_zero] at this; exact this) (fun j => by have := hcl j; rw [hκ0, sub_zero] at this; exact this)
  have hsum : ∀ i j, d (Sum.inl i) + d (Sum.inr j) = 0 := fun i j => (mul_eq_zero.1 (hker i j)).resolve_left (hpos i j).ne'
  have hi : ∀ i, d (Sum.inl i) = -d (Sum.inr ⟨0, hn⟩) := fun i => by linarith [hsum i ⟨0, hn⟩]
  have hj : ∀ j, d (Sum.inr j) = d (Sum.inr ⟨0, hn⟩) := fun j => by linarith [hsum ⟨0, hm⟩ j, hsum ⟨0, hm⟩ ⟨0, hn⟩]
  have hz : d (Sum.inr ⟨0, hn⟩) = 0 := by
    rw [hκ'] at hκ0
    rw [Finset.sum_congr rfl fun i _ => hi i, Finset.sum_congr rfl fun j _ => hj j] at hκ0
    simp only [Finset.sum_const, Finset.card_univ, Fintype.card_fin, nsmul_eq_mul] at hκ0
    have hm' : (0 : ℝ) < m := Nat.cast_pos.mpr hm
    have hn' : (0 : ℝ) < n := Nat.cast_pos.mpr hn
    have : ((m : ℝ) + n) * d (Sum.inr ⟨0, hn⟩) = 0 := by linarith
    exact (mul_eq_zero.1 this).resolve_left (by positivity)
  ext k
  rcases k with i | j
  · show d (Sum.inl i) = 0
    rw [hi, hz, neg_zero]
  · show d (Sum.inr j) = 0
    rw [hj, hz]

/-- Stationary potentials of the entropic dual extend to a differentiable curve of stationary potentials. -/
theorem ent_branch (hm : 0 < m) (hn : 0 < n) {gamma : ℝ} (hg : 0 < gamma) (C : Fin m → Fin n → ℝ → ℝ) (A : Fin m → ℝ → ℝ) (B : Fin n → ℝ → ℝ)
    (hC : ∀ i j, ContDiffAt ℝ 1 (C i j) 0) (hA : ∀ i, ContDiffAt ℝ 1 (A i) 0) (hB : ∀ j, ContDiffAt ℝ 1 (B j) 0)
    (hmass : ∀ᶠ t in 𝓝 (0 : ℝ), ∑ i, A i t = ∑ j, B j t) (alpha : Fin m → ℝ) (beta : Fin n → ℝ)
    (h0 : (∀ i, ∑ j, dualPlan deltaEntGrad gamma (fun i j => C i j 0) (alpha, beta) i j = A i 0) ∧
      ∀ j, ∑ i, dualPlan deltaEntGrad gamma (fun i j => C i j 0) (alpha, beta) i j = B j 0) :
    ∃ (U : Fin m → ℝ → ℝ) (V : Fin n → ℝ → ℝ), (∀ i, U i 0 = alpha i) ∧ (∀ j, V j 0 = beta j) ∧ (∀ i, DifferentiableAt ℝ (U i) 0) ∧
      (∀ j, DifferentiableAt ℝ (V j) 0) ∧
      ∀ᶠ t in 𝓝 (0 : ℝ), (∀ i, ∑ j, dualPlan deltaEntGrad gamma (fun i j => C i j t) (fun i => U i t, fun j => V j t) i j = A i t) ∧
        ∀ j, ∑ i, dualPlan deltaEntGrad gamma (fun i j => C i j t) (fun i => U i t, fun j => V j t) i j = B j t := by
  set κ0 : ℝ := (∑ i, alpha i) - ∑ j, beta j with hκ
  set s0 : EuclideanSpace ℝ (Fin m ⊕ Fin n) := WithLp.toLp 2 (Sum.elim alpha beta) with hs0
  have hroot : pinned gamma κ0 C A B s0 (fun _ => 0) = 0 := by
    ext k
    rcases k with i | j
    · show (∑ j, Real.exp ((alpha i + beta j - C i j 0) / gamma - 1)) - A i 0 + ((∑ i, alpha i) - (∑ j, beta j) - κ0) = 0
      have := h0.1 i
      simp only [dualPlan, deltaEntGrad] at this
      rw [this, hκ]; ring
    · show (∑ i, Real.exp ((alpha i + beta j - C i j 0) / gamma - 1)) - B j 0 - ((∑ i, alpha i) - (∑ j, beta j) - κ0) = 0
      have := h0.2 j
      simp only [dualPlan, deltaEntGrad] at this
      rw [this, hκ]; ring
  obtain ⟨p, hp0, hp, -⟩ := Jaxopt.Implicit.exists_branch (ι := Unit) (P := fun _ => ℝ) (pinned_contDiff hg κ0 C A B hC hA hB s0) hroot
    (pinned_inj hm hn hg κ0 C A B hC hA hB s0)
  have hlift : HasDerivAt (fun t : ℝ => (fun _ : Unit => t)) (fun _ => 1) 0 := hasDerivAt_pi.2 fun _ => hasDerivAt_id' 0
  have hcurve : DifferentiableAt ℝ (fun t : ℝ => p (fun _ => t)) 0 :=
    DifferentiableAt.comp (g := p) (f := fun t : ℝ => (fun _ : Unit => t)) 0 hp.diffx hlift.differentiableAt
  have hcomp : ∀ k, DifferentiableAt ℝ (fun t : ℝ => p (fun _ => t) k) 0 := fun k => (differentiableAt_euclidean.1 hcurve) k
  refine ⟨fun i t => p (fun _ => t) (Sum.inl i), fun j t => p (fun _ => t) (Sum.inr j), fun i => ?_, fun j => ?_, fun i => hcomp _, fun j => hcomp _, ?_⟩
  · show p (fun _ => 0) (Sum.inl i) = _
    rw [hp0]
    rfl
  · show p (fun _ => 0) (Sum.inr j) = _
    rw [hp0]
    rfl
  · have hev : ∀ᶠ t in 𝓝 (0 : ℝ), pinned gamma κ0 C A B (p fun _ => t) (fun _ => t) = 0 := hlift.continuousAt.eventually hp.root
    filter_upwards [hev, hmass] with t ht hab
    set s := p (fun _ => t) with hs
    set κ : ℝ := (∑ i, s (Sum.inl i)) - (∑ j, s (Sum.inr j)) - κ0 with hκ'
    have e1 : ∀ i, (∑ j, Real.exp ((s (Sum.inl i) + s (Sum.inr j) - C i j t) / gamma - 1)) - A i t + κ = 0 := fun i =>
      congrArg (fun w : EuclideanSpace ℝ (Fin m ⊕ Fin n) => w (Sum.inl i)) ht
    have e2 : ∀ j, (∑ i, Real.exp ((s (Sum.inl i) + s (Sum.inr j) - C i j t) / gamma - 1)) - B j t - κ = 0 := fun j =>
      congrArg (fun w : EuclideanSpace ℝ (Fin m ⊕ Fin n) => w (Sum.inr j)) ht
    have hκz : κ = 0 := by
      have f1 : ∑ i, ((∑ j, Real.exp ((s (Sum.inl i) + s (Sum.inr j) - C i j t) / gamma - 1)) - A i t + κ) = 0 := Finset.sum_eq_zero fun i _ => e1 i
      have f2 : ∑ j, ((∑ i, Real.exp ((s (Sum.inl i) + s (Sum.inr j) - C i j t) / gamma - 1)) - B j t - κ) = 0 := Finset.sum_eq_zero fun j _ => e2 j
      rw [Finset.sum_add_distrib, Finset.sum_sub_distrib] at f1
      rw [Finset.sum_sub_distrib, Finset.sum_sub_distrib, Finset.sum_comm] at f2
      simp only [Finset.sum_const, Finset.card_univ, Fintype.card_fin, nsmul_eq_mul] at f1 f2
      have hm' : (0 : ℝ) < m := Nat.cast_pos.mpr hm
      have hn' : (0 : ℝ) < n := Nat.cast_pos.mpr hn
      have : ((m : ℝ) + n) * κ = 0 := by linarith
      exact (mul_eq_zero.1 this).resolve_left (by positivity)
    constructor
    · intro i
      have := e1 i
      rw [hκz] at this
      show (∑ j, Real.exp ((s (Sum.inl i) + s (Sum.inr j) - C i j t) / gamma - 1)) = A i t
      linarith
    · intro j
      have := e2 j
      rw [hκz] at this
      show (∑ i, Real.exp ((s (Sum.inl i) + s (Sum.inr j) - C i j t) / gamma - 1)) = B j t
      linarith

/-- C136, dual formulation with entropic regularisation (`use_semi_dual=False`): for continuously differentiable costs and marginals of equal mass, stationary
potentials give the Kullback-Leibler projection at zero, nearby projections form a differentiable curve, the implicit equations have a solution, and every
solution gives the derivative of the projection. -/
theorem C136_dual_ent (hm : 0 < m) (hn : 0 < n) {gamma : ℝ} (hg : 0 < gamma) (C : Fin m → Fin n → ℝ → ℝ) (A : Fin m → ℝ → ℝ) (B : Fin n → ℝ → ℝ)
    (hC : ∀ i j, ContDiffAt ℝ 1 (C i j) 0) (hA : ∀ i, ContDiffAt ℝ 1 (A i) 0) (hB : ∀ j, ContDiffAt ℝ 1 (B j) 0)
    (hmass : ∀ᶠ t in 𝓝 (0 : ℝ), ∑ i, A i t = ∑ j, B j t) (alpha : Fin m → ℝ) (beta : Fin n → ℝ)
    (h0 : (∀ i, ∑ j, dualPlan deltaEntGrad gamma (fun i j => C i j 0) (alpha, beta) i j = A i 0) ∧
      ∀ j, ∑ i, dualPlan deltaEntGrad gamma (fun i j => C i j 0) (alpha, beta) i j = B j 0)
    (cost : Fin m → Fin n → Dual ℝ) (a : Fin m → Dual ℝ) (b : Fin n → Dual ℝ) (hcost : ∀ i j, Tracks (C i j) (cost i j)) (ha : ∀ i, Tracks (A i) (a i))
    (hb : ∀ j, Tracks (B j) (b j)) :
    ∃ P : ℝ → Fin m → Fin n → ℝ,
      (∀ᶠ t in 𝓝 (0 : ℝ), IsUniqueKLProj (Polytope (fun i => A i t) (fun j => B j t)) (fun ij => Real.exp (-C ij.1 ij.2 t / gamma)) (flat (P t))) ∧
      (∃ (alpha' : Fin m → ℝ) (beta' : Fin n → ℝ),
        (∀ i, (dualGradAD deltaEntGradD gamma cost a (fun i => ⟨alpha i, alpha' i⟩) (fun j => ⟨beta j, beta' j⟩) i).tan = 0) ∧
        ∀ j, (dualGradBD deltaEntGradD gamma cost b (fun i => ⟨alpha i, alpha' i⟩) (fun j => ⟨beta j, beta' j⟩) j).tan = 0) ∧
      ∀ (alpha' : Fin m → ℝ) (beta' : Fin n → ℝ),
        ((∀ i, (dualGradAD deltaEntGradD gamma cost a (fun i => ⟨alpha i, alpha' i⟩) (fun j => ⟨beta j, beta' j⟩) i).tan = 0) ∧
        ∀ j, (dualGradBD deltaEntGradD gamma cost b (fun i => ⟨alpha i, alpha' i⟩) (fun j => ⟨beta j, beta' j⟩) j).tan = 0) →
        ∀ i j, Tracks (fun t => P t i j) (dualPlanD deltaEntGradD gamma cost (fun i => ⟨alpha i, alpha' i⟩) (fun j => ⟨beta j, beta' j⟩) i j) := by
  obtain ⟨U, V, hU0, hV0, hU, hV, hst⟩ := ent_branch hm hn hg C A B hC hA hB hmass alpha beta h0
  set P : ℝ → Fin m → Fin n → ℝ := fun t => dualPlan deltaEntGrad gamma (fun i j => C i j t) (fun i => U i t, fun j => V j t) with hPdef
  have tU : ∀ i, Tracks (U i) ⟨alpha i, deriv (U i) 0⟩ := fun i => ⟨hU0 i, (hU i).hasDerivAt⟩
  have tV : ∀ j, Tracks (V j) ⟨beta j, deriv (V j) 0⟩ := fun j => ⟨hV0 j, (hV j).hasDerivAt⟩
  have tP : ∀ i j, Tracks (fun t => P t i j)
      (dualPlanD deltaEntGradD gamma cost (fun i => ⟨alpha i, deriv (U i) 0⟩) (fun j => ⟨beta j, deriv (V j) 0⟩) i j) := fun i j =>
    tracks_deltaEnt (x := fun i => sub (add ⟨alpha i, deriv (U i) 0⟩ ⟨beta j, deriv (V j) 0⟩) (cost i j)) hg.ne'
      (tracks_sub (tracks_add (tU i) (tV j)) (hcost i j))
  have hsol := And.intro (curve_solves tP ha (by filter_upwards [hst] with t ht using ht.1))
    (curve_solves (fun j i => tP i j) hb (by filter_upwards [hst] with t ht using ht.2))
  refine ⟨P, ?_, ⟨_, _, hsol⟩, fun alpha' beta' hs i j => ?_⟩
  · filter_upwards [hst] with t ht
    refine potentials_isUniqueKLProj gamma (fun i j => C i j t) _ _ (P t) (fun i j => Real.exp_pos _) (fun i => U i t) (fun j => V j t - gamma) (fun i j => ?_)
      ht.1 ht.2
    show Real.log (Real.exp ((U i t + V j t - C i j t) / gamma - 1)) = _
    rw [Real.log_exp]
    field_simp
    ring
  · have e := dual_tan_unique (deltaGradD := deltaEntGradD) (gamma := gamma) (fun i j => Real.exp ((alpha i + beta j - (cost i j).val) / gamma - 1) / gamma)
      (fun i j => by positivity) cost a b (fun i => ⟨alpha i, deriv (U i) 0⟩) (fun i => ⟨alpha i, alpha' i⟩) (fun j => ⟨beta j, deriv (V j) 0⟩)
      (fun j => ⟨beta j, beta' j⟩) (fun i j => dualEnt_tan hg.ne' cost _ _ i j) (fun i j => dualEnt_tan hg.ne' cost _ _ i j) hsol hs i j
    exact tracks_congr (tP i j) (Filter.EventuallyEq.refl _ _) rfl e

/-- Softmax weights: a direction that leaves the mixture of the columns unchanged leaves every column with positive weight unchanged. -/
theorem softmax_kernel (q : Fin m → Fin n → ℝ) (h0 : ∀ i j, 0 ≤ q i j) (h1 : ∀ j, ∑ i, q i j = 1) (g : Fin n → ℝ) (hg : ∀ j, 0 ≤ g j) (w : Fin m → ℝ)
    (hw : ∀ i, ∑ j, g j * (q i j * (w i - ∑ k, q k j * w k)) = 0) (i : Fin m) (j : Fin n) : g j * (q i j * (w i - ∑ k, q k j * w k)) = 0 := by
  have := laplacian_kernel (fun i j => g j * q i j) (fun i j => mul_nonneg (hg j) (h0 i j)) w (fun j => -∑ k, q k j * w k)
    (fun i => by rw [← hw i]; exact Finset.sum_congr rfl fun j _ => by ring) (fun j => by
      have : ∀ i, g j * q i j * (w i + -∑ k, q k j * w k) = g j * (q i j * w i) - g j * (∑ k, q k j * w k) * q i j := fun i => by ring
      simp only [this]
      rw [Finset.sum_sub_distrib, ← Finset.mul_sum, ← Finset.mul_sum, h1]
      ring) i j
  linarith [this]

theorem maxEnt_tan {gamma : ℝ} (hm : 0 < m) (hg : gamma ≠ 0) (x : Fin m → Dual ℝ) (b : Dual ℝ) (i : Fin m) :
    (maxEntGradD x b gamma i).tan = maxEntGrad (fun k => (x k).val) b.val gamma i / gamma *
      ((x i).tan - ∑ k, maxEntGrad (fun k => (x k).val) b.val gamma k * (x k).tan) := by
  have hZ : 0 < ∑ k : Fin m, Real.exp ((x k).val / gamma) := by
    have : Nonempty (Fin m) := ⟨⟨0, hm⟩⟩
    exact Finset.sum_pos (fun k _ => Real.exp_pos _) Finset.univ_nonempty
  simp only [maxEntGradD, maxEntGrad, div, expD, sumD, const]
  set Z := ∑ k : Fin m, Real.exp ((x k).val / gamma) with hZdef
  have e1 : ∑ k, Real.exp ((x k).val / gamma) * ((x k).tan / gamma + -(x k).val / gamma ^ 2 * 0) = (∑ k, Real.exp ((x k).val / gamma) * (x k).tan) / gamma := by
    rw [Finset.sum_div]
    exact Finset.sum_congr rfl fun k _ => by ring
  have e2 : ∑ k, Real.exp ((x k).val / gamma) / Z * (x k).tan = (∑ k, Real.exp ((x k).val / gamma) * (x k).tan) / Z := by
    rw [Finset.sum_div]
    exact Finset.sum_congr rfl fun k _ => by ring
  rw [e1, e2]
  have := hZ.ne'
  field_simp
  ring

theorem tracks_maxEnt {gamma : ℝ} (hm : 0 < m) (hg : gamma ≠ 0) {X : Fin m → ℝ → ℝ} {x : Fin m → Dual ℝ} (h : ∀ i, Tracks (X i) (x i)) (B : ℝ → ℝ) (b : Dual ℝ)
    (i : Fin m) : Tracks (fun t => maxEntGrad (fun k => X k t) (B t) gamma i) (maxEntGradD x b gamma i) := by
  refine tracks_div (tracks_exp (tracks_div (h i) (tracks_const gamma) hg)) (tracks_sumD fun k => tracks_exp (tracks_div (h k) (tracks_const gamma) hg)) ?_
  have : Nonempty (Fin m) := ⟨⟨0, hm⟩⟩
  have h2 : 0 < ∑ k : Fin m, Real.exp ((x k).val / gamma) := Finset.sum_pos (fun k _ => Real.exp_pos _) Finset.univ_nonempty
  exact h2.ne'

/-- Dual plans with the column sums `b` are semi-dual plans. -/
theorem semi_of_dual (hm : 0 < m) {gamma : ℝ} (hg : gamma ≠ 0) (cost : Fin m → Fin n → ℝ) (b : Fin n → ℝ) (alpha : Fin m → ℝ) (beta : Fin n → ℝ)
    (hc : ∀ j, ∑ i, dualPlan deltaEntGrad gamma cost (alpha, beta) i j = b j) (i : Fin m) (j : Fin n) :
    semiDualPlan maxEntGrad gamma cost b alpha i j = dualPlan deltaEntGrad gamma cost (alpha, beta) i j := by
  have hZ : 0 < ∑ k : Fin m, Real.exp ((alpha k - cost k j) / gamma) := by
    have : Nonempty (Fin m) := ⟨⟨0, hm⟩⟩
    exact Finset.sum_pos (fun k _ => Real.exp_pos _) Finset.univ_nonempty
  have hd : ∀ k, dualPlan deltaEntGrad gamma cost (alpha, beta) k j = Real.exp ((alpha k - cost k j) / gamma) * Real.exp (beta j / gamma - 1) := fun k => by
    rw [← Real.exp_add]
    show Real.exp ((alpha k + beta j - cost k j) / gamma - 1) = _
    congr 1
    ring
  have hs := hc j
  simp only [hd] at hs
  rw [← Finset.sum_mul] at hs
  rw [hd]
  show Real.exp ((alpha i - cost i j) / gamma) / (∑ k, Real.exp ((alpha k - cost k j) / gamma)) * b j = _
  rw [← hs]
  have := hZ.ne'
  field_simp

/-- Semi-dual plans are dual plans. -/
theorem dual_of_semi (hm : 0 < m) {gamma : ℝ} (hg : gamma ≠ 0) (cost : Fin m → Fin n → ℝ) (b : Fin n → ℝ) (hb : ∀ j, 0 < b j) (alpha : Fin m → ℝ) :
    ∃ beta : Fin n → ℝ, ∀ i j, dualPlan deltaEntGrad gamma cost (alpha, beta) i j = semiDualPlan maxEntGrad gamma cost b alpha i j := by
  refine ⟨fun j => gamma * (1 + Real.log (b j) - Real.log (∑ k, Real.exp ((alpha k - cost k j) / gamma))), fun i j => ?_⟩
  have hZ : 0 < ∑ k : Fin m, Real.exp ((alpha k - cost k j) / gamma) := by
    have : Nonempty (Fin m) := ⟨⟨0, hm⟩⟩
    exact Finset.sum_pos (fun k _ => Real.exp_pos _) Finset.univ_nonempty
  show Real.exp ((alpha i + gamma * (1 + Real.log (b j) - Real.log (∑ k, Real.exp ((alpha k - cost k j) / gamma))) - cost i j) / gamma - 1) =
    Real.exp ((alpha i - cost i j) / gamma) / (∑ k, Real.exp ((alpha k - cost k j) / gamma)) * b j
  have e : (alpha i + gamma * (1 + Real.log (b j) - Real.log (∑ k, Real.exp ((alpha k - cost k j) / gamma))) - cost i j) / gamma - 1 =
      (alpha i - cost i j) / gamma - Real.log (∑ k, Real.exp ((alpha k - cost k j) / gamma)) + Real.log (b j) := by
    generalize Real.log (∑ k, Real.exp ((alpha k - cost k j) / gamma)) = L
    field_simp
    ring
  rw [e, Real.exp_add, Real.exp_sub, Real.exp_log hZ, Real.exp_log (hb j)]

/-- C136, semi-dual formulation with entropic regularisation (the default of `kl_projection_transport`): stationary potentials, the implicit equations have a
solution, and every solution gives the derivative of the Kullback-Leibler projection. -/
theorem C136_semi_dual_ent (hm : 0 < m) (hn : 0 < n) {gamma : ℝ} (hg : 0 < gamma) (C : Fin m → Fin n → ℝ → ℝ) (A : Fin m → ℝ → ℝ) (B : Fin n → ℝ → ℝ)
    (hC : ∀ i j, ContDiffAt ℝ 1 (C i j) 0) (hA : ∀ i, ContDiffAt ℝ 1 (A i) 0) (hB : ∀ j, ContDiffAt ℝ 1 (B j) 0) (hBpos : ∀ j, 0 < B j 0)
    (hmass : ∀ᶠ t in 𝓝 (0 : ℝ), ∑ i, A i t = ∑ j, B j t) (alpha : Fin m → ℝ)
    (h0 : ∀ i, ∑ j, semiDualPlan maxEntGrad gamma (fun i j => C i j 0) (fun j => B j 0) alpha i j = A i 0)
    (cost : Fin m → Fin n → Dual ℝ) (a : Fin m → Dual ℝ) (b : Fin n → Dual ℝ) (hcost : ∀ i j, Tracks (C i j) (cost i j)) (ha : ∀ i, Tracks (A i) (a i))
    (hb : ∀ j, Tracks (B j) (b j)) :
    ∃ P : ℝ → Fin m → Fin n → ℝ,
      (∀ᶠ t in 𝓝 (0 : ℝ), IsUniqueKLProj (Polytope (fun i => A i t) (fun j => B j t)) (fun ij => Real.exp (-C ij.1 ij.2 t / gamma)) (flat (P t))) ∧
      (∃ alpha' : Fin m → ℝ, ∀ i, (semiDualGradD maxEntGradD gamma cost a b (fun i => ⟨alpha i, alpha' i⟩) i).tan = 0) ∧
      ∀ alpha' : Fin m → ℝ, (∀ i, (semiDualGradD maxEntGradD gamma cost a b (fun i => ⟨alpha i, alpha' i⟩) i).tan = 0) →
        ∀ i j, Tracks (fun t => P t i j) (semiDualPlanD maxEntGradD gamma cost b (fun i => ⟨alpha i, alpha' i⟩) i j) := by
  obtain ⟨beta, hbeta⟩ := dual_of_semi hm hg.ne' (fun i j => C i j 0) (fun j => B j 0) hBpos alpha
  have hcol : ∀ j, ∑ i, maxEntGrad (fun i => alpha i - C i j 0) (B j 0) gamma i = 1 := fun j => by
    simp only [maxEntGrad]
    rw [← Finset.sum_div]
    have : Nonempty (Fin m) := ⟨⟨0, hm⟩⟩
    exact div_self (Finset.sum_pos (fun k _ => Real.exp_pos _) Finset.univ_nonempty).ne'
  have h0' : (∀ i, ∑ j, dualPlan deltaEntGrad gamma (fun i j => C i j 0) (alpha, beta) i j = A i 0) ∧
      ∀ j, ∑ i, dualPlan deltaEntGrad gamma (fun i j => C i j 0) (alpha, beta) i j = B j 0 := by
    simp only [hbeta]
    refine ⟨h0, fun j => ?_⟩
    simp only [semiDualPlan]
    rw [← Finset.sum_mul, hcol, one_mul]
  obtain ⟨U, V, hU0, hV0, hU, hV, hst⟩ := ent_branch hm hn hg C A B hC hA hB hmass alpha beta h0'
  set P : ℝ → Fin m → Fin n → ℝ := fun t => dualPlan deltaEntGrad gamma (fun i j => C i j t) (fun i => U i t, fun j => V j t) with hPdef
  have tU : ∀ i, Tracks (U i) ⟨alpha i, deriv (U i) 0⟩ := fun i => ⟨hU0 i, (hU i).hasDerivAt⟩
  have hPeq : ∀ᶠ t in 𝓝 (0 : ℝ), ∀ i j, P t i j = semiDualPlan maxEntGrad gamma (fun i j => C i j t) (fun j => B j t) (fun i => U i t) i j := by
    filter_upwards [hst] with t ht i j
    exact (semi_of_dual hm hg.ne' _ _ _ _ ht.2 i j).symm
  have tp : ∀ i j, Tracks (fun t => maxEntGrad (fun i => U i t - C i j t) (B j t) gamma i)
      (maxEntGradD (fun i => sub ⟨alpha i, deriv (U i) 0⟩ (cost i j)) (b j) gamma i) := fun i j =>
    tracks_maxEnt hm hg.ne' (fun k => tracks_sub (tU k) (hcost k j)) (B j) (b j) i
  have tP : ∀ i j, Tracks (fun t => P t i j) (semiDualPlanD maxEntGradD gamma cost b (fun i => ⟨alpha i, deriv (U i) 0⟩) i j) := fun i j =>
    tracks_congr (tracks_mul (tp i j) (hb j)) (by filter_upwards [hPeq] with t ht using ht i j) rfl rfl
  have hsol : ∀ i, (semiDualGradD maxEntGradD gamma cost a b (fun i => ⟨alpha i, deriv (U i) 0⟩) i).tan = 0 := by
    refine curve_solves (P := fun i j t => P t i j) (fun i j => ?_) ha (by filter_upwards [hst] with t ht using ht.1)
    refine tracks_congr (tracks_mul (hb j) (tp i j)) ?_ rfl rfl
    filter_upwards [hPeq] with t ht
    rw [ht i j]
    exact mul_comm _ _
  refine ⟨P, ?_, ⟨_, hsol⟩, fun alpha' hs i j => ?_⟩
  · filter_upwards [hst] with t ht
    refine potentials_isUniqueKLProj gamma (fun i j => C i j t) _ _ (P t) (fun i j => Real.exp_pos _) (fun i => U i t) (fun j => V j t - gamma) (fun i j => ?_)
      ht.1 ht.2
    show Real.log (Real.exp ((U i t + V j t - C i j t) / gamma - 1)) = _
    rw [Real.log_exp]
    field_simp
    ring
  · set q : Fin m → Fin n → ℝ := fun i j => maxEntGrad (fun k => alpha k - (cost k j).val) (b j).val gamma i with hq
    have hbv : ∀ j, 0 < (b j).val := fun j => by rw [← (hb j).1]; exact hBpos j
    have hq0 : ∀ i j, 0 ≤ q i j := fun i j => div_nonneg (Real.exp_pos _).le (Finset.sum_nonneg fun k _ => (Real.exp_pos _).le)
    have hq1 : ∀ j, ∑ i, q i j = 1 := fun j => by
      rw [← hcol j]
      refine Finset.sum_congr rfl fun i _ => ?_
      simp only [hq, ← (hcost _ _).1, maxEntGrad]
    have htan : ∀ (d : Fin m → ℝ) i j, (maxEntGradD (fun i => sub ⟨alpha i, d i⟩ (cost i j)) (b j) gamma i).tan =
        q i j / gamma * ((d i - (cost i j).tan) - ∑ k, q k j * (d k - (cost k j).tan)) := fun d i j => maxEnt_tan hm hg.ne' _ _ i
    have hg1 : ∀ (d : Fin m → ℝ) i, (semiDualGradD maxEntGradD gamma cost a b (fun i => ⟨alpha i, d i⟩) i).tan =
        (∑ j, ((b j).tan * q i j + (b j).val * (q i j / gamma * ((d i - (cost i j).tan) - ∑ k, q k j * (d k - (cost k j).tan))))) - (a i).tan := fun d i => by
      simp only [semiDualGradD, sumD, mul]
      show (∑ j, ((b j).tan * q i j + (b j).val * (maxEntGradD (fun i => sub ⟨alpha i, d i⟩ (cost i j)) (b j) gamma i).tan)) - (a i).tan = _
      simp only [htan]
    have hdiff : ∀ i j, ((alpha' i - (cost i j).tan) - ∑ k, q k j * (alpha' k - (cost k j).tan)) -
        ((deriv (U i) 0 - (cost i j).tan) - ∑ k, q k j * (deriv (U k) 0 - (cost k j).tan)) =
        (alpha' i - deriv (U i) 0) - ∑ k, q k j * (alpha' k - deriv (U k) 0) := fun i j => by
      have : ∑ k, q k j * (alpha' k - deriv (U k) 0) = (∑ k, q k j * (alpha' k - (cost k j).tan)) - ∑ k, q k j * (deriv (U k) 0 - (cost k j).tan) := by
        rw [← Finset.sum_sub_distrib]
        exact Finset.sum_congr rfl fun k _ => by ring
      rw [this]
      ring
    have hker := softmax_kernel q hq0 hq1 (fun j => (b j).val / gamma) (fun j => (div_pos (hbv j) hg).le) (fun i => alpha' i - deriv (U i) 0) (fun i => by
      have e1 := hg1 alpha' i
      have e2 := hg1 (fun i => deriv (U i) 0) i
      rw [hs i] at e1
      rw [hsol i] at e2
      have e3 : ∑ j, (b j).val / gamma * (q i j * ((alpha' i - deriv (U i) 0) - ∑ k, q k j * (alpha' k - deriv (U k) 0))) =
          (∑ j, ((b j).tan * q i j + (b j).val * (q i j / gamma * ((alpha' i - (cost i j).tan) - ∑ k, q k j * (alpha' k - (cost k j).tan))))) -
          ∑ j, ((b j).tan * q i j + (b j).val * (q i j / gamma * ((deriv (U i) 0 - (cost i j).tan) - ∑ k, q k j * (deriv (U k) 0 - (cost k j).tan)))) := by
        rw [← Finset.sum_sub_distrib]
        refine Finset.sum_congr rfl fun j _ => ?_
        rw [← hdiff]
        ring
      rw [e3]
      linarith) i j
    refine tracks_congr (tP i j) (Filter.EventuallyEq.refl _ _) rfl ?_
    show (maxEntGradD (fun i => sub ⟨alpha i, deriv (U i) 0⟩ (cost i j)) (b j) gamma i).tan * (b j).val + q i j * (b j).tan =
      (maxEntGradD (fun i => sub ⟨alpha i, alpha' i⟩ (cost i j)) (b j) gamma i).tan * (b j).val + q i j * (b j).tan
    rw [htan (fun i => deriv (U i) 0) i j, htan alpha' i j]
    rw [← hdiff] at hker
    have : (b j).val / gamma * (q i j * (((alpha' i - (cost i j).tan) - ∑ k, q k j * (alpha' k - (cost k j).tan)) -
        ((deriv (U i) 0 - (cost i j).tan) - ∑ k, q k j * (deriv (U k) 0 - (cost k j).tan)))) =
        q i j / gamma * ((alpha' i - (cost i j).tan) - ∑ k, q k j * (alpha' k - (cost k j).tan)) * (b j).val -
        q i j / gamma * ((deriv (U i) 0 - (cost i j).tan) - ∑ k, q k j * (deriv (U k) 0 - (cost k j).tan)) * (b j).val := by ring
    linarith

/-! ## Examples -/

/-- The dual formulation on the matrices of `C136_semi_dual_l2_false`: the derivative of the corner entry is `1/4`. -/
example : ∃ P : ℝ → Fin 2 → Fin 2 → ℝ,
    (∀ᶠ t in 𝓝 (0 : ℝ), IsUniqueProj (Polytope (fun _ => 1) (fun _ => 1)) (fun ij : Fin 2 × Fin 2 => - -corner t ij.1 ij.2 / 1) (flat (P t))) ∧
    HasDerivAt (fun t => P t 0 0) (1 / 4) 0 := by
  have hC : ∀ i j : Fin 2, Tracks (fun t => -corner t i j) ⟨0, if i = 0 ∧ j = 0 then -1 else 0⟩ := fun i j => by
    by_cases h : i = 0 ∧ j = 0
    · simp only [corner, if_pos h]
      exact ⟨by norm_num, (hasDerivAt_id' (0 : ℝ)).neg⟩
    · simp only [corner, if_neg h]
      exact ⟨by norm_num, (hasDerivAt_const (0 : ℝ) (0 : ℝ)).neg.congr_deriv (by norm_num)⟩
  have hc0 : ∀ i j : Fin 2, corner 0 i j = 0 := fun i j => by simp [corner]
  have hplan : ∀ i j : Fin 2, dualPlan deltaL2Grad (1 : ℝ) (fun i j => -corner 0 i j) (fun _ => 1 / 4, fun _ => 1 / 4) i j = 1 / 2 := fun i j => by
    show (1 : ℝ) / 2 / 1 * (2 * Proj.relu (1 / 4 + 1 / 4 - -corner 0 i j)) = 1 / 2
    rw [hc0, Proj.relu, max_eq_left (by norm_num)]
    norm_num
  obtain ⟨P, hP, hT⟩ := (C136_dual_l2_fixed (m := 2) (n := 2) (gamma := 1) one_pos hC (fun _ => 1) (fun _ => 1) (fun _ => 1 / 4) (fun _ => 1 / 4)
    ⟨fun i => by simp only [hplan, Fin.sum_univ_two]; norm_num, fun j => by simp only [hplan, Fin.sum_univ_two]; norm_num⟩
    (fun i j => by simp only [hc0]; norm_num)).2 (fun i => if i = 0 then -3 / 8 else 1 / 8) (fun j => if j = 0 then -3 / 8 else 1 / 8) (by
      constructor
      · intro i
        simp only [dualGradAD, sub, sumD, dualL2_tan one_pos, const, Fin.sum_univ_two]
        fin_cases i <;> norm_num
      · intro i
        simp only [dualGradBD, sub, sumD, dualL2_tan one_pos, const, Fin.sum_univ_two]
        fin_cases i <;> norm_num)
  refine ⟨P, hP, (hT 0 0).2.congr_deriv ?_⟩
  rw [dualL2_tan one_pos]
  norm_num

/-- Entropic regularisation, both formulations, on the same matrices. -/
example : (∀ i : Fin 2, ∑ j : Fin 2, semiDualPlan maxEntGrad (1 : ℝ) (fun i j => -corner 0 i j) (fun _ => 1) (fun _ => 0) i j = 1) ∧
    ∃ beta : Fin 2 → ℝ, ∀ i : Fin 2, ∑ j, dualPlan deltaEntGrad (1 : ℝ) (fun i j => -corner 0 i j) (fun _ => 0, beta) i j = 1 := by
  have h1 : ∀ i : Fin 2, ∑ j : Fin 2, semiDualPlan maxEntGrad (1 : ℝ) (fun i j => -corner 0 i j) (fun _ => 1) (fun _ => 0) i j = 1 := fun i => by
    simp only [semiDualPlan, maxEntGrad, corner, Fin.sum_univ_two]
    norm_num
  refine ⟨h1, ?_⟩
  obtain ⟨beta, hb⟩ := dual_of_semi (m := 2) (n := 2) (by norm_num) one_ne_zero (fun i j => -corner 0 i j) (fun _ => 1) (fun _ => one_pos) (fun _ => 0)
  exact ⟨beta, fun i => by simp only [hb]; exact h1 i⟩

end

end Jaxopt.Transport
