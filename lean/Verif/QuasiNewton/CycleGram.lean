import Mathlib.Analysis.Matrix.Order
import Mathlib.Analysis.InnerProductSpace.PiL2
import Mathlib.Data.ZMod.ValMinAbs
import Mathlib.Algebra.BigOperators.Field
import Mathlib.Tactic.Linarith
import Mathlib.Tactic.Ring
import Mathlib.Tactic.FieldSimp
import Mathlib.Tactic.LinearCombination
import Mathlib.Tactic.Positivity

/-!
# Closed polygons with prescribed angles

For every `m` there are `2 (m + 1)` unit vectors with sum zero such that the inner product of two of them at cyclic distance `k ≤ m` is
`(-1/2)^k`.  Used by the counterexample of C97.
-/

set_option autoImplicit false
set_option linter.unusedSectionVars false
set_option linter.unusedVariables false

namespace Jaxopt.QuasiNewton.Cycle

/-- The inner products at the distance `k ≤ N`. -/
noncomputable def rho (N k : ℕ) : ℝ := if k < N then (-1 / 2) ^ k else -1 / 3 + 4 / 3 * (-1 / 2) ^ N

section Cyc

variable {N : ℕ} [NeZero (2 * N)]

/-- The inner products as a function on the cycle. -/
noncomputable def corr (l : ZMod (2 * N)) : ℝ := rho N l.valMinAbs.natAbs

theorem corr_neg (l : ZMod (2 * N)) : corr (-l) = corr l := by
  unfold corr
  rw [ZMod.natAbs_valMinAbs_neg]

theorem corr_nat {k : ℕ} (hk : k ≤ N) : corr (k : ZMod (2 * N)) = rho N k := by
  unfold corr
  rw [ZMod.valMinAbs_natCast_of_le_half (by omega)]
  rfl

theorem exists_nat (l : ZMod (2 * N)) : ∃ k : ℕ, k ≤ N ∧ (l = k ∨ l = -k) := by
  refine ⟨l.valMinAbs.natAbs, by have := ZMod.natAbs_valMinAbs_le l; omega, ?_⟩
  have h := ZMod.coe_valMinAbs l
  rcases Int.natAbs_eq l.valMinAbs with e | e
  · left
    rw [e, Int.cast_natCast] at h
    exact h.symm
  · right
    rw [e, Int.cast_neg, Int.cast_natCast] at h
    exact h.symm

/-- The convolution of `corr` with the covariance of `v_j + v_{j-1} / 2`. -/
noncomputable def lap (l : ZMod (2 * N)) : ℝ := 5 / 4 * corr l + 1 / 2 * (corr (l + 1) + corr (l - 1))

theorem lap_neg (l : ZMod (2 * N)) : lap (-l) = lap l := by
  unfold lap
  have e1 : -l + 1 = -(l - 1) := by ring
  have e2 : -l - 1 = -(l + 1) := by ring
  rw [e1, e2, corr_neg, corr_neg, corr_neg]
  ring

theorem two_N_zero : ((N : ZMod (2 * N)) + N) = 0 := by
  have : ((2 * N : ℕ) : ZMod (2 * N)) = 0 := ZMod.natCast_self _
  rw [← this]
  push_cast
  ring

theorem lap_zero (hN : 2 ≤ N) : lap (0 : ZMod (2 * N)) = 3 / 4 := by
  unfold lap
  have e0 : corr (0 : ZMod (2 * N)) = 1 := by
    have := corr_nat (N := N) (k := 0) (by omega)
    rw [Nat.cast_zero] at this
    rw [this, rho, if_pos (by omega), pow_zero]
  have e1 : corr (1 : ZMod (2 * N)) = -1 / 2 := by
    have := corr_nat (N := N) (k := 1) (by omega)
    rw [Nat.cast_one] at this
    rw [this, rho, if_pos (by omega), pow_one]
  rw [zero_add, zero_sub, corr_neg, e0, e1]
  norm_num

theorem lap_mid {k : ℕ} (hk : 1 ≤ k) (hk' : k + 1 < N) : lap (k : ZMod (2 * N)) = 0 := by
  unfold lap
  obtain ⟨i, rfl⟩ := Nat.exists_eq_add_of_le' hk
  have e1 : ((i + 1 : ℕ) : ZMod (2 * N)) + 1 = ((i + 2 : ℕ) : ZMod (2 * N)) := by push_cast; ring
  have e2 : ((i + 1 : ℕ) : ZMod (2 * N)) - 1 = (i : ZMod (2 * N)) := by push_cast; ring
  rw [e1, e2, corr_nat (by omega), corr_nat (by omega), corr_nat (by omega), rho, rho, rho, if_pos (by omega), if_pos (by omega),
    if_pos (by omega)]
  ring

theorem lap_pred (hN : 2 ≤ N) : lap ((N - 1 : ℕ) : ZMod (2 * N)) = -1 / 6 * (1 - (-1 / 2) ^ N) := by
  unfold lap
  obtain ⟨i, rfl⟩ := Nat.exists_eq_add_of_le' hN
  have e0 : i + 2 - 1 = i + 1 := rfl
  have e1 : ((i + 1 : ℕ) : ZMod (2 * (i + 2))) + 1 = ((i + 2 : ℕ) : ZMod (2 * (i + 2))) := by push_cast; ring
  have e2 : ((i + 1 : ℕ) : ZMod (2 * (i + 2))) - 1 = (i : ZMod (2 * (i + 2))) := by push_cast; ring
  rw [e0, e1, e2, corr_nat (by omega), corr_nat (by omega), corr_nat (by omega), rho, rho, rho, if_pos (by omega),
    if_neg (by omega), if_pos (by omega)]
  ring

theorem lap_N (hN : 2 ≤ N) : lap (N : ZMod (2 * N)) = -5 / 12 - 1 / 3 * (-1 / 2) ^ N := by
  unfold lap
  obtain ⟨i, rfl⟩ := Nat.exists_eq_add_of_le' hN
  have e2 : ((i + 2 : ℕ) : ZMod (2 * (i + 2))) - 1 = ((i + 1 : ℕ) : ZMod (2 * (i + 2))) := by push_cast; ring
  have e1 : ((i + 2 : ℕ) : ZMod (2 * (i + 2))) + 1 = -((i + 1 : ℕ) : ZMod (2 * (i + 2))) := by
    have := two_N_zero (N := i + 2)
    have e3 : ((i + 1 : ℕ) : ZMod (2 * (i + 2))) = ((i + 2 : ℕ) : ZMod (2 * (i + 2))) - 1 := by push_cast; ring
    rw [e3]
    linear_combination this
  rw [e1, e2, corr_neg, corr_nat (by omega), corr_nat (by omega), rho, rho, if_neg (by omega), if_pos (by omega)]
  ring

theorem half_pow_le (N : ℕ) (hN : 2 ≤ N) : |((-1 / 2 : ℝ)) ^ N| ≤ 1 / 4 := by
  rw [abs_pow]
  have h : |(-1 / 2 : ℝ)| = 1 / 2 := by rw [abs_of_neg] <;> norm_num
  rw [h]
  have := pow_le_pow_of_le_one (by norm_num : (0 : ℝ) ≤ 1 / 2) (by norm_num) hN
  norm_num at this ⊢
  exact this

theorem lap_nonpos (hN : 2 ≤ N) (l : ZMod (2 * N)) (hl : l ≠ 0) : lap l ≤ 0 := by
  have hr := abs_le.mp (half_pow_le N hN)
  obtain ⟨k, hk, e⟩ := exists_nat l
  have main : k ≠ 0 → lap (k : ZMod (2 * N)) ≤ 0 := by
    intro hk0
    rcases lt_trichotomy (k + 1) N with h | h | h
    · rw [lap_mid (by omega) h]
    · have : k = N - 1 := by omega
      rw [this, lap_pred hN]
      linarith [hr.2]
    · have : k = N := by omega
      rw [this, lap_N hN]
      linarith [hr.1]
  have hk0 : k ≠ 0 := by
    rintro rfl
    rcases e with e | e <;> simp at e <;> exact hl e
  rcases e with e | e
  · rw [e]; exact main hk0
  · rw [e, lap_neg]; exact main hk0

theorem sum_lap (hN : 2 ≤ N) : ∑ l : ZMod (2 * N), lap l = 0 := by
  classical
  have ne : ∀ a b : ℕ, a < 2 * N → b < 2 * N → a ≠ b → (a : ZMod (2 * N)) ≠ (b : ZMod (2 * N)) := by
    intro a b ha hb hab h
    rw [ZMod.natCast_eq_natCast_iff', Nat.mod_eq_of_lt ha, Nat.mod_eq_of_lt hb] at h
    exact hab h
  have hm : (((N + 1 : ℕ)) : ZMod (2 * N)) = -((N - 1 : ℕ) : ZMod (2 * N)) := by
    have := two_N_zero (N := N)
    rw [Nat.cast_sub (by omega)]
    push_cast
    linear_combination this
  have hz : ∀ l ∈ (Finset.univ : Finset (ZMod (2 * N))),
      l ∉ ({((0 : ℕ) : ZMod (2 * N)), ((N - 1 : ℕ) : ZMod (2 * N)), (N : ZMod (2 * N)), ((N + 1 : ℕ) : ZMod (2 * N))} : Finset _) →
      lap l = 0 := by
    intro l _ hl
    simp only [Finset.mem_insert, Finset.mem_singleton, not_or] at hl
    obtain ⟨k, hk, e⟩ := exists_nat l
    have hk0 : k ≠ 0 := by
      rintro rfl
      rcases e with e | e
      · exact hl.1 e
      · exact hl.1 (by rw [e]; simp)
    have hkN : k ≠ N := by
      rintro rfl
      rcases e with e | e
      · exact hl.2.2.1 e
      · refine hl.2.2.1 ?_
        rw [e]
        have := two_N_zero (N := k)
        linear_combination -this
    have hkp : k ≠ N - 1 := by
      rintro rfl
      rcases e with e | e
      · exact hl.2.1 e
      · exact hl.2.2.2 (by rw [e, hm])
    have := lap_mid (N := N) (k := k) (by omega) (by omega)
    rcases e with e | e
    · rw [e, this]
    · rw [e, lap_neg, this]
  rw [← Finset.sum_subset (Finset.subset_univ _) hz]
  rw [Finset.sum_insert, Finset.sum_insert, Finset.sum_insert, Finset.sum_singleton]
  · rw [hm, lap_neg, Nat.cast_zero, lap_zero hN, lap_pred hN, lap_N hN]
    ring
  · simp only [Finset.mem_singleton]
    exact ne _ _ (by omega) (by omega) (by omega)
  · simp only [Finset.mem_insert, Finset.mem_singleton, not_or]
    exact ⟨ne _ _ (by omega) (by omega) (by omega), ne _ _ (by omega) (by omega) (by omega)⟩
  · simp only [Finset.mem_insert, Finset.mem_singleton, not_or]
    exact ⟨ne _ _ (by omega) (by omega) (by omega), ne _ _ (by omega) (by omega) (by omega), ne _ _ (by omega) (by omega) (by omega)⟩

theorem sum_corr (hN : 2 ≤ N) : ∑ l : ZMod (2 * N), corr l = 0 := by
  have h := sum_lap hN
  unfold lap at h
  rw [Finset.sum_add_distrib, ← Finset.mul_sum, ← Finset.mul_sum, Finset.sum_add_distrib] at h
  have e1 : ∑ l : ZMod (2 * N), corr (l + 1) = ∑ l : ZMod (2 * N), corr l := Equiv.sum_comp (Equiv.addRight (1 : ZMod (2 * N))) corr
  have e2 : ∑ l : ZMod (2 * N), corr (l - 1) = ∑ l : ZMod (2 * N), corr l := Equiv.sum_comp (Equiv.subRight (1 : ZMod (2 * N))) corr
  rw [e1, e2] at h
  linarith

/-- Cyclic autocorrelation. -/
noncomputable def auto (v : ZMod (2 * N) → ℝ) (l : ZMod (2 * N)) : ℝ := ∑ j, v j * v (j - l)

theorem auto_le (v : ZMod (2 * N) → ℝ) (l : ZMod (2 * N)) : auto v l ≤ auto v 0 := by
  unfold auto
  have e : ∑ j, v (j - l) * v (j - l) = ∑ j, v j * v j := Equiv.sum_comp (Equiv.subRight l) fun j => v j * v j
  simp only [sub_zero]
  have h : ∑ j, v j * v (j - l) ≤ ∑ j, (v j * v j + v (j - l) * v (j - l)) / 2 :=
    Finset.sum_le_sum fun j _ => by nlinarith [sq_nonneg (v j - v (j - l))]
  rw [← Finset.sum_div, Finset.sum_add_distrib, e] at h
  linarith

theorem auto_filter (v : ZMod (2 * N) → ℝ) (l : ZMod (2 * N)) :
    auto (fun j => v j + v (j - 1) / 2) l = 5 / 4 * auto v l + 1 / 2 * (auto v (l + 1) + auto v (l - 1)) := by
  unfold auto
  have e1 : ∑ j, v (j - 1) * v (j - l - 1) = ∑ j, v j * v (j - l) := by
    rw [← Equiv.sum_comp (Equiv.subRight (1 : ZMod (2 * N))) fun j => v j * v (j - l)]
    refine Finset.sum_congr rfl fun j _ => ?_
    simp only [Equiv.subRight_apply]
    rw [show j - 1 - l = j - l - 1 by ring]
  have e2 : ∑ j, v (j - 1) * v (j - l) = ∑ j, v j * v (j - (l - 1)) := by
    rw [← Equiv.sum_comp (Equiv.subRight (1 : ZMod (2 * N))) fun j => v j * v (j - (l - 1))]
    refine Finset.sum_congr rfl fun j _ => ?_
    simp only [Equiv.subRight_apply]
    rw [show j - 1 - (l - 1) = j - l by ring]
  have e3 : ∀ j : ZMod (2 * N), j - (l + 1) = j - l - 1 := fun j => by ring
  have e4 : ∑ j, (v j + v (j - 1) / 2) * (v (j - l) + v (j - l - 1) / 2) =
      ∑ j, v j * v (j - l) + 1 / 2 * ∑ j, v j * v (j - l - 1) + 1 / 2 * ∑ j, v (j - 1) * v (j - l) +
        1 / 4 * ∑ j, v (j - 1) * v (j - l - 1) := by
    rw [Finset.mul_sum, Finset.mul_sum, Finset.mul_sum, ← Finset.sum_add_distrib, ← Finset.sum_add_distrib, ← Finset.sum_add_distrib]
    exact Finset.sum_congr rfl fun j _ => by ring
  simp only [e3]
  rw [e4, e1, e2]
  ring

theorem form_nonneg (hN : 2 ≤ N) (u : ZMod (2 * N) → ℝ) : 0 ≤ ∑ l, corr l * auto u l := by
  -- `u` is a filtered vector
  let A : (ZMod (2 * N) → ℝ) →ₗ[ℝ] (ZMod (2 * N) → ℝ) :=
    { toFun := fun v j => v j + v (j - 1) / 2
      map_add' := fun v w => by funext j; simp only [Pi.add_apply]; ring
      map_smul' := fun c v => by funext j; simp only [Pi.smul_apply, smul_eq_mul, RingHom.id_apply]; ring }
  have hinj : Function.Injective A := by
    rw [← LinearMap.ker_eq_bot, LinearMap.ker_eq_bot']
    intro v hv
    have h : ∀ j, v j = -(v (j - 1) / 2) := fun j => by
      have := congrFun hv j
      change v j + v (j - 1) / 2 = 0 at this
      linarith
    have e : ∑ j, v (j - 1) * v (j - 1) = ∑ j, v j * v j := Equiv.sum_comp (Equiv.subRight (1 : ZMod (2 * N))) fun j => v j * v j
    have h2 : ∑ j, v j * v j = 1 / 4 * ∑ j, v (j - 1) * v (j - 1) := by
      rw [Finset.mul_sum]
      exact Finset.sum_congr rfl fun j _ => by rw [h j]; ring
    rw [e] at h2
    have h3 : ∑ j, v j * v j = 0 := by linarith
    funext j
    have := (Finset.sum_eq_zero_iff_of_nonneg fun j _ => mul_self_nonneg (v j)).mp h3 j (Finset.mem_univ j)
    exact mul_self_eq_zero.mp this
  obtain ⟨v, hv⟩ := LinearMap.surjective_of_injective hinj u
  have hu : u = fun j => v j + v (j - 1) / 2 := hv.symm
  have key : ∑ l, corr l * auto u l = ∑ l, lap l * auto v l := by
    rw [hu]
    simp only [auto_filter]
    have e1 : ∑ l : ZMod (2 * N), corr (l + 1) * auto v l = ∑ l : ZMod (2 * N), corr l * auto v (l - 1) := by
      rw [← Equiv.sum_comp (Equiv.addRight (1 : ZMod (2 * N))) fun l => corr l * auto v (l - 1)]
      refine Finset.sum_congr rfl fun l _ => ?_
      simp only [Equiv.coe_addRight, add_sub_cancel_right]
    have e2 : ∑ l : ZMod (2 * N), corr (l - 1) * auto v l = ∑ l : ZMod (2 * N), corr l * auto v (l + 1) := by
      rw [← Equiv.sum_comp (Equiv.subRight (1 : ZMod (2 * N))) fun l => corr l * auto v (l + 1)]
      refine Finset.sum_congr rfl fun l _ => ?_
      simp only [Equiv.subRight_apply, sub_add_cancel]
    have e3 : ∑ l : ZMod (2 * N), lap l * auto v l = 5 / 4 * ∑ l : ZMod (2 * N), corr l * auto v l +
        1 / 2 * ∑ l : ZMod (2 * N), corr (l + 1) * auto v l + 1 / 2 * ∑ l : ZMod (2 * N), corr (l - 1) * auto v l := by
      rw [Finset.mul_sum, Finset.mul_sum, Finset.mul_sum, ← Finset.sum_add_distrib, ← Finset.sum_add_distrib]
      exact Finset.sum_congr rfl fun l _ => by unfold lap; ring
    rw [e3, e1, e2, Finset.mul_sum, Finset.mul_sum, Finset.mul_sum, ← Finset.sum_add_distrib, ← Finset.sum_add_distrib]
    exact Finset.sum_congr rfl fun l _ => by ring
  rw [key]
  have h1 : ∑ l : ZMod (2 * N), lap l * auto v 0 ≤ ∑ l : ZMod (2 * N), lap l * auto v l := by
    refine Finset.sum_le_sum fun l _ => ?_
    by_cases h : l = 0
    · rw [h]
    · exact mul_le_mul_of_nonpos_left (auto_le v l) (lap_nonpos hN l h)
  rw [← Finset.sum_mul, sum_lap hN, zero_mul] at h1
  exact h1

open scoped MatrixOrder in
/-- Unit vectors with these inner products. -/
theorem exists_vectors (hN : 2 ≤ N) :
    ∃ e : ZMod (2 * N) → EuclideanSpace ℝ (ZMod (2 * N)), (∀ i j, inner ℝ (e i) (e j) = corr (j - i)) ∧ ∑ i, e i = 0 := by
  classical
  let C : Matrix (ZMod (2 * N)) (ZMod (2 * N)) ℝ := Matrix.of fun i j => corr (i - j)
  have hC : C.PosSemidef := by
    refine Matrix.PosSemidef.of_dotProduct_mulVec_nonneg ?_ ?_
    · ext i j
      simp only [Matrix.conjTranspose_apply, C, Matrix.of_apply, star_trivial]
      rw [← corr_neg, neg_sub]
    · intro u
      have e : star u ⬝ᵥ C.mulVec u = ∑ l, corr l * auto u l := by
        unfold auto
        simp only [dotProduct, Matrix.mulVec, C, Matrix.of_apply, Pi.star_apply, star_trivial, Finset.mul_sum]
        rw [Finset.sum_comm (γ := ZMod (2 * N)) (s := Finset.univ) (t := Finset.univ) (f := fun l j => corr l * (u j * u (j - l)))]
        refine Finset.sum_congr rfl fun j _ => ?_
        rw [← Equiv.sum_comp (Equiv.subLeft j) fun k => u j * (corr (j - k) * u k)]
        refine Finset.sum_congr rfl fun l _ => ?_
        simp only [Equiv.subLeft_apply, sub_sub_cancel]
        ring
      rw [e]
      exact form_nonneg hN u
  obtain ⟨B, hB⟩ := CStarAlgebra.nonneg_iff_eq_star_mul_self.mp hC.nonneg
  have hin : ∀ i j, ∑ k, B k i * B k j = corr (j - i) := by
    intro i j
    have := congrFun (congrFun hB i) j
    simp only [C, Matrix.of_apply, Matrix.star_eq_conjTranspose, Matrix.mul_apply, Matrix.conjTranspose_apply, star_trivial] at this
    rw [← this, ← corr_neg, neg_sub]
  let e : ZMod (2 * N) → EuclideanSpace ℝ (ZMod (2 * N)) := fun i => WithLp.toLp 2 fun k => B k i
  have he : ∀ i j, inner ℝ (e i) (e j) = corr (j - i) := by
    intro i j
    rw [← hin i j, PiLp.inner_apply]
    exact Finset.sum_congr rfl fun k _ => by simp [e, mul_comm]
  refine ⟨e, he, ?_⟩
  rw [← norm_eq_zero, ← sq_eq_zero_iff, ← real_inner_self_eq_norm_sq, sum_inner]
  refine Finset.sum_eq_zero fun i _ => ?_
  rw [inner_sum]
  simp only [he]
  rw [← sum_corr hN]
  exact Equiv.sum_comp (Equiv.subRight i) corr

end Cyc

end Jaxopt.QuasiNewton.Cycle
