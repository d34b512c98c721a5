import Verif.QuasiNewton.BroydenProps
import Mathlib.Analysis.InnerProductSpace.PiL2
import Mathlib.Analysis.MeanInequalities

/-!
# Property C102: local rates of Broyden's method

Unit steps, one leaf, at most `history_size` updates (by default `history_size = maxiter`, lines 419-420, so the buffer never
overflows).  Near a root `xs` where the residual is close to a linear map `A` that is bounded below, and when `1 / gamma` is
close to `A`, every update is defined, the error is halved by every update (`C102_halves`), and in finite dimension the errors
satisfy `‖e_n‖² ≤ (C / n)^n ‖e_0‖²` (`C102_superlinear`): the convergence is faster than any linear rate.
-/

set_option autoImplicit false
set_option linter.unusedSectionVars false
set_option linter.unusedVariables false

namespace Jaxopt.QuasiNewton.Broyden

open Jaxopt.QuasiNewton Finset RealInnerProductSpace

variable {E : Type*} [NormedAddCommGroup E] [InnerProductSpace ℝ E]

section Algebra

/-- `J` becomes `J + (y - J s) sᵀ / ‖s‖²`. -/
noncomputable def broydenJ (J : E →ₗ[ℝ] E) (s y : E) : E →ₗ[ℝ] E where
  toFun v := J v + (⟪s, v⟫ / ‖s‖ ^ 2) • (y - J s)
  map_add' u v := by rw [map_add, inner_add_right, add_div, add_smul]; abel
  map_smul' a v := by
    rw [map_smul, real_inner_smul_right, mul_div_assoc, mul_smul, smul_add]; rfl

theorem broydenJ_apply (J : E →ₗ[ℝ] E) (s y v : E) :
    broydenJ J s y v = J v + (⟪s, v⟫ / ‖s‖ ^ 2) • (y - J s) := rfl

/-- The inverse of the update of `J` is the update of `H` (Sherman-Morrison). -/
theorem broyden_inverse (H J : E →ₗ[ℝ] E) (H' : E → E) (s y : E) (hHJ : ∀ v, H (J v) = v) (hJH : ∀ v, J (H v) = v)
    (hs : s ≠ 0) (hden : ⟪s, H y⟫ ≠ 0) (hH' : ∀ v, H' v = H v + (⟪s, H v⟫ / ⟪s, H y⟫) • (s - H y)) :
    (∀ v, H' (broydenJ J s y v) = v) ∧ ∀ v, broydenJ J s y (H' v) = v := by
  have hn : ‖s‖ ^ 2 ≠ 0 := by simpa using hs
  constructor
  · intro v
    rw [hH', broydenJ_apply]
    simp only [map_add, map_smul, map_sub, hHJ, inner_add_right, inner_sub_right, real_inner_smul_right,
      real_inner_self_eq_norm_sq]
    have h1 : (⟪s, v⟫ + ⟪s, v⟫ / ‖s‖ ^ 2 * (⟪s, H y⟫ - ‖s‖ ^ 2)) / ⟪s, H y⟫ = ⟪s, v⟫ / ‖s‖ ^ 2 := by
      field_simp; ring
    rw [h1]
    module
  · intro v
    rw [broydenJ_apply, hH']
    simp only [map_add, map_smul, map_sub, hJH, inner_add_right, inner_sub_right, real_inner_smul_right,
      real_inner_self_eq_norm_sq]
    have h1 : (⟪s, H v⟫ + ⟪s, H v⟫ / ⟪s, H y⟫ * (‖s‖ ^ 2 - ⟪s, H y⟫)) / ‖s‖ ^ 2 = ⟪s, H v⟫ / ⟪s, H y⟫ := by
      field_simp; ring
    rw [h1]
    module

/-- Bounded deterioration in operator norm. -/
theorem broydenJ_bound (A J : E →ₗ[ℝ] E) (s y : E) (hs : s ≠ 0) (β κ : ℝ) (hβ : ∀ v, ‖J v - A v‖ ≤ β * ‖v‖)
    (hy : ‖y - A s‖ ≤ κ * ‖s‖) (v : E) : ‖broydenJ J s y v - A v‖ ≤ (β + κ) * ‖v‖ := by
  have hn : 0 < ‖s‖ := norm_pos_iff.mpr hs
  have hκ : 0 ≤ κ := by
    by_contra h
    have : κ * ‖s‖ < 0 := mul_neg_of_neg_of_pos (not_le.mp h) hn
    linarith [norm_nonneg (y - A s)]
  have hβ0 : 0 ≤ β := by
    by_contra h
    have := hβ s
    have : β * ‖s‖ < 0 := mul_neg_of_neg_of_pos (not_le.mp h) hn
    linarith [norm_nonneg (J s - A s)]
  set t := ⟪s, v⟫ / ‖s‖ ^ 2 with ht
  have h1 : broydenJ J s y v - A v = (J (v - t • s) - A (v - t • s)) + t • (y - A s) := by
    rw [broydenJ_apply, ← ht]
    simp only [map_sub, map_smul]
    module
  have h2 : ‖v - t • s‖ ≤ ‖v‖ := by
    have : ‖v - t • s‖ ^ 2 ≤ ‖v‖ ^ 2 := by
      rw [norm_sub_sq_real, real_inner_smul_right, norm_smul, mul_pow, Real.norm_eq_abs, sq_abs, real_inner_comm]
      have : ⟪s, v⟫ = t * ‖s‖ ^ 2 := by rw [ht]; field_simp
      rw [this]
      nlinarith [sq_nonneg (t * ‖s‖)]
    exact (sq_le_sq₀ (norm_nonneg _) (norm_nonneg _)).mp this
  have h3 : |t| * ‖s‖ ≤ ‖v‖ := by
    rw [ht, abs_div, abs_of_pos (by positivity : 0 < ‖s‖ ^ 2), div_mul_eq_mul_div, div_le_iff₀ (by positivity)]
    have := abs_real_inner_le_norm s v
    nlinarith [norm_nonneg s]
  have h4 := hβ (v - t • s)
  have h5 : ‖t • (y - A s)‖ ≤ κ * ‖v‖ := by
    rw [norm_smul, Real.norm_eq_abs]
    calc |t| * ‖y - A s‖ ≤ |t| * (κ * ‖s‖) := mul_le_mul_of_nonneg_left hy (abs_nonneg _)
      _ = κ * (|t| * ‖s‖) := by ring
      _ ≤ κ * ‖v‖ := mul_le_mul_of_nonneg_left h3 hκ
  rw [h1]
  have h6 : β * ‖v - t • s‖ ≤ β * ‖v‖ := mul_le_mul_of_nonneg_left h2 hβ0
  calc _ ≤ ‖J (v - t • s) - A (v - t • s)‖ + ‖t • (y - A s)‖ := norm_add_le _ _
    _ ≤ (β + κ) * ‖v‖ := by linarith

variable {ι : Type*} [Fintype ι]

/-- The square of the Frobenius norm of `J - A`. -/
noncomputable def frob (b : OrthonormalBasis ι ℝ E) (J A : E →ₗ[ℝ] E) : ℝ := ∑ i, ‖J (b i) - A (b i)‖ ^ 2

theorem frob_sum (b : OrthonormalBasis ι ℝ E) (T : E →ₗ[ℝ] E) (s w : E) :
    ∑ i, ⟪s, b i⟫ * ⟪T (b i), w⟫ = ⟪T s, w⟫ := by
  conv_rhs => rw [← b.sum_repr' s, map_sum, sum_inner]
  apply Finset.sum_congr rfl
  intro i _
  rw [map_smul, real_inner_smul_left, real_inner_comm]

/-- The Frobenius norm of the error of the Jacobian decreases by what it does to the step, and increases by the defect of
linearity. -/
theorem frob_broydenJ (b : OrthonormalBasis ι ℝ E) (A J : E →ₗ[ℝ] E) (s y : E) (hs : s ≠ 0) :
    frob b (broydenJ J s y) A = frob b J A - ‖J s - A s‖ ^ 2 / ‖s‖ ^ 2 + ‖y - A s‖ ^ 2 / ‖s‖ ^ 2 := by
  have hn : ‖s‖ ^ 2 ≠ 0 := by simpa using hs
  set T : E →ₗ[ℝ] E := J - A with hT
  set u : E := y - A s with hu
  have h1 : ∀ i, ‖broydenJ J s y (b i) - A (b i)‖ ^ 2 = ‖T (b i)‖ ^ 2
      + (2 / ‖s‖ ^ 2) * (⟪s, b i⟫ * ⟪T (b i), u - T s⟫) + (‖u - T s‖ ^ 2 / (‖s‖ ^ 2) ^ 2) * (⟪s, b i⟫ * ⟪s, b i⟫) := by
    intro i
    have : broydenJ J s y (b i) - A (b i) = T (b i) + (⟪s, b i⟫ / ‖s‖ ^ 2) • (u - T s) := by
      rw [broydenJ_apply, hT, hu]
      simp only [LinearMap.sub_apply]
      module
    rw [this, norm_add_sq_real, real_inner_smul_right, norm_smul, mul_pow, Real.norm_eq_abs, sq_abs]
    field_simp
  have h2 : ∑ i, ⟪s, b i⟫ * ⟪s, b i⟫ = ‖s‖ ^ 2 := by
    rw [← real_inner_self_eq_norm_sq, ← b.sum_inner_mul_inner s s]
    apply Finset.sum_congr rfl
    intro i _
    rw [real_inner_comm s (b i)]
  simp only [frob]
  simp only [h1]
  rw [Finset.sum_add_distrib, Finset.sum_add_distrib, ← Finset.mul_sum, ← Finset.mul_sum, frob_sum, h2]
  have h3 : ‖u - T s‖ ^ 2 = ‖u‖ ^ 2 - 2 * ⟪T s, u⟫ + ‖T s‖ ^ 2 := by
    rw [norm_sub_sq_real, real_inner_comm]
  rw [inner_sub_right, real_inner_self_eq_norm_sq, h3]
  have h4 : ‖J s - A s‖ = ‖T s‖ := rfl
  have h5 : ∑ i, ‖T (b i)‖ ^ 2 = ∑ i, ‖J (b i) - A (b i)‖ ^ 2 := rfl
  rw [h4, h5]
  field_simp
  ring

/-- What C102 assumes of the residual `F` near the root `xs`: it is close to a linear map bounded below by `α`, within a
defect proportional to the distance to the root (as for a Lipschitz derivative). -/
structure LocalRoot (F : E → E) (A : E →ₗ[ℝ] E) (xs : E) (α κ r : ℝ) : Prop where
  root : F xs = 0
  pos : 0 < α
  nonneg : 0 ≤ κ
  below : ∀ v, α * ‖v‖ ≤ ‖A v‖
  smooth : ∀ u v, ‖u - xs‖ ≤ r → ‖v - xs‖ ≤ r → ‖F u - F v - A (u - v)‖ ≤ κ * max ‖u - xs‖ ‖v - xs‖ * ‖u - v‖

/-- One quasi-Newton step `x' = x - H F(x)` near the root. -/
theorem local_step (F : E → E) (A H J : E →ₗ[ℝ] E) (xs x : E) (α κ r β : ℝ) (hF : LocalRoot F A xs α κ r)
    (hHJ : ∀ v, H (J v) = v) (hJH : ∀ v, J (H v) = v) (hβ : ∀ v, ‖J v - A v‖ ≤ β * ‖v‖) (hxr : ‖x - xs‖ ≤ r)
    (hsmall : β + κ * ‖x - xs‖ ≤ α / 3) :
    ‖x - H (F x) - xs‖ ≤ ‖x - xs‖ / 2 ∧
    (F x ≠ 0 →
      let s := -H (F x)
      let y := F (x - H (F x)) - F x
      x ≠ xs ∧ s ≠ 0 ∧ ‖s‖ ^ 2 / 2 ≤ ⟪s, H y⟫ ∧ ‖y - A s‖ ≤ κ * ‖x - xs‖ * ‖s‖ ∧
      ‖x - H (F x) - xs‖ ≤ 9 / (4 * α) * (κ * ‖x - xs‖ + ‖J s - A s‖ / ‖s‖) * ‖x - xs‖) := by
  obtain ⟨hroot, hα, hκ, hbelow, hsm⟩ := hF
  set e := ‖x - xs‖ with he
  set x' := x - H (F x) with hx'
  have he0 : 0 ≤ e := norm_nonneg _
  have hr : 0 ≤ r := he0.trans hxr
  have hκe : 0 ≤ κ * e := mul_nonneg hκ he0
  -- `J` is bounded below by `α - β`
  have hJlow : ∀ v, (α - β) * ‖v‖ ≤ ‖J v‖ := by
    intro v
    have h1 := hbelow v
    have h2 := hβ v
    have h3 : ‖A v‖ ≤ ‖J v‖ + ‖J v - A v‖ := by
      calc ‖A v‖ = ‖J v - (J v - A v)‖ := by rw [sub_sub_cancel]
        _ ≤ _ := norm_sub_le _ _
    nlinarith
  have hβα : β ≤ α / 3 := by linarith
  have hHup : ∀ v, 2 * α / 3 * ‖H v‖ ≤ ‖v‖ := by
    intro v
    have := hJlow (H v)
    rw [hJH] at this
    nlinarith [norm_nonneg (H v)]
  -- the error
  have hxs : ‖xs - xs‖ = 0 := by rw [sub_self, norm_zero]
  have hFx : ‖F x - A (x - xs)‖ ≤ κ * e * e := by
    have := hsm x xs hxr (by rw [hxs]; exact hr)
    rwa [hroot, sub_zero, hxs, max_eq_left (norm_nonneg _)] at this
  have hJe : J (x' - xs) = (J (x - xs) - A (x - xs)) - (F x - A (x - xs)) := by
    have : x' - xs = (x - xs) - H (F x) := by rw [hx']; abel
    rw [this, map_sub, hJH]; abel
  have hstep : ‖x' - xs‖ ≤ e / 2 := by
    have h1 := hJlow (x' - xs)
    have h2 : ‖J (x' - xs)‖ ≤ β * e + κ * e * e := by
      rw [hJe]
      exact (norm_sub_le _ _).trans (add_le_add (hβ _) hFx)
    have h3 : β * e + κ * e * e ≤ α / 3 * e := by nlinarith
    have h4 : 2 * α / 3 * ‖x' - xs‖ ≤ (α - β) * ‖x' - xs‖ :=
      mul_le_mul_of_nonneg_right (by linarith) (norm_nonneg _)
    have h5 : α * (‖x' - xs‖ - e / 2) ≤ 0 := by linarith
    by_contra hcon
    have : 0 < α * (‖x' - xs‖ - e / 2) := mul_pos hα (by linarith)
    linarith
  refine ⟨hstep, ?_⟩
  intro hne s y
  have hs : s ≠ 0 := by
    intro h0
    have : H (F x) = 0 := by simpa [s] using h0
    have h2 := hJH (F x)
    rw [this, map_zero] at h2
    exact hne h2.symm
  have hsn : 0 < ‖s‖ := norm_pos_iff.mpr hs
  have hxne : x ≠ xs := by
    intro h; apply hne; rw [h]; exact hroot
  have hepos : 0 < e := by rw [he]; exact norm_pos_iff.mpr (sub_ne_zero.mpr hxne)
  have hx's : x' - x = s := by simp only [x', s]; abel
  have hy : ‖y - A s‖ ≤ κ * e * ‖s‖ := by
    have := hsm x' x (by linarith) hxr
    rw [hx's, max_eq_right (by linarith)] at this
    exact this
  have hJs : J s = -F x := by simp only [s, map_neg, hJH]
  have hyJ : ‖y - J s‖ ≤ κ * e * ‖s‖ + ‖J s - A s‖ := by
    have : y - J s = (y - A s) - (J s - A s) := by abel
    rw [this]
    exact (norm_sub_le _ _).trans (add_le_add hy le_rfl)
  have hden : ‖s‖ ^ 2 / 2 ≤ ⟪s, H y⟫ := by
    have h1 : H y = s + H (y - J s) := by rw [LinearMap.map_sub H y (J s), hHJ s]; abel
    have h2 := hHup (y - J s)
    have h3 : ‖y - J s‖ ≤ α / 3 * ‖s‖ := by
      have := hβ s
      nlinarith
    have h4 : ‖H (y - J s)‖ ≤ ‖s‖ / 2 := by
      by_contra hcon
      have : 0 < α * (‖H (y - J s)‖ - ‖s‖ / 2) := mul_pos hα (by linarith)
      linarith
    have h5 := abs_real_inner_le_norm s (H (y - J s))
    have h6 := neg_abs_le (⟪s, H (y - J s)⟫)
    rw [h1, inner_add_right, real_inner_self_eq_norm_sq]
    nlinarith
  refine ⟨hxne, hs, hden, hy, ?_⟩
  -- the residual at the new point
  have hFx' : F x' = y - J s := by simp only [y, hJs]; rw [sub_neg_eq_add, sub_add_cancel]
  have h1 : ‖F x' - A (x' - xs)‖ ≤ κ * e * ‖x' - xs‖ := by
    have := hsm x' xs (by linarith) (by rw [hxs]; exact hr)
    rw [hroot, sub_zero, hxs, max_eq_left (norm_nonneg _)] at this
    refine this.trans (mul_le_mul_of_nonneg_right (mul_le_mul_of_nonneg_left ?_ hκ) (norm_nonneg _))
    linarith
  have h2 := hbelow (x' - xs)
  have h3 : ‖A (x' - xs)‖ ≤ ‖F x'‖ + ‖F x' - A (x' - xs)‖ := by
    calc ‖A (x' - xs)‖ = ‖F x' - (F x' - A (x' - xs))‖ := by rw [sub_sub_cancel]
      _ ≤ _ := norm_sub_le _ _
  have h3' : ‖F x'‖ ≤ ‖J s - A s‖ + κ * e * ‖s‖ := by rw [hFx']; linarith
  have hse : ‖s‖ ≤ 3 / 2 * e := by
    rw [← hx's]
    calc ‖x' - x‖ = ‖(x' - xs) - (x - xs)‖ := by congr 1; abel
      _ ≤ ‖x' - xs‖ + ‖x - xs‖ := norm_sub_le _ _
      _ ≤ 3 / 2 * e := by rw [← he]; linarith
  set q := ‖J s - A s‖ / ‖s‖ with hq
  have hq0 : 0 ≤ q := div_nonneg (norm_nonneg _) hsn.le
  have hqs : ‖J s - A s‖ = q * ‖s‖ := by rw [hq]; field_simp
  rw [hqs] at h3'
  have h4 : (κ * e + q) * ‖s‖ ≤ (κ * e + q) * (3 / 2 * e) := mul_le_mul_of_nonneg_left hse (by linarith)
  have hβ0 : 0 ≤ β := by
    have := hβ s
    by_contra h
    have : β * ‖s‖ < 0 := mul_neg_of_neg_of_pos (not_le.mp h) hsn
    linarith [norm_nonneg (J s - A s)]
  have h7 : κ * e * ‖x' - xs‖ ≤ α / 3 * ‖x' - xs‖ := mul_le_mul_of_nonneg_right (by linarith) (norm_nonneg _)
  have h8 : 2 * α / 3 * ‖x' - xs‖ ≤ (κ * e + q) * (3 / 2 * e) := by nlinarith
  have h9 : 9 / (4 * α) * (κ * e + q) * e = (3 / (2 * α)) * ((κ * e + q) * (3 / 2 * e)) := by field_simp; ring
  rw [h9]
  have h10 : ‖x' - xs‖ = 3 / (2 * α) * (2 * α / 3 * ‖x' - xs‖) := by field_simp
  rw [h10]
  exact mul_le_mul_of_nonneg_left h8 (by positivity)

end Algebra

section Model

variable {L : Type*} [Fintype L] [Unique L]

/-- The inverse-Jacobian approximation of a state, as a linear map on the leaf. -/
noncomputable def hOp (m : ℕ) (st : BroydenState ℝ E L) : E →ₗ[ℝ] E where
  toFun v := st.gamma • v + ∑ j ∈ range m, ⟪st.d j default, v⟫ • st.c j default
  map_add' u v := by
    simp only [inner_add_right, add_smul, smul_add, Finset.sum_add_distrib]; abel
  map_smul' a v := by
    simp only [real_inner_smul_right, mul_smul, smul_add, Finset.smul_sum, RingHom.id_apply, smul_comm a st.gamma v]

theorem jacProd_hOp (S : Broyden ℝ E L) (hl : ∀ x y, S.ldot x y = ⟪x, y⟫) (st : BroydenState ℝ E L) (v : L → E) :
    S.jacProd st v default = hOp S.historySize st (v default) := by
  rw [jacProd_apply]
  simp only [hl]
  rfl

theorem jacRprod_inner (S : Broyden ℝ E L) (hl : ∀ x y, S.ldot x y = ⟪x, y⟫) (st : BroydenState ℝ E L) (s : L → E) (v : E) :
    ⟪S.jacRprod st s default, v⟫ = ⟪s default, hOp S.historySize st v⟫ := by
  have h : S.jacRprod st s default
      = st.gamma • s default + ∑ j ∈ range S.historySize, ⟪st.c j default, s default⟫ • st.d j default := by
    have := jacProd_apply S { st with d := st.c, c := st.d } s default
    simp only [hl] at this
    exact this
  rw [h]
  simp only [hOp, LinearMap.coe_mk, AddHom.coe_mk, inner_add_left, inner_add_right, sum_inner, inner_sum,
    real_inner_smul_left, real_inner_smul_right]
  congr 1
  apply Finset.sum_congr rfl
  intro j _
  rw [real_inner_comm (st.c j default) (s default)]
  ring

/-- One update with a unit step that does not overwrite a pair. -/
theorem update_hOp (S : Broyden ℝ E L) (hl : ∀ x y, S.ldot x y = ⟪x, y⟫) (x0 : L → E) (n : ℕ) (hn : n < S.historySize)
    (v : E) :
    hOp S.historySize (S.iter x0 (n + 1)).2 v = hOp S.historySize (S.iter x0 n).2 v
      + (⟪S.deltaX (S.iter x0 n) default, hOp S.historySize (S.iter x0 n).2 v⟫
        / ⟪S.deltaX (S.iter x0 n) default, hOp S.historySize (S.iter x0 n).2 (S.deltaG (S.iter x0 n) default)⟫)
        • (S.deltaX (S.iter x0 n) default - hOp S.historySize (S.iter x0 n).2 (S.deltaG (S.iter x0 n) default)) := by
  set p := S.iter x0 n with hp
  have hnum : p.2.iterNum = n := iterNum_iter S x0 n
  have hlast : (p.2.iterNum % S.historySize + S.historySize) % S.historySize = n := by
    rw [Nat.add_mod_right, Nat.mod_mod, hnum, Nat.mod_eq_of_lt hn]
  have hd : (S.update p).2.d = Function.update p.2.d n
      ((1 / ∑ l, S.ldot (S.denomVec p l) (S.deltaG p l)) • S.denomVec p) := by
    simp only [update, hlast]; rfl
  have hc : (S.update p).2.c = Function.update p.2.c n (S.deltaX p - S.jacProd p.2 (S.deltaG p)) := by
    simp only [update, hlast]; rfl
  have hγ : (S.update p).2.gamma = p.2.gamma := rfl
  obtain ⟨h1, h2⟩ := empty_iter S x0 n hn.le n le_rfl hn
  rw [← hp] at h1 h2
  have hj : n ∈ range S.historySize := Finset.mem_range.mpr hn
  rw [iter_succ, ← hp]
  simp only [hOp, LinearMap.coe_mk, AddHom.coe_mk]
  change (S.update p).2.gamma • v + ∑ j ∈ range S.historySize, ⟪(S.update p).2.d j default, v⟫ • (S.update p).2.c j default
    = hOp S.historySize p.2 v + (⟪S.deltaX p default, hOp S.historySize p.2 v⟫
      / ⟪S.deltaX p default, hOp S.historySize p.2 (S.deltaG p default)⟫)
        • (S.deltaX p default - hOp S.historySize p.2 (S.deltaG p default))
  have h3 : hOp S.historySize p.2 v
      = p.2.gamma • v + ∑ j ∈ (range S.historySize).erase n, ⟪p.2.d j default, v⟫ • p.2.c j default := by
    simp only [hOp, LinearMap.coe_mk, AddHom.coe_mk]
    rw [← Finset.add_sum_erase _ _ hj, h1, h2, Pi.zero_apply, smul_zero, zero_add]
  rw [hd, hc, hγ, ← Finset.add_sum_erase _ _ hj, Function.update_self, Function.update_self]
  have h4 : ∑ k ∈ (range S.historySize).erase n,
      ⟪(Function.update p.2.d n ((1 / ∑ l, S.ldot (S.denomVec p l) (S.deltaG p l)) • S.denomVec p)) k default, v⟫ •
        (Function.update p.2.c n (S.deltaX p - S.jacProd p.2 (S.deltaG p))) k default =
      ∑ k ∈ (range S.historySize).erase n, ⟪p.2.d k default, v⟫ • p.2.c k default := by
    apply Finset.sum_congr rfl
    intro k hk
    have hne := Finset.ne_of_mem_erase hk
    rw [Function.update_of_ne hne, Function.update_of_ne hne]
  rw [h4, Pi.sub_apply, jacProd_hOp S hl, Fintype.sum_unique, hl, Pi.smul_apply, real_inner_smul_left]
  have h5 : ∀ w, ⟪S.denomVec p default, w⟫ = ⟪S.deltaX p default, hOp S.historySize p.2 w⟫ := fun w =>
    jacRprod_inner S hl p.2 (S.deltaX p) w
  rw [h5, h5, one_div_mul_eq_div, h3]
  abel

/-- The update at `p` takes a unit step along the quasi-Newton direction. -/
def UnitStep (S : Broyden ℝ E L) (p : (L → E) × BroydenState ℝ E L) : Prop :=
  (S.step p.1 p.2).params = p.1 - S.jacProd p.2 p.2.value ∧
    (S.step p.1 p.2).value = S.f (S.step p.1 p.2).params

/-- This is the case with the constant stepsize 1. -/
theorem unitStep_const (S : Broyden ℝ E L) (h : S.stepsize = .const 1) (p : (L → E) × BroydenState ℝ E L) :
    S.UnitStep p := by
  have h1 : ¬ ((1 : ℝ) ≤ 0) := by norm_num
  simp only [UnitStep, step, h, if_neg h1, and_true]
  rw [one_smul, neg_one_smul, sub_eq_add_neg]

/-- The invariant: `J` is the inverse of the operator of the state, at distance `β` from `A`. -/
structure RateInv (S : Broyden ℝ E L) (F : E → E) (A : E →ₗ[ℝ] E) (xs : E) (x0 : L → E) (n : ℕ) (J : E →ₗ[ℝ] E) (β : ℝ) :
    Prop where
  value : (S.iter x0 n).2.value default = F ((S.iter x0 n).1 default)
  left : ∀ v, hOp S.historySize (S.iter x0 n).2 (J v) = v
  right : ∀ v, J (hOp S.historySize (S.iter x0 n).2 v) = v
  close : ∀ v, ‖J v - A v‖ ≤ β * ‖v‖

theorem rateInv_zero (S : Broyden ℝ E L) (F : E → E) (A : E →ₗ[ℝ] E) (xs : E) (x0 : L → E)
    (hf : ∀ x, S.f x default = F (x default)) (hγ : S.gamma ≠ 0) (δ : ℝ)
    (hδ : ∀ v, ‖S.gamma⁻¹ • v - A v‖ ≤ δ * ‖v‖) :
    RateInv S F A xs x0 0 (S.gamma⁻¹ • LinearMap.id) δ := by
  have hH : ∀ v, hOp S.historySize (S.iter x0 0).2 v = S.gamma • v := by
    intro v
    simp only [hOp, LinearMap.coe_mk, AddHom.coe_mk, iter, Function.iterate_zero, id, initState, Pi.zero_apply, smul_zero,
      Finset.sum_const_zero, add_zero]
  refine ⟨hf x0, ?_, ?_, hδ⟩
  · intro v
    rw [hH, LinearMap.smul_apply, LinearMap.id_apply, smul_inv_smul₀ hγ]
  · intro v
    rw [hH, LinearMap.smul_apply, LinearMap.id_apply, inv_smul_smul₀ hγ]

/-- The step and the residual difference of a unit step. -/
theorem unit_data (S : Broyden ℝ E L) (hl : ∀ x y, S.ldot x y = ⟪x, y⟫) (F : E → E)
    (hf : ∀ x, S.f x default = F (x default)) (x0 : L → E) (n : ℕ) (hu : S.UnitStep (S.iter x0 n))
    (hv : (S.iter x0 n).2.value default = F ((S.iter x0 n).1 default)) :
    let x := (S.iter x0 n).1 default
    let H := hOp S.historySize (S.iter x0 n).2
    (S.iter x0 (n + 1)).1 default = x - H (F x) ∧
    (S.iter x0 (n + 1)).2.value default = F (x - H (F x)) ∧
    S.deltaX (S.iter x0 n) default = -H (F x) ∧
    S.deltaG (S.iter x0 n) default = F (x - H (F x)) - F x := by
  intro x H
  have h1 : (S.iter x0 (n + 1)).1 default = x - H (F x) := by
    rw [iter_succ]
    change (S.step (S.iter x0 n).1 (S.iter x0 n).2).params default = _
    rw [hu.1, Pi.sub_apply, jacProd_hOp S hl, hv]
  have h2 : (S.iter x0 (n + 1)).2.value default = F (x - H (F x)) := by
    rw [← h1, iter_succ]
    change (S.step (S.iter x0 n).1 (S.iter x0 n).2).value default
      = F ((S.step (S.iter x0 n).1 (S.iter x0 n).2).params default)
    rw [hu.2, hf]
  refine ⟨h1, h2, ?_, ?_⟩
  · rw [deltaX, ← iter_succ, Pi.sub_apply, h1]
    change x - H (F x) - x = _
    abel
  · rw [deltaG, ← iter_succ, Pi.sub_apply, h2, hv]

theorem rateInv_step (S : Broyden ℝ E L) (hl : ∀ x y, S.ldot x y = ⟪x, y⟫) (F : E → E) (A : E →ₗ[ℝ] E) (xs : E)
    (x0 : L → E) (hf : ∀ x, S.f x default = F (x default)) (α κ r : ℝ) (hF : LocalRoot F A xs α κ r) (n : ℕ)
    (hn : n < S.historySize) (J : E →ₗ[ℝ] E) (β : ℝ) (hI : RateInv S F A xs x0 n J β) (hu : S.UnitStep (S.iter x0 n))
    (hne : F ((S.iter x0 n).1 default) ≠ 0) (hxr : ‖(S.iter x0 n).1 default - xs‖ ≤ r)
    (hsmall : β + κ * ‖(S.iter x0 n).1 default - xs‖ ≤ α / 3) :
    let e := ‖(S.iter x0 n).1 default - xs‖
    let e' := ‖(S.iter x0 (n + 1)).1 default - xs‖
    let s := S.deltaX (S.iter x0 n) default
    let y := S.deltaG (S.iter x0 n) default
    RateInv S F A xs x0 (n + 1) (broydenJ J s y) (β + κ * e) ∧ e' ≤ e / 2 ∧ 0 < e ∧ s ≠ 0 ∧
      ‖s‖ ^ 2 / 2 ≤ ⟪S.denomVec (S.iter x0 n) default, y⟫ ∧ ‖y - A s‖ ≤ κ * e * ‖s‖ ∧
      e' ≤ 9 / (4 * α) * (κ * e + ‖J s - A s‖ / ‖s‖) * e := by
  intro e e' s y
  obtain ⟨d1, d2, d3, d4⟩ := unit_data S hl F hf x0 n hu hI.value
  obtain ⟨l1, l2⟩ := local_step F A (hOp S.historySize (S.iter x0 n).2) J xs ((S.iter x0 n).1 default) α κ r β hF hI.left
    hI.right hI.close hxr hsmall
  obtain ⟨m1, m2, m3, m4, m5⟩ := l2 hne
  rw [← d3] at m2 m3 m4 m5
  rw [← d4] at m3 m4
  rw [← d1] at l1 m5
  have hden : 0 < ⟪S.deltaX (S.iter x0 n) default,
      hOp S.historySize (S.iter x0 n).2 (S.deltaG (S.iter x0 n) default)⟫ := by
    have : 0 < ‖S.deltaX (S.iter x0 n) default‖ := norm_pos_iff.mpr m2
    have h2 : 0 < ‖S.deltaX (S.iter x0 n) default‖ ^ 2 / 2 := by positivity
    linarith
  obtain ⟨i1, i2⟩ := broyden_inverse (hOp S.historySize (S.iter x0 n).2) J (hOp S.historySize (S.iter x0 (n + 1)).2)
    s y hI.left hI.right m2 hden.ne' (update_hOp S hl x0 n hn)
  refine ⟨⟨?_, i1, i2, ?_⟩, l1, norm_pos_iff.mpr (sub_ne_zero.mpr m1), m2, ?_, m4, m5⟩
  · rw [d1, d2]
  · exact broydenJ_bound A J s y m2 β (κ * e) hI.close m4
  · rw [denomVec, jacRprod_inner S hl]
    exact m3

theorem rate_key (S : Broyden ℝ E L) (hl : ∀ x y, S.ldot x y = ⟪x, y⟫) (F : E → E) (A : E →ₗ[ℝ] E) (xs : E)
    (x0 : L → E) (hf : ∀ x, S.f x default = F (x default)) (α κ r δ : ℝ) (hF : LocalRoot F A xs α κ r)
    (hγ : S.gamma ≠ 0) (hδ : ∀ v, ‖S.gamma⁻¹ • v - A v‖ ≤ δ * ‖v‖) (hr : ‖x0 default - xs‖ ≤ r)
    (hsmall : δ + 2 * κ * ‖x0 default - xs‖ ≤ α / 3) (n : ℕ) (hn : n ≤ S.historySize)
    (hu : ∀ k < n, S.UnitStep (S.iter x0 k)) (hne : ∀ k < n, F ((S.iter x0 k).1 default) ≠ 0) :
    ∀ k ≤ n, ∃ J β, RateInv S F A xs x0 k J β ∧ β + 2 * κ * ‖(S.iter x0 k).1 default - xs‖ ≤ α / 3 ∧
      ‖(S.iter x0 k).1 default - xs‖ ≤ r ∧ ‖(S.iter x0 k).1 default - xs‖ ≤ ‖x0 default - xs‖ / 2 ^ k := by
  have hκ := hF.nonneg
  intro k
  induction k with
  | zero => exact fun _ => ⟨_, δ, rateInv_zero S F A xs x0 hf hγ δ hδ, hsmall, hr, by simp [iter]⟩
  | succ k ih =>
    intro hk
    obtain ⟨J, β, hI, hb, hkr, hgeo⟩ := ih (by omega)
    have he := norm_nonneg ((S.iter x0 k).1 default - xs)
    obtain ⟨r1, r2, -⟩ := rateInv_step S hl F A xs x0 hf α κ r hF k (by omega) J β hI (hu k (by omega))
      (hne k (by omega)) hkr (by nlinarith)
    refine ⟨_, _, r1, by nlinarith, by linarith, ?_⟩
    have : ‖x0 default - xs‖ / 2 ^ (k + 1) = ‖x0 default - xs‖ / 2 ^ k / 2 := by rw [pow_succ]; field_simp
    rw [this]
    linarith

/-- **C102 (linear rate).** Unit steps, one leaf, from a point `x0` close to the root and with `1 / gamma` close to the
derivative at the root: as long as the residual has not vanished, every one of the first `history_size` updates is defined
(positive denominator) and at least halves the distance to the root. -/
theorem C102_halves (S : Broyden ℝ E L) (hl : ∀ x y, S.ldot x y = ⟪x, y⟫) (F : E → E) (A : E →ₗ[ℝ] E) (xs : E)
    (x0 : L → E) (hf : ∀ x, S.f x default = F (x default)) (α κ r δ : ℝ) (hF : LocalRoot F A xs α κ r)
    (hγ : S.gamma ≠ 0) (hδ : ∀ v, ‖S.gamma⁻¹ • v - A v‖ ≤ δ * ‖v‖) (hr : ‖x0 default - xs‖ ≤ r)
    (hsmall : δ + 2 * κ * ‖x0 default - xs‖ ≤ α / 3) (n : ℕ) (hn : n ≤ S.historySize)
    (hu : ∀ k < n, S.UnitStep (S.iter x0 k)) (hne : ∀ k < n, F ((S.iter x0 k).1 default) ≠ 0) :
    ∀ k < n, ‖(S.iter x0 (k + 1)).1 default - xs‖ ≤ ‖(S.iter x0 k).1 default - xs‖ / 2 ∧
      0 < leafVdot S.ldot (S.denomVec (S.iter x0 k)) (S.deltaG (S.iter x0 k)) := by
  have hκ := hF.nonneg
  have key := rate_key S hl F A xs x0 hf α κ r δ hF hγ hδ hr hsmall n hn hu hne
  intro k hk
  obtain ⟨J, β, hI, hb, hkr, -⟩ := key k hk.le
  have he := norm_nonneg ((S.iter x0 k).1 default - xs)
  obtain ⟨r1, r2, r3, r4, r5, -⟩ := rateInv_step S hl F A xs x0 hf α κ r hF k (by omega) J β hI (hu k hk)
    (hne k hk) hkr (by nlinarith)
  refine ⟨r2, ?_⟩
  rw [leafVdot, Fintype.sum_unique, hl]
  have : 0 < ‖S.deltaX (S.iter x0 k) default‖ := norm_pos_iff.mpr r4
  have h2 : 0 < ‖S.deltaX (S.iter x0 k) default‖ ^ 2 / 2 := by positivity
  linarith

/-- The arithmetic-geometric mean inequality for a telescoping product of ratios. -/
theorem superlinear_of_sum (e : ℕ → ℝ) (C : ℝ) (n : ℕ) (hn : 0 < n) (he : ∀ k < n, 0 < e k)
    (hC : ∑ k ∈ range n, (e (k + 1) / e k) ^ 2 ≤ C) : e n ^ 2 ≤ (C / n) ^ n * e 0 ^ 2 := by
  have hprod : ∀ m ≤ n, e m ^ 2 = (∏ k ∈ range m, (e (k + 1) / e k) ^ 2) * e 0 ^ 2 := by
    intro m
    induction m with
    | zero => intro _; simp
    | succ m ih =>
      intro hm
      have h1 := ih (by omega)
      have h2 := (he m (by omega)).ne'
      rw [Finset.prod_range_succ, mul_right_comm, ← h1, div_pow]
      field_simp
  rw [hprod n le_rfl]
  apply mul_le_mul_of_nonneg_right _ (sq_nonneg _)
  have hn' : (0 : ℝ) < n := by exact_mod_cast hn
  have hz : ∀ k ∈ range n, 0 ≤ (e (k + 1) / e k) ^ 2 := fun k _ => sq_nonneg _
  have hamgm := Real.geom_mean_le_arith_mean (range n) (fun _ => 1) (fun k => (e (k + 1) / e k) ^ 2) (fun _ _ => zero_le_one)
    (by simpa using hn') hz
  simp only [Real.rpow_one, one_mul, Finset.sum_const, Finset.card_range, nsmul_eq_mul, mul_one] at hamgm
  have h0 : 0 ≤ ∏ k ∈ range n, (e (k + 1) / e k) ^ 2 := Finset.prod_nonneg hz
  have h1 := pow_le_pow_left₀ (Real.rpow_nonneg h0 _) hamgm n
  rw [Real.rpow_inv_natCast_pow h0 (by omega)] at h1
  refine h1.trans (pow_le_pow_left₀ (div_nonneg (Finset.sum_nonneg hz) hn'.le) ?_ n)
  exact div_le_div_of_nonneg_right hC hn'.le

variable {ι : Type*} [Fintype ι]

/-- **C102 (superlinear rate).** In finite dimension, with the same hypotheses, the squares of the ratios of successive errors
have a sum bounded independently of the number of updates, so that the `n`-th error is at most `(C / n)^(n / 2)` times the
first. -/
theorem C102_superlinear (S : Broyden ℝ E L) (hl : ∀ x y, S.ldot x y = ⟪x, y⟫) (F : E → E) (A : E →ₗ[ℝ] E) (xs : E)
    (x0 : L → E) (hf : ∀ x, S.f x default = F (x default)) (α κ r δ : ℝ) (hF : LocalRoot F A xs α κ r)
    (hγ : S.gamma ≠ 0) (hδ : ∀ v, ‖S.gamma⁻¹ • v - A v‖ ≤ δ * ‖v‖) (hr : ‖x0 default - xs‖ ≤ r)
    (hsmall : δ + 2 * κ * ‖x0 default - xs‖ ≤ α / 3) (n : ℕ) (hn : n ≤ S.historySize)
    (hu : ∀ k < n, S.UnitStep (S.iter x0 k)) (hne : ∀ k < n, F ((S.iter x0 k).1 default) ≠ 0)
    (b : OrthonormalBasis ι ℝ E) :
    let C := 11 / α ^ 2 * (∑ i, ‖S.gamma⁻¹ • b i - A (b i)‖ ^ 2 + 3 * κ ^ 2 * ‖x0 default - xs‖ ^ 2)
    ∑ k ∈ range n, (‖(S.iter x0 (k + 1)).1 default - xs‖ / ‖(S.iter x0 k).1 default - xs‖) ^ 2 ≤ C ∧
      (0 < n → ‖(S.iter x0 n).1 default - xs‖ ^ 2 ≤ (C / n) ^ n * ‖x0 default - xs‖ ^ 2) := by
  intro C
  have hκ := hF.nonneg
  have hα := hF.pos
  set e : ℕ → ℝ := fun k => ‖(S.iter x0 k).1 default - xs‖ with hedef
  have he0 : ∀ k, 0 ≤ e k := fun k => norm_nonneg _
  have key : ∀ k ≤ n, ∃ J β, RateInv S F A xs x0 k J β ∧ β + 2 * κ * e k ≤ α / 3 ∧ e k ≤ r ∧
      frob b J A + α ^ 2 / 11 * ∑ j ∈ range k, (e (j + 1) / e j) ^ 2
        ≤ ∑ i, ‖S.gamma⁻¹ • b i - A (b i)‖ ^ 2 + 8 / 3 * κ ^ 2 * (e 0 ^ 2 - e k ^ 2) := by
    intro k
    induction k with
    | zero =>
      intro _
      refine ⟨_, δ, rateInv_zero S F A xs x0 hf hγ δ hδ, hsmall, hr, ?_⟩
      simp only [Finset.range_zero, Finset.sum_empty, mul_zero, add_zero, sub_self]
      exact le_of_eq rfl
    | succ k ih =>
      intro hk
      obtain ⟨J, β, hI, hb, hkr, hfr⟩ := ih (by omega)
      obtain ⟨r1, r2, r3, r4, -, r6, r7⟩ := rateInv_step S hl F A xs x0 hf α κ r hF k (by omega) J β hI (hu k (by omega))
        (hne k (by omega)) hkr (by nlinarith [he0 k, mul_nonneg hκ (he0 k)])
      change e (k + 1) ≤ e k / 2 at r2
      change 0 < e k at r3
      refine ⟨_, _, r1, ?_, ?_, ?_⟩
      · change β + κ * e k + 2 * κ * e (k + 1) ≤ α / 3
        nlinarith
      · linarith
      · rw [frob_broydenJ b A J _ _ r4, Finset.sum_range_succ]
        set s := S.deltaX (S.iter x0 k) default
        set y := S.deltaG (S.iter x0 k) default
        have hs : 0 < ‖s‖ := norm_pos_iff.mpr r4
        set q := ‖J s - A s‖ / ‖s‖ with hq
        have hq0 : 0 ≤ q := div_nonneg (norm_nonneg _) hs.le
        have hy : ‖y - A s‖ ^ 2 / ‖s‖ ^ 2 ≤ κ ^ 2 * e k ^ 2 := by
          rw [div_le_iff₀ (by positivity)]
          have := pow_le_pow_left₀ (norm_nonneg _) r6 2
          calc _ ≤ _ := this
            _ = κ ^ 2 * e k ^ 2 * ‖s‖ ^ 2 := by ring
        have hq2 : ‖J s - A s‖ ^ 2 / ‖s‖ ^ 2 = q ^ 2 := by rw [hq, div_pow]
        have hrat : α ^ 2 / 11 * (e (k + 1) / e k) ^ 2 ≤ q ^ 2 + κ ^ 2 * e k ^ 2 := by
          have h1 : e (k + 1) / e k ≤ 9 / (4 * α) * (κ * e k + q) := by
            rw [div_le_iff₀ r3]; exact r7
          have h2 := pow_le_pow_left₀ (div_nonneg (he0 _) r3.le) h1 2
          have h3 : α ^ 2 / 11 * (9 / (4 * α) * (κ * e k + q)) ^ 2 = 81 / 176 * (κ * e k + q) ^ 2 := by
            field_simp; ring
          have h4 := mul_le_mul_of_nonneg_left h2 (by positivity : 0 ≤ α ^ 2 / 11)
          rw [h3] at h4
          nlinarith [sq_nonneg (κ * e k - q), sq_nonneg (κ * e k + q)]
        have hsq : e (k + 1) ^ 2 ≤ e k ^ 2 / 4 := by
          have := pow_le_pow_left₀ (he0 _) r2 2
          rw [div_pow] at this
          norm_num at this
          exact this
        rw [hq2]
        have h5 : κ ^ 2 * e (k + 1) ^ 2 ≤ κ ^ 2 * (e k ^ 2 / 4) := mul_le_mul_of_nonneg_left hsq (sq_nonneg _)
        rw [mul_add]
        linarith
  have hfin : ∑ k ∈ range n, (e (k + 1) / e k) ^ 2 ≤ C := by
    obtain ⟨J, β, -, -, -, hfr⟩ := key n le_rfl
    have hf0 : 0 ≤ frob b J A := Finset.sum_nonneg fun i _ => sq_nonneg _
    have h1 : C = 11 / α ^ 2 * (∑ i, ‖S.gamma⁻¹ • b i - A (b i)‖ ^ 2 + 3 * κ ^ 2 * e 0 ^ 2) := rfl
    have h2 : ∑ k ∈ range n, (e (k + 1) / e k) ^ 2
        = 11 / α ^ 2 * (α ^ 2 / 11 * ∑ k ∈ range n, (e (k + 1) / e k) ^ 2) := by field_simp
    rw [h1, h2]
    apply mul_le_mul_of_nonneg_left _ (by positivity)
    have h3 : 0 ≤ κ ^ 2 * e 0 ^ 2 := by positivity
    have h4 : 0 ≤ κ ^ 2 * e n ^ 2 := by positivity
    linarith
  refine ⟨hfin, fun hn0 => ?_⟩
  apply superlinear_of_sum e C n hn0 _ hfin
  intro k hk
  have : ∀ x, F x ≠ 0 → 0 < ‖x - xs‖ := fun x hx =>
    norm_pos_iff.mpr (sub_ne_zero.mpr fun h => hx (by rw [h]; exact hF.root))
  exact this _ (hne k hk)

end Model

end Jaxopt.QuasiNewton.Broyden
