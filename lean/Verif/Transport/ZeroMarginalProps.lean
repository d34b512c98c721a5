import Verif.Transport.ZeroMarginal
import Verif.Loss.MaskedProps
import Verif.Transport.Props

/-!
# C140: zero column marginals in the transport projections
-/

set_option autoImplicit false
set_option linter.unusedSectionVars false
set_option linter.unusedVariables false

namespace Jaxopt.Transport

open Jaxopt.Proj Jaxopt.Loss

section
variable {K : Type*} [Field K] [LinearOrder K] [IsStrictOrderedRing K] {m n : ℕ}

/-! ## Infinite and NaN inputs of the simplex projection -/

theorem sum_nonfinite {l : List (Ext K)} (hne : l ≠ []) (h : ∀ v ∈ l, ∀ x, v ≠ .fin x) :
    sumE l = .nan ∨ (sumE l = .pinf ∧ ∀ v ∈ l, v = .pinf) ∨ (sumE l = .ninf ∧ ∀ v ∈ l, v = .ninf) := by
  induction l with
  | nil => exact absurd rfl hne
  | cons a l ih =>
    have ha := h a (by simp)
    rw [sumE_cons]
    by_cases hl : l = []
    · subst hl
      cases a with
      | nan => left; rfl
      | pinf => right; left; exact ⟨rfl, by simp⟩
      | ninf => right; right; exact ⟨rfl, by simp⟩
      | fin x => exact absurd rfl (ha x)
    · rcases ih hl fun v hv => h v (by simp [hv]) with e | ⟨e, e'⟩ | ⟨e, e'⟩ <;> rw [e]
      · left; cases a <;> rfl
      · cases a with
        | nan => left; rfl
        | pinf => right; left; exact ⟨rfl, by simpa using e'⟩
        | ninf => left; rfl
        | fin x => exact absurd rfl (ha x)
      · cases a with
        | nan => left; rfl
        | pinf => left; rfl
        | ninf => right; right; exact ⟨rfl, by simpa using e'⟩
        | fin x => exact absurd rfl (ha x)

/-- The gap of an entry of a list without finite numbers and a sum it belongs to is NaN. -/
theorem gap_nonfinite {l : List (Ext K)} (h : ∀ v ∈ l, ∀ x, v ≠ .fin x) {a : Ext K} (ha : a ∈ l) (k : ℕ) : gapE k a (sumE l) = .nan := by
  have hn : ∀ v : Ext K, Ext.add v .nan = .nan := fun v => by cases v <;> rfl
  rcases sum_nonfinite (List.ne_nil_of_mem ha) h with e | ⟨e, e'⟩ | ⟨e, e'⟩
  · rw [e]; unfold gapE; cases a <;> exact hn _
  · rw [e, e' a ha]; exact hn _
  · rw [e, e' a ha]; exact hn _

/-- `projection_simplex` of a vector without finite entries is NaN. -/
theorem simplexE_nonfinite {x : Fin m → Ext K} (h : ∀ i y, x i ≠ .fin y) (i : Fin m) : simplexE x i = .nan := by
  set u := (List.ofFn x).insertionSort sortGe with hu
  have hp : u.Perm (List.ofFn x) := List.perm_insertionSort _ _
  have hf : ∀ v ∈ u, ∀ y, v ≠ .fin y := fun v hv y => by
    obtain ⟨j, rfl⟩ := List.mem_ofFn.mp (hp.mem_iff.mp hv)
    exact h j y
  have hx : x i ∈ u := hp.mem_iff.mpr (List.mem_ofFn.mpr ⟨i, rfl⟩)
  have hpos : 0 < u.length := List.length_pos_of_mem hx
  have hc : countE u = 0 := by
    unfold countE
    rw [List.length_eq_zero_iff, List.filter_eq_nil_iff]
    intro k hk
    have hk' := List.mem_range.mp hk
    have hm : u.getD k .nan ∈ u.take (k + 1) := by
      rw [List.getD_eq_getElem?_getD, List.getElem?_eq_getElem hk', Option.getD_some]
      exact List.mem_take_iff_getElem.mpr ⟨k, by omega, rfl⟩
    rw [cumsumE_getD hk', gap_nonfinite (fun v hv => hf v (List.mem_of_mem_take hv)) hm]
    simp [Ext.gt, Ext.lt]
  show entryE u (x i) = .nan
  unfold entryE
  simp only [hc, if_true]
  rw [cumsumE_getD (by omega), Nat.sub_add_cancel hpos, List.take_length]
  rw [gap_nonfinite hf hx]
  rfl

theorem divE_nonfinite (x : K) (y : K) : divE x 0 ≠ .fin y := by
  unfold divE
  rw [if_pos rfl]
  split_ifs <;> simp

theorem arg_nan (x : Fin m → K) (gamma : K) (i : Fin m) : maxL2ArgE x 0 gamma i = .nan :=
  simplexE_nonfinite (fun i y => by rw [mul_zero]; exact divE_nonfinite _ _) i

theorem mulE_nan (v : Ext K) : mulE v .nan = .nan := by cases v <;> rfl

theorem sub_nan (v : Ext K) : Ext.sub .nan v = .nan := by cases v <;> rfl

theorem sub_nan' (v : Ext K) : Ext.sub v .nan = .nan := by cases v <;> rfl

theorem dotE_nan {k : ℕ} {u v : Fin k → Ext K} (i : Fin k) (h : mulE (u i) (v i) = .nan) : dotE u v = .nan := by
  refine sumE_nan (List.mem_ofFn.mpr ⟨i, h⟩)

theorem dotE_fin {k : ℕ} (u v : Fin k → K) : dotE (fun i => .fin (u i)) (fun i => .fin (v i)) = .fin (dot u v) := by
  unfold dotE dot
  exact sumE_ofFn_fin fun j => u j * v j

/-! ## Positive marginals -/

theorem arg_fin (x : Fin m → K) {b gamma : K} (h : gamma * b ≠ 0) (i : Fin m) : maxL2ArgE x b gamma i = .fin (maxL2Arg x b gamma i) := by
  have h1 := (simplexE_masked (mask := fun _ => false) (x := fun i => x i / (gamma * b)) (fun j hj => by simp at hj) (y := i) rfl).1
  have e : (fun i => divE (x i) (gamma * b)) = maskScores (fun _ => false) fun i => x i / (gamma * b) := by
    funext j; simp [divE, h, maskScores]
  unfold maxL2ArgE maxL2Arg
  rw [e, h1]
  simp [projectionSimplex]

theorem maxL2E_fin (x : Fin m → K) {b gamma : K} (h : gamma * b ≠ 0) : maxL2E x b gamma = .fin (maxL2 x b gamma) := by
  have e : maxL2ArgE x b gamma = fun i => .fin (maxL2Arg x b gamma i) := funext (arg_fin x h)
  unfold maxL2E maxL2
  simp only [e, dotE_fin]
  show Ext.fin (_ + -_) = _
  rw [← sub_eq_add_neg]

/-! ## Properties -/

/-- C140.  `projection_transport` in its default formulation: the column of a zero marginal is NaN whatever the solver returns, and the objective is NaN
everywhere; for positive marginals objective and plan are those of exact arithmetic. -/
theorem C140_l2 (hm : 0 < m) {gamma : K} (hg : 0 < gamma) (cost : Fin m → Fin n → K) (a : Fin m → K) {b : Fin n → K} (hb : ∀ j, 0 ≤ b j) (α : Fin m → K) :
    (∀ i j, semiDualPlanE maxL2ArgE gamma cost b α i j = if b j = 0 then .nan else .fin (semiDualPlan maxL2Grad gamma cost b α i j)) ∧
    ((∃ j, b j = 0) → semiDualE maxL2E gamma cost a b α = .nan) ∧
    ((∀ j, 0 < b j) → semiDualE maxL2E gamma cost a b α = .fin (semiDual maxL2 gamma cost a b α)) := by
  refine ⟨fun i j => ?_, fun ⟨j, hj⟩ => ?_, fun h => ?_⟩
  · unfold semiDualPlanE semiDualPlan
    by_cases h : b j = 0
    · rw [if_pos h, h, arg_nan]; rfl
    · rw [if_neg h, arg_fin _ (mul_ne_zero hg.ne' h)]; rfl
  · have e : maxL2E (fun i => α i - cost i j) (b j) gamma = .nan := by
      unfold maxL2E
      rw [hj]
      simp only
      rw [dotE_nan (u := fun i => Ext.fin (α i - cost i j)) ⟨0, hm⟩ (by rw [arg_nan]; rfl), sub_nan]
    unfold semiDualE
    rw [dotE_nan j (by rw [e]; rfl), sub_nan]
  · have e : (fun j => maxL2E (fun i => α i - cost i j) (b j) gamma) = fun j => .fin (maxL2 (fun i => α i - cost i j) (b j) gamma) :=
      funext fun j => maxL2E_fin _ (mul_pos hg (h j)).ne'
    unfold semiDualE semiDual
    rw [e, dotE_fin, dotE_fin]
    show Ext.fin (_ + -_) = _
    rw [← sub_eq_add_neg]

end

variable {m n : ℕ}

theorem logsumexpE_fin (hm : 0 < m) (x : Fin m → ℝ) : logsumexpE (fun i => .fin (x i)) = .fin (Real.log (∑ i, Real.exp (x i))) := by
  have hne : Nonempty (Fin m) := ⟨⟨0, hm⟩⟩
  have hpos : 0 < ∑ i, Real.exp (x i) := Finset.sum_pos (fun k _ => Real.exp_pos _) Finset.univ_nonempty
  obtain ⟨M, hM⟩ : ∃ M, vmaxE (fun i => Ext.fin (x i)) = .fin M := by
    refine (max_low ?_).2 ⟨x ⟨0, hm⟩, List.mem_ofFn.mpr ⟨⟨0, hm⟩, rfl⟩⟩
    intro v hv
    obtain ⟨j, rfl⟩ := List.mem_ofFn.mp hv
    exact Or.inr ⟨x j, rfl⟩
  unfold logsumexpE
  simp only [hM, Ext.isNan, Ext.isInf, Bool.or_self, Bool.false_eq_true, if_false]
  have e : (fun j => expE (Ext.sub (.fin (x j)) (.fin M))) = fun j => .fin (Real.exp (-M) * Real.exp (x j)) := by
    funext j
    rw [← Real.exp_add, add_comm]
    rfl
  rw [e, sumE_ofFn_fin, ← Finset.mul_sum]
  show Ext.add (if 0 < Real.exp (-M) * ∑ i, Real.exp (x i) then _ else _) _ = _
  rw [if_pos (mul_pos (Real.exp_pos _) hpos), Real.log_mul (Real.exp_pos _).ne' hpos.ne', Real.log_exp]
  show Ext.fin _ = _
  congr 1
  ring

/-- C140.  `kl_projection_transport` in its default formulation: a zero column marginal makes the objective NaN at every potential, though the plan of every
potential is right (that column is zero); for positive marginals the objective is that of exact arithmetic. -/
theorem C140_ent (hm : 0 < m) {gamma : ℝ} (hg : 0 < gamma) (cost : Fin m → Fin n → ℝ) (a : Fin m → ℝ) {b : Fin n → ℝ} (hb : ∀ j, 0 ≤ b j) (α : Fin m → ℝ) :
    (∀ i j, semiDualPlanE maxEntGradE gamma cost b α i j = .fin (semiDualPlan maxEntGrad gamma cost b α i j)) ∧
    ((∃ j, b j = 0) → semiDualE maxEntE gamma cost a b α = .nan) ∧
    ((∀ j, 0 < b j) → semiDualE maxEntE gamma cost a b α = .fin (semiDual maxEnt gamma cost a b α)) := by
  refine ⟨fun i j => rfl, fun ⟨j, hj⟩ => ?_, fun h => ?_⟩
  · have e : maxEntE (fun i => α i - cost i j) (b j) gamma = .pinf := by
      unfold maxEntE
      rw [hj, logsumexpE_fin hm]
      have hl : logE (.fin 0) = .ninf := by simp [logE]
      rw [hl]
      show Ext.sub (Ext.fin _) (if 0 < gamma then Ext.ninf else _) = _
      rw [if_pos hg]
      rfl
    unfold semiDualE
    rw [dotE_nan j ?_, sub_nan]
    rw [e, hj]
    show (if (0 : ℝ) < 0 then _ else if (0 : ℝ) < 0 then _ else _) = _
    rw [if_neg (lt_irrefl _), if_neg (lt_irrefl _)]
  · have e : (fun j => maxEntE (fun i => α i - cost i j) (b j) gamma) = fun j => .fin (maxEnt (fun i => α i - cost i j) (b j) gamma) := by
      funext j
      unfold maxEntE maxEnt
      rw [logsumexpE_fin hm]
      show Ext.sub (Ext.fin _) (mulE _ (if 0 < b j then _ else _)) = _
      rw [if_pos (h j)]
      show Ext.fin (_ + -_) = _
      rw [← sub_eq_add_neg]
    unfold semiDualE semiDual
    rw [e, dotE_fin, dotE_fin]
    show Ext.fin (_ + -_) = _
    rw [← sub_eq_add_neg]

/-! ## The problem with a zero marginal is well posed -/

/-- C140.  Removing the column of a zero marginal does not change the problem: the plans with the requested marginals are those of the remaining columns,
with a zero column. -/
theorem C140_well_posed (a : Fin m → ℝ) (b : Fin n → ℝ) (P : Fin m → Fin (n + 1) → ℝ) :
    flat P ∈ Polytope a (Fin.cons 0 b : Fin (n + 1) → ℝ) ↔ (∀ i, P i 0 = 0) ∧ flat (fun i j => P i (Fin.succ j)) ∈ Polytope a b := by
  simp only [Polytope, Set.mem_ofPred_eq, flat]
  constructor
  · rintro ⟨h1, h2, h3⟩
    have h0 : ∀ i, P i 0 = 0 := fun i => by
      have := h3 0
      rw [Fin.cons_zero, Finset.sum_eq_zero_iff_of_nonneg fun i _ => h1 (i, 0)] at this
      exact this i (Finset.mem_univ i)
    refine ⟨h0, fun ij => h1 (ij.1, ij.2.succ), fun i => ?_, fun j => ?_⟩
    · rw [← h2 i, Fin.sum_univ_succ, h0, zero_add]
    · have := h3 j.succ
      rwa [Fin.cons_succ] at this
  · rintro ⟨h0, h1, h2, h3⟩
    refine ⟨fun ij => ?_, fun i => ?_, fun j => ?_⟩
    · obtain ⟨i, j⟩ := ij
      refine Fin.cases ?_ (fun j => ?_) j
      · rw [h0]
      · exact h1 (i, j)
    · rw [Fin.sum_univ_succ, h0, zero_add, h2]
    · refine Fin.cases ?_ (fun j => ?_) j
      · simp [h0]
      · rw [Fin.cons_succ]; exact h3 j

/-! ## Examples -/

/-- One zero marginal out of two. -/
example (α : Fin 2 → ℚ) : semiDualPlanE maxL2ArgE 1 (fun _ _ => 0) ![1, 0] α 0 1 = Ext.nan := by
  rw [(C140_l2 (m := 2) (n := 2) (by norm_num) one_pos (fun _ _ => 0) ![1 / 2, 1 / 2] (b := ![1, 0]) (fun j => by fin_cases j <;> simp) α).1]
  simp

/-- The plan exists: half of the mass in each row of the first column. -/
example : flat (fun (_ : Fin 2) (j : Fin 2) => if j = 0 then (0 : ℝ) else 1 / 2) ∈ Polytope ![1 / 2, 1 / 2] (Fin.cons 0 ![1] : Fin 2 → ℝ) := by
  rw [C140_well_posed]
  refine ⟨fun i => by simp, fun ij => by simp [flat], fun i => by fin_cases i <;> simp [flat], fun j => by fin_cases j; simp [flat]⟩

end Jaxopt.Transport
