import Verif.Isotonic.Lemmas
import Verif.Proj.Spec
import Mathlib.Algebra.BigOperators.Fin
import Mathlib.LinearAlgebra.Matrix.Notation
import Mathlib.Tactic.LinearCombination

/-!
# Property C17: `isotonic_l2_pav` solves isotonic regression
-/

set_option autoImplicit false
set_option linter.unusedSectionVars false
set_option linter.unusedVariables false

namespace Jaxopt.Isotonic

open Finset Jaxopt.Proj

variable {K : Type*} [Field K] [LinearOrder K] [IsStrictOrderedRing K]

/-- The feasible set of the docstring: monotone sequences within the bounds (`none` means no bound). -/
def Feasible {n : ℕ} (yMin yMax : Option K) (increasing : Bool) : Set (Fin n → K) :=
  {v | (if increasing then Monotone v else Antitone v) ∧
    (∀ l ∈ yMin, ∀ i, l ≤ v i) ∧ (∀ u ∈ yMax, ∀ i, v i ≤ u)}

theorem clipInf_mono (lo hi : Option K) {a b : K} (h : a ≤ b) : clipInf a lo hi ≤ clipInf b lo hi := by
  unfold clipInf
  cases lo <;> cases hi <;> simp only
  · exact h
  · exact min_le_min_right _ h
  · exact max_le_max_right _ h
  · exact min_le_min_right _ (max_le_max_right _ h)

theorem clipInf_lo {lo hi : Option K} (hb : ∀ l ∈ lo, ∀ u ∈ hi, l ≤ u) (a l : K) (hl : l ∈ lo) : l ≤ clipInf a lo hi := by
  unfold clipInf
  cases lo with
  | none => simp at hl
  | some l' =>
    simp at hl; subst hl
    cases hi with
    | none => exact le_max_right _ _
    | some u => exact le_min (le_max_right _ _) (hb _ rfl _ rfl)

theorem clipInf_hi {lo hi : Option K} (a u : K) (hu : u ∈ hi) : clipInf a lo hi ≤ u := by
  unfold clipInf
  cases hi with
  | none => simp at hu
  | some u' => simp at hu; subst hu; exact min_le_right _ _

theorem clipInf_vi {lo hi : Option K} (hb : ∀ l ∈ lo, ∀ u ∈ hi, l ≤ u) (a z : K) (h1 : ∀ l ∈ lo, l ≤ z)
    (h2 : ∀ u ∈ hi, z ≤ u) : (a - clipInf a lo hi) * (z - clipInf a lo hi) ≤ 0 := by
  unfold clipInf
  cases lo with
  | none =>
    cases hi with
    | none => simp
    | some u =>
      have := h2 u rfl
      simp only
      rcases le_total a u with h | h
      · rw [min_eq_left h]; simp
      · rw [min_eq_right h]; exact mul_nonpos_of_nonneg_of_nonpos (by linarith) (by linarith)
  | some l =>
    have hl := h1 l rfl
    cases hi with
    | none =>
      simp only
      rcases le_total a l with h | h
      · rw [max_eq_right h]; exact mul_nonpos_of_nonpos_of_nonneg (by linarith) (by linarith)
      · rw [max_eq_left h]; simp
    | some u =>
      have hu := h2 u rfl
      have hlu := hb l rfl u rfl
      simp only
      rcases le_total a l with h | h
      · rw [max_eq_right h, min_eq_left hlu]; exact mul_nonpos_of_nonpos_of_nonneg (by linarith) (by linarith)
      · rw [max_eq_left h]
        rcases le_total a u with h' | h'
        · rw [min_eq_left h']; simp
        · rw [min_eq_right h']; exact mul_nonpos_of_nonneg_of_nonpos (by linarith) (by linarith)

/-- **C17**: for every input, every direction and every non-empty pair of bounds, the call returns (no fuel exhaustion)
the unique closest feasible sequence. -/
theorem C17_isotonic {n : ℕ} (y : Fin n → K) (yMin yMax : Option K) (increasing : Bool)
    (hb : ∀ l ∈ yMin, ∀ u ∈ yMax, l ≤ u) :
    ∃ v, isotonicL2Pav y yMin yMax increasing = some v ∧ IsUniqueProj (Feasible yMin yMax increasing) y v := by
  set sign : K := if increasing then -1 else 1 with hsign
  have hs2 : sign * sign = 1 := by rw [hsign]; split_ifs <;> norm_num
  set Y : ℕ → K := fun j => if h : j < n then y ⟨j, h⟩ * sign else 0 with hY
  obtain ⟨v, hv, cert⟩ := pavNumba_cert n Y
  refine ⟨fun i => clipInf (v i * sign) yMin yMax, by simp only [isotonicL2Pav, ← hsign, ← hY, hv], ?_⟩
  have hYy : ∀ i : Fin n, Y i = y i * sign := fun i => by simp [hY]
  have hvanti : ∀ a b : ℕ, a ≤ b → b < n → v b ≤ v a := by
    intro a b hab
    induction b, hab using Nat.le_induction with
    | base => intro _; exact le_refl _
    | succ b hab ih => intro hbn; exact le_trans (cert.anti b hbn) (ih (by omega))
  apply isUniqueProj_of_vi
  · refine ⟨?_, fun l hl i => clipInf_lo hb _ l hl, fun u hu i => clipInf_hi _ u hu⟩
    cases increasing with
    | true =>
      simp only [if_true] at hsign ⊢
      intro a b hab
      apply clipInf_mono
      have := hvanti a b hab b.2
      rw [hsign]; linarith
    | false =>
      simp only [Bool.false_eq_true, if_false] at hsign ⊢
      intro a b hab
      apply clipInf_mono
      have := hvanti a b hab b.2
      rw [hsign]; linarith
  · rintro z ⟨hz, hz1, hz2⟩
    -- split at the unclipped solution
    set w : Fin n → K := fun i => clipInf (v i * sign) yMin yMax with hw
    set Z : ℕ → K := fun j => if h : j < n then z ⟨j, h⟩ * sign else 0 with hZ
    have hZz : ∀ i : Fin n, Z i = z i * sign := fun i => by simp [hZ]
    have hZanti : ∀ j, j + 1 < n → Z (j + 1) ≤ Z j := by
      intro j hj
      have e1 : Z (j + 1) = z ⟨j + 1, hj⟩ * sign := by simp [hZ, hj]
      have e2 : Z j = z ⟨j, by omega⟩ * sign := by simp [hZ, (by omega : j < n)]
      rw [e1, e2]
      have hle : (⟨j, by omega⟩ : Fin n) ≤ ⟨j + 1, hj⟩ := by simp [Fin.le_def]
      cases increasing with
      | true =>
        simp only [if_true] at hsign hz
        have := hz hle
        rw [hsign]; linarith
      | false =>
        simp only [Bool.false_eq_true, if_false] at hsign hz
        have := hz hle
        rw [hsign]; linarith
    have h1 := cert.le hZanti
    have h2 := cert.orth fun t => clipInf (t * sign) yMin yMax * sign
    rw [← Fin.sum_univ_eq_sum_range (fun j => (Y j - v j) * Z j)] at h1
    rw [← Fin.sum_univ_eq_sum_range (fun j => (Y j - v j) * (clipInf (v j * sign) yMin yMax * sign))] at h2
    have key : ∀ i : Fin n, (y i - w i) * (z i - w i)
        = ((Y i - v i) * Z i - (Y i - v i) * (clipInf (v i * sign) yMin yMax * sign))
          + (v i * sign - w i) * (z i - w i) := by
      intro i
      rw [hYy, hZz]
      simp only [hw]
      linear_combination (y i) * (clipInf (v i * sign) yMin yMax - z i) * hs2
    rw [sum_congr rfl fun i _ => key i, sum_add_distrib, sum_sub_distrib, h2]
    have h3 : ∑ i : Fin n, (v i * sign - w i) * (z i - w i) ≤ 0 :=
      sum_nonpos fun i _ => clipInf_vi hb _ _ (fun l hl => hz1 l hl i) (fun u hu => hz2 u hu i)
    linarith

/-- With an empty pair of bounds there is nothing to return; the code returns the upper bound everywhere. -/
theorem C17_empty_bounds {n : ℕ} (y : Fin (n + 1) → K) (l u : K) (h : u < l) (increasing : Bool) :
    (Feasible (n := n + 1) (some l) (some u) increasing = ∅) ∧
    ∃ v, isotonicL2Pav y (some l) (some u) increasing = some v ∧ ∀ i, v i = u := by
  constructor
  · ext v
    simp only [Feasible, Set.mem_ofPred_eq, Set.mem_empty_iff_false, iff_false]
    rintro ⟨_, h1, h2⟩
    have := h1 l rfl 0
    have := h2 u rfl 0
    linarith
  · obtain ⟨v, hv, -⟩ := pavNumba_cert (n + 1)
      (fun j => if h : j < n + 1 then y ⟨j, h⟩ * (if increasing then -1 else 1 : K) else 0)
    refine ⟨fun i => clipInf (v i * (if increasing then -1 else 1 : K)) (some l) (some u),
      by simp only [isotonicL2Pav, hv], fun i => ?_⟩
    simp only [clipInf]
    exact min_eq_right (le_trans (le_of_lt h) (le_max_right _ _))

/-- The model computes: a sequence with two pooled blocks and bounds. -/
example : (isotonicL2Pav ![(1 : ℚ), 3, 2, 4, 0] none (some 2) true).map (fun v => (v 0, v 1, v 4))
    = some (1, 2, 2) := by decide +kernel

end Jaxopt.Isotonic
