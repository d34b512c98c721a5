import Mathlib.Data.Matrix.Mul
import Mathlib.Data.Real.Archimedean
import Mathlib.Data.Fin.Tuple.Basic
import Mathlib.Algebra.BigOperators.Fin
import Mathlib.Order.ConditionallyCompleteLattice.Basic
import Mathlib.Order.Bounds.Lattice
import Mathlib.Data.Set.Finite.Lattice
import Mathlib.Data.Set.Finite.List
import Mathlib.Tactic.Linarith
import Mathlib.Tactic.Ring
import Mathlib.Tactic.FieldSimp

/-!
# Linear inequalities that can be satisfied up to every error can be satisfied

By Fourier-Motzkin elimination of the variables.
-/

set_option autoImplicit false
set_option linter.unusedSectionVars false
set_option linter.unusedVariables false

open Matrix

namespace Jaxopt.Elimination

/-- A number between finitely many lower and upper bounds. -/
theorem exists_between (A B : List ℝ) (h : ∀ a ∈ A, ∀ b ∈ B, a ≤ b) : ∃ x, (∀ a ∈ A, a ≤ x) ∧ ∀ b ∈ B, x ≤ b := by
  have fin : ∀ L : List ℝ, {a | a ∈ L}.Finite := fun L => L.finite_toSet
  by_cases hA : {a | a ∈ A}.Nonempty
  · by_cases hB : {b | b ∈ B}.Nonempty
    · obtain ⟨x, hx1, hx2⟩ := exists_between_of_forall_le hA hB fun a ha b hb => h a ha b hb
      exact ⟨x, fun a ha => hx1 ha, fun b hb => hx2 hb⟩
    · obtain ⟨x, hx⟩ := (fin A).bddAbove
      exact ⟨x, fun a ha => hx ha, fun b hb => absurd ⟨b, hb⟩ hB⟩
  · obtain ⟨x, hx⟩ := (fin B).bddBelow
    exact ⟨x, fun a ha => absurd ⟨a, ha⟩ hA, fun b hb => hx hb⟩

/-- An inequality `a · x ≤ b + ε e`. -/
abbrev Ineq (n : ℕ) := (Fin n → ℝ) × ℝ × ℝ

/-- The inequalities without the first variable, if it does not occur. -/
def dropFirst {n : ℕ} (t : Ineq (n + 1)) : Ineq n := (fun i => t.1 i.succ, t.2.1, t.2.2)

/-- The combination of two inequalities in which the first variable occurs with opposite signs. -/
def combine {n : ℕ} (p q : Ineq (n + 1)) : Ineq n :=
  (fun i => -q.1 0 * p.1 i.succ + p.1 0 * q.1 i.succ, -q.1 0 * p.2.1 + p.1 0 * q.2.1, -q.1 0 * p.2.2 + p.1 0 * q.2.2)

/-- The system without the first variable. -/
noncomputable def eliminate {n : ℕ} (L : List (Ineq (n + 1))) : List (Ineq n) :=
  ((L.filter fun t => t.1 0 = 0).map dropFirst) ++
    (L.filter fun t => 0 < t.1 0).flatMap fun p => (L.filter fun t => t.1 0 < 0).map fun q => combine p q

theorem dot_succ {n : ℕ} (a x : Fin (n + 1) → ℝ) : a ⬝ᵥ x = a 0 * x 0 + (fun i : Fin n => a i.succ) ⬝ᵥ fun i => x i.succ := by
  unfold dotProduct; rw [Fin.sum_univ_succ]

theorem dot_combine {n : ℕ} (p q : Ineq (n + 1)) (x : Fin n → ℝ) :
    (combine p q).1 ⬝ᵥ x = -q.1 0 * ((fun i : Fin n => p.1 i.succ) ⬝ᵥ x) + p.1 0 * ((fun i : Fin n => q.1 i.succ) ⬝ᵥ x) := by
  unfold combine dotProduct
  simp only
  rw [Finset.mul_sum, Finset.mul_sum, ← Finset.sum_add_distrib]
  exact Finset.sum_congr rfl fun i _ => by ring

/-- If the system has a solution for every positive error then it has an exact solution. -/
theorem exact_of_approx : ∀ {n : ℕ} (L : List (Ineq n)), (∀ t ∈ L, 0 ≤ t.2.2) →
    (∀ ε > (0 : ℝ), ∃ x, ∀ t ∈ L, t.1 ⬝ᵥ x ≤ t.2.1 + ε * t.2.2) → ∃ x, ∀ t ∈ L, t.1 ⬝ᵥ x ≤ t.2.1
  | 0, L, he, h => by
    refine ⟨fun i => i.elim0, fun t ht => ?_⟩
    have h0 : ∀ v w : Fin 0 → ℝ, v ⬝ᵥ w = 0 := fun v w => by simp [dotProduct]
    rw [h0]
    by_contra hc
    have hc := not_le.mp hc
    have ht0 := he t ht
    obtain ⟨x, hx⟩ := h (-t.2.1 / (2 * (t.2.2 + 1))) (div_pos (by linarith) (by linarith))
    have h1 := hx t ht
    rw [h0] at h1
    have h2 : -t.2.1 / (2 * (t.2.2 + 1)) * t.2.2 ≤ -t.2.1 / 2 := by
      rw [div_mul_eq_mul_div, div_le_div_iff₀ (by linarith) (by norm_num)]
      nlinarith
    linarith
  | n + 1, L, he, h => by
    have he' : ∀ t ∈ eliminate L, 0 ≤ t.2.2 := by
      intro t ht
      simp only [eliminate, List.mem_append, List.mem_map, List.mem_filter, List.mem_flatMap, decide_eq_true_eq] at ht
      rcases ht with ⟨s, ⟨hs, -⟩, rfl⟩ | ⟨p, ⟨hp, hp0⟩, q, ⟨hq, hq0⟩, rfl⟩
      · exact he s hs
      · have h1 := mul_nonneg (neg_nonneg.mpr hq0.le) (he p hp)
        have h2 := mul_nonneg hp0.le (he q hq)
        simp only [combine]; linarith
    have h' : ∀ ε > (0 : ℝ), ∃ x, ∀ t ∈ eliminate L, t.1 ⬝ᵥ x ≤ t.2.1 + ε * t.2.2 := by
      intro ε hε
      obtain ⟨x, hx⟩ := h ε hε
      refine ⟨fun i => x i.succ, fun t ht => ?_⟩
      simp only [eliminate, List.mem_append, List.mem_map, List.mem_filter, List.mem_flatMap, decide_eq_true_eq] at ht
      rcases ht with ⟨s, ⟨hs, hs0⟩, rfl⟩ | ⟨p, ⟨hp, hp0⟩, q, ⟨hq, hq0⟩, rfl⟩
      · have := hx s hs
        rw [dot_succ, hs0, zero_mul, zero_add] at this
        exact this
      · rw [dot_combine]
        have h1 := mul_le_mul_of_nonneg_left (hx p hp) (neg_nonneg.mpr hq0.le)
        have h2 := mul_le_mul_of_nonneg_left (hx q hq) hp0.le
        rw [dot_succ] at h1 h2
        simp only [combine]
        linarith
    obtain ⟨x, hx⟩ := exact_of_approx (eliminate L) he' h'
    obtain ⟨x0, hlo, hup⟩ := exists_between
      ((L.filter fun t => t.1 0 < 0).map fun q => (q.2.1 - (fun i : Fin n => q.1 i.succ) ⬝ᵥ x) / q.1 0)
      ((L.filter fun t => 0 < t.1 0).map fun p => (p.2.1 - (fun i : Fin n => p.1 i.succ) ⬝ᵥ x) / p.1 0) (by
        intro a ha b hb
        simp only [List.mem_map, List.mem_filter, decide_eq_true_eq] at ha hb
        obtain ⟨q, ⟨hq, hq0⟩, rfl⟩ := ha
        obtain ⟨p, ⟨hp, hp0⟩, rfl⟩ := hb
        have hm : combine p q ∈ eliminate L := by
          simp only [eliminate, List.mem_append, List.mem_map, List.mem_filter, List.mem_flatMap, decide_eq_true_eq]
          exact .inr ⟨p, ⟨hp, hp0⟩, q, ⟨hq, hq0⟩, rfl⟩
        have h1 := hx _ hm
        rw [dot_combine] at h1
        simp only [combine] at h1
        rw [← neg_div_neg_eq, div_le_div_iff₀ (by linarith) hp0]
        linarith)
    refine ⟨Fin.cons x0 x, fun t ht => ?_⟩
    rw [dot_succ]
    simp only [Fin.cons_zero, Fin.cons_succ]
    rcases lt_trichotomy (t.1 0) 0 with h0 | h0 | h0
    · have h1 := hlo _ (List.mem_map.mpr ⟨t, by simp [ht, h0], rfl⟩)
      rw [div_le_iff_of_neg h0] at h1
      linarith
    · have hm : dropFirst t ∈ eliminate L := by
        simp only [eliminate, List.mem_append, List.mem_map, List.mem_filter, decide_eq_true_eq]
        exact .inl ⟨t, ⟨ht, h0⟩, rfl⟩
      have h1 := hx _ hm
      simp only [dropFirst] at h1
      rw [h0, zero_mul, zero_add]; exact h1
    · have h1 := hup _ (List.mem_map.mpr ⟨t, by simp [ht, h0], rfl⟩)
      rw [le_div_iff₀ h0] at h1
      linarith

end Jaxopt.Elimination
