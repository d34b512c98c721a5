import Verif.Proj.Spec
import Verif.Proj.Model
import Mathlib.Algebra.Order.BigOperators.Group.Finset
import Mathlib.Algebra.BigOperators.Intervals
import Mathlib.Tactic.FieldSimp
import Mathlib.Tactic.Positivity

/-!
# Lemmas about the simplex-projection threshold
-/

set_option autoImplicit false
set_option linter.unusedSectionVars false
set_option linter.unusedVariables false

namespace Jaxopt.Proj

variable {K ι : Type*} [Field K] [LinearOrder K] [IsStrictOrderedRing K]

theorem relu_nonneg (x : K) : 0 ≤ relu x := le_max_right _ _

/-- Counting a prefix-closed predicate on `range n`. -/
theorem filter_range_prefix (n : ℕ) (p : ℕ → Bool)
    (h : ∀ i, i + 1 < n → p (i + 1) = true → p i = true) (i : ℕ) (hi : i < n) :
    p i = true ↔ i < ((List.range n).filter p).length := by
  induction n with
  | zero => omega
  | succ n ih =>
    have hle : ((List.range n).filter p).length ≤ n := by
      simpa using List.length_filter_le p (List.range n)
    have h' : ∀ i, i + 1 < n → p (i + 1) = true → p i = true := fun i hi => h i (by omega)
    rw [List.range_succ, List.filter_append, List.length_append]
    by_cases hpn : p n = true
    · have hall : ∀ j, j ≤ n → p (n - j) = true := by
        intro j
        induction j with
        | zero => intro _; simpa using hpn
        | succ j ihj =>
          intro hj
          have := ihj (by omega)
          have e : n - j = (n - (j+1)) + 1 := by omega
          rw [e] at this
          exact h _ (by omega) this
      have hlen : ((List.range n).filter p).length = n := by
        rw [List.filter_eq_self.mpr, List.length_range]
        intro a ha
        have := List.mem_range.mp ha
        have := hall (n - a) (by omega)
        rwa [show n - (n - a) = a by omega] at this
      have hpi : p i = true := by
        have := hall (n - i) (by omega)
        rwa [show n - (n - i) = i by omega] at this
      simp [hlen, hpn, hpi]; omega
    · rcases Nat.lt_succ_iff_lt_or_eq.mp hi with hlt | rfl
      · simp [hpn]; exact ih h' hlt
      · simp [hpn]; omega

theorem sum_take_eq (u : List K) (k : ℕ) : (u.take k).sum = ∑ j ∈ Finset.range k, u.getD j 0 := by
  induction u generalizing k with
  | nil => simp
  | cons a u ih =>
    cases k with
    | zero => simp
    | succ k => rw [Finset.sum_range_succ']; simp [ih, add_comm]

theorem sum_map_eq (u : List K) (f : K → K) :
    (u.map f).sum = ∑ j ∈ Finset.range u.length, f (u.getD j 0) := by
  induction u with
  | nil => simp
  | cons a u ih => rw [List.length_cons, Finset.sum_range_succ']; simp [ih, add_comm]

theorem getD_cumsum (u : List K) (i : ℕ) (hi : i < u.length) :
    (cumsum u).getD i 0 = ∑ j ∈ Finset.range (i + 1), u.getD j 0 := by
  rw [← sum_take_eq]
  simp [cumsum, List.getD_eq_getElem?_getD, hi]

/-- Main threshold lemma: for a non-empty decreasing list there is `τ` such that `simplexEntry u y = relu (y - τ)` and the
entries of `u` give total mass one. -/
theorem simplexEntry_threshold (u : List K) (hne : u ≠ []) (hs : u.Pairwise (· ≥ ·)) :
    ∃ τ : K, (∀ y, simplexEntry u y = relu (y - τ)) ∧ (u.map fun y => relu (y - τ)).sum = 1 := by
  set v : ℕ → K := fun i => u.getD i 0 with hv
  set n := u.length with hn
  have hn0 : 0 < n := List.length_pos_of_ne_nil hne
  have hanti : ∀ i j, i < j → j < n → v j ≤ v i := by
    intro i j hij hj
    have := List.pairwise_iff_getElem.mp hs i j (by omega) hj hij
    simpa [hv, List.getD_eq_getElem?_getD, List.getElem?_eq_getElem, show i < u.length by omega,
      show j < u.length by omega] using this
  set S : ℕ → K := fun k => ∑ j ∈ Finset.range k, v j with hS
  have hSs : ∀ k, S (k + 1) = S k + v k := fun k => Finset.sum_range_succ _ _
  -- the condition of the code, cleaned up
  have hcond : ∀ i, i < n → ((1 / ((i + 1 : ℕ) : K) + (u.getD i 0 - (cumsum u).getD i 0 / ((i + 1 : ℕ) : K)) > 0)
      ↔ S (i + 1) - ((i : K) + 1) * v i < 1) := by
    intro i hi
    rw [getD_cumsum u i hi]
    have hpos : (0 : K) < ((i + 1 : ℕ) : K) := by positivity
    have e : 1 / ((i + 1 : ℕ) : K) + (v i - S (i + 1) / ((i + 1 : ℕ) : K))
        = (1 - (S (i + 1) - ((i : K) + 1) * v i)) / ((i + 1 : ℕ) : K) := by
      field_simp; push_cast; ring
    show 0 < 1 / ((i + 1 : ℕ) : K) + (v i - S (i + 1) / ((i + 1 : ℕ) : K)) ↔ _
    rw [e, div_pos_iff_of_pos_right hpos, sub_pos]
  set p : ℕ → Bool := fun i =>
    decide (1 / ((i + 1 : ℕ) : K) + (u.getD i 0 - (cumsum u).getD i 0 / ((i + 1 : ℕ) : K)) > 0) with hp
  have hpre : ∀ i, i + 1 < n → p (i + 1) = true → p i = true := by
    intro i hi h
    have h1 := (hcond (i+1) hi).mp (by simpa [hp] using h)
    have : S (i + 1) - ((i : K) + 1) * v i < 1 := by
      have h2 := hanti i (i+1) (by omega) hi
      have h3 := hSs (i+1)
      push_cast at h1
      have h4 : ((i : K) + 1) * v (i+1) ≤ ((i : K) + 1) * v i :=
        mul_le_mul_of_nonneg_left h2 (by positivity)
      linarith
    have := (hcond i (by omega)).mpr this
    simpa [hp] using this
  have hcount : ∀ i, i < n → (S (i + 1) - ((i : K) + 1) * v i < 1 ↔ i < simplexCount u) := by
    intro i hi
    have h1 := filter_range_prefix n p hpre i hi
    rw [← hcond i hi]
    have : p i = true ↔ (1 / ((i + 1 : ℕ) : K) + (u.getD i 0 - (cumsum u).getD i 0 / ((i + 1 : ℕ) : K)) > 0) := by
      simp [hp]
    rw [← this, h1]
    rfl
  set ρ := simplexCount u with hρ
  have hρ1 : 1 ≤ ρ := by
    have := (hcount 0 hn0).mp (by simp [hS])
    omega
  have hρn : ρ ≤ n := by
    have := List.length_filter_le p (List.range n)
    rw [List.length_range] at this
    exact this
  have hρK : (0 : K) < (ρ : K) := by exact_mod_cast hρ1
  refine ⟨(S ρ - 1) / (ρ : K), ?_, ?_⟩
  · intro y
    unfold simplexEntry
    simp only [← hρ]
    rw [getD_cumsum u (ρ - 1) (by omega), show ρ - 1 + 1 = ρ by omega]
    congr 1
    show 1 / (ρ : K) + (y - S ρ / (ρ : K)) = _
    field_simp; ring
  · set τ := (S ρ - 1) / (ρ : K) with hτ
    have hτ' : (ρ : K) * τ = S ρ - 1 := by rw [hτ]; field_simp
    have hbig : ∀ i, i < ρ → τ ≤ v i := by
      intro i hi
      have h1 := (hcount (ρ - 1) (by omega)).mpr (by omega)
      rw [show ρ - 1 + 1 = ρ by omega] at h1
      have h2 : ((ρ - 1 : ℕ) : K) + 1 = (ρ : K) := by
        rw [Nat.cast_sub hρ1]; push_cast; ring
      rw [h2] at h1
      have h3 : v (ρ - 1) ≤ v i := by
        rcases Nat.lt_or_ge i (ρ - 1) with h | h
        · exact hanti i _ h (by omega)
        · rw [show i = ρ - 1 by omega]
      have h4 : (ρ : K) * τ < (ρ : K) * v (ρ - 1) := by linarith
      have := lt_of_mul_lt_mul_left h4 (le_of_lt hρK)
      linarith
    have hsmall : ∀ i, ρ ≤ i → i < n → v i ≤ τ := by
      intro i hi hin
      have h1 : ¬ (S (ρ + 1) - ((ρ : K) + 1) * v ρ < 1) := by
        rw [hcount ρ (by omega)]; omega
      have h2 := hSs ρ
      have h3 : v i ≤ v ρ := by
        rcases Nat.lt_or_ge ρ i with h | h
        · exact hanti _ _ h hin
        · rw [show i = ρ by omega]
      have h4 : (ρ : K) * v ρ ≤ (ρ : K) * τ := by linarith [not_lt.mp h1]
      have := le_of_mul_le_mul_left h4 hρK
      linarith
    rw [sum_map_eq]
    show ∑ j ∈ Finset.range n, relu (v j - τ) = 1
    rw [← Finset.sum_range_add_sum_Ico _ hρn]
    have e1 : ∑ j ∈ Finset.range ρ, relu (v j - τ) = ∑ j ∈ Finset.range ρ, (v j - τ) := by
      refine Finset.sum_congr rfl fun j hj => ?_
      have := hbig j (Finset.mem_range.mp hj)
      exact max_eq_left (by linarith)
    have e2 : ∑ j ∈ Finset.Ico ρ n, relu (v j - τ) = 0 := by
      refine Finset.sum_eq_zero fun j hj => ?_
      have := hsmall j (Finset.mem_Ico.mp hj).1 (Finset.mem_Ico.mp hj).2
      exact max_eq_right (by linarith)
    rw [e1, e2, Finset.sum_sub_distrib, Finset.sum_const, Finset.card_range, nsmul_eq_mul]
    linarith

/-- The simplex of total mass `s`. -/
def Simplex {ι : Type*} [Fintype ι] (s : K) : Set (ι → K) := {y | (∀ i, 0 ≤ y i) ∧ ∑ i, y i = s}

/-- Thresholding is the projection on the simplex it lands on. -/
theorem threshold_isUniqueProj [Fintype ι] (x : ι → K) (τ s : K) (h : ∑ i, relu (x i - τ) = s) :
    IsUniqueProj (Simplex s) x (fun i => relu (x i - τ)) := by
  refine isUniqueProj_of_vi ⟨fun i => relu_nonneg _, h⟩ ?_
  rintro y ⟨hy0, hys⟩
  have e : ∑ i, (x i - relu (x i - τ)) * (y i - relu (x i - τ))
      = ∑ i, (x i - τ - relu (x i - τ)) * (y i - relu (x i - τ)) := by
    have : ∑ i, (x i - relu (x i - τ)) * (y i - relu (x i - τ))
      - ∑ i, (x i - τ - relu (x i - τ)) * (y i - relu (x i - τ)) = τ * (∑ i, y i - ∑ i, relu (x i - τ)) := by
      rw [← Finset.sum_sub_distrib, ← Finset.sum_sub_distrib, Finset.mul_sum]
      refine Finset.sum_congr rfl fun i _ => by ring
    rw [hys, h, sub_self, mul_zero] at this
    linarith
  rw [e]
  refine Finset.sum_nonpos fun i _ => ?_
  unfold relu
  rcases le_total (x i - τ) 0 with hle | hle
  · rw [max_eq_right hle]
    exact mul_nonpos_of_nonpos_of_nonneg (by linarith) (by linarith [hy0 i])
  · rw [max_eq_left hle]; simp

theorem unitSimplex_threshold {n : ℕ} (hn : 0 < n) (x : Fin n → K) :
    ∃ τ, (∀ i, projectionUnitSimplex x i = relu (x i - τ)) ∧ ∑ i, relu (x i - τ) = 1 := by
  set u := (List.ofFn x).insertionSort (· ≥ ·) with hu
  have hperm : u.Perm (List.ofFn x) := List.perm_insertionSort _ _
  have hne : u ≠ [] := by
    intro h
    have := hperm.length_eq
    rw [h] at this; simp at this; omega
  have hs : u.Pairwise (· ≥ ·) := List.pairwise_insertionSort (r := (· ≥ ·)) _
  obtain ⟨τ, h1, h2⟩ := simplexEntry_threshold u hne hs
  refine ⟨τ, fun i => h1 _, ?_⟩
  rw [(hperm.map _).sum_eq, List.map_ofFn, List.sum_ofFn] at h2
  simpa using h2

end Jaxopt.Proj
