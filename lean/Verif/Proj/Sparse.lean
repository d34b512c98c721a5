import Verif.Proj.Props

/-!
# Properties C12, C13: sparse simplex and box section
-/

set_option autoImplicit false
set_option linter.unusedSectionVars false
set_option linter.unusedVariables false

namespace Jaxopt.Proj

variable {K : Type*} [Field K] [LinearOrder K] [IsStrictOrderedRing K]

/-! ## Lemmas on `top_k` -/

instance topKBefore_total {n : ℕ} (x : Fin n → K) : Std.Total (topKBefore x) := ⟨by
  intro i j
  unfold topKBefore
  rcases lt_trichotomy (x i) (x j) with h | h | h
  · right; left; exact h
  · rcases le_total i j with h' | h'
    · left; right; exact ⟨h, h'⟩
    · right; right; exact ⟨h.symm, h'⟩
  · left; left; exact h⟩

instance topKBefore_trans {n : ℕ} (x : Fin n → K) : IsTrans (Fin n) (topKBefore x) := ⟨by
  intro i j k h1 h2
  unfold topKBefore at *
  rcases h1 with h1 | ⟨h1, h1'⟩ <;> rcases h2 with h2 | ⟨h2, h2'⟩
  · left; exact lt_trans h2 h1
  · left; rw [← h2]; exact h1
  · left; rw [h1]; exact h2
  · right; exact ⟨h1.trans h2, le_trans h1' h2'⟩⟩

theorem topK_spec {n : ℕ} (x : Fin n → K) (k : ℕ) (hk : k ≤ n) :
    (topK x k).Nodup ∧ (topK x k).length = k ∧ ((topK x k).map x).Pairwise (· ≥ ·) ∧
      ∀ i j, i ∉ topK x k → j ∈ topK x k → x i ≤ x j := by
  set l := (List.finRange n).insertionSort (topKBefore x) with hl
  have hperm : l.Perm (List.finRange n) := List.perm_insertionSort _ _
  have hpw : l.Pairwise (topKBefore x) := List.pairwise_insertionSort (r := topKBefore x) _
  have hnd : l.Nodup := hperm.nodup_iff.mpr (List.nodup_finRange n)
  have hle : ∀ i j, topKBefore x i j → x j ≤ x i := by
    intro i j h
    rcases h with h | ⟨h, _⟩
    · exact le_of_lt h
    · exact le_of_eq h.symm
  have htake : topK x k = l.take k := rfl
  refine ⟨?_, ?_, ?_, ?_⟩
  · rw [htake]; exact hnd.sublist (List.take_sublist _ _)
  · rw [htake, List.length_take, hperm.length_eq, List.length_finRange]; omega
  · rw [htake, List.pairwise_map]
    exact (hpw.sublist (List.take_sublist _ _)).imp fun h => hle _ _ h
  · intro i j hi hj
    rw [htake] at hi hj
    have hil : i ∈ l := hperm.mem_iff.mpr (List.mem_finRange i)
    rw [← List.take_append_drop k l] at hil hpw
    have hid : i ∈ l.drop k := by
      rcases List.mem_append.mp hil with h | h
      · exact absurd h hi
      · exact h
    exact hle _ _ ((List.pairwise_append.mp hpw).2.2 j hj i hid)

/-- A top set maximises sums of a non-negative function among sets that are not larger. -/
theorem sum_le_sum_top {ι : Type*} [DecidableEq ι] (A T : Finset ι) (g : ι → K) (hg : ∀ i, 0 ≤ g i)
    (hcard : T.card ≤ A.card) (htop : ∀ i j, i ∉ A → j ∈ A → g i ≤ g j) :
    ∑ i ∈ T, g i ≤ ∑ i ∈ A, g i := by
  have h1 : ∑ i ∈ T, g i = ∑ i ∈ T \ A, g i + ∑ i ∈ T ∩ A, g i := by
    rw [add_comm, Finset.sum_inter_add_sum_sdiff]
  have h2 : ∑ i ∈ A, g i = ∑ i ∈ A \ T, g i + ∑ i ∈ A ∩ T, g i := by
    rw [add_comm, Finset.sum_inter_add_sum_sdiff]
  have hc : (T \ A).card ≤ (A \ T).card := by
    have e1 := Finset.card_inter_add_card_sdiff T A
    have e2 := Finset.card_inter_add_card_sdiff A T
    rw [Finset.inter_comm] at e2
    omega
  have h3 : ∑ i ∈ T \ A, g i ≤ ∑ i ∈ A \ T, g i := by
    rcases (A \ T).eq_empty_or_nonempty with he | hne
    · rw [he, Finset.card_empty] at hc
      have : T \ A = ∅ := Finset.card_eq_zero.mp (by omega)
      rw [this, he]
    · obtain ⟨j, hj, hjmin⟩ := Finset.exists_min_image (A \ T) g hne
      have hjA := (Finset.mem_sdiff.mp hj).1
      calc ∑ i ∈ T \ A, g i ≤ (T \ A).card • g j :=
            Finset.sum_le_card_nsmul _ _ _ fun i hi => htop i j (Finset.mem_sdiff.mp hi).2 hjA
        _ ≤ (A \ T).card • g j := nsmul_le_nsmul_left (hg j) hc
        _ ≤ ∑ i ∈ A \ T, g i := Finset.card_nsmul_le_sum _ _ _ fun i hi => hjmin i hi
  rw [h1, h2, Finset.inter_comm]
  linarith

theorem sparse_threshold {n : ℕ} (x : Fin n → K) (k : ℕ) (hk1 : 1 ≤ k) (hk : k ≤ n) :
    ∃ τ, (∀ i, projectionUnitSparseSimplex x k i = if i ∈ topK x k then relu (x i - τ) else 0) ∧
      ∑ i ∈ (topK x k).toFinset, relu (x i - τ) = 1 := by
  obtain ⟨hnd, hlen, hsort, _⟩ := topK_spec x k hk
  have hne : (topK x k).map x ≠ [] := by
    intro h
    have := congrArg List.length h
    rw [List.length_map, hlen, List.length_nil] at this
    omega
  obtain ⟨τ, h1, h2⟩ := simplexEntry_threshold _ hne hsort
  refine ⟨τ, fun i => ?_, ?_⟩
  · simp only [projectionUnitSparseSimplex, h1]
    rw [← List.sum_toFinset _ hnd]
    simp [Finset.sum_ite_eq']
  · rw [List.map_map] at h2
    rw [List.sum_toFinset _ hnd]
    exact h2

/-- Number of non-zero entries. -/
def nnz {n : ℕ} (y : Fin n → K) : ℕ := (Finset.univ.filter fun i => y i ≠ 0).card

/-- Points of the simplex of mass `s` with at most `k` non-zeros. -/
def SparseSimplex {n : ℕ} (k : ℕ) (s : K) : Set (Fin n → K) :=
  {y | (∀ i, 0 ≤ y i) ∧ ∑ i, y i = s ∧ nnz y ≤ k}

theorem unitSparse_isProj {n : ℕ} (x : Fin n → K) (k : ℕ) (hk1 : 1 ≤ k) (hk : k ≤ n) :
    IsProj (SparseSimplex k 1) x (projectionUnitSparseSimplex x k) := by
  obtain ⟨τ, h1, h2⟩ := sparse_threshold x k hk1 hk
  obtain ⟨hnd, hlen, _, htop⟩ := topK_spec x k hk
  set A := (topK x k).toFinset with hA
  have hcard : A.card = k := by rw [hA, List.toFinset_card_of_nodup hnd, hlen]
  have hmem : ∀ i, i ∈ topK x k ↔ i ∈ A := fun i => by rw [hA, List.mem_toFinset]
  set p := projectionUnitSparseSimplex x k with hp
  have hpi : ∀ i, p i = if i ∈ A then relu (x i - τ) else 0 := fun i => by
    rw [h1]; simp only [hmem]
  have hsum : ∀ f : Fin n → K, (∀ i, i ∉ A → f i = 0) → ∑ i, f i = ∑ i ∈ A, f i := fun f hf =>
    (Finset.sum_subset (Finset.subset_univ A) fun i _ hi => hf i hi).symm
  refine ⟨⟨fun i => ?_, ?_, ?_⟩, ?_⟩
  · rw [hpi]; split_ifs
    · exact relu_nonneg _
    · exact le_refl _
  · rw [hsum p (fun i hi => by rw [hpi, if_neg hi]), ← h2]
    exact Finset.sum_congr rfl fun i hi => by rw [hpi, if_pos hi]
  · rw [← hcard]
    refine Finset.card_le_card fun i hi => ?_
    by_contra hcon
    exact (Finset.mem_filter.mp hi).2 (by rw [hpi, if_neg hcon])
  · rintro y ⟨hy0, hy1, hyk⟩
    set T := Finset.univ.filter fun i => y i ≠ 0 with hT
    have hexp : ∀ z : Fin n → K, ∑ i, z i = 1 →
        sqDist x z = ∑ i, x i ^ 2 + ∑ i, (z i ^ 2 - 2 * (x i - τ) * z i) - 2 * τ := by
      intro z hz
      have e : 2 * τ = ∑ i, 2 * τ * z i := by rw [← Finset.mul_sum, hz, mul_one]
      rw [e, ← Finset.sum_add_distrib, ← Finset.sum_sub_distrib]
      exact Finset.sum_congr rfl fun i _ => by ring
    have hp1 : ∑ i, p i = 1 := by
      rw [hsum p (fun i hi => by rw [hpi, if_neg hi]), ← h2]
      exact Finset.sum_congr rfl fun i hi => by rw [hpi, if_pos hi]
    rw [hexp p hp1, hexp y hy1]
    have e1 : ∑ i, (p i ^ 2 - 2 * (x i - τ) * p i) = - ∑ i ∈ A, relu (x i - τ) ^ 2 := by
      rw [hsum _ (fun i hi => by rw [hpi, if_neg hi]; ring), ← Finset.sum_neg_distrib]
      refine Finset.sum_congr rfl fun i hi => ?_
      rw [hpi, if_pos hi]
      unfold relu
      rcases le_total (x i - τ) 0 with h | h
      · rw [max_eq_right h]; ring
      · rw [max_eq_left h]; ring
    have e2 : - ∑ i ∈ T, relu (x i - τ) ^ 2 ≤ ∑ i, (y i ^ 2 - 2 * (x i - τ) * y i) := by
      have : ∑ i, (y i ^ 2 - 2 * (x i - τ) * y i) = ∑ i ∈ T, (y i ^ 2 - 2 * (x i - τ) * y i) := by
        refine (Finset.sum_subset (Finset.subset_univ T) fun i _ hi => ?_).symm
        have : y i = 0 := by
          by_contra hc; exact hi (by simp [hT, hc])
        rw [this]; ring
      rw [this, ← Finset.sum_neg_distrib]
      refine Finset.sum_le_sum fun i _ => ?_
      unfold relu
      rcases le_total (x i - τ) 0 with h | h
      · rw [max_eq_right h]
        have := mul_nonneg (neg_nonneg.mpr h) (hy0 i)
        nlinarith [sq_nonneg (y i)]
      · rw [max_eq_left h]
        nlinarith [sq_nonneg (y i - (x i - τ))]
    have e3 : ∑ i ∈ T, relu (x i - τ) ^ 2 ≤ ∑ i ∈ A, relu (x i - τ) ^ 2 := by
      refine sum_le_sum_top A T _ (fun i => sq_nonneg _) (by rw [hcard]; exact hyk) fun i j hi hj => ?_
      have hx := htop i j (by rwa [hmem]) (by rwa [hmem])
      exact pow_le_pow_left₀ (relu_nonneg _) (max_le_max (by linarith) (le_refl _)) 2
    linarith

/-- **C12**: `projection_sparse_simplex` is a closest point among all points of the simplex of mass `value` with at most
`max_nz` non-zeros (`1 ≤ max_nz ≤ size`). -/
theorem C12_sparse_simplex {n : ℕ} (x : Fin n → K) (k : ℕ) (hk1 : 1 ≤ k) (hk : k ≤ n) (value : K) (hv : 0 < value) :
    IsProj {y | (∀ i, 0 ≤ y i) ∧ ∑ i, y i = value ∧ (Finset.univ.filter fun i => y i ≠ 0).card ≤ k} x
      (projectionSparseSimplex x k value) := by
  obtain ⟨⟨h0, h1, hk'⟩, hopt⟩ := unitSparse_isProj (fun j => x j / value) k hk1 hk
  have hv' : value ≠ 0 := ne_of_gt hv
  have hsq : ∀ z : Fin n → K, sqDist x (fun i => value * z i) = value ^ 2 * sqDist (fun j => x j / value) z := by
    intro z
    rw [sqDist, sqDist, Finset.mul_sum]
    refine Finset.sum_congr rfl fun i _ => ?_
    field_simp
  refine ⟨⟨fun i => mul_nonneg (le_of_lt hv) (h0 i), ?_, ?_⟩, ?_⟩
  · show ∑ i, value * _ = value
    rw [← Finset.mul_sum, h1, mul_one]
  · refine le_trans (le_of_eq ?_) hk'
    unfold nnz
    congr 1
    ext i
    simp [projectionSparseSimplex, hv']
  · rintro y ⟨hy0, hy1, hyk⟩
    have hz := hopt (fun i => y i / value) ⟨fun i => div_nonneg (hy0 i) (le_of_lt hv), by
      rw [← Finset.sum_div, hy1, div_self hv'], by
        refine le_trans (le_of_eq ?_) hyk
        unfold nnz
        congr 1
        ext i
        simp [hv']⟩
    have e1 : sqDist x y = value ^ 2 * sqDist (fun j => x j / value) (fun i => y i / value) := by
      rw [← hsq]; congr 1; funext i; field_simp
    have e2 : sqDist x (projectionSparseSimplex x k value)
        = value ^ 2 * sqDist (fun j => x j / value) (projectionUnitSparseSimplex (fun j => x j / value) k) := hsq _
    rw [e1, e2]
    exact mul_le_mul_of_nonneg_left hz (sq_nonneg _)

/-- The model computes: best 2-sparse probability vector for `(3,5,5,4)/5`. -/
example : projectionSparseSimplex ![(3 / 5 : ℚ), 1, 1, 4 / 5] 2 1 = ![0, 1 / 2, 1 / 2, 0] := by decide +kernel

/-! ## C13 -/

/-- The feasible set of `projection_box_section`. -/
def BoxSection {n : ℕ} (alpha beta w : Fin n → K) (c : K) : Set (Fin n → K) :=
  {y | (∀ i, alpha i ≤ y i ∧ y i ≤ beta i) ∧ ∑ i, w i * y i = c}

/-- The point the code returns for a dual variable `τ` (line 461). -/
def boxSecPoint {n : ℕ} (x alpha beta w : Fin n → K) (τ : K) : Fin n → K :=
  fun i => clip (w i * τ + x i) (alpha i) (beta i)

/-- **C13**, exactness: if the dual root is exact the output is the Euclidean projection. -/
theorem C13_exact_root {n : ℕ} (x alpha beta w : Fin n → K) (c τ : K) (hab : ∀ i, alpha i ≤ beta i)
    (hroot : boxSecFun x alpha beta w c τ = 0) :
    IsUniqueProj (BoxSection alpha beta w c) x (boxSecPoint x alpha beta w τ) := by
  have hc : ∑ i, w i * boxSecPoint x alpha beta w τ i = c := by
    have := hroot; unfold boxSecFun at this; exact sub_eq_zero.mp this
  refine isUniqueProj_of_vi ⟨fun i => clip_mem (hab i), hc⟩ ?_
  rintro y ⟨hy, hyc⟩
  have e : ∑ i, (x i - boxSecPoint x alpha beta w τ i) * (y i - boxSecPoint x alpha beta w τ i)
      = ∑ i, ((w i * τ + x i) - boxSecPoint x alpha beta w τ i) * (y i - boxSecPoint x alpha beta w τ i)
        - τ * (∑ i, w i * y i - ∑ i, w i * boxSecPoint x alpha beta w τ i) := by
    rw [← Finset.sum_sub_distrib, Finset.mul_sum, ← Finset.sum_sub_distrib]
    exact Finset.sum_congr rfl fun i _ => by ring
  rw [e, hyc, hc, sub_self, mul_zero, sub_zero]
  exact Finset.sum_nonpos fun i _ => clip_vi (hy i).1 (hy i).2

theorem clip_mono {x y lo hi : K} (h : x ≤ y) : clip x lo hi ≤ clip y lo hi :=
  min_le_min (max_le_max h (le_refl _)) (le_refl _)

theorem boxSecFun_mono {n : ℕ} (x alpha beta w : Fin n → K) (c : K) (hw : ∀ i, 0 < w i) :
    Monotone (boxSecFun x alpha beta w c) := by
  intro s t hst
  unfold boxSecFun
  refine sub_le_sub_right (Finset.sum_le_sum fun i _ => ?_) _
  refine mul_le_mul_of_nonneg_left (clip_mono ?_) (le_of_lt (hw i))
  have := mul_le_mul_of_nonneg_left hst (le_of_lt (hw i))
  linarith

theorem boxSecFun_lower {n : ℕ} (x alpha beta w : Fin (n + 1) → K) (c : K) (hw : ∀ i, 0 < w i)
    (hab : ∀ i, alpha i ≤ beta i) :
    boxSecFun x alpha beta w c (boxSecLower x alpha w) = ∑ i, w i * alpha i - c := by
  unfold boxSecFun
  congr 1
  refine Finset.sum_congr rfl fun i _ => ?_
  have h1 : boxSecLower x alpha w ≤ (alpha i - x i) / w i := Finset.inf'_le _ (Finset.mem_univ i)
  have h2 : w i * boxSecLower x alpha w + x i ≤ alpha i := by
    rw [le_div_iff₀ (hw i)] at h1; linarith
  unfold clip
  rw [max_eq_right h2, min_eq_left (hab i)]

theorem boxSecFun_upper {n : ℕ} (x alpha beta w : Fin (n + 1) → K) (c : K) (hw : ∀ i, 0 < w i)
    (hab : ∀ i, alpha i ≤ beta i) :
    boxSecFun x alpha beta w c (boxSecUpper x beta w) = ∑ i, w i * beta i - c := by
  unfold boxSecFun
  congr 1
  refine Finset.sum_congr rfl fun i _ => ?_
  have h1 : (beta i - x i) / w i ≤ boxSecUpper x beta w :=
    Finset.le_sup' (fun i => (beta i - x i) / w i) (Finset.mem_univ i)
  have h2 : beta i ≤ w i * boxSecUpper x beta w + x i := by
    rw [div_le_iff₀ (hw i)] at h1; linarith
  unfold clip
  rw [max_eq_left (le_trans (hab i) h2), min_eq_right h2]

theorem boxSec_bracket_le {n : ℕ} (x alpha beta w : Fin (n + 1) → K) (hw : ∀ i, 0 < w i)
    (hab : ∀ i, alpha i ≤ beta i) : boxSecLower x alpha w ≤ boxSecUpper x beta w := by
  have h1 : boxSecLower x alpha w ≤ (alpha 0 - x 0) / w 0 := Finset.inf'_le _ (Finset.mem_univ 0)
  have h2 : (beta 0 - x 0) / w 0 ≤ boxSecUpper x beta w :=
    Finset.le_sup' (fun i => (beta i - x i) / w i) (Finset.mem_univ (0 : Fin (n + 1)))
  have h3 : (alpha 0 - x 0) / w 0 ≤ (beta 0 - x 0) / w 0 :=
    div_le_div_of_nonneg_right (by linarith [hab 0]) (le_of_lt (hw 0))
  linarith

end Jaxopt.Proj
