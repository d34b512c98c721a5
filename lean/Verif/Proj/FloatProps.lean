import Verif.Proj.Float
import Verif.Proj.Simplex
import Verif.Proj.Sparse
import Mathlib.Tactic.Positivity
import Mathlib.Tactic.FinCases

/-!
# C118: the simplex projections in floating-point arithmetic

For every rounding with relative error `u` and every order of the additions of `jnp.cumsum`.
-/

set_option autoImplicit false
set_option linter.unusedSectionVars false
set_option linter.unusedVariables false

namespace Jaxopt.Proj

variable {K : Type*} [Field K] [LinearOrder K] [IsStrictOrderedRing K]

/-! ## Specification -/

/-- The standard model of rounding: relative error at most `u < 1`, monotone, idempotent. -/
structure StdRound (rnd : K → K) (u : K) : Prop where
  nonneg : 0 ≤ u
  lt_one : u < 1
  err : ∀ a, |rnd a - a| ≤ u * |a|
  mono : ∀ a b, a ≤ b → rnd a ≤ rnd b
  idem : ∀ a, rnd (rnd a) = rnd a

/-- The bound on the error of the gaps for entries of size at most `M`. -/
def gapErr (u M : K) (n : ℕ) : K := ((1 + u) ^ 2 - 1) * (1 + M) + M * ((1 + u) ^ (n + 3) - 1)

/-! ## Rounding -/

theorem StdRound.zero {rnd : K → K} {u : K} (h : StdRound rnd u) : rnd 0 = 0 := by
  have := h.err 0
  rw [abs_zero, mul_zero, sub_zero] at this
  exact abs_nonpos_iff.mp this

theorem StdRound.one_pos {rnd : K → K} {u : K} (h : StdRound rnd u) : 0 < rnd 1 := by
  have := (abs_le.mp (h.err 1)).1
  rw [abs_one, mul_one] at this
  linarith [h.lt_one]

theorem StdRound.nonneg' {rnd : K → K} {u : K} (h : StdRound rnd u) {a : K} (ha : 0 ≤ a) : 0 ≤ rnd a := by
  have := h.mono 0 a ha
  rwa [h.zero] at this

theorem Sums.ne_nil {rnd : K → K} {l : List K} {s : K} (h : Sums rnd l s) : l ≠ [] := by
  induction h with
  | one a => simp
  | add _ _ ih1 _ => simp [ih1]

theorem Sums.single {rnd : K → K} {a s : K} (h : Sums rnd [a] s) : s = a := by
  generalize hl : [a] = l at h
  cases h with
  | one b => simpa using hl.symm
  | @add l1 l2 s1 s2 h1 h2 =>
    exfalso
    have e := congrArg List.length hl
    have p1 := List.length_pos_of_ne_nil h1.ne_nil
    have p2 := List.length_pos_of_ne_nil h2.ne_nil
    simp only [List.length_cons, List.length_nil, List.length_append] at e
    omega

theorem one_le_pow_succ {u : K} (hu : 0 ≤ u) (m : ℕ) : (1 : K) ≤ (1 + u) ^ m := one_le_pow₀ (by linarith)

theorem pow_mono {u : K} (hu : 0 ≤ u) {a b : ℕ} (h : a ≤ b) : (1 + u) ^ a ≤ (1 + u) ^ b := pow_le_pow_right₀ (by linarith) h

theorem sum_abs_le {M : K} {l : List K} (hl : ∀ a ∈ l, |a| ≤ M) : |l.sum| ≤ (l.length : K) * M := by
  induction l with
  | nil => simp
  | cons a t ih =>
    have h1 := hl a (by simp)
    have h2 := ih fun b hb => hl b (by simp [hb])
    rw [List.sum_cons, List.length_cons]
    push_cast
    calc |a + t.sum| ≤ |a| + |t.sum| := abs_add_le _ _
      _ ≤ M + t.length * M := add_le_add h1 h2
      _ = (t.length + 1) * M := by ring

/-- The error of a sum, whatever the order of the additions. -/
theorem Sums.err {rnd : K → K} {u : K} (hS : StdRound rnd u) {M : K} {l : List K} {s : K} (h : Sums rnd l s) (hl : ∀ a ∈ l, |a| ≤ M) :
    |s - l.sum| ≤ (l.length : K) * M * ((1 + u) ^ l.length - 1) := by
  have hu := hS.nonneg
  induction h with
  | one a =>
    have : 0 ≤ M := (abs_nonneg a).trans (hl a (by simp))
    simp only [List.sum_cons, List.sum_nil, add_zero, sub_self, abs_zero, List.length_cons, List.length_nil, zero_add, pow_one, Nat.cast_one,
      one_mul]
    exact mul_nonneg this (by linarith)
  | @add l1 l2 s1 s2 h1 h2 ih1 ih2 =>
    have b1 := ih1 fun a ha => hl a (by simp [ha])
    have b2 := ih2 fun a ha => hl a (by simp [ha])
    have m1 := sum_abs_le (l := l1) fun a ha => hl a (by simp [ha])
    have m2 := sum_abs_le (l := l2) fun a ha => hl a (by simp [ha])
    have p1 := List.length_pos_of_ne_nil h1.ne_nil
    have p2 := List.length_pos_of_ne_nil h2.ne_nil
    obtain ⟨a0, ha0⟩ := List.exists_mem_of_ne_nil l1 h1.ne_nil
    have hM : 0 ≤ M := (abs_nonneg a0).trans (hl a0 (by simp [ha0]))
    rw [List.sum_append, List.length_append]
    set k1 := l1.length
    set k2 := l2.length
    set N := k1 + k2 - 1 with hN
    have e1 : (1 + u) ^ k1 ≤ (1 + u) ^ N := pow_mono hu (by omega)
    have e2 : (1 + u) ^ k2 ≤ (1 + u) ^ N := pow_mono hu (by omega)
    have c1 : (0 : K) ≤ (k1 : K) * M := mul_nonneg (Nat.cast_nonneg _) hM
    have c2 : (0 : K) ≤ (k2 : K) * M := mul_nonneg (Nat.cast_nonneg _) hM
    have b1' : |s1 - l1.sum| ≤ (k1 : K) * M * ((1 + u) ^ N - 1) := b1.trans (mul_le_mul_of_nonneg_left (by linarith) c1)
    have b2' : |s2 - l2.sum| ≤ (k2 : K) * M * ((1 + u) ^ N - 1) := b2.trans (mul_le_mul_of_nonneg_left (by linarith) c2)
    have hs : |s1 + s2 - (l1.sum + l2.sum)| ≤ ((k1 : K) * M + k2 * M) * ((1 + u) ^ N - 1) := by
      rw [show s1 + s2 - (l1.sum + l2.sum) = (s1 - l1.sum) + (s2 - l2.sum) by ring]
      refine (abs_add_le _ _).trans ((add_le_add b1' b2').trans (le_of_eq (by ring)))
    have hs2 : |s1 + s2| ≤ ((k1 : K) * M + k2 * M) * (1 + u) ^ N := by
      have h3 : |s1 + s2| ≤ |s1 + s2 - (l1.sum + l2.sum)| + |l1.sum + l2.sum| := by
        have := abs_add_le (s1 + s2 - (l1.sum + l2.sum)) (l1.sum + l2.sum)
        rwa [sub_add_cancel] at this
      have h4 := (abs_add_le l1.sum l2.sum).trans (add_le_add m1 m2)
      calc |s1 + s2| ≤ ((k1 : K) * M + k2 * M) * ((1 + u) ^ N - 1) + (k1 * M + k2 * M) := by linarith
        _ = _ := by ring
    have hr := hS.err (s1 + s2)
    have e3 : (1 + u) ^ (k1 + k2) = (1 + u) ^ N * (1 + u) := by rw [← pow_succ]; congr 1; omega
    rw [e3]
    have h5 : |rnd (s1 + s2) - (l1.sum + l2.sum)| ≤ |rnd (s1 + s2) - (s1 + s2)| + |s1 + s2 - (l1.sum + l2.sum)| := abs_sub_le _ _ _
    have h6 := mul_le_mul_of_nonneg_left hs2 hu
    push_cast
    calc |rnd (s1 + s2) - (l1.sum + l2.sum)| ≤ u * (((k1 : K) * M + k2 * M) * (1 + u) ^ N) +
          ((k1 : K) * M + k2 * M) * ((1 + u) ^ N - 1) := by linarith
      _ = _ := by ring

/-- The error of a gap. -/
theorem gap_err {rnd : K → K} {u : K} (hS : StdRound rnd u) {M : K} {n k : ℕ} (hk1 : 1 ≤ k) (hkn : k ≤ n) {xi c s : K} (hx : |xi| ≤ M)
    (hs : |s| ≤ (k : K) * M) (hc : |c - s| ≤ (k : K) * M * ((1 + u) ^ k - 1)) :
    |simplexGap rnd k xi c - (1 / (k : K) + (xi - s / (k : K)))| ≤ gapErr u M n := by
  have hu := hS.nonneg
  have hM : 0 ≤ M := (abs_nonneg xi).trans hx
  have hk0 : (0 : K) < k := by exact_mod_cast hk1
  have hk1' : (1 : K) ≤ k := by exact_mod_cast hk1
  set E := 1 + u with hE
  have hE1 : 1 ≤ E := by rw [hE]; linarith
  have hEk : E ^ k ≤ E ^ n := pow_mono hu hkn
  have hEn : 1 ≤ E ^ n := one_le_pow_succ hu n
  -- the quotient
  have q1 : |c / k - s / k| ≤ M * (E ^ n - 1) := by
    rw [← sub_div, abs_div, abs_of_pos hk0, div_le_iff₀ hk0]
    refine hc.trans ?_
    calc (k : K) * M * (E ^ k - 1) ≤ (k : K) * M * (E ^ n - 1) := mul_le_mul_of_nonneg_left (by linarith) (by positivity)
      _ = _ := by ring
  have q2 : |s / k| ≤ M := by
    rw [abs_div, abs_of_pos hk0, div_le_iff₀ hk0]; linarith
  have q3 : |c / k| ≤ M * E ^ n := by
    have h3 : |c / k| ≤ |c / k - s / k| + |s / k| := by
      have := abs_add_le (c / k - s / k) (s / k)
      rwa [sub_add_cancel] at this
    calc |c / k| ≤ M * (E ^ n - 1) + M := by linarith
      _ = _ := by ring
  have q4 : |rnd (c / k) - s / k| ≤ M * (E ^ (n + 1) - 1) := by
    have h1 := abs_sub_le (rnd (c / k)) (c / k) (s / k)
    have h2 := (hS.err (c / k)).trans (mul_le_mul_of_nonneg_left q3 hu)
    calc |rnd (c / k) - s / k| ≤ u * (M * E ^ n) + M * (E ^ n - 1) := by linarith
      _ = M * (E ^ n * E - 1) := by rw [hE]; ring
      _ = _ := by rw [pow_succ]
  -- the difference
  have d1 : |xi - rnd (c / k) - (xi - s / k)| ≤ M * (E ^ (n + 1) - 1) := by
    rw [show xi - rnd (c / k) - (xi - s / k) = -(rnd (c / k) - s / k) by ring, abs_neg]; exact q4
  have q5 : |rnd (c / k)| ≤ M * E ^ (n + 1) := by
    have h3 : |rnd (c / k)| ≤ |rnd (c / k) - s / k| + |s / k| := by
      have := abs_add_le (rnd (c / k) - s / k) (s / k)
      rwa [sub_add_cancel] at this
    calc |rnd (c / k)| ≤ M * (E ^ (n + 1) - 1) + M := by linarith
      _ = _ := by ring
  have d2 : |xi - rnd (c / k)| ≤ M + M * E ^ (n + 1) := by
    have := abs_sub xi (rnd (c / k))
    linarith
  set w := xi - rnd (c / k) with hw
  have d3 : |rnd w - (xi - s / k)| ≤ u * (M + M * E ^ (n + 1)) + M * (E ^ (n + 1) - 1) := by
    have h1 := abs_sub_le (rnd w) w (xi - s / k)
    have h2 := (hS.err w).trans (mul_le_mul_of_nonneg_left d2 hu)
    linarith
  have d4 : |rnd w| ≤ E * (M + M * E ^ (n + 1)) := by
    have h3 : |rnd w| ≤ |rnd w - w| + |w| := by
      have := abs_add_le (rnd w - w) w
      rwa [sub_add_cancel] at this
    have h2 := (hS.err w).trans (mul_le_mul_of_nonneg_left d2 hu)
    calc |rnd w| ≤ u * (M + M * E ^ (n + 1)) + (M + M * E ^ (n + 1)) := by linarith
      _ = _ := by rw [hE]; ring
  -- the reciprocal
  have r0 : |1 / (k : K)| ≤ 1 := by
    rw [abs_of_pos (by positivity), div_le_one hk0]; exact hk1'
  have r1 : |rnd (1 / (k : K)) - 1 / k| ≤ u := by
    have := (hS.err (1 / (k : K))).trans (mul_le_mul_of_nonneg_left r0 hu)
    linarith
  have r2 : |rnd (1 / (k : K))| ≤ E := by
    have h3 : |rnd (1 / (k : K))| ≤ |rnd (1 / (k : K)) - 1 / k| + |1 / (k : K)| := by
      have := abs_add_le (rnd (1 / (k : K)) - 1 / k) (1 / k)
      rwa [sub_add_cancel] at this
    rw [hE]; linarith
  set v := rnd (1 / (k : K)) with hv
  have t1 : |v + rnd w| ≤ E + E * (M + M * E ^ (n + 1)) := (abs_add_le _ _).trans (add_le_add r2 d4)
  have t2 : |v + rnd w - (1 / k + (xi - s / k))| ≤ u + (u * (M + M * E ^ (n + 1)) + M * (E ^ (n + 1) - 1)) := by
    rw [show v + rnd w - (1 / k + (xi - s / k)) = (v - 1 / k) + (rnd w - (xi - s / k)) by ring]
    exact (abs_add_le _ _).trans (add_le_add r1 d3)
  have t3 := abs_sub_le (rnd (v + rnd w)) (v + rnd w) (1 / k + (xi - s / k))
  have t4 := (hS.err (v + rnd w)).trans (mul_le_mul_of_nonneg_left t1 hu)
  change |rnd (v + rnd w) - (1 / (k : K) + (xi - s / k))| ≤ _
  calc |rnd (v + rnd w) - (1 / (k : K) + (xi - s / k))| ≤ u * (E + E * (M + M * E ^ (n + 1))) +
        (u + (u * (M + M * E ^ (n + 1)) + M * (E ^ (n + 1) - 1))) := by linarith
    _ = gapErr u M n := by
      unfold gapErr
      rw [show n + 3 = (n + 1) + 2 by ring, pow_add, ← hE, hE]
      ring

/-! ## The threshold -/

/-- A count is larger than the number of candidates below every index outside. -/
theorem exists_ge_of_count {n : ℕ} {P : ℕ → Bool} {k : ℕ} (hk : k + 1 ≤ ((List.range n).filter P).length) : ∃ i, k ≤ i ∧ i < n ∧ P i = true := by
  by_contra hc
  push Not at hc
  have hsub : ((List.range n).filter P) ⊆ List.range k := by
    intro i hi
    rw [List.mem_filter, List.mem_range] at hi
    rw [List.mem_range]
    by_contra h
    exact hc i (not_lt.mp h) hi.1 hi.2
  have hnd : ((List.range n).filter P).Nodup := List.nodup_range.filter _
  have := (List.subperm_of_subset hnd hsub).length_le
  rw [List.length_range] at this
  omega

theorem exists_le_of_count {n : ℕ} {P : ℕ → Bool} {k : ℕ} (hkn : k < n) (hk : ((List.range n).filter P).length ≤ k) :
    ∃ i, i ≤ k ∧ P i = false := by
  by_contra hc
  push Not at hc
  have hsub : List.range (k + 1) ⊆ (List.range n).filter P := by
    intro i hi
    rw [List.mem_range] at hi
    rw [List.mem_filter, List.mem_range]
    exact ⟨by omega, by simpa using hc i (by omega)⟩
  have := (List.subperm_of_subset List.nodup_range hsub).length_le
  rw [List.length_range] at this
  omega

/-- `relu` sums strictly decrease in the threshold. -/
theorem threshold_le {ι : Type*} (T : Finset ι) (v : ι → K) {τ s : K} (h : ∑ j ∈ T, relu (v j - τ) = 1) (hs : ∑ j ∈ T, relu (v j - s) ≤ 1) :
    τ ≤ s := by
  by_contra hc
  have hc := not_le.mp hc
  have hex : ∃ j ∈ T, 0 < relu (v j - τ) := by
    by_contra hn
    push Not at hn
    have := Finset.sum_nonpos hn
    linarith
  have hlt : ∑ j ∈ T, relu (v j - τ) < ∑ j ∈ T, relu (v j - s) := by
    obtain ⟨j, hj, hpos⟩ := hex
    refine Finset.sum_lt_sum (fun i _ => max_le_max (by linarith) le_rfl) ⟨j, hj, ?_⟩
    have : 0 < v j - τ := by
      by_contra hn
      rw [relu, max_eq_right (not_lt.mp hn)] at hpos
      exact lt_irrefl _ hpos
    rw [relu, relu, max_eq_left this.le, max_eq_left (by linarith)]
    linarith
  linarith

/-- The threshold of a count made with errors is close to the exact threshold. -/
theorem threshold_close {n : ℕ} {v : ℕ → K} (hv : ∀ i, i + 1 < n → v (i + 1) ≤ v i) {e : K} (he : 0 ≤ e) {P : ℕ → Bool}
    (hP1 : ∀ i, i < n → P i = true → -(e * ((i + 1 : ℕ) : K)) ≤ 1 + ((i + 1 : ℕ) : K) * v i - ∑ j ∈ Finset.range (i + 1), v j)
    (hP2 : ∀ i, i < n → P i = false → 1 + ((i + 1 : ℕ) : K) * v i - ∑ j ∈ Finset.range (i + 1), v j ≤ e * ((i + 1 : ℕ) : K))
    {k : ℕ} (hk : k = ((List.range n).filter P).length) (hk1 : 1 ≤ k) {τ : K} (hτ : ∑ j ∈ Finset.range n, relu (v j - τ) = 1) :
    k ≤ n ∧ (∑ j ∈ Finset.range k, v j - 1) / (k : K) ≤ τ ∧ τ ≤ (∑ j ∈ Finset.range k, v j - 1) / (k : K) + (n : K) * e := by
  have hkn : k ≤ n := by
    rw [hk]
    have := List.length_filter_le P (List.range n)
    rwa [List.length_range] at this
  have hk0 : (0 : K) < k := by exact_mod_cast hk1
  refine ⟨hkn, ?_, ?_⟩
  · rw [div_le_iff₀ hk0]
    have h1 : ∑ j ∈ Finset.range k, (v j - τ) ≤ ∑ j ∈ Finset.range k, relu (v j - τ) := Finset.sum_le_sum fun j _ => le_max_left _ _
    have h2 : ∑ j ∈ Finset.range k, relu (v j - τ) ≤ ∑ j ∈ Finset.range n, relu (v j - τ) :=
      Finset.sum_le_sum_of_subset_of_nonneg (Finset.range_mono hkn) fun j _ _ => relu_nonneg _
    rw [Finset.sum_sub_distrib, Finset.sum_const, Finset.card_range, nsmul_eq_mul] at h1
    linarith
  · -- the function `g` decreases
    set g : ℕ → K := fun i => 1 + ((i + 1 : ℕ) : K) * v i - ∑ j ∈ Finset.range (i + 1), v j with hg
    have gstep : ∀ i, i + 1 < n → g (i + 1) ≤ g i := by
      intro i hi
      have h1 := hv i hi
      have e1 : g (i + 1) = g i + ((i + 1 : ℕ) : K) * (v (i + 1) - v i) := by
        simp only [hg]
        rw [Finset.sum_range_succ _ (i + 1)]
        push_cast; ring
      have h2 : ((i + 1 : ℕ) : K) * (v (i + 1) - v i) ≤ 0 := mul_nonpos_of_nonneg_of_nonpos (Nat.cast_nonneg _) (by linarith)
      linarith
    have ganti : ∀ i j, i ≤ j → j < n → g j ≤ g i := by
      intro i j hij
      induction j, hij using Nat.le_induction with
      | base => intro _; exact le_rfl
      | succ j hij ih => intro hj; exact (gstep j hj).trans (ih (by omega))
    have vanti : ∀ i j, i ≤ j → j < n → v j ≤ v i := by
      intro i j hij
      induction j, hij using Nat.le_induction with
      | base => intro _; exact le_rfl
      | succ j hij ih => intro hj; exact (hv j hj).trans (ih (by omega))
    set S := ∑ j ∈ Finset.range k, v j with hS
    set t := (S - 1) / (k : K) with ht
    have htk : t * k = S - 1 := by rw [ht]; field_simp
    have hn0 : (0 : K) < n := by exact_mod_cast (by omega : 0 < n)
    have hkn' : (k : K) ≤ n := by exact_mod_cast hkn
    -- the last entry counted
    have hlast : t - e * n / k ≤ v (k - 1) := by
      obtain ⟨i, hi1, hi2, hi3⟩ := exists_ge_of_count (n := n) (P := P) (k := k - 1) (by omega)
      have h1 := hP1 i hi2 hi3
      have h2 := ganti (k - 1) i hi1 hi2
      have h3 : e * ((i + 1 : ℕ) : K) ≤ e * n := mul_le_mul_of_nonneg_left (by exact_mod_cast hi2) he
      have h4 : g (k - 1) = 1 + (k : K) * v (k - 1) - S := by
        simp only [hg, hS]; rw [Nat.sub_add_cancel hk1]
      have h5 : -(e * n) ≤ 1 + (k : K) * v (k - 1) - S := by rw [← h4]; simp only [hg] at h2 ⊢; linarith
      have h6 : t - e * n / k = (S - 1 - e * n) / k := by rw [ht]; ring
      rw [h6, div_le_iff₀ hk0]
      linarith
    -- the entries after the count
    have hnext : ∀ j, k ≤ j → j < n → v j ≤ t + n * e := by
      intro j hkj hj
      refine (vanti k j hkj hj).trans ?_
      have hkn1 : k < n := lt_of_le_of_lt hkj hj
      obtain ⟨i, hi1, hi2⟩ := exists_le_of_count (P := P) hkn1 (le_of_eq hk.symm)
      have h1 := hP2 i (by omega) hi2
      have h2 := ganti i k hi1 hkn1
      have h3 : e * ((i + 1 : ℕ) : K) ≤ e * ((k + 1 : ℕ) : K) := mul_le_mul_of_nonneg_left (by exact_mod_cast (by omega : i + 1 ≤ k + 1)) he
      have h4 : g k = 1 + (k : K) * v k - S := by
        simp only [hg, hS]
        rw [Finset.sum_range_succ]; push_cast; ring
      have h5 : 1 + (k : K) * v k - S ≤ e * ((k + 1 : ℕ) : K) := by rw [← h4]; simp only [hg] at h2 ⊢; linarith
      have h6 : ((k + 1 : ℕ) : K) ≤ k * n := by exact_mod_cast (by nlinarith : k + 1 ≤ k * n)
      have h7 := mul_le_mul_of_nonneg_left h6 he
      have h8 : (k : K) * v k ≤ k * (t + n * e) := by nlinarith
      exact le_of_mul_le_mul_left h8 hk0
    -- the sum at the shifted threshold
    refine threshold_le (Finset.range n) v hτ ?_
    set s := t + n * e with hs
    have hne : 0 ≤ (n : K) * e := mul_nonneg hn0.le he
    have hsplit : ∑ j ∈ Finset.range n, relu (v j - s) = ∑ j ∈ Finset.range k, relu (v j - s) := by
      symm
      refine Finset.sum_subset (Finset.range_mono hkn) fun j hj hjk => ?_
      rw [Finset.mem_range] at hj hjk
      exact max_eq_right (by linarith [hnext j (not_lt.mp hjk) hj])
    rw [hsplit]
    by_cases h0 : v 0 < s
    · have : ∑ j ∈ Finset.range k, relu (v j - s) = 0 := by
        refine Finset.sum_eq_zero fun j hj => ?_
        rw [Finset.mem_range] at hj
        exact max_eq_right (by linarith [vanti 0 j (Nat.zero_le _) (by omega)])
      rw [this]; exact zero_le_one
    · have h0 := not_lt.mp h0
      -- each clipped entry adds at most `b`
      set b := n * e + e * n / k with hb
      have hb0 : 0 ≤ b := add_nonneg hne (by positivity)
      have hentry : ∀ j ∈ Finset.range k, relu (v j - s) ≤ (v j - s) + if j = 0 then 0 else b := by
        intro j hj
        rw [Finset.mem_range] at hj
        by_cases hj0 : j = 0
        · subst hj0
          rw [if_pos rfl, relu, max_eq_left (by linarith), add_zero]
        · rw [if_neg hj0]
          have h1 := vanti j (k - 1) (by omega) (by omega)
          exact max_le (by linarith) (by linarith)
      refine (Finset.sum_le_sum hentry).trans ?_
      rw [Finset.sum_add_distrib, Finset.sum_sub_distrib, Finset.sum_const, Finset.card_range, nsmul_eq_mul]
      have hcount : ∑ j ∈ Finset.range k, (if j = 0 then 0 else b) = ((k : K) - 1) * b := by
        obtain ⟨m, rfl⟩ : ∃ m, k = m + 1 := ⟨k - 1, by omega⟩
        rw [Finset.sum_range_succ']
        simp
      rw [hcount]
      have e1 : S - k * s + (k - 1) * b = 1 - n * e / k := by
        rw [hs, hb]
        have : (k : K) * t = S - 1 := by rw [mul_comm]; exact htk
        field_simp
        linear_combination -(k : K) * this
      rw [e1]
      have : 0 ≤ n * e / (k : K) := by positivity
      linarith

/-! ## One entry -/

section entry

variable {rnd : K → K} {u M : K} {l : List K} {c : ℕ → K}

theorem gap_first (hS : StdRound rnd u) {a : K} (ha : rnd a = a) : 0 < simplexGap rnd 1 a a := by
  unfold simplexGap
  rw [Nat.cast_one, div_one, div_one, ha, sub_self, hS.zero, add_zero, hS.idem]
  exact hS.one_pos

theorem count_pos (hS : StdRound rnd u) (hne : l ≠ []) (hrep : ∀ a ∈ l, rnd a = a)
    (hc : ∀ i, i < l.length → Sums rnd (l.take (i + 1)) (c i)) : 1 ≤ simplexCountR rnd l c := by
  obtain ⟨a, t, rfl⟩ := List.exists_cons_of_ne_nil hne
  have h0 : c 0 = a := by
    have := hc 0 (by simp)
    rw [show (a :: t).take (0 + 1) = [a] by simp] at this
    exact this.single
  have hm : (0 : ℕ) ∈ (List.range (a :: t).length).filter fun i => decide (simplexGap rnd (i + 1) ((a :: t).getD i 0) (c i) > 0) := by
    rw [List.mem_filter]
    refine ⟨by simp, ?_⟩
    rw [decide_eq_true_eq, h0]
    exact gap_first hS (hrep a (by simp))
  exact List.length_pos_of_mem hm

theorem count_le : simplexCountR rnd l c ≤ l.length := by
  have := List.length_filter_le (fun i => decide (simplexGap rnd (i + 1) (l.getD i 0) (c i) > 0)) (List.range l.length)
  rwa [List.length_range] at this

theorem gapErr_nonneg (hu : 0 ≤ u) (hM : 0 ≤ M) (n : ℕ) : 0 ≤ gapErr u M n := by
  have h1 := one_le_pow_succ hu 2
  have h2 := one_le_pow_succ hu (n + 3)
  unfold gapErr
  have := mul_nonneg (sub_nonneg.mpr h1) (by linarith : 0 ≤ 1 + M)
  have := mul_nonneg hM (sub_nonneg.mpr h2)
  linarith

theorem entry_gap (hS : StdRound rnd u) (hl : ∀ a ∈ l, |a| ≤ M) (hc : ∀ i, i < l.length → Sums rnd (l.take (i + 1)) (c i)) {i : ℕ}
    (hi : i < l.length) {y : K} (hy : |y| ≤ M) :
    |simplexGap rnd (i + 1) y (c i) - (1 / ((i + 1 : ℕ) : K) + (y - (∑ j ∈ Finset.range (i + 1), l.getD j 0) / ((i + 1 : ℕ) : K)))| ≤
      gapErr u M l.length := by
  have hlen : (l.take (i + 1)).length = i + 1 := by rw [List.length_take]; omega
  have hmem : ∀ a ∈ l.take (i + 1), |a| ≤ M := fun a ha => hl a (List.mem_of_mem_take ha)
  have hsum : (l.take (i + 1)).sum = ∑ j ∈ Finset.range (i + 1), l.getD j 0 := sum_take_eq l (i + 1)
  have h1 := sum_abs_le hmem
  have h2 := (hc i hi).err hS hmem
  rw [hlen, hsum] at h1 h2
  exact gap_err hS (by omega) (by omega) hy h1 h2

/-- The computed entry is close to the exact entry. -/
theorem entry_err (hS : StdRound rnd u) (hne : l ≠ []) (hs : l.Pairwise (· ≥ ·)) (hrep : ∀ a ∈ l, rnd a = a) (hl : ∀ a ∈ l, |a| ≤ M)
    (hc : ∀ i, i < l.length → Sums rnd (l.take (i + 1)) (c i)) {y : K} (hy : |y| ≤ M) :
    |simplexEntryR rnd l c y - simplexEntry l y| ≤ ((l.length : K) + 1) * gapErr u M l.length := by
  set n := l.length with hn
  set v : ℕ → K := fun i => l.getD i 0 with hv
  set e := gapErr u M n with he
  have hM : 0 ≤ M := (abs_nonneg y).trans hy
  have he0 : 0 ≤ e := gapErr_nonneg hS.nonneg hM n
  obtain ⟨τ, hτ1, hτ2⟩ := simplexEntry_threshold l hne hs
  have hvmem : ∀ i, i < n → v i ∈ l := by
    intro i hi
    have : v i = l[i] := by simp [hv, List.getD_eq_getElem?_getD, List.getElem?_eq_getElem, show i < l.length from hi]
    rw [this]; exact List.getElem_mem _
  have hanti : ∀ i, i + 1 < n → v (i + 1) ≤ v i := by
    intro i hi
    have := List.pairwise_iff_getElem.mp hs i (i + 1) (by omega) hi (by omega)
    simpa [hv, List.getD_eq_getElem?_getD, List.getElem?_eq_getElem, show i < l.length by omega, show i + 1 < l.length by omega] using this
  have hτ : ∑ j ∈ Finset.range n, relu (v j - τ) = 1 := by
    rw [← hτ2]
    have := sum_take_eq (l.map fun y => relu (y - τ)) n
    rw [List.take_of_length_le (by simp [hn])] at this
    rw [this]
    refine Finset.sum_congr rfl fun j hj => ?_
    rw [Finset.mem_range] at hj
    simp [hv, List.getD_eq_getElem?_getD, List.getElem?_eq_getElem, show j < l.length from hj]
  set P : ℕ → Bool := fun i => decide (simplexGap rnd (i + 1) (v i) (c i) > 0) with hP
  have hgap : ∀ i, i < n → ∀ z, |z| ≤ M → |simplexGap rnd (i + 1) z (c i) - (1 / ((i + 1 : ℕ) : K) + (z - (∑ j ∈ Finset.range (i + 1), v j) / ((i + 1 : ℕ) : K)))| ≤ e :=
    fun i hi z hz => entry_gap hS hl hc hi hz
  have hform : ∀ i : ℕ, (1 / ((i + 1 : ℕ) : K) + (v i - (∑ j ∈ Finset.range (i + 1), v j) / ((i + 1 : ℕ) : K))) * ((i + 1 : ℕ) : K) =
      1 + ((i + 1 : ℕ) : K) * v i - ∑ j ∈ Finset.range (i + 1), v j := by
    intro i
    have : ((i + 1 : ℕ) : K) ≠ 0 := by positivity
    field_simp
    ring
  have hpos : ∀ i : ℕ, (0 : K) < ((i + 1 : ℕ) : K) := fun i => by positivity
  have hk1 : 1 ≤ simplexCountR rnd l c := count_pos hS hne hrep hc
  obtain ⟨hkn, ht1, ht2⟩ := threshold_close (n := n) (v := v) hanti he0 (P := P)
    (fun i hi hPi => by
      have h1 : 0 < simplexGap rnd (i + 1) (v i) (c i) := by simpa [hP] using hPi
      have h2 := (abs_le.mp (hgap i hi (v i) (hl _ (hvmem i hi)))).2
      rw [← hform i, ← neg_mul]
      exact mul_le_mul_of_nonneg_right (by linarith) (hpos i).le)
    (fun i hi hPi => by
      have h1 : simplexGap rnd (i + 1) (v i) (c i) ≤ 0 := by simpa [hP] using hPi
      have h2 := (abs_le.mp (hgap i hi (v i) (hl _ (hvmem i hi)))).1
      rw [← hform i]
      exact mul_le_mul_of_nonneg_right (by linarith) (hpos i).le)
    (k := simplexCountR rnd l c) rfl hk1 hτ
  set k := simplexCountR rnd l c with hk
  have hlast := hgap (k - 1) (by omega) y hy
  rw [Nat.sub_add_cancel hk1] at hlast
  rw [hτ1]
  change |relu (simplexGap rnd k y (c (k - 1))) - relu (y - τ)| ≤ _
  have hk0 : (0 : K) < k := by exact_mod_cast hk1
  have e1 : 1 / (k : K) + (y - (∑ j ∈ Finset.range k, v j) / (k : K)) = y - (∑ j ∈ Finset.range k, v j - 1) / (k : K) := by
    field_simp; ring
  rw [e1] at hlast
  refine (abs_max_sub_max_le_abs _ _ _).trans ?_
  rw [abs_le] at hlast ⊢
  constructor <;> linarith [hlast.1, hlast.2]

theorem entry_mono (hS : StdRound rnd u) {y z : K} (hyz : y ≤ z) : simplexEntryR rnd l c y ≤ simplexEntryR rnd l c z := by
  unfold simplexEntryR simplexGap
  refine max_le_max (hS.mono _ _ ?_) le_rfl
  have := hS.mono (y - rnd (c (simplexCountR rnd l c - 1) / (simplexCountR rnd l c : K))) (z - rnd (c (simplexCountR rnd l c - 1) / (simplexCountR rnd l c : K)))
    (by linarith)
  linarith

end entry

/-! ## The projections -/

section simplex

variable {n : ℕ} {rnd : K → K} {u M : K} {x : Fin n → K} {c : ℕ → K}

theorem sorted_perm : (sorted x).Perm (List.ofFn x) := List.perm_insertionSort _ _

theorem sorted_length : (sorted x).length = n := by rw [sorted_perm.length_eq, List.length_ofFn]

theorem sorted_ne_nil (hn : 0 < n) : sorted x ≠ [] := by
  intro h
  have := sorted_length (x := x)
  rw [h] at this
  simp at this
  omega

theorem mem_sorted {a : K} (ha : a ∈ sorted x) : ∃ i, x i = a := by
  rw [sorted_perm.mem_iff, List.mem_ofFn] at ha
  exact ha

theorem sorted_pairwise : (sorted x).Pairwise (· ≥ ·) := List.pairwise_insertionSort (r := (· ≥ ·)) _

/-- C118.  At least one condition holds, so `idx` is a valid size: there is no division by zero. -/
theorem C118_index (hS : StdRound rnd u) (hn : 0 < n) (hx : ∀ i, rnd (x i) = x i) (hc : ∀ i, i < n → Sums rnd ((sorted x).take (i + 1)) (c i)) :
    1 ≤ simplexCountR rnd (sorted x) c ∧ simplexCountR rnd (sorted x) c ≤ n := by
  refine ⟨count_pos hS (sorted_ne_nil hn) ?_ ?_, ?_⟩
  · intro a ha
    obtain ⟨i, rfl⟩ := mem_sorted ha
    exact hx i
  · rw [sorted_length]; exact hc
  · exact count_le.trans (le_of_eq sorted_length)

/-- C118.  The entries are never negative, and they are ordered as the entries of the input. -/
theorem C118_order (hS : StdRound rnd u) (i j : Fin n) :
    0 ≤ projectionUnitSimplexR rnd x c i ∧ (x i ≤ x j → projectionUnitSimplexR rnd x c i ≤ projectionUnitSimplexR rnd x c j) :=
  ⟨relu_nonneg _, fun h => entry_mono hS h⟩

/-- C118.  Accuracy of `_projection_unit_simplex`. -/
theorem C118_accuracy (hS : StdRound rnd u) (hn : 0 < n) (hx : ∀ i, rnd (x i) = x i) (hM : ∀ i, |x i| ≤ M)
    (hc : ∀ i, i < n → Sums rnd ((sorted x).take (i + 1)) (c i)) (i : Fin n) :
    |projectionUnitSimplexR rnd x c i - projectionUnitSimplex x i| ≤ ((n : K) + 1) * gapErr u M n := by
  have h := entry_err (M := M) hS (sorted_ne_nil hn) sorted_pairwise (fun a ha => by obtain ⟨i, rfl⟩ := mem_sorted ha; exact hx i)
    (fun a ha => by obtain ⟨i, rfl⟩ := mem_sorted ha; exact hM i) (by rw [sorted_length]; exact hc) (hM i)
  rw [sorted_length] at h
  exact h

/-- C118.  The computed entries sum to nearly one. -/
theorem C118_sum (hS : StdRound rnd u) (hn : 0 < n) (hx : ∀ i, rnd (x i) = x i) (hM : ∀ i, |x i| ≤ M)
    (hc : ∀ i, i < n → Sums rnd ((sorted x).take (i + 1)) (c i)) :
    |∑ i, projectionUnitSimplexR rnd x c i - 1| ≤ (n : K) * (((n : K) + 1) * gapErr u M n) := by
  obtain ⟨τ, h1, h2⟩ := unitSimplex_threshold hn x
  have h3 : ∑ i, projectionUnitSimplex x i = 1 := by rw [← h2]; exact Finset.sum_congr rfl fun i _ => h1 i
  have h4 : ∑ i, projectionUnitSimplexR rnd x c i - 1 = ∑ i, (projectionUnitSimplexR rnd x c i - projectionUnitSimplex x i) := by
    rw [Finset.sum_sub_distrib, h3]
  rw [h4]
  refine (Finset.abs_sum_le_sum_abs _ _).trans ((Finset.sum_le_sum fun i _ => C118_accuracy hS hn hx hM hc i).trans ?_)
  rw [Finset.sum_const, Finset.card_univ, Fintype.card_fin, nsmul_eq_mul]

/-- The exact projection moves by at most twice the change of the input. -/
theorem unitSimplex_lipschitz (hn : 0 < n) {y : Fin n → K} {d : K} (hd : ∀ i, |y i - x i| ≤ d) (i : Fin n) :
    |projectionUnitSimplex y i - projectionUnitSimplex x i| ≤ 2 * d := by
  obtain ⟨τ, h1, h2⟩ := unitSimplex_threshold hn x
  obtain ⟨σ, g1, g2⟩ := unitSimplex_threshold hn y
  have a1 : σ ≤ τ + d := by
    refine threshold_le Finset.univ y g2 ?_
    rw [← h2]
    exact Finset.sum_le_sum fun j _ => max_le_max (by linarith [(abs_le.mp (hd j)).2]) le_rfl
  have a2 : τ ≤ σ + d := by
    refine threshold_le Finset.univ x h2 ?_
    rw [← g2]
    exact Finset.sum_le_sum fun j _ => max_le_max (by linarith [(abs_le.mp (hd j)).1]) le_rfl
  rw [h1, g1]
  refine (abs_max_sub_max_le_abs _ _ _).trans ?_
  have := abs_le.mp (hd i)
  rw [abs_le]
  constructor <;> linarith [this.1, this.2]

theorem unitSimplex_le_one (hn : 0 < n) (i : Fin n) : projectionUnitSimplex x i ≤ 1 := by
  obtain ⟨τ, h1, h2⟩ := unitSimplex_threshold hn x
  rw [h1, ← h2]
  exact Finset.single_le_sum (f := fun j => relu (x j - τ)) (fun j _ => relu_nonneg _) (Finset.mem_univ i)

/-- C118.  Accuracy of `projection_simplex`. -/
theorem C118_scaled (hS : StdRound rnd u) (hn : 0 < n) {value : K} (hv : 0 < value) (hM : ∀ i, |x i| ≤ M * value)
    (hc : ∀ i, i < n → Sums rnd ((sorted fun j => rnd (x j / value)).take (i + 1)) (c i)) (i : Fin n) :
    0 ≤ projectionSimplexR rnd x value c i ∧
      |projectionSimplexR rnd x value c i - projectionSimplex x value i| ≤
        value * (u + (1 + u) * (((n : K) + 1) * gapErr u ((1 + u) * M) n + 2 * (u * M))) := by
  have hu := hS.nonneg
  set y : Fin n → K := fun j => rnd (x j / value) with hy
  have hq : ∀ j, |x j / value| ≤ M := fun j => by
    rw [abs_div, abs_of_pos hv, div_le_iff₀ hv]; exact hM j
  have hyd : ∀ j, |y j - x j / value| ≤ u * M := fun j => (hS.err _).trans (mul_le_mul_of_nonneg_left (hq j) hu)
  have hyM : ∀ j, |y j| ≤ (1 + u) * M := fun j => by
    have := abs_add_le (y j - x j / value) (x j / value)
    rw [sub_add_cancel] at this
    linarith [hyd j, hq j]
  have h1 := C118_accuracy hS hn (x := y) (fun j => hS.idem _) hyM hc i
  have h2 := unitSimplex_lipschitz hn (x := fun j => x j / value) (y := y) hyd i
  have h3 := unitSimplex_le_one hn (x := fun j => x j / value) i
  have h4 : 0 ≤ projectionUnitSimplexR rnd y c i := relu_nonneg _
  refine ⟨hS.nonneg' (mul_nonneg hv.le h4), ?_⟩
  change |rnd (value * projectionUnitSimplexR rnd y c i) - value * projectionUnitSimplex (fun j => x j / value) i| ≤ _
  set a := projectionUnitSimplexR rnd y c i with ha
  set b := projectionUnitSimplex (fun j => x j / value) i with hb
  set D := ((n : K) + 1) * gapErr u ((1 + u) * M) n + 2 * (u * M) with hD
  have h5 : |a - b| ≤ D := (abs_sub_le a (projectionUnitSimplex y i) b).trans (add_le_add h1 h2)
  have h6 : a ≤ 1 + D := by linarith [(abs_le.mp h5).2]
  have h7 := hS.err (value * a)
  rw [abs_of_nonneg (mul_nonneg hv.le h4)] at h7
  have h8 : |value * a - value * b| ≤ value * D := by
    rw [← mul_sub, abs_mul, abs_of_pos hv]; exact mul_le_mul_of_nonneg_left h5 hv.le
  have h9 : u * (value * a) ≤ u * (value * (1 + D)) := mul_le_mul_of_nonneg_left (mul_le_mul_of_nonneg_left h6 hv.le) hu
  calc |rnd (value * a) - value * b| ≤ |rnd (value * a) - value * a| + |value * a - value * b| := abs_sub_le _ _ _
    _ ≤ u * (value * (1 + D)) + value * D := by linarith
    _ = _ := by ring

/-- C118.  Accuracy of `_projection_unit_sparse_simplex`; the entries outside the `maxNz` largest are exactly zero. -/
theorem C118_sparse (hS : StdRound rnd u) {maxNz : ℕ} (h1 : 1 ≤ maxNz) (hk : maxNz ≤ n) (hx : ∀ i, rnd (x i) = x i) (hM : ∀ i, |x i| ≤ M)
    (hc : ∀ i, i < maxNz → Sums rnd (((topK x maxNz).map x).take (i + 1)) (c i)) (i : Fin n) :
    0 ≤ projectionUnitSparseSimplexR rnd x maxNz c i ∧ nnz (projectionUnitSparseSimplexR rnd x maxNz c) ≤ maxNz ∧
      |projectionUnitSparseSimplexR rnd x maxNz c i - projectionUnitSparseSimplex x maxNz i| ≤ ((maxNz : K) + 1) * gapErr u M maxNz := by
  obtain ⟨hnd, hlen, hsort, _⟩ := topK_spec x maxNz hk
  have hlen' : ((topK x maxNz).map x).length = maxNz := by rw [List.length_map, hlen]
  have hne : (topK x maxNz).map x ≠ [] := by
    intro h
    rw [h, List.length_nil] at hlen'
    omega
  have hform : ∀ (f : Fin n → K) (i : Fin n), ((topK x maxNz).map fun j => f j * (if j = i then 1 else 0)).sum = if i ∈ topK x maxNz then f i else 0 := by
    intro f i
    rw [← List.sum_toFinset _ hnd]
    simp [Finset.sum_ite_eq']
  have hR : ∀ i, projectionUnitSparseSimplexR rnd x maxNz c i = if i ∈ topK x maxNz then simplexEntryR rnd ((topK x maxNz).map x) c (x i) else 0 :=
    fun i => hform _ i
  refine ⟨?_, ?_, ?_⟩
  · rw [hR]
    by_cases hi : i ∈ topK x maxNz
    · rw [if_pos hi]; exact relu_nonneg _
    · rw [if_neg hi]
  · have hsub : (Finset.univ.filter fun i => projectionUnitSparseSimplexR rnd x maxNz c i ≠ 0) ⊆ (topK x maxNz).toFinset := by
      intro j hj
      rw [Finset.mem_filter] at hj
      rw [List.mem_toFinset]
      by_contra hn
      exact hj.2 (by rw [hR, if_neg hn])
    have := Finset.card_le_card hsub
    rw [List.toFinset_card_of_nodup hnd, hlen] at this
    exact this
  · have hE : projectionUnitSparseSimplex x maxNz i = if i ∈ topK x maxNz then simplexEntry ((topK x maxNz).map x) (x i) else 0 := hform _ i
    rw [hR, hE]
    by_cases hi : i ∈ topK x maxNz
    · rw [if_pos hi, if_pos hi]
      have h := entry_err (M := M) hS hne hsort (fun a ha => by obtain ⟨i, _, rfl⟩ := List.mem_map.mp ha; exact hx i)
        (fun a ha => by obtain ⟨i, _, rfl⟩ := List.mem_map.mp ha; exact hM i) (by rw [hlen']; exact hc) (hM i)
      rw [hlen'] at h
      exact h
    · rw [if_neg hi, if_neg hi, sub_zero, abs_zero]
      exact mul_nonneg (by positivity) (gapErr_nonneg hS.nonneg ((abs_nonneg _).trans (hM i)) _)

end simplex

/-! ## Binary arithmetic -/

theorem binary_std (q : ℕ) : StdRound (roundBin q) (1 / 2 ^ (q + 1)) where
  nonneg := by positivity
  lt_one := by
    rw [div_lt_one (by positivity)]
    exact one_lt_pow₀ (by norm_num) (by omega)
  err a := by
    refine (roundBin_error q a).trans (le_of_eq ?_)
    ring
  mono a b h := roundBin_mono q h
  idem a := roundBin_exact q (roundBin_isBin q a)

/-- Sums from left to right are possible sums. -/
theorem seqSum_sums (rnd : K → K) (l : List K) (i : ℕ) (hi : i < l.length) : Sums rnd (l.take (i + 1)) (seqSum rnd l i) := by
  induction i with
  | zero =>
    obtain ⟨a, t, rfl⟩ := List.exists_cons_of_ne_nil (List.ne_nil_of_length_pos hi)
    simpa [seqSum] using Sums.one (rnd := rnd) a
  | succ i ih =>
    have h := (ih (by omega)).add (Sums.one (rnd := rnd) (l[i + 1]))
    rw [show l.take (i + 1 + 1) = l.take (i + 1) ++ [l[i + 1]] from (List.take_append_getElem hi).symm]
    simpa [seqSum, List.getD_eq_getElem?_getD, List.getElem?_eq_getElem, hi] using h

/-- Without rounding, the model is the exact model. -/
theorem seqSum_id (l : List K) (i : ℕ) : seqSum id l i = ∑ j ∈ Finset.range (i + 1), l.getD j 0 := by
  induction i with
  | zero => simp [seqSum]
  | succ i ih => rw [Finset.sum_range_succ, ← ih]; rfl

theorem unitSimplexR_id {n : ℕ} (hn : 0 < n) (x : Fin n → K) : projectionUnitSimplexR id x (seqSum id (sorted x)) = projectionUnitSimplex x := by
  have hS : StdRound (id : K → K) 0 := ⟨le_rfl, one_pos, fun a => by simp, fun a b h => h, fun a => rfl⟩
  obtain ⟨M, hM⟩ : ∃ M, ∀ i, |x i| ≤ M := ⟨∑ i, |x i|, fun i => Finset.single_le_sum (f := fun i => |x i|) (fun j _ => abs_nonneg _) (Finset.mem_univ i)⟩
  funext i
  have := C118_accuracy hS hn (fun i => rfl) hM (c := seqSum id (sorted x)) (fun i hi => seqSum_sums _ _ i (by rwa [sorted_length])) i
  simp [gapErr] at this
  exact sub_eq_zero.mp this

/-- A sum of two entries has one value. -/
theorem Sums.pair {rnd : K → K} {a b s : K} (h : Sums rnd [a, b] s) : s = rnd (a + b) := by
  generalize hl : [a, b] = l at h
  cases h with
  | one c => simp at hl
  | @add l1 l2 s1 s2 h1 h2 =>
    obtain ⟨c1, t1, rfl⟩ := List.exists_cons_of_ne_nil h1.ne_nil
    obtain ⟨c2, t2, rfl⟩ := List.exists_cons_of_ne_nil h2.ne_nil
    cases t1 with
    | nil =>
      simp at hl
      obtain ⟨rfl, rfl, rfl⟩ := hl
      rw [h1.single, h2.single]
    | cons d t1 => simp at hl

/-- Two large entries. -/
def bigPair : Fin 2 → ℚ := ![2 ^ 53 + 72, 2 ^ 53 + 74]

/-- C118.  In binary64 arithmetic, the computed point of two representable entries near `2 ^ 53` is `(1/2, 5/2)`: it sums to three. -/
theorem C118_sum_false : (∀ i, roundBin 52 (bigPair i) = bigPair i) ∧
    ∀ c : ℕ → ℚ, (∀ i, i < 2 → Sums (roundBin 52) ((sorted bigPair).take (i + 1)) (c i)) →
      projectionUnitSimplexR (roundBin 52) bigPair c = ![1 / 2, 5 / 2] ∧ ∑ i, projectionUnitSimplexR (roundBin 52) bigPair c i = 3 := by
  have hs : sorted bigPair = [2 ^ 53 + 74, 2 ^ 53 + 72] := by decide +kernel
  refine ⟨by decide +kernel, fun c hc => ?_⟩
  have h0 : c 0 = 2 ^ 53 + 74 := by
    have := hc 0 (by norm_num)
    rw [hs] at this
    exact Sums.single this
  have h1 : c 1 = 2 ^ 54 + 144 := by
    have := hc 1 (by norm_num)
    rw [hs] at this
    rw [Sums.pair this]
    decide +kernel
  have g0 : simplexGap (roundBin 52) 1 (2 ^ 53 + 74) (2 ^ 53 + 74) > 0 := by decide +kernel
  have g1 : simplexGap (roundBin 52) 2 (2 ^ 53 + 72) (2 ^ 54 + 144) > 0 := by decide +kernel
  have hk : simplexCountR (roundBin 52) (sorted bigPair) c = 2 := by
    rw [hs]
    unfold simplexCountR
    rw [show (List.range [(2 : ℚ) ^ 53 + 74, 2 ^ 53 + 72].length) = [0, 1] from rfl, List.filter_cons_of_pos, List.filter_cons_of_pos]
    · rfl
    · rw [decide_eq_true_eq, h1]; exact g1
    · rw [decide_eq_true_eq, h0]; exact g0
  have hp : projectionUnitSimplexR (roundBin 52) bigPair c = ![1 / 2, 5 / 2] := by
    funext i
    change relu (simplexGap (roundBin 52) (simplexCountR (roundBin 52) (sorted bigPair) c) (bigPair i) (c (simplexCountR (roundBin 52) (sorted bigPair) c - 1))) = _
    rw [hk, h1]
    fin_cases i
    · show relu (simplexGap (roundBin 52) 2 (2 ^ 53 + 72) (2 ^ 54 + 144)) = 1 / 2
      decide +kernel
    · show relu (simplexGap (roundBin 52) 2 (2 ^ 53 + 74) (2 ^ 54 + 144)) = 5 / 2
      decide +kernel
  refine ⟨hp, ?_⟩
  rw [hp, Fin.sum_univ_two]
  norm_num

/-! ## Examples -/

/-- The exact projection of the two large entries is `(0, 1)`. -/
example : projectionUnitSimplex bigPair = ![0, 1] := by decide +kernel

/-- Four significant bits: the projection of `(1/8, 5/8, 3/8)`. -/
example : projectionUnitSimplexR (roundBin 3) (![1 / 8, 5 / 8, 3 / 8] : Fin 3 → ℚ) (seqSum (roundBin 3) (sorted ![1 / 8, 5 / 8, 3 / 8])) = ![3 / 32, 5 / 8, 11 / 32] := by
  decide +kernel

/-- The hypotheses hold for every representable input, with the sums from left to right. -/
example {n : ℕ} (hn : 0 < n) (x : Fin n → ℚ) (hx : ∀ i, roundBin 52 (x i) = x i) (hM : ∀ i, |x i| ≤ 1) :
    |∑ i, projectionUnitSimplexR (roundBin 52) x (seqSum (roundBin 52) (sorted x)) i - 1| ≤ (n : ℚ) * (((n : ℚ) + 1) * gapErr (1 / 2 ^ 53) 1 n) :=
  C118_sum (binary_std 52) hn hx hM fun i hi => seqSum_sums _ _ i (by rwa [sorted_length])

/-- For a thousand entries in `[-1, 1]` in binary64, the sum is within `10⁻⁶` of one. -/
example : (1000 : ℚ) * ((1000 + 1) * gapErr (1 / 2 ^ 53) 1 1000) < 1 / 10 ^ 6 := by
  unfold gapErr
  decide +kernel

end Jaxopt.Proj
