import Verif.Proj.HalfspaceFloat
import Verif.Prox.FloatProps

/-!
# C139: the hyperplane and half-space projections in floating-point arithmetic
-/

set_option autoImplicit false
set_option linter.unusedSectionVars false
set_option linter.unusedVariables false

namespace Jaxopt.Proj

open Jaxopt.Loss Jaxopt.Prox

variable {K : Type*} [Field K] [LinearOrder K] [IsStrictOrderedRing K] {rnd : K → K} {u : K} {n : ℕ}

/-! ## Specification -/

/-- The growth of the relative error of the step: three roundings in the numerator and `n` in the squared norm of the normal. -/
def stepGrowth (u : K) (n : ℕ) : K := (1 + u) ^ 3 / (1 - u) ^ n

/-- The error of the entry `i`: `S = Σ |a_k x_k|`, `A = |a|²`, `N` the computed violation. -/
def entryBound (u : K) (n : ℕ) (S N A xi ai : K) : K :=
  u * |xi| + (((1 + u) * stepGrowth u n - 1) * |N| + ((1 + u) ^ n - 1) * S) * |ai| / A

/-! ## Inner products -/

theorem sums_abs (hS : StdRound rnd u) {l : List K} {s : K} (h : Sums rnd l s) :
    |s - l.sum| ≤ ((1 + u) ^ (l.length - 1) - 1) * (l.map abs).sum := by
  have hu := hS.nonneg
  have h2 : 1 ≤ 1 + u := by linarith
  induction h with
  | one a => simp
  | @add l1 l2 s1 s2 g1 g2 ih1 ih2 =>
    have p1 := List.length_pos_of_ne_nil g1.ne_nil
    have p2 := List.length_pos_of_ne_nil g2.ne_nil
    obtain ⟨k, hk⟩ : ∃ k, (l1 ++ l2).length - 1 = k + 1 := ⟨(l1 ++ l2).length - 2, by rw [List.length_append]; omega⟩
    have k1 : l1.length - 1 ≤ k := by rw [List.length_append] at hk; omega
    have k2 : l2.length - 1 ≤ k := by rw [List.length_append] at hk; omega
    have n1 : 0 ≤ (l1.map abs).sum := List.sum_nonneg fun a ha => by
      obtain ⟨c, -, rfl⟩ := List.mem_map.1 ha; exact abs_nonneg _
    have n2 : 0 ≤ (l2.map abs).sum := List.sum_nonneg fun a ha => by
      obtain ⟨c, -, rfl⟩ := List.mem_map.1 ha; exact abs_nonneg _
    have t : ∀ l : List K, |l.sum| ≤ (l.map abs).sum := fun l => by
      induction l with
      | nil => simp
      | cons a l ih =>
        rw [List.sum_cons, List.map_cons, List.sum_cons]
        exact (abs_add_le _ _).trans (by linarith)
    have c1 : |s1 - l1.sum| ≤ ((1 + u) ^ k - 1) * (l1.map abs).sum :=
      ih1.trans (mul_le_mul_of_nonneg_right (sub_le_sub_right (pow_le_pow_right₀ h2 k1) _) n1)
    have c2 : |s2 - l2.sum| ≤ ((1 + u) ^ k - 1) * (l2.map abs).sum :=
      ih2.trans (mul_le_mul_of_nonneg_right (sub_le_sub_right (pow_le_pow_right₀ h2 k2) _) n2)
    have e1 : |s1| ≤ (1 + u) ^ k * (l1.map abs).sum := by
      have := abs_add_le (s1 - l1.sum) l1.sum
      rw [sub_add_cancel] at this
      linarith [t l1]
    have e2 : |s2| ≤ (1 + u) ^ k * (l2.map abs).sum := by
      have := abs_add_le (s2 - l2.sum) l2.sum
      rw [sub_add_cancel] at this
      linarith [t l2]
    have e3 : |s1 + s2| ≤ (1 + u) ^ k * ((l1.map abs).sum + (l2.map abs).sum) := (abs_add_le _ _).trans (by linarith)
    have e4 := (hS.err (s1 + s2)).trans (mul_le_mul_of_nonneg_left e3 hu)
    rw [hk, List.sum_append, List.map_append, List.sum_append]
    have e5 : rnd (s1 + s2) - (l1.sum + l2.sum) = (rnd (s1 + s2) - (s1 + s2)) + ((s1 - l1.sum) + (s2 - l2.sum)) := by ring
    rw [e5]
    refine (abs_add_le _ _).trans ((add_le_add e4 (abs_add_le _ _)).trans ?_)
    rw [pow_succ]
    linarith

variable {x a : Fin n → K} {ax aa : K}

theorem dot_pos (h : IsDotR rnd a x ax) : 0 < n := by
  have := List.length_pos_of_ne_nil (Sums.ne_nil h)
  rwa [List.length_ofFn] at this

/-- The error of an inner product, for every order of the additions. -/
theorem dot_err (hS : StdRound rnd u) (h : IsDotR rnd a x ax) : |ax - ∑ i, a i * x i| ≤ ((1 + u) ^ n - 1) * ∑ i, |a i * x i| := by
  have hu := hS.nonneg
  have hs := sums_abs hS h
  rw [List.length_ofFn, List.map_ofFn, List.sum_ofFn, List.sum_ofFn] at hs
  have hn := dot_pos h
  obtain ⟨k, rfl⟩ : ∃ k, n = k + 1 := ⟨n - 1, by omega⟩
  rw [Nat.add_sub_cancel] at hs
  have b1 : ∑ i, (abs ∘ fun i => rnd (a i * x i)) i ≤ (1 + u) * ∑ i, |a i * x i| := by
    rw [Finset.mul_sum]
    refine Finset.sum_le_sum fun i _ => ?_
    show |rnd (a i * x i)| ≤ _
    have := abs_add_le (rnd (a i * x i) - a i * x i) (a i * x i)
    rw [sub_add_cancel] at this
    linarith [hS.err (a i * x i)]
  have b2 : |∑ i, rnd (a i * x i) - ∑ i, a i * x i| ≤ u * ∑ i, |a i * x i| := by
    rw [← Finset.sum_sub_distrib, Finset.mul_sum]
    exact (Finset.abs_sum_le_sum_abs _ _).trans (Finset.sum_le_sum fun i _ => hS.err _)
  have hk : 0 ≤ (1 + u) ^ k - 1 := by linarith [one_le_pow₀ (n := k) (show 1 ≤ 1 + u by linarith)]
  have e : ax - ∑ i, a i * x i = (ax - ∑ i, rnd (a i * x i)) + (∑ i, rnd (a i * x i) - ∑ i, a i * x i) := by ring
  rw [e]
  refine (abs_add_le _ _).trans ((add_le_add (hs.trans (mul_le_mul_of_nonneg_left b1 hk)) b2).trans (le_of_eq ?_))
  rw [pow_succ]
  ring

/-- The squared norm of the normal has `n` roundings. -/
theorem dot_self_fac (hS : StdRound rnd u) (h : IsDotR rnd a a aa) : ∃ m, Fac u n 0 m ∧ aa = m * ∑ i, a i * a i := by
  have h1 : 0 < 1 - u := by linarith [hS.lt_one]
  have h2 : 0 < 1 + u := by linarith [hS.nonneg]
  have hsum := sums_fac hS h fun c hc => by
    obtain ⟨i, rfl⟩ := List.mem_ofFn.mp hc
    exact rnd_nonneg hS (mul_self_nonneg _)
  have hn := dot_pos h
  rw [List.length_ofFn, List.sum_ofFn] at hsum
  have hsq : (1 - u) * ∑ i, a i * a i ≤ ∑ i, rnd (a i * a i) ∧ ∑ i, rnd (a i * a i) ≤ (1 + u) * ∑ i, a i * a i := by
    rw [Finset.mul_sum, Finset.mul_sum]
    constructor <;> refine Finset.sum_le_sum fun i _ => ?_ <;>
    · have := abs_le.mp (hS.err (a i * a i))
      rw [abs_of_nonneg (mul_self_nonneg (a i))] at this
      linarith [this.1, this.2]
  have hA : 0 ≤ ∑ i, a i * a i := Finset.sum_nonneg fun i _ => mul_self_nonneg _
  obtain ⟨k, rfl⟩ : ∃ k, n = k + 1 := ⟨n - 1, by omega⟩
  rw [Nat.add_sub_cancel] at hsum
  have l1 : (1 - u) ^ (k + 1) * ∑ i, a i * a i ≤ aa := by
    rw [pow_succ, mul_assoc]
    exact (mul_le_mul_of_nonneg_left hsq.1 (by positivity)).trans hsum.1
  have l2 : aa ≤ (1 + u) ^ (k + 1) * ∑ i, a i * a i := by
    rw [pow_succ, mul_assoc]
    exact hsum.2.trans (mul_le_mul_of_nonneg_left hsq.2 (by positivity))
  rcases hA.eq_or_lt with h0 | h0
  · rw [← h0, mul_zero] at l1 l2
    exact ⟨1, Fac.one hS _ _, by rw [← h0, mul_zero]; exact le_antisymm l2 l1⟩
  · refine ⟨aa / ∑ i, a i * a i, ⟨?_, ?_⟩, (div_mul_cancel₀ _ h0.ne').symm⟩
    · rw [pow_zero, div_one, le_div_iff₀ h0]; exact l1
    · rw [pow_zero, div_one, div_le_iff₀ h0]; exact l2

theorem norm_pos_of_ne (ha : ∃ i, a i ≠ 0) : 0 < ∑ i, a i * a i := by
  obtain ⟨i, hi⟩ := ha
  exact Finset.sum_pos' (fun i _ => mul_self_nonneg _) ⟨i, Finset.mem_univ _, mul_self_pos.2 hi⟩

/-- The computed squared norm of the normal is zero only for the zero vector. -/
theorem dot_self_zero (hS : StdRound rnd u) (h : IsDotR rnd a a aa) : aa = 0 ↔ ∀ i, a i = 0 := by
  obtain ⟨m, hm, e⟩ := dot_self_fac hS h
  rw [e, mul_eq_zero, or_iff_right (hm.pos hS).ne']
  constructor
  · intro h0 i
    by_contra hc
    exact (norm_pos_of_ne ⟨i, hc⟩).ne' h0
  · intro h0
    simp [h0]

/-! ## The step -/

/-- A factor differs from one by at most its upper bound minus one. -/
theorem fac_sub_one (hS : StdRound rnd u) {p q : ℕ} {m : K} (h : Fac u p q m) : |m - 1| ≤ (1 + u) ^ p / (1 - u) ^ q - 1 := by
  have hu := hS.nonneg
  have h1 : 0 < 1 - u := by linarith [hS.lt_one]
  have h2 : 0 < 1 + u := by linarith
  have b1 : (1 - u) ^ (p + q) ≤ (1 - u) ^ p / (1 + u) ^ q := by
    rw [le_div_iff₀ (by positivity), pow_add, mul_assoc, ← mul_pow]
    exact mul_le_of_le_one_right (by positivity) (pow_le_one₀ (by nlinarith) (by nlinarith))
  have b2 : (1 + u) ^ (p + q) ≤ (1 + u) ^ p / (1 - u) ^ q := by
    rw [le_div_iff₀ (by positivity), pow_add, mul_assoc, ← mul_pow]
    exact mul_le_of_le_one_right (by positivity) (pow_le_one₀ (by nlinarith) (by nlinarith))
  have b3 := one_add_mul_le_pow (show -2 ≤ -u by linarith [hS.lt_one]) (p + q)
  have b4 := one_add_mul_le_pow (show -2 ≤ u by linarith) (p + q)
  rw [← sub_eq_add_neg] at b3
  rw [abs_le]
  have := h.1
  have := h.2
  constructor <;> linarith

/-- The computed step is the exact one up to a factor for each entry. -/
theorem step_fac (hS : StdRound rnd u) (haa : IsDotR rnd a a aa) {N NR : K} (hN : ∃ m, Fac u 1 0 m ∧ NR = m * N) (i : Fin n) :
    ∃ m, Fac u 3 n m ∧ rnd (-rnd (NR / aa) * a i) = -(m * (N * a i / ∑ k, a k * a k)) := by
  obtain ⟨mq, hq, eq⟩ := dot_self_fac hS haa
  obtain ⟨m1, h1, e1⟩ := hN
  obtain ⟨m2, h2, e2⟩ := rnd_fac hS (NR / aa)
  obtain ⟨m3, h3, e3⟩ := rnd_fac hS (-rnd (NR / aa) * a i)
  have h := ((h1.mul hS h2).mul hS h3).mul hS (hq.inv hS)
  refine ⟨m1 * m2 * m3 * mq⁻¹, by simpa using h, ?_⟩
  rw [e3, e2, e1, eq]
  have := (hq.pos hS).ne'
  by_cases hA : ∑ k, a k * a k = 0
  · rw [hA]; simp
  · field_simp

/-- The error of an entry, for a violation `N` computed with one rounding that differs from the exact one `Ne` by at most the error of an inner product. -/
theorem halfspace_entry (hS : StdRound rnd u) (haa : IsDotR rnd a a aa) (ha : ∃ i, a i ≠ 0) {N NR Ne : K} (hN : ∃ m, Fac u 1 0 m ∧ NR = m * N)
    (hE : |N - Ne| ≤ ((1 + u) ^ n - 1) * ∑ k, |a k * x k|) (i : Fin n) :
    |addScalarMulR rnd x (rnd (NR / aa)) a i - (x i - Ne / (∑ k, a k * a k) * a i)| ≤
      entryBound u n (∑ k, |a k * x k|) N (∑ k, a k * a k) (x i) (a i) := by
  have hu := hS.nonneg
  have hA := norm_pos_of_ne ha
  obtain ⟨m, hm, e⟩ := step_fac hS haa hN i
  unfold addScalarMulR entryBound stepGrowth
  rw [e]
  generalize (∑ k, a k * a k) = A at *
  generalize (∑ k, |a k * x k|) = S at *
  have hm1 := fac_sub_one hS hm
  have hm2 := hm.2
  have hm0 := hm.pos hS
  set R : K := (1 + u) ^ 3 / (1 - u) ^ n
  have b1 := hS.err (x i + -(m * (N * a i / A)))
  have b2 : |x i + -(m * (N * a i / A))| ≤ |x i| + R * (|N| * |a i| / A) := by
    refine (abs_add_le _ _).trans (add_le_add le_rfl ?_)
    rw [abs_neg, abs_mul, abs_of_pos hm0, abs_div, abs_mul, abs_of_pos hA]
    exact mul_le_mul_of_nonneg_right hm2 (by positivity)
  have b3 : |(m - 1) * (N * a i / A)| ≤ (R - 1) * (|N| * |a i| / A) := by
    rw [abs_mul, abs_div, abs_mul, abs_of_pos hA]
    exact mul_le_mul_of_nonneg_right hm1 (by positivity)
  have b4 : |(N - Ne) * (a i / A)| ≤ ((1 + u) ^ n - 1) * S * (|a i| / A) := by
    rw [abs_mul, abs_div, abs_of_pos hA]
    exact mul_le_mul_of_nonneg_right hE (by positivity)
  have es : rnd (x i + -(m * (N * a i / A))) - (x i - Ne / A * a i) =
      (rnd (x i + -(m * (N * a i / A))) - (x i + -(m * (N * a i / A)))) + (-((m - 1) * (N * a i / A)) + -((N - Ne) * (a i / A))) := by ring
  rw [es]
  refine (abs_add_le _ _).trans ((add_le_add (b1.trans (mul_le_mul_of_nonneg_left b2 hu)) ((abs_add_le _ _).trans
    (add_le_add ((abs_neg _).trans_le b3) ((abs_neg _).trans_le b4)))).trans (le_of_eq ?_))
  ring

theorem relu_sub_le (p q : K) : |relu p - relu q| ≤ |p - q| := by
  unfold relu
  exact abs_max_sub_max_le_abs p q 0

/-- The exact closest points. -/
theorem hyperplane_proj (ha : ∃ i, a i ≠ 0) (b : K) :
    IsUniqueProj {y : Fin n → K | ∑ i, a i * y i = b} x fun i => x i - (∑ k, a k * x k - b) / (∑ k, a k * a k) * a i := by
  have hA := norm_pos_of_ne ha
  have hv : ∑ i, a i * (x i - (∑ k, a k * x k - b) / (∑ k, a k * a k) * a i) = b := by
    have e : ∀ i, a i * (x i - (∑ k, a k * x k - b) / (∑ k, a k * a k) * a i) = a i * x i - (∑ k, a k * x k - b) / (∑ k, a k * a k) * (a i * a i) :=
      fun i => by ring
    simp only [e]
    rw [Finset.sum_sub_distrib, ← Finset.mul_sum, div_mul_cancel₀ _ hA.ne']
    ring
  refine isUniqueProj_of_vi hv fun y hy => le_of_eq ?_
  have hy : ∑ i, a i * y i = b := hy
  generalize (∑ k, a k * x k - b) / (∑ k, a k * a k) = t at *
  have e : ∀ i, (x i - (x i - t * a i)) * (y i - (x i - t * a i)) = t * (a i * y i - a i * (x i - t * a i)) := fun i => by ring
  simp only [e]
  rw [← Finset.mul_sum, Finset.sum_sub_distrib, hv, hy, sub_self, mul_zero]

theorem halfspace_proj (ha : ∃ i, a i ≠ 0) (b : K) :
    IsUniqueProj {y : Fin n → K | ∑ i, a i * y i ≤ b} x fun i => x i - relu (∑ k, a k * x k - b) / (∑ k, a k * a k) * a i := by
  have hA := norm_pos_of_ne ha
  have hv : ∑ i, a i * (x i - relu (∑ k, a k * x k - b) / (∑ k, a k * a k) * a i) = ∑ k, a k * x k - relu (∑ k, a k * x k - b) := by
    have e : ∀ i, a i * (x i - relu (∑ k, a k * x k - b) / (∑ k, a k * a k) * a i) =
      a i * x i - relu (∑ k, a k * x k - b) / (∑ k, a k * a k) * (a i * a i) := fun i => by ring
    simp only [e]
    rw [Finset.sum_sub_distrib, ← Finset.mul_sum, div_mul_cancel₀ _ hA.ne']
  have hle : ∑ k, a k * x k - b ≤ relu (∑ k, a k * x k - b) := le_max_left _ _
  refine isUniqueProj_of_vi (show _ ≤ b by rw [hv]; linarith) fun y hy => ?_
  have hy : ∑ i, a i * y i ≤ b := hy
  have e : ∀ t i, (x i - (x i - t * a i)) * (y i - (x i - t * a i)) = t * (a i * y i - a i * (x i - t * a i)) := fun t i => by ring
  simp only [e]
  rw [← Finset.mul_sum, Finset.sum_sub_distrib, hv]
  rcases le_total (∑ k, a k * x k - b) 0 with h | h
  · rw [relu, max_eq_right h]; simp
  · rw [relu, max_eq_left h]
    exact mul_nonpos_of_nonneg_of_nonpos (div_nonneg h hA.le) (by linarith)

/-- The sum of the bounds of the entries. -/
theorem bound_sum (S N : K) (ha : ∃ i, a i ≠ 0) (hS : S = ∑ k, |a k * x k|) :
    ∑ i, |a i| * entryBound u n S N (∑ k, a k * a k) (x i) (a i) = ((1 + u) ^ n - 1 + u) * S + ((1 + u) * stepGrowth u n - 1) * |N| := by
  have hA := norm_pos_of_ne ha
  have e : ∀ i, |a i| * entryBound u n S N (∑ k, a k * a k) (x i) (a i) =
      u * |a i * x i| + (((1 + u) * stepGrowth u n - 1) * |N| + ((1 + u) ^ n - 1) * S) / (∑ k, a k * a k) * (a i * a i) := fun i => by
    unfold entryBound
    rw [abs_mul, ← abs_mul_abs_self (a i)]
    ring
  simp only [e]
  rw [Finset.sum_add_distrib, ← Finset.mul_sum, ← Finset.mul_sum, ← hS, div_mul_cancel₀ _ hA.ne']
  ring

theorem residual_le {y p : Fin n → K} {B : Fin n → K} (h : ∀ i, |y i - p i| ≤ B i) : |∑ i, a i * y i - ∑ i, a i * p i| ≤ ∑ i, |a i| * B i := by
  rw [← Finset.sum_sub_distrib]
  refine (Finset.abs_sum_le_sum_abs _ _).trans (Finset.sum_le_sum fun i _ => ?_)
  rw [← mul_sub, abs_mul]
  exact mul_le_mul_of_nonneg_left (h i) (abs_nonneg _)

/-! ## Properties -/

/-- C139.  The result is NaN exactly for the zero normal. -/
theorem C139_zero_normal (hS : StdRound rnd u) (haa : IsDotR rnd a a aa) (b : K) :
    (projectionHyperplaneR rnd ax aa x a b = none ↔ ∀ i, a i = 0) ∧ (projectionHalfspaceR rnd ax aa x a b = none ↔ ∀ i, a i = 0) := by
  rw [← dot_self_zero hS haa]
  constructor
  · unfold projectionHyperplaneR; split <;> simp_all
  · unfold projectionHalfspaceR; split <;> simp_all

/-- C139.  `projection_hyperplane`: every entry is that of the closest point up to rounding, and so is the constraint. -/
theorem C139_hyperplane (hS : StdRound rnd u) (hax : IsDotR rnd a x ax) (haa : IsDotR rnd a a aa) (b : K) (y : Fin n → K)
    (hy : projectionHyperplaneR rnd ax aa x a b = some y) :
    ∃ p, IsUniqueProj {y : Fin n → K | ∑ i, a i * y i = b} x p ∧
      (∀ i, |y i - p i| ≤ entryBound u n (∑ k, |a k * x k|) (ax - b) (∑ k, a k * a k) (x i) (a i)) ∧
      |∑ i, a i * y i - b| ≤ ((1 + u) ^ n - 1 + u) * (∑ k, |a k * x k|) + ((1 + u) * stepGrowth u n - 1) * |ax - b| := by
  have h0 : aa ≠ 0 := fun h => by rw [projectionHyperplaneR, if_pos h] at hy; simp at hy
  have ha : ∃ i, a i ≠ 0 := by
    by_contra hc
    push Not at hc
    exact h0 ((dot_self_zero hS haa).2 hc)
  rw [projectionHyperplaneR, if_neg h0, Option.some.injEq] at hy
  subst hy
  have hp := hyperplane_proj (x := x) ha b
  have hent := halfspace_entry (x := x) (Ne := ∑ k, a k * x k - b) hS haa ha (rnd_fac hS (ax - b)) (by
    rw [sub_sub_sub_cancel_right]; exact dot_err hS hax)
  refine ⟨_, hp, hent, ?_⟩
  have h1 := residual_le (a := a) hent
  have h2 : ∑ i, a i * (x i - (∑ k, a k * x k - b) / (∑ k, a k * a k) * a i) = b := hp.1
  rw [h2, bound_sum _ _ ha rfl] at h1
  exact h1

/-- C139.  `projection_halfspace`: the same, the constraint being exceeded by rounding only. -/
theorem C139_halfspace (hS : StdRound rnd u) (hax : IsDotR rnd a x ax) (haa : IsDotR rnd a a aa) (b : K) (y : Fin n → K)
    (hy : projectionHalfspaceR rnd ax aa x a b = some y) :
    ∃ p, IsUniqueProj {y : Fin n → K | ∑ i, a i * y i ≤ b} x p ∧
      (∀ i, |y i - p i| ≤ entryBound u n (∑ k, |a k * x k|) (relu (ax - b)) (∑ k, a k * a k) (x i) (a i)) ∧
      ∑ i, a i * y i ≤ b + (((1 + u) ^ n - 1 + u) * (∑ k, |a k * x k|) + ((1 + u) * stepGrowth u n - 1) * relu (ax - b)) := by
  have h0 : aa ≠ 0 := fun h => by rw [projectionHalfspaceR, if_pos h] at hy; simp at hy
  have ha : ∃ i, a i ≠ 0 := by
    by_contra hc
    push Not at hc
    exact h0 ((dot_self_zero hS haa).2 hc)
  rw [projectionHalfspaceR, if_neg h0, Option.some.injEq] at hy
  subst hy
  have hp := halfspace_proj (x := x) ha b
  have hN : ∃ m, Fac u 1 0 m ∧ relu (rnd (ax - b)) = m * relu (ax - b) := by
    rcases le_total (ax - b) 0 with h | h
    · exact ⟨1, Fac.one hS _ _, by rw [relu, relu, max_eq_right h, max_eq_right (rnd_nonpos hS h), one_mul]⟩
    · rw [relu, relu, max_eq_left h, max_eq_left (rnd_nonneg hS h)]
      exact rnd_fac hS _
  have hent := halfspace_entry (x := x) (Ne := relu (∑ k, a k * x k - b)) hS haa ha hN (by
    refine (relu_sub_le _ _).trans ?_
    rw [sub_sub_sub_cancel_right]; exact dot_err hS hax)
  refine ⟨_, hp, hent, ?_⟩
  have h1 := residual_le (a := a) hent
  have h2 : ∑ i, a i * (x i - relu (∑ k, a k * x k - b) / (∑ k, a k * a k) * a i) ≤ b := hp.1
  rw [bound_sum _ _ ha rfl, abs_of_nonneg (show 0 ≤ relu (ax - b) from le_max_right _ _)] at h1
  linarith [(abs_le.1 h1).2]

/-- C139.  Exact properties: a point whose computed inner product satisfies the constraint is returned unchanged, coordinates with a zero coefficient never
change, and the half-space projection never moves a coordinate in the wrong direction. -/
theorem C139_exact (hS : StdRound rnd u) (haa : IsDotR rnd a a aa) (hx : ∀ i, rnd (x i) = x i) (b : K) (y : Fin n → K) :
    (projectionHalfspaceR rnd ax aa x a b = some y → (ax ≤ b → y = x) ∧ (∀ i, a i = 0 → y i = x i) ∧ ∀ i, (y i - x i) * a i ≤ 0) ∧
    (projectionHyperplaneR rnd ax aa x a b = some y → (ax = b → y = x) ∧ (∀ i, a i = 0 → y i = x i) ∧
      ∀ i, 0 ≤ (y i - x i) * a i * (b - ax)) := by
  obtain ⟨mq, hq, eq⟩ := dot_self_fac hS haa
  have hq0 : 0 ≤ aa := by
    rw [eq]; exact mul_nonneg (hq.pos hS).le (Finset.sum_nonneg fun i _ => mul_self_nonneg _)
  have hzero : ∀ s i, a i = 0 → addScalarMulR rnd x s a i = x i := fun s i h => by
    rw [addScalarMulR, h, mul_zero, hS.zero, add_zero, hx]
  have hpos : ∀ s i, 0 ≤ s → (addScalarMulR rnd x s a i - x i) * a i ≤ 0 := fun s i hs => by
    rcases le_total 0 (a i) with h | h
    · have h1 : rnd (-s * a i) ≤ 0 := rnd_nonpos hS (by nlinarith)
      have h2 := hS.mono (x i + rnd (-s * a i)) (x i) (by linarith)
      rw [hx] at h2
      exact mul_nonpos_of_nonpos_of_nonneg (by rw [addScalarMulR]; linarith) h
    · have h1 : 0 ≤ rnd (-s * a i) := rnd_nonneg hS (by nlinarith)
      have h2 := hS.mono (x i) (x i + rnd (-s * a i)) (by linarith)
      rw [hx] at h2
      exact mul_nonpos_of_nonneg_of_nonpos (by rw [addScalarMulR]; linarith) h
  have hneg : ∀ s i, s ≤ 0 → 0 ≤ (addScalarMulR rnd x s a i - x i) * a i := fun s i hs => by
    rcases le_total 0 (a i) with h | h
    · have h1 : 0 ≤ rnd (-s * a i) := rnd_nonneg hS (by nlinarith)
      have h2 := hS.mono (x i) (x i + rnd (-s * a i)) (by linarith)
      rw [hx] at h2
      exact mul_nonneg (by rw [addScalarMulR]; linarith) h
    · have h1 : rnd (-s * a i) ≤ 0 := rnd_nonpos hS (by nlinarith)
      have h2 := hS.mono (x i + rnd (-s * a i)) (x i) (by linarith)
      rw [hx] at h2
      exact mul_nonneg_of_nonpos_of_nonpos (by rw [addScalarMulR]; linarith) h
  have hz : ∀ i, addScalarMulR rnd x 0 a i = x i := fun i => by
    rw [addScalarMulR, neg_zero, zero_mul, hS.zero, add_zero, hx]
  constructor
  · intro hy
    have h0 : aa ≠ 0 := fun h => by rw [projectionHalfspaceR, if_pos h] at hy; simp at hy
    rw [projectionHalfspaceR, if_neg h0, Option.some.injEq] at hy
    subst hy
    refine ⟨fun h => funext fun i => ?_, fun i => hzero _ i, fun i => hpos _ i (rnd_nonneg hS (div_nonneg (le_max_right _ _) hq0))⟩
    rw [(relu_rnd_eq_zero hS _).2 (show ax - b ≤ 0 by linarith), zero_div, hS.zero]
    exact hz i
  · intro hy
    have h0 : aa ≠ 0 := fun h => by rw [projectionHyperplaneR, if_pos h] at hy; simp at hy
    rw [projectionHyperplaneR, if_neg h0, Option.some.injEq] at hy
    subst hy
    refine ⟨fun h => funext fun i => ?_, fun i => hzero _ i, fun i => ?_⟩
    · rw [h, sub_self, hS.zero, zero_div, hS.zero]
      exact hz i
    · rcases le_total ax b with h | h
      · exact mul_nonneg (hneg _ i (rnd_nonpos hS (div_nonpos_of_nonpos_of_nonneg (rnd_nonpos hS (by linarith)) hq0))) (by linarith)
      · exact mul_nonneg_of_nonpos_of_nonpos (hpos _ i (rnd_nonneg hS (div_nonneg (rnd_nonneg hS (by linarith)) hq0))) (by linarith)

/-- C139, the limit of the claim.  In double precision the projection of `3` on `3 y ≤ 1` violates the constraint, also with the computed inner product, and
projecting it again changes it. -/
theorem C139_feasible_false :
    ∃ y : Fin 1 → ℚ, ∃ z : Fin 1 → ℚ, IsDotR (roundBin 52) ![(3 : ℚ)] ![3] 9 ∧ projectionHalfspaceR (roundBin 52) 9 9 ![(3 : ℚ)] ![3] 1 = some y ∧
      1 < ∑ i, ![(3 : ℚ)] i * y i ∧ IsDotR (roundBin 52) ![3] y (roundBin 52 (3 * y 0)) ∧ 1 < roundBin 52 (3 * y 0) ∧
      projectionHalfspaceR (roundBin 52) (roundBin 52 (3 * y 0)) 9 y ![3] 1 = some z ∧ z 0 ≠ y 0 := by
  refine ⟨addScalarMulR (roundBin 52) ![(3 : ℚ)] (roundBin 52 (relu (roundBin 52 (9 - 1)) / 9)) ![3], _, ?_, rfl, by decide +kernel, ?_, by decide +kernel, rfl,
    by decide +kernel⟩
  · have e : List.ofFn (fun i => roundBin 52 (![(3 : ℚ)] i * ![(3 : ℚ)] i)) = [9] := by decide +kernel
    unfold IsDotR
    rw [e]
    exact Sums.one 9
  · unfold IsDotR
    rw [List.ofFn_succ, List.ofFn_zero]
    exact Sums.one _

/-! ## Examples -/

/-- The hypotheses hold in double precision. -/
example : StdRound (roundBin 52) ((1 : ℚ) / 2 ^ 53) := (binary_bin 52).toStdRound

example : projectionHalfspaceR (roundBin 52) 7 5 ![(3 : ℚ), 2, 9] ![1, 2, 0] 2 = some ![2, 0, 9] ∧
    projectionHalfspaceR (roundBin 52) 7 5 ![(3 : ℚ), 2, 9] ![1, 2, 0] 8 = some ![3, 2, 9] := by
  constructor <;> decide +kernel

/-- The violation of the witness above is bounded. -/
example (y : Fin 1 → ℚ) (hd : IsDotR (roundBin 52) ![(3 : ℚ)] ![3] 9) (hy : projectionHalfspaceR (roundBin 52) 9 9 ![(3 : ℚ)] ![3] 1 = some y) :
    ∑ i, ![(3 : ℚ)] i * y i ≤ 1 + 1 / 2 ^ 46 := by
  obtain ⟨p, -, -, h⟩ := C139_halfspace (binary_bin 52).toStdRound hd hd 1 y hy
  refine h.trans ?_
  simp only [stepGrowth, relu, Fin.sum_univ_one, Matrix.cons_val_zero]
  norm_num

end Jaxopt.Proj
