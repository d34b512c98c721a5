import Verif.Isotonic.FloatLemmas
import Verif.Isotonic.Lemmas

/-!
# Accuracy of pool-adjacent-violators with rounding errors
-/

set_option autoImplicit false
set_option linter.unusedSectionVars false
set_option linter.unusedVariables false

namespace Jaxopt.Isotonic

open Finset

variable {K : Type*} [Field K] [LinearOrder K] [IsStrictOrderedRing K]

/-- Exact average over `[s, k)`. -/
def blockAvg (y : ℕ → K) (s k : ℕ) : K := (∑ j ∈ Ico s k, y j) / ((k - s : ℕ) : K)

/-- Initial segments of `[s, k)` have averages at most the average plus `sig`. -/
def Pre (y : ℕ → K) (s k : ℕ) (a sig : K) : Prop := ∀ m, s ≤ m → m ≤ k → ∑ j ∈ Ico s m, y j ≤ ((m - s : ℕ) : K) * (a + sig)

/-- Final segments of `[s, k)` have averages at least the average minus `sig`. -/
def Suf (y : ℕ → K) (s k : ℕ) (a sig : K) : Prop := ∀ m, s ≤ m → m ≤ k → ((k - m : ℕ) : K) * (a - sig) ≤ ∑ j ∈ Ico m k, y j

theorem len_pos {s k : ℕ} (h : s < k) : (0 : K) < ((k - s : ℕ) : K) := by exact_mod_cast Nat.sub_pos_of_lt h

theorem sum_eq_avg (y : ℕ → K) {s k : ℕ} (h : s < k) : ∑ j ∈ Ico s k, y j = ((k - s : ℕ) : K) * blockAvg y s k := by
  unfold blockAvg
  have := len_pos (K := K) h
  field_simp

theorem Pre.mono {y : ℕ → K} {s k : ℕ} {a a' sig sig' : K} (h : Pre y s k a sig) (hs : a + sig ≤ a' + sig') : Pre y s k a' sig' :=
  fun m h1 h2 => (h m h1 h2).trans (mul_le_mul_of_nonneg_left hs (Nat.cast_nonneg _))

theorem Suf.mono {y : ℕ → K} {s k : ℕ} {a a' sig sig' : K} (h : Suf y s k a sig) (hs : a' - sig' ≤ a - sig) : Suf y s k a' sig' :=
  fun m h1 h2 => le_trans (mul_le_mul_of_nonneg_left hs (Nat.cast_nonneg _)) (h m h1 h2)

section merge
variable {y : ℕ → K} {s k k' : ℕ} {d sig : K}

theorem avg_merge (h1 : s < k) (h2 : k < k') :
    (((k - s : ℕ) : K) + ((k' - k : ℕ) : K)) * blockAvg y s k' = ((k - s : ℕ) : K) * blockAvg y s k + ((k' - k : ℕ) : K) * blockAvg y k k' := by
  rw [← sum_eq_avg y h1, ← sum_eq_avg y h2, sum_Ico_consecutive _ h1.le h2.le, sum_eq_avg y (h1.trans h2)]
  congr 1
  rw [← Nat.cast_add]; congr 1; omega

theorem Pre.merge (h1 : s < k) (h2 : k < k') (hd : 0 ≤ d) (hsig : 0 ≤ sig) (ha : blockAvg y s k ≤ blockAvg y k k' + d)
    (p1 : Pre y s k (blockAvg y s k) sig) (p2 : Pre y k k' (blockAvg y k k') sig) : Pre y s k' (blockAvg y s k') (sig + d) := by
  have e := avg_merge (y := y) h1 h2
  have l1 := len_pos (K := K) h1
  have l2 := len_pos (K := K) h2
  have eS := sum_eq_avg y h1
  set L1 : K := ((k - s : ℕ) : K)
  set L2 : K := ((k' - k : ℕ) : K)
  set a1 := blockAvg y s k
  set a2 := blockAvg y k k'
  set a := blockAvg y s k'
  have hA : a1 ≤ a + d := by
    by_contra hc
    rw [not_le] at hc
    nlinarith [mul_lt_mul_of_pos_left hc (add_pos l1 l2), mul_le_mul_of_nonneg_left ha l2.le, mul_nonneg l1.le hd]
  intro m hm1 hm2
  rcases le_total m k with hm | hm
  · refine (p1 m hm1 hm).trans (mul_le_mul_of_nonneg_left (by linarith) (Nat.cast_nonneg _))
  · have e1 : ∑ j ∈ Ico s m, y j = L1 * a1 + ∑ j ∈ Ico k m, y j := by rw [← eS, sum_Ico_consecutive _ h1.le hm]
    have e2 := p2 m hm hm2
    have e3 : ((m - s : ℕ) : K) = L1 + ((m - k : ℕ) : K) := by rw [← Nat.cast_add]; congr 1; omega
    have e4 : ((m - k : ℕ) : K) ≤ L2 := Nat.cast_le.mpr (by omega)
    have e5 : (0 : K) ≤ ((m - k : ℕ) : K) := Nat.cast_nonneg _
    rw [e1, e3]
    set J : K := ((m - k : ℕ) : K)
    rcases le_total a1 a2 with hc | hc
    · have haa : a ≤ a2 := by
        by_contra hcc
        rw [not_le] at hcc
        nlinarith [mul_lt_mul_of_pos_left hcc (add_pos l1 l2), mul_le_mul_of_nonneg_left hc l1.le]
      nlinarith [mul_nonneg (sub_nonneg.mpr e4) (sub_nonneg.mpr haa), mul_nonneg l1.le hsig, mul_nonneg l1.le hd, mul_nonneg e5 hd]
    · nlinarith [mul_le_mul_of_nonneg_left hc e5, mul_le_mul_of_nonneg_left hA l1.le, mul_le_mul_of_nonneg_left hA e5,
        mul_nonneg l1.le hsig]

theorem Suf.merge (h1 : s < k) (h2 : k < k') (hd : 0 ≤ d) (hsig : 0 ≤ sig) (ha : blockAvg y s k ≤ blockAvg y k k' + d)
    (p1 : Suf y s k (blockAvg y s k) sig) (p2 : Suf y k k' (blockAvg y k k') sig) : Suf y s k' (blockAvg y s k') (sig + d) := by
  have e := avg_merge (y := y) h1 h2
  have l1 := len_pos (K := K) h1
  have l2 := len_pos (K := K) h2
  have eS := sum_eq_avg y h2
  set L1 : K := ((k - s : ℕ) : K)
  set L2 : K := ((k' - k : ℕ) : K)
  set a1 := blockAvg y s k
  set a2 := blockAvg y k k'
  set a := blockAvg y s k'
  have hA : a ≤ a2 + d := by
    by_contra hc
    rw [not_le] at hc
    nlinarith [mul_lt_mul_of_pos_left hc (add_pos l1 l2), mul_le_mul_of_nonneg_left ha l1.le, mul_nonneg l2.le hd]
  intro m hm1 hm2
  rcases le_total k m with hm | hm
  · refine le_trans (mul_le_mul_of_nonneg_left (by linarith) (Nat.cast_nonneg _)) (p2 m hm hm2)
  · have e1 : ∑ j ∈ Ico m k', y j = ∑ j ∈ Ico m k, y j + L2 * a2 := by rw [← eS, sum_Ico_consecutive _ hm h2.le]
    have e2 := p1 m hm1 hm
    have e3 : ((k' - m : ℕ) : K) = ((k - m : ℕ) : K) + L2 := by rw [← Nat.cast_add]; congr 1; omega
    have e4 : ((k - m : ℕ) : K) ≤ L1 := Nat.cast_le.mpr (by omega)
    have e5 : (0 : K) ≤ ((k - m : ℕ) : K) := Nat.cast_nonneg _
    rw [e1, e3]
    set J : K := ((k - m : ℕ) : K)
    rcases le_total a1 a2 with hc | hc
    · have haa : a1 ≤ a := by
        by_contra hcc
        rw [not_le] at hcc
        nlinarith [mul_lt_mul_of_pos_left hcc (add_pos l1 l2), mul_le_mul_of_nonneg_left hc l2.le]
      nlinarith [mul_nonneg (sub_nonneg.mpr e4) (sub_nonneg.mpr haa), mul_nonneg l2.le hsig, mul_nonneg l2.le hd, mul_nonneg e5 hd]
    · nlinarith [mul_le_mul_of_nonneg_left hc e5, mul_le_mul_of_nonneg_left hA l2.le, mul_le_mul_of_nonneg_left hA e5,
        mul_nonneg l2.le hsig]

end merge

/-! ### The predicate kept by the loops -/

section rules
variable {y : ℕ → K} {n : ℕ} {u M : K} {rnd cast : K → K} {yMin yMax : Option K}

/-- Error of a computed average. -/
def avgErr (u M : K) (n : ℕ) : K := M * ((1 + u) ^ (n + 1) - 1)

/-- Stored sum of a block. -/
def SumOk (y : ℕ → K) (u M : K) (s k : ℕ) (S C : K) : Prop :=
  C = ((k - s : ℕ) : K) ∧ |S - ∑ j ∈ Ico s k, y j| ≤ ((k - s : ℕ) : K) * M * ((1 + u) ^ (k - s) - 1)

/-- Slack of the segment conditions of a block of length `k - s`. -/
def slack (e : K) (s k : ℕ) : K := 2 * e * (((k - s : ℕ) : K) - 1)

def BlockOk (y : ℕ → K) (u M : K) (n s k : ℕ) (S C A : K) : Prop :=
  SumOk y u M s k S C ∧ |A - blockAvg y s k| ≤ avgErr u M n ∧ Pre y s k (blockAvg y s k) (slack (avgErr u M n) s k) ∧
    Suf y s k (blockAvg y s k) (slack (avgErr u M n) s k)

def GroupOk (y : ℕ → K) (u M : K) (n s k : ℕ) (S C A : K) : Prop :=
  SumOk y u M s k S C ∧ blockAvg y s k ≤ A + avgErr u M n ∧ Pre y s k (blockAvg y s k) (slack (avgErr u M n) s k) ∧
    Suf y s k (blockAvg y s k) (slack (avgErr u M n) s k)

theorem sum_bound (hy : ∀ j, j < n → |y j| ≤ M) {s k : ℕ} (hk : k ≤ n) : |∑ j ∈ Ico s k, y j| ≤ ((k - s : ℕ) : K) * M := by
  refine (abs_sum_le_sum_abs _ _).trans ?_
  refine (sum_le_card_nsmul _ _ M fun j hj => hy j (by have := (mem_Ico.mp hj).2; omega)).trans (le_of_eq ?_)
  rw [Nat.card_Ico, nsmul_eq_mul]

theorem avg_bound (hy : ∀ j, j < n → |y j| ≤ M) {s k : ℕ} (h : s < k) (hk : k ≤ n) : |blockAvg y s k| ≤ M := by
  have hl := len_pos (K := K) h
  unfold blockAvg
  rw [abs_div, abs_of_pos hl, div_le_iff₀ hl, mul_comm]
  exact sum_bound hy hk

theorem one_le_pow_u (hu : 0 ≤ u) (m : ℕ) : (1 : K) ≤ (1 + u) ^ m := one_le_pow₀ (by linarith)

theorem avgErr_nonneg (hu : 0 ≤ u) (hM : 0 ≤ M) (n : ℕ) : 0 ≤ avgErr u M n :=
  mul_nonneg hM (by have := one_le_pow_u hu (n + 1); linarith)

theorem slack_nonneg {e : K} (he : 0 ≤ e) {s k : ℕ} (h : s < k) : 0 ≤ slack e s k := by
  have : (1 : K) ≤ ((k - s : ℕ) : K) := by exact_mod_cast (by omega : 1 ≤ k - s)
  exact mul_nonneg (by linarith) (by linarith)

theorem slack_mono {e : K} (he : 0 ≤ e) {s k s' k' : ℕ} (h : k - s + 1 ≤ k' - s') : slack e s k + 2 * e ≤ slack e s' k' := by
  have : ((k - s : ℕ) : K) + 1 ≤ ((k' - s' : ℕ) : K) := by exact_mod_cast h
  unfold slack
  nlinarith

/-- Addition of two stored sums. -/
theorem SumOk.merge (hu : 0 ≤ u) (hM : 0 ≤ M) (hr : ∀ x, |rnd x - x| ≤ u * |x|) (hcount : ∀ m : ℕ, m ≤ n → rnd m = m)
    (hy : ∀ j, j < n → |y j| ≤ M) {s k k' : ℕ} (h1 : s < k) (h2 : k < k') (h3 : k' ≤ n) {S C S' C' : K} (p : SumOk y u M s k S C)
    (p' : SumOk y u M k k' S' C') : SumOk y u M s k' (rnd (S + S')) (rnd (C + C')) := by
  obtain ⟨c, b⟩ := p
  obtain ⟨c', b'⟩ := p'
  have eL : ((k - s : ℕ) : K) + ((k' - k : ℕ) : K) = ((k' - s : ℕ) : K) := by rw [← Nat.cast_add]; congr 1; omega
  refine ⟨by rw [c, c', eL, hcount _ (by omega)], ?_⟩
  have g1 : (1 + u) ^ (k - s) * (1 + u) ≤ (1 + u) ^ (k' - s) := by
    rw [← pow_succ]; exact pow_le_pow_right₀ (by linarith) (by omega)
  have g2 : (1 + u) ^ (k' - k) * (1 + u) ≤ (1 + u) ^ (k' - s) := by
    rw [← pow_succ]; exact pow_le_pow_right₀ (by linarith) (by omega)
  have s1 := sum_bound hy (s := s) (by omega : k ≤ n)
  have s2 := sum_bound hy (s := k) h3
  have q := hr (S + S')
  rw [← sum_Ico_consecutive _ h1.le h2.le, ← eL]
  have l1 := len_pos (K := K) h1
  have l2 := len_pos (K := K) h2
  set L1 : K := ((k - s : ℕ) : K)
  set L2 : K := ((k' - k : ℕ) : K)
  set T1 := ∑ j ∈ Ico s k, y j
  set T2 := ∑ j ∈ Ico k k', y j
  set G1 := (1 + u) ^ (k - s)
  set G2 := (1 + u) ^ (k' - k)
  set G := (1 + u) ^ (k' - s)
  have t1 : |S| ≤ L1 * M * G1 := by
    have : |S| ≤ |S - T1| + |T1| := by simpa using abs_add_le (S - T1) T1
    linarith
  have t2 : |S'| ≤ L2 * M * G2 := by
    have : |S'| ≤ |S' - T2| + |T2| := by simpa using abs_add_le (S' - T2) T2
    linarith
  have t3 : |S + S'| ≤ L1 * M * G1 + L2 * M * G2 := (abs_add_le _ _).trans (add_le_add t1 t2)
  have t4 : |rnd (S + S') - (T1 + T2)| ≤ |rnd (S + S') - (S + S')| + (|S - T1| + |S' - T2|) := by
    have e : rnd (S + S') - (T1 + T2) = (rnd (S + S') - (S + S')) + ((S - T1) + (S' - T2)) := by ring
    rw [e]
    exact (abs_add_le _ _).trans (by linarith [abs_add_le (S - T1) (S' - T2)])
  have t5 := mul_le_mul_of_nonneg_left t3 hu
  have m1 := mul_le_mul_of_nonneg_left g1 (mul_nonneg l1.le hM)
  have m2 := mul_le_mul_of_nonneg_left g2 (mul_nonneg l2.le hM)
  nlinarith

theorem rules (hu : 0 ≤ u) (hM : 0 ≤ M) (hr : ∀ x, |rnd x - x| ≤ u * |x|) (hcount : ∀ m : ℕ, m ≤ n → rnd m = m)
    (hy : ∀ j, j < n → |y j| ≤ M) :
    Ops.Rules (rounded rnd cast yMin yMax) n y (BlockOk y u M n) (GroupOk y u M n) := by
  have he := avgErr_nonneg hu hM n
  refine ⟨?_, ?_, ?_, ?_⟩
  · intro s hs
    have hone : ((s + 1 - s : ℕ) : K) = 1 := by simp
    have havg : blockAvg y s (s + 1) = y s := by simp [blockAvg]
    have hsl : slack (avgErr u M n) s (s + 1) = 0 := by unfold slack; rw [hone]; ring
    refine ⟨⟨hone.symm, ?_⟩, ?_, ?_, ?_⟩
    · simp
      exact mul_nonneg hM hu
    · rw [havg, sub_self, abs_zero]; exact he
    · intro m h1 h2
      rw [havg, hsl]
      rcases (by omega : m = s ∨ m = s + 1) with e | e <;> subst e <;> simp
    · intro m h1 h2
      rw [havg, hsl]
      rcases (by omega : m = s ∨ m = s + 1) with e | e <;> subst e <;> simp
  · rintro s k S C A h1 h2 ⟨p1, p2, p3, p4⟩
    exact ⟨p1, by linarith [(abs_le.mp p2).1], p3, p4⟩
  · rintro s k k' S C A S' C' A' h1 h2 h3 ⟨g1, g2, g3, g4⟩ ⟨p1, p2, p3, p4⟩ hgt
    have hAA : A ≤ A' := by simpa [rounded] using hgt
    obtain ⟨q1, q2⟩ := abs_le.mp p2
    have hab : blockAvg y s k ≤ blockAvg y k k' + 2 * avgErr u M n := by linarith
    set e := avgErr u M n
    set σ := max (slack e s k) (slack e k k') with hσ
    have hσ0 : 0 ≤ σ := le_max_of_le_left (slack_nonneg he h1)
    have hσle : σ + 2 * e ≤ slack e s k' := by
      rw [hσ]
      rcases max_choice (slack e s k) (slack e k k') with c | c <;> rw [c]
      · exact slack_mono he (by omega)
      · exact slack_mono he (by omega)
    refine ⟨SumOk.merge hu hM hr hcount hy h1 h2 h3 g1 p1, ?_, ?_, ?_⟩
    · have em := avg_merge (y := y) h1 h2
      have l1 := len_pos (K := K) h1
      have l2 := len_pos (K := K) h2
      by_contra hc
      rw [not_le] at hc
      have b1 : blockAvg y s k ≤ A' + e := by linarith
      have b2 : blockAvg y k k' ≤ A' + e := by linarith
      nlinarith [mul_lt_mul_of_pos_left hc (add_pos l1 l2), mul_le_mul_of_nonneg_left b1 l1.le, mul_le_mul_of_nonneg_left b2 l2.le]
    · exact (Pre.merge h1 h2 (by linarith) hσ0 hab (g3.mono (by linarith [le_max_left (slack e s k) (slack e k k')]))
        (p3.mono (by linarith [le_max_right (slack e s k) (slack e k k')]))).mono (by linarith)
    · exact (Suf.merge h1 h2 (by linarith) hσ0 hab (g4.mono (by linarith [le_max_left (slack e s k) (slack e k k')]))
        (p4.mono (by linarith [le_max_right (slack e s k) (slack e k k')]))).mono (by linarith)
  · rintro s k S C A h1 h2 ⟨g1, g2, g3, g4⟩
    refine ⟨g1, ?_, g3, g4⟩
    obtain ⟨c, b⟩ := g1
    have l := len_pos (K := K) h1
    have sb := sum_bound hy (s := s) h2
    show |rnd (S / C) - blockAvg y s k| ≤ avgErr u M n
    rw [c]
    unfold blockAvg avgErr
    have q := hr (S / ((k - s : ℕ) : K))
    have gL : (1 + u) ^ (k - s) * (1 + u) ≤ (1 + u) ^ (n + 1) := by
      rw [← pow_succ]; exact pow_le_pow_right₀ (by linarith) (by omega)
    set L : K := ((k - s : ℕ) : K)
    set T := ∑ j ∈ Ico s k, y j
    set G := (1 + u) ^ (k - s)
    have t1 : |S| ≤ L * M * G := by
      have : |S| ≤ |S - T| + |T| := by simpa using abs_add_le (S - T) T
      linarith
    have t2 : |S / L| ≤ M * G := by
      rw [abs_div, abs_of_pos l, div_le_iff₀ l]; linarith
    have t3 : |S / L - T / L| ≤ M * (G - 1) := by
      rw [← sub_div, abs_div, abs_of_pos l, div_le_iff₀ l]; linarith
    have t4 : |rnd (S / L) - T / L| ≤ |rnd (S / L) - S / L| + |S / L - T / L| := by
      simpa using abs_add_le (rnd (S / L) - S / L) (S / L - T / L)
    have t5 := mul_le_mul_of_nonneg_left t2 hu
    have m1 := mul_le_mul_of_nonneg_left gL hM
    nlinarith

end rules

/-! ### From approximate blocks to the distance to the solution -/

section compare
variable {y v w : ℕ → K} {n : ℕ} {eps : K} {S : Finset ℕ} {e : ℕ → ℕ}

/-- Decreasing block values with approximate segment conditions. -/
structure Approx (y v : ℕ → K) (n : ℕ) (eps : K) (S : Finset ℕ) (e : ℕ → ℕ) : Prop where
  cover : ∀ j, j < n → ∃ s ∈ S, s < n ∧ s ≤ j ∧ j < e s
  lt : ∀ s ∈ S, s < n → s < e s ∧ e s ≤ n ∧ e s ∈ S
  gap : ∀ s ∈ S, s < n → ∀ j, s < j → j < e s → j ∉ S
  const : ∀ s ∈ S, s < n → ∀ j, s ≤ j → j < e s → v j = v s
  dec : ∀ s ∈ S, s < n → e s < n → v (e s) ≤ v s
  pre : ∀ s ∈ S, s < n → Pre y s (e s) (v s) eps
  suf : ∀ s ∈ S, s < n → Suf y s (e s) (v s) eps

theorem Approx.upper (h : Approx y v n eps S e) {q : ℕ} (hq : q ≤ n) : ∀ (d s : ℕ), n ≤ s + d → s ∈ S → s < n → s ≤ q →
    ∑ j ∈ Ico s q, y j ≤ ((q - s : ℕ) : K) * (v s + eps)
  | 0, s, hd, hs, hsn, hsq => by omega
  | d + 1, s, hd, hs, hsn, hsq => by
    obtain ⟨l1, l2, l3⟩ := h.lt s hs hsn
    rcases le_total q (e s) with hc | hc
    · exact h.pre s hs hsn q hsq hc
    · have p1 := h.pre s hs hsn (e s) l1.le le_rfl
      rcases Nat.eq_or_lt_of_le hc with hc' | hc'
      · rw [← hc']; exact p1
      · have p2 := Approx.upper h hq d (e s) (by omega) l3 (by omega) hc
        have p3 := h.dec s hs hsn (by omega)
        have p4 : ((q - s : ℕ) : K) = ((e s - s : ℕ) : K) + ((q - e s : ℕ) : K) := by rw [← Nat.cast_add]; congr 1; omega
        rw [← sum_Ico_consecutive _ l1.le hc, p4]
        have p5 : (0 : K) ≤ ((q - e s : ℕ) : K) := Nat.cast_nonneg _
        nlinarith [mul_le_mul_of_nonneg_left p3 p5]

theorem Approx.prev (h : Approx y v n eps S e) {s : ℕ} (hs : s ∈ S) (hsn : s < n) (h0 : 0 < s) : ∃ s' ∈ S, s' < s ∧ e s' = s := by
  obtain ⟨s', m1, m2, m3, m4⟩ := h.cover (s - 1) (by omega)
  refine ⟨s', m1, by omega, ?_⟩
  by_contra hne
  exact h.gap s' m1 m2 s (by omega) (by omega) hs

theorem Approx.lower (h : Approx y v n eps S e) {p : ℕ} (s : ℕ) : s ∈ S → s < n → p ≤ e s →
    ((e s - p : ℕ) : K) * (v s - eps) ≤ ∑ j ∈ Ico p (e s), y j := by
  induction s using Nat.strong_induction_on with
  | _ s ih =>
    intro hs hsn hp
    obtain ⟨l1, l2, l3⟩ := h.lt s hs hsn
    rcases le_total s p with hc | hc
    · exact h.suf s hs hsn p hc hp
    · rcases Nat.eq_zero_or_pos s with h0 | h0
      · exact h.suf s hs hsn p (by omega) hp
      · obtain ⟨s', m1, m2, m3⟩ := h.prev hs hsn h0
        have p2 := ih s' m2 m1 (by omega) (by omega)
        have p1 := h.suf s hs hsn s le_rfl l1.le
        have p3 := h.dec s' m1 (by omega) (by omega)
        rw [m3] at p2 p3
        have p4 : ((e s - p : ℕ) : K) = ((s - p : ℕ) : K) + ((e s - s : ℕ) : K) := by rw [← Nat.cast_add]; congr 1; omega
        rw [← sum_Ico_consecutive _ hc l1.le, p4]
        have p5 : (0 : K) ≤ ((s - p : ℕ) : K) := Nat.cast_nonneg _
        nlinarith [mul_le_mul_of_nonneg_left p3 p5]

theorem Cert.anti_le (c : Cert y w n) {a b : ℕ} (hab : a ≤ b) (hb : b < n) : w b ≤ w a := by
  induction b, hab using Nat.le_induction with
  | base => exact le_rfl
  | succ b hab ih => exact (c.anti b hb).trans (ih (by omega))

theorem Approx.close (h : Approx y v n eps S e) (c : Cert y w n) {j : ℕ} (hj : j < n) : |v j - w j| ≤ eps := by
  obtain ⟨s, hs, hsn, h1, h2⟩ := h.cover j hj
  obtain ⟨l1, l2, l3⟩ := h.lt s hs hsn
  rw [h.const s hs hsn j h1 h2, abs_sub_le_iff]
  constructor
  · -- `w j` is not too small
    by_contra hcon
    rw [not_le] at hcon
    set t := v s - eps with ht
    have hwt : w j < t := by linarith
    let B := (range n).filter fun i => w i < t
    have hB : B.Nonempty := ⟨j, by simp [B, hj, hwt]⟩
    obtain ⟨p, hp⟩ : ∃ p, p = B.min' hB := ⟨_, rfl⟩
    have hpm := B.min'_mem hB
    rw [← hp] at hpm
    obtain ⟨hpn, hpt⟩ := mem_filter.mp hpm
    rw [mem_range] at hpn
    have hpj : p ≤ j := by rw [hp]; exact B.min'_le j (by simp [B, hj, hwt])
    have hzero : ∑ i ∈ range p, (y i - w i) = 0 := by
      rcases Nat.eq_zero_or_pos p with h0 | h0
      · rw [h0]; simp
      · have hne : ¬ w (p - 1) < t := by
          intro hh
          have := B.min'_le (p - 1) (by simp only [B, mem_filter, mem_range]; exact ⟨by omega, hh⟩)
          rw [← hp] at this
          omega
        have := c.comp (p - 1) (by omega) (by
          rw [Nat.sub_add_cancel h0]; intro hh; rw [hh] at hpt; exact hne hpt)
        rwa [Nat.sub_add_cancel h0] at this
    have hpre := c.pre (e s) l2
    rw [← sum_range_add_sum_Ico _ (by omega : p ≤ e s), hzero, zero_add, sum_sub_distrib] at hpre
    have hlow := h.lower (p := p) s hs hsn (by omega)
    have hsum : ∑ i ∈ Ico p (e s), w i < ((e s - p : ℕ) : K) * t := by
      have := sum_lt_sum_of_nonempty (s := Ico p (e s)) (f := w) (g := fun _ => t) (nonempty_Ico.mpr (by omega))
        (fun i hi => lt_of_le_of_lt (c.anti_le (mem_Ico.mp hi).1 (by have := (mem_Ico.mp hi).2; omega)) hpt)
      simpa using this
    linarith
  · by_contra hcon
    rw [not_le] at hcon
    set t := v s + eps with ht
    have hwt : t < w j := by linarith
    let B := (range n).filter fun i => t < w i
    have hB : B.Nonempty := ⟨j, by simp [B, hj, hwt]⟩
    obtain ⟨q, hq⟩ : ∃ q, q = B.max' hB := ⟨_, rfl⟩
    have hqm := B.max'_mem hB
    rw [← hq] at hqm
    obtain ⟨hqn, hqt⟩ := mem_filter.mp hqm
    rw [mem_range] at hqn
    have hjq : j ≤ q := by rw [hq]; exact B.le_max' j (by simp [B, hj, hwt])
    have hzero : ∑ i ∈ range (q + 1), (y i - w i) = 0 := by
      rcases Nat.eq_or_lt_of_le (Nat.succ_le_of_lt hqn) with h0 | h0
      · have : q + 1 = n := h0
        rw [this]; exact c.total
      · refine c.comp q h0 fun hh => ?_
        have := B.le_max' (q + 1) (by simp only [B, mem_filter, mem_range]; exact ⟨h0, by rw [hh]; exact hqt⟩)
        rw [← hq] at this
        omega
    have hpre := c.pre s (by omega)
    rw [← sum_range_add_sum_Ico _ (by omega : s ≤ q + 1)] at hzero
    have hsplit := sum_sub_distrib (s := Ico s (q + 1)) y w
    have hup := h.upper (q := q + 1) (by omega) n s (by omega) hs hsn (by omega)
    have hsum : ((q + 1 - s : ℕ) : K) * t < ∑ i ∈ Ico s (q + 1), w i := by
      have := sum_lt_sum_of_nonempty (s := Ico s (q + 1)) (f := fun _ => t) (g := w) (nonempty_Ico.mpr (by omega))
        (fun i hi => lt_of_lt_of_le hqt (c.anti_le (by have := (mem_Ico.mp hi).2; omega) hqn))
      simpa using this
    linarith

end compare

end Jaxopt.Isotonic
