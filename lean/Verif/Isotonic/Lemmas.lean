import Verif.Isotonic.Model
import Mathlib.Algebra.BigOperators.Intervals
import Mathlib.Algebra.Order.BigOperators.Group.Finset
import Mathlib.Tactic.Linarith
import Mathlib.Tactic.FieldSimp
import Mathlib.Tactic.Ring
import Mathlib.Tactic.Positivity
import Mathlib.Order.Interval.Finset.Nat

/-!
# Loop invariant of the pool-adjacent-violators algorithm
-/

set_option autoImplicit false
set_option linter.unusedSectionVars false
set_option linter.unusedVariables false

namespace Jaxopt.Isotonic

open Finset

variable {K : Type*} [Field K] [LinearOrder K] [IsStrictOrderedRing K]

/-- One block `[s .. target s]` is described correctly by the arrays and its average dominates the averages of its
prefixes. -/
structure Block (y : ℕ → K) (n : ℕ) (S : Finset ℕ) (st : St K) (s : ℕ) : Prop where
  le : s ≤ st.target s
  lt : st.target s < n
  next : st.target s + 1 ∈ S
  gap : ∀ j, s < j → j ≤ st.target s → j ∉ S
  back : st.target (st.target s) = s
  count : st.c s = ((st.target s + 1 - s : ℕ) : K)
  sum : st.sums s = ∑ j ∈ Ico s (st.target s + 1), y j
  avg : st.sol s = st.sums s / st.c s
  pre : ∀ m, s ≤ m → m ≤ st.target s + 1 → ∑ j ∈ Ico s m, y j ≤ ((m - s : ℕ) : K) * st.sol s

/-- Invariant: `S` is the set of block starts together with `n`. -/
structure Inv (y : ℕ → K) (n : ℕ) (S : Finset ℕ) (st : St K) : Prop where
  zero : 0 ∈ S
  last : n ∈ S
  sub : ∀ s ∈ S, s ≤ n
  block : ∀ s ∈ S, s < n → Block y n S st s
  mem : st.i ∈ S
  ilt : st.i < n
  dec : ∀ s ∈ S, s < n → st.target s + 1 ≤ st.i → st.sol (st.target s + 1) < st.sol s

variable {y : ℕ → K} {n : ℕ} {S : Finset ℕ} {st : St K}

theorem Inv.start_of (h : Inv y n S st) (j : ℕ) (hj : j < n) : ∃ s ∈ S, s ≤ j ∧ j ≤ st.target s ∧ s < n := by
  have hne : (S.filter (· ≤ j)).Nonempty := ⟨0, by simp [h.zero]⟩
  refine ⟨(S.filter (· ≤ j)).max' hne, ?_⟩
  set s := (S.filter (· ≤ j)).max' hne with hs
  have hmem := (S.filter (· ≤ j)).max'_mem hne
  rw [← hs, mem_filter] at hmem
  have hsn : s < n := lt_of_le_of_lt hmem.2 hj
  refine ⟨hmem.1, hmem.2, ?_, hsn⟩
  have hb := h.block s hmem.1 hsn
  by_contra hcon
  have : st.target s + 1 ≤ s := by
    rw [hs]
    have := (S.filter (· ≤ j)).le_max' (st.target s + 1) (by rw [mem_filter]; exact ⟨hb.next, by omega⟩)
    rw [← hs] at this ⊢
    exact this
  have := hb.le
  omega

theorem Inv.prev (h : Inv y n S st) {t : ℕ} (ht : t ∈ S) (h0 : 0 < t) :
    ∃ s ∈ S, s < t ∧ st.target s + 1 = t ∧ s < n ∧ st.target (t - 1) = s := by
  have htn := h.sub t ht
  obtain ⟨s, hs, h1, h2, h3⟩ := h.start_of (t - 1) (by omega)
  have hb := h.block s hs h3
  have e : st.target s + 1 = t := by
    by_contra hne
    exact hb.gap t (by omega) (by omega) ht
  refine ⟨s, hs, by omega, e, h3, ?_⟩
  have : t - 1 = st.target s := by omega
  rw [this, hb.back]

theorem Block.cpos {s : ℕ} (h : Block y n S st s) : 0 < st.c s := by
  rw [h.count]; have := h.le; exact_mod_cast (by omega : 0 < st.target s + 1 - s)

/-- Certificate for a (possibly merged) group of blocks `[i, k)`. -/
structure Group (y : ℕ → K) (i k : ℕ) (sumY sumC : K) : Prop where
  lt : i < k
  sum : sumY = ∑ j ∈ Ico i k, y j
  count : sumC = ((k - i : ℕ) : K)
  pre : ∀ m, i ≤ m → m ≤ k → ∑ j ∈ Ico i m, y j ≤ ((m - i : ℕ) : K) * (sumY / sumC)

theorem Block.group {s : ℕ} (h : Block y n S st s) : Group y s (st.target s + 1) (st.sums s) (st.c s) :=
  ⟨by have := h.le; omega, h.sum, h.count, fun m h1 h2 => by rw [← h.avg]; exact h.pre m h1 h2⟩

theorem Group.merge {i k : ℕ} {sumY sumC : K} (g : Group y i k sumY sumC) (b : Block y n S st k)
    (hle : sumY / sumC ≤ st.sol k) :
    Group y i (st.target k + 1) (sumY + st.sums k) (sumC + st.c k) ∧
      (sumY + st.sums k) / (sumC + st.c k) ≤ st.sol k := by
  have hc := b.cpos
  have hC : 0 < sumC := by rw [g.count]; have := g.lt; exact_mod_cast (by omega : 0 < k - i)
  have hik := g.lt
  have hkt := b.le
  have hS : st.sums k = st.c k * st.sol k := by rw [b.avg]; field_simp
  have hY : sumY = sumC * (sumY / sumC) := by field_simp
  set a := sumY / sumC with ha
  set A := (sumY + st.sums k) / (sumC + st.c k) with hA
  have hAeq : (sumC + st.c k) * A = sumY + st.sums k := by rw [hA]; field_simp
  have hAle : A ≤ st.sol k := by
    rw [hA, div_le_iff₀ (by linarith), hS, hY]
    nlinarith
  have haA : a ≤ A := by
    rw [hA, le_div_iff₀ (by linarith), hS, hY]
    nlinarith
  have hsum : sumY + st.sums k = ∑ j ∈ Ico i (st.target k + 1), y j := by
    rw [g.sum, b.sum, sum_Ico_consecutive _ (le_of_lt hik) (by omega)]
  have hcount : sumC + st.c k = ((st.target k + 1 - i : ℕ) : K) := by
    rw [g.count, b.count, ← Nat.cast_add]; congr 1; omega
  refine ⟨⟨by omega, hsum, hcount, fun m h1 h2 => ?_⟩, hAle⟩
  show _ ≤ _ * A
  rcases le_total m k with hm | hm
  · refine le_trans (g.pre m h1 hm) ?_
    exact mul_le_mul_of_nonneg_left haA (Nat.cast_nonneg _)
  · have e1 : ∑ j ∈ Ico i m, y j = sumY + ∑ j ∈ Ico k m, y j := by
      rw [g.sum, sum_Ico_consecutive _ (le_of_lt hik) hm]
    have e2 := b.pre m hm h2
    have e3 : ((m - i : ℕ) : K) = sumC + ((m - k : ℕ) : K) := by
      rw [g.count, ← Nat.cast_add]; congr 1; omega
    have e4 : ((m - k : ℕ) : K) ≤ st.c k := by
      rw [b.count]; exact_mod_cast (by omega : m - k ≤ st.target k + 1 - k)
    rw [e1, e3]
    have e5 : sumY + st.c k * st.sol k = (sumC + st.c k) * A := by rw [hAeq, hS]
    nlinarith [mul_nonneg (sub_nonneg.mpr e4) (sub_nonneg.mpr hAle)]

/-- The inner loop merges a run of blocks. -/
theorem inner_spec (h : Inv y n S st) : ∀ (fuel k : ℕ) (sumY sumC : K), k ∈ S → k < n → n ≤ fuel + k →
    Group y st.i k sumY sumC → sumY / sumC ≤ st.sol k →
    ∃ k' sumY' sumC', inner st n fuel k sumY sumC = some (k', sumY', sumC') ∧ k' ∈ S ∧ k < k' ∧
      Group y st.i k' sumY' sumC'
  | 0, k, sumY, sumC, _, h1, h2, _, _ => by omega
  | fuel + 1, k, sumY, sumC, hk, h1, h2, g, hle => by
    have b := h.block k hk h1
    have hkt := b.le
    obtain ⟨g', hle'⟩ := g.merge b hle
    unfold inner
    simp only
    split_ifs with hc
    · exact ⟨_, _, _, rfl, b.next, by omega, g'⟩
    · simp only [not_or, not_lt] at hc
      have hlt := b.lt
      obtain ⟨k', sy, sc, e, m, l, gg⟩ := inner_spec h fuel (st.target k + 1) _ _ b.next (by omega) (by omega) g'
        (le_trans hle' hc.2)
      exact ⟨k', sy, sc, e, m, by omega, gg⟩

theorem finish_inv (h : Inv y n S st) {k : ℕ} {sumY sumC : K} (hk : k ∈ S) (hik : st.i < k)
    (g : Group y st.i k sumY sumC) :
    Inv y n (S.filter fun j => j ≤ st.i ∨ k ≤ j) (finish st k sumY sumC) := by
  have hkn := h.sub k hk
  have hmi := h.mem
  -- values of the new arrays
  have ht_i : (finish st k sumY sumC).target st.i = k - 1 := by
    by_cases e : st.i = k - 1
    · simp [finish, set, ← e]
    · simp [finish, set, e]
  have ht_k : (finish st k sumY sumC).target (k - 1) = st.i := by simp [finish, set]
  have ht : ∀ x, x ≠ st.i → x ≠ k - 1 → (finish st k sumY sumC).target x = st.target x := by
    intro x h1 h2; simp [finish, set, h1, h2]
  have hother : ∀ x, x ≠ st.i → (finish st k sumY sumC).c x = st.c x ∧ (finish st k sumY sumC).sums x = st.sums x ∧
      (finish st k sumY sumC).sol x = st.sol x := by
    intro x h1; simp [finish, set, h1]
  have hself : (finish st k sumY sumC).c st.i = sumC ∧ (finish st k sumY sumC).sums st.i = sumY ∧
      (finish st k sumY sumC).sol st.i = sumY / sumC := by simp [finish, set]
  have hidx : (0 < st.i ∧ (finish st k sumY sumC).i = st.target (st.i - 1)) ∨
      (st.i = 0 ∧ (finish st k sumY sumC).i = 0) := by
    rcases Nat.eq_zero_or_pos st.i with h0 | h0
    · right; exact ⟨h0, by simp [finish, h0]⟩
    · left; refine ⟨h0, ?_⟩
      have h1 : st.i - 1 ≠ k - 1 := by omega
      have h2 : st.i - 1 ≠ st.i := by omega
      simp [finish, h0, set, h1, h2]
  have hblk : ∀ s ∈ S.filter (fun j => j ≤ st.i ∨ k ≤ j), s < n →
      Block y n (S.filter fun j => j ≤ st.i ∨ k ≤ j) (finish st k sumY sumC) s := by
    intro s hs hsn
    rw [mem_filter] at hs
    by_cases hsi : s = st.i
    · subst hsi
      obtain ⟨q1, q2, q3⟩ := hself
      have e : k - 1 + 1 = k := by omega
      refine ⟨?_, ?_, ?_, ?_, ?_, ?_, ?_, ?_, ?_⟩
      · rw [ht_i]; omega
      · rw [ht_i]; omega
      · rw [ht_i, e, mem_filter]; exact ⟨hk, by omega⟩
      · intro j h1 h2; rw [ht_i] at h2; rw [mem_filter]; omega
      · rw [ht_i, ht_k]
      · rw [q1, ht_i, e, g.count]
      · rw [q2, ht_i, e, g.sum]
      · rw [q1, q2, q3]
      · intro m h1 h2; rw [ht_i, e] at h2; rw [q3]; exact g.pre m h1 h2
    · have b := h.block s hs.1 hsn
      obtain ⟨q1, q2, q3⟩ := hother s hsi
      have hsk : s ≠ k - 1 := by omega
      have hts : (finish st k sumY sumC).target s = st.target s := ht s hsi hsk
      have b1 := b.le
      have b2 := b.lt
      have hpos : st.target s < st.i ∨ k ≤ s := by
        rcases hs.2 with h1 | h1
        · left
          by_contra hcon
          exact b.gap st.i (by omega) (by omega) hmi
        · right; exact h1
      refine ⟨?_, ?_, ?_, ?_, ?_, ?_, ?_, ?_, ?_⟩
      · rw [hts]; exact b1
      · rw [hts]; exact b2
      · rw [hts, mem_filter]; exact ⟨b.next, by omega⟩
      · intro j h1 h2; rw [hts] at h2; rw [mem_filter]; exact fun hh => b.gap j h1 h2 hh.1
      · rw [hts]
        by_cases hts' : st.target s = s
        · rw [hts', hts]; exact hts'
        · rw [ht _ (by omega) (by omega)]; exact b.back
      · rw [hts, q1]; exact b.count
      · rw [hts, q2]; exact b.sum
      · rw [q1, q2, q3]; exact b.avg
      · intro m h1 h2; rw [hts] at h2; rw [q3]; exact b.pre m h1 h2
  refine ⟨?_, ?_, ?_, hblk, ?_, ?_, ?_⟩
  · rw [mem_filter]; exact ⟨h.zero, by omega⟩
  · rw [mem_filter]; exact ⟨h.last, by omega⟩
  · intro s hs; rw [mem_filter] at hs; exact h.sub s hs.1
  · rcases hidx with ⟨h0, e⟩ | ⟨h0, e⟩
    · obtain ⟨s, hs, h1, h2, h3, h4⟩ := h.prev hmi h0
      rw [e, h4, mem_filter]; exact ⟨hs, by omega⟩
    · rw [e, mem_filter]; exact ⟨h.zero, by omega⟩
  · rcases hidx with ⟨h0, e⟩ | ⟨h0, e⟩
    · obtain ⟨s, hs, h1, h2, h3, h4⟩ := h.prev hmi h0
      rw [e, h4]; exact h3
    · rw [e]; omega
  · intro s hs hsn hle
    rw [mem_filter] at hs
    rcases hidx with ⟨h0, e⟩ | ⟨h0, e⟩
    · obtain ⟨p, hp, h1, h2, h3, h4⟩ := h.prev hmi h0
      rw [e, h4] at hle
      by_cases hsi : s = st.i
      · rw [hsi, ht_i] at hle; omega
      · have hsk : s ≠ k - 1 := by omega
        have hts := ht s hsi hsk
        rw [hts] at hle ⊢
        have hb := (h.block s hs.1 hsn).le
        rw [(hother s hsi).2.2, (hother (st.target s + 1) (by omega)).2.2]
        exact h.dec s hs.1 hsn (by omega)
    · rw [e] at hle; omega

/-- Termination measure of the outer loop. -/
def measure (S : Finset ℕ) (i : ℕ) : ℕ := 2 * S.card + (S.filter fun j => i < j).card

theorem outer_spec : ∀ (fuel : ℕ) (S : Finset ℕ) (st : St K), Inv y n S st → measure S st.i < fuel →
    ∃ S' st', outer n fuel st = some st' ∧ Inv y n S' st' ∧ st'.target st'.i + 1 = n
  | 0, _, _, _, h => absurd h (Nat.not_lt_zero _)
  | fuel + 1, S, st, h, hm => by
    have b := h.block st.i h.mem h.ilt
    have hble := b.le
    have hblt := b.lt
    unfold outer
    simp only [h.ilt, if_true]
    split_ifs with h1 h2
    · exact ⟨S, st, rfl, h, h1⟩
    · refine outer_spec fuel S _ ⟨h.zero, h.last, h.sub, ?_, b.next, ?_, ?_⟩ ?_
      · intro s hs hsn
        have q := h.block s hs hsn
        exact ⟨q.le, q.lt, q.next, q.gap, q.back, q.count, q.sum, q.avg, q.pre⟩
      · show st.target st.i + 1 < n; omega
      · intro s hs hsn hle
        show st.sol (st.target s + 1) < st.sol s
        have hle' : st.target s + 1 ≤ st.target st.i + 1 := hle
        rcases lt_or_ge st.i s with hsi | hsi
        · exact absurd hs (b.gap s hsi (by have := (h.block s hs hsn).le; omega))
        · rcases Nat.eq_or_lt_of_le hsi with e | e
          · rw [e]; exact h2
          · refine h.dec s hs hsn ?_
            by_contra hcon
            exact (h.block s hs hsn).gap st.i e (by omega) h.mem
      · show measure S (st.target st.i + 1) < fuel
        have : (S.filter fun j => st.target st.i + 1 < j).card < (S.filter fun j => st.i < j).card := by
          refine card_lt_card ⟨?_, ?_⟩
          · intro j hj; rw [mem_filter] at hj ⊢; exact ⟨hj.1, by omega⟩
          · intro hcon
            have := hcon (mem_filter.mpr ⟨b.next, by omega⟩ : st.target st.i + 1 ∈ S.filter fun j => st.i < j)
            rw [mem_filter] at this
            omega
        unfold measure at hm ⊢
        omega
    · have hle : st.sums st.i / st.c st.i ≤ st.sol (st.target st.i + 1) := by
        rw [← b.avg]; exact not_lt.mp h2
      obtain ⟨k', sy, sc, e, m, l, gg⟩ := inner_spec h n (st.target st.i + 1) _ _ b.next (by omega) (by omega) b.group hle
      rw [e]
      simp only
      refine outer_spec fuel _ _ (finish_inv h m (by omega) gg) ?_
      set S' := S.filter fun j => j ≤ st.i ∨ k' ≤ j with hS'
      -- the removed starts
      have hrem : S'.card + 1 ≤ S.card := by
        refine card_lt_card ⟨filter_subset _ _, fun hcon => ?_⟩
        have := hcon b.next
        rw [hS', mem_filter] at this
        omega
      have hfil : (S'.filter fun j => (finish st k' sy sc).i < j).card ≤ (S.filter fun j => st.i < j).card + 1 := by
        have hsub : (S'.filter fun j => (finish st k' sy sc).i < j) ⊆ insert st.i (S.filter fun j => st.i < j) := by
          intro j hj
          rw [mem_filter, hS', mem_filter] at hj
          rw [mem_insert, mem_filter]
          rcases Nat.lt_trichotomy j st.i with c | c | c
          · exfalso
            rcases Nat.eq_zero_or_pos st.i with h0 | h0
            · omega
            · obtain ⟨s, hs, q1, q2, q3, q4⟩ := h.prev h.mem h0
              have e1 : st.i - 1 ≠ k' - 1 := by omega
              have e2 : st.i - 1 ≠ st.i := by omega
              have e3 : (finish st k' sy sc).i = s := by
                simp [finish, h0, set, e1, e2, q4]
              rw [e3] at hj
              exact (h.block s hs q3).gap j hj.2 (by omega) hj.1.1
          · left; exact c
          · right; exact ⟨hj.1.1, c⟩
        exact le_trans (card_le_card hsub) (card_insert_le _ _)
      unfold measure at hm ⊢
      omega

theorem init_inv (y : ℕ → K) (hn : 0 < n) : Inv y n (range (n + 1)) (initSt y) := by
  refine ⟨by simp, by simp, fun s hs => by simpa [Nat.lt_succ_iff] using hs, ?_, by simp [initSt], by simpa [initSt] using hn, ?_⟩
  · intro s hs hsn
    refine ⟨le_refl _, hsn, ?_, ?_, rfl, ?_, ?_, ?_, ?_⟩
    · simp [initSt]; exact hsn
    · intro j h1 h2; simp [initSt] at h2; omega
    · simp [initSt]
    · simp [initSt]
    · simp [initSt]
    · intro m h1 h2
      simp only [initSt] at h2 ⊢
      have : m = s ∨ m = s + 1 := by omega
      rcases this with e | e <;> subst e <;> simp
  · intro s hs hsn hle; simp [initSt] at hle

/-- Reconstruction writes the block value everywhere. -/
theorem fill_spec (h : Inv y n S st) : ∀ (fuel i : ℕ) (sol : ℕ → K), i ∈ S → n ≤ fuel + i →
    (∀ s ∈ S, s < n → s < i → ∀ j, s ≤ j → j ≤ st.target s → sol j = st.sol s) →
    (∀ j, i ≤ j → sol j = st.sol j) →
    ∃ v, fill st.target n fuel i sol = some v ∧
      ∀ s ∈ S, s < n → ∀ j, s ≤ j → j ≤ st.target s → v j = st.sol s
  | 0, i, sol, hi, hf, h1, h2 => by
    have : ¬ i < n := by omega
    refine ⟨sol, by simp [fill, this], fun s hs hsn => h1 s hs hsn (by omega)⟩
  | fuel + 1, i, sol, hi, hf, h1, h2 => by
    unfold fill
    by_cases hin : i < n
    · simp only [hin, if_true]
      have b := h.block i hi hin
      have b1 := b.le
      refine fill_spec h fuel _ _ b.next (by omega) ?_ ?_
      · intro s hs hsn hlt j hj1 hj2
        rcases Nat.lt_trichotomy s i with c | c | c
        · have hnot : ¬ (i + 1 ≤ j ∧ j < st.target i + 1) := by
            intro hh
            exact (h.block s hs hsn).gap i c (by omega) hi
          rw [if_neg hnot]
          exact h1 s hs hsn c j hj1 hj2
        · subst c
          by_cases hj : s + 1 ≤ j ∧ j < st.target s + 1
          · rw [if_pos hj]; exact h2 s (le_refl _)
          · rw [if_neg hj]
            have : j = s := by omega
            rw [this]; exact h2 s (le_refl _)
        · exact absurd hs (b.gap s c (by omega))
      · intro j hj
        have hnot : ¬ (i + 1 ≤ j ∧ j < st.target i + 1) := by omega
        rw [if_neg hnot]; exact h2 j (by omega)
    · simp only [hin, if_false]
      exact ⟨sol, rfl, fun s hs hsn => h1 s hs hsn (by omega)⟩

/-- Optimality certificate of the antitone regression of `y` on `[0, n)`. -/
structure Cert (y v : ℕ → K) (n : ℕ) : Prop where
  anti : ∀ j, j + 1 < n → v (j + 1) ≤ v j
  pre : ∀ m, m ≤ n → ∑ j ∈ range m, (y j - v j) ≤ 0
  total : ∑ j ∈ range n, (y j - v j) = 0
  comp : ∀ j, j + 1 < n → v (j + 1) ≠ v j → ∑ i ∈ range (j + 1), (y i - v i) = 0

theorem cert_of_inv (h : Inv y n S st) (hend : st.target st.i + 1 = n) {v : ℕ → K}
    (hv : ∀ s ∈ S, s < n → ∀ j, s ≤ j → j ≤ st.target s → v j = st.sol s) : Cert y v n := by
  have hblock : ∀ s ∈ S, s < n → ∀ m, s ≤ m → m ≤ st.target s + 1 →
      ∑ j ∈ Ico s m, (y j - v j) = ∑ j ∈ Ico s m, y j - ((m - s : ℕ) : K) * st.sol s := by
    intro s hs hsn m h1 h2
    rw [sum_sub_distrib]
    congr 1
    rw [sum_congr rfl (fun j hj => hv s hs hsn j (mem_Ico.mp hj).1 (by have := (mem_Ico.mp hj).2; omega)), sum_const]
    simp
  have hstart : ∀ t, t ∈ S → ∑ j ∈ range t, (y j - v j) = 0 := by
    intro t
    induction t using Nat.strong_induction_on with
    | _ t ih =>
      intro ht
      rcases Nat.eq_zero_or_pos t with h0 | h0
      · subst h0; simp
      · obtain ⟨s, hs, h1, h2, h3, h4⟩ := h.prev ht h0
        have b := h.block s hs h3
        rw [← sum_range_add_sum_Ico _ (le_of_lt h1), ih s h1 hs, hblock s hs h3 t (le_of_lt h1) (by omega)]
        have hc := b.cpos
        have e1 := b.sum
        have e2 := b.count
        rw [h2] at e1 e2
        rw [← e1, ← e2, b.avg]
        field_simp
        ring
  have hdec : ∀ s ∈ S, s < n → st.target s + 1 < n → st.sol (st.target s + 1) < st.sol s := by
    intro s hs hsn hlt
    have b := h.block s hs hsn
    refine h.dec s hs hsn ?_
    by_contra hcon
    have h1 := b.le
    have h2 := h.block st.i h.mem h.ilt
    rcases Nat.lt_trichotomy s st.i with c | c | c
    · exact b.gap st.i c (by omega) h.mem
    · rw [c] at hlt; omega
    · exact h2.gap s c (by omega) hs
  refine ⟨?_, ?_, hstart n h.last, ?_⟩
  · intro j hj
    obtain ⟨s, hs, h1, h2, h3⟩ := h.start_of j (by omega)
    rcases Nat.eq_or_lt_of_le h2 with e | e
    · have hn := (h.block s hs h3).next
      have hlt : st.target s + 1 < n := by omega
      rw [hv s hs h3 j h1 h2, hv (st.target s + 1) hn hlt (j + 1) (by omega) (by
        have := (h.block _ hn hlt).le; omega)]
      exact le_of_lt (hdec s hs h3 hlt)
    · rw [hv s hs h3 j h1 h2, hv s hs h3 (j + 1) (by omega) (by omega)]
  · intro m hm
    rcases Nat.eq_or_lt_of_le hm with e | e
    · rw [e, hstart n h.last]
    · obtain ⟨s, hs, h1, h2, h3⟩ := h.start_of m e
      rw [← sum_range_add_sum_Ico _ h1, hstart s hs, hblock s hs h3 m h1 (by omega)]
      have := (h.block s hs h3).pre m h1 (by omega)
      linarith
  · intro j hj hne
    obtain ⟨s, hs, h1, h2, h3⟩ := h.start_of j (by omega)
    rcases Nat.eq_or_lt_of_le h2 with e | e
    · have hn := (h.block s hs h3).next
      rw [e]; exact hstart _ hn
    · exfalso; apply hne
      rw [hv s hs h3 j h1 h2, hv s hs h3 (j + 1) (by omega) (by omega)]

theorem pavNumba_cert (n : ℕ) (y : ℕ → K) : ∃ v, pavNumba n y = some v ∧ Cert y v n := by
  rcases Nat.eq_zero_or_pos n with h0 | h0
  · subst h0
    refine ⟨y, ?_, ⟨fun j hj => by omega, fun m hm => ?_, by simp, fun j hj => by omega⟩⟩
    · simp [pavNumba, outer, initSt, fill]
    · have : m = 0 := by omega
      subst this; simp
  · have hm : measure (range (n + 1)) (initSt y).i < 3 * n + 3 := by
      have : ((range (n + 1)).filter fun j => (initSt y).i < j).card < (range (n + 1)).card :=
        card_lt_card ⟨filter_subset _ _, fun hcon => by
          have := hcon (show 0 ∈ range (n + 1) by simp)
          rw [mem_filter] at this
          exact absurd this.2 (by simp [initSt])⟩
      unfold measure
      rw [card_range] at *
      omega
    obtain ⟨S, st, e, h, hend⟩ := outer_spec (3 * n + 3) _ _ (init_inv y h0) hm
    obtain ⟨v, hv, hv'⟩ := fill_spec h n 0 st.sol h.zero (by omega) (fun s _ _ hlt => by omega) (fun j _ => rfl)
    refine ⟨v, ?_, cert_of_inv h hend hv'⟩
    simp only [pavNumba, e, hv]

/-- Summation by parts. -/
theorem abel (a z : ℕ → K) : ∀ n, ∑ j ∈ range (n + 1), a j * z j =
    ∑ j ∈ range n, (∑ i ∈ range (j + 1), a i) * (z j - z (j + 1)) + (∑ i ∈ range (n + 1), a i) * z n
  | 0 => by simp
  | n + 1 => by
    rw [sum_range_succ, abel a z n, sum_range_succ (fun j => (∑ i ∈ range (j + 1), a i) * (z j - z (j + 1))),
      sum_range_succ _ (n + 1)]
    ring

theorem Cert.le {v : ℕ → K} (h : Cert y v n) {z : ℕ → K} (hz : ∀ j, j + 1 < n → z (j + 1) ≤ z j) :
    ∑ j ∈ range n, (y j - v j) * z j ≤ 0 := by
  cases n with
  | zero => simp
  | succ n =>
    rw [abel, h.total, zero_mul, add_zero]
    refine sum_nonpos fun j hj => mul_nonpos_of_nonpos_of_nonneg (h.pre _ ?_) (sub_nonneg.mpr (hz j ?_))
    · have := mem_range.mp hj; omega
    · have := mem_range.mp hj; omega

theorem Cert.orth {v : ℕ → K} (h : Cert y v n) (f : K → K) :
    ∑ j ∈ range n, (y j - v j) * f (v j) = 0 := by
  cases n with
  | zero => simp
  | succ n =>
    rw [abel (fun j => y j - v j) (fun j => f (v j)), h.total, zero_mul, add_zero]
    refine sum_eq_zero fun j hj => ?_
    have := mem_range.mp hj
    by_cases e : v (j + 1) = v j
    · rw [e, sub_self, mul_zero]
    · rw [h.comp j (by omega) e, zero_mul]

end Jaxopt.Isotonic
