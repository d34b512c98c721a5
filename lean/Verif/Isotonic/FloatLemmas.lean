import Verif.Isotonic.Float
import Mathlib.Data.Finset.Max
import Mathlib.Order.Interval.Finset.Nat
import Mathlib.Tactic.SplitIfs
import Mathlib.Tactic.ByContra

/-!
# Loop invariant of pool-adjacent-violators in an arbitrary arithmetic

The block structure (which indices are pooled) is maintained whatever the operations return.  `Rules P G` says what is required of a predicate `P` on
blocks `[s, k)` (with their stored sum, count and value) for it to hold of every block formed during a run; `G` is the corresponding predicate on the group
that the inner loop is pooling, with the value of its last block.
-/

set_option autoImplicit false
set_option linter.unusedSectionVars false
set_option linter.unusedVariables false

namespace Jaxopt.Isotonic.Ops

open Finset

variable {α : Type*} {o : Ops α}

/-- Closure rules. -/
structure Rules (o : Ops α) (n : ℕ) (y : ℕ → α) (P G : ℕ → ℕ → α → α → α → Prop) : Prop where
  init : ∀ s, s < n → P s (s + 1) (y s) o.one (y s)
  start : ∀ {s k S C A}, s < k → k ≤ n → P s k S C A → G s k S C A
  merge : ∀ {s k k' S C A S' C' A'}, s < k → k < k' → k' ≤ n → G s k S C A → P k k' S' C' A' → o.gt A A' = false →
    G s k' (o.add S S') (o.add C C') A'
  finish : ∀ {s k S C A}, s < k → k ≤ n → G s k S C A → P s k S C (o.div S C)

/-- One block `[s .. target s]`. -/
structure Block (n : ℕ) (P : ℕ → ℕ → α → α → α → Prop) (S : Finset ℕ) (st : St α) (s : ℕ) : Prop where
  le : s ≤ st.target s
  lt : st.target s < n
  next : st.target s + 1 ∈ S
  gap : ∀ j, s < j → j ≤ st.target s → j ∉ S
  back : st.target (st.target s) = s
  pred : P s (st.target s + 1) (st.sums s) (st.c s) (st.sol s)

/-- Invariant: `S` is the set of block starts together with `n`. -/
structure Inv (o : Ops α) (n : ℕ) (P : ℕ → ℕ → α → α → α → Prop) (S : Finset ℕ) (st : St α) : Prop where
  zero : 0 ∈ S
  last : n ∈ S
  sub : ∀ s ∈ S, s ≤ n
  block : ∀ s ∈ S, s < n → Block n P S st s
  mem : st.i ∈ S
  ilt : st.i < n
  dec : ∀ s ∈ S, s < n → st.target s + 1 ≤ st.i → o.gt (st.sol s) (st.sol (st.target s + 1)) = true

variable {y : ℕ → α} {n : ℕ} {P G : ℕ → ℕ → α → α → α → Prop} {S : Finset ℕ} {st : St α}

theorem Inv.start_of (h : Inv o n P S st) (j : ℕ) (hj : j < n) : ∃ s ∈ S, s ≤ j ∧ j ≤ st.target s ∧ s < n := by
  have hne : (S.filter (· ≤ j)).Nonempty := ⟨0, by simp [h.zero]⟩
  refine ⟨(S.filter (· ≤ j)).max' hne, ?_⟩
  set s := (S.filter (· ≤ j)).max' hne with hs
  have hmem := (S.filter (· ≤ j)).max'_mem hne
  rw [← hs, mem_filter] at hmem
  have hsn : s < n := lt_of_le_of_lt hmem.2 hj
  refine ⟨hmem.1, hmem.2, ?_, hsn⟩
  have hb := h.block s hmem.1 hsn
  by_contra hcon
  have : st.target s + 1 ≤ s := by
    rw [hs]
    have := (S.filter (· ≤ j)).le_max' (st.target s + 1) (by rw [mem_filter]; exact ⟨hb.next, by omega⟩)
    rw [← hs] at this ⊢
    exact this
  have := hb.le
  omega

theorem Inv.prev (h : Inv o n P S st) {t : ℕ} (ht : t ∈ S) (h0 : 0 < t) :
    ∃ s ∈ S, s < t ∧ st.target s + 1 = t ∧ s < n ∧ st.target (t - 1) = s := by
  have htn := h.sub t ht
  obtain ⟨s, hs, h1, h2, h3⟩ := h.start_of (t - 1) (by omega)
  have hb := h.block s hs h3
  have e : st.target s + 1 = t := by
    by_contra hne
    exact hb.gap t (by omega) (by omega) ht
  refine ⟨s, hs, by omega, e, h3, ?_⟩
  have : t - 1 = st.target s := by omega
  rw [this, hb.back]

/-- The inner loop merges a run of blocks. -/
theorem inner_spec (R : Rules o n y P G) (h : Inv o n P S st) : ∀ (fuel k : ℕ) (sumY sumC A : α), k ∈ S → st.i < k → k < n → n ≤ fuel + k →
    G st.i k sumY sumC A → o.gt A (st.sol k) = false →
    ∃ k' sumY' sumC' A', o.inner st n fuel k sumY sumC = some (k', sumY', sumC') ∧ k' ∈ S ∧ k < k' ∧
      G st.i k' sumY' sumC' A'
  | 0, k, sumY, sumC, A, _, _, h1, h2, _, _ => by omega
  | fuel + 1, k, sumY, sumC, A, hk, hik, h1, h2, g, hle => by
    have b := h.block k hk h1
    have hkt := b.le
    have hlt := b.lt
    have g' := R.merge hik (by omega : k < st.target k + 1) (by omega) g b.pred hle
    unfold inner
    simp only
    split_ifs with hc
    · exact ⟨_, _, _, _, rfl, b.next, by omega, g'⟩
    · simp only [not_or, Bool.not_eq_true] at hc
      obtain ⟨k', sy, sc, A', e, m, l, gg⟩ := inner_spec R h fuel (st.target k + 1) _ _ _ b.next (by omega) (by omega) (by omega) g' hc.2
      exact ⟨k', sy, sc, A', e, m, by omega, gg⟩

theorem finish_inv (R : Rules o n y P G) (h : Inv o n P S st) {k : ℕ} {sumY sumC A : α} (hk : k ∈ S) (hik : st.i < k)
    (g : G st.i k sumY sumC A) :
    Inv o n P (S.filter fun j => j ≤ st.i ∨ k ≤ j) (o.finish st k sumY sumC) := by
  have hkn := h.sub k hk
  have hmi := h.mem
  -- values of the new arrays
  have ht_i : (o.finish st k sumY sumC).target st.i = k - 1 := by
    by_cases e : st.i = k - 1
    · simp [Ops.finish, set, ← e]
    · simp [Ops.finish, set, e]
  have ht_k : (o.finish st k sumY sumC).target (k - 1) = st.i := by simp [Ops.finish, set]
  have ht : ∀ x, x ≠ st.i → x ≠ k - 1 → (o.finish st k sumY sumC).target x = st.target x := by
    intro x h1 h2; simp [Ops.finish, set, h1, h2]
  have hother : ∀ x, x ≠ st.i → (o.finish st k sumY sumC).c x = st.c x ∧ (o.finish st k sumY sumC).sums x = st.sums x ∧
      (o.finish st k sumY sumC).sol x = st.sol x := by
    intro x h1; simp [Ops.finish, set, h1]
  have hself : (o.finish st k sumY sumC).c st.i = sumC ∧ (o.finish st k sumY sumC).sums st.i = sumY ∧
      (o.finish st k sumY sumC).sol st.i = o.div sumY sumC := by simp [Ops.finish, set]
  have hidx : (0 < st.i ∧ (o.finish st k sumY sumC).i = st.target (st.i - 1)) ∨
      (st.i = 0 ∧ (o.finish st k sumY sumC).i = 0) := by
    rcases Nat.eq_zero_or_pos st.i with h0 | h0
    · right; exact ⟨h0, by simp [Ops.finish, h0]⟩
    · left; refine ⟨h0, ?_⟩
      have h1 : st.i - 1 ≠ k - 1 := by omega
      have h2 : st.i - 1 ≠ st.i := by omega
      simp [Ops.finish, h0, set, h1, h2]
  have hblk : ∀ s ∈ S.filter (fun j => j ≤ st.i ∨ k ≤ j), s < n →
      Block n P (S.filter fun j => j ≤ st.i ∨ k ≤ j) (o.finish st k sumY sumC) s := by
    intro s hs hsn
    rw [mem_filter] at hs
    by_cases hsi : s = st.i
    · subst hsi
      obtain ⟨q1, q2, q3⟩ := hself
      have e : k - 1 + 1 = k := by omega
      refine ⟨?_, ?_, ?_, ?_, ?_, ?_⟩
      · rw [ht_i]; omega
      · rw [ht_i]; omega
      · rw [ht_i, e, mem_filter]; exact ⟨hk, by omega⟩
      · intro j h1 h2; rw [ht_i] at h2; rw [mem_filter]; omega
      · rw [ht_i, ht_k]
      · rw [q1, q2, q3, ht_i, e]; exact R.finish hik hkn g
    · have b := h.block s hs.1 hsn
      obtain ⟨q1, q2, q3⟩ := hother s hsi
      have hsk : s ≠ k - 1 := by omega
      have hts : (o.finish st k sumY sumC).target s = st.target s := ht s hsi hsk
      have b1 := b.le
      have b2 := b.lt
      have hpos : st.target s < st.i ∨ k ≤ s := by
        rcases hs.2 with h1 | h1
        · left
          by_contra hcon
          exact b.gap st.i (by omega) (by omega) hmi
        · right; exact h1
      refine ⟨?_, ?_, ?_, ?_, ?_, ?_⟩
      · rw [hts]; exact b1
      · rw [hts]; exact b2
      · rw [hts, mem_filter]; exact ⟨b.next, by omega⟩
      · intro j h1 h2; rw [hts] at h2; rw [mem_filter]; exact fun hh => b.gap j h1 h2 hh.1
      · rw [hts]
        by_cases hts' : st.target s = s
        · rw [hts', hts]; exact hts'
        · rw [ht _ (by omega) (by omega)]; exact b.back
      · rw [q1, q2, q3, hts]; exact b.pred
  refine ⟨?_, ?_, ?_, hblk, ?_, ?_, ?_⟩
  · rw [mem_filter]; exact ⟨h.zero, by omega⟩
  · rw [mem_filter]; exact ⟨h.last, by omega⟩
  · intro s hs; rw [mem_filter] at hs; exact h.sub s hs.1
  · rcases hidx with ⟨h0, e⟩ | ⟨h0, e⟩
    · obtain ⟨s, hs, h1, h2, h3, h4⟩ := h.prev hmi h0
      rw [e, h4, mem_filter]; exact ⟨hs, by omega⟩
    · rw [e, mem_filter]; exact ⟨h.zero, by omega⟩
  · rcases hidx with ⟨h0, e⟩ | ⟨h0, e⟩
    · obtain ⟨s, hs, h1, h2, h3, h4⟩ := h.prev hmi h0
      rw [e, h4]; exact h3
    · rw [e]; omega
  · intro s hs hsn hle
    rw [mem_filter] at hs
    rcases hidx with ⟨h0, e⟩ | ⟨h0, e⟩
    · obtain ⟨p, hp, h1, h2, h3, h4⟩ := h.prev hmi h0
      rw [e, h4] at hle
      by_cases hsi : s = st.i
      · rw [hsi, ht_i] at hle; omega
      · have hsk : s ≠ k - 1 := by omega
        have hts := ht s hsi hsk
        rw [hts] at hle ⊢
        have hb := (h.block s hs.1 hsn).le
        rw [(hother s hsi).2.2, (hother (st.target s + 1) (by omega)).2.2]
        exact h.dec s hs.1 hsn (by omega)
    · rw [e] at hle; omega

/-- Termination measure of the outer loop. -/
def measure (S : Finset ℕ) (i : ℕ) : ℕ := 2 * S.card + (S.filter fun j => i < j).card

theorem outer_spec (R : Rules o n y P G) : ∀ (fuel : ℕ) (S : Finset ℕ) (st : St α), Inv o n P S st → measure S st.i < fuel →
    ∃ S' st', o.outer n fuel st = some st' ∧ Inv o n P S' st' ∧ st'.target st'.i + 1 = n
  | 0, _, _, _, h => absurd h (Nat.not_lt_zero _)
  | fuel + 1, S, st, h, hm => by
    have b := h.block st.i h.mem h.ilt
    have hble := b.le
    have hblt := b.lt
    unfold Ops.outer
    simp only [h.ilt, if_true]
    split_ifs with h1 h2
    · exact ⟨S, st, rfl, h, h1⟩
    · refine outer_spec R fuel S _ ⟨h.zero, h.last, h.sub, ?_, b.next, ?_, ?_⟩ ?_
      · intro s hs hsn
        have q := h.block s hs hsn
        exact ⟨q.le, q.lt, q.next, q.gap, q.back, q.pred⟩
      · show st.target st.i + 1 < n; omega
      · intro s hs hsn hle
        show o.gt (st.sol s) (st.sol (st.target s + 1)) = true
        have hle' : st.target s + 1 ≤ st.target st.i + 1 := hle
        rcases lt_or_ge st.i s with hsi | hsi
        · exact absurd hs (b.gap s hsi (by have := (h.block s hs hsn).le; omega))
        · rcases Nat.eq_or_lt_of_le hsi with e | e
          · rw [e]; exact h2
          · refine h.dec s hs hsn ?_
            by_contra hcon
            exact (h.block s hs hsn).gap st.i e (by omega) h.mem
      · show measure S (st.target st.i + 1) < fuel
        have : (S.filter fun j => st.target st.i + 1 < j).card < (S.filter fun j => st.i < j).card := by
          refine card_lt_card ⟨?_, ?_⟩
          · intro j hj; rw [mem_filter] at hj ⊢; exact ⟨hj.1, by omega⟩
          · intro hcon
            have := hcon (mem_filter.mpr ⟨b.next, by omega⟩ : st.target st.i + 1 ∈ S.filter fun j => st.i < j)
            rw [mem_filter] at this
            omega
        unfold measure at hm ⊢
        omega
    · obtain ⟨k', sy, sc, A', e, m, l, gg⟩ := inner_spec R h n (st.target st.i + 1) _ _ _ b.next (by omega) (by omega) (by omega)
        (R.start (by omega) (by omega) b.pred) (by simpa using h2)
      rw [e]
      simp only
      refine outer_spec R fuel _ _ (finish_inv R h m (by omega) gg) ?_
      set S' := S.filter fun j => j ≤ st.i ∨ k' ≤ j with hS'
      -- the removed starts
      have hrem : S'.card + 1 ≤ S.card := by
        refine card_lt_card ⟨filter_subset _ _, fun hcon => ?_⟩
        have := hcon b.next
        rw [hS', mem_filter] at this
        omega
      have hfil : (S'.filter fun j => (o.finish st k' sy sc).i < j).card ≤ (S.filter fun j => st.i < j).card + 1 := by
        have hsub : (S'.filter fun j => (o.finish st k' sy sc).i < j) ⊆ insert st.i (S.filter fun j => st.i < j) := by
          intro j hj
          rw [mem_filter, hS', mem_filter] at hj
          rw [mem_insert, mem_filter]
          rcases Nat.lt_trichotomy j st.i with c | c | c
          · exfalso
            rcases Nat.eq_zero_or_pos st.i with h0 | h0
            · omega
            · obtain ⟨s, hs, q1, q2, q3, q4⟩ := h.prev h.mem h0
              have e1 : st.i - 1 ≠ k' - 1 := by omega
              have e2 : st.i - 1 ≠ st.i := by omega
              have e3 : (o.finish st k' sy sc).i = s := by
                simp [Ops.finish, h0, set, e1, e2, q4]
              rw [e3] at hj
              exact (h.block s hs q3).gap j hj.2 (by omega) hj.1.1
          · left; exact c
          · right; exact ⟨hj.1.1, c⟩
        exact le_trans (card_le_card hsub) (card_insert_le _ _)
      unfold measure at hm ⊢
      omega

theorem init_inv (R : Rules o n y P G) (hn : 0 < n) : Inv o n P (range (n + 1)) (o.initSt y) := by
  refine ⟨by simp, by simp, fun s hs => by simpa [Nat.lt_succ_iff] using hs, ?_, by simp [initSt], by simpa [initSt] using hn, ?_⟩
  · intro s hs hsn
    refine ⟨le_refl _, hsn, ?_, ?_, rfl, R.init s hsn⟩
    · simp [initSt]; exact hsn
    · intro j h1 h2; simp [initSt] at h2; omega
  · intro s hs hsn hle; simp [initSt] at hle

/-- Reconstruction writes the block value everywhere. -/
theorem fill_spec (h : Inv o n P S st) : ∀ (fuel i : ℕ) (sol : ℕ → α), i ∈ S → n ≤ fuel + i →
    (∀ s ∈ S, s < n → s < i → ∀ j, s ≤ j → j ≤ st.target s → sol j = st.sol s) →
    (∀ j, i ≤ j → sol j = st.sol j) →
    ∃ v, fill st.target n fuel i sol = some v ∧
      ∀ s ∈ S, s < n → ∀ j, s ≤ j → j ≤ st.target s → v j = st.sol s
  | 0, i, sol, hi, hf, h1, h2 => by
    have : ¬ i < n := by omega
    refine ⟨sol, by simp [fill, this], fun s hs hsn => h1 s hs hsn (by omega)⟩
  | fuel + 1, i, sol, hi, hf, h1, h2 => by
    unfold fill
    by_cases hin : i < n
    · simp only [hin, if_true]
      have b := h.block i hi hin
      have b1 := b.le
      refine fill_spec h fuel _ _ b.next (by omega) ?_ ?_
      · intro s hs hsn hlt j hj1 hj2
        rcases Nat.lt_trichotomy s i with c | c | c
        · have hnot : ¬ (i + 1 ≤ j ∧ j < st.target i + 1) := by
            intro hh
            exact (h.block s hs hsn).gap i c (by omega) hi
          rw [if_neg hnot]
          exact h1 s hs hsn c j hj1 hj2
        · subst c
          by_cases hj : s + 1 ≤ j ∧ j < st.target s + 1
          · rw [if_pos hj]; exact h2 s (le_refl _)
          · rw [if_neg hj]
            have : j = s := by omega
            rw [this]; exact h2 s (le_refl _)
        · exact absurd hs (b.gap s c (by omega))
      · intro j hj
        have hnot : ¬ (i + 1 ≤ j ∧ j < st.target i + 1) := by omega
        rw [if_neg hnot]; exact h2 j (by omega)
    · simp only [hin, if_false]
      exact ⟨sol, rfl, fun s hs hsn => h1 s hs hsn (by omega)⟩

/-- What a run of the two loops and the reconstruction leaves: a partition of `[0, n)` into blocks with property `P`, whose values are in
strictly decreasing order for the comparison of the arithmetic. -/
structure Pooled (o : Ops α) (n : ℕ) (P : ℕ → ℕ → α → α → α → Prop) (v : ℕ → α) (S : Finset ℕ) (e : ℕ → ℕ) : Prop where
  zero : 0 ∈ S
  cover : ∀ j, j < n → ∃ s ∈ S, s < n ∧ s ≤ j ∧ j < e s
  lt : ∀ s ∈ S, s < n → s < e s ∧ e s ≤ n ∧ e s ∈ S
  gap : ∀ s ∈ S, s < n → ∀ j, s < j → j < e s → j ∉ S
  val : ∀ s ∈ S, s < n → ∃ A B C, P s (e s) A B C ∧ ∀ j, s ≤ j → j < e s → v j = C
  dec : ∀ s ∈ S, s < n → e s < n → o.gt (v s) (v (e s)) = true

theorem pavNumba_spec (R : Rules o n y P G) :
    ∃ v, o.pavNumba n y = some (fun j => o.cast (v j)) ∧ (0 < n → ∃ S e, Pooled o n P v S e) := by
  rcases Nat.eq_zero_or_pos n with h0 | h0
  · subst h0
    exact ⟨y, by simp [Ops.pavNumba, Ops.outer, initSt, fill], fun h => absurd h (lt_irrefl _)⟩
  · have hm : measure (range (n + 1)) (o.initSt y).i < 3 * n + 3 := by
      have : ((range (n + 1)).filter fun j => (o.initSt y).i < j).card < (range (n + 1)).card :=
        card_lt_card ⟨filter_subset _ _, fun hcon => by
          have := hcon (show 0 ∈ range (n + 1) by simp)
          rw [mem_filter] at this
          exact absurd this.2 (by simp [initSt])⟩
      unfold measure
      rw [card_range] at *
      omega
    obtain ⟨S, st, e, h, hend⟩ := outer_spec R (3 * n + 3) _ _ (init_inv R h0) hm
    obtain ⟨v, hv, hv'⟩ := fill_spec h n 0 st.sol h.zero (by omega) (fun s _ _ hlt => by omega) (fun j _ => rfl)
    refine ⟨v, by simp only [Ops.pavNumba, e, hv], fun _ => ⟨S, fun s => st.target s + 1, h.zero, ?_, ?_, ?_, ?_, ?_⟩⟩
    · intro j hj
      obtain ⟨s, hs, h1, h2, h3⟩ := h.start_of j hj
      exact ⟨s, hs, h3, h1, by omega⟩
    · intro s hs hsn
      have b := h.block s hs hsn
      have := b.le
      have := b.lt
      exact ⟨by omega, by omega, b.next⟩
    · intro s hs hsn j h1 h2
      exact (h.block s hs hsn).gap j h1 (by omega)
    · intro s hs hsn
      exact ⟨_, _, _, (h.block s hs hsn).pred, fun j h1 h2 => hv' s hs hsn j h1 (by omega)⟩
    · intro s hs hsn hlt
      have b := h.block s hs hsn
      have bn := h.block _ b.next hlt
      rw [hv' s hs hsn s le_rfl b.le, hv' _ b.next hlt _ le_rfl bn.le]
      refine h.dec s hs hsn ?_
      by_contra hcon
      have h1 := b.le
      have h2 := h.block st.i h.mem h.ilt
      rcases Nat.lt_trichotomy s st.i with c | c | c
      · exact b.gap st.i c (by omega) h.mem
      · rw [c] at hlt; omega
      · exact h2.gap s c (by omega) hs

end Jaxopt.Isotonic.Ops
