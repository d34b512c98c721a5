import Verif.Isotonic.FloatAccuracy
import Verif.Isotonic.Props
import Verif.Num.Binary

/-!
# C114: isotonic regression in floating-point arithmetic
-/

set_option autoImplicit false
set_option linter.unusedSectionVars false
set_option linter.unusedVariables false

namespace Jaxopt.Isotonic

open Finset

/-! ### Any arithmetic -/

section any
variable {α : Type*} {o : Ops α}

theorem trivial_rules (o : Ops α) (n : ℕ) (y : ℕ → α) : Ops.Rules o n y (fun _ _ _ _ _ => True) (fun _ _ _ _ _ => True) :=
  ⟨fun _ _ => trivial, fun _ _ _ => trivial, fun _ _ _ _ _ _ => trivial, fun _ _ _ => trivial⟩

theorem Pooled.step {n : ℕ} {P : ℕ → ℕ → α → α → α → Prop} {v : ℕ → α} {S : Finset ℕ} {e : ℕ → ℕ} (h : Ops.Pooled o n P v S e) {j : ℕ}
    (hj : j + 1 < n) : v j = v (j + 1) ∨ o.gt (v j) (v (j + 1)) = true := by
  obtain ⟨s, hs, h1, h2, h3⟩ := h.cover j (by omega)
  obtain ⟨l1, l2, l3⟩ := h.lt s hs h1
  obtain ⟨A, B, C, -, hc⟩ := h.val s hs h1
  rcases Nat.eq_or_lt_of_le (Nat.succ_le_of_lt h3) with hc' | hc'
  · right
    have e1 : e s = j + 1 := hc'.symm
    have := h.dec s hs h1 (by omega)
    rwa [e1, hc s le_rfl l1, ← hc j h2 h3] at this
  · left
    rw [hc j h2 h3, hc (j + 1) (by omega) hc']

/-- **C114**: whatever the operations return (rounded, overflowed, NaN), the call returns, and before the conversion to the type of `y` every value is
equal to the next one or compares greater than it. -/
theorem C114_returns (o : Ops α) (n : ℕ) (y : ℕ → α) (increasing : Bool) :
    ∃ v : ℕ → α, o.isotonic n y increasing = some (fun j => o.clip (o.mulSign increasing (o.cast (v j)))) ∧
      ∀ j, j + 1 < n → v j = v (j + 1) ∨ o.gt (v j) (v (j + 1)) = true := by
  obtain ⟨v, hv, hp⟩ := Ops.pavNumba_spec (trivial_rules o n fun j => o.mulSign increasing (y j))
  refine ⟨v, by simp only [Ops.isotonic, hv], fun j hj => ?_⟩
  obtain ⟨S, e, h⟩ := hp (by omega)
  exact Pooled.step h hj

end any

/-! ### IEEE arithmetic -/

section ieee
variable {K : Type*} [Field K] [LinearOrder K] [IsStrictOrderedRing K]

theorem Ext.gt_le {a b : Ext K} (h : Ext.gt a b = true) : Ext.le b a = true := by
  cases a <;> cases b <;> simp_all [Ext.gt, Ext.lt, Ext.le]
  exact h.le

theorem Ext.gt_ne_nan {a b : Ext K} (h : Ext.gt a b = true) : a ≠ .nan ∧ b ≠ .nan := by
  cases a <;> cases b <;> simp_all [Ext.gt, Ext.lt]

theorem Ext.le_trans' {a b c : Ext K} (h1 : Ext.le a b = true) (h2 : Ext.le b c = true) : Ext.le a c = true := by
  cases a <;> cases b <;> cases c <;> simp_all [Ext.le]
  exact h1.trans h2

/-- Rounding never produces NaN. -/
theorem round_ne_nan (F : Format K) (x : K) : F.round x ≠ .nan := by
  intro h
  have := F.mono (le_refl x)
  rw [h] at this
  simp [Ext.le] at this

theorem rnd_eq_nan (F : Format K) {a : Ext K} : F.rnd a = .nan ↔ a = .nan := by
  cases a <;> simp [Format.rnd, round_ne_nan]

theorem cast_mono (F : Format K) {a b : Ext K} (h : Ext.le a b = true) : Ext.le (F.rnd a) (F.rnd b) = true := by
  have bot : ∀ c : Ext K, c ≠ .nan → Ext.le .ninf c = true := by intro c hc; cases c <;> simp_all [Ext.le]
  have top : ∀ c : Ext K, c ≠ .nan → Ext.le c .pinf = true := by intro c hc; cases c <;> simp_all [Ext.le]
  cases a with
  | nan => simp [Ext.le] at h
  | ninf => exact bot _ (by rw [Ne, rnd_eq_nan]; rintro rfl; simp [Ext.le] at h)
  | fin x =>
    cases b with
    | nan => simp [Ext.le] at h
    | ninf => simp [Ext.le] at h
    | fin y => exact F.mono (by simpa [Ext.le] using h)
    | pinf => exact top _ (round_ne_nan F x)
  | pinf =>
    cases b with
    | pinf => rfl
    | _ => simp [Ext.le] at h

theorem neg_anti {a b : Ext K} (h : Ext.le a b = true) : Ext.le (Ext.neg b) (Ext.neg a) = true := by
  cases a <;> cases b <;> simp_all [Ext.le, Ext.neg]

theorem clipExt_mono (lo hi : Option K) {a b : Ext K} (h : Ext.le a b = true) : Ext.le (clipExt lo hi a) (clipExt lo hi b) = true := by
  have h1 : ∀ l : K, ∀ {a b : Ext K}, Ext.le a b = true → Ext.le (Ext.max a (.fin l)) (Ext.max b (.fin l)) = true := by
    intro l a b h
    cases a <;> cases b <;> simp_all [Ext.le, Ext.max]
    exact (le_total l _).imp_right fun hl => h.trans hl
  have h2 : ∀ l : K, ∀ {a b : Ext K}, Ext.le a b = true → Ext.le (Ext.min a (.fin l)) (Ext.min b (.fin l)) = true := by
    intro l a b h
    cases a <;> cases b <;> simp_all [Ext.le, Ext.min]
  cases lo <;> cases hi <;> simp only [clipExt]
  · exact h
  · exact h2 _ h
  · exact h1 _ h
  · exact h2 _ (h1 _ h)

/-- Whether `a` comes before `b` in the requested order. -/
def Before (increasing : Bool) (a b : Ext K) : Prop := if increasing then Ext.le a b = true else Ext.le b a = true

/-- **C114**: in IEEE arithmetic, with any rounding, any format of `y` and any bounds, the result is exactly monotone: two entries are the same float (possibly both
NaN) or compare in the requested order.  No tolerance is needed. -/
theorem C114_monotone (D F : Format K) (yMin yMax : Option K) (n : ℕ) (y : ℕ → Ext K) (increasing : Bool) :
    ∃ w, (ieee D F yMin yMax).isotonic n y increasing = some w ∧
      ∀ a b, a ≤ b → b < n → w a = w b ∨ Before increasing (w a) (w b) := by
  obtain ⟨v, hv, hs⟩ := C114_returns (ieee D F yMin yMax) n y increasing
  refine ⟨_, hv, fun a b hab hb => ?_⟩
  have key : v a = v b ∨ Ext.le (v b) (v a) = true := by
    induction b, hab using Nat.le_induction with
    | base => exact Or.inl rfl
    | succ b hab ih =>
      have h1 := ih (by omega)
      rcases hs b hb with h2 | h2
      · rw [← h2]; exact h1
      · have h3 : Ext.le (v (b + 1)) (v b) = true := Ext.gt_le h2
        rcases h1 with h1 | h1
        · rw [h1]; exact Or.inr h3
        · exact Or.inr (Ext.le_trans' h3 h1)
  rcases key with h | h
  · left; simp only [h]
  · right
    have h1 := cast_mono F h
    cases increasing with
    | true => exact clipExt_mono _ _ (neg_anti h1)
    | false => exact clipExt_mono _ _ h1

/-- A block that contains a NaN has NaN sum and value. -/
def NanBlock (y : ℕ → Ext K) (s k : ℕ) (S C A : Ext K) : Prop := ∀ j, s ≤ j → j < k → y j = .nan → S = .nan ∧ A = .nan

theorem nan_rules (D F : Format K) (yMin yMax : Option K) (n : ℕ) (y : ℕ → Ext K) :
    Ops.Rules (ieee D F yMin yMax) n y (NanBlock y) (fun s k S C A => ∀ j, s ≤ j → j < k → y j = .nan → S = .nan) := by
  refine ⟨?_, ?_, ?_, ?_⟩
  · intro s hs j h1 h2 h3
    have : j = s := by omega
    subst this
    exact ⟨h3, h3⟩
  · intro s k S C A _ _ h j h1 h2 h3
    exact (h j h1 h2 h3).1
  · intro s k k' S C A S' C' A' _ _ _ h h' _ j h1 h2 h3
    show D.rnd (Ext.add S S') = .nan
    rw [rnd_eq_nan]
    rcases lt_or_ge j k with c | c
    · rw [h j h1 c h3]; simp [Ext.add]
    · rw [(h' j c h2 h3).1]; cases S <;> rfl
  · intro s k S C A _ _ h j h1 h2 h3
    have hS := h j h1 h2 h3
    refine ⟨hS, ?_⟩
    show D.rnd (divExt S C) = .nan
    rw [rnd_eq_nan, hS]
    cases C <;> simp only [divExt, Ext.smul]
    split_ifs <;> rfl

/-- **C114**: a single NaN in `y` makes the whole result NaN: the comparisons with it are false, so everything is pooled into one block. -/
theorem C114_nan_spreads (D F : Format K) (yMin yMax : Option K) (n : ℕ) (y : ℕ → Ext K) (increasing : Bool) {i : ℕ} (hi : i < n)
    (hnan : y i = .nan) :
    ∃ w, (ieee D F yMin yMax).isotonic n y increasing = some w ∧ ∀ j, j < n → w j = .nan := by
  obtain ⟨v, hv, hp⟩ := Ops.pavNumba_spec (nan_rules D F yMin yMax n fun j => (ieee D F yMin yMax).mulSign increasing (y j))
  obtain ⟨S, e, h⟩ := hp (by omega)
  have hYn : (ieee D F yMin yMax).mulSign increasing (y i) = .nan := by
    rw [hnan]; cases increasing <;> rfl
  obtain ⟨s, hs, h1, h2, h3⟩ := h.cover i hi
  obtain ⟨l1, l2, l3⟩ := h.lt s hs h1
  obtain ⟨A, B, C, hP, hc⟩ := h.val s hs h1
  have hC : C = .nan := (hP i h2 h3 hYn).2
  have hvs : v s = .nan := by rw [hc s le_rfl l1, hC]
  -- the block is the only one
  have he : e s = n := by
    by_contra hne
    have := h.dec s hs h1 (by omega)
    exact (Ext.gt_ne_nan this).1 hvs
  have hs0 : s = 0 := by
    by_contra hne
    obtain ⟨s', m1, m2, m3, m4⟩ := h.cover (s - 1) (by omega)
    have es : e s' = s := by
      by_contra hne'
      exact h.gap s' m1 m2 s (by omega) (by omega) hs
    have := h.dec s' m1 m2 (by omega)
    rw [es] at this
    exact (Ext.gt_ne_nan this).2 hvs
  refine ⟨fun j => (ieee D F yMin yMax).clip ((ieee D F yMin yMax).mulSign increasing ((ieee D F yMin yMax).cast (v j))),
    by simp only [Ops.isotonic, hv], fun j hj => ?_⟩
  have hvj : v j = .nan := by rw [hc j (by omega) (by omega), hC]
  simp only [hvj]
  cases increasing <;> cases yMin <;> cases yMax <;> rfl

/-- The model computes: one NaN among four numbers. -/
example : ((ieee Format.ideal Format.ideal none none).isotonic 4 (fun j => if j = 2 then .nan else .fin (j : ℚ)) true).map
    (fun w => (w 0, w 3)) = some (.nan, .nan) := by decide +kernel

end ieee

/-! ### Accuracy -/

section accuracy
variable {K : Type*} [Field K] [LinearOrder K] [IsStrictOrderedRing K]

theorem clipInf_dist (lo hi : Option K) (a b : K) : |clipInf a lo hi - clipInf b lo hi| ≤ |a - b| := by
  cases lo <;> cases hi <;> simp only [clipInf]
  · exact le_rfl
  · exact abs_min_sub_min_le_abs' a b _
  · exact abs_max_sub_max_le_abs' a b _
  · exact (abs_min_sub_min_le_abs' _ _ _).trans (abs_max_sub_max_le_abs' a b _)
where
  abs_max_sub_max_le_abs' (a b c : K) : |max a c - max b c| ≤ |a - b| := by
    rcases le_total a c with h1 | h1 <;> rcases le_total b c with h2 | h2
    · rw [max_eq_right h1, max_eq_right h2, sub_self, abs_zero]; exact abs_nonneg _
    · rw [max_eq_right h1, max_eq_left h2, abs_of_nonpos (by linarith), abs_of_nonpos (by linarith)]; linarith
    · rw [max_eq_left h1, max_eq_right h2, abs_of_nonneg (by linarith), abs_of_nonneg (by linarith)]; linarith
    · rw [max_eq_left h1, max_eq_left h2]
  abs_min_sub_min_le_abs' (a b c : K) : |min a c - min b c| ≤ |a - b| := by
    rcases le_total a c with h1 | h1 <;> rcases le_total b c with h2 | h2
    · rw [min_eq_left h1, min_eq_left h2]
    · rw [min_eq_left h1, min_eq_right h2, abs_of_nonpos (by linarith), abs_of_nonpos (by linarith)]; linarith
    · rw [min_eq_right h1, min_eq_left h2, abs_of_nonneg (by linarith), abs_of_nonneg (by linarith)]; linarith
    · rw [min_eq_right h1, min_eq_right h2, sub_self, abs_zero]; exact abs_nonneg _

/-- **C114**: with relative rounding error `u` in the arrays, exact counts and relative error `uc` of the final conversion, every entry of the result differs
from the exact solution by at most about `2 n² u max|y| + uc max|y|`. -/
theorem C114_accuracy {rnd cast : K → K} {u uc M : K} {n : ℕ} (hu : 0 ≤ u) (huc : 0 ≤ uc) (hM : 0 ≤ M) (hr : ∀ x, |rnd x - x| ≤ u * |x|)
    (hcount : ∀ m : ℕ, m ≤ n → rnd m = m) (hcast : ∀ x, |cast x - x| ≤ uc * |x|) (yMin yMax : Option K) (y : Fin n → K) (hy : ∀ i, |y i| ≤ M)
    (increasing : Bool) :
    ∃ w z, (rounded rnd cast yMin yMax).isotonic n (fun j => if h : j < n then y ⟨j, h⟩ else 0) increasing = some w ∧
      isotonicL2Pav y yMin yMax increasing = some z ∧
      ∀ i : Fin n, |w i - z i| ≤ 2 * n * (M * ((1 + u) ^ (n + 1) - 1)) + uc * (M * (1 + u) ^ (n + 1)) := by
  set sign : K := if increasing then -1 else 1 with hsign
  set Y : ℕ → K := fun j => if h : j < n then y ⟨j, h⟩ * sign else 0 with hY
  obtain ⟨z, hz, cert⟩ := pavNumba_cert n Y
  have hms : ∀ x : K, (rounded rnd cast yMin yMax).mulSign increasing x = x * sign := by
    intro x
    cases increasing <;> simp [Ops.mulSign, rounded, hsign]
  have hYY : (fun j => (rounded rnd cast yMin yMax).mulSign increasing (if h : j < n then y ⟨j, h⟩ else 0)) = Y := by
    funext j
    rw [hms, hY]
    by_cases h : j < n <;> simp [h]
  have hsabs : |sign| = 1 := by rw [hsign]; split_ifs <;> simp
  have hYM : ∀ j, j < n → |Y j| ≤ M := by
    intro j hj
    simp only [hY, hj, dif_pos, abs_mul, hsabs, mul_one]
    exact hy _
  obtain ⟨v, hv, hp⟩ := Ops.pavNumba_spec (rules (cast := cast) (yMin := yMin) (yMax := yMax) hu hM hr hcount hYM)
  refine ⟨fun j => clipInf (cast (v j) * sign) yMin yMax, fun i => clipInf (z i * sign) yMin yMax, ?_, ?_, ?_⟩
  · unfold Ops.isotonic
    rw [hYY, hv]
    simp only [hms]
    rfl
  · simp only [isotonicL2Pav, ← hsign, ← hY, hz]
  intro i
  have hn : 0 < n := i.pos
  obtain ⟨S, e, h⟩ := hp hn
  set E := avgErr u M n with hE
  have hE0 : 0 ≤ E := avgErr_nonneg hu hM n
  have hval : ∀ s ∈ S, s < n → ∃ A B, BlockOk Y u M n s (e s) A B (v s) ∧ ∀ j, s ≤ j → j < e s → v j = v s := by
    intro s hs hsn
    obtain ⟨A, B, C, hP, hc⟩ := h.val s hs hsn
    have := hc s le_rfl (h.lt s hs hsn).1
    rw [this]
    exact ⟨A, B, hP, hc⟩
  have hslack : ∀ s ∈ S, s < n → slack E s (e s) + E ≤ 2 * n * E := by
    intro s hs hsn
    have : ((e s - s : ℕ) : K) ≤ n := by exact_mod_cast (by have := (h.lt s hs hsn).2.1; omega : e s - s ≤ n)
    unfold slack
    nlinarith
  have happ : Approx Y v n (2 * n * E) S e := by
    refine ⟨h.cover, h.lt, h.gap, ?_, ?_, ?_, ?_⟩
    · intro s hs hsn j h1 h2
      obtain ⟨A, B, -, hc⟩ := hval s hs hsn
      exact hc j h1 h2
    · intro s hs hsn hlt
      have := h.dec s hs hsn hlt
      simp only [rounded, gt_iff_lt, decide_eq_true_eq] at this
      exact this.le
    · intro s hs hsn
      obtain ⟨A, B, ⟨-, b2, b3, -⟩, -⟩ := hval s hs hsn
      refine b3.mono ?_
      have := hslack s hs hsn
      linarith [(abs_le.mp b2).1]
    · intro s hs hsn
      obtain ⟨A, B, ⟨-, b2, -, b4⟩, -⟩ := hval s hs hsn
      refine b4.mono ?_
      have := hslack s hs hsn
      linarith [(abs_le.mp b2).2]
  have hclose := happ.close cert i.2
  -- size of the computed value
  have hsize : |v i| ≤ M * (1 + u) ^ (n + 1) := by
    obtain ⟨s, hs, h1, h2, h3⟩ := h.cover i i.2
    obtain ⟨l1, l2, l3⟩ := h.lt s hs h1
    obtain ⟨A, B, ⟨-, b2, -, -⟩, hc⟩ := hval s hs h1
    rw [hc i h2 h3]
    have b5 := avg_bound hYM l1 l2
    have : |v s| ≤ |v s - blockAvg Y s (e s)| + |blockAvg Y s (e s)| := by simpa using abs_add_le (v s - blockAvg Y s (e s)) (blockAvg Y s (e s))
    unfold avgErr at b2
    linarith
  refine (clipInf_dist _ _ _ _).trans ?_
  rw [← sub_mul, abs_mul, hsabs, mul_one]
  have t1 : |cast (v i) - z i| ≤ |cast (v i) - v i| + |v i - z i| := by simpa using abs_add_le (cast (v i) - v i) (v i - z i)
  have t2 := hcast (v i)
  have t3 := mul_le_mul_of_nonneg_left hsize huc
  have e1 : (2 : K) * n * E = 2 * n * (M * ((1 + u) ^ (n + 1) - 1)) := by rw [hE]; rfl
  linarith

/-- Exact arithmetic is the case `u = 0`: this model and the one of C17 agree. -/
theorem C114_exact (yMin yMax : Option K) {n : ℕ} (y : Fin n → K) (increasing : Bool) :
    ∃ w z, (exactOps yMin yMax).isotonic n (fun j => if h : j < n then y ⟨j, h⟩ else 0) increasing = some w ∧
      isotonicL2Pav y yMin yMax increasing = some z ∧ ∀ i : Fin n, w i = z i := by
  obtain ⟨w, z, h1, h2, h3⟩ := C114_accuracy (rnd := id) (cast := id) (u := 0) (uc := 0) (M := ∑ i, |y i|) le_rfl le_rfl
    (sum_nonneg fun _ _ => abs_nonneg _) (by simp) (by simp) (by simp) yMin yMax y
    (fun i => single_le_sum (f := fun i => |y i|) (fun _ _ => abs_nonneg _) (mem_univ i)) increasing
  refine ⟨w, z, h1, h2, fun i => ?_⟩
  have := h3 i
  simp at this
  exact sub_eq_zero.mp this

end accuracy

/-- **C114**, binary64: data of type float64 and size at most `M`, without overflow and underflow, give a result within `2 n M ((1 + 2⁻⁵³)ⁿ⁺¹ - 1)` of the
solution. -/
theorem C114_accuracy_binary64 {M : ℚ} {n : ℕ} (hn : n ≤ 2 ^ 53) (hM : 0 ≤ M) (yMin yMax : Option ℚ) (y : Fin n → ℚ) (hy : ∀ i, |y i| ≤ M)
    (increasing : Bool) :
    ∃ w z, (rounded (roundBin 52) id yMin yMax).isotonic n (fun j => if h : j < n then y ⟨j, h⟩ else 0) increasing = some w ∧
      isotonicL2Pav y yMin yMax increasing = some z ∧ ∀ i : Fin n, |w i - z i| ≤ 2 * n * (M * ((1 + 1 / 2 ^ 53) ^ (n + 1) - 1)) := by
  obtain ⟨w, z, h1, h2, h3⟩ := C114_accuracy (rnd := roundBin 52) (cast := id) (u := 1 / 2 ^ 53) (uc := 0) (M := M) (by norm_num) le_rfl hM
    (fun x => by have := roundBin_error 52 x; norm_num at this ⊢; linarith)
    (fun m hm => roundBin_exact 52 ⟨m, 0, by rw [abs_of_nonneg (by positivity)]; exact_mod_cast hm.trans hn, by simp⟩) (by simp) yMin yMax y hy increasing
  exact ⟨w, z, h1, h2, fun i => by have := h3 i; linarith⟩

/-- **C114** is false of averages: a constant float64 sequence is not returned unchanged, and the result leaves the range of `y`. Three copies of the float nearest
to `0.1` give the next larger float. -/
theorem C114_constant_false :
    let x : ℚ := 3602879701896397 / 2 ^ 55
    roundBin 52 (1 / 10) = x ∧
      ((rounded (roundBin 52) id none none).isotonic 3 (fun _ => x) true).map (fun w => (w 0, w 1, w 2)) =
        some (x + 1 / 2 ^ 56, x + 1 / 2 ^ 56, x + 1 / 2 ^ 56) := by
  decide +kernel

/-- The bound of `C114_accuracy_binary64` for that sequence is not vacuous: it is below `10⁻¹⁵`. -/
example : (1 : ℚ) / 2 ^ 56 ≤ 2 * (3 : ℕ) * (3602879701896397 / 2 ^ 55 * ((1 + 1 / 2 ^ 53) ^ (3 + 1) - 1)) ∧
    2 * (3 : ℕ) * ((3602879701896397 : ℚ) / 2 ^ 55 * ((1 + 1 / 2 ^ 53) ^ (3 + 1) - 1)) ≤ 1 / 10 ^ 15 := by norm_num

/-- Two pools with rounding to three bits: the sums 5 + 4 = 9 and 7 + 6 = 13 are rounded to 8 and 12. -/
example : ((rounded (roundBin 2) id none none).isotonic 4 (fun j => ([5, 4, 7, 6].getD j 0 : ℚ)) true).map (fun w => (w 0, w 1, w 2, w 3)) =
    some (4, 4, 6, 6) := by decide +kernel

/-- **C114** is false of integer data: the result is truncated towards zero.  The data `1, 1, 0` give `0, 0, 0` although the solution is `2/3` everywhere and
`1, 1, 1` is closer to the data than the returned sequence. -/
theorem C114_integer_false :
    ((rounded id truncate none none).isotonic 3 (fun j => if j = 2 then 0 else 1) true).map (fun w => (w 0, w 1, w 2)) = some (0, 0, 0) ∧
    (isotonicL2Pav ![(1 : ℚ), 1, 0] none none true).map (fun w => (w 0, w 1, w 2)) = some (2 / 3, 2 / 3, 2 / 3) ∧
    ((1 : ℚ) - 1) ^ 2 + (1 - 1) ^ 2 + (1 - 0) ^ 2 < (0 - 1) ^ 2 + (0 - 1) ^ 2 + (0 - 0) ^ 2 := by
  decide +kernel

end Jaxopt.Isotonic
