import Verif.Num.Format
import Mathlib.Data.Int.Log
import Mathlib.Data.Rat.Floor
import Mathlib.Algebra.Order.Floor.Ring
import Mathlib.Algebra.Ring.Parity
import Mathlib.Tactic.Linarith
import Mathlib.Tactic.NormNum
import Mathlib.Tactic.Ring
import Mathlib.Tactic.FieldSimp

/-!
# Binary floating-point numbers with rounding to nearest, ties to even

`binary q` has `q + 1` significant bits and an unbounded exponent: it agrees with IEEE binary64 (`q = 52`) and binary32 (`q = 23`) as long
as there is no overflow or underflow.
-/

set_option autoImplicit false
set_option linter.unusedSectionVars false

namespace Jaxopt

/-- The integer nearest to `y`, the even one when there are two. -/
def roundEven (y : ℚ) : ℤ :=
  if y - ⌊y⌋ < 1 / 2 then ⌊y⌋ else if 1 / 2 < y - ⌊y⌋ then ⌊y⌋ + 1 else if ⌊y⌋ % 2 = 0 then ⌊y⌋ else ⌊y⌋ + 1

theorem roundEven_int (k : ℤ) : roundEven k = k := by
  unfold roundEven
  rw [Int.floor_intCast, if_pos (by norm_num)]

theorem roundEven_near (y : ℚ) : |(roundEven y : ℚ) - y| ≤ 1 / 2 := by
  have h1 := Int.floor_le y
  have h2 := Int.lt_floor_add_one y
  unfold roundEven
  rw [abs_le]
  split_ifs <;> push_cast <;> constructor <;> linarith

theorem roundEven_mono {x y : ℚ} (h : x ≤ y) : roundEven x ≤ roundEven y := by
  have hf : ⌊x⌋ ≤ ⌊y⌋ := Int.floor_le_floor h
  rcases hf.eq_or_lt with e | l
  · unfold roundEven
    rw [e]
    have h' : x - (⌊y⌋ : ℚ) ≤ y - ⌊y⌋ := by linarith
    split_ifs <;> first | omega | (exfalso; linarith)
  · have a : roundEven x ≤ ⌊x⌋ + 1 := by unfold roundEven; split_ifs <;> omega
    have b : ⌊y⌋ ≤ roundEven y := by unfold roundEven; split_ifs <;> omega
    omega

theorem roundEven_neg (y : ℚ) : roundEven (-y) = -roundEven y := by
  have h1 := Int.floor_le y
  have h2 := Int.lt_floor_add_one y
  by_cases hz : (⌊y⌋ : ℚ) = y
  · rw [← hz, ← Int.cast_neg, roundEven_int, roundEven_int]
  · have hlt : (⌊y⌋ : ℚ) < y := lt_of_le_of_ne h1 hz
    have hf : ⌊-y⌋ = -⌊y⌋ - 1 := by
      rw [Int.floor_eq_iff]
      push_cast
      constructor <;> linarith
    unfold roundEven
    rw [hf]
    push_cast
    split_ifs <;> first | omega | (exfalso; linarith)

/-- Exponent of the last bit of `x`. -/
def lastExp (q : ℕ) (x : ℚ) : ℤ := Int.log 2 |x| - q

/-- Rounding to `q + 1` significant bits. -/
def roundBin (q : ℕ) (x : ℚ) : ℚ := roundEven (x / 2 ^ lastExp q x) * 2 ^ lastExp q x

theorem two_zpow_pos (e : ℤ) : (0 : ℚ) < 2 ^ e := zpow_pos two_pos e

theorem roundBin_neg (q : ℕ) (x : ℚ) : roundBin q (-x) = -roundBin q x := by
  unfold roundBin lastExp
  rw [abs_neg, neg_div, roundEven_neg]
  push_cast
  ring

theorem roundBin_zero (q : ℕ) : roundBin q 0 = 0 := by
  have : roundEven 0 = 0 := by exact_mod_cast roundEven_int 0
  unfold roundBin
  rw [zero_div, this]
  simp

theorem scaled_bounds (q : ℕ) {x : ℚ} (hx : 0 < x) : (2 : ℚ) ^ q ≤ x / 2 ^ lastExp q x ∧ x / 2 ^ lastExp q x < 2 ^ (q + 1) := by
  have h1 : (2 : ℚ) ^ Int.log 2 x ≤ x := by exact_mod_cast Int.zpow_log_le_self (b := 2) one_lt_two hx
  have h2 : x < (2 : ℚ) ^ (Int.log 2 x + 1) := by exact_mod_cast Int.lt_zpow_succ_log_self (b := 2) one_lt_two x
  have he := two_zpow_pos (lastExp q x)
  have e : lastExp q x = Int.log 2 x - q := by rw [lastExp, abs_of_pos hx]
  rw [le_div_iff₀ he, div_lt_iff₀ he, e]
  constructor
  · rw [← zpow_natCast, ← zpow_add₀ two_ne_zero]
    rw [show (q : ℤ) + (Int.log 2 x - q) = Int.log 2 x by ring]
    exact h1
  · rw [← zpow_natCast, ← zpow_add₀ two_ne_zero]
    rw [show ((q + 1 : ℕ) : ℤ) + (Int.log 2 x - q) = Int.log 2 x + 1 by push_cast; ring]
    exact h2

theorem roundEven_scaled (q : ℕ) {x : ℚ} (hx : 0 < x) :
    (2 : ℤ) ^ q ≤ roundEven (x / 2 ^ lastExp q x) ∧ roundEven (x / 2 ^ lastExp q x) ≤ 2 ^ (q + 1) := by
  obtain ⟨h1, h2⟩ := scaled_bounds q hx
  constructor
  · have := roundEven_mono (x := ((2 ^ q : ℤ) : ℚ)) (by push_cast; exact h1)
    rwa [roundEven_int] at this
  · have := roundEven_mono (y := ((2 ^ (q + 1) : ℤ) : ℚ)) (by push_cast; exact h2.le)
    rwa [roundEven_int] at this

theorem roundBin_pos_mono (q : ℕ) {x y : ℚ} (hx : 0 < x) (h : x ≤ y) : roundBin q x ≤ roundBin q y := by
  have hy := hx.trans_le h
  have hlog : Int.log 2 x ≤ Int.log 2 y := Int.log_mono_right hx h
  have ex : lastExp q x = Int.log 2 x - q := by rw [lastExp, abs_of_pos hx]
  have ey : lastExp q y = Int.log 2 y - q := by rw [lastExp, abs_of_pos hy]
  rcases hlog.eq_or_lt with e | l
  · have : lastExp q x = lastExp q y := by rw [ex, ey, e]
    unfold roundBin
    rw [this]
    refine mul_le_mul_of_nonneg_right ?_ (two_zpow_pos _).le
    exact_mod_cast roundEven_mono (div_le_div_of_nonneg_right h (two_zpow_pos _).le)
  · have a := (roundEven_scaled q hx).2
    have b := (roundEven_scaled q hy).1
    have a' : ((roundEven (x / 2 ^ lastExp q x) : ℤ) : ℚ) ≤ 2 ^ (q + 1) := by exact_mod_cast a
    have b' : (2 : ℚ) ^ q ≤ ((roundEven (y / 2 ^ lastExp q y) : ℤ) : ℚ) := by exact_mod_cast b
    unfold roundBin
    calc _ ≤ (2 : ℚ) ^ (q + 1) * 2 ^ lastExp q x := mul_le_mul_of_nonneg_right a' (two_zpow_pos _).le
      _ = 2 ^ (lastExp q x + 1) * 2 ^ q := by rw [zpow_add_one₀ two_ne_zero, pow_succ]; ring
      _ ≤ 2 ^ lastExp q y * 2 ^ q :=
        mul_le_mul_of_nonneg_right (zpow_le_zpow_right₀ one_le_two (by rw [ex, ey]; omega)) (by positivity)
      _ = 2 ^ q * 2 ^ lastExp q y := mul_comm _ _
      _ ≤ _ := mul_le_mul_of_nonneg_right b' (two_zpow_pos _).le

theorem roundBin_nonneg (q : ℕ) {x : ℚ} (hx : 0 ≤ x) : 0 ≤ roundBin q x := by
  rcases hx.eq_or_lt with rfl | h
  · rw [roundBin_zero]
  · have := (roundEven_scaled q h).1
    have h' : (0 : ℤ) ≤ roundEven (x / 2 ^ lastExp q x) := le_trans (by positivity) this
    exact mul_nonneg (by exact_mod_cast h') (two_zpow_pos _).le

theorem roundBin_mono (q : ℕ) {x y : ℚ} (h : x ≤ y) : roundBin q x ≤ roundBin q y := by
  rcases lt_trichotomy x 0 with hx | rfl | hx
  · rcases lt_or_ge y 0 with hy | hy
    · have := roundBin_pos_mono q (neg_pos.mpr hy) (neg_le_neg h)
      rw [roundBin_neg, roundBin_neg] at this
      linarith
    · have h1 := roundBin_nonneg q (neg_pos.mpr hx).le
      rw [roundBin_neg] at h1
      have h2 := roundBin_nonneg q hy
      linarith
  · rw [roundBin_zero]; exact roundBin_nonneg q h
  · exact roundBin_pos_mono q hx h

/-- The numbers of the format: an integer of at most `q + 1` bits times a power of two. -/
def IsBin (q : ℕ) (x : ℚ) : Prop := ∃ m e : ℤ, |m| ≤ 2 ^ (q + 1) ∧ x = m * 2 ^ e

theorem roundBin_isBin (q : ℕ) (x : ℚ) : IsBin q (roundBin q x) := by
  refine ⟨_, _, ?_, rfl⟩
  rcases lt_trichotomy x 0 with hx | rfl | hx
  · have e : x / 2 ^ lastExp q x = -(-x / 2 ^ lastExp q (-x)) := by unfold lastExp; rw [abs_neg]; ring
    rw [e, roundEven_neg, abs_neg, abs_of_nonneg (le_trans (by positivity) (roundEven_scaled q (neg_pos.mpr hx)).1)]
    exact (roundEven_scaled q (neg_pos.mpr hx)).2
  · have : roundEven 0 = 0 := by exact_mod_cast roundEven_int 0
    rw [zero_div, this, abs_zero]; positivity
  · rw [abs_of_nonneg (le_trans (by positivity) (roundEven_scaled q hx).1)]
    exact (roundEven_scaled q hx).2

theorem roundBin_pos_exact (q : ℕ) {m e : ℤ} (hm : 0 < m) (h : m ≤ 2 ^ (q + 1)) : roundBin q (m * 2 ^ e) = m * 2 ^ e := by
  have hx : (0 : ℚ) < m * 2 ^ e := mul_pos (by exact_mod_cast hm) (two_zpow_pos e)
  -- the scaled number is an integer
  have key : ∃ k : ℤ, ((m : ℚ) * 2 ^ e) / 2 ^ lastExp q (m * 2 ^ e) = k := by
    have e1 : lastExp q ((m : ℚ) * 2 ^ e) = Int.log 2 ((m : ℚ) * 2 ^ e) - q := by rw [lastExp, abs_of_pos hx]
    rcases h.eq_or_lt with rfl | h
    · refine ⟨2 ^ q, ?_⟩
      have e2 : ((2 ^ (q + 1) : ℤ) : ℚ) * 2 ^ e = ((2 : ℕ) : ℚ) ^ ((q : ℤ) + 1 + e) := by
        push_cast
        rw [zpow_add₀ two_ne_zero]
        norm_cast
      rw [e1, e2, Int.log_zpow one_lt_two]
      push_cast
      rw [show (q : ℤ) + 1 + e - q = (q + 1 + e) - (q : ℤ) by ring, zpow_sub₀ two_ne_zero, div_div_eq_mul_div,
        mul_div_cancel_left₀ _ (zpow_ne_zero _ two_ne_zero)]
      norm_cast
    · have hlt : (m : ℚ) * 2 ^ e < ((2 : ℕ) : ℚ) ^ ((q : ℤ) + 1 + e) := by
        push_cast
        rw [zpow_add₀ two_ne_zero]
        refine mul_lt_mul_of_pos_right ?_ (two_zpow_pos e)
        have : (m : ℚ) < 2 ^ (q + 1) := by exact_mod_cast h
        exact_mod_cast this
      have hlog : Int.log 2 ((m : ℚ) * 2 ^ e) < (q : ℤ) + 1 + e := (Int.lt_zpow_iff_log_lt one_lt_two hx).mp hlt
      obtain ⟨n, hn⟩ := Int.eq_ofNat_of_zero_le (show 0 ≤ e - lastExp q ((m : ℚ) * 2 ^ e) by rw [e1]; omega)
      refine ⟨m * 2 ^ n, ?_⟩
      rw [mul_div_assoc, ← zpow_sub₀ two_ne_zero, hn]
      push_cast
      norm_cast
  obtain ⟨k, hk⟩ := key
  unfold roundBin
  rw [hk, roundEven_int, ← hk, div_mul_cancel₀ _ (two_zpow_pos _).ne']

theorem roundBin_exact (q : ℕ) {x : ℚ} (h : IsBin q x) : roundBin q x = x := by
  obtain ⟨m, e, h1, rfl⟩ := h
  rcases lt_trichotomy m 0 with hm | rfl | hm
  · have := roundBin_pos_exact q (m := -m) (e := e) (by omega) (by rw [← abs_of_neg hm]; exact h1)
    rw [show ((-m : ℤ) : ℚ) * 2 ^ e = -(m * 2 ^ e) by push_cast; ring, roundBin_neg] at this
    linarith
  · simp [roundBin_zero]
  · exact roundBin_pos_exact q hm (by rwa [abs_of_pos hm] at h1)

/-- Relative error of rounding. -/
theorem roundBin_error (q : ℕ) (x : ℚ) : |roundBin q x - x| ≤ |x| / 2 ^ (q + 1) := by
  have key : ∀ x : ℚ, 0 < x → |roundBin q x - x| ≤ |x| / 2 ^ (q + 1) := by
    intro x hx
    have hE := two_zpow_pos (lastExp q x)
    have h1 := roundEven_near (x / 2 ^ lastExp q x)
    have h2 := (scaled_bounds q hx).1
    have e : roundBin q x - x = (roundEven (x / 2 ^ lastExp q x) - x / 2 ^ lastExp q x) * 2 ^ lastExp q x := by
      unfold roundBin
      rw [sub_mul, div_mul_cancel₀ _ hE.ne']
    rw [e, abs_mul, abs_of_pos hE, abs_of_pos hx, le_div_iff₀ (by positivity)]
    rw [le_div_iff₀ hE] at h2
    calc _ ≤ 1 / 2 * 2 ^ lastExp q x * 2 ^ (q + 1) :=
          mul_le_mul_of_nonneg_right (mul_le_mul_of_nonneg_right h1 hE.le) (by positivity)
      _ = 2 ^ q * 2 ^ lastExp q x := by rw [pow_succ]; ring
      _ ≤ x := h2
  rcases lt_trichotomy x 0 with hx | rfl | hx
  · have := key (-x) (neg_pos.mpr hx)
    rw [roundBin_neg, abs_neg, ← neg_sub', abs_neg] at this
    exact this
  · rw [roundBin_zero]; simp
  · exact key x hx

/-- The format. -/
def binary (q : ℕ) : Format ℚ where
  mem := IsBin q
  round := fun x => .fin (roundBin q x)
  mono := fun h => by simpa [Ext.le] using roundBin_mono q h
  exact := fun h => by rw [roundBin_exact q h]
  mem_round := fun h => by injection h with h; rw [← h]; exact roundBin_isBin q _

end Jaxopt
