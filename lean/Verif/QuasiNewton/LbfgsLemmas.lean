import Verif.QuasiNewton.Lbfgs
import Verif.QuasiNewton.Spec
import Mathlib.Tactic.LinearCombination
import Mathlib.Tactic.Abel
import Mathlib.Data.Int.ModEq

set_option autoImplicit false
set_option linter.unusedSectionVars false
set_option linter.unusedVariables false

namespace Jaxopt.QuasiNewton

variable {K E : Type*} [Field K] [LinearOrder K] [IsStrictOrderedRing K] [AddCommGroup E] [Module K E]

/-- One inverse update with a stored `rho`. -/
def stepH (vdot : E → E → K) (H : E → E) (p : E × E × K) : E → E := fun v =>
  let u := H (v - (p.2.2 * vdot p.1 v) • p.2.1)
  u - (p.2.2 * vdot p.2.1 u) • p.1 + (p.2.2 * vdot p.1 v) • p.1

theorem scanReverse_append {C X Y : Type*} (body : C → X → C × Y) (r : C) (xs : List X) (x : X) :
    scanReverse body r (xs ++ [x]) =
      ((scanReverse body (body r x).1 xs).1, (scanReverse body (body r x).1 xs).2 ++ [(body r x).2]) := by
  induction xs with
  | nil => rfl
  | cons a xs ih => simp only [List.cons_append, scanReverse, ih]

theorem scanReverse_length {C X Y : Type*} (body : C → X → C × Y) (r : C) (xs : List X) :
    (scanReverse body r xs).2.length = xs.length := by
  induction xs with
  | nil => rfl
  | cons a xs ih => simp only [scanReverse, List.length_cons, ih]

/-- The triple stored at a slot. -/
def Hist.at (h : Hist K E) (i : ℕ) : E × E × K := (h.s i, h.y i, h.rho i)

theorem twoLoop (vdot : E → E → K) (h : Hist K E) (gamma : K) (idx : List ℕ) :
    ∀ v, (idx.zip (scanReverse (bodyRight vdot h) v idx).2).foldl (bodyLeft vdot h)
        (gamma • (scanReverse (bodyRight vdot h) v idx).1) =
      (idx.map h.at).foldl (stepH vdot) (fun v => gamma • v) v := by
  induction idx using List.reverseRecOn with
  | nil => intro v; rfl
  | append_singleton idx i ih =>
    intro v
    rw [scanReverse_append]
    simp only [List.map_append, List.map_cons, List.map_nil, List.foldl_append, List.foldl_cons, List.foldl_nil]
    rw [List.zip_append (scanReverse_length _ _ _).symm, List.foldl_append, ih]
    simp only [List.zip_cons_cons, List.zip_nil_right, List.foldl_cons, List.foldl_nil, bodyLeft, bodyRight, stepH,
      Hist.at, neg_smul, sub_smul]
    rw [← sub_eq_add_neg]
    abel

theorem invHessianProduct_eq (vdot : E → E → K) (m : ℕ) (v : E) (h : Hist K E) (gamma : K) (start : ℕ) :
    invHessianProduct vdot m v h gamma start =
      ((indices m start).map h.at).foldl (stepH vdot) (fun v => gamma • v) v := by
  unfold invHessianProduct
  exact twoLoop vdot h gamma _ v

/-! ### Positive definiteness and the secant equation for one update -/

section
variable {vdot : E → E → K}

theorem stepH_zero (hv : IsVdot vdot) (H : E → E) (s y : E) : stepH vdot H (s, y, 0) = H := by
  funext v; simp [stepH]

theorem stepH_eq_bfgsUpdate (hv : IsVdot vdot) (H : E → E) (s y : E) :
    stepH vdot H (s, y, if vdot s y = 0 then 0 else 1 / vdot s y) = bfgsUpdate vdot H (s, y) := by
  by_cases h : vdot s y = 0
  · simp only [h, if_true, bfgsUpdate]; exact stepH_zero hv H s y
  · simp only [h, if_false, bfgsUpdate]; rfl

theorem stepH_symm (hv : IsVdot vdot) {H : E → E} (hs : ∀ u v, vdot u (H v) = vdot (H u) v) (p : E × E × K) :
    ∀ u v, vdot u (stepH vdot H p v) = vdot (stepH vdot H p u) v := by
  obtain ⟨s, y, ρ⟩ := p
  intro u v
  simp only [stepH, hv.add_right, hv.sub_right, hv.smul_right, hv.add_left, hv.sub_left, hv.smul_left]
  have h1 := hs (u - (ρ * vdot s u) • y) (v - (ρ * vdot s v) • y)
  simp only [hv.sub_right, hv.sub_left, hv.smul_left, hv.smul_right] at h1
  rw [hv.symm u s, hv.symm s v]
  linear_combination (norm := skip) h1
  rw [hv.symm (H (u - (ρ * vdot s u) • y)) y, hv.symm s v]
  ring

theorem stepH_quad (hv : IsVdot vdot) (H : E → E) (s y : E) (ρ : K) (v : E) :
    vdot v (stepH vdot H (s, y, ρ) v) =
      vdot (v - (ρ * vdot s v) • y) (H (v - (ρ * vdot s v) • y)) + ρ * (vdot s v * vdot s v) := by
  simp only [stepH, hv.add_right, hv.sub_right, hv.smul_right, hv.sub_left, hv.smul_left]
  rw [hv.symm v s]; ring

theorem stepH_posDef (hv : IsVdot vdot) {H : E → E} (hH : PosDef vdot H) {s y : E} {ρ : K}
    (hρ : 0 ≤ ρ) : PosDef vdot (stepH vdot H (s, y, ρ)) where
  symm := stepH_symm hv hH.symm _
  pos := by
    intro v hne
    rw [stepH_quad hv]
    rcases eq_or_ne (v - (ρ * vdot s v) • y) 0 with h0 | h0
    · have h1 : ρ * vdot s v ≠ 0 := by
        intro e; rw [e, zero_smul, sub_zero] at h0; exact hne h0
      have h2 : ρ ≠ 0 := left_ne_zero_of_mul h1
      have h3 : vdot s v ≠ 0 := right_ne_zero_of_mul h1
      have h4 := mul_pos (lt_of_le_of_ne hρ h2.symm) (mul_self_pos.mpr h3)
      have h5 : 0 ≤ vdot (v - (ρ * vdot s v) • y) (H (v - (ρ * vdot s v) • y)) := by
        rw [h0, hv.zero_left]
      linarith
    · have h4 := mul_nonneg hρ (mul_self_nonneg (vdot s v))
      have h5 := hH.pos _ h0
      linarith

theorem gammaI_posDef (hv : IsVdot vdot) {γ : K} (hγ : 0 < γ) : PosDef vdot (fun v : E => γ • v) where
  symm := by intro u v; rw [hv.smul_right, hv.smul_left]
  pos := by intro v hne; rw [hv.smul_right]; exact mul_pos hγ (hv.pos v hne)

theorem fold_posDef (hv : IsVdot vdot) {γ : K} (hγ : 0 < γ) (l : List (E × E × K)) (hl : ∀ p ∈ l, 0 ≤ p.2.2) :
    PosDef vdot (l.foldl (stepH vdot) (fun v => γ • v)) := by
  induction l using List.reverseRecOn with
  | nil => exact gammaI_posDef hv hγ
  | append_singleton l p ih =>
    rw [List.foldl_append]
    exact stepH_posDef hv (ih fun q hq => hl q (by simp [hq])) (hl p (by simp))

theorem stepH_map_zero (hv : IsVdot vdot) {H : E → E} (h0 : H 0 = 0) (p : E × E × K) :
    stepH vdot H p 0 = 0 := by
  simp [stepH, hv.zero_right, h0]

theorem fold_map_zero (hv : IsVdot vdot) (γ : K) (l : List (E × E × K)) :
    l.foldl (stepH vdot) (fun v => γ • v) 0 = 0 := by
  induction l using List.reverseRecOn with
  | nil => simp
  | append_singleton l p ih => rw [List.foldl_append]; exact stepH_map_zero hv ih p

theorem stepH_secant (hv : IsVdot vdot) {H : E → E} (h0 : H 0 = 0) {s y : E} (hsy : vdot s y ≠ 0) :
    stepH vdot H (s, y, 1 / vdot s y) y = s := by
  simp only [stepH]
  rw [one_div_mul_cancel hsy, one_smul, sub_self, h0, hv.zero_right, mul_zero, zero_smul, sub_zero, zero_add, one_smul]

end

/-! ### The circular buffer -/

theorem indices_map {α : Type*} (g : ℕ → α) (m start : ℕ) :
    (indices m start).map g = (List.range m).map fun i => g ((start + i) % m) := by
  simp [indices, Function.comp_def]

/-- What the buffer contains after `n` updates whose triples were `p 0, …, p (n-1)`. -/
structure BufInv (m n : ℕ) (h : Hist K E) (p : ℕ → E × E × K) : Prop where
  recent : ∀ k, k < n → n ≤ k + m → h.at (k % m) = p k
  empty : ∀ j, n ≤ j → j < m → h.at j = (0, 0, 0)

theorem bufInv_init (m : ℕ) (p : ℕ → E × E × K) : BufInv m 0 (initHist : Hist K E) p :=
  ⟨fun k hk => absurd hk (Nat.not_lt_zero _), fun _ _ _ => rfl⟩

theorem Hist.at_set (h : Hist K E) (last : ℕ) (s y : E) (ρ : K) (j : ℕ) :
    (h.set last s y ρ).at j = if j = last then (s, y, ρ) else h.at j := by
  by_cases hj : j = last
  · subst hj; simp [Hist.at, Hist.set]
  · simp [Hist.at, Hist.set, hj]

theorem bufInv_step {m n : ℕ} (hm : 0 < m) {h : Hist K E} {p : ℕ → E × E × K} (hi : BufInv m n h p)
    {s y : E} {ρ : K} (hp : p n = (s, y, ρ)) : BufInv m (n + 1) (h.set (n % m) s y ρ) p where
  recent := by
    intro k hk hkm
    rw [Hist.at_set]
    rcases Nat.lt_or_eq_of_le (Nat.lt_succ_iff.mp hk) with h1 | h1
    · have hne : k % m ≠ n % m := by
        intro e
        have h2 : m ∣ n - k := (Nat.modEq_iff_dvd' h1.le).mp e
        have := Nat.le_of_dvd (by omega) h2
        omega
      rw [if_neg hne]
      exact hi.recent k h1 (by omega)
    · rw [h1, if_pos rfl, hp]
  empty := by
    intro j hj hjm
    rw [Hist.at_set, if_neg, hi.empty j (by omega) hjm]
    rw [Nat.mod_eq_of_lt (by omega)]; omega

theorem bufInv_read {m n : ℕ} (hm : 0 < m) {h : Hist K E} {p : ℕ → E × E × K} (hi : BufInv m n h p) :
    (indices m (n % m)).map h.at =
      List.replicate (m - n) (0, 0, 0) ++ (List.range' (n - m) (min n m)).map p := by
  rw [indices_map]
  apply List.ext_getElem
  · simp; omega
  · intro i h1 h2
    simp only [List.length_map, List.length_range] at h1
    simp only [List.getElem_map, List.getElem_range, Nat.mod_add_mod]
    rw [List.getElem_append]
    split_ifs with h3
    · simp only [List.length_replicate] at h3
      rw [List.getElem_replicate, Nat.mod_eq_of_lt (by omega)]
      exact hi.empty _ (by omega) (by omega)
    · simp only [List.length_replicate] at h3
      simp only [List.getElem_map, List.getElem_range', List.length_replicate]
      have e : n - m + 1 * (i - (m - n)) = n + i - m := by omega
      rw [e, ← hi.recent (n + i - m) (by omega) (by omega)]
      congr 1
      have : n + i = (n + i - m) + m := by omega
      conv_lhs => rw [this]
      exact Nat.add_mod_right _ _

theorem fold_pad {vdot : E → E → K} (hv : IsVdot vdot) (H : E → E) (k : ℕ) :
    (List.replicate k ((0 : E), (0 : E), (0 : K))).foldl (stepH vdot) H = H := by
  induction k with
  | zero => rfl
  | succ k ih => rw [List.replicate_succ, List.foldl_cons, stepH_zero hv, ih]

end Jaxopt.QuasiNewton
