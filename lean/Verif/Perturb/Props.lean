import Verif.Perturb.Model
import Mathlib.Analysis.Convex.Combination
import Mathlib.Analysis.Convex.Function
import Mathlib.Analysis.Calculus.FDeriv.Basic
import Mathlib.Analysis.Calculus.Deriv.Basic
import Mathlib.Analysis.Calculus.Deriv.Comp
import Mathlib.Analysis.Calculus.Deriv.Add
import Mathlib.Analysis.Calculus.Deriv.Mul
import Mathlib.Analysis.Calculus.LocalExtr.Basic
import Mathlib.Tactic.Linarith
import Mathlib.Tactic.FieldSimp

/-!
# Properties C48 and C49 (Fenchel-Young losses)
-/

set_option autoImplicit false
set_option linter.unusedSectionVars false
set_option linter.unusedVariables false

namespace Jaxopt.Perturb

variable {E : Type*} [NormedAddCommGroup E] [InnerProductSpace ℝ E] {N : ℕ}

/-! ## Specification -/

/-- `a` returns a maximiser of the linear function over `Y`. -/
def IsArgmax (Y : Set E) (a : E → E) : Prop := ∀ s, a s ∈ Y ∧ ∀ y ∈ Y, inner ℝ s y ≤ inner ℝ s (a s)

/-- `g` is a subgradient of `f` at `x`. -/
def IsSubgrad (f : E → ℝ) (g x : E) : Prop := ∀ y, f x + inner ℝ g (y - x) ≤ f y

theorem convexOn_of_subgrad {f : E → ℝ} {g : E → E} (h : ∀ x, IsSubgrad f (g x) x) : ConvexOn ℝ Set.univ f := by
  refine ⟨convex_univ, fun x _ y _ a b ha hb hab => ?_⟩
  simp only [smul_eq_mul]
  set u := a • x + b • y with hu
  have h1 := mul_le_mul_of_nonneg_left (h u x) ha
  have h2 := mul_le_mul_of_nonneg_left (h u y) hb
  have e : a * inner ℝ (g u) (x - u) + b * inner ℝ (g u) (y - u) = 0 := by
    rw [← real_inner_smul_right, ← real_inner_smul_right, ← inner_add_right]
    have : a • (x - u) + b • (y - u) = 0 := by
      rw [smul_sub, smul_sub]
      have : a • u + b • u = u := by rw [← add_smul, hab, one_smul]
      calc a • x - a • u + (b • y - b • u) = (a • x + b • y) - (a • u + b • u) := by abel
        _ = 0 := by rw [this, ← hu, sub_self]
    rw [this, inner_zero_right]
  have e2 : a * f u + b * f u = f u := by rw [← add_mul, hab, one_mul]
  linarith

/-- Where a derivative exists, it is given by any subgradient. -/
theorem fderiv_eq_of_subgrad {f : E → ℝ} {g x : E} (h : IsSubgrad f g x) {L : E →L[ℝ] ℝ} (hL : HasFDerivAt f L x) (v : E) :
    L v = inner ℝ g v := by
  have hline : HasDerivAt (fun t : ℝ => x + t • v) v 0 := by
    simpa using ((hasDerivAt_id (0 : ℝ)).smul_const v).const_add x
  have h0 : HasFDerivAt f L (x + (0 : ℝ) • v) := by simpa using hL
  have h1 := h0.comp_hasDerivAt (0 : ℝ) hline
  have h2 : HasDerivAt (fun t : ℝ => f (x + t • v) - t * inner ℝ g v) (L v - 1 * inner ℝ g v) 0 :=
    h1.sub ((hasDerivAt_id (0 : ℝ)).mul_const _)
  have hmin : IsLocalMin (fun t : ℝ => f (x + t • v) - t * inner ℝ g v) 0 := by
    refine Filter.Eventually.of_forall fun t => ?_
    have := h (x + t • v)
    rw [add_sub_cancel_left, inner_smul_right] at this
    simp only [zero_smul, add_zero, zero_mul, sub_zero]
    linarith
  have := hmin.hasDerivAt_eq_zero h2
  linarith

/-! ## C48 -/

/-- **C48**: for fixed noise, the perturbed argmax is a subgradient of the perturbed max at every input. -/
theorem C48_subgradient {Y : Set E} {a : E → E} (ha : IsArgmax Y a) (sigma : ℝ) (z : Fin N → E) (x : E) :
    IsSubgrad (perturbedMax a sigma z) (perturbedArgmax a sigma z x) x := by
  intro y
  unfold perturbedMax perturbedArgmax
  have hN : (0 : ℝ) ≤ 1 / (N : ℝ) := by positivity
  rw [inner_smul_left, sum_inner]
  simp only [conj_trivial]
  rw [← mul_add, ← Finset.sum_add_distrib]
  refine mul_le_mul_of_nonneg_left (Finset.sum_le_sum fun i _ => ?_) hN
  have h1 := (ha (y + sigma • z i)).2 (a (x + sigma • z i)) (ha (x + sigma • z i)).1
  refine le_trans (le_of_eq ?_) h1
  rw [real_inner_comm (y - x), ← inner_add_left]
  congr 1
  abel

/-- **C48**: for fixed noise, the perturbed max is convex. -/
theorem C48_convex {Y : Set E} {a : E → E} (ha : IsArgmax Y a) (sigma : ℝ) (z : Fin N → E) :
    ConvexOn ℝ Set.univ (perturbedMax a sigma z) := convexOn_of_subgrad fun x => C48_subgradient ha sigma z x

/-- **C48**: wherever the perturbed max has a derivative, the custom JVP computes it. -/
theorem C48_jvp {Y : Set E} {a : E → E} (ha : IsArgmax Y a) (sigma : ℝ) (z : Fin N → E) (x : E) {L : E →L[ℝ] ℝ}
    (hL : HasFDerivAt (perturbedMax a sigma z) L x) (tangent : E) : perturbedMaxJvp a sigma z x tangent = L tangent :=
  (fderiv_eq_of_subgrad (C48_subgradient ha sigma z x) hL tangent).symm

/-- **C48**: the perturbed argmax is in the convex hull of the argmax outputs (at least one sample), hence in every convex set that contains
the feasible set. -/
theorem C48_hull (a : E → E) (sigma : ℝ) (z : Fin N → E) (hN : 0 < N) (x : E) :
    perturbedArgmax a sigma z x ∈ convexHull ℝ (Set.range fun i => a (x + sigma • z i)) := by
  unfold perturbedArgmax
  rw [Finset.smul_sum]
  refine (convex_convexHull ℝ _).sum_mem (fun i _ => by positivity) ?_ fun i _ => subset_convexHull ℝ _ ⟨i, rfl⟩
  rw [Finset.sum_const, Finset.card_univ, Fintype.card_fin, nsmul_eq_mul]
  have : (N : ℝ) ≠ 0 := by exact_mod_cast hN.ne'
  field_simp

/-- **C48**: the perturbed max is between the mean objective of any feasible point and is attained by feasible points. -/
theorem C48_max {Y : Set E} {a : E → E} (ha : IsArgmax Y a) (sigma : ℝ) (z : Fin N → E) (x : E) (y : E) (hy : y ∈ Y) :
    (1 / (N : ℝ)) * ∑ i, inner ℝ (x + sigma • z i) y ≤ perturbedMax a sigma z x :=
  mul_le_mul_of_nonneg_left (Finset.sum_le_sum fun i _ => (ha _).2 y hy) (by positivity)

/-! ## C49: Fenchel-Young losses -/

/-- `F` and `a` are a max/argmax oracle over `Y` with regulariser `Ω` (`0` for a plain max). -/
structure IsMaxOracle (Y : Set E) (Ω : E → ℝ) (F : E → ℝ) (a : E → E) : Prop where
  mem : ∀ s, a s ∈ Y
  value : ∀ s, F s = inner ℝ (a s) s - Ω (a s)
  max : ∀ s, ∀ y ∈ Y, inner ℝ y s - Ω y ≤ F s

variable {Y : Set E} {Ω F : E → ℝ} {a : E → E}

/-- **C49**: a Fenchel-Young loss of a max oracle is non-negative for targets in the set, and zero exactly when the target is a maximiser. -/
theorem C49_fenchel_young (h : IsMaxOracle Y (fun _ => 0) F a) {y : E} (hy : y ∈ Y) (s : E) :
    0 ≤ fyLoss F y s ∧ (fyLoss F y s = 0 ↔ ∀ y' ∈ Y, inner ℝ y' s ≤ inner ℝ y s) := by
  unfold fyLoss
  have h1 := h.max s y hy
  simp only [sub_zero] at h1
  refine ⟨by linarith, ⟨fun h0 y' hy' => ?_, fun hm => ?_⟩⟩
  · have := h.max s y' hy'
    simp only [sub_zero] at this
    linarith
  · have h2 := hm (a s) (h.mem s)
    have h3 := h.value s
    simp only [sub_zero] at h3
    linarith

/-- **C49**, regularised oracles (such as `logsumexp`, regulariser the negative entropy): the loss plus `Ω(target)` is non-negative and zero
exactly when the target is a maximiser of the regularised objective. -/
theorem C49_regularised (h : IsMaxOracle Y Ω F a) {y : E} (hy : y ∈ Y) (s : E) :
    0 ≤ fyLoss F y s + Ω y ∧ (fyLoss F y s + Ω y = 0 ↔ ∀ y' ∈ Y, inner ℝ y' s - Ω y' ≤ inner ℝ y s - Ω y) := by
  unfold fyLoss
  have h1 := h.max s y hy
  refine ⟨by linarith, ⟨fun h0 y' hy' => ?_, fun hm => ?_⟩⟩
  · have := h.max s y' hy'
    linarith
  · have h2 := hm (a s) (h.mem s)
    have h3 := h.value s
    linarith

/-- **C49**: the Fenchel-Young loss is convex in the scores, `argmax - target` is a subgradient, and it is the derivative wherever one
exists. -/
theorem C49_fenchel_young_gradient (h : IsMaxOracle Y Ω F a) (y : E) :
    ConvexOn ℝ Set.univ (fyLoss F y) ∧ (∀ s, IsSubgrad (fyLoss F y) (a s - y) s) ∧
    ∀ s (L : E →L[ℝ] ℝ), HasFDerivAt (fyLoss F y) L s → ∀ v, L v = inner ℝ (a s - y) v := by
  have hs : ∀ s, IsSubgrad (fyLoss F y) (a s - y) s := by
    intro s s'
    unfold fyLoss
    have h1 := h.max s' (a s) (h.mem s)
    have h2 := h.value s
    rw [inner_sub_left, inner_sub_right, inner_sub_right]
    linarith
  exact ⟨convexOn_of_subgrad hs, hs, fun s L hL v => fderiv_eq_of_subgrad (hs s) hL v⟩

/-! ## Non-vacuity: the interval `[-1, 1]` in the reals -/

/-- The argmax over `{-1, 1}` of a linear function. -/
noncomputable def exArgmax (s : ℝ) : ℝ := if 0 ≤ s then 1 else -1

theorem exArgmax_isArgmax : IsArgmax ({-1, 1} : Set ℝ) exArgmax := by
  intro s
  unfold exArgmax
  refine ⟨by split_ifs <;> simp, fun y hy => ?_⟩
  simp only [Set.mem_insert_iff, Set.mem_singleton_iff] at hy
  simp only [RCLike.inner_apply, conj_trivial]
  split_ifs with h <;> rcases hy with rfl | rfl <;> linarith

theorem exArgmax_isMaxOracle : IsMaxOracle ({-1, 1} : Set ℝ) (fun _ => 0) (fun s => exArgmax s * s) exArgmax where
  mem := fun s => (exArgmax_isArgmax s).1
  value := fun s => by simp only [RCLike.inner_apply, conj_trivial, sub_zero]; ring
  max := fun s y hy => by
    have := (exArgmax_isArgmax s).2 y hy
    simp only [RCLike.inner_apply, conj_trivial, sub_zero] at this ⊢
    linarith

/-- Two samples of noise of opposite sign: the perturbed argmax at 0 is the midpoint. -/
example : perturbedArgmax exArgmax 1 ![(2 : ℝ), -2] 0 = 0 := by
  unfold perturbedArgmax exArgmax
  norm_num [Fin.sum_univ_two]

/-- The loss of the wrong target is positive, of the right one zero. -/
example : fyLoss (fun s => exArgmax s * s) (-1 : ℝ) 3 = 6 ∧ fyLoss (fun s => exArgmax s * s) (1 : ℝ) 3 = 0 := by
  unfold fyLoss exArgmax
  norm_num [RCLike.inner_apply]

end Jaxopt.Perturb
