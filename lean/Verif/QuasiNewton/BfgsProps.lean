import Verif.QuasiNewton.Bfgs
import Verif.QuasiNewton.LbfgsProps
import Mathlib.LinearAlgebra.Matrix.Notation
import Mathlib.Algebra.Order.BigOperators.Ring.Finset

/-!
# Property C26: the BFGS inverse-Hessian approximation
-/

set_option autoImplicit false
set_option linter.unusedSectionVars false
set_option linter.unusedVariables false

namespace Jaxopt.QuasiNewton

open Matrix

variable {K ι V : Type*} [Field K] [LinearOrder K] [IsStrictOrderedRing K] [Fintype ι] [DecidableEq ι]

/-- The dot product of flat vectors is an inner product. -/
theorem isVdot_dotProduct : IsVdot (K := K) (E := ι → K) (fun x y => x ⬝ᵥ y) where
  add_left := fun x y z => add_dotProduct x y z
  smul_left := fun a x z => by rw [smul_dotProduct, smul_eq_mul]
  symm := fun x y => dotProduct_comm x y
  pos := fun x hx => by
    obtain ⟨i, hi⟩ := Function.ne_iff.mp hx
    exact Finset.sum_pos' (fun j _ => mul_self_nonneg _) ⟨i, Finset.mem_univ _, mul_self_pos.mpr hi⟩

namespace Bfgs

/-- The update of the code is the BFGS inverse update of the specification. -/
theorem newH_mulVec (H : Matrix ι ι K) (s y v : ι → K) :
    newH H s y *ᵥ v = bfgsUpdate (fun x y : ι → K => x ⬝ᵥ y) (fun v => H *ᵥ v) (s, y) v := by
  unfold newH reciprocal bfgsUpdate
  simp only [dotProduct_comm s y]
  by_cases h : y ⬝ᵥ s = 0
  · simp [h]
  · simp only [h, if_false]
    have e1 : (1 - (1 / y ⬝ᵥ s) • vecMulVec s y)ᵀ *ᵥ v = v - ((1 / y ⬝ᵥ s) * s ⬝ᵥ v) • y := by
      rw [transpose_sub, transpose_one, transpose_smul, transpose_vecMulVec, sub_mulVec, one_mulVec, smul_mulVec,
        vecMulVec_mulVec]
      simp [smul_smul]
    have e2 : ∀ u : ι → K, (1 - (1 / y ⬝ᵥ s) • vecMulVec s y) *ᵥ u = u - ((1 / y ⬝ᵥ s) * y ⬝ᵥ u) • s := by
      intro u
      rw [sub_mulVec, one_mulVec, smul_mulVec, vecMulVec_mulVec]
      simp [smul_smul]
    rw [add_mulVec, Matrix.mul_assoc, ← mulVec_mulVec, ← mulVec_mulVec, e1, e2, smul_mulVec, vecMulVec_mulVec]
    simp [smul_smul]

/-- The `n`-th iterate. -/
def iter (S : Bfgs K ι V) (x0 : ι → K) (n : ℕ) : (ι → K) × BfgsState K ι V := S.update^[n] (x0, S.initState x0)

/-- The `k`-th pair `(x_{k+1} - x_k, g_{k+1} - g_k)` of a run. -/
def pair (S : Bfgs K ι V) (x0 : ι → K) (k : ℕ) : (ι → K) × (ι → K) :=
  ((S.iter x0 (k + 1)).1 - (S.iter x0 k).1, (S.iter x0 (k + 1)).2.grad - (S.iter x0 k).2.grad)

theorem iter_succ (S : Bfgs K ι V) (x0 : ι → K) (n : ℕ) : S.iter x0 (n + 1) = S.update (S.iter x0 n) := by
  simp only [iter, Function.iterate_succ_apply']

theorem H_succ (S : Bfgs K ι V) (x0 : ι → K) (n : ℕ) :
    (S.iter x0 (n + 1)).2.H = newH (S.iter x0 n).2.H (S.pair x0 n).1 (S.pair x0 n).2 := by
  simp only [pair, iter_succ, update]

/-- **C26, closed form.** At iteration `n` the matrix `H` is the BFGS inverse built from the identity by all the pairs of the
run in order (pairs with `yᵀs = 0` skipped), and the search direction is `-H g`. -/
theorem C26_closed_form (S : Bfgs K ι V) (x0 : ι → K) (n : ℕ) (v : ι → K) :
    (S.iter x0 n).2.H *ᵥ v = bfgsInverse (fun x y : ι → K => x ⬝ᵥ y) (1 : K) ((List.range n).map (S.pair x0)) v ∧
    direction (S.iter x0 n).2 = -((S.iter x0 n).2.H *ᵥ (S.iter x0 n).2.grad) := by
  refine ⟨?_, rfl⟩
  induction n generalizing v with
  | zero => simp [iter, initState, bfgsInverse]
  | succ n ih =>
    rw [H_succ, newH_mulVec, List.range_succ, List.map_append, bfgsInverse, List.foldl_append]
    have e : (fun v => (S.iter x0 n).2.H *ᵥ v) =
        ((List.range n).map (S.pair x0)).foldl (bfgsUpdate (fun x y : ι → K => x ⬝ᵥ y)) (fun v => (1 : K) • v) :=
      funext ih
    rw [e]
    rfl

theorem dot_symm_iff (H : Matrix ι ι K) :
    (∀ u v : ι → K, u ⬝ᵥ H *ᵥ v = (H *ᵥ u) ⬝ᵥ v) ↔ Hᵀ = H := by
  constructor
  · intro h
    ext i j
    have := h (Pi.single j 1) (Pi.single i 1)
    simpa using this
  · intro h u v
    rw [dotProduct_mulVec, ← mulVec_transpose, h]

/-- **C26.** Along any run, with any line search and objective: `H` is symmetric; an update with `y·s ≠ 0` satisfies
`H y = s`; an update with `y·s = 0` leaves `H` unchanged; and if all updates so far had `y·s > 0` then `H` is positive
definite and the search direction is a descent direction whenever the gradient is non-zero. -/
theorem C26_bfgs (S : Bfgs K ι V) (x0 : ι → K) (n : ℕ) :
    (S.iter x0 n).2.Hᵀ = (S.iter x0 n).2.H ∧
    ((S.pair x0 n).2 ⬝ᵥ (S.pair x0 n).1 ≠ 0 → (S.iter x0 (n + 1)).2.H *ᵥ (S.pair x0 n).2 = (S.pair x0 n).1) ∧
    ((S.pair x0 n).2 ⬝ᵥ (S.pair x0 n).1 = 0 → (S.iter x0 (n + 1)).2.H = (S.iter x0 n).2.H) ∧
    ((∀ k < n, 0 < (S.pair x0 k).2 ⬝ᵥ (S.pair x0 k).1) →
      (∀ v, v ≠ 0 → 0 < v ⬝ᵥ (S.iter x0 n).2.H *ᵥ v) ∧
      ((S.iter x0 n).2.grad ≠ 0 → (S.iter x0 n).2.grad ⬝ᵥ direction (S.iter x0 n).2 < 0)) := by
  have hv := isVdot_dotProduct (K := K) (ι := ι)
  refine ⟨?_, ?_, ?_, ?_⟩
  · apply (dot_symm_iff _).mp
    induction n with
    | zero => intro u v; simp [iter, initState]
    | succ n ih =>
      intro u v
      rw [H_succ, newH_mulVec, newH_mulVec, ← stepH_eq_bfgsUpdate hv]
      exact stepH_symm hv (H := fun v => (S.iter x0 n).2.H *ᵥ v) ih _ u v
  · intro h
    rw [H_succ, newH_mulVec, ← stepH_eq_bfgsUpdate hv]
    have h' : (S.pair x0 n).1 ⬝ᵥ (S.pair x0 n).2 ≠ 0 := by rwa [dotProduct_comm]
    rw [if_neg h']
    exact stepH_secant hv (mulVec_zero _) h'
  · intro h
    rw [H_succ]
    simp [newH, reciprocal, h]
  · intro hc
    have hpd : PosDef (fun x y : ι → K => x ⬝ᵥ y) (fun v => (S.iter x0 n).2.H *ᵥ v) := by
      induction n with
      | zero =>
        have := gammaI_posDef hv (γ := 1) one_pos
        simpa [iter, initState] using this
      | succ n ih =>
        have e : (fun v => (S.iter x0 (n + 1)).2.H *ᵥ v) =
            bfgsUpdate (fun x y : ι → K => x ⬝ᵥ y) (fun v => (S.iter x0 n).2.H *ᵥ v) (S.pair x0 n) := by
          funext v; rw [H_succ, newH_mulVec]
        rw [e]
        have h1 := hc n (Nat.lt_succ_self n)
        rw [dotProduct_comm] at h1
        have := stepH_eq_bfgsUpdate hv (fun v => (S.iter x0 n).2.H *ᵥ v) (S.pair x0 n).1 (S.pair x0 n).2
        rw [← this, if_neg h1.ne']
        exact stepH_posDef hv (ih fun k hk => hc k (by omega)) (one_div_pos.mpr h1).le
    refine ⟨hpd.pos, fun hne => ?_⟩
    have := hpd.pos _ hne
    simp only [direction, dotProduct_neg]
    linarith

theorem direction_eq_lbfgs (S : Bfgs K ι V) (L : Lbfgs K (ι → K) V) (x0 : ι → K) (n : ℕ)
    (hv : L.vdot = fun x y => x ⬝ᵥ y) (hm : 1 ≤ L.historySize) (hn : n ≤ L.historySize) (hu : L.useGamma = false)
    (hp : ∀ k < n, S.pair x0 k = L.pair x0 k) (hg : (S.iter x0 n).2.grad = (L.iter x0 n).2.grad) :
    direction (S.iter x0 n).2 = L.direction (L.iter x0 n).2 := by
  have hd := isVdot_dotProduct (K := K) (ι := ι)
  rw [Lbfgs.C24_direction L (by rw [hv]; exact hd) hm, ← hg, (C26_closed_form S x0 n 0).2, ← mulVec_neg,
    (C26_closed_form S x0 n _).1, hv]
  have e1 : (L.iter x0 n).2.gamma = 1 := by
    cases n with
    | zero => rfl
    | succ n => exact (Lbfgs.C24_gamma L (by rw [hv]; exact hd) x0 n).2.2.1 (Or.inr (Or.inl hu))
  rw [e1]
  congr 1
  unfold Lbfgs.lastPairs
  rw [Nat.min_eq_left hn, Nat.sub_eq_zero_of_le hn, List.range_eq_range']
  apply List.map_congr_left
  intro k hk
  exact hp k (by have := List.mem_range'_1.mp hk; omega)

/-- **C26, consistency with L-BFGS.** For the same problem, stepsize and line search, `LBFGS(use_gamma=False)` visits the
same points, values, gradients and stepsizes as `BFGS` as long as its memory has not overflowed. -/
theorem C26_agrees_with_lbfgs (S : Bfgs K ι V) (L : Lbfgs K (ι → K) V) (x0 : ι → K)
    (hv : L.vdot = fun x y => x ⬝ᵥ y) (hm : 1 ≤ L.historySize) (hu : L.useGamma = false) (hf : L.f = S.f)
    (hg : L.grad = S.grad) (hs : L.stepsize = S.stepsize) (hmax : L.maxStepsize = S.maxStepsize)
    (hi : L.initStep = S.initStep) (hr : L.runLs = S.runLs) (n : ℕ) (hn : n ≤ L.historySize + 1) :
    (S.iter x0 n).1 = (L.iter x0 n).1 ∧ (S.iter x0 n).2.value = (L.iter x0 n).2.value ∧
    (S.iter x0 n).2.grad = (L.iter x0 n).2.grad ∧ (S.iter x0 n).2.stepsize = (L.iter x0 n).2.stepsize ∧
    (S.iter x0 n).2.iterNum = (L.iter x0 n).2.iterNum := by
  induction n using Nat.strong_induction_on with
  | _ n ih =>
    cases n with
    | zero =>
      simp only [iter, Lbfgs.iter, Function.iterate_zero, id_eq, initState, Lbfgs.initState, hf, hg, hmax]
      exact ⟨trivial, trivial, trivial, trivial, trivial⟩
    | succ n =>
      obtain ⟨h1, h2, h3, h4, h5⟩ := ih n (Nat.lt_succ_self n) (by omega)
      have hp : ∀ k < n, S.pair x0 k = L.pair x0 k := by
        intro k hk
        obtain ⟨a1, _, a3, _⟩ := ih k (by omega) (by omega)
        obtain ⟨b1, _, b3, _⟩ := ih (k + 1) (by omega) (by omega)
        simp only [pair, Lbfgs.pair, a1, a3, b1, b3]
      have hd := direction_eq_lbfgs S L x0 n hv hm (by omega) hu hp h3
      have hst : S.step (S.iter x0 n).1 (S.iter x0 n).2 (direction (S.iter x0 n).2) =
          L.step (L.iter x0 n).1 (L.iter x0 n).2 (L.direction (L.iter x0 n).2) := by
        rw [← hd]
        simp only [step, Lbfgs.step, hs, hi, hr, h1, h2, h3, h4, h5, hf, hg]
        rcases S.stepsize with a | a <;> rfl
      simp only [iter_succ, Lbfgs.iter_succ, update, Lbfgs.update, hst, h5]
      exact ⟨trivial, trivial, trivial, trivial, trivial⟩

/-! ### Example -/

/-- Quadratic `x² + 2y²` with fixed stepsize 1/8. -/
def exB : Bfgs ℚ (Fin 2) ℚ where
  f := fun x => x 0 * x 0 + 2 * (x 1 * x 1)
  grad := fun x => ![2 * x 0, 4 * x 1]
  norm := fun x => |x 0| + |x 1|
  stepsize := .const (1 / 8)
  maxStepsize := 1
  initStep := fun s => s
  tol := 1 / 1000
  maxiter := 10
  unroll := false
  jit := true
  runLs := fun s x v g d => ⟨s, x, v, g, true⟩

/-- The curvature hypothesis holds along the example, `H` changes, and the secant equation holds. -/
example : (∀ k < 3, 0 < (exB.pair ![1, 1] k).2 ⬝ᵥ (exB.pair ![1, 1] k).1) ∧
    (exB.iter ![1, 1] 2).2.H ≠ 1 ∧
    (exB.iter ![1, 1] 2).2.H *ᵥ (exB.pair ![1, 1] 1).2 = (exB.pair ![1, 1] 1).1 := by decide +kernel

end Bfgs

end Jaxopt.QuasiNewton
