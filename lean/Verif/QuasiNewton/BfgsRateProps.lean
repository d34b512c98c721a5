import Verif.QuasiNewton.BfgsProps
import Verif.QuasiNewton.LbfgsRateProps
import Mathlib.LinearAlgebra.Matrix.SchurComplement
import Mathlib.Analysis.Matrix.PosDef
import Mathlib.Analysis.SpecialFunctions.Log.Basic

/-!
# Property C87: BFGS converges linearly on strongly convex functions

The argument follows Byrd and Nocedal: `tr B - log det B`, for `B` the inverse of the matrix `H` that the code stores, is at least the
dimension, and changes at an update by a bounded amount plus the logarithm of the squared cosine of the angle between the step and the
gradient.
-/

set_option autoImplicit false
set_option linter.unusedSectionVars false
set_option linter.unusedVariables false

namespace Jaxopt.QuasiNewton

open Matrix

variable {ι V : Type*} [Fintype ι] [DecidableEq ι]

namespace Bfgs

/-- The BFGS update of the Hessian approximation `B`, inverse of the update of `H`. -/
noncomputable def newB (B : Matrix ι ι ℝ) (s y : ι → ℝ) : Matrix ι ι ℝ :=
  B - (1 / (s ⬝ᵥ B *ᵥ s)) • vecMulVec (B *ᵥ s) (B *ᵥ s) + (1 / (y ⬝ᵥ s)) • vecMulVec y y

theorem newB_mulVec (B : Matrix ι ι ℝ) (s y w : ι → ℝ) :
    newB B s y *ᵥ w = B *ᵥ w - ((1 / (s ⬝ᵥ B *ᵥ s)) * ((B *ᵥ s) ⬝ᵥ w)) • (B *ᵥ s) + ((1 / (y ⬝ᵥ s)) * (y ⬝ᵥ w)) • y := by
  unfold newB
  rw [add_mulVec, sub_mulVec, smul_mulVec, smul_mulVec, vecMulVec_mulVec, vecMulVec_mulVec]
  simp [smul_smul]

theorem newB_mul_newH (B H : Matrix ι ι ℝ) (hB : Bᵀ = B) (hBH : B * H = 1) (s y : ι → ℝ) (hσ : s ⬝ᵥ B *ᵥ s ≠ 0) (hys : y ⬝ᵥ s ≠ 0) :
    newB B s y * newH H s y = 1 := by
  apply Matrix.ext_of_mulVec_single
  intro i
  generalize (Pi.single i 1 : ι → ℝ) = v
  have hBd := (dot_symm_iff B).mpr hB
  rw [← mulVec_mulVec, newH_mulVec, one_mulVec, newB_mulVec]
  have hsy : s ⬝ᵥ y ≠ 0 := by rw [dotProduct_comm]; exact hys
  simp only [bfgsUpdate]
  rw [if_neg hsy]
  set ρ := 1 / s ⬝ᵥ y with hρ
  have hρ1 : ρ * (s ⬝ᵥ y) = 1 := by rw [hρ]; field_simp
  have hρ2 : 1 / y ⬝ᵥ s = ρ := by rw [hρ, dotProduct_comm]
  set a := ρ * s ⬝ᵥ v with ha
  set u := H *ᵥ (v - a • y) with hu
  set c := a - ρ * y ⬝ᵥ u with hc
  have ew : u - (ρ * y ⬝ᵥ u) • s + a • s = u + c • s := by rw [hc, sub_smul]; abel
  rw [ew, hρ2]
  have hBu : B *ᵥ u = v - a • y := by rw [hu, mulVec_mulVec, hBH, one_mulVec]
  have hBw : B *ᵥ (u + c • s) = v - a • y + c • (B *ᵥ s) := by rw [mulVec_add, mulVec_smul, hBu]
  have e1 : (B *ᵥ s) ⬝ᵥ (u + c • s) = c * (s ⬝ᵥ B *ᵥ s) := by
    rw [← hBd, hBw, dotProduct_add, dotProduct_sub, dotProduct_smul, dotProduct_smul, smul_eq_mul, smul_eq_mul, ha]
    linear_combination (-(s ⬝ᵥ v)) * hρ1
  have e2 : ρ * y ⬝ᵥ (u + c • s) = a := by
    rw [dotProduct_add, dotProduct_smul, smul_eq_mul, dotProduct_comm y s, mul_add, hc]
    linear_combination (a - ρ * y ⬝ᵥ u) * hρ1
  rw [e1, e2, hBw]
  have e3 : 1 / (s ⬝ᵥ B *ᵥ s) * (c * (s ⬝ᵥ B *ᵥ s)) = c := by field_simp
  rw [e3]
  abel

theorem newB_trace (B : Matrix ι ι ℝ) (s y : ι → ℝ) :
    (newB B s y).trace = B.trace - (B *ᵥ s) ⬝ᵥ (B *ᵥ s) / (s ⬝ᵥ B *ᵥ s) + y ⬝ᵥ y / (y ⬝ᵥ s) := by
  unfold newB
  rw [trace_add, trace_sub, trace_smul, trace_smul, trace_vecMulVec, trace_vecMulVec]
  simp only [smul_eq_mul]
  ring

theorem newB_det (B H : Matrix ι ι ℝ) (hB : Bᵀ = B) (hBH : B * H = 1) (s y : ι → ℝ) (hσ : s ⬝ᵥ B *ᵥ s ≠ 0) (hys : y ⬝ᵥ s ≠ 0) :
    (newB B s y).det = B.det * (y ⬝ᵥ s / (s ⬝ᵥ B *ᵥ s)) := by
  have hHB : H * B = 1 := mul_eq_one_comm.mp hBH
  set σ := s ⬝ᵥ B *ᵥ s with hσd
  set U : Matrix ι (Fin 2) ℝ := Matrix.of fun i j => ![-(1 / σ) * s i, (1 / (y ⬝ᵥ s)) * (H *ᵥ y) i] j with hU
  set W : Matrix (Fin 2) ι ℝ := Matrix.of ![B *ᵥ s, y] with hW
  have e : newB B s y = B * (1 + U * W) := by
    have e1 : U * W = -(1 / σ) • vecMulVec s (B *ᵥ s) + (1 / (y ⬝ᵥ s)) • vecMulVec (H *ᵥ y) y := by
      ext i j
      simp [Matrix.mul_apply, Fin.sum_univ_two, hU, hW, vecMulVec_apply]
      ring
    rw [e1, Matrix.mul_add, Matrix.mul_add, Matrix.mul_smul, Matrix.mul_smul, mul_vecMulVec, mul_vecMulVec, mulVec_mulVec, hBH, one_mulVec,
      Matrix.mul_one]
    unfold newB
    rw [← hσd, neg_smul]
    abel
  have col0 : ∀ w : ι → ℝ, ∑ i, w i * U i 0 = -(1 / σ) * (w ⬝ᵥ s) := fun w => by
    rw [dotProduct, Finset.mul_sum]
    exact Finset.sum_congr rfl fun i _ => by rw [hU, of_apply]; simp only [cons_val_zero]; ring
  have col1 : ∀ w : ι → ℝ, ∑ i, w i * U i 1 = 1 / (y ⬝ᵥ s) * (w ⬝ᵥ (H *ᵥ y)) := fun w => by
    have : w ⬝ᵥ (H *ᵥ y) = ∑ i, w i * (H *ᵥ y) i := rfl
    rw [this, Finset.mul_sum]
    exact Finset.sum_congr rfl fun i _ => by rw [hU, of_apply]; simp only [cons_val_one, cons_val_zero]; ring
  have hs : (B *ᵥ s) ⬝ᵥ s = σ := dotProduct_comm _ _
  have h2 : (B *ᵥ s) ⬝ᵥ (H *ᵥ y) = y ⬝ᵥ s := by
    rw [← (dot_symm_iff B).mpr hB, mulVec_mulVec, hBH, one_mulVec, dotProduct_comm]
  have m00 : (W * U) 0 0 = -(1 / σ) * σ := by rw [← hs]; exact (col0 (B *ᵥ s)).trans (by rw [hs])
  have m01 : (W * U) 0 1 = 1 / (y ⬝ᵥ s) * (y ⬝ᵥ s) := (col1 (B *ᵥ s)).trans (by rw [h2])
  have m10 : (W * U) 1 0 = -(1 / σ) * (y ⬝ᵥ s) := col0 y
  have i01 : (1 : Matrix (Fin 2) (Fin 2) ℝ) 0 1 = 0 := one_apply_ne (by decide)
  have i10 : (1 : Matrix (Fin 2) (Fin 2) ℝ) 1 0 = 0 := one_apply_ne (by decide)
  rw [e, det_mul, det_one_add_mul_comm, det_fin_two]
  congr 1
  rw [Matrix.add_apply, Matrix.add_apply 1 (W * U) 0 1, Matrix.add_apply 1 (W * U) 1 0, m00, m01, m10, i01, i10, one_apply_eq]
  field_simp
  ring

/-- The function of Byrd and Nocedal, of the matrix stored by the code. -/
noncomputable def psi (H : Matrix ι ι ℝ) : ℝ := (H⁻¹).trace - Real.log (H⁻¹).det

theorem psi_one : psi (1 : Matrix ι ι ℝ) = Fintype.card ι := by
  simp [psi]

/-- Positive definite symmetric matrices, over the reals. -/
def SymPos (H : Matrix ι ι ℝ) : Prop := Hᵀ = H ∧ ∀ v, v ≠ 0 → 0 < v ⬝ᵥ H *ᵥ v

theorem SymPos.posDef {H : Matrix ι ι ℝ} (h : SymPos H) : H.PosDef :=
  PosDef.of_dotProduct_mulVec_pos (by rw [IsHermitian, conjTranspose_eq_transpose_of_trivial]; exact h.1) fun x hx => by
    simpa using h.2 x hx

theorem SymPos.inv {H : Matrix ι ι ℝ} (h : SymPos H) : (H⁻¹).PosDef := h.posDef.inv

theorem le_psi {H : Matrix ι ι ℝ} (h : SymPos H) : Fintype.card ι ≤ psi H := by
  have hp := h.inv
  have hd := hp.1.det_eq_prod_eigenvalues
  have ht := hp.1.trace_eq_sum_eigenvalues
  simp only [RCLike.ofReal_real_eq_id, id_eq] at hd ht
  have hpos := hp.eigenvalues_pos
  rw [psi, hd, ht, Real.log_prod (fun i _ => (hpos i).ne'), ← Finset.sum_sub_distrib]
  have : ∀ i ∈ Finset.univ, (1 : ℝ) ≤ hp.1.eigenvalues i - Real.log (hp.1.eigenvalues i) := fun i _ => by
    have := Real.log_le_sub_one_of_pos (hpos i)
    linarith
  have h2 := Finset.sum_le_sum this
  simpa using h2

/-- One update: `psi` grows by at most `‖y‖² / yᵀs - log (yᵀs / ‖s‖²) - 1` plus the logarithm of the squared cosine. -/
theorem psi_step {H : Matrix ι ι ℝ} (h : SymPos H) (s y : ι → ℝ) (hs : s ≠ 0) (hys : 0 < y ⬝ᵥ s) :
    psi (newH H s y) ≤ psi H + (y ⬝ᵥ y / (y ⬝ᵥ s) - Real.log (y ⬝ᵥ s / s ⬝ᵥ s) - 1) +
      Real.log ((s ⬝ᵥ H⁻¹ *ᵥ s) ^ 2 / (s ⬝ᵥ s * ((H⁻¹ *ᵥ s) ⬝ᵥ (H⁻¹ *ᵥ s)))) := by
  have hp := h.inv
  set B := H⁻¹ with hBd
  have hdet : IsUnit H.det := h.posDef.det_pos.ne'.isUnit
  have hBH : B * H = 1 := nonsing_inv_mul H hdet
  have hBt : Bᵀ = B := by
    have := hp.1
    rwa [IsHermitian, conjTranspose_eq_transpose_of_trivial] at this
  have hσ : 0 < s ⬝ᵥ B *ᵥ s := by simpa using hp.dotProduct_mulVec_pos hs
  have hv := isVdot_dotProduct (K := ℝ) (ι := ι)
  have hBs : B *ᵥ s ≠ 0 := by
    intro h0; rw [h0, dotProduct_zero] at hσ; exact lt_irrefl _ hσ
  have hss : 0 < s ⬝ᵥ s := hv.pos s hs
  have hbb : 0 < (B *ᵥ s) ⬝ᵥ (B *ᵥ s) := hv.pos _ hBs
  have hinv : (newH H s y)⁻¹ = newB B s y := inv_eq_left_inv (newB_mul_newH B H hBt hBH s y hσ.ne' hys.ne')
  have hBdet : 0 < B.det := hp.det_pos
  rw [psi, psi, hinv, newB_trace, newB_det B H hBt hBH s y hσ.ne' hys.ne']
  set σ := s ⬝ᵥ B *ᵥ s
  set b := (B *ᵥ s) ⬝ᵥ (B *ᵥ s)
  set m := y ⬝ᵥ s
  set q := s ⬝ᵥ s
  rw [Real.log_mul hBdet.ne' (div_pos hys hσ).ne', Real.log_div hys.ne' hσ.ne', Real.log_div hys.ne' hss.ne',
    Real.log_div (by positivity) (by positivity), Real.log_pow, Real.log_mul hss.ne' hbb.ne']
  have h1 := Real.log_le_sub_one_of_pos (div_pos hbb hσ)
  rw [Real.log_div hbb.ne' hσ.ne'] at h1
  push_cast
  linarith

/-- The line search returns the gradient at the returned parameters. -/
def GradSound (S : Bfgs ℝ ι V) : Prop := ∀ a x v g d, (S.runLs a x v g d).grad = S.grad (S.runLs a x v g d).params

theorem grad_iter (S : Bfgs ℝ ι V) (hl : S.GradSound) (x0 : ι → ℝ) (n : ℕ) : (S.iter x0 n).2.grad = S.grad (S.iter x0 n).1 := by
  cases n with
  | zero => rfl
  | succ n =>
    rw [iter_succ]
    simp only [update, step]
    cases S.stepsize with
    | const a =>
      by_cases h : a ≤ 0
      · simp only [if_pos h]; exact hl _ _ _ _ _
      · simp only [if_neg h]
    | fn a => rfl

/-- A flat vector, as a point of the Euclidean space. -/
noncomputable abbrev pt (x : ι → ℝ) : EuclideanSpace ℝ ι := WithLp.toLp 2 x

theorem inner_pt (x y : ι → ℝ) : inner ℝ (pt x) (pt y) = x ⬝ᵥ y := by
  rw [EuclideanSpace.inner_toLp_toLp, star_trivial, dotProduct_comm]

theorem norm_pt (x : ι → ℝ) : ‖pt x‖ ^ 2 = x ⬝ᵥ x := by
  rw [← real_inner_self_eq_norm_sq, inner_pt]

/-- The objective, on the Euclidean space. -/
noncomputable def fE (S : Bfgs ℝ ι ℝ) (x : EuclideanSpace ℝ ι) : ℝ := S.f x.ofLp

/-- The gradient, on the Euclidean space. -/
noncomputable def gE (S : Bfgs ℝ ι ℝ) (x : EuclideanSpace ℝ ι) : EuclideanSpace ℝ ι := pt (S.grad x.ofLp)

/-- The exponent of the rate: the excess decreases at least like `exp (-bfgsRate k)`. -/
noncomputable def _root_.Jaxopt.QuasiNewton.bfgsRate (μ L c1 c2 : ℝ) : ℝ := 2 * μ ^ 2 * (c1 * (1 - c2) / L) * Real.exp (1 - L)

/-- The squared cosine of the angle between the gradient and the search direction at iteration `k`. -/
noncomputable def cosSq (S : Bfgs ℝ ι ℝ) (x0 : ι → ℝ) (k : ℕ) : ℝ :=
  let g := S.grad (S.iter x0 k).1
  let d := direction (S.iter x0 k).2
  (g ⬝ᵥ d) ^ 2 / (g ⬝ᵥ g * d ⬝ᵥ d)

/-- **C87** (angles).  On a `μ`-strongly convex `L`-smooth function, with a line search that satisfies the weak Wolfe conditions, the matrix
`H` stays symmetric positive definite, and the average over the first `n` iterations of the squared cosines between the gradients and
the search directions is at least `μ exp (1 - L)`, in any dimension. -/
theorem C87_angles (S : Bfgs ℝ ι ℝ) (hl : S.GradSound) (μ L : ℝ) (hμ : 0 < μ) (hL : μ ≤ L)
    (hsm : LSmooth S.fE S.gE L) (hsc : StrongConvexWith S.fE S.gE μ) (c1 c2 : ℝ) (hc2 : c2 < 1) (x0 : ι → ℝ) (n : ℕ)
    (hne : ∀ k < n, S.grad (S.iter x0 k).1 ≠ 0)
    (hw : ∀ k < n, S.grad (S.iter x0 k).1 ⬝ᵥ direction (S.iter x0 k).2 < 0 →
      WeakWolfe S.fE S.gE c1 c2 (pt (S.iter x0 k).1) (pt (direction (S.iter x0 k).2)) (pt (S.iter x0 (k + 1)).1)) :
    (∀ k ≤ n, SymPos (S.iter x0 k).2.H) ∧
    (∀ k < n, S.grad (S.iter x0 k).1 ⬝ᵥ direction (S.iter x0 k).2 < 0) ∧
    n * (μ * Real.exp (1 - L)) ≤ ∑ k ∈ Finset.range n, S.cosSq x0 k := by
  have hL0 : 0 < L := lt_of_lt_of_le hμ hL
  have hv := isVdot_dotProduct (K := ℝ) (ι := ι)
  have hgr := S.grad_iter hl x0
  have hcx : ∀ x y, S.fE x + inner ℝ (S.gE x) (y - x) ≤ S.fE y := fun x y => by
    have := hsc x y
    have h2 : 0 ≤ μ / 2 * ‖y - x‖ ^ 2 := by positivity
    linarith
  -- pairs
  have hgood : ∀ k, μ * ((S.pair x0 k).1 ⬝ᵥ (S.pair x0 k).1) ≤ (S.pair x0 k).2 ⬝ᵥ (S.pair x0 k).1 ∧
      (S.pair x0 k).2 ⬝ᵥ (S.pair x0 k).2 ≤ L * ((S.pair x0 k).2 ⬝ᵥ (S.pair x0 k).1) := by
    intro k
    have e1 : pt (S.pair x0 k).1 = pt (S.iter x0 (k + 1)).1 - pt (S.iter x0 k).1 := rfl
    have e2 : pt (S.pair x0 k).2 = S.gE (pt (S.iter x0 (k + 1)).1) - S.gE (pt (S.iter x0 k).1) := by
      simp only [pair, hgr]; rfl
    have h1 := hsc.mono (pt (S.iter x0 k).1) (pt (S.iter x0 (k + 1)).1)
    have h2 := Jaxopt.LSmooth.cocoercive hL0 hsm hcx (pt (S.iter x0 k).1) (pt (S.iter x0 (k + 1)).1)
    rw [← e1, ← e2, norm_pt, inner_pt] at h1
    rw [← e1, ← e2, norm_pt, inner_pt] at h2
    rw [dotProduct_comm (S.pair x0 k).2 (S.pair x0 k).1]
    exact ⟨h1, h2⟩
  -- one iteration
  have hdesc : ∀ k < n, SymPos (S.iter x0 k).2.H → S.grad (S.iter x0 k).1 ⬝ᵥ direction (S.iter x0 k).2 < 0 := by
    intro k hk hH
    have := hH.2 _ (hne k hk)
    rw [direction, hgr, dotProduct_neg]
    linarith
  have hstep : ∀ k < n, SymPos (S.iter x0 k).2.H → ∃ t : ℝ, 0 < t ∧ (S.pair x0 k).1 = t • direction (S.iter x0 k).2 ∧
      (S.pair x0 k).1 ≠ 0 ∧ 0 < (S.pair x0 k).2 ⬝ᵥ (S.pair x0 k).1 := by
    intro k hk hH
    have hd := hdesc k hk hH
    obtain ⟨t, ht0, hx, _, hcurv⟩ := hw k hk hd
    have hx' : (S.iter x0 (k + 1)).1 = (S.iter x0 k).1 + t • direction (S.iter x0 k).2 := congrArg (fun z => z.ofLp) hx
    have ht : 0 < t := by
      rcases lt_or_eq_of_le ht0 with h | h
      · exact h
      · exfalso
        rw [hx, ← h, zero_smul, add_zero] at hcurv
        have e : inner ℝ (S.gE (pt (S.iter x0 k).1)) (pt (direction (S.iter x0 k).2)) =
            S.grad (S.iter x0 k).1 ⬝ᵥ direction (S.iter x0 k).2 := inner_pt _ _
        rw [e] at hcurv
        nlinarith
    have hs : (S.pair x0 k).1 = t • direction (S.iter x0 k).2 := by
      simp only [pair, hx']; abel
    have hdne : direction (S.iter x0 k).2 ≠ 0 := by
      intro h0; rw [h0, dotProduct_zero] at hd; exact lt_irrefl _ hd
    have hsne : (S.pair x0 k).1 ≠ 0 := by rw [hs]; exact smul_ne_zero ht.ne' hdne
    exact ⟨t, ht, hs, hsne, lt_of_lt_of_le (mul_pos hμ (hv.pos _ hsne)) (hgood k).1⟩
  have hpos : ∀ k ≤ n, ∀ j < k, 0 < (S.pair x0 j).2 ⬝ᵥ (S.pair x0 j).1 := by
    intro k
    induction k with
    | zero => intro _ j hj; omega
    | succ k ih =>
      intro hk j hj
      have ih' := ih (by omega)
      rcases Nat.lt_succ_iff_lt_or_eq.mp hj with h | h
      · exact ih' j h
      · subst h
        have hc := S.C26_bfgs x0 j
        obtain ⟨_, _, _, _, h5⟩ := hstep j (by omega) ⟨hc.1, (hc.2.2.2 ih').1⟩
        exact h5
  have hsp : ∀ k ≤ n, SymPos (S.iter x0 k).2.H := fun k hk =>
    ⟨(S.C26_bfgs x0 k).1, ((S.C26_bfgs x0 k).2.2.2 (hpos k hk)).1⟩
  -- the potential
  set C := L - 1 - Real.log μ with hC
  have hcos : ∀ k < n, 0 < S.cosSq x0 k := by
    intro k hk
    have hd := hdesc k hk (hsp k hk.le)
    have h1 := hv.pos _ (hne k hk)
    have h2 : 0 < direction (S.iter x0 k).2 ⬝ᵥ direction (S.iter x0 k).2 := hv.pos _ (by
      intro h0; rw [h0, dotProduct_zero] at hd; exact lt_irrefl _ hd)
    exact div_pos (by have := hd.ne; positivity) (mul_pos h1 h2)
  have hpsi : ∀ k < n, psi (S.iter x0 (k + 1)).2.H ≤ psi (S.iter x0 k).2.H + C + Real.log (S.cosSq x0 k) := by
    intro k hk
    have hH := hsp k hk.le
    obtain ⟨t, ht, hs, hsne, hys⟩ := hstep k hk hH
    obtain ⟨g1, g2⟩ := hgood k
    have hss := hv.pos _ hsne
    have h1 := psi_step hH (S.pair x0 k).1 (S.pair x0 k).2 hsne hys
    have hdet : IsUnit (S.iter x0 k).2.H.det := hH.posDef.det_pos.ne'.isUnit
    have hBs : (S.iter x0 k).2.H⁻¹ *ᵥ (S.pair x0 k).1 = -t • S.grad (S.iter x0 k).1 := by
      rw [hs, mulVec_smul, direction, mulVec_neg, mulVec_mulVec, nonsing_inv_mul _ hdet, one_mulVec, hgr, smul_neg, neg_smul]
    have hce : ((S.pair x0 k).1 ⬝ᵥ (S.iter x0 k).2.H⁻¹ *ᵥ (S.pair x0 k).1) ^ 2 / ((S.pair x0 k).1 ⬝ᵥ (S.pair x0 k).1 *
        (((S.iter x0 k).2.H⁻¹ *ᵥ (S.pair x0 k).1) ⬝ᵥ ((S.iter x0 k).2.H⁻¹ *ᵥ (S.pair x0 k).1))) = S.cosSq x0 k := by
      rw [hBs, hs]
      simp only [cosSq, smul_dotProduct, dotProduct_smul, smul_eq_mul]
      rw [dotProduct_comm (direction (S.iter x0 k).2) (S.grad (S.iter x0 k).1)]
      generalize S.grad (S.iter x0 k).1 ⬝ᵥ direction (S.iter x0 k).2 = p
      generalize S.grad (S.iter x0 k).1 ⬝ᵥ S.grad (S.iter x0 k).1 = q
      generalize direction (S.iter x0 k).2 ⬝ᵥ direction (S.iter x0 k).2 = r
      have e1 : (-t * (t * p)) ^ 2 = t ^ 4 * p ^ 2 := by ring
      have e2 : t * (t * r) * (-t * (-t * q)) = t ^ 4 * (q * r) := by ring
      rw [e1, e2, mul_div_mul_left _ _ (by positivity)]
    rw [hce] at h1
    rw [H_succ]
    have h2 : (S.pair x0 k).2 ⬝ᵥ (S.pair x0 k).2 / (S.pair x0 k).2 ⬝ᵥ (S.pair x0 k).1 ≤ L := by rw [div_le_iff₀ hys]; exact g2
    have h3 : Real.log μ ≤ Real.log ((S.pair x0 k).2 ⬝ᵥ (S.pair x0 k).1 / (S.pair x0 k).1 ⬝ᵥ (S.pair x0 k).1) :=
      Real.log_le_log hμ (by rw [le_div_iff₀ hss]; exact g1)
    linarith
  have hsum : ∀ m ≤ n, psi (S.iter x0 m).2.H ≤ Fintype.card ι + m * C + ∑ k ∈ Finset.range m, Real.log (S.cosSq x0 k) := by
    intro m
    induction m with
    | zero => intro _; simp [iter, initState, psi_one]
    | succ m ih =>
      intro hm
      have h1 := ih (by omega)
      have h2 := hpsi m (by omega)
      rw [Finset.sum_range_succ]
      push_cast
      linarith
  refine ⟨hsp, fun k hk => hdesc k hk (hsp k hk.le), ?_⟩
  have h1 := hsum n (le_refl _)
  have h2 := le_psi (hsp n (le_refl _))
  have hexp : Real.exp (-C) = μ * Real.exp (1 - L) := by
    have : -C = Real.log μ + (1 - L) := by rw [hC]; ring
    rw [this, Real.exp_add, Real.exp_log hμ]
  have h3 : ∑ k ∈ Finset.range n, Real.exp (-C) * (Real.log (S.cosSq x0 k) + C + 1) ≤ ∑ k ∈ Finset.range n, S.cosSq x0 k := by
    refine Finset.sum_le_sum fun k hk => ?_
    have hk' := Finset.mem_range.mp hk
    have e : S.cosSq x0 k = Real.exp (-C) * Real.exp (Real.log (S.cosSq x0 k) + C) := by
      rw [← Real.exp_add]
      have : -C + (Real.log (S.cosSq x0 k) + C) = Real.log (S.cosSq x0 k) := by ring
      rw [this, Real.exp_log (hcos k hk')]
    calc Real.exp (-C) * (Real.log (S.cosSq x0 k) + C + 1) ≤ Real.exp (-C) * Real.exp (Real.log (S.cosSq x0 k) + C) :=
          mul_le_mul_of_nonneg_left (Real.add_one_le_exp _) (Real.exp_pos _).le
      _ = S.cosSq x0 k := e.symm
  rw [← Finset.mul_sum, Finset.sum_add_distrib, Finset.sum_add_distrib, Finset.sum_const, Finset.sum_const, Finset.card_range,
    nsmul_eq_mul, nsmul_eq_mul, mul_one] at h3
  rw [← hexp]
  refine le_trans ?_ h3
  rw [mul_comm]
  exact mul_le_mul_of_nonneg_left (by linarith) (Real.exp_pos _).le

theorem _root_.Jaxopt.QuasiNewton.bfgsRate_pos {μ L c1 c2 : ℝ} (hμ : 0 < μ) (hL : μ ≤ L) (hc1 : 0 < c1) (hc2 : c2 < 1) :
    0 < bfgsRate μ L c1 c2 := by
  have hL0 : 0 < L := lt_of_lt_of_le hμ hL
  have : 0 < c1 * (1 - c2) / L := div_pos (mul_pos hc1 (by linarith)) hL0
  have := Real.exp_pos (1 - L)
  unfold bfgsRate
  positivity

/-- **C87** (linear convergence).  On a `μ`-strongly convex `L`-smooth function, with a line search that satisfies the weak Wolfe
conditions (constants `0 < c1`, `c2 < 1`) along the directions it is given, the excess over the minimum after `n` iterations of `BFGS`
is at most `exp (-bfgsRate n)` times the initial excess, with `bfgsRate = 2 μ² c1 (1 - c2) exp (1 - L) / L`, in any dimension and from any
starting point; the squared distances to the minimiser converge at the same rate. -/
theorem C87_linear (S : Bfgs ℝ ι ℝ) (hl : S.GradSound) (μ L : ℝ) (hμ : 0 < μ) (hL : μ ≤ L)
    (hsm : LSmooth S.fE S.gE L) (hsc : StrongConvexWith S.fE S.gE μ) (c1 c2 : ℝ) (hc1 : 0 < c1) (hc2 : c2 < 1) (x0 : ι → ℝ) (n : ℕ)
    (hne : ∀ k < n, S.grad (S.iter x0 k).1 ≠ 0)
    (hw : ∀ k < n, S.grad (S.iter x0 k).1 ⬝ᵥ direction (S.iter x0 k).2 < 0 →
      WeakWolfe S.fE S.gE c1 c2 (pt (S.iter x0 k).1) (pt (direction (S.iter x0 k).2)) (pt (S.iter x0 (k + 1)).1))
    (xs : ι → ℝ) (hxs : S.grad xs = 0) :
    S.f (S.iter x0 n).1 - S.f xs ≤ Real.exp (-(bfgsRate μ L c1 c2 * n)) * (S.f x0 - S.f xs) ∧
    ((S.iter x0 n).1 - xs) ⬝ᵥ ((S.iter x0 n).1 - xs) ≤ 2 / μ * (Real.exp (-(bfgsRate μ L c1 c2 * n)) * (S.f x0 - S.f xs)) := by
  have hL0 : 0 < L := lt_of_lt_of_le hμ hL
  obtain ⟨hsp, hdesc, hcos⟩ := S.C87_angles hl μ L hμ hL hsm hsc c1 c2 hc2 x0 n hne hw
  have hv := isVdot_dotProduct (K := ℝ) (ι := ι)
  have hA : 0 < c1 * (1 - c2) / L := div_pos (mul_pos hc1 (by linarith)) hL0
  set A := c1 * (1 - c2) / L with hAd
  have hg0 : S.gE (pt xs) = 0 := by
    show pt (S.grad xs) = 0
    rw [hxs]; rfl
  have hmin : ∀ x : ι → ℝ, μ / 2 * ((x - xs) ⬝ᵥ (x - xs)) ≤ S.f x - S.f xs := by
    intro x
    have h1 := hsc (pt xs) (pt x)
    rw [hg0, inner_zero_left, add_zero] at h1
    have e : pt x - pt xs = pt (x - xs) := rfl
    rw [e, norm_pt] at h1
    have e2 : S.fE (pt x) = S.f x := rfl
    have e3 : S.fE (pt xs) = S.f xs := rfl
    rw [e2, e3] at h1
    linarith
  have hnn : ∀ x : ι → ℝ, 0 ≤ S.f x - S.f xs := fun x =>
    le_trans (mul_nonneg (by positivity) (by
      have := norm_pt (x - xs)
      rw [← this]; positivity)) (hmin x)
  have contr : ∀ k < n, S.f (S.iter x0 (k + 1)).1 - S.f xs ≤
      Real.exp (-(2 * μ * A * S.cosSq x0 k)) * (S.f (S.iter x0 k).1 - S.f xs) := by
    intro k hk
    have hd := hdesc k hk
    have hd' : inner ℝ (S.gE (pt (S.iter x0 k).1)) (pt (direction (S.iter x0 k).2)) < 0 := by
      rw [show inner ℝ (S.gE (pt (S.iter x0 k).1)) (pt (direction (S.iter x0 k).2)) =
        S.grad (S.iter x0 k).1 ⬝ᵥ direction (S.iter x0 k).2 from inner_pt _ _]
      exact hd
    have hdec := C82_decrease S.fE S.gE L hL0 hsm c1 c2 hc1.le hc2.le _ _ _ hd' (hw k hk hd)
    rw [← hAd, norm_pt, show inner ℝ (S.gE (pt (S.iter x0 k).1)) (pt (direction (S.iter x0 k).2)) =
        S.grad (S.iter x0 k).1 ⬝ᵥ direction (S.iter x0 k).2 from inner_pt _ _] at hdec
    have hgb := hsc.grad_bound hμ (pt (S.iter x0 k).1) (pt xs)
    rw [show ‖S.gE (pt (S.iter x0 k).1)‖ ^ 2 = S.grad (S.iter x0 k).1 ⬝ᵥ S.grad (S.iter x0 k).1 from norm_pt _] at hgb
    change 2 * μ * (S.f (S.iter x0 k).1 - S.f xs) ≤ _ at hgb
    change _ ≤ S.f (S.iter x0 k).1 - S.f (S.iter x0 (k + 1)).1 at hdec
    have hgg := hv.pos _ (hne k hk)
    have hce : (S.grad (S.iter x0 k).1 ⬝ᵥ direction (S.iter x0 k).2) ^ 2 / (direction (S.iter x0 k).2 ⬝ᵥ direction (S.iter x0 k).2) =
        S.cosSq x0 k * (S.grad (S.iter x0 k).1 ⬝ᵥ S.grad (S.iter x0 k).1) := by
      simp only [cosSq]
      rw [div_mul_eq_mul_div, mul_comm (S.grad (S.iter x0 k).1 ⬝ᵥ S.grad (S.iter x0 k).1), mul_div_mul_right _ _ hgg.ne']
    rw [hce] at hdec
    have hc0 : 0 ≤ S.cosSq x0 k := by
      have h2 : 0 ≤ direction (S.iter x0 k).2 ⬝ᵥ direction (S.iter x0 k).2 := by rw [← norm_pt]; positivity
      exact div_nonneg (by positivity) (mul_nonneg hgg.le h2)
    have h3 := mul_le_mul_of_nonneg_left hgb (mul_nonneg hA.le hc0)
    have h4 := Real.add_one_le_exp (-(2 * μ * A * S.cosSq x0 k))
    have h5 := mul_le_mul_of_nonneg_right h4 (hnn (S.iter x0 k).1)
    nlinarith
  have main : ∀ m ≤ n, S.f (S.iter x0 m).1 - S.f xs ≤
      Real.exp (-(2 * μ * A * ∑ k ∈ Finset.range m, S.cosSq x0 k)) * (S.f x0 - S.f xs) := by
    intro m
    induction m with
    | zero => intro _; simp [iter]
    | succ m ih =>
      intro hm
      have h1 := contr m (by omega)
      have h2 := mul_le_mul_of_nonneg_left (ih (by omega)) (Real.exp_pos (-(2 * μ * A * S.cosSq x0 m))).le
      refine le_trans h1 (le_trans h2 (le_of_eq ?_))
      rw [← mul_assoc, ← Real.exp_add, Finset.sum_range_succ]
      congr 2
      ring
  have hfin : S.f (S.iter x0 n).1 - S.f xs ≤ Real.exp (-(bfgsRate μ L c1 c2 * n)) * (S.f x0 - S.f xs) := by
    refine le_trans (main n (le_refl _)) (mul_le_mul_of_nonneg_right (Real.exp_le_exp.mpr ?_) (hnn x0))
    have h1 := mul_le_mul_of_nonneg_left hcos (show 0 ≤ 2 * μ * A by positivity)
    have e : 2 * μ * A * (n * (μ * Real.exp (1 - L))) = bfgsRate μ L c1 c2 * n := by
      simp only [bfgsRate]; rw [← hAd]; ring
    rw [e] at h1
    linarith
  refine ⟨hfin, ?_⟩
  have h1 := hmin (S.iter x0 n).1
  rw [div_mul_eq_mul_div, le_div_iff₀ hμ]
  linarith

/-- **C87** (the stopping test is met).  Under the same hypotheses, for every positive tolerance some iterate has a gradient norm at most
the tolerance: with the `norm` of the code (`tree_l2_norm`) and a positive `tol`, the run stops by itself if `maxiter` is large enough. -/
theorem C87_stationary (S : Bfgs ℝ ι ℝ) (hl : S.GradSound) (μ L : ℝ) (hμ : 0 < μ) (hL : μ ≤ L)
    (hsm : LSmooth S.fE S.gE L) (hsc : StrongConvexWith S.fE S.gE μ) (c1 c2 : ℝ) (hc1 : 0 < c1) (hc2 : c2 < 1) (x0 : ι → ℝ)
    (hw : ∀ k, S.grad (S.iter x0 k).1 ⬝ᵥ direction (S.iter x0 k).2 < 0 →
      WeakWolfe S.fE S.gE c1 c2 (pt (S.iter x0 k).1) (pt (direction (S.iter x0 k).2)) (pt (S.iter x0 (k + 1)).1))
    (xs : ι → ℝ) (hxs : S.grad xs = 0) (ε : ℝ) (hε : 0 < ε) : ∃ k, ‖pt (S.iter x0 k).2.grad‖ ≤ ε := by
  by_contra hcon
  push Not at hcon
  have hgr := S.grad_iter hl x0
  have hne : ∀ k, S.grad (S.iter x0 k).1 ≠ 0 := by
    intro k h0
    have := hcon k
    rw [hgr, h0] at this
    have h2 : pt (0 : ι → ℝ) = 0 := rfl
    rw [h2, norm_zero] at this
    linarith
  have hr := bfgsRate_pos (c2 := c2) hμ hL hc1 hc2
  set r := bfgsRate μ L c1 c2
  set D := S.f x0 - S.f xs
  have hD : ∀ n : ℕ, ε ^ 2 ≤ L ^ 2 * (2 / μ) * D * Real.exp (-(r * n)) := by
    intro n
    have h1 := (S.C87_linear hl μ L hμ hL hsm hsc c1 c2 hc1 hc2 x0 n (fun k _ => hne k) (fun k _ => hw k) xs hxs).2
    have h2 := hsm.lip (pt (S.iter x0 n).1) (pt xs)
    have e1 : S.gE (pt xs) = 0 := by
      show pt (S.grad xs) = 0
      rw [hxs]; rfl
    have e2 : S.gE (pt (S.iter x0 n).1) = pt (S.iter x0 n).2.grad := by rw [hgr]; rfl
    rw [e1, sub_zero, e2] at h2
    have e3 : pt (S.iter x0 n).1 - pt xs = pt ((S.iter x0 n).1 - xs) := rfl
    rw [e3] at h2
    rw [← norm_pt] at h1
    have h3 := hcon n
    have h4 : ε ^ 2 ≤ (L * ‖pt ((S.iter x0 n).1 - xs)‖) ^ 2 := pow_le_pow_left₀ hε.le (by linarith) 2
    rw [mul_pow] at h4
    have h5 := mul_le_mul_of_nonneg_left h1 (sq_nonneg L)
    calc ε ^ 2 ≤ _ := h4
      _ ≤ _ := h5
      _ = _ := by ring
  have hQ : 0 < L ^ 2 * (2 / μ) * D := by
    have := hD 0
    simp at this
    have h2 : 0 < ε ^ 2 := by positivity
    have e : L ^ 2 * (2 / μ) * D = L ^ 2 * (2 / μ) * D := rfl
    linarith
  set Q := L ^ 2 * (2 / μ) * D
  obtain ⟨n, hn⟩ := exists_nat_gt (Q / (ε ^ 2 * r))
  have h1 := hD n
  have h2 : Real.exp (-(r * n)) * (1 + r * n) ≤ 1 := by
    have := Real.add_one_le_exp (r * n)
    rw [Real.exp_neg, inv_mul_le_iff₀ (Real.exp_pos _)]
    linarith
  have hε2 : 0 < ε ^ 2 := by positivity
  rw [div_lt_iff₀ (by positivity)] at hn
  have h3 : 0 < 1 + r * n := by positivity
  have h4 := mul_le_mul_of_nonneg_right h1 h3.le
  have h5 := mul_le_mul_of_nonneg_left h2 hQ.le
  nlinarith

/-! ### Example: `‖x‖² / 2` on the plane, stepsize `1/2` -/

/-- The example solver. -/
noncomputable def exHalf : Bfgs ℝ (Fin 2) ℝ where
  f := fun x => (x ⬝ᵥ x) / 2
  grad := fun x => x
  norm := fun x => ‖pt x‖
  stepsize := .const (1 / 2)
  maxStepsize := 1
  initStep := fun _ => 1
  tol := 0
  maxiter := 10
  unroll := false
  jit := true
  runLs := fun a x v g d => ⟨a, x, v, x, true⟩

theorem newH_one (s : Fin 2 → ℝ) : newH 1 s s = 1 := by
  apply Matrix.ext_of_mulVec_single
  intro i
  generalize (Pi.single i 1 : Fin 2 → ℝ) = v
  rw [newH_mulVec, one_mulVec]
  simp only [bfgsUpdate]
  by_cases h : s ⬝ᵥ s = 0
  · rw [if_pos h, one_mulVec]
  · rw [if_neg h]
    simp only [one_mulVec, dotProduct_sub, dotProduct_smul, smul_eq_mul]
    have : 1 / s ⬝ᵥ s * (s ⬝ᵥ v - 1 / s ⬝ᵥ s * s ⬝ᵥ v * s ⬝ᵥ s) = 0 := by field_simp; ring
    rw [this, zero_smul]
    abel

theorem exHalf_iter (x0 : Fin 2 → ℝ) (k : ℕ) :
    (exHalf.iter x0 k).1 = (1 / 2 : ℝ) ^ k • x0 ∧ (exHalf.iter x0 k).2.grad = (exHalf.iter x0 k).1 ∧ (exHalf.iter x0 k).2.H = 1 := by
  induction k with
  | zero => exact ⟨by simp [iter], rfl, rfl⟩
  | succ k ih =>
    obtain ⟨h1, h2, h3⟩ := ih
    have hg := exHalf.grad_iter (fun _ _ _ _ _ => rfl) x0
    have hd : direction (exHalf.iter x0 k).2 = -(exHalf.iter x0 k).1 := by rw [direction, h3, one_mulVec, h2]
    have hx : (exHalf.iter x0 (k + 1)).1 = (exHalf.iter x0 k).1 + (1 / 2 : ℝ) • direction (exHalf.iter x0 k).2 := by
      rw [iter_succ]
      simp only [update, step, exHalf]
      rw [if_neg (by norm_num)]
    refine ⟨?_, hg (k + 1), ?_⟩
    · rw [hx, hd, h1, pow_succ]
      ext i
      simp
      ring
    · rw [H_succ, h3]
      have : (exHalf.pair x0 k).2 = (exHalf.pair x0 k).1 := by simp only [pair, hg]; rfl
      rw [this, newH_one]

/-- The hypotheses of C87 hold for the example at every iteration, with `μ = L = 1`, `c1 = 1/4` and `c2 = 9/10`. -/
example : exHalf.GradSound ∧ LSmooth exHalf.fE exHalf.gE 1 ∧ StrongConvexWith exHalf.fE exHalf.gE 1 ∧
    ∀ k, exHalf.grad (exHalf.iter ![1, 2] k).1 ≠ 0 ∧
      WeakWolfe exHalf.fE exHalf.gE (1 / 4) (9 / 10) (pt (exHalf.iter ![1, 2] k).1) (pt (direction (exHalf.iter ![1, 2] k).2))
        (pt (exHalf.iter ![1, 2] (k + 1)).1) := by
  have hf : ∀ x, exHalf.fE x = ‖x‖ ^ 2 / 2 := fun x => by
    show (x.ofLp ⬝ᵥ x.ofLp) / 2 = _
    rw [← norm_pt]
  have hgE : ∀ x, exHalf.gE x = x := fun x => rfl
  refine ⟨fun _ _ _ _ _ => rfl, ⟨fun x => ?_, fun x y => ?_⟩, fun x y => ?_, fun k => ⟨?_, ?_⟩⟩
  · have e : exHalf.fE = fun x => ‖x‖ ^ 2 / 2 := funext hf
    rw [e, hgE]
    rw [hasGradientAt_iff_hasFDerivAt]
    have h1 := (hasStrictFDerivAt_norm_sq x).hasFDerivAt.const_mul (1 / 2 : ℝ)
    have e2 : (fun x : EuclideanSpace ℝ (Fin 2) => ‖x‖ ^ 2 / 2) = fun x => 1 / 2 * ‖x‖ ^ 2 := by funext x; ring
    rw [e2]
    refine h1.congr_fderiv ?_
    ext v
    simp
  · rw [hgE, hgE, one_mul]
  · rw [hf, hf, hgE]
    have := norm_sub_sq_real y x
    rw [inner_sub_right, real_inner_self_eq_norm_sq, real_inner_comm]
    linarith
  · show (exHalf.iter ![1, 2] k).1 ≠ 0
    rw [(exHalf_iter _ k).1]
    refine smul_ne_zero (by positivity) ?_
    intro h
    have := congrFun h 0
    simp at this
  · obtain ⟨_, h2, h3⟩ := exHalf_iter ![1, 2] k
    have hd : direction (exHalf.iter ![1, 2] k).2 = -(exHalf.iter ![1, 2] k).1 := by rw [direction, h3, one_mulVec, h2]
    have hx : (exHalf.iter ![1, 2] (k + 1)).1 = (1 / 2 : ℝ) • (exHalf.iter ![1, 2] k).1 := by
      rw [(exHalf_iter _ (k + 1)).1, (exHalf_iter _ k).1, smul_smul, pow_succ']
    rw [hd, hx]
    set z := (exHalf.iter ![1, 2] k).1
    have e1 : pt (-z) = -pt z := rfl
    have e2 : pt ((1 / 2 : ℝ) • z) = (1 / 2 : ℝ) • pt z := rfl
    refine ⟨1 / 2, by norm_num, ?_, ?_, ?_⟩
    · rw [e1, e2, smul_neg]
      module
    · rw [e1, e2, hf, hf, hgE, norm_smul, inner_neg_right, real_inner_self_eq_norm_sq, mul_pow]
      norm_num
      nlinarith [sq_nonneg ‖pt z‖]
    · rw [e1, e2, hgE, hgE, inner_neg_right, inner_neg_right, inner_smul_left, real_inner_self_eq_norm_sq]
      simp
      nlinarith [sq_nonneg ‖pt z‖]

end Bfgs

end Jaxopt.QuasiNewton
