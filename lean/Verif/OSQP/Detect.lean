import Verif.OSQP.AdmmProps
import Verif.OSQP.CertifProps
import Verif.Num.Displacement
import Mathlib.Analysis.InnerProductSpace.PiL2
import Mathlib.Analysis.Asymptotics.Lemmas
import Mathlib.Tactic.Linarith
import Mathlib.Tactic.Module

/-!
# The steps of the ADMM iterations converge, and their limits are exact certificates

The iterations of `_admm_step` (osqp.py lines 634-663) with a constant stepsize are averaged in the variables `x` and `z + y / rho`, so
the differences of consecutive iterates converge whether or not the program has a solution (`Verif.Num.Displacement`).  Here the limits
`dx`, `dy`, `dz` of the differences are computed: `Q dx = 0`, `A dx = dz`, `Aᵀ dy = 0`, `dy` is a certificate of primal infeasibility
unless it is zero, and `dx` is one of dual infeasibility unless it is zero; if both are zero then the residuals tend to zero.
-/

set_option autoImplicit false
set_option linter.unusedSectionVars false
set_option linter.unusedVariables false

open Finset Matrix Filter Topology

namespace Jaxopt.OSQP.BoxOSQP

variable {n m : ℕ}

/-! ## Vectors -/

theorem tendsto_mulVec {k l : ℕ} (M : Matrix (Fin k) (Fin l) ℝ) {f : ℕ → Fin l → ℝ} {a : Fin l → ℝ} (h : Tendsto f atTop (𝓝 a)) :
    Tendsto (fun t => M.mulVec (f t)) atTop (𝓝 (M.mulVec a)) := by
  rw [tendsto_pi_nhds] at h ⊢
  intro i
  exact tendsto_finsetSum (f := fun j t => M i j * f t j) (a := fun j => M i j * a j) Finset.univ fun j _ => (h j).const_mul (M i j)

theorem tendsto_dot {k : ℕ} {f g : ℕ → Fin k → ℝ} {a b : Fin k → ℝ} (hf : Tendsto f atTop (𝓝 a)) (hg : Tendsto g atTop (𝓝 b)) :
    Tendsto (fun t => f t ⬝ᵥ g t) atTop (𝓝 (a ⬝ᵥ b)) := by
  rw [tendsto_pi_nhds] at hf hg
  exact tendsto_finsetSum _ fun j _ => (hf j).mul (hg j)

theorem dot_self_nonneg {k : ℕ} (v : Fin k → ℝ) : 0 ≤ v ⬝ᵥ v := Finset.sum_nonneg fun i _ => mul_self_nonneg _

theorem dot_self_pos {k : ℕ} {v : Fin k → ℝ} (h : v ≠ 0) : 0 < v ⬝ᵥ v := by
  obtain ⟨i, hi⟩ := Function.ne_iff.mp h
  exact Finset.sum_pos' (fun i _ => mul_self_nonneg _) ⟨i, Finset.mem_univ _, mul_self_pos.mpr hi⟩

/-- A vector at which a positive semidefinite form vanishes is in the kernel. -/
theorem psd_kernel (S : BoxOSQP ℝ n m) (hQ : S.PSD) {d : Fin n → ℝ} (h : d ⬝ᵥ S.Q.mulVec d = 0) : S.Q.mulVec d = 0 := by
  by_contra hne
  set g := S.Q.mulVec d with hg
  have hpos := dot_self_pos hne
  have hsym : d ⬝ᵥ S.Q.mulVec g = g ⬝ᵥ g := by
    rw [Matrix.dotProduct_mulVec, ← Matrix.mulVec_transpose, hQ.1]
  have key : ∀ t : ℝ, 0 ≤ -2 * t * (g ⬝ᵥ g) + t ^ 2 * (g ⬝ᵥ S.Q.mulVec g) := by
    intro t
    have h1 := hQ.2 (d - t • g)
    have e : (d - t • g) ⬝ᵥ S.Q.mulVec (d - t • g) = -2 * t * (g ⬝ᵥ g) + t ^ 2 * (g ⬝ᵥ S.Q.mulVec g) := by
      rw [Matrix.mulVec_sub, Matrix.mulVec_smul, sub_dotProduct, dotProduct_sub, dotProduct_sub, dotProduct_smul, dotProduct_smul,
        smul_dotProduct, smul_dotProduct, hsym, h, ← hg]
      simp only [smul_eq_mul]; ring
    rw [e] at h1; exact h1
  have hq := hQ.2 g
  set a := g ⬝ᵥ g
  set b := g ⬝ᵥ S.Q.mulVec g
  have h2 := key (a / (b + a))
  have hba : 0 < b + a := by linarith
  have h3 : -2 * (a / (b + a)) * a + (a / (b + a)) ^ 2 * b = -(a ^ 2 * (b + 2 * a)) / (b + a) ^ 2 := by field_simp; ring
  rw [h3] at h2
  have h4 : -(a ^ 2 * (b + 2 * a)) / (b + a) ^ 2 < 0 := by
    apply div_neg_of_neg_of_pos _ (by positivity)
    have : 0 < a ^ 2 * (b + 2 * a) := mul_pos (by positivity) (by linarith)
    linarith
  linarith

/-- A sequence whose steps have a positive limit tends to infinity. -/
theorem atTop_of_steps {v : ℕ → ℝ} {d : ℝ} (h : Tendsto (fun k => v (k + 1) - v k) atTop (𝓝 d)) (hd : 0 < d) : Tendsto v atTop atTop := by
  obtain ⟨N, hN⟩ := eventually_atTop.mp (h.eventually_const_le (half_lt_self hd))
  have hlow : ∀ k : ℕ, v N + (d / 2) * (k : ℝ) ≤ v (N + k) := by
    intro k
    induction k with
    | zero => simp
    | succ k ih =>
      have := hN (N + k) (by omega)
      push_cast
      rw [show N + (k + 1) = N + k + 1 by omega]
      linarith
  have h1 : Tendsto (fun k : ℕ => v N + (d / 2) * (k : ℝ)) atTop atTop :=
    tendsto_atTop_add_const_left _ _ (tendsto_natCast_atTop_atTop.const_mul_atTop (half_pos hd))
  have h2 : Tendsto (fun k => v (N + k)) atTop atTop := tendsto_atTop_mono hlow h1
  have h3 : Tendsto (fun k => v (k + N)) atTop atTop := by simpa [add_comm] using h2
  exact (tendsto_add_atTop_iff_nat N).mp h3

theorem atBot_of_steps {v : ℕ → ℝ} {d : ℝ} (h : Tendsto (fun k => v (k + 1) - v k) atTop (𝓝 d)) (hd : d < 0) : Tendsto v atTop atBot := by
  have h1 : Tendsto (fun k => -v (k + 1) - -v k) atTop (𝓝 (-d)) := by
    refine h.neg.congr fun k => by ring
  have := atTop_of_steps (v := fun k => -v k) h1 (by linarith)
  have h2 := tendsto_neg_atTop_atBot.comp this
  refine h2.congr fun k => ?_
  simp

/-! ## The iterations -/

/-- Sequences produced by the iterations with the constant stepsize `rho` and exact linear solves: `z` in the box, `y` normal to the box
at `z`, `xb` the solution of the linear system, and the relaxed updates of `x` and of `z + y / rho`. -/
structure Seq (S : BoxOSQP ℝ n m) (rho : ℝ) (x xb : ℕ → Fin n → ℝ) (z y : ℕ → Fin m → ℝ) : Prop where
  psd : S.PSD
  sig : 0 < S.sigma
  rpos : 0 < rho
  mom : 0 < S.momentum
  mom' : S.momentum < 2
  box : ∀ k, S.InBox (z k)
  upper : ∀ k i, 0 < y k i → S.u i = some (z k i)
  lower : ∀ k i, y k i < 0 → S.l i = some (z k i)
  lin : ∀ k, (S.Q.mulVec (xb k) + S.c) + S.sigma • (xb k - x k) + S.A.transpose.mulVec (y k + rho • (S.A.mulVec (xb k) - z k)) = 0
  xnext : ∀ k, x (k + 1) = x k + S.momentum • (xb k - x k)
  vnext : ∀ k, z (k + 1) + (1 / rho) • y (k + 1) = (z k + (1 / rho) • y k) + S.momentum • (S.A.mulVec (xb k) - z k)

/-- `(√sigma x, √rho v)`. -/
noncomputable def emb (S : BoxOSQP ℝ n m) (rho : ℝ) (x : Fin n → ℝ) (v : Fin m → ℝ) : EuclideanSpace ℝ (Fin n ⊕ Fin m) :=
  WithLp.toLp 2 (Sum.elim (fun j => √S.sigma * x j) (fun i => √rho * v i))

theorem emb_sub (S : BoxOSQP ℝ n m) (rho : ℝ) (x x' : Fin n → ℝ) (v v' : Fin m → ℝ) :
    S.emb rho x v - S.emb rho x' v' = S.emb rho (x - x') (v - v') := by
  unfold emb
  rw [← WithLp.toLp_sub]
  congr 1
  funext s
  rcases s with j | i
  · simp [mul_sub]
  · simp [mul_sub]

theorem emb_norm (S : BoxOSQP ℝ n m) {rho : ℝ} (hs : 0 ≤ S.sigma) (hr : 0 ≤ rho) (x : Fin n → ℝ) (v : Fin m → ℝ) :
    ‖S.emb rho x v‖ ^ 2 = S.sigma * (x ⬝ᵥ x) + rho * (v ⬝ᵥ v) := by
  rw [EuclideanSpace.real_norm_sq_eq, Fintype.sum_sum_type]
  simp only [emb, Sum.elim_inl, Sum.elim_inr, mul_pow, Real.sq_sqrt hs, Real.sq_sqrt hr, ← Finset.mul_sum]
  congr 2 <;> exact Finset.sum_congr rfl fun i _ => sq _

variable {S : BoxOSQP ℝ n m} {rho : ℝ} {x xb : ℕ → Fin n → ℝ} {z y : ℕ → Fin m → ℝ}

theorem Seq.dot_A (S : BoxOSQP ℝ n m) (v : Fin n → ℝ) (w : Fin m → ℝ) : v ⬝ᵥ S.A.transpose.mulVec w = S.A.mulVec v ⬝ᵥ w := by
  rw [Matrix.mulVec_transpose, dotProduct_comm, ← Matrix.dotProduct_mulVec, dotProduct_comm]

theorem Seq.normal (h : S.Seq rho x xb z y) (k : ℕ) {v : Fin m → ℝ} (hv : S.InBox v) : (v - z k) ⬝ᵥ y k ≤ 0 := by
  rw [dotProduct]
  refine Finset.sum_nonpos fun i _ => ?_
  rw [Pi.sub_apply]
  rcases lt_trichotomy (y k i) 0 with h0 | h0 | h0
  · have := (hv i).1 _ (h.lower k i h0)
    exact mul_nonpos_of_nonneg_of_nonpos (by linarith) h0.le
  · rw [h0, mul_zero]
  · have := (hv i).2 _ (h.upper k i h0)
    exact mul_nonpos_of_nonpos_of_nonneg (by linarith) h0.le

/-- The iterations are averaged. -/
theorem Seq.averaged (h : S.Seq rho x xb z y) :
    Displacement.Averaged ((2 - S.momentum) / S.momentum) (fun k => S.emb rho (x k) (z k + (1 / rho) • y k)) := by
  intro i j
  set a := (xb i - x i) - (xb j - x j) with ha
  set b := (S.A.mulVec (xb i) - z i) - (S.A.mulVec (xb j) - z j) with hb
  set X := x i - x j with hX
  set Z := z i - z j with hZ
  set Y := y i - y j with hY
  set al := S.momentum with hal
  have hr := h.rpos
  have hV : (z i + (1 / rho) • y i) - (z j + (1 / rho) • y j) = Z + (1 / rho) • Y := by
    rw [hZ, hY]; module
  have e1 : x (i + 1) - x (j + 1) = X + al • a := by
    rw [h.xnext, h.xnext, hX, ha]; module
  have e2 : (z (i + 1) + (1 / rho) • y (i + 1)) - (z (j + 1) + (1 / rho) • y (j + 1)) = (Z + (1 / rho) • Y) + al • b := by
    rw [h.vnext, h.vnext, ← hV, hb]; module
  have e3 : (x (i + 1) - x i) - (x (j + 1) - x j) = al • a := by
    rw [h.xnext, h.xnext, ha]; module
  have e4 : ((z (i + 1) + (1 / rho) • y (i + 1)) - (z i + (1 / rho) • y i)) - ((z (j + 1) + (1 / rho) • y (j + 1)) - (z j + (1 / rho) • y j))
      = al • b := by
    rw [h.vnext, h.vnext, hb]; module
  simp only [emb_sub]
  rw [e1, e2, e3, e4, hV, S.emb_norm h.sig.le hr.le, S.emb_norm h.sig.le hr.le, S.emb_norm h.sig.le hr.le]
  have hdiff : S.Q.mulVec (X + a) + S.sigma • a + S.A.transpose.mulVec (Y + rho • b) = 0 := by
    have e1 : X + a = xb i - xb j := by rw [hX, ha]; abel
    have e2 : Y + rho • b = (y i + rho • (S.A.mulVec (xb i) - z i)) - (y j + rho • (S.A.mulVec (xb j) - z j)) := by
      rw [hY, hb]; module
    rw [e1, e2, Matrix.mulVec_sub, Matrix.mulVec_sub]
    funext t
    have h1 := congrFun (h.lin i) t
    have h2 := congrFun (h.lin j) t
    simp only [Pi.add_apply, Pi.smul_apply, Pi.sub_apply, smul_eq_mul, Pi.zero_apply, ha] at h1 h2 ⊢
    linear_combination h1 - h2
  have hdot : (X + a) ⬝ᵥ (S.Q.mulVec (X + a) + S.sigma • a + S.A.transpose.mulVec (Y + rho • b)) = 0 := by rw [hdiff, dotProduct_zero]
  have hA : (X + a) ⬝ᵥ S.A.transpose.mulVec (Y + rho • b) = (b + Z) ⬝ᵥ (Y + rho • b) := by
    rw [Seq.dot_A]
    have : S.A.mulVec (X + a) = b + Z := by
      have e1 : X + a = xb i - xb j := by rw [hX, ha]; abel
      rw [e1, Matrix.mulVec_sub, hb, hZ]; abel
    rw [this]
  rw [dotProduct_add, dotProduct_add, hA] at hdot
  have hpsd := h.psd.2 (X + a)
  have hmono : 0 ≤ Z ⬝ᵥ Y := by
    have h1 := h.normal i (h.box j)
    have h2 := h.normal j (h.box i)
    have e : Z ⬝ᵥ Y = -((z j - z i) ⬝ᵥ y i) - (z i - z j) ⬝ᵥ y j := by
      rw [hZ, hY, dotProduct_sub, ← neg_dotProduct, neg_sub]
    rw [e]; linarith
  have hkey : S.sigma * (a ⬝ᵥ X) + rho * (b ⬝ᵥ Z) + b ⬝ᵥ Y + S.sigma * (a ⬝ᵥ a) + rho * (b ⬝ᵥ b) ≤ 0 := by
    have e1 : (X + a) ⬝ᵥ (S.sigma • a) = S.sigma * (a ⬝ᵥ X) + S.sigma * (a ⬝ᵥ a) := by
      rw [dotProduct_smul, add_dotProduct, dotProduct_comm X a, smul_eq_mul]; ring
    have e2 : (b + Z) ⬝ᵥ (Y + rho • b) = b ⬝ᵥ Y + rho * (b ⬝ᵥ b) + (Z ⬝ᵥ Y + rho * (b ⬝ᵥ Z)) := by
      rw [add_dotProduct, dotProduct_add, dotProduct_add, dotProduct_smul, dotProduct_smul, dotProduct_comm Z b, smul_eq_mul, smul_eq_mul]
    rw [e1, e2] at hdot
    linarith
  have f1 : (X + al • a) ⬝ᵥ (X + al • a) = X ⬝ᵥ X + 2 * al * (a ⬝ᵥ X) + al ^ 2 * (a ⬝ᵥ a) := by
    simp only [add_dotProduct, dotProduct_add, smul_dotProduct, dotProduct_smul, smul_eq_mul, dotProduct_comm X a]; ring
  have f2 : ∀ W : Fin m → ℝ, (W + al • b) ⬝ᵥ (W + al • b) = W ⬝ᵥ W + 2 * al * (b ⬝ᵥ W) + al ^ 2 * (b ⬝ᵥ b) := by
    intro W
    simp only [add_dotProduct, dotProduct_add, smul_dotProduct, dotProduct_smul, smul_eq_mul, dotProduct_comm W b]; ring
  have f3 : rho * (b ⬝ᵥ (Z + (1 / rho) • Y)) = rho * (b ⬝ᵥ Z) + b ⬝ᵥ Y := by
    rw [dotProduct_add, dotProduct_smul, smul_eq_mul]; field_simp
  have f4 : (al • a) ⬝ᵥ (al • a) = al ^ 2 * (a ⬝ᵥ a) := by simp only [smul_dotProduct, dotProduct_smul, smul_eq_mul]; ring
  have f5 : (al • b) ⬝ᵥ (al • b) = al ^ 2 * (b ⬝ᵥ b) := by simp only [smul_dotProduct, dotProduct_smul, smul_eq_mul]; ring
  rw [f1, f2, f4, f5]
  have hal0 : (0 : ℝ) < al := h.mom
  have hkey2 := mul_le_mul_of_nonneg_left hkey (by linarith : (0 : ℝ) ≤ 2 * al)
  have f6 : (2 - al) / al * (S.sigma * (al ^ 2 * (a ⬝ᵥ a)) + rho * (al ^ 2 * (b ⬝ᵥ b))) =
      (2 - al) * al * (S.sigma * (a ⬝ᵥ a) + rho * (b ⬝ᵥ b)) := by field_simp
  rw [f6]
  generalize (Z + (1 / rho) • Y) ⬝ᵥ (Z + (1 / rho) • Y) = w at *
  generalize b ⬝ᵥ (Z + (1 / rho) • Y) = w2 at *
  have f7 : rho * (w + 2 * al * w2 + al ^ 2 * (b ⬝ᵥ b)) = rho * w + 2 * al * (rho * (b ⬝ᵥ Z) + b ⬝ᵥ Y) + rho * al ^ 2 * (b ⬝ᵥ b) := by
    rw [← f3]; ring
  rw [f7]
  nlinarith

/-- The steps of `x` and of `z + y / rho` converge. -/
theorem Seq.steps (h : S.Seq rho x xb z y) : ∃ dx dv,
    Tendsto (fun k => x (k + 1) - x k) atTop (𝓝 dx) ∧
    Tendsto (fun k => (z (k + 1) + (1 / rho) • y (k + 1)) - (z k + (1 / rho) • y k)) atTop (𝓝 dv) := by
  obtain ⟨w, hw⟩ := Displacement.tendsto_step (div_pos (by linarith [h.mom']) h.mom) h.averaged
  simp only [emb_sub] at hw
  have hw' : Tendsto (fun k => (S.emb rho (x (k + 1) - x k)
      ((z (k + 1) + (1 / rho) • y (k + 1)) - (z k + (1 / rho) • y k))).ofLp) atTop (𝓝 w.ofLp) :=
    ((PiLp.continuous_ofLp 2 _).tendsto w).comp hw
  rw [tendsto_pi_nhds] at hw'
  have hs : 0 < √S.sigma := Real.sqrt_pos.mpr h.sig
  have hr : 0 < √rho := Real.sqrt_pos.mpr h.rpos
  refine ⟨fun j => (√S.sigma)⁻¹ * w.ofLp (.inl j), fun i => (√rho)⁻¹ * w.ofLp (.inr i), ?_, ?_⟩
  · rw [tendsto_pi_nhds]
    intro j
    refine ((hw' (.inl j)).const_mul (√S.sigma)⁻¹).congr fun k => ?_
    simp only [emb, Sum.elim_inl]
    rw [← mul_assoc, inv_mul_cancel₀ hs.ne', one_mul]
  · rw [tendsto_pi_nhds]
    intro i
    refine ((hw' (.inr i)).const_mul (√rho)⁻¹).congr fun k => ?_
    simp only [emb, Sum.elim_inr]
    rw [← mul_assoc, inv_mul_cancel₀ hr.ne', one_mul]

/-! ## One coordinate -/

/-- The limits of the steps of `z` and `y` in one coordinate. -/
structure Coord (rho : ℝ) (l u : Option ℝ) (z y : ℕ → ℝ) (ze et : ℝ) : Prop where
  hz : Tendsto (fun k => z (k + 1) - z k) atTop (𝓝 ze)
  hy : Tendsto (fun k => y (k + 1) - y k) atTop (𝓝 et)
  compl : ze * et = 0
  pos : 0 < et → ∀ᶠ k in atTop, u = some (z k)
  neg : et < 0 → ∀ᶠ k in atTop, l = some (z k)
  up : 0 < ze → u = none
  lo : ze < 0 → l = none
  free : ze ≠ 0 → ∀ᶠ k in atTop, y k = 0

theorem coord {rho : ℝ} (hr : 0 < rho) {l u : Option ℝ} {z y : ℕ → ℝ} {d : ℝ} (hl : ∀ k, GeB (z k) l) (hu : ∀ k, LeB (z k) u)
    (hup : ∀ k, 0 < y k → u = some (z k)) (hlo : ∀ k, y k < 0 → l = some (z k))
    (hd : Tendsto (fun k => (z (k + 1) + 1 / rho * y (k + 1)) - (z k + 1 / rho * y k)) atTop (𝓝 d)) :
    ∃ ze et, d = ze + 1 / rho * et ∧ Coord rho l u z y ze et := by
  have hri : 0 < 1 / rho := by positivity
  have mono : ∀ j k, 0 ≤ (z j - z k) * (y j - y k) := by
    have one : ∀ j k, 0 ≤ (z j - z k) * y j := by
      intro j k
      rcases lt_trichotomy (y j) 0 with h0 | h0 | h0
      · have := hl k _ (hlo j h0)
        exact mul_nonneg_of_nonpos_of_nonpos (by linarith) h0.le
      · rw [h0, mul_zero]
      · have := hu k _ (hup j h0)
        exact mul_nonneg (by linarith) h0.le
    intro j k
    have h1 := one j k
    have h2 := one k j
    nlinarith
  rcases lt_trichotomy d 0 with hneg | rfl | hpos
  · have hbot := atBot_of_steps (v := fun k => z k + 1 / rho * y k) hd hneg
    rcases l with _ | a
    · -- no lower bound: `y` vanishes eventually
      have hy0 : ∀ᶠ k in atTop, y k = 0 := by
        rcases u with _ | b
        · refine Eventually.of_forall fun k => ?_
          rcases lt_trichotomy (y k) 0 with h0 | h0 | h0
          · exact absurd (hlo k h0) (by simp)
          · exact h0
          · exact absurd (hup k h0) (by simp)
        · filter_upwards [hbot.eventually_lt_atBot b] with k hk
          rcases lt_trichotomy (y k) 0 with h0 | h0 | h0
          · exact absurd (hlo k h0) (by simp)
          · exact h0
          · have e := hup k h0
            simp only [Option.some.injEq] at e
            have : 0 < 1 / rho * y k := mul_pos hri h0
            linarith
      have hy1 : ∀ᶠ k in atTop, y (k + 1) = 0 := (tendsto_add_atTop_nat 1).eventually hy0
      refine ⟨d, 0, by ring, ⟨?_, ?_, by ring, fun h => absurd h (lt_irrefl _), fun h => absurd h (lt_irrefl _), fun h => by linarith,
        fun _ => rfl, fun _ => hy0⟩⟩
      · refine hd.congr' ?_
        filter_upwards [hy0, hy1] with k h0 h1
        rw [h0, h1]; ring
      · refine tendsto_const_nhds.congr' ?_
        filter_upwards [hy0, hy1] with k h0 h1
        rw [h0, h1]; ring
    · have hz0 : ∀ᶠ k in atTop, z k = a := by
        filter_upwards [hbot.eventually_lt_atBot a] with k hk
        have h1 := hl k a rfl
        have h2 : y k < 0 := by
          by_contra hc
          have : 0 ≤ 1 / rho * y k := mul_nonneg hri.le (not_lt.mp hc)
          linarith
        have e := hlo k h2
        simp only [Option.some.injEq] at e
        exact e.symm
      have hz1 : ∀ᶠ k in atTop, z (k + 1) = a := (tendsto_add_atTop_nat 1).eventually hz0
      refine ⟨0, rho * d, by field_simp; ring, ⟨?_, ?_, by ring, fun h => ?_, fun _ => ?_, fun h => absurd h (lt_irrefl _),
        fun h => absurd h (lt_irrefl _), fun h => absurd rfl h⟩⟩
      · refine tendsto_const_nhds.congr' ?_
        filter_upwards [hz0, hz1] with k h0 h1
        rw [h0, h1]; ring
      · refine (hd.const_mul rho).congr' ?_
        filter_upwards [hz0, hz1] with k h0 h1
        rw [h0, h1]; field_simp; ring
      · have := mul_neg_of_pos_of_neg hr hneg
        linarith
      · filter_upwards [hz0] with k h0
        rw [h0]
  · -- the step of `z` is at most that of `z + y / rho`
    have habs : Tendsto (fun k => |(z (k + 1) + 1 / rho * y (k + 1)) - (z k + 1 / rho * y k)|) atTop (𝓝 0) := by
      simpa using hd.abs
    have hz : Tendsto (fun k => z (k + 1) - z k) atTop (𝓝 0) := by
      refine squeeze_zero_norm (fun k => ?_) habs
      rw [Real.norm_eq_abs]
      have h0 := mono (k + 1) k
      have e : (z (k + 1) + 1 / rho * y (k + 1)) - (z k + 1 / rho * y k) = (z (k + 1) - z k) + 1 / rho * (y (k + 1) - y k) := by ring
      rw [e]
      apply sq_le_sq.mp
      have : 0 ≤ (z (k + 1) - z k) * (1 / rho * (y (k + 1) - y k)) := by
        have := mul_nonneg hri.le h0
        nlinarith
      nlinarith [sq_nonneg (1 / rho * (y (k + 1) - y k))]
    refine ⟨0, 0, by ring, ⟨hz, ?_, by ring, fun h => absurd h (lt_irrefl _), fun h => absurd h (lt_irrefl _), fun h => absurd h (lt_irrefl _),
      fun h => absurd h (lt_irrefl _), fun h => absurd rfl h⟩⟩
    have h1 := (hd.sub hz).const_mul rho
    simp only [sub_zero, mul_zero] at h1
    refine h1.congr fun k => ?_
    field_simp; ring
  · have htop := atTop_of_steps (v := fun k => z k + 1 / rho * y k) hd hpos
    rcases u with _ | b
    · have hy0 : ∀ᶠ k in atTop, y k = 0 := by
        rcases l with _ | a
        · refine Eventually.of_forall fun k => ?_
          rcases lt_trichotomy (y k) 0 with h0 | h0 | h0
          · exact absurd (hlo k h0) (by simp)
          · exact h0
          · exact absurd (hup k h0) (by simp)
        · filter_upwards [htop.eventually_gt_atTop a] with k hk
          rcases lt_trichotomy (y k) 0 with h0 | h0 | h0
          · have e := hlo k h0
            simp only [Option.some.injEq] at e
            have : 1 / rho * y k < 0 := mul_neg_of_pos_of_neg hri h0
            linarith
          · exact h0
          · exact absurd (hup k h0) (by simp)
      have hy1 : ∀ᶠ k in atTop, y (k + 1) = 0 := (tendsto_add_atTop_nat 1).eventually hy0
      refine ⟨d, 0, by ring, ⟨?_, ?_, by ring, fun h => absurd h (lt_irrefl _), fun h => absurd h (lt_irrefl _), fun _ => rfl,
        fun h => by linarith, fun _ => hy0⟩⟩
      · refine hd.congr' ?_
        filter_upwards [hy0, hy1] with k h0 h1
        rw [h0, h1]; ring
      · refine tendsto_const_nhds.congr' ?_
        filter_upwards [hy0, hy1] with k h0 h1
        rw [h0, h1]; ring
    · have hz0 : ∀ᶠ k in atTop, z k = b := by
        filter_upwards [htop.eventually_gt_atTop b] with k hk
        have h1 := hu k b rfl
        have h2 : 0 < y k := by
          by_contra hc
          have : 1 / rho * y k ≤ 0 := mul_nonpos_of_nonneg_of_nonpos hri.le (not_lt.mp hc)
          linarith
        have e := hup k h2
        simp only [Option.some.injEq] at e
        exact e.symm
      have hz1 : ∀ᶠ k in atTop, z (k + 1) = b := (tendsto_add_atTop_nat 1).eventually hz0
      refine ⟨0, rho * d, by field_simp; ring, ⟨?_, ?_, by ring, fun _ => ?_, fun h => ?_, fun h => absurd h (lt_irrefl _),
        fun h => absurd h (lt_irrefl _), fun h => absurd rfl h⟩⟩
      · refine tendsto_const_nhds.congr' ?_
        filter_upwards [hz0, hz1] with k h0 h1
        rw [h0, h1]; ring
      · refine (hd.const_mul rho).congr' ?_
        filter_upwards [hz0, hz1] with k h0 h1
        rw [h0, h1]; field_simp; ring
      · filter_upwards [hz0] with k h0
        rw [h0]
      · have := mul_pos hr hpos
        linarith

/-! ## The limits -/

/-- The limits of the steps: `dx`, `dz`, `dy`. -/
structure Limits (S : BoxOSQP ℝ n m) (rho : ℝ) (x : ℕ → Fin n → ℝ) (z y : ℕ → Fin m → ℝ) (dx : Fin n → ℝ) (dy : Fin m → ℝ) : Prop where
  hx : Tendsto (fun k => x (k + 1) - x k) atTop (𝓝 dx)
  hz : Tendsto (fun k => z (k + 1) - z k) atTop (𝓝 (S.A.mulVec dx))
  hy : Tendsto (fun k => y (k + 1) - y k) atTop (𝓝 dy)
  kerQ : S.Q.mulVec dx = 0
  kerA : S.A.transpose.mulVec dy = 0
  lu : S.certifLU dy = -(dy ⬝ᵥ dy) / (S.momentum * rho)
  lin : S.c ⬝ᵥ dx = -(S.sigma * (dx ⬝ᵥ dx) + rho * (S.A.mulVec dx ⬝ᵥ S.A.mulVec dx)) / S.momentum
  up : ∀ i, S.u i ≠ none → S.A.mulVec dx i ≤ 0
  lo : ∀ i, S.l i ≠ none → 0 ≤ S.A.mulVec dx i
  yup : ∀ i, S.u i = none → dy i ≤ 0
  ylo : ∀ i, S.l i = none → 0 ≤ dy i
  primal : Tendsto (fun k => S.primalRes (x k) (z k)) atTop (𝓝 ((1 / (S.momentum * rho)) • dy))
  dual : Tendsto (fun k => S.dualRes (x k) (y k)) atTop
    (𝓝 (-(1 / S.momentum) • (S.sigma • dx + rho • S.A.transpose.mulVec (S.A.mulVec dx))))

theorem Seq.limits (h : S.Seq rho x xb z y) : ∃ dx dy, S.Limits rho x z y dx dy := by
  obtain ⟨dx, dv, hx, hv⟩ := h.steps
  have hr := h.rpos
  have hal := h.mom
  have hco : ∀ i, ∃ ze et, dv i = ze + 1 / rho * et ∧ Coord rho (S.l i) (S.u i) (fun k => z k i) (fun k => y k i) ze et := by
    intro i
    refine coord hr (fun k => (h.box k i).1) (fun k => (h.box k i).2) (fun k => h.upper k i) (fun k => h.lower k i) ?_
    exact (tendsto_pi_nhds.mp hv) i
  choose ze et hdv hC using hco
  have hz : Tendsto (fun k => z (k + 1) - z k) atTop (𝓝 ze) := tendsto_pi_nhds.mpr fun i => (hC i).hz
  have hy : Tendsto (fun k => y (k + 1) - y k) atTop (𝓝 et) := tendsto_pi_nhds.mpr fun i => (hC i).hy
  have hdv' : dv = ze + (1 / rho) • et := by funext i; simpa using hdv i
  -- the relaxed steps
  have ex : ∀ k, xb k - x k = (1 / S.momentum) • (x (k + 1) - x k) := by
    intro k; rw [h.xnext, add_sub_cancel_left, smul_smul, one_div, inv_mul_cancel₀ hal.ne', one_smul]
  have ev : ∀ k, S.A.mulVec (xb k) - z k = (1 / S.momentum) • ((z (k + 1) + (1 / rho) • y (k + 1)) - (z k + (1 / rho) • y k)) := by
    intro k; rw [h.vnext, add_sub_cancel_left, smul_smul, one_div, inv_mul_cancel₀ hal.ne', one_smul]
  have tx : Tendsto (fun k => xb k - x k) atTop (𝓝 ((1 / S.momentum) • dx)) := by
    simp only [ex]; exact hx.const_smul _
  have tv : Tendsto (fun k => S.A.mulVec (xb k) - z k) atTop (𝓝 ((1 / S.momentum) • dv)) := by
    simp only [ev]; exact hv.const_smul _
  have shift : ∀ {β : Type} [TopologicalSpace β] {f : ℕ → β} {a : β}, Tendsto f atTop (𝓝 a) → Tendsto (fun k => f (k + 1)) atTop (𝓝 a) :=
    fun hf => hf.comp (tendsto_add_atTop_nat 1)
  have txb : Tendsto (fun k => xb (k + 1) - xb k) atTop (𝓝 dx) := by
    have h1 := (((shift tx).sub tx).add hx)
    rw [sub_self, zero_add] at h1
    refine h1.congr fun k => ?_
    abel
  -- `A dx = dz`
  have hA : S.A.mulVec dx = ze := by
    have h1 := tendsto_mulVec S.A txb
    have h2 := ((shift tv).sub tv).add hz
    rw [sub_self, zero_add] at h2
    refine tendsto_nhds_unique h1 (h2.congr fun k => ?_)
    rw [Matrix.mulVec_sub]; abel
  -- `Q dx + Aᵀ dy = 0`
  have hK : S.Q.mulVec dx + S.A.transpose.mulVec et = 0 := by
    have h1 := (tendsto_mulVec S.Q txb).add (((shift tx).sub tx).const_smul S.sigma)
    have h2 := tendsto_mulVec S.A.transpose (hy.add (((shift tv).sub tv).const_smul rho))
    have h3 := h1.add h2
    rw [sub_self, smul_zero, add_zero, sub_self, smul_zero, add_zero] at h3
    refine tendsto_nhds_unique h3 (tendsto_const_nhds.congr fun k => ?_)
    have e1 := h.lin (k + 1)
    have e2 := h.lin k
    have e3 : y (k + 1) - y k + rho • (S.A.mulVec (xb (k + 1)) - z (k + 1) - (S.A.mulVec (xb k) - z k)) =
      (y (k + 1) + rho • (S.A.mulVec (xb (k + 1)) - z (k + 1))) - (y k + rho • (S.A.mulVec (xb k) - z k)) := by
      rw [smul_sub rho (S.A.mulVec (xb (k + 1)) - z (k + 1))]; abel
    rw [e3, Matrix.mulVec_sub S.A.transpose, Matrix.mulVec_sub S.Q]
    funext t
    have h1 := congrFun e1 t
    have h2 := congrFun e2 t
    simp only [Pi.add_apply, Pi.smul_apply, Pi.sub_apply, smul_eq_mul, Pi.zero_apply] at h1 h2 ⊢
    linear_combination h2 - h1
  have hcompl : ze ⬝ᵥ et = 0 := Finset.sum_eq_zero fun i _ => (hC i).compl
  have hQ0 : S.Q.mulVec dx = 0 := by
    refine S.psd_kernel h.psd ?_
    have h1 : dx ⬝ᵥ (S.Q.mulVec dx + S.A.transpose.mulVec et) = 0 := by rw [hK, dotProduct_zero]
    rw [dotProduct_add, Seq.dot_A, hA, hcompl, add_zero] at h1
    exact h1
  have hA0 : S.A.transpose.mulVec et = 0 := by rw [hQ0, zero_add] at hK; exact hK
  -- the value of the certificate
  have hlu : S.certifLU et = -(et ⬝ᵥ et) / (S.momentum * rho) := by
    have hev : ∀ᶠ k in atTop, S.certifLU et = z k ⬝ᵥ et := by
      have : ∀ i, ∀ᶠ k in atTop, (S.l i).getD 0 * -Jaxopt.Proj.relu (-et i) + (S.u i).getD 0 * Jaxopt.Proj.relu (et i) = z k i * et i := by
        intro i
        rcases lt_trichotomy (et i) 0 with h0 | h0 | h0
        · filter_upwards [(hC i).neg h0] with k hk
          rw [hk, Jaxopt.Proj.relu, Jaxopt.Proj.relu, max_eq_left (by linarith : 0 ≤ -et i), max_eq_right h0.le]
          simp
        · refine Eventually.of_forall fun k => ?_
          rw [h0]; simp [Jaxopt.Proj.relu]
        · filter_upwards [(hC i).pos h0] with k hk
          rw [hk, Jaxopt.Proj.relu, Jaxopt.Proj.relu, max_eq_right (by linarith : -et i ≤ 0), max_eq_left h0.le]
          simp
      filter_upwards [eventually_all.mpr this] with k hk
      rw [certifLU, ← Finset.sum_add_distrib, dotProduct]
      exact Finset.sum_congr rfl fun i _ => hk i
    have h1 : Tendsto (fun k => (S.A.mulVec (xb k) - z k) ⬝ᵥ et) atTop (𝓝 (((1 / S.momentum) • dv) ⬝ᵥ et)) :=
      tendsto_dot tv tendsto_const_nhds
    have h2 : Tendsto (fun k => (S.A.mulVec (xb k) - z k) ⬝ᵥ et) atTop (𝓝 (-S.certifLU et)) := by
      refine tendsto_const_nhds.congr' ?_
      filter_upwards [hev] with k hk
      rw [sub_dotProduct, ← Seq.dot_A, hA0, dotProduct_zero, hk]; ring
    have h3 := tendsto_nhds_unique h1 h2
    rw [smul_dotProduct, hdv', add_dotProduct, hcompl, smul_dotProduct, zero_add] at h3
    simp only [smul_eq_mul] at h3
    have : S.certifLU et = -(1 / S.momentum * (1 / rho * (et ⬝ᵥ et))) := by linarith
    rw [this]; field_simp
  -- the value of the linear form
  have hlin : S.c ⬝ᵥ dx = -(S.sigma * (dx ⬝ᵥ dx) + rho * (ze ⬝ᵥ ze)) / S.momentum := by
    have hev : ∀ᶠ k in atTop, y k ⬝ᵥ ze = 0 := by
      have : ∀ i, ∀ᶠ k in atTop, y k i * ze i = 0 := by
        intro i
        by_cases h0 : ze i = 0
        · exact Eventually.of_forall fun k => by rw [h0, mul_zero]
        · filter_upwards [(hC i).free h0] with k hk
          rw [hk, zero_mul]
      filter_upwards [eventually_all.mpr this] with k hk
      exact Finset.sum_eq_zero fun i _ => hk i
    have h1 : Tendsto (fun k => S.sigma * ((xb k - x k) ⬝ᵥ dx) + rho * ((S.A.mulVec (xb k) - z k) ⬝ᵥ ze)) atTop
        (𝓝 (S.sigma * (((1 / S.momentum) • dx) ⬝ᵥ dx) + rho * (((1 / S.momentum) • dv) ⬝ᵥ ze))) :=
      ((tendsto_dot tx tendsto_const_nhds).const_mul _).add ((tendsto_dot tv tendsto_const_nhds).const_mul _)
    have h2 : Tendsto (fun k => S.sigma * ((xb k - x k) ⬝ᵥ dx) + rho * ((S.A.mulVec (xb k) - z k) ⬝ᵥ ze)) atTop (𝓝 (-(S.c ⬝ᵥ dx))) := by
      refine tendsto_const_nhds.congr' ?_
      filter_upwards [hev] with k hk
      have e : dx ⬝ᵥ ((S.Q.mulVec (xb k) + S.c) + S.sigma • (xb k - x k) + S.A.transpose.mulVec (y k + rho • (S.A.mulVec (xb k) - z k))) = 0 := by
        rw [h.lin, dotProduct_zero]
      have e2 : dx ⬝ᵥ S.Q.mulVec (xb k) = 0 := by
        rw [Matrix.dotProduct_mulVec, ← Matrix.mulVec_transpose, h.psd.1, hQ0, zero_dotProduct]
      rw [dotProduct_add, dotProduct_add, dotProduct_add, e2, Seq.dot_A, hA, dotProduct_add, dotProduct_comm ze (y k), hk, dotProduct_smul,
        dotProduct_smul, dotProduct_comm dx S.c, dotProduct_comm dx, dotProduct_comm ze] at e
      simp only [smul_eq_mul] at e
      linarith
    have h3 := tendsto_nhds_unique h1 h2
    rw [smul_dotProduct, smul_dotProduct, hdv', add_dotProduct, smul_dotProduct, dotProduct_comm et ze, hcompl] at h3
    simp only [smul_eq_mul, mul_zero, add_zero] at h3
    have : S.c ⬝ᵥ dx = -(S.sigma * (1 / S.momentum * (dx ⬝ᵥ dx)) + rho * (1 / S.momentum * (ze ⬝ᵥ ze))) := by linarith
    rw [this]; field_simp
  refine ⟨dx, et, hx, hA ▸ hz, hy, hQ0, hA0, hlu, hA ▸ hlin, fun i hi => ?_, fun i hi => ?_, fun i hi => ?_, fun i hi => ?_, ?_, ?_⟩
  · rw [hA]; by_contra hc; exact hi ((hC i).up (not_le.mp hc))
  · rw [hA]; by_contra hc; exact hi ((hC i).lo (not_le.mp hc))
  · by_contra hc
    obtain ⟨k, hk⟩ := ((hC i).pos (not_le.mp hc)).exists
    rw [hi] at hk; cases hk
  · by_contra hc
    obtain ⟨k, hk⟩ := ((hC i).neg (not_le.mp hc)).exists
    rw [hi] at hk; cases hk
  · have h1 := tv.sub (tendsto_mulVec S.A tx)
    have e : (1 / S.momentum) • dv - S.A.mulVec ((1 / S.momentum) • dx) = (1 / (S.momentum * rho)) • et := by
      rw [Matrix.mulVec_smul, hA, hdv']
      funext i
      simp only [Pi.sub_apply, Pi.smul_apply, Pi.add_apply, smul_eq_mul]
      field_simp; ring
    rw [e] at h1
    refine h1.congr fun k => ?_
    rw [primalRes, Matrix.mulVec_sub]; abel
  · have h1 := ((tendsto_mulVec S.Q tx).add (tx.const_smul S.sigma)).add (tendsto_mulVec S.A.transpose (tv.const_smul rho))
    have h2 := h1.neg
    have e : -((S.Q.mulVec ((1 / S.momentum) • dx) + S.sigma • (1 / S.momentum) • dx) + S.A.transpose.mulVec (rho • (1 / S.momentum) • dv)) =
        -(1 / S.momentum) • (S.sigma • dx + rho • S.A.transpose.mulVec (S.A.mulVec dx)) := by
      rw [Matrix.mulVec_smul, hQ0, smul_zero, Matrix.mulVec_smul, Matrix.mulVec_smul, hA, hdv', Matrix.mulVec_add, Matrix.mulVec_smul, hA0]
      funext i
      simp only [Pi.neg_apply, Pi.smul_apply, Pi.add_apply, smul_eq_mul, Pi.zero_apply]
      ring
    rw [e] at h2
    refine h2.congr fun k => ?_
    rw [dualRes, Matrix.mulVec_sub]
    have e1 := h.lin k
    rw [Matrix.mulVec_add] at e1
    funext t
    have := congrFun e1 t
    simp only [Pi.add_apply, Pi.smul_apply, Pi.sub_apply, smul_eq_mul, Pi.zero_apply, Pi.neg_apply] at this ⊢
    linear_combination -this

end Jaxopt.OSQP.BoxOSQP
