import Verif.QuasiNewton.BfgsSuperProps

/-!
# Property C121: the strategy "current", and an example

The objective `3/2 ‖x‖²` on the plane.  The first direction, from `H` the identity, is three times too long, and the first search backtracks once.
With `linesearch_init="increase"` the steps grow back to one; with "current" they never do.
-/

set_option autoImplicit false
set_option linter.unusedSectionVars false
set_option linter.unusedVariables false

namespace Jaxopt.QuasiNewton

open Matrix Filter Topology Jaxopt.Base Jaxopt.LineSearch

namespace Bfgs

/-- The outcome of a search whose trials are rejected before trial `n` and accepted there. -/
theorem bt_trial {E : Type*} [AddCommGroup E] [Module ℝ E] {ls : Backtracking ℝ E} {F : E → ℝ} (h : ArmijoLs ls F) {init : ℝ}
    {runLs : ℝ → E → ℝ → E → E → LsOut ℝ E ℝ} (hruns : RunsBt ls runLs) (x g d : E) (n : ℕ) (hn : n < ls.maxiter)
    (hrej : ∀ i < n, ¬ F (x + (min ls.maxStepsize init * ls.decreaseFactor ^ i) • d) ≤
      F x + ls.c1 * (min ls.maxStepsize init * ls.decreaseFactor ^ i) * ls.vdot g d)
    (hacc : F (x + (min ls.maxStepsize init * ls.decreaseFactor ^ n) • d) ≤
      F x + ls.c1 * (min ls.maxStepsize init * ls.decreaseFactor ^ n) * ls.vdot g d) :
    (runLs init x (F x) g d).stepsize = min ls.maxStepsize init * ls.decreaseFactor ^ n ∧
      (runLs init x (F x) g d).params = x + (min ls.maxStepsize init * ls.decreaseFactor ^ n) • d ∧
      (runLs init x (F x) g d).failed = false := by
  obtain ⟨st, hr, e1, e2, e3, e4⟩ := hruns init x (F x) g d
  obtain ⟨j, hj, f1, f2, f3, f4, f5, f6, f7, f8⟩ := C18_backtracking ls h.tol.ge h.maxStep.le h.decPos h.decLe h.iters init (F x) x g _ _ (some d)
    (Or.inl ⟨rfl, rfl⟩) _ st hr
  rw [Option.getD_some] at f2 f3 f6 f8
  have hA : ∀ s, AcceptAt ls x d g (F x) s ↔ F (x + s • d) ≤ F x + ls.c1 * s * ls.vdot g d := by
    intro s
    simp only [AcceptAt, Accept, h.armijo, h.value, Ext.AtMost, and_true, h.tol, add_zero]
  have hfl : st.failed = false := by
    rw [← Bool.not_eq_true]
    exact fun hf => f8.mp hf n hn ((hA _).mpr hacc)
  have hdone : st.done = true := by
    cases hdd : st.done
    · rw [f7.mpr hdd] at hfl; cases hfl
    · rfl
  have hjacc := (hA _).mp (f6.mp hdone)
  rw [f1] at hjacc
  have hjn : j = n := by
    rcases lt_trichotomy j n with hlt | heq | hgt
    · exact absurd hjacc (hrej j hlt)
    · exact heq
    · exact absurd ((hA _).mpr hacc) (f2 n hgt)
  rw [hjn] at f1
  exact ⟨f1, by rw [← e1, f3, f1], by rw [← e4, hfl]⟩

/-- The line search of the example. -/
noncomputable def exBt3 : Backtracking ℝ (Fin 2 → ℝ) where
  f := fun x => .fin (3 / 2 * (x ⬝ᵥ x))
  grad := fun x => (3 : ℝ) • x
  vdot := fun x y => x ⬝ᵥ y
  maxiter := 30
  tol := 0
  condition := .armijo
  c1 := 1 / 8
  c2 := 9 / 10
  decreaseFactor := 1 / 2
  maxStepsize := 1
  unroll := false
  jit := true

/-- BFGS on `3/2 ‖x‖²`, with the given rule for the first trial step. -/
noncomputable def exB3 (init : ℝ → ℝ) : Bfgs ℝ (Fin 2) ℝ where
  f := fun x => 3 / 2 * (x ⬝ᵥ x)
  grad := fun x => (3 : ℝ) • x
  norm := fun x => ‖pt x‖
  stepsize := .const 0
  maxStepsize := 1
  initStep := init
  tol := 1 / 1000
  maxiter := 500
  unroll := false
  jit := true
  runLs := btLs exBt3

theorem exB3_attrs (init : ℝ → ℝ) : ArmijoLs exBt3 (exB3 init).f :=
  ⟨rfl, rfl, rfl, show (0 : ℝ) < 1 by norm_num, show (0 : ℝ) < 1 / 2 by norm_num, show (1 / 2 : ℝ) ≤ 1 by norm_num,
    show 1 ≤ 30 by omega⟩

theorem exB3_runs (init : ℝ → ℝ) : RunsBt exBt3 (exB3 init).runLs := runsBt_btLs (exB3_attrs init) (Or.inr rfl)

theorem exB3_sound (init : ℝ → ℝ) : (exB3 init).LsSound := by
  intro s x v g d
  obtain ⟨st, hr, h1, h2, h3, h4⟩ := exB3_runs init s x v g d
  have hat := exB3_attrs init
  obtain ⟨k, hk, e1, e2, e3, e4, e5, _⟩ := C18_backtracking exBt3 hat.tol.ge hat.maxStep.le hat.decPos hat.decLe
    hat.iters s v x g _ _ (some d) (Or.inl ⟨rfl, rfl⟩) _ st hr
  refine ⟨?_, by rw [← h3, ← h1, e5]; rfl⟩
  rw [h2, hat.value, h1] at e4
  exact Ext.fin.inj e4

theorem exB3_step (init : ℝ → ℝ) (x0 : Fin 2 → ℝ) (k : ℕ) :
    let o := (exB3 init).runLs (init ((exB3 init).iter x0 k).2.stepsize) ((exB3 init).iter x0 k).1
      ((exB3 init).f ((exB3 init).iter x0 k).1) ((3 : ℝ) • ((exB3 init).iter x0 k).1) (direction ((exB3 init).iter x0 k).2)
    (exB3 init).step ((exB3 init).iter x0 k).1 ((exB3 init).iter x0 k).2 (direction ((exB3 init).iter x0 k).2) = o ∧
      ((exB3 init).iter x0 (k + 1)).1 = o.params ∧ ((exB3 init).iter x0 (k + 1)).2.stepsize = o.stepsize := by
  intro o
  have hst := (exB3 init).C74_bfgs_state (exB3_sound init) x0 k
  have hstep : (exB3 init).step ((exB3 init).iter x0 k).1 ((exB3 init).iter x0 k).2 (direction ((exB3 init).iter x0 k).2) = o := by
    have e : (exB3 init).stepsize = .const 0 := rfl
    unfold step
    rw [e]
    simp only [le_refl, if_true, hst.1, hst.2.1]
    rfl
  refine ⟨hstep, ?_, ?_⟩
  · rw [iter_succ, ← hstep]; rfl
  · rw [iter_succ, ← hstep]; rfl

/-- If the next iterate is a multiple of the present one, then `H` divides it by three, the curvature of the objective. -/
theorem exB3_H (init : ℝ → ℝ) (x0 : Fin 2 → ℝ) (k : ℕ) (c : ℝ) (hc : c ≠ 1)
    (h : ((exB3 init).iter x0 (k + 1)).1 = c • ((exB3 init).iter x0 k).1) :
    ((exB3 init).iter x0 (k + 1)).2.H *ᵥ ((exB3 init).iter x0 (k + 1)).1 = (1 / 3 : ℝ) • ((exB3 init).iter x0 (k + 1)).1 := by
  have hgr := fun j => ((exB3 init).C74_bfgs_state (exB3_sound init) x0 j).2.1
  have e1 : ((exB3 init).pair x0 k).1 = (c - 1) • ((exB3 init).iter x0 k).1 := by
    simp only [pair, h]; rw [sub_smul, one_smul]
  have e2 : ((exB3 init).pair x0 k).2 = (3 * (c - 1)) • ((exB3 init).iter x0 k).1 := by
    simp only [pair, hgr]
    show (3 : ℝ) • ((exB3 init).iter x0 (k + 1)).1 - (3 : ℝ) • ((exB3 init).iter x0 k).1 = _
    rw [h, smul_smul, ← sub_smul]
    congr 1
    ring
  by_cases hx : ((exB3 init).iter x0 k).1 = 0
  · rw [h, hx]; simp
  · have hv := (isVdot_dotProduct (K := ℝ) (ι := Fin 2)).pos _ hx
    have hc' : c - 1 ≠ 0 := sub_ne_zero.mpr hc
    have h1 := ((exB3 init).C26_bfgs x0 k).2.1 (by
      rw [e1, e2, smul_dotProduct, dotProduct_smul, smul_eq_mul, smul_eq_mul]
      have hv' : ((exB3 init).iter x0 k).1 ⬝ᵥ ((exB3 init).iter x0 k).1 ≠ 0 := hv.ne'
      exact mul_ne_zero (mul_ne_zero (by norm_num) hc') (mul_ne_zero hc' hv'))
    rw [e1, e2, mulVec_smul] at h1
    rw [h, mulVec_smul]
    have h2 := congrArg (fun z => (c / (3 * (c - 1))) • z) h1
    simp only [smul_smul] at h2
    rw [div_mul_cancel₀ _ (mul_ne_zero three_ne_zero hc')] at h2
    rw [h2, smul_smul]
    congr 1
    field_simp

/-- The first iteration backtracks once. -/
theorem exB3_first (init : ℝ → ℝ) (h1 : 1 ≤ init 1) (x0 : Fin 2 → ℝ) (hx0 : x0 ≠ 0) :
    ((exB3 init).iter x0 1).1 = (-(1 / 2) : ℝ) • x0 ∧ ((exB3 init).iter x0 1).2.stepsize = 1 / 2 ∧
    ((exB3 init).step ((exB3 init).iter x0 0).1 ((exB3 init).iter x0 0).2 (direction ((exB3 init).iter x0 0).2)).failed = false := by
  obtain ⟨s1, s2, s3⟩ := exB3_step init x0 0
  have e0 : ((exB3 init).iter x0 0).1 = x0 := rfl
  have e1 : ((exB3 init).iter x0 0).2.stepsize = 1 := rfl
  have e2 : direction ((exB3 init).iter x0 0).2 = (-3 : ℝ) • x0 := by
    have : direction ((exB3 init).iter x0 0).2 = -((1 : Matrix (Fin 2) (Fin 2) ℝ) *ᵥ ((3 : ℝ) • x0)) := rfl
    rw [this, one_mulVec, neg_smul]
  rw [e0, e1, e2] at s1 s2 s3
  rw [e0, e2, s1, s2, s3]
  have hm : min exBt3.maxStepsize (init 1) = 1 := min_eq_left h1
  have hdf : exBt3.decreaseFactor = 1 / 2 := rfl
  have hc : exBt3.c1 = 1 / 8 := rfl
  have hX : 0 < x0 ⬝ᵥ x0 := (isVdot_dotProduct (K := ℝ) (ι := Fin 2)).pos _ hx0
  have hf : ∀ t : ℝ, (exB3 init).f (x0 + t • (-3 : ℝ) • x0) = 3 / 2 * (1 - 3 * t) ^ 2 * (x0 ⬝ᵥ x0) := by
    intro t
    have e : x0 + t • (-3 : ℝ) • x0 = (1 - 3 * t) • x0 := by
      rw [smul_smul, sub_smul, one_smul, mul_neg, neg_smul, mul_comm]; abel
    show 3 / 2 * ((x0 + t • (-3 : ℝ) • x0) ⬝ᵥ (x0 + t • (-3 : ℝ) • x0)) = _
    rw [e, smul_dotProduct, dotProduct_smul, smul_eq_mul, smul_eq_mul]
    ring
  have hf0 : (exB3 init).f x0 = 3 / 2 * (x0 ⬝ᵥ x0) := rfl
  have hv : exBt3.vdot ((3 : ℝ) • x0) ((-3 : ℝ) • x0) = -9 * (x0 ⬝ᵥ x0) := by
    show ((3 : ℝ) • x0) ⬝ᵥ ((-3 : ℝ) • x0) = _
    rw [smul_dotProduct, dotProduct_smul, smul_eq_mul, smul_eq_mul]
    ring
  obtain ⟨t1, t2, t3⟩ := bt_trial (exB3_attrs init) (exB3_runs init) (init := init 1) x0 ((3 : ℝ) • x0) ((-3 : ℝ) • x0) 1
    (show 1 < 30 by omega)
    (by
      intro i hi
      obtain rfl : i = 0 := by omega
      rw [hm, hf, hf0, hv, hc, hdf]
      generalize x0 ⬝ᵥ x0 = X at hX ⊢
      intro h
      norm_num at h
      linarith)
    (by
      rw [hm, hf, hf0, hv, hc, hdf]
      generalize x0 ⬝ᵥ x0 = X at hX ⊢
      norm_num
      linarith)
  rw [hm, hdf] at t1 t2
  refine ⟨?_, by rw [t1]; norm_num, t3⟩
  rw [t2, smul_smul]
  ext i
  simp
  ring

/-- The later iterations take their first trial step. -/
theorem exB3_later (init : ℝ → ℝ) (h1 : 1 ≤ init 1) (hpos : ∀ s, 0 < s → 0 < init s) (x0 : Fin 2 → ℝ) (hx0 : x0 ≠ 0) (k : ℕ) :
    let S := exB3 init
    let t := min 1 (init (S.iter x0 (k + 1)).2.stepsize)
    0 < (S.iter x0 (k + 1)).2.stepsize ∧ (S.iter x0 (k + 1)).2.H *ᵥ (S.iter x0 (k + 1)).1 = (1 / 3 : ℝ) • (S.iter x0 (k + 1)).1 ∧
      (S.iter x0 (k + 2)).1 = (1 - t) • (S.iter x0 (k + 1)).1 ∧ (S.iter x0 (k + 2)).2.stepsize = t ∧
      (S.step (S.iter x0 (k + 1)).1 (S.iter x0 (k + 1)).2 (direction (S.iter x0 (k + 1)).2)).failed = false := by
  have key : ∀ k, 0 < ((exB3 init).iter x0 (k + 1)).2.stepsize →
      ((exB3 init).iter x0 (k + 1)).2.H *ᵥ ((exB3 init).iter x0 (k + 1)).1 = (1 / 3 : ℝ) • ((exB3 init).iter x0 (k + 1)).1 →
      0 < min 1 (init ((exB3 init).iter x0 (k + 1)).2.stepsize) ∧
      ((exB3 init).iter x0 (k + 2)).1 = (1 - min 1 (init ((exB3 init).iter x0 (k + 1)).2.stepsize)) • ((exB3 init).iter x0 (k + 1)).1 ∧
      ((exB3 init).iter x0 (k + 2)).2.stepsize = min 1 (init ((exB3 init).iter x0 (k + 1)).2.stepsize) ∧
      ((exB3 init).step ((exB3 init).iter x0 (k + 1)).1 ((exB3 init).iter x0 (k + 1)).2
        (direction ((exB3 init).iter x0 (k + 1)).2)).failed = false := by
    intro k hs hH
    obtain ⟨s1, s2, s3⟩ := exB3_step init x0 (k + 1)
    have hgr := ((exB3 init).C74_bfgs_state (exB3_sound init) x0 (k + 1)).2.1
    have hd : direction ((exB3 init).iter x0 (k + 1)).2 = (-1 : ℝ) • ((exB3 init).iter x0 (k + 1)).1 := by
      rw [direction, hgr]
      show -(((exB3 init).iter x0 (k + 1)).2.H *ᵥ ((3 : ℝ) • ((exB3 init).iter x0 (k + 1)).1)) = _
      rw [mulVec_smul, hH, smul_smul, neg_smul]
      norm_num
    have hi := hpos _ hs
    rw [hd] at s1 s2 s3
    rw [hd, s1, show k + 2 = k + 1 + 1 from rfl, s2, s3]
    generalize init ((exB3 init).iter x0 (k + 1)).2.stepsize = i0 at *
    generalize ((exB3 init).iter x0 (k + 1)).1 = x at *
    have ht0 : 0 < min 1 i0 := lt_min one_pos hi
    have ht1 : min 1 i0 ≤ 1 := min_le_left _ _
    have hX : 0 ≤ x ⬝ᵥ x := by rw [← norm_pt]; positivity
    have hf : ∀ t : ℝ, (exB3 init).f (x + t • (-1 : ℝ) • x) = 3 / 2 * (1 - t) ^ 2 * (x ⬝ᵥ x) := by
      intro t
      have e : x + t • (-1 : ℝ) • x = (1 - t) • x := by
        rw [smul_smul, sub_smul, one_smul, mul_neg, neg_smul, mul_one]; abel
      show 3 / 2 * ((x + t • (-1 : ℝ) • x) ⬝ᵥ (x + t • (-1 : ℝ) • x)) = _
      rw [e, smul_dotProduct, dotProduct_smul, smul_eq_mul, smul_eq_mul]
      ring
    have hf0 : (exB3 init).f x = 3 / 2 * (x ⬝ᵥ x) := rfl
    have hv : exBt3.vdot ((3 : ℝ) • x) ((-1 : ℝ) • x) = -3 * (x ⬝ᵥ x) := by
      show ((3 : ℝ) • x) ⬝ᵥ ((-1 : ℝ) • x) = _
      rw [smul_dotProduct, dotProduct_smul, smul_eq_mul, smul_eq_mul]
      ring
    have hc : exBt3.c1 = 1 / 8 := rfl
    have hm : exBt3.maxStepsize = 1 := rfl
    obtain ⟨t1, t2, t3⟩ := bt_trial (exB3_attrs init) (exB3_runs init) (init := i0) x ((3 : ℝ) • x) ((-1 : ℝ) • x) 0
      (show 0 < 30 by omega) (fun i hi => absurd hi (by omega))
      (by
        rw [hm, pow_zero, mul_one, hf, hf0, hv, hc]
        nlinarith [mul_nonneg ht0.le hX, mul_nonneg (mul_nonneg ht0.le hX) (sub_nonneg.mpr ht1)])
    rw [hm, pow_zero, mul_one] at t1 t2
    refine ⟨ht0, ?_, t1, t3⟩
    rw [t2, smul_smul, mul_neg, mul_one, neg_smul, sub_smul, one_smul]
    abel
  obtain ⟨f1, f2, f3⟩ := exB3_first init h1 x0 hx0
  have inv : 0 < ((exB3 init).iter x0 (k + 1)).2.stepsize ∧
      ((exB3 init).iter x0 (k + 1)).2.H *ᵥ ((exB3 init).iter x0 (k + 1)).1 = (1 / 3 : ℝ) • ((exB3 init).iter x0 (k + 1)).1 := by
    induction k with
    | zero => exact ⟨by rw [f2]; norm_num, exB3_H init x0 0 (-(1 / 2)) (by norm_num) f1⟩
    | succ k ih =>
      obtain ⟨k0, k1, k2, k3⟩ := key k ih.1 ih.2
      refine ⟨by rw [show k + 1 + 1 = k + 2 from rfl, k2]; exact k0, exB3_H init x0 (k + 1) _ ?_ k1⟩
      intro h; linarith
  obtain ⟨k0, k1, k2, k3⟩ := key k inv.1 inv.2
  exact ⟨inv.1, inv.2, k1, k2, k3⟩

/-- **C121 fails for `linesearch_init="current"`**: on `3/2 ‖x‖²` the first search backtracks to the step 1/2, which is then the first trial
of the next one, and so on: all steps are 1/2 although the matrix is exact along the directions from the second iteration on, and the
distance to the minimiser is exactly halved at each iteration. -/
theorem C121_current_false (x0 : Fin 2 → ℝ) (hx0 : x0 ≠ 0) :
    let S := exB3 fun s => s
    (∀ s, initStepsize "current" 1 (1 / 1000000) (3 / 2) s = .ok (S.initStep s)) ∧
    (∀ k, (S.step (S.iter x0 k).1 (S.iter x0 k).2 (direction (S.iter x0 k).2)).failed = false) ∧
    (∀ k ≥ 1, (S.iter x0 k).2.stepsize = 1 / 2 ∧ (S.iter x0 (k + 1)).1 = (1 / 2 : ℝ) • (S.iter x0 k).1 ∧ (S.iter x0 k).1 ≠ 0) ∧
    ¬ ∀ ε > 0, ∃ N, ∀ k ≥ N, ‖pt ((S.iter x0 (k + 1)).1 - 0)‖ ≤ ε * ‖pt ((S.iter x0 k).1 - 0)‖ := by
  intro S
  obtain ⟨f1, f2, f3⟩ := exB3_first (fun s => s) (le_refl _) x0 hx0
  have hl := exB3_later (fun s => s) (le_refl _) (fun s hs => hs) x0 hx0
  have hst : ∀ k, (S.iter x0 (k + 1)).2.stepsize = 1 / 2 := by
    intro k
    induction k with
    | zero => exact f2
    | succ k ih =>
      have h1 := (hl k).2.2.2.1
      rw [show k + 1 + 1 = k + 2 from rfl, h1, ih]
      norm_num
  have hx : ∀ k, (S.iter x0 (k + 2)).1 = (1 / 2 : ℝ) • (S.iter x0 (k + 1)).1 := by
    intro k
    have h1 := (hl k).2.2.1
    rw [h1, hst k]
    norm_num
    rfl
  have hne : ∀ k, (S.iter x0 (k + 1)).1 ≠ 0 := by
    intro k
    induction k with
    | zero => rw [show (0 : ℕ) + 1 = 1 from rfl, f1]; exact smul_ne_zero (by norm_num) hx0
    | succ k ih => rw [show k + 1 + 1 = k + 2 from rfl, hx]; exact smul_ne_zero (by norm_num) ih
  have hall : ∀ k ≥ 1, (S.iter x0 k).2.stepsize = 1 / 2 ∧ (S.iter x0 (k + 1)).1 = (1 / 2 : ℝ) • (S.iter x0 k).1 ∧ (S.iter x0 k).1 ≠ 0 := by
    intro k hk
    obtain ⟨j, rfl⟩ : ∃ j, k = j + 1 := ⟨k - 1, by omega⟩
    exact ⟨hst j, hx j, hne j⟩
  refine ⟨fun s => rfl, fun k => ?_, hall, fun h => ?_⟩
  · cases k with
    | zero => exact f3
    | succ k => exact (hl k).2.2.2.2
  · obtain ⟨N, hN⟩ := h (1 / 4) (by norm_num)
    have h1 := hN (N + 1) (by omega)
    obtain ⟨_, h2, h3⟩ := hall (N + 1) (by omega)
    rw [h2, sub_zero, sub_zero] at h1
    have e : pt ((1 / 2 : ℝ) • (S.iter x0 (N + 1)).1) = (1 / 2 : ℝ) • pt (S.iter x0 (N + 1)).1 := rfl
    rw [e, norm_smul] at h1
    have hp : 0 < ‖pt (S.iter x0 (N + 1)).1‖ := norm_pos_iff.mpr fun h0 => h3 (congrArg (fun z => z.ofLp) h0)
    norm_num at h1
    linarith

/-- The default strategy "increase", with its default parameters. -/
noncomputable def exIncrease (s : ℝ) : ℝ := if s ≤ 1 / 1000000 then 1 else s * (3 / 2)

/-- All the hypotheses of C121 hold for the default strategy, on the same objective, from any point. -/
example (x0 : Fin 2 → ℝ) (hx0 : x0 ≠ 0) :
    let S := exB3 exIncrease
    (∃ N, ∀ k ≥ N, (S.iter x0 k).2.stepsize = 1) ∧
    ∀ ε > 0, ∃ N, ∀ k ≥ N, ‖pt ((S.iter x0 (k + 1)).1 - 0)‖ ≤ ε * ‖pt ((S.iter x0 k).1 - 0)‖ := by
  intro S
  have hi1 : 1 ≤ exIncrease 1 := by
    rw [exIncrease, if_neg (by norm_num)]; norm_num
  have hipos : ∀ s, (1 / 1000000 : ℝ) ≤ exIncrease s := by
    intro s
    unfold exIncrease
    by_cases h : s ≤ 1 / 1000000
    · rw [if_pos h]; norm_num
    · rw [if_neg h]; linarith [not_le.mp h]
  have hu : S.UsesArmijo exBt3 (1 / 1000000) :=
    ⟨exB3_runs _, exB3_attrs _, rfl, rfl, ⟨0, rfl, le_refl _⟩, hipos, by norm_num⟩
  have hok : ∀ k, (S.step (S.iter x0 k).1 (S.iter x0 k).2 (direction (S.iter x0 k).2)).failed = false := by
    intro k
    cases k with
    | zero => exact (exB3_first exIncrease hi1 x0 hx0).2.2
    | succ k => exact (exB3_later exIncrease hi1 (fun s _ => lt_of_lt_of_le (by norm_num) (hipos s)) x0 hx0 k).2.2.2.2
  have hf : ∀ x, S.fE x = 3 / 2 * ‖x‖ ^ 2 := fun x => by
    show 3 / 2 * (x.ofLp ⬝ᵥ x.ofLp) = _
    rw [← norm_pt]
  have hgE : ∀ x, S.gE x = (3 : ℝ) • x := fun x => rfl
  have hsm : LSmooth S.fE S.gE 3 := by
    refine ⟨fun x => ?_, fun x y => ?_⟩
    · have e : S.fE = fun x => 3 / 2 * ‖x‖ ^ 2 := funext hf
      rw [e, hgE, hasGradientAt_iff_hasFDerivAt]
      refine ((hasStrictFDerivAt_norm_sq x).hasFDerivAt.const_mul (3 / 2 : ℝ)).congr_fderiv ?_
      ext v
      simp
      ring
    · rw [hgE, hgE, ← smul_sub, norm_smul]; norm_num
  have hsc : StrongConvexWith S.fE S.gE 3 := by
    intro x y
    rw [hf, hf, hgE]
    have := norm_sub_sq_real y x
    rw [inner_smul_left, inner_sub_right, real_inner_self_eq_norm_sq, real_inner_comm]
    simp only [conj_trivial]
    linarith
  have hSG : SymPos ((3 : ℝ) • (1 : Matrix (Fin 2) (Fin 2) ℝ)) := by
    refine ⟨by rw [transpose_smul, transpose_one], fun v hv => ?_⟩
    rw [smul_mulVec, one_mulVec, dotProduct_smul, smul_eq_mul]
    exact mul_pos (by norm_num) ((isVdot_dotProduct (K := ℝ) (ι := Fin 2)).pos v hv)
  refine C121_superlinear S exBt3 _ hu 3 3 (by norm_num) (le_refl _) hsm hsc (show (0 : ℝ) < 1 / 8 by norm_num)
    (show (1 / 8 : ℝ) < 1 / 2 by norm_num) rfl (3 / 2)
    (growsToOne_increase S (1 / 1000000) (3 / 2) (by norm_num) fun s => rfl) 0 (smul_zero _) _ hSG 0 1 (le_refl _) one_pos ?_ x0 hok
  intro x y _ _
  have : S.grad x - S.grad y - ((3 : ℝ) • (1 : Matrix (Fin 2) (Fin 2) ℝ)) *ᵥ (x - y) = 0 := by
    show (3 : ℝ) • x - (3 : ℝ) • y - _ = 0
    rw [smul_mulVec, one_mulVec, smul_sub, sub_self]
  rw [this, show pt (0 : Fin 2 → ℝ) = 0 from rfl, norm_zero]
  positivity

end Bfgs

end Jaxopt.QuasiNewton
