import Verif.QuasiNewton.BroydenRateProps
import Verif.QuasiNewton.BroydenSearch
import Verif.QuasiNewton.Run
import Verif.LineSearch.BacktrackingProps

/-!
# Property C102, end to end: `Broyden.run` with its default attributes near a root

The default line search accepts the unit step near the root (its tolerance is the absolute number `1e-2`), so the rates of
`BroydenRateProps` hold of the whole run.
-/

set_option autoImplicit false
set_option linter.unusedSectionVars false
set_option linter.unusedVariables false

namespace Jaxopt.QuasiNewton.Broyden

open Jaxopt.QuasiNewton Jaxopt.Base Jaxopt.LineSearch Finset RealInnerProductSpace

variable {E : Type*} [NormedAddCommGroup E] [InnerProductSpace ℝ E] {L : Type*} [Fintype L] [Unique L]

/-- The default attributes (lines 189-215 and 419-420) for the residual `f`, with `gradSq` the gradient of its squared norm. -/
structure Defaults (S : Broyden ℝ E L) (gradSq : (L → E) → (L → E)) (condition : Condition) (maxiter : ℕ) (unroll : Bool) :
    Prop where
  stepsize : S.stepsize = .const 0
  ldot : ∀ x y, S.ldot x y = ⟪x, y⟫
  norm : ∀ x, S.norm x = ‖x default‖
  maxStepsize : S.maxStepsize = 1
  minStepsize : S.minStepsize = 1 / 1000000
  increaseFactor : S.increaseFactor = 3 / 2
  history : S.historySize = maxiter
  search : S.runLs = runBacktracking S.f (lineSearch S.f gradSq S.ldot 15 (8 / 10) 1 condition unroll true)

/-- The gradient of the squared norm and the residual are controlled by the distance to the root. -/
structure LocalBound (F G : E → E) (xs : E) (M r : ℝ) : Prop where
  residual : ∀ u, ‖u - xs‖ ≤ r → ‖F u‖ ≤ M * ‖u - xs‖
  grad : ∀ u, ‖u - xs‖ ≤ r → ∀ d, |⟪G u, d⟫| ≤ 2 * M * ‖F u‖ * ‖d‖

/-- The search accepts the unit step when all the quantities it compares are below its tolerance. -/
theorem search_unit (S : Broyden ℝ E L) (gradSq : (L → E) → (L → E)) (maxiter : ℕ) (unroll : Bool)
    (hS : Defaults S gradSq .wolfe maxiter unroll) (F G : E → E) (hf : ∀ x, S.f x default = F (x default))
    (hg : ∀ x, gradSq x default = G (x default)) (p : (L → E) × BroydenState ℝ E L) (hstep : p.2.stepsize = 1)
    (d : E) (hd : d = -S.jacProd p.2 p.2.value default)
    (h1 : ‖F (p.1 default + d)‖ ^ 2 + |⟪G (p.1 default), d⟫| ≤ 1 / 100)
    (h2 : |⟪G (p.1 default), d⟫| + |⟪G (p.1 default + d), d⟫| ≤ 1 / 100) :
    S.UnitStep p ∧ (S.step p.1 p.2).stepsize = 1 ∧ (S.step p.1 p.2).failed = false := by
  set ls := lineSearch S.f gradSq S.ldot 15 (8 / 10) 1 .wolfe unroll true with hls
  set dir : L → E := (-1 : ℝ) • S.jacProd p.2 p.2.value with hdir
  have hdd : dir default = d := by rw [hdir, hd, Pi.smul_apply, neg_one_smul]
  have hinit : ¬ p.2.stepsize ≤ S.minStepsize := by rw [hstep, hS.minStepsize]; norm_num
  have hst : S.step p.1 p.2 = runBacktracking S.f ls (p.2.stepsize * S.increaseFactor) p.1 p.2.value dir := by
    simp only [step, hS.stepsize, if_pos (le_refl (0 : ℝ)), if_neg hinit, hS.search]
    rfl
  obtain ⟨⟨s, st⟩, hrun⟩ := runS_ok (fun _ => ls.initState p.1 none none) (ls.update p.1 (some dir))
    (fun x => Ext.gt x.2.error (.fin ls.tol)) (maxiter := ls.maxiter) (unroll := ls.unroll) (jit := ls.jit)
    (p.2.stepsize * S.increaseFactor) (by simp [hls, lineSearch]) (Or.inr rfl)
  have hrun' : ls.run (p.2.stepsize * S.increaseFactor) p.1 none none (some dir) = .ok (s, st) := hrun
  obtain ⟨k, hk, hs, hrej, hp, hv, hgr, hdone, hfail, -⟩ := C18_backtracking ls (by simp [hls, lineSearch]) (by simp [hls, lineSearch])
    (by simp only [hls, lineSearch]; norm_num) (by simp only [hls, lineSearch]; norm_num) (by simp [hls, lineSearch])
    (p.2.stepsize * S.increaseFactor) (leafVdot S.ldot (S.f p.1) (S.f p.1)) p.1 (gradSq p.1) none none (some dir)
    (Or.inr ⟨Or.inl rfl, rfl, rfl⟩) s st hrun'
  have hmin : min ls.maxStepsize (p.2.stepsize * S.increaseFactor) = 1 := by
    rw [hstep, hS.increaseFactor]; simp only [hls, lineSearch]; norm_num
  have hvd : ∀ x y : L → E, leafVdot S.ldot x y = ⟪x default, y default⟫ := by
    intro x y; rw [leafVdot, Fintype.sum_unique, hS.ldot]
  have hacc : AcceptAt ls p.1 ((some dir).getD (-gradSq p.1)) (gradSq p.1) (leafVdot S.ldot (S.f p.1) (S.f p.1)) 1 := by
    simp only [Option.getD_some, AcceptAt, Accept, hls, lineSearch, one_smul, hvd, hg, hdd, hf, Pi.add_apply, Ext.AtMost,
      real_inner_self_eq_norm_sq]
    have a1 := neg_abs_le ⟪G (p.1 default), d⟫
    have a2 := le_abs_self ⟪G (p.1 default), d⟫
    have a3 := neg_abs_le ⟪G (p.1 default + d), d⟫
    have a4 := abs_nonneg ⟪G (p.1 default), d⟫
    have a5 := abs_nonneg ⟪G (p.1 default + d), d⟫
    have a6 := sq_nonneg ‖F (p.1 default)‖
    constructor <;> linarith
  have hk0 : k = 0 := by
    by_contra hk0
    apply hrej 0 (by omega)
    rw [pow_zero, mul_one, hmin]
    exact hacc
  rw [hk0, pow_zero, mul_one, hmin] at hs
  rw [hs] at hp hdone
  have hdn : st.done = true := hdone.mpr hacc
  have hfl : st.failed = false := by
    by_contra h
    have := hfail.mp (by simpa using h)
    simp [hdn] at this
  have hrb : S.step p.1 p.2 = ⟨1, st.params, S.f st.params, false⟩ := by
    rw [hst]
    simp only [runBacktracking, hrun', hs, hfl]
  refine ⟨⟨?_, ?_⟩, ?_, ?_⟩
  · rw [hrb]
    change st.params = _
    rw [hp, Option.getD_some, one_smul, hdir, neg_one_smul, sub_eq_add_neg]
  · rw [hrb]
  · rw [hrb]
  · rw [hrb]

/-- Near the root the default line search accepts the unit step at every iteration. -/
theorem C102_unit_steps (S : Broyden ℝ E L) (gradSq : (L → E) → (L → E)) (maxiter : ℕ) (unroll : Bool)
    (hS : Defaults S gradSq .wolfe maxiter unroll) (F G : E → E) (A : E →ₗ[ℝ] E) (xs : E) (x0 : L → E)
    (hf : ∀ x, S.f x default = F (x default)) (hg : ∀ x, gradSq x default = G (x default)) (α κ r δ M : ℝ)
    (hF : LocalRoot F A xs α κ r) (hM : LocalBound F G xs M r) (hγ : S.gamma ≠ 0)
    (hδ : ∀ v, ‖S.gamma⁻¹ • v - A v‖ ≤ δ * ‖v‖) (hr : ‖x0 default - xs‖ ≤ r)
    (hsmall : δ + 2 * κ * ‖x0 default - xs‖ ≤ α / 3) (htol : 6 * (M * ‖x0 default - xs‖) ^ 2 ≤ 1 / 100) (n : ℕ)
    (hn : n ≤ maxiter) (hne : ∀ k < n, F ((S.iter x0 k).1 default) ≠ 0) :
    ∀ k < n, S.UnitStep (S.iter x0 k) ∧ (S.iter x0 k).2.stepsize = 1 ∧ (S.iter x0 (k + 1)).2.failedLinesearch = false ∧
      (S.iter x0 (k + 1)).2.stepsize = 1 := by
  have hκ := hF.nonneg
  intro k
  induction k using Nat.strong_induction_on with
  | _ k ih =>
    intro hk
    have hus : ∀ j < k, S.UnitStep (S.iter x0 j) := fun j hj => (ih j hj (by omega)).1
    obtain ⟨J, β, hI, hb, hkr, hgeo⟩ := rate_key S hS.ldot F A xs x0 hf α κ r δ hF hγ hδ hr hsmall k (by rw [hS.history]; omega)
      hus (fun j hj => hne j (by omega)) k le_rfl
    have hstep : (S.iter x0 k).2.stepsize = 1 := by
      rcases Nat.eq_zero_or_pos k with h0 | h0
      · rw [h0]; exact hS.maxStepsize
      · have := (ih (k - 1) (by omega) (by omega)).2.2.2
        rwa [Nat.sub_add_cancel h0] at this
    set x := (S.iter x0 k).1 default with hx
    set e := ‖x - xs‖ with he
    set e0 := ‖x0 default - xs‖ with he0
    have hepos : 0 ≤ e := norm_nonneg _
    have he00 : 0 ≤ e0 := norm_nonneg _
    have hee : e ≤ e0 := hgeo.trans (div_le_self he00 (one_le_pow₀ (by norm_num)))
    obtain ⟨l1, -⟩ := local_step F A (hOp S.historySize (S.iter x0 k).2) J xs x α κ r β hF hI.left hI.right hI.close hkr
      (by nlinarith [mul_nonneg hκ hepos])
    set H := hOp S.historySize (S.iter x0 k).2 with hH
    have hdir : S.jacProd (S.iter x0 k).2 (S.iter x0 k).2.value default = H (F x) := by
      rw [jacProd_hOp S hS.ldot, hI.value]
    have hxd : x + -H (F x) = x - H (F x) := by abel
    have hdn : ‖-H (F x)‖ ≤ 3 / 2 * e0 := by
      have : -H (F x) = (x - H (F x) - xs) - (x - xs) := by abel
      rw [this]
      have := norm_sub_le (x - H (F x) - xs) (x - xs)
      linarith
    have hMe : 0 ≤ M * e0 := by
      rcases he00.eq_or_lt with h | h
      · rw [← h, mul_zero]
      · have h1 := hM.residual (x0 default) hr
        exact (norm_nonneg _).trans h1
    have hMle : ∀ u, ‖u - xs‖ ≤ e0 → ‖u - xs‖ ≤ r → ‖F u‖ ≤ M * e0 := by
      intro u hu hur
      refine (hM.residual u hur).trans ?_
      rcases he00.eq_or_lt with h | h
      · have : ‖u - xs‖ = 0 := le_antisymm (by linarith) (norm_nonneg _)
        rw [this, ← h]
      · have : 0 ≤ M := by
          by_contra hneg
          have := mul_neg_of_neg_of_pos (not_le.mp hneg) h
          linarith
        exact mul_le_mul_of_nonneg_left hu this
    have hslope : ∀ u, ‖u - xs‖ ≤ e0 → ‖u - xs‖ ≤ r → |⟪G u, -H (F x)⟫| ≤ 3 * (M * e0) ^ 2 := by
      intro u hu hur
      have h1 := hM.grad u hur (-H (F x))
      have h2 := hMle u hu hur
      rcases he00.eq_or_lt with h | h
      · have : ‖-H (F x)‖ = 0 := le_antisymm (by rw [← h, mul_zero] at hdn; exact hdn) (norm_nonneg _)
        rw [this, mul_zero] at h1
        exact h1.trans (by positivity)
      · have hM0 : 0 ≤ M := by
          by_contra hneg
          have := mul_neg_of_neg_of_pos (not_le.mp hneg) h
          linarith
        calc _ ≤ 2 * M * ‖F u‖ * ‖-H (F x)‖ := h1
          _ ≤ 2 * M * (M * e0) * (3 / 2 * e0) :=
            mul_le_mul (mul_le_mul_of_nonneg_left h2 (by positivity)) hdn (norm_nonneg _) (by positivity)
          _ = 3 * (M * e0) ^ 2 := by ring
    have hnew : ‖x - H (F x) - xs‖ ≤ e0 := by linarith
    have hnewr : ‖x - H (F x) - xs‖ ≤ r := by linarith
    have a1 := hMle (x - H (F x)) hnew hnewr
    have a2 := hslope (x - H (F x)) hnew hnewr
    have a3 := hslope x hee hkr
    have a4 := pow_le_pow_left₀ (norm_nonneg _) a1 2
    obtain ⟨u1, u2, u3⟩ := search_unit S gradSq maxiter unroll hS F G hf hg (S.iter x0 k) hstep (-H (F x)) (by rw [hdir])
      (by rw [← hx, hxd]; nlinarith [sq_nonneg (M * e0)]) (by rw [← hx, hxd]; linarith)
    refine ⟨u1, hstep, ?_, ?_⟩
    · rw [iter_succ]; exact u3
    · rw [iter_succ]; exact u2

/-- **C102 (run).** With the default attributes, from a point close enough to a root (and not a root itself), and if `maxiter`
halvings bring the residual below `tol`, `run` returns a point whose residual is below `tol`; after `k` iterations the
distance to the root has been divided by at least `2^k`. -/
theorem C102_run (S : Broyden ℝ E L) (gradSq : (L → E) → (L → E)) (maxiter : ℕ) (unroll unroll' : Bool)
    (hS : Defaults S gradSq .wolfe maxiter unroll) (F G : E → E) (A : E →ₗ[ℝ] E) (xs : E) (x0 : L → E)
    (hf : ∀ x, S.f x default = F (x default)) (hg : ∀ x, gradSq x default = G (x default)) (α κ r δ M : ℝ)
    (hF : LocalRoot F A xs α κ r) (hM : LocalBound F G xs M r) (hγ : S.gamma ≠ 0)
    (hδ : ∀ v, ‖S.gamma⁻¹ • v - A v‖ ≤ δ * ‖v‖) (hr : ‖x0 default - xs‖ ≤ r)
    (hsmall : δ + 2 * κ * ‖x0 default - xs‖ ≤ α / 3) (htol : 6 * (M * ‖x0 default - xs‖) ^ 2 ≤ 1 / 100)
    (hne0 : F (x0 default) ≠ 0) (tol : ℝ) (htol0 : 0 ≤ tol) (hm : 1 ≤ maxiter)
    (hbudget : M * ‖x0 default - xs‖ / 2 ^ maxiter ≤ tol) (stop : Bool) :
    ∃ x st, S.run ⟨stop, tol, maxiter, unroll', true⟩ x0 = .ok (x, st) ∧ ‖F (x default)‖ ≤ tol ∧ st.value default = F (x default) ∧
      ‖x default - xs‖ ≤ ‖x0 default - xs‖ / 2 ^ st.iterNum ∧ 1 ≤ st.iterNum ∧ st.failedLinesearch = false := by
  obtain ⟨⟨x, st⟩, hrun⟩ := runS_ok S.initState S.update (cont ⟨stop, tol, maxiter, unroll', true⟩) (unroll := unroll') (jit := true) x0 hm (Or.inr rfl)
  obtain ⟨k, hk1, hk2, hx, hc1, hc2⟩ := runS_spec hm hrun
  have hiter : ∀ j, S.update^[j] (x0, S.initState x0) = S.iter x0 j := fun j => rfl
  rw [hiter] at hx hc2
  have herr : ∀ j, (S.iter x0 (j + 1)).2.error = .fin ‖(S.iter x0 (j + 1)).2.value default‖ := by
    intro j
    rw [iter_succ, ← hS.norm]
    rfl
  -- the residual does not vanish before the end
  have hne : ∀ j < k, F ((S.iter x0 j).1 default) ≠ 0 := by
    intro j
    induction j using Nat.strong_induction_on with
    | _ j ih =>
      intro hj
      rcases Nat.eq_zero_or_pos j with h0 | h0
      · rw [h0]; exact hne0
      · have hun := C102_unit_steps S gradSq maxiter unroll hS F G A xs x0 hf hg α κ r δ M hF hM hγ hδ hr hsmall htol j
          (by omega) (fun i hi => ih i hi (by omega))
        obtain ⟨J, β, hI, -⟩ := rate_key S hS.ldot F A xs x0 hf α κ r δ hF hγ hδ hr hsmall j (by rw [hS.history]; omega)
          (fun i hi => (hun i hi).1) (fun i hi => ih i hi (by omega)) j le_rfl
        have hc := hc1 j h0 hj
        rw [hiter] at hc
        obtain ⟨i, rfl⟩ : ∃ i, j = i + 1 := ⟨j - 1, by omega⟩
        have he := herr i
        simp only [cont, he, Bool.and_eq_true, Ext.gt, Ext.lt, decide_eq_true_eq] at hc
        intro hz
        rw [hI.value, hz, norm_zero] at hc
        linarith [hc.1]
  have hun := C102_unit_steps S gradSq maxiter unroll hS F G A xs x0 hf hg α κ r δ M hF hM hγ hδ hr hsmall htol k hk2 hne
  obtain ⟨J, β, hI, hb, hkr, hgeo⟩ := rate_key S hS.ldot F A xs x0 hf α κ r δ hF hγ hδ hr hsmall k (by rw [hS.history]; omega)
    (fun i hi => (hun i hi).1) hne k le_rfl
  obtain ⟨i, hik⟩ : ∃ i, k = i + 1 := ⟨k - 1, by omega⟩
  have hfl : (S.iter x0 k).2.failedLinesearch = false := by
    rw [hik]; exact (hun i (by omega)).2.2.1
  have hres : ‖F ((S.iter x0 k).1 default)‖ ≤ tol := by
    rcases hc2 with hc2 | hc2
    · refine (hM.residual _ hkr).trans (le_trans ?_ hbudget)
      have hMpos : 0 ≤ M := by
        have h1 := hM.residual (x0 default) hr
        have h2 : 0 < ‖F (x0 default)‖ := norm_pos_iff.mpr hne0
        by_contra hneg
        have := mul_nonpos_of_nonpos_of_nonneg (not_le.mp hneg).le (norm_nonneg (x0 default - xs))
        linarith
      rw [← hc2, mul_div_assoc]
      exact mul_le_mul_of_nonneg_left hgeo hMpos
    · have he := herr i
      rw [← hik] at he
      simp only [cont, he, hfl, Bool.not_false, Bool.or_true, Bool.and_true, Ext.gt, Ext.lt, decide_eq_false_iff_not, not_lt,
        hI.value] at hc2
      exact hc2
  refine ⟨x, st, hrun, ?_⟩
  have hx1 : x = (S.iter x0 k).1 := congrArg Prod.fst hx
  have hx2 : st = (S.iter x0 k).2 := congrArg Prod.snd hx
  rw [hx1, hx2, iterNum_iter]
  exact ⟨hres, hI.value, hgeo, hk1, hfl⟩

/-- The scalar equation `x + x² / 10 = 0` with the default attributes. -/
noncomputable def exRate : Broyden ℝ ℝ Unit where
  f := fun x _ => x () + x () ^ 2 / 10
  ldot := fun x y => ⟪x, y⟫
  norm := fun x => ‖x ()‖
  historySize := 500
  gamma := 1
  stepsize := .const 0
  maxStepsize := 1
  minStepsize := 1 / 1000000
  increaseFactor := 3 / 2
  runLs := runBacktracking (fun x _ => x () + x () ^ 2 / 10)
    (lineSearch (fun x _ => x () + x () ^ 2 / 10) (fun x _ => 2 * (x () + x () ^ 2 / 10) * (1 + x () / 5)) (fun x y => ⟪x, y⟫)
      15 (8 / 10) 1 .wolfe false true)

theorem exRate_local : LocalRoot (fun x : ℝ => x + x ^ 2 / 10) LinearMap.id 0 1 (1 / 5) (1 / 2) := by
  refine ⟨by norm_num, by norm_num, by norm_num, fun v => by simp, ?_⟩
  intro u v hu hv
  simp only [sub_zero, LinearMap.id_apply, Real.norm_eq_abs] at *
  have h1 : u + u ^ 2 / 10 - (v + v ^ 2 / 10) - (u - v) = (u + v) / 10 * (u - v) := by ring
  rw [h1, abs_mul]
  apply mul_le_mul_of_nonneg_right _ (abs_nonneg _)
  rw [abs_div, abs_of_pos (by norm_num : (0 : ℝ) < 10)]
  have h2 := abs_add_le u v
  have h3 := le_max_left |u| |v|
  have h4 := le_max_right |u| |v|
  linarith

theorem exRate_bound : LocalBound (fun x : ℝ => x + x ^ 2 / 10) (fun x => 2 * (x + x ^ 2 / 10) * (1 + x / 5)) 0 (11 / 10)
    (1 / 2) := by
  have key : ∀ u : ℝ, |u| ≤ 1 / 2 → ∀ t : ℝ, 0 ≤ t → t ≤ 1 / 5 → |1 + t * u| ≤ 11 / 10 := by
    intro u hu t ht ht'
    obtain ⟨a, b⟩ := abs_le.mp hu
    rw [abs_le]
    constructor <;> nlinarith
  constructor
  · intro u hu
    simp only [sub_zero, Real.norm_eq_abs] at *
    have h1 : u + u ^ 2 / 10 = (1 + 1 / 10 * u) * u := by ring
    rw [h1, abs_mul]
    exact mul_le_mul_of_nonneg_right (key u hu _ (by norm_num) (by norm_num)) (abs_nonneg _)
  · intro u hu d
    simp only [sub_zero, Real.norm_eq_abs] at *
    have h1 : ⟪2 * (u + u ^ 2 / 10) * (1 + u / 5), d⟫ = 2 * ((1 + 1 / 5 * u) * ((u + u ^ 2 / 10) * d)) := by
      simp only [real_inner_eq_re_inner, RCLike.inner_apply, conj_trivial]
      simp
      ring
    rw [h1, abs_mul, abs_mul, abs_mul, abs_of_pos (by norm_num : (0 : ℝ) < 2)]
    have h2 := mul_le_mul_of_nonneg_right (key u hu (1 / 5) (by norm_num) le_rfl)
      (mul_nonneg (abs_nonneg (u + u ^ 2 / 10)) (abs_nonneg d))
    nlinarith

/-- From `x = 1/50` the default run meets the default tolerance `1e-3`. -/
example : ∃ x st, exRate.run ⟨false, 1 / 1000, 500, false, true⟩ (fun _ => 1 / 50) = .ok (x, st) ∧
    |x () + x () ^ 2 / 10| ≤ 1 / 1000 ∧ 1 ≤ st.iterNum := by
  obtain ⟨x, st, h1, h2, -, -, h5, -⟩ := C102_run exRate (fun x _ => 2 * (x () + x () ^ 2 / 10) * (1 + x () / 5)) 500 false false
    ⟨rfl, fun _ _ => rfl, fun _ => rfl, rfl, rfl, rfl, rfl, rfl⟩ (fun x => x + x ^ 2 / 10)
    (fun x => 2 * (x + x ^ 2 / 10) * (1 + x / 5)) LinearMap.id 0 (fun _ => 1 / 50) (fun _ => rfl) (fun _ => rfl)
    1 (1 / 5) (1 / 2) 0 (11 / 10) exRate_local exRate_bound (by norm_num [exRate]) (fun v => by simp [exRate])
    (by rw [sub_zero, Real.norm_eq_abs, abs_of_pos] <;> norm_num)
    (by rw [sub_zero, Real.norm_eq_abs, abs_of_pos] <;> norm_num)
    (by rw [sub_zero, Real.norm_eq_abs, abs_of_pos] <;> norm_num) (by norm_num) (1 / 1000) (by norm_num) (by norm_num)
    (by
      rw [sub_zero, Real.norm_eq_abs, abs_of_pos (by norm_num), div_le_iff₀ (by positivity)]
      have h5 : (2 : ℝ) ^ 5 ≤ 2 ^ 500 := pow_le_pow_right₀ (by norm_num) (by norm_num)
      have h6 : ∀ z : ℝ, 2 ^ 5 ≤ z → 11 / 10 * (1 / 50) ≤ 1 / 1000 * z := by intro z hz; linarith
      exact h6 _ h5) false
  exact ⟨x, st, h1, h2, h5⟩

end Jaxopt.QuasiNewton.Broyden
