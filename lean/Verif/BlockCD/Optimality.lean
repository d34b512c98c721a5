import Verif.BlockCD.Props
import Verif.QuasiNewton.LbfgsbProps
import Verif.ProxGrad.RealProps

/-!
# Model of the remaining optimality functions, and property C68: they vanish exactly at the solutions

`ProximalGradient.optimality_fun` and `ProjectedGradient.optimality_fun` are modelled in `Verif/ProxGrad/Model.lean`; here are the ones of
`block_cd.py`, `lbfgsb.py` and the bounded SciPy wrappers, and `Solver.l2_optimality_error`.
-/

set_option autoImplicit false
set_option linter.unusedSectionVars false
set_option linter.unusedVariables false

namespace Jaxopt.BlockCD

open Jaxopt.Base Jaxopt.QP Jaxopt.ProxGrad

variable {K W : Type*} [Field K] [LinearOrder K] [AddCommGroup W] [Module K W] {m n : ℕ}

/-- `_grad_fun = jax.grad(self.fun)` of a composite linear function, block_cd.py line 220. -/
def BCD.gradFun (S : BCD K W m n) (x : Fin n → W) (j : Fin n) : W :=
  let g := rmatvecElement S.fn.A (S.fn.gradSubfun (matvec S.fn.A x)) j
  match S.fn.b with
  | some b => g + b j
  | none => g

/-- `_fixed_point_fun`, block_cd.py lines 174-176; `block_prox` is called with its default scaling `1`. -/
def BCD.fixedPointFun (S : BCD K W m n) (params : Fin n → W) : Fin n → W :=
  let gradStep := fun j => params j - S.gradFun params j
  fun j => S.blockProx (gradStep j) 1

/-- `optimality_fun`, block_cd.py lines 178-210. -/
def BCD.optimalityFun (S : BCD K W m n) (params : Fin n → W) : Fin n → W := fun j => S.fixedPointFun params j - params j

/-- `Solver.l2_optimality_error`, base.py lines 220-223, of a residual with one block per row. -/
def l2OptimalityError (sqrt : K → K) (vdot : W → W → K) (r : Fin n → W) : K := sqrt (∑ j, vdot (r j) (r j))

variable [IsStrictOrderedRing K]

/-! ## Proximal gradient -/

/-- First-order optimality is global optimality for a convex smooth function plus a convex function. -/
theorem stationary_iff {E : Type*} [AddCommGroup E] [Module K E] {vdot : E → E → K} (hv : IsVdot vdot) {C : Set E} {f h : E → K}
    {grad : E → E} (hh : ConvexOn K C h) {L : K} (hL : 0 ≤ L) (hq : QuadUpper vdot f grad L) (hc : GradIneq vdot f grad) {x : E}
    (hx : x ∈ C) : (∀ u ∈ C, h x ≤ h u + vdot (u - x) (grad x)) ↔ ∀ u ∈ C, f x + h x ≤ f u + h u := by
  constructor
  · intro hs u hu
    have h1 := hs u hu
    have h2 := hc x u
    linarith
  · intro hmin u hu
    have key : 0 ≤ h u - h x + vdot (u - x) (grad x) := by
      refine linear_coeff_nonneg (b := L / 2 * vdot (u - x) (u - x)) (mul_nonneg (by linarith) (hv.nonneg _)) ?_
      intro l hl hl1
      have e : (1 - l) • x + l • u = x + l • (u - x) := by rw [sub_smul, one_smul, smul_sub]; abel
      have hw : x + l • (u - x) ∈ C := by
        have := hh.1 hx hu (sub_nonneg.mpr hl1) hl.le (by ring)
        rwa [e] at this
      have hhw : h (x + l • (u - x)) ≤ (1 - l) * h x + l * h u := by
        have := hh.2 hx hu (sub_nonneg.mpr hl1) hl.le (by ring)
        rwa [e] at this
      have h1 := hmin _ hw
      have h2 := hq x (x + l • (u - x))
      have e2 : x + l • (u - x) - x = l • (u - x) := by abel
      rw [e2, hv.smul_left, hv.smul_left, hv.smul_right] at h2
      nlinarith
    linarith

/-- **C68**, proximal gradient: for a convex smooth `fun` and a convex regulariser, `optimality_fun` vanishes exactly at the global
minimisers of their sum. -/
theorem C68_prox_gradient {E : Type*} [AddCommGroup E] [Module K E] (S : PG K E) (hv : IsVdot S.vdot) {C : Set E} {h : E → K}
    (hp : IsProx S.vdot C h S.prox) (hh : ConvexOn K C h) {L : K} (hL : 0 ≤ L) (hq : QuadUpper S.vdot S.f S.grad L)
    (hc : GradIneq S.vdot S.f S.grad) (x : E) :
    S.optimalityFun x = 0 ↔ x ∈ C ∧ ∀ u ∈ C, S.f x + h x ≤ S.f u + h u := by
  have e : S.optimalityFun x = S.prox (x + (-(1 : K)) • S.grad x) 1 - x := by
    simp only [PG.optimalityFun, PG.fixedPointFun]
    rw [neg_smul, one_smul, ← sub_eq_add_neg]
  rw [e, sub_eq_zero, fixed_iff hv hp hh x (S.grad x) one_pos]
  exact and_congr_right fun hx => stationary_iff hv hh hL hq hc hx

/-! ## Block coordinate descent -/

theorem gradFun_eq (S : BCD K W m n) (x : Fin n → W) (j : Fin n) : S.gradFun x j = S.fn.gradAt x j := by
  unfold BCD.gradFun Composite.gradAt
  rcases S.fn.b with _ | b
  · simp
  · rfl

theorem optimality_zero_iff (S : BCD K W m n) (hv : IsVdot S.vdot) {C : Set W} {h : W → K} (hp : IsProx S.vdot C h S.blockProx)
    (hh : ConvexOn K C h) (x : Fin n → W) :
    S.optimalityFun x = 0 ↔ ∀ j, x j ∈ C ∧ ∀ w ∈ C, h (x j) ≤ h w + S.vdot (w - x j) (S.fn.gradAt x j) := by
  rw [funext_iff]
  refine forall_congr' fun j => ?_
  have e : S.optimalityFun x j = S.blockProx (x j + (-(1 : K)) • S.fn.gradAt x j) 1 - x j := by
    simp only [BCD.optimalityFun, BCD.fixedPointFun, gradFun_eq]
    rw [neg_smul, one_smul, ← sub_eq_add_neg]
  rw [e, Pi.zero_apply, sub_eq_zero, fixed_iff hv hp hh (x j) _ one_pos]

/-- **C68**, block coordinate descent: for a convex `fun` with finite block constants and a convex regulariser, `optimality_fun`
vanishes exactly at the global minimisers of the objective. -/
theorem C68_block_cd (S : BCD K W m n) (hv : IsVdot S.vdot) {C : Set W} {h : W → K} (hp : IsProx S.vdot C h S.blockProx)
    (hh : ConvexOn K C h) {L : Fin n → K} (hL : ∀ j, 0 ≤ L j) (hc : CoordUpper S.vdot S.fn L)
    (hconv : ∀ x y : Fin n → W, S.fn.call S.vdot x + ∑ j, S.vdot (y j - x j) (S.fn.gradAt x j) ≤ S.fn.call S.vdot y) (x : Fin n → W) :
    S.optimalityFun x = 0 ↔ (∀ j, x j ∈ C) ∧ ∀ u : Fin n → W, (∀ j, u j ∈ C) → objective S h x ≤ objective S h u := by
  rw [optimality_zero_iff S hv hp hh]
  constructor
  · intro hs
    refine ⟨fun j => (hs j).1, fun u hu => ?_⟩
    have h1 := hconv x u
    have h2 := Finset.sum_le_sum fun (j : Fin n) (_ : j ∈ Finset.univ) => (hs j).2 (u j) (hu j)
    rw [Finset.sum_add_distrib] at h2
    unfold objective
    linarith
  · rintro ⟨hx, hmin⟩ j
    refine ⟨hx j, fun u hu => ?_⟩
    have key : 0 ≤ h u - h (x j) + S.vdot (u - x j) (S.fn.gradAt x j) := by
      refine linear_coeff_nonneg (b := L j / 2 * S.vdot (u - x j) (u - x j)) (mul_nonneg (by linarith [hL j]) (hv.nonneg _)) ?_
      intro l hl hl1
      have e : (1 - l) • x j + l • u = x j + l • (u - x j) := by rw [sub_smul, one_smul, smul_sub]; abel
      have hw : x j + l • (u - x j) ∈ C := by
        have := hh.1 (hx j) hu (sub_nonneg.mpr hl1) hl.le (by ring)
        rwa [e] at this
      have hhw : h (x j + l • (u - x j)) ≤ (1 - l) * h (x j) + l * h u := by
        have := hh.2 (hx j) hu (sub_nonneg.mpr hl1) hl.le (by ring)
        rwa [e] at this
      have h1 := hmin (Function.update x j (x j + l • (u - x j))) (fun k => by
        by_cases hk : k = j
        · subst hk; rw [Function.update_self]; exact hw
        · rw [Function.update_of_ne hk]; exact hx k)
      have h2 := hc x j (x j + l • (u - x j))
      have e2 : x j + l • (u - x j) - x j = l • (u - x j) := by abel
      rw [e2, hv.smul_left, hv.smul_left, hv.smul_right] at h2
      unfold objective at h1
      rw [sum_update] at h1
      nlinarith
    linarith

/-- **C68**, block coordinate descent: `optimality_fun` vanishes at the parameters of a run exactly when the next epoch reports error
`0`, although it uses stepsize `1` and the epoch uses the stepsizes `1/L_j` (exact square root). -/
theorem C68_block_error (S : BCD K W m n) (hv : IsVdot S.vdot) {C : Set W} {h : W → K} (hp : IsProx S.vdot C h S.blockProx)
    (hh : ConvexOn K C h) (hL : ∀ j, 0 < S.fn.lipschitz j) (hsqrt : ∀ a, 0 ≤ a → (S.sqrt a = 0 ↔ a = 0)) (x0 : Fin n → W) (k : ℕ) :
    (S.iterate x0 (k + 1)).2.error = .fin 0 ↔ S.optimalityFun (S.iterate x0 k).1 = 0 := by
  rw [BCD.iterate_succ]
  set p := S.iterate x0 k with hpdef
  have he : Exact S p.1 p.2.predictions p.2.subfunG := (S.C35_caches x0 k).1
  let t0 : LoopTup K W m n := ⟨p.1, p.2.subfunG, p.2.predictions, 0⟩
  have hupd : (S.update p).2.error = .fin (S.sqrt (S.over (List.finRange n) t0).sqerror) := rfl
  have hfix : ∀ j, (S.blockProx (p.1 j - S.stepsize j • S.fn.gradAt p.1 j) (S.stepsize j) = p.1 j ↔
      p.1 j ∈ C ∧ ∀ w ∈ C, h (p.1 j) ≤ h w + S.vdot (w - p.1 j) (S.fn.gradAt p.1 j)) := by
    intro j
    have hs : 0 < S.stepsize j := div_pos one_pos (hL j)
    rw [← fixed_iff hv hp hh (p.1 j) _ hs, neg_smul, ← sub_eq_add_neg]
  have hnn : ∀ (is : List (Fin n)) (t : LoopTup K W m n), 0 ≤ t.sqerror → 0 ≤ (S.over is t).sqerror := by
    intro is
    induction is with
    | nil => intro t ht; exact ht
    | cons i is ih => intro t ht; exact ih _ (add_nonneg ht (hv.nonneg _))
  have hstay : ∀ (is : List (Fin n)) (t : LoopTup K W m n), Exact S t.x t.predictions t.subfunG → t.sqerror = 0 → t.x = p.1 →
      (∀ j, S.blockProx (p.1 j - S.stepsize j • S.fn.gradAt p.1 j) (S.stepsize j) = p.1 j) → (S.over is t).sqerror = 0 := by
    intro is
    induction is with
    | nil => intro t _ ht _ _; exact ht
    | cons i is ih =>
      intro t het ht htx hall
      have h1 : S.blockProx (t.x i - S.stepsize i • S.fn.gradAt t.x i) (S.stepsize i) = t.x i := by rw [htx]; exact hall i
      refine ih (S.body i t) (body_exact S i t het) ?_ ?_ hall
      · simp only [BCD.body, gradElement_eq S het, h1, ht, sub_self, hv.zero_left, add_zero]
      · simp only [BCD.body, gradElement_eq S het, htx, hall i, Function.update_eq_self]
  rw [hupd, optimality_zero_iff S hv hp hh]
  have h0 := hnn (List.finRange n) t0 le_rfl
  constructor
  · intro herr
    have h1 : (S.over (List.finRange n) t0).sqerror = 0 := (hsqrt _ h0).1 (by simpa using herr)
    have h2 := (S.over_stuck hv (List.finRange n) t0 he h1).2
    exact fun j => (hfix j).1 (h2 j (List.mem_finRange j))
  · intro hs
    have h1 := hstay (List.finRange n) t0 he rfl rfl fun j => (hfix j).2 (hs j)
    rw [h1, (hsqrt 0 le_rfl).2 rfl]

/-- **C68**: `l2_optimality_error` vanishes exactly when the residual does (exact square root). -/
theorem C68_l2_error {sqrt : K → K} (hsqrt : ∀ a, 0 ≤ a → (sqrt a = 0 ↔ a = 0)) {vdot : W → W → K} (hv : IsVdot vdot)
    (r : Fin n → W) : l2OptimalityError sqrt vdot r = 0 ↔ r = 0 := by
  have h0 : ∀ j ∈ Finset.univ, 0 ≤ vdot (r j) (r j) := fun j _ => hv.nonneg _
  unfold l2OptimalityError
  rw [hsqrt _ (Finset.sum_nonneg h0), Finset.sum_eq_zero_iff_of_nonneg h0, funext_iff]
  exact ⟨fun h j => hv.eq_zero (h j (Finset.mem_univ j)), fun h j _ => by rw [h j]; exact hv.zero_left _⟩

end Jaxopt.BlockCD

namespace Jaxopt.QuasiNewton

open Jaxopt.Base Jaxopt.ProxGrad

variable {K : Type*} [Field K] [LinearOrder K] {n : ℕ}

/-- `LBFGSB.optimality_fun` (lbfgsb.py lines 572-581); `grad` is the gradient at `sol`. -/
def boundedOptimality (grad : Fin n → K) (bounds : Option ((Fin n → Ext K) × (Fin n → Ext K))) (sol : Fin n → K) : Fin n → Ext K :=
  match bounds with
  | none => fun i => .fin (grad i)
  | some (lower, upper) => fun i => Ext.sub (clipE (sol i - grad i) (lower i) (upper i)) (.fin (sol i))

/-- The bounds that `init_state` and `update` substitute for `None`, lbfgsb.py lines 362-364 and 400-402. -/
def fullBounds (bounds : Option ((Fin n → Ext K) × (Fin n → Ext K))) : (Fin n → Ext K) × (Fin n → Ext K) :=
  bounds.getD (fun _ => .ninf, fun _ => .pinf)

/-- `ScipyBoundedMinimize.optimality_fun` and `ScipyBoundedLeastSquares.optimality_fun` (scipy_wrappers.py lines 432-439 and 761-768),
with `projection_box` (projection.py lines 55-73), which unpacks `bounds` into a pair; `grad` is the gradient at `sol`. -/
def scipyBoundedOptimality (grad : Fin n → K) (bounds : Option ((Fin n → Ext K) × (Fin n → Ext K))) (sol : Fin n → K) :
    Except String (Fin n → Ext K) :=
  match bounds with
  | none => .error "TypeError: cannot unpack non-iterable NoneType object"
  | some (lower, upper) => .ok fun i => Ext.sub (clipE (sol i - grad i) (lower i) (upper i)) (.fin (sol i))

variable [IsStrictOrderedRing K]

/-- **C68**, box constraints: at a feasible point `optimality_fun` vanishes exactly when the error of the solver state is `0`, and
exactly when the first-order conditions hold; with `bounds=None` this means that the gradient vanishes. -/
theorem C68_bounded (grad : Fin n → K) (bounds : Option ((Fin n → Ext K) × (Fin n → Ext K))) (x : Fin n → K)
    (hx : InBox (fullBounds bounds).1 (fullBounds bounds).2 x) :
    ((∀ i, boundedOptimality grad bounds x i = .fin 0) ↔ lbfgsbError x grad (fullBounds bounds).1 (fullBounds bounds).2 = .fin 0) ∧
    ((∀ i, boundedOptimality grad bounds x i = .fin 0) ↔ BoxKKT (fullBounds bounds).1 (fullBounds bounds).2 x grad) ∧
    (bounds = none → ((∀ i, boundedOptimality grad bounds x i = .fin 0) ↔ grad = 0)) := by
  have hkkt := C28_error_zero_iff _ _ x grad hx
  have herr : (∀ i, boundedOptimality grad bounds x i = .fin 0) ↔
      lbfgsbError x grad (fullBounds bounds).1 (fullBounds bounds).2 = .fin 0 := by
    cases bounds with
    | none =>
      rw [hkkt]
      simp only [boundedOptimality, Ext.fin.injEq, fullBounds, Option.getD_none, BoxKKT]
      constructor
      · intro h
        refine ⟨hx, fun j => ⟨fun hj => ?_, fun hj => ?_⟩⟩ <;> rw [h j] at hj <;> exact absurd hj (lt_irrefl 0)
      · rintro ⟨_, h⟩ i
        rcases lt_trichotomy (grad i) 0 with hi | hi | hi
        · exact absurd ((h i).1 hi) (by simp)
        · exact hi
        · exact absurd ((h i).2 hi) (by simp)
    | some b =>
      obtain ⟨lower, upper⟩ := b
      simp only [fullBounds, Option.getD_some] at hx ⊢
      have hc := fun i => clipE_between (y := x i - grad i) (hx i)
      choose v hv _ using hc
      have ho : ∀ i, boundedOptimality grad (some (lower, upper)) x i = .fin (v i - x i) := by
        intro i
        simp only [boundedOptimality, hv i]
        simp [Ext.sub, Ext.neg, Ext.add, sub_eq_add_neg]
      have hterm : ∀ j, Ext.abs (Ext.sub (clipE (x j - grad j) (lower j) (upper j)) (.fin (x j))) = .fin |v j - x j| := by
        intro j; rw [hv j]; simp [Ext.sub, Ext.neg, Ext.add, Ext.abs, sub_eq_add_neg]
      unfold lbfgsbError
      rw [foldl_max_zero _ (by
        intro e he
        obtain ⟨j, rfl⟩ := List.mem_ofFn.mp he
        simp only [hterm j]
        exact Or.inr ⟨_, rfl, abs_nonneg _⟩) _ (Or.inr ⟨0, rfl, le_rfl⟩)]
      simp only [true_and, List.forall_mem_ofFn_iff, hterm, Ext.fin.injEq, abs_eq_zero, ho]
  refine ⟨herr, herr.trans hkkt, fun hn => ?_⟩
  subst hn
  simp only [boundedOptimality, Ext.fin.injEq, funext_iff, Pi.zero_apply]

/-- **C68**, SciPy wrappers: for given bounds their `optimality_fun` is the one of `LBFGSB`, so it vanishes at a feasible point exactly
when the first-order conditions hold. -/
theorem C68_scipy_bounded_partial (grad : Fin n → K) (lower upper : Fin n → Ext K) (x : Fin n → K) (hx : InBox lower upper x) :
    ∃ r, scipyBoundedOptimality grad (some (lower, upper)) x = .ok r ∧ ((∀ i, r i = .fin 0) ↔ BoxKKT lower upper x grad) :=
  ⟨_, rfl, (C68_bounded grad (some (lower, upper)) x hx).2.1⟩

/-- **C68**, SciPy wrappers: `run` accepts `bounds=None`, but then `optimality_fun`, hence implicit differentiation, raises at every
point, also at the solutions. -/
theorem C68_scipy_bounds_none_false (grad : Fin n → K) (x : Fin n → K) :
    (∃ e, scipyBoundedOptimality grad none x = .error e) ∧ (grad = 0 → ∀ i, boundedOptimality grad none x i = .fin 0) :=
  ⟨⟨_, rfl⟩, fun h i => by rw [h]; rfl⟩

/-- **C68**, box constraints: a root of `optimality_fun` is feasible, provided that no lower bound exceeds its upper bound. -/
theorem C68_bounded_feasible (grad lower upper x : Fin n → K) (hlu : ∀ i, lower i ≤ upper i)
    (h : ∀ i, boundedOptimality grad (some (fun i => .fin (lower i), fun i => .fin (upper i))) x i = .fin 0) (i : Fin n) :
    lower i ≤ x i ∧ x i ≤ upper i := by
  have h1 := h i
  simp only [boundedOptimality, clipE, Ext.max, Ext.min, Ext.sub, Ext.neg, Ext.add, Ext.fin.injEq] at h1
  have h2 : x i = min (max (x i - grad i) (lower i)) (upper i) := by linarith
  rw [h2]
  exact ⟨le_min (le_max_right _ _) (hlu i), min_le_right _ _⟩

/-- **C68**, box constraints and convexity: for a convex smooth `fun`, `optimality_fun` vanishes at a feasible point exactly when that
point minimises `fun` over the box. -/
theorem C68_bounded_minimiser {f : (Fin n → K) → K} {grad : (Fin n → K) → Fin n → K} {L : K} (hL : 0 ≤ L)
    (hq : QuadUpper (fun x y => ∑ i, x i * y i) f grad L) (hc : GradIneq (fun x y => ∑ i, x i * y i) f grad)
    (lower upper x : Fin n → K) (hx : ∀ i, lower i ≤ x i ∧ x i ≤ upper i) :
    (∀ i, boundedOptimality (grad x) (some (fun i => .fin (lower i), fun i => .fin (upper i))) x i = .fin 0) ↔
      ∀ u : Fin n → K, (∀ i, lower i ≤ u i ∧ u i ≤ upper i) → f x ≤ f u := by
  have hpt : ∀ i, boundedOptimality (grad x) (some (fun i => .fin (lower i), fun i => .fin (upper i))) x i = .fin 0 ↔
      x i = min (max (x i - grad x i) (lower i)) (upper i) := by
    intro i
    simp only [boundedOptimality, clipE, Ext.max, Ext.min, Ext.sub, Ext.neg, Ext.add, Ext.fin.injEq]
    constructor <;> intro h <;> linarith
  simp only [hpt]
  constructor
  · intro h u hu
    have h1 := hc x u
    have h2 : 0 ≤ ∑ i, (u - x) i * grad x i := by
      refine Finset.sum_nonneg fun i _ => ?_
      have h3 := h i
      obtain ⟨hl, hr⟩ := hx i
      obtain ⟨ul, ur⟩ := hu i
      simp only [Pi.sub_apply]
      rcases lt_trichotomy (grad x i) 0 with hg | hg | hg
      · have : x i = upper i := by
          rw [max_eq_left (by linarith)] at h3
          rcases min_cases (x i - grad x i) (upper i) with ⟨e, _⟩ | ⟨e, _⟩ <;> linarith
        nlinarith
      · rw [hg, mul_zero]
      · have : x i = lower i := by
          rcases max_cases (x i - grad x i) (lower i) with ⟨e, _⟩ | ⟨e, _⟩
          · rw [e, min_eq_left (by linarith)] at h3; linarith
          · rw [e] at h3
            rcases min_cases (lower i) (upper i) with ⟨e', _⟩ | ⟨e', _⟩ <;> linarith
        nlinarith
    linarith
  · intro hmin i
    obtain ⟨hl, hr⟩ := hx i
    have key : ∀ w, lower i ≤ w → w ≤ upper i → 0 ≤ (w - x i) * grad x i := by
      intro w hwl hwu
      refine linear_coeff_nonneg (b := L / 2 * ((w - x i) * (w - x i))) (mul_nonneg (by linarith) (mul_self_nonneg _)) ?_
      intro l hl0 hl1
      have h1 := hmin (Function.update x i (x i + l * (w - x i))) (fun k => by
        by_cases hk : k = i
        · subst hk
          rw [Function.update_self]
          constructor <;> nlinarith
        · rw [Function.update_of_ne hk]; exact hx k)
      have h2 := hq x (Function.update x i (x i + l * (w - x i)))
      have e : ∀ k, (Function.update x i (x i + l * (w - x i)) - x) k = if k = i then l * (w - x i) else 0 := by
        intro k
        by_cases hk : k = i
        · subst hk; simp
        · simp [hk]
      simp only [e, ite_mul, zero_mul, mul_ite, mul_zero, Finset.sum_ite_eq', Finset.mem_univ, if_true] at h2
      nlinarith
    rcases lt_trichotomy (grad x i) 0 with hg | hg | hg
    · have h1 := key (upper i) (hl.trans hr) le_rfl
      have h2 : x i = upper i := le_antisymm hr (by nlinarith)
      rw [max_eq_left (by linarith), min_eq_right (by linarith)]; exact h2
    · rw [hg, sub_zero, max_eq_left hl, min_eq_left hr]
    · have h1 := key (lower i) le_rfl (hl.trans hr)
      have h2 : x i = lower i := le_antisymm (by nlinarith) hl
      rw [max_eq_right (by linarith), min_eq_left (by linarith)]; exact h2

/-! ### Examples -/

/-- On `[0, 1]` the gradient `-3` at the upper end is accepted, the same gradient at `1/2` is not. -/
example : boundedOptimality (K := ℚ) (n := 1) ![-3] (some (fun _ => .fin 0, fun _ => .fin 1)) ![1] 0 = .fin 0 ∧
    boundedOptimality (K := ℚ) (n := 1) ![-3] (some (fun _ => .fin 0, fun _ => .fin 1)) ![1 / 2] 0 = .fin (1 / 2) ∧
    boundedOptimality (K := ℚ) (n := 1) ![-3] none ![1] 0 = .fin (-3) := by
  decide +kernel

end Jaxopt.QuasiNewton

namespace Jaxopt.BlockCD

/-- Least squares with one sample `x = (1, 2)`, `y = 5` and no regulariser: `(1, 2)` is optimal, `0` is not. -/
def exOpt : BCD ℚ ℚ 1 2 where
  fn := leastSquares (· * ·) 1 !![1, 2] ![5]
  blockProx := fun w _ => w
  vdot := (· * ·)
  sqrt := id
  tol := 0
  maxiter := 10
  unroll := false
  jit := true

example : exOpt.optimalityFun ![1, 2] = ![0, 0] ∧ exOpt.optimalityFun ![0, 0] = ![5, 10] := by
  constructor <;> · funext j; revert j; decide +kernel

end Jaxopt.BlockCD
