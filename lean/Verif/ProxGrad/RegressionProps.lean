import Verif.ProxGrad.RealProps
import Verif.ProxGrad.RateProps
import Verif.BlockCD.LogregProps
import Verif.Prox.Props

/-!
# Property C111: penalised and constrained regression, end to end

`ProximalGradient` and `ProjectedGradient` run on the objectives of `objective.py` with the operators of `prox.py` and
`projection.py`.  The right-hand sides only mention the data, the start and the number of iterations.
-/

set_option autoImplicit false
set_option linter.unusedSectionVars false
set_option linter.unusedVariables false

namespace Jaxopt.ProxGrad

open Jaxopt.Base Jaxopt.BlockCD Jaxopt.Proj Jaxopt.Prox

variable {m n : ℕ}

/-- `tree_vdot` of two arrays. -/
def dot (x y : Fin n → ℝ) : ℝ := ∑ j, x j * y j

/-- Sum of the squares of the entries of the design matrix. -/
def sqEntries (X : Matrix (Fin m) (Fin n) ℝ) : ℝ := ∑ i, ∑ j, X i j ^ 2

/-- The proven bound on the optimality gap after `k` iterations with step `s` when the start is at squared distance `D`. -/
noncomputable def gapBound (acceleration : Bool) (s D : ℝ) (k : ℕ) : ℝ :=
  if acceleration then 2 * D / (s * (((k : ℝ) + 1) * ((k : ℝ) + 1))) else D / (2 * s * k)

theorem isVdot_dot : IsVdot (dot (n := n)) := isVdot_scores

/-- A function of the predictions with curvature at most `a` is smooth in the parameters with constant `a · Σ X_ij²`, and convex. -/
theorem smooth_of_sandwich {F : Composite ℝ ℝ m n} {a : ℝ} (ha : 0 ≤ a) (h : Sandwich (fun a b => a * b) F a) :
    QuadUpper dot (F.call fun a b => a * b) F.gradAt (a * sqEntries F.A) ∧ GradIneq dot (F.call fun a b => a * b) F.gradAt := by
  refine ⟨fun x y => ?_, fun x y => h.tangent IsVdot.mul x y⟩
  have hv : IsVdot (K := ℝ) (E := ℝ) (fun a b => a * b) := IsVdot.mul
  rw [call_eq F hv, call_eq F hv]
  have e : matvec F.A y = matvec F.A x + matvec F.A (fun j => y j - x j) := by
    funext i
    simp only [matvec, Pi.add_apply, ← Finset.sum_add_distrib, ← smul_add, add_sub_cancel]
  have h0 := (h (matvec F.A x) (matvec F.A fun j => y j - x j)).2
  rw [← e] at h0
  have h1 : ∑ i, matvec F.A (fun j => y j - x j) i * F.gradSubfun (matvec F.A x) i =
      ∑ j, (y j - x j) * rmatvecElement F.A (F.gradSubfun (matvec F.A x)) j := by
    simp only [matvec, rmatvecElement, Finset.sum_mul, Finset.mul_sum, smul_eq_mul]
    rw [Finset.sum_comm]
    exact Finset.sum_congr rfl fun j _ => Finset.sum_congr rfl fun i _ => by ring
  have h2 : ∑ i, matvec F.A (fun j => y j - x j) i * matvec F.A (fun j => y j - x j) i ≤ sqEntries F.A * dot (y - x) (y - x) := by
    unfold sqEntries dot
    rw [Finset.sum_mul]
    refine Finset.sum_le_sum fun i _ => ?_
    have := Finset.sum_mul_sq_le_sq_mul_sq Finset.univ (F.A i) (fun j => y j - x j)
    simpa only [matvec, smul_eq_mul, sq, Pi.sub_apply] using this
  have h3 := mul_le_mul_of_nonneg_left h2 (show 0 ≤ a / 2 by positivity)
  rw [h1] at h0
  simp only [dot, Pi.sub_apply, Composite.gradAt, mul_add, sub_mul, Finset.sum_add_distrib, Finset.sum_sub_distrib] at h0 h3 ⊢
  linarith

/-- What the runs achieve: the number of iterations, the reason for stopping and the optimality gap with respect to every competitor. -/
theorem run_gap (S : PG ℝ (Fin n → ℝ)) (hvd : S.vdot = dot) (hsq : S.sqrt = Real.sqrt) {C : Set (Fin n → ℝ)} {h : (Fin n → ℝ) → ℝ}
    (hp : IsProx dot C h S.prox) (hh : ConvexOn ℝ C h) {L : ℝ} (hq : QuadUpper dot S.f S.grad L) (hc : GradIneq dot S.f S.grad) {s : ℝ}
    (hstep : S.stepsize = .const s) (hs : 0 < s) (hsL : s * L ≤ 1) (hm : 1 ≤ S.maxiter) {x0 : Fin n → ℝ}
    {r : (Fin n → ℝ) × PGState ℝ (Fin n → ℝ)} (hr : S.run x0 = .ok r) :
    (r.2.iterNum = S.maxiter ∨ Ext.gt r.2.error (.fin S.tol) = false) ∧ r.1 ∈ C ∧
      ∀ u ∈ C, S.f r.1 + h r.1 - (S.f u + h u) ≤ gapBound S.acceleration s (∑ j, (x0 j - u j) ^ 2) r.2.iterNum := by
  obtain ⟨k, h1, h2, rfl, h4, h5⟩ := runS_spec hm hr
  have hit : (S.iterate x0 k).2.iterNum = k := PG.iterNum_iterate _ _ _
  change (_ ∨ _) ∧ (S.iterate x0 k).1 ∈ C ∧ _
  refine ⟨?_, ?_, fun u hu => ?_⟩
  · rcases h5 with h5 | h5
    · exact .inl (by change (S.iterate x0 k).2.iterNum = _; rw [hit, h5])
    · exact .inr h5
  · obtain ⟨j, rfl⟩ : ∃ j, k = j + 1 := ⟨k - 1, by omega⟩
    rw [PG.iterate_succ]
    unfold PG.update
    split
    · simp only [PG.updateAccel, PG.iter, hstep, if_neg (not_le.mpr hs), PG.proxGrad]; exact (hp _ s hs).1
    · simp only [PG.updatePlain, PG.iter, hstep, if_neg (not_le.mpr hs), PG.proxGrad]; exact (hp _ s hs).1
  · change S.f (S.iterate x0 k).1 + h (S.iterate x0 k).1 - _ ≤ gapBound _ _ _ (S.iterate x0 k).2.iterNum
    have e : S.vdot (x0 - u) (x0 - u) = ∑ j, (x0 j - u j) ^ 2 := by
      rw [hvd]; simp only [dot, Pi.sub_apply, sq]
    rw [hit, ← e]
    cases hacc : S.acceleration
    · have := S.C77_rate (by rw [hvd]; exact isVdot_dot) (by rw [hvd]; exact hp) hh (by rw [hvd]; exact hq) (by rw [hvd]; exact hc) hacc hstep
        hs hsL x0 hu h1
      simpa [gapBound] using this
    · have := S.C33_rate (by rw [hvd]; exact isVdot_dot) (by rw [hvd]; exact hp) hh (by rw [hvd]; exact hq) (by rw [hvd]; exact hc)
        (by intro a ha; rw [hsq]; exact ⟨Real.sqrt_nonneg a, Real.mul_self_sqrt ha⟩) hacc hstep hs hsL x0 hu k h1
      simpa [gapBound] using this

/-! ## The problems -/

/-- `least_squares` on the data `(X, y)`, written out. -/
noncomputable def halfMeanSq (X : Matrix (Fin m) (Fin n) ℝ) (y : Fin m → ℝ) (w : Fin n → ℝ) : ℝ :=
  1 / (2 * (m : ℝ)) * ∑ i, (∑ j, X i j * w j - y i) ^ 2

/-- Mean negative log-likelihood of the logistic model. -/
noncomputable def logisticLoss (X : Matrix (Fin m) (Fin n) ℝ) (y : Fin m → Bool) (w : Fin n → ℝ) : ℝ :=
  -(1 / (m : ℝ)) * ∑ i, Real.log (if y i then expit (∑ j, X i j * w j) else 1 - expit (∑ j, X i j * w j))

/-- `ProximalGradient(fun=F, prox=prox, …)` with the options `o`; `jax.grad(F)` is `F.gradAt` (C67 for the gradients of the subfunctions). -/
noncomputable def solver (o : PG ℝ (Fin n → ℝ)) (F : Composite ℝ ℝ m n) (prox : (Fin n → ℝ) → ℝ → (Fin n → ℝ)) : PG ℝ (Fin n → ℝ) :=
  { o with f := F.call fun a b => a * b, grad := F.gradAt, prox := prox, vdot := dot, sqrt := Real.sqrt }

/-- `r` was obtained after all iterations or because the error passed the test, lies in `C`, and its objective exceeds that of any
point of `C` by at most the bound. -/
def Solved (o : PG ℝ (Fin n → ℝ)) (s : ℝ) (C : Set (Fin n → ℝ)) (obj : (Fin n → ℝ) → ℝ) (x0 : Fin n → ℝ)
    (r : (Fin n → ℝ) × PGState ℝ (Fin n → ℝ)) : Prop :=
  (r.2.iterNum = o.maxiter ∨ Ext.gt r.2.error (.fin o.tol) = false) ∧ r.1 ∈ C ∧
    ∀ u ∈ C, obj r.1 ≤ obj u + gapBound o.acceleration s (∑ j, (x0 j - u j) ^ 2) r.2.iterNum

theorem isProx_of_isUniqueMin {C : Set (Fin n → ℝ)} {h : (Fin n → ℝ) → ℝ} {prox : (Fin n → ℝ) → ℝ → (Fin n → ℝ)}
    (hp : ∀ x s, 0 < s → IsUniqueMin C (fun y => 1 / 2 * ∑ i, (x i - y i) ^ 2 + s * h y) (prox x s)) : IsProx dot C h prox := by
  intro z s hs
  obtain ⟨h1, h2⟩ := hp z s hs
  refine ⟨h1, fun u hu => ?_⟩
  have e : ∀ y : Fin n → ℝ, dot (y - z) (y - z) = ∑ i, (z i - y i) ^ 2 := fun y =>
    Finset.sum_congr rfl fun i _ => by simp only [Pi.sub_apply]; ring
  rw [e, e]
  rcases eq_or_ne u (prox z s) with rfl | hne
  · exact le_rfl
  · have := h2 u hu hne
    simp only at this
    linarith

theorem isProx_of_isUniqueProj {C : Set (Fin n → ℝ)} {projection : (Fin n → ℝ) → (Fin n → ℝ)} (hp : ∀ x, IsUniqueProj C x (projection x)) :
    IsProx dot C (fun _ => 0) fun x s => makeProxFromProjection (fun x (_ : Unit) => projection x) x () s := by
  refine isProx_of_isProj (projection := fun x _ => projection x) fun z => ⟨(hp z).1, fun u hu => ?_⟩
  have := (hp z).isProj.2 u hu
  have e : ∀ y : Fin n → ℝ, dot (y - z) (y - z) = sqDist z y := fun y =>
    Finset.sum_congr rfl fun i _ => by simp only [Pi.sub_apply]; ring
  rw [e, e]; exact this

theorem leastSquares_value (hm : 1 ≤ m) (X : Matrix (Fin m) (Fin n) ℝ) (y : Fin m → ℝ) (w : Fin n → ℝ) :
    (leastSquares (fun a b => a * b) 1 X y).call (fun a b => a * b) w = halfMeanSq X y w := by
  have h := (C67_ridge hm X y 0 w w).1
  simp only [ridgeRegression, mul_zero, zero_mul, add_zero, zero_div] at h
  exact h

theorem convexOn_l1 {l : Fin n → ℝ} (hl : ∀ j, 0 ≤ l j) : ConvexOn ℝ Set.univ fun w : Fin n → ℝ => ∑ j, l j * |w j| := by
  refine ⟨convex_univ, fun x _ y _ a b ha hb _ => ?_⟩
  simp only [smul_eq_mul, Finset.mul_sum, ← Finset.sum_add_distrib, Pi.add_apply, Pi.smul_apply]
  refine Finset.sum_le_sum fun j _ => ?_
  have h1 := abs_add_le (a * x j) (b * y j)
  rw [abs_mul, abs_mul, abs_of_nonneg ha, abs_of_nonneg hb] at h1
  have := mul_le_mul_of_nonneg_left h1 (hl j)
  linarith

theorem convexOn_sq : ConvexOn ℝ Set.univ fun w : Fin n → ℝ => ∑ j, w j ^ 2 := by
  refine ⟨convex_univ, fun x _ y _ a b ha hb hab => ?_⟩
  simp only [smul_eq_mul, Finset.mul_sum, ← Finset.sum_add_distrib, Pi.add_apply, Pi.smul_apply]
  refine Finset.sum_le_sum fun j _ => ?_
  have : b = 1 - a := by linarith
  subst this
  nlinarith [mul_nonneg (mul_nonneg ha hb) (sq_nonneg (x j - y j))]

/-- Penalties that are a sum of an `l1` and a squared term. -/
theorem convexOn_l1_sq {l g : Fin n → ℝ} (hl : ∀ j, 0 ≤ l j) (hg : ∀ j, 0 ≤ g j) :
    ConvexOn ℝ Set.univ fun w : Fin n → ℝ => ∑ j, l j * (|w j| + g j * (1 / 2) * w j ^ 2) := by
  refine ⟨convex_univ, fun x _ y _ a b ha hb hab => ?_⟩
  simp only [smul_eq_mul, Finset.mul_sum, ← Finset.sum_add_distrib, Pi.add_apply, Pi.smul_apply]
  refine Finset.sum_le_sum fun j _ => ?_
  have h1 := abs_add_le (a * x j) (b * y j)
  rw [abs_mul, abs_mul, abs_of_nonneg ha, abs_of_nonneg hb] at h1
  have h2 : (a * x j + b * y j) ^ 2 ≤ a * x j ^ 2 + b * y j ^ 2 := by
    have : b = 1 - a := by linarith
    subst this
    nlinarith [mul_nonneg (mul_nonneg ha hb) (sq_nonneg (x j - y j))]
  have h3 := mul_le_mul_of_nonneg_left h2 (hg j)
  have h4 : |a * x j + b * y j| + g j * (1 / 2) * (a * x j + b * y j) ^ 2 ≤
      a * (|x j| + g j * (1 / 2) * x j ^ 2) + b * (|y j| + g j * (1 / 2) * y j ^ 2) := by linarith
  have := mul_le_mul_of_nonneg_left h4 (hl j)
  linarith

theorem convex_box {lower upper : Fin n → ℝ} : Convex ℝ {w : Fin n → ℝ | ∀ j, lower j ≤ w j ∧ w j ≤ upper j} := by
  intro x hx y hy a b ha hb hab j
  have h1 := hx j
  have h2 := hy j
  have : b = 1 - a := by linarith
  subst this
  simp only [Pi.add_apply, Pi.smul_apply, smul_eq_mul]
  constructor <;> nlinarith

theorem convex_nonneg : Convex ℝ {w : Fin n → ℝ | ∀ j, 0 ≤ w j} := by
  intro x hx y hy a b ha hb _ j
  simp only [Pi.add_apply, Pi.smul_apply, smul_eq_mul]
  exact add_nonneg (mul_nonneg ha (hx j)) (mul_nonneg hb (hy j))

theorem convex_simplex {value : ℝ} : Convex ℝ {w : Fin n → ℝ | (∀ j, 0 ≤ w j) ∧ ∑ j, w j = value} := by
  intro x hx y hy a b ha hb hab
  refine ⟨convex_nonneg hx.1 hy.1 ha hb hab, ?_⟩
  simp only [Pi.add_apply, Pi.smul_apply, smul_eq_mul, Finset.sum_add_distrib, ← Finset.mul_sum, hx.2, hy.2]
  rw [← add_mul, hab, one_mul]

theorem convex_l1_ball {value : ℝ} : Convex ℝ {w : Fin n → ℝ | ∑ j, |w j| ≤ value} := by
  have := (convexOn_l1 (n := n) (l := fun _ => 1) fun _ => zero_le_one).convex_le value
  simpa only [one_mul, Set.mem_univ, true_and] using this

section least_squares

variable (o : PG ℝ (Fin n → ℝ)) (X : Matrix (Fin m) (Fin n) ℝ) (hm : 1 ≤ m) {s : ℝ} (hstep : o.stepsize = .const s) (hs : 0 < s)
  (hmax : 1 ≤ o.maxiter) {x0 : Fin n → ℝ} {r : (Fin n → ℝ) × PGState ℝ (Fin n → ℝ)}

include hm hstep hs hmax

theorem solved_of_prox (y : Fin m → ℝ) (hsX : s * sqEntries X ≤ m) {C : Set (Fin n → ℝ)} {h : (Fin n → ℝ) → ℝ}
    {prox : (Fin n → ℝ) → ℝ → (Fin n → ℝ)} (hp : IsProx dot C h prox) (hh : ConvexOn ℝ C h)
    (hr : (solver o (leastSquares (fun a b => a * b) 1 X y) prox).run x0 = .ok r) :
    Solved o s C (fun w => halfMeanSq X y w + h w) x0 r := by
  have hm' : (0 : ℝ) < m := by exact_mod_cast hm
  obtain ⟨q1, q2⟩ := smooth_of_sandwich (by positivity) (leastSquares_sandwich X y)
  obtain ⟨a1, a2, a3⟩ := run_gap (solver o (leastSquares (fun a b => a * b) 1 X y) prox) rfl rfl hp hh q1 q2 hstep hs
    (by
      change s * (1 / ((m * 1 : ℕ) : ℝ) * sqEntries X) ≤ 1
      rw [mul_one, show s * (1 / (m : ℝ) * sqEntries X) = s * sqEntries X / m by ring, div_le_one hm']; exact hsX) hmax hr
  refine ⟨a1, a2, fun u hu => ?_⟩
  have := a3 u hu
  simp only [solver, leastSquares_value hm] at this
  linarith

theorem solved_logreg_of_prox (y : Fin m → Bool) (hsX : s * sqEntries X ≤ 4 * m) {C : Set (Fin n → ℝ)} {h : (Fin n → ℝ) → ℝ}
    {prox : (Fin n → ℝ) → ℝ → (Fin n → ℝ)} (hp : IsProx dot C h prox) (hh : ConvexOn ℝ C h)
    (hr : (solver o (binaryLogreg X y) prox).run x0 = .ok r) : Solved o s C (fun w => logisticLoss X y w + h w) x0 r := by
  have hm' : (0 : ℝ) < m := by exact_mod_cast hm
  obtain ⟨q1, q2⟩ := smooth_of_sandwich (by positivity) (binaryLogreg_sandwich X y)
  obtain ⟨a1, a2, a3⟩ := run_gap (solver o (binaryLogreg X y) prox) rfl rfl hp hh q1 q2 hstep hs
    (by
      change s * (1 / 4 * (1 / (m : ℝ)) * sqEntries X) ≤ 1
      rw [show s * (1 / 4 * (1 / (m : ℝ)) * sqEntries X) = s * sqEntries X / (4 * m) by field_simp, div_le_one (by positivity)]; exact hsX) hmax hr
  refine ⟨a1, a2, fun u hu => ?_⟩
  have := a3 u hu
  simp only [solver, C67_binary_value hm] at this
  change logisticLoss X y r.1 + h r.1 - (logisticLoss X y u + h u) ≤ _ at this
  linarith

/-- **C111**, the lasso: `ProximalGradient(least_squares, prox_lasso)`. -/
theorem C111_lasso (y : Fin m → ℝ) (hsX : s * sqEntries X ≤ m) {l1reg : Fin n → ℝ} (hl : ∀ j, 0 ≤ l1reg j)
    (hr : (solver o (leastSquares (fun a b => a * b) 1 X y) fun x s => proxLasso x l1reg s).run x0 = .ok r) :
    Solved o s Set.univ (fun w => halfMeanSq X y w + ∑ j, l1reg j * |w j|) x0 r :=
  solved_of_prox o X hm hstep hs hmax y hsX
    (isProx_of_isUniqueMin fun x t ht => C14_lasso x l1reg t fun j => mul_nonneg ht.le (hl j))
    (convexOn_l1 hl) hr

/-- **C111**, sparse logistic regression: `ProximalGradient(binary_logreg, prox_lasso)`. -/
theorem C111_sparse_logreg (y : Fin m → Bool) (hsX : s * sqEntries X ≤ 4 * m) {l1reg : Fin n → ℝ} (hl : ∀ j, 0 ≤ l1reg j)
    (hr : (solver o (binaryLogreg X y) fun x s => proxLasso x l1reg s).run x0 = .ok r) :
    Solved o s Set.univ (fun w => logisticLoss X y w + ∑ j, l1reg j * |w j|) x0 r :=
  solved_logreg_of_prox o X hm hstep hs hmax y hsX
    (isProx_of_isUniqueMin fun x t ht => C14_lasso x l1reg t fun j => mul_nonneg ht.le (hl j))
    (convexOn_l1 hl) hr

/-- **C111**, the elastic net: `ProximalGradient(least_squares, prox_elastic_net)`. -/
theorem C111_elastic_net (y : Fin m → ℝ) (hsX : s * sqEntries X ≤ m) {lam gam : Fin n → ℝ} (hl : ∀ j, 0 ≤ lam j) (hg : ∀ j, 0 ≤ gam j)
    (hr : (solver o (leastSquares (fun a b => a * b) 1 X y) fun x s => proxElasticNet x lam gam s).run x0 = .ok r) :
    Solved o s Set.univ (fun w => halfMeanSq X y w + ∑ j, lam j * (|w j| + gam j * (1 / 2) * w j ^ 2)) x0 r :=
  solved_of_prox o X hm hstep hs hmax y hsX
    (isProx_of_isUniqueMin fun x t ht => C14_elastic_net x lam gam t (fun j => mul_nonneg ht.le (hl j)) hg) (convexOn_l1_sq hl hg) hr

/-- **C111**, the non-negative lasso: `ProximalGradient(least_squares, prox_non_negative_lasso)`. -/
theorem C111_non_negative_lasso (y : Fin m → ℝ) (hsX : s * sqEntries X ≤ m) {l1reg : ℝ} (hl : 0 ≤ l1reg)
    (hr : (solver o (leastSquares (fun a b => a * b) 1 X y) fun x s => proxNonNegativeLasso x l1reg s).run x0 = .ok r) :
    Solved o s {w | ∀ j, 0 ≤ w j} (fun w => halfMeanSq X y w + ∑ j, l1reg * |w j|) x0 r := by
  refine solved_of_prox o X hm hstep hs hmax y hsX (isProx_of_isUniqueMin fun x t ht => ?_)
    ((convexOn_l1 fun _ => hl).subset (Set.subset_univ _) (convex_nonneg)) hr
  have := C14_non_negative_lasso x l1reg t
  simpa only [← Finset.mul_sum, mul_assoc] using this

/-- **C111**, ridge regression: `ProximalGradient(least_squares, prox_ridge)` minimises `ridge_regression`. -/
theorem C111_ridge (y : Fin m → ℝ) (hsX : s * sqEntries X ≤ m) {l2reg : ℝ} (hl : 0 ≤ l2reg)
    (hr : (solver o (leastSquares (fun a b => a * b) 1 X y) fun x s => proxRidge x l2reg s).run x0 = .ok r) :
    Solved o s Set.univ (fun w => ridgeRegression w l2reg X y) x0 r := by
  have h1 : ConvexOn ℝ Set.univ fun w : Fin n → ℝ => l2reg / 2 * ∑ j, w j ^ 2 := convexOn_sq.smul (by positivity)
  have h2 := solved_of_prox o X hm hstep hs hmax y hsX (isProx_of_isUniqueMin fun x t ht => ?_) h1 hr
  · have e : ∀ w : Fin n → ℝ, ridgeRegression w l2reg X y = halfMeanSq X y w + l2reg / 2 * ∑ j, w j ^ 2 := fun w => (C67_ridge hm X y l2reg w w).1
    simpa only [e] using h2
  · have := C16_ridge_partial x l2reg t (mul_nonneg ht.le hl)
    have e : ∀ w : Fin n → ℝ, 1 / 2 * (t * l2reg) * ∑ i, w i ^ 2 = t * (l2reg / 2 * ∑ i, w i ^ 2) := fun w => by ring
    simpa only [e] using this

/-- `ProjectedGradient(fun=F, projection=projection, …)` with the options `o`. -/
noncomputable def projectedSolver (o : PG ℝ (Fin n → ℝ)) (F : Composite ℝ ℝ m n) (projection : (Fin n → ℝ) → (Fin n → ℝ)) : PG ℝ (Fin n → ℝ) :=
  (solver o F o.prox).projected fun x _ => projection x

theorem solved_of_proj (y : Fin m → ℝ) (hsX : s * sqEntries X ≤ m) {C : Set (Fin n → ℝ)} (hC : Convex ℝ C)
    {projection : (Fin n → ℝ) → (Fin n → ℝ)} (hp : ∀ x, IsUniqueProj C x (projection x))
    (hr : (projectedSolver o (leastSquares (fun a b => a * b) 1 X y) projection).run x0 = .ok r) :
    Solved o s C (halfMeanSq X y) x0 r := by
  have := solved_of_prox o X hm hstep hs hmax y hsX (isProx_of_isUniqueProj hp) (convexOn_const 0 hC) hr
  simpa only [add_zero] using this

/-- **C111**, non-negative least squares: `ProjectedGradient(least_squares, projection_non_negative)`. -/
theorem C111_nnls (y : Fin m → ℝ) (hsX : s * sqEntries X ≤ m)
    (hr : (projectedSolver o (leastSquares (fun a b => a * b) 1 X y) projectionNonNegative).run x0 = .ok r) :
    Solved o s {w | ∀ j, 0 ≤ w j} (halfMeanSq X y) x0 r :=
  solved_of_proj o X hm hstep hs hmax y hsX convex_nonneg C07_non_negative hr

/-- **C111**, least squares in a box: `ProjectedGradient(least_squares, projection_box)`. -/
theorem C111_box (y : Fin m → ℝ) (hsX : s * sqEntries X ≤ m) {lower upper : Fin n → ℝ} (hb : ∀ j, lower j ≤ upper j)
    (hr : (projectedSolver o (leastSquares (fun a b => a * b) 1 X y) fun x => projectionBox x lower upper).run x0 = .ok r) :
    Solved o s {w | ∀ j, lower j ≤ w j ∧ w j ≤ upper j} (halfMeanSq X y) x0 r :=
  solved_of_proj o X hm hstep hs hmax y hsX convex_box (fun x => C07_box x lower upper hb) hr

/-- **C111**, least squares on the simplex: `ProjectedGradient(least_squares, projection_simplex)`. -/
theorem C111_simplex (y : Fin m → ℝ) (hsX : s * sqEntries X ≤ m) (hn : 0 < n) {value : ℝ} (hv : 0 < value)
    (hr : (projectedSolver o (leastSquares (fun a b => a * b) 1 X y) fun x => projectionSimplex x value).run x0 = .ok r) :
    Solved o s {w | (∀ j, 0 ≤ w j) ∧ ∑ j, w j = value} (halfMeanSq X y) x0 r :=
  solved_of_proj o X hm hstep hs hmax y hsX convex_simplex (fun x => C08_simplex hn x value hv) hr

/-- **C111**, the lasso in constrained form: `ProjectedGradient(least_squares, projection_l1_ball)`. -/
theorem C111_l1_ball (y : Fin m → ℝ) (hsX : s * sqEntries X ≤ m) (hn : 0 < n) {value : ℝ} (hv : 0 < value)
    (hr : (projectedSolver o (leastSquares (fun a b => a * b) 1 X y) fun x => projectionL1Ball x value).run x0 = .ok r) :
    Solved o s {w | ∑ j, |w j| ≤ value} (halfMeanSq X y) x0 r :=
  solved_of_proj o X hm hstep hs hmax y hsX convex_l1_ball (fun x => C09_l1_ball hn x value hv) hr

end least_squares

/-! ## Examples -/

/-- Options: constant step `s`, 99 iterations, with or without acceleration. -/
noncomputable def options (s : ℝ) (acceleration : Bool) : PG ℝ (Fin 2 → ℝ) :=
  ⟨fun _ => 0, fun x => x, fun x _ => x, dot, fun x => Real.sqrt (dot x x), Real.sqrt, 0, .const s, 99, 15, 1 / 1000, acceleration, 1 / 2, true, true⟩

/-- Two samples, two features, weights on the simplex: the run ends, and unless it stopped early its value is within `0.0015` of the
best value on the simplex. -/
example : ∃ r, (projectedSolver (options (1 / 15) true) (leastSquares (fun a b => a * b) 1 !![1, 2; 3, (4 : ℝ)] ![1, 0])
      fun x => projectionSimplex x 1).run ![1 / 2, 1 / 2] = .ok r ∧
    (Ext.gt r.2.error (.fin (1 / 1000)) = false ∨ ∀ u : Fin 2 → ℝ, (∀ j, 0 ≤ u j) → ∑ j, u j = 1 →
      halfMeanSq !![1, 2; 3, (4 : ℝ)] ![1, 0] r.1 ≤ halfMeanSq !![1, 2; 3, (4 : ℝ)] ![1, 0] u + 3 / 2000) := by
  obtain ⟨r, hr⟩ := runS_ok (projectedSolver (options (1 / 15) true) (leastSquares (fun a b => a * b) 1 !![1, 2; 3, (4 : ℝ)] ![1, 0])
      fun x => projectionSimplex x 1).initState (projectedSolver (options (1 / 15) true) (leastSquares (fun a b => a * b) 1 !![1, 2; 3, (4 : ℝ)] ![1, 0])
      fun x => projectionSimplex x 1).update (projectedSolver (options (1 / 15) true) (leastSquares (fun a b => a * b) 1 !![1, 2; 3, (4 : ℝ)] ![1, 0])
      fun x => projectionSimplex x 1).cont (maxiter := 99) (unroll := true) (jit := true) ![1 / 2, 1 / 2] (by norm_num) (.inl rfl)
  refine ⟨r, hr, ?_⟩
  obtain ⟨h1, -, h3⟩ := C111_simplex (options (1 / 15) true) !![1, 2; 3, (4 : ℝ)] (by norm_num) rfl (by norm_num) (by simp [options]) ![1, 0]
    (by simp [sqEntries, Fin.sum_univ_two]; norm_num) (by norm_num) zero_lt_one hr
  rcases h1 with h1 | h1
  · refine .inr fun u hu0 hu1 => ?_
    have h := h3 u ⟨hu0, hu1⟩
    have e : r.2.iterNum = 99 := h1
    rw [e] at h
    have h0 := hu0 0
    have h0' := hu0 1
    simp only [Fin.sum_univ_two] at hu1
    have hd : ∑ j, ((![1 / 2, 1 / 2] : Fin 2 → ℝ) j - u j) ^ 2 ≤ 1 / 2 := by
      simp only [Fin.sum_univ_two, Matrix.cons_val_zero, Matrix.cons_val_one]
      nlinarith
    have hg : gapBound true (1 / 15) (∑ j, ((![1 / 2, 1 / 2] : Fin 2 → ℝ) j - u j) ^ 2) 99 ≤ 3 / 2000 := by
      simp only [gapBound, if_true]
      push_cast
      norm_num
      norm_num at hd
      linarith
    exact h.trans (add_le_add_right hg _)
  · exact .inl h1

/-- One sample of each sign: without a penalty the logistic loss has no minimiser, with `l1reg = 1/4` the bound applies for every start. -/
example (x0 : Fin 2 → ℝ) {r : (Fin 2 → ℝ) × PGState ℝ (Fin 2 → ℝ)}
    (hr : (solver (options 1 false) (binaryLogreg !![1, 0; -1, (1 : ℝ)] ![true, false]) fun x s => proxLasso x (fun _ => 1 / 4) s).run x0 = .ok r) :
    Solved (options 1 false) 1 Set.univ (fun w => logisticLoss !![1, 0; -1, (1 : ℝ)] ![true, false] w + ∑ j, 1 / 4 * |w j|) x0 r :=
  C111_sparse_logreg _ _ (by norm_num) rfl one_pos (by simp [options]) _ (by simp [sqEntries, Fin.sum_univ_two]; norm_num) (fun _ => by norm_num) hr

end Jaxopt.ProxGrad
