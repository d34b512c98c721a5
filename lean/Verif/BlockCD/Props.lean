import Verif.BlockCD.Model
import Verif.ProxGrad.Lemmas
import Verif.Proj.Model
import Verif.Base.Util
import Mathlib.Algebra.Order.Ring.Rat
import Mathlib.Algebra.BigOperators.Module
import Mathlib.LinearAlgebra.Matrix.Notation
import Mathlib.Tactic.FieldSimp
import Mathlib.Tactic.FinCases

/-!
# Property C35: block coordinate descent
-/

set_option autoImplicit false
set_option linter.unusedSectionVars false
set_option linter.unusedVariables false

namespace Jaxopt.BlockCD

open Jaxopt.Base Jaxopt.QP Jaxopt.ProxGrad

variable {K W : Type*} [Field K] [LinearOrder K] [IsStrictOrderedRing K] [AddCommGroup W] [Module K W] {m n : ℕ}

theorem vdot_sum_left {vdot : W → W → K} (hv : IsVdot vdot) {ι : Type*} (s : Finset ι) (f : ι → W) (w : W) :
    vdot (∑ i ∈ s, f i) w = ∑ i ∈ s, vdot (f i) w := by
  classical
  induction s using Finset.induction_on with
  | empty => simp [hv.zero_left]
  | insert a s ha ih => rw [Finset.sum_insert ha, Finset.sum_insert ha, hv.add_left, ih]

theorem vdot_sum_right {vdot : W → W → K} (hv : IsVdot vdot) {ι : Type*} (s : Finset ι) (f : ι → W) (w : W) :
    vdot w (∑ i ∈ s, f i) = ∑ i ∈ s, vdot w (f i) := by
  rw [hv.symm, vdot_sum_left hv]; exact Finset.sum_congr rfl fun i _ => hv.symm _ _

theorem matvec_update (A : Matrix (Fin m) (Fin n) K) (x : Fin n → W) (j : Fin n) (w : W) :
    matvec A (Function.update x j w) = updateMatvec A (matvec A x) (w - x j) j := by
  funext i
  simp only [matvec, updateMatvec]
  have e : Function.update x j w = fun k => x k + (if k = j then w - x j else 0) := by
    funext k
    by_cases h : k = j
    · subst h; simp
    · simp [h]
  rw [e]
  simp only [smul_add, Finset.sum_add_distrib]
  congr 1
  simp

/-! ## Caches -/

/-- The caches are exact. -/
def Exact (S : BCD K W m n) (x : Fin n → W) (predictions subfunG : Fin m → W) : Prop :=
  predictions = matvec S.fn.A x ∧ subfunG = S.fn.gradSubfun (matvec S.fn.A x)

/-- The loop tuple after the coordinates of `is`. -/
def BCD.over (S : BCD K W m n) (is : List (Fin n)) (t : LoopTup K W m n) : LoopTup K W m n := is.foldl (fun s i => S.body i s) t

theorem body_exact (S : BCD K W m n) (i : Fin n) (t : LoopTup K W m n) (h : Exact S t.x t.predictions t.subfunG) :
    Exact S (S.body i t).x (S.body i t).predictions (S.body i t).subfunG := by
  obtain ⟨h1, h2⟩ := h
  simp only [BCD.body, Exact]
  rw [matvec_update, ← h1]
  exact ⟨rfl, rfl⟩

theorem over_exact (S : BCD K W m n) (is : List (Fin n)) (t : LoopTup K W m n) (h : Exact S t.x t.predictions t.subfunG) :
    Exact S (S.over is t).x (S.over is t).predictions (S.over is t).subfunG := by
  induction is generalizing t with
  | nil => exact h
  | cons i is ih => exact ih _ (body_exact S i t h)

namespace BCD

/-- The epochs of a run. -/
def iterate (S : BCD K W m n) (x0 : Fin n → W) (k : ℕ) : (Fin n → W) × BCDState K W m := S.update^[k] (x0, S.initState x0)

/-- The loop tuple of epoch `k + 1` before its coordinate number `i`. -/
def inner (S : BCD K W m n) (x0 : Fin n → W) (k i : ℕ) : LoopTup K W m n :=
  S.over ((List.finRange n).take i) ⟨(S.iterate x0 k).1, (S.iterate x0 k).2.subfunG, (S.iterate x0 k).2.predictions, 0⟩

theorem iterate_succ (S : BCD K W m n) (x0 : Fin n → W) (k : ℕ) : S.iterate x0 (k + 1) = S.update (S.iterate x0 k) := by
  simp only [iterate, Function.iterate_succ_apply']

/-- **C35**, caches: after every epoch, and inside every epoch before every coordinate, `predictions = linop(params)` and
`subfun_g` is the gradient of `subfun` there. -/
theorem C35_caches (S : BCD K W m n) (x0 : Fin n → W) (k : ℕ) :
    Exact S (S.iterate x0 k).1 (S.iterate x0 k).2.predictions (S.iterate x0 k).2.subfunG ∧
      ∀ i, Exact S (S.inner x0 k i).x (S.inner x0 k i).predictions (S.inner x0 k i).subfunG := by
  have h : ∀ k, Exact S (S.iterate x0 k).1 (S.iterate x0 k).2.predictions (S.iterate x0 k).2.subfunG := by
    intro k
    induction k with
    | zero => exact ⟨rfl, rfl⟩
    | succ k ih =>
      rw [iterate_succ]
      exact over_exact S (List.finRange n) ⟨_, _, _, 0⟩ ih
  exact ⟨h k, fun i => over_exact S _ ⟨_, _, _, 0⟩ (h k)⟩

end BCD

/-! ## Coordinate-wise smoothness -/

/-- The `j`-th block of the gradient of `fun` at `x`. -/
def Composite.gradAt (F : Composite K W m n) (x : Fin n → W) (j : Fin n) : W :=
  rmatvecElement F.A (F.gradSubfun (matvec F.A x)) j + (F.b.getD 0) j

/-- `fun` grows at most quadratically with constants `L` along single blocks. -/
def CoordUpper (vdot : W → W → K) (F : Composite K W m n) (L : Fin n → K) : Prop :=
  ∀ (x : Fin n → W) (j : Fin n) (w : W), F.call vdot (Function.update x j w) ≤
    F.call vdot x + vdot (w - x j) (F.gradAt x j) + L j / 2 * vdot (w - x j) (w - x j)

/-- `subfun` is a quadratic with Hessian `a·I` and gradient `gradSubfun`. -/
def IsQuadratic (vdot : W → W → K) (F : Composite K W m n) (a : K) : Prop :=
  ∀ p d : Fin m → W, F.subfun (p + d) = F.subfun p + ∑ i, vdot (d i) (F.gradSubfun p i) + a / 2 * ∑ i, vdot (d i) (d i)

theorem linear_update {vdot : W → W → K} (hv : IsVdot vdot) (b x : Fin n → W) (j : Fin n) (w : W) :
    ∑ k, vdot (Function.update x j w k) (b k) = ∑ k, vdot (x k) (b k) + vdot (w - x j) (b j) := by
  have e : ∀ k, vdot (Function.update x j w k) (b k) = vdot (x k) (b k) + if k = j then vdot (w - x j) (b j) else 0 := by
    intro k
    by_cases h : k = j
    · subst h; simp [hv.sub_left]
    · simp [h]
  simp only [e, Finset.sum_add_distrib, Finset.sum_ite_eq', Finset.mem_univ, if_true]

theorem call_eq (F : Composite K W m n) {vdot : W → W → K} (hv : IsVdot vdot) (x : Fin n → W) :
    F.call vdot x = F.subfun (matvec F.A x) + ∑ j, vdot (x j) ((F.b.getD 0) j) := by
  unfold Composite.call
  rcases F.b with _ | b
  · simp [hv.zero_right]
  · rfl

/-- A composite of a quadratic: the exact change of `fun` along a block. -/
theorem quadratic_coord {vdot : W → W → K} (hv : IsVdot vdot) {F : Composite K W m n} {a : K} (hq : IsQuadratic vdot F a)
    (x : Fin n → W) (j : Fin n) (w : W) :
    F.call vdot (Function.update x j w) = F.call vdot x + vdot (w - x j) (F.gradAt x j) +
      (a * columnSqNorms F.A j) / 2 * vdot (w - x j) (w - x j) := by
  rw [call_eq F hv, call_eq F hv, matvec_update, linear_update hv]
  have e : updateMatvec F.A (matvec F.A x) (w - x j) j = matvec F.A x + fun i => F.A i j • (w - x j) := rfl
  rw [e, hq]
  have h1 : ∑ i, vdot (F.A i j • (w - x j)) (F.gradSubfun (matvec F.A x) i) =
      vdot (w - x j) (rmatvecElement F.A (F.gradSubfun (matvec F.A x)) j) := by
    rw [rmatvecElement, vdot_sum_right hv]
    exact Finset.sum_congr rfl fun i _ => by rw [hv.smul_left, hv.smul_right]
  have h2 : ∑ i, vdot (F.A i j • (w - x j)) (F.A i j • (w - x j)) = columnSqNorms F.A j * vdot (w - x j) (w - x j) := by
    rw [columnSqNorms, Finset.sum_mul]
    exact Finset.sum_congr rfl fun i _ => by rw [hv.smul_left, hv.smul_right]; ring
  rw [h1, h2, Composite.gradAt, hv.add_right]
  ring

/-- `subfun` of least squares is a quadratic with the modelled gradient. -/
theorem leastSquares_quadratic {vdot : W → W → K} (hv : IsVdot vdot) (dim : ℕ) (X : Matrix (Fin m) (Fin n) K) (y : Fin m → W) :
    IsQuadratic vdot (leastSquares vdot dim X y) (1 / ((m * dim : ℕ) : K)) := by
  intro p d
  simp only [leastSquares]
  have e : ∀ i, vdot ((p + d) i - y i) ((p + d) i - y i) =
      vdot (p i - y i) (p i - y i) + 2 * vdot (d i) (p i - y i) + vdot (d i) (d i) := by
    intro i
    have : (p + d) i - y i = (p i - y i) + d i := by simp only [Pi.add_apply]; abel
    rw [this, hv.add_left, hv.add_right, hv.add_right, hv.symm (p i - y i) (d i)]; ring
  simp only [e, Finset.sum_add_distrib, hv.smul_right, ← Finset.mul_sum]
  ring

/-- `subfun` of the SVM dual is a quadratic with the modelled gradient. -/
theorem svmDual_quadratic {N d : ℕ} {vdot : W → W → K} (hv : IsVdot vdot) (ones : W) {l2reg : K} (X : Matrix (Fin N) (Fin d) K)
    (Y : Fin N → W) : IsQuadratic vdot (svmDual vdot ones l2reg X Y) (1 / l2reg) := by
  intro p q
  simp only [svmDual]
  set XY := matvec X.transpose Y
  have e : ∀ i, vdot (XY i - (p + q) i) (XY i - (p + q) i) =
      vdot (XY i - p i) (XY i - p i) + 2 * vdot (q i) (p i - XY i) + vdot (q i) (q i) := by
    intro i
    have h1 : XY i - (p + q) i = (XY i - p i) - q i := by simp only [Pi.add_apply]; abel
    have h2 : p i - XY i = -(XY i - p i) := by abel
    rw [h1, h2]
    generalize XY i - p i = r
    rw [hv.sub_left, hv.sub_right, hv.sub_right, hv.neg_right, hv.symm r (q i)]; ring
  simp only [e, Finset.sum_add_distrib, hv.smul_right, ← Finset.mul_sum]
  ring

theorem columnSqNorms_nonneg (A : Matrix (Fin m) (Fin n) K) (j : Fin n) : 0 ≤ columnSqNorms A j :=
  Finset.sum_nonneg fun i _ => mul_self_nonneg _

/-- **C35**, least squares: the declared constants bound the growth of the objective along every block (for at least one sample and
one output). -/
theorem C35_least_squares_constants {vdot : W → W → K} (hv : IsVdot vdot) {dim : ℕ} (hm : 1 ≤ m * dim) (X : Matrix (Fin m) (Fin n) K)
    (y : Fin m → W) : CoordUpper vdot (leastSquares vdot dim X y) (leastSquares vdot dim X y).lipschitz := by
  intro x j w
  rw [quadratic_coord hv (leastSquares_quadratic hv dim X y)]
  have h1 : (1 : K) ≤ ((m * dim : ℕ) : K) := by exact_mod_cast hm
  have h2 : 1 / ((m * dim : ℕ) : K) ≤ 1 := by rw [div_le_one (by linarith)]; exact h1
  have h3 := columnSqNorms_nonneg X j
  have h4 : 1 / ((m * dim : ℕ) : K) * columnSqNorms (leastSquares vdot dim X y).A j ≤ (leastSquares vdot dim X y).lipschitz j := by
    simp only [leastSquares]; nlinarith
  have h5 := hv.nonneg (w - x j)
  nlinarith

/-! ## Descent -/

/-- The objective: `fun(x) + Σ_j h(x_j)`. -/
def objective (S : BCD K W m n) (h : W → K) (x : Fin n → W) : K := S.fn.call S.vdot x + ∑ j, h (x j)

theorem gradElement_eq (S : BCD K W m n) {x : Fin n → W} {predictions subfunG : Fin m → W} (he : Exact S x predictions subfunG)
    (j : Fin n) : S.gradElement subfunG j = S.fn.gradAt x j := by
  unfold BCD.gradElement Composite.gradAt
  rw [he.2]
  rcases S.fn.b with _ | b
  · simp
  · rfl

theorem sum_update (h : W → K) (x : Fin n → W) (j : Fin n) (w : W) :
    ∑ k, h (Function.update x j w k) = ∑ k, h (x k) + (h w - h (x j)) := by
  have e : ∀ k, h (Function.update x j w k) = h (x k) + if k = j then h w - h (x j) else 0 := by
    intro k
    by_cases hk : k = j
    · subst hk; simp
    · simp [hk]
  simp only [e, Finset.sum_add_distrib, Finset.sum_ite_eq', Finset.mem_univ, if_true]

/-- One coordinate step does not increase the objective: block growth at most the declared constant, any prox. -/
theorem body_descent (S : BCD K W m n) (hv : IsVdot S.vdot) {C : Set W} {h : W → K} (hp : IsProx S.vdot C h S.blockProx)
    (hL : ∀ j, 0 < S.fn.lipschitz j) (hc : CoordUpper S.vdot S.fn S.fn.lipschitz) (i : Fin n) (t : LoopTup K W m n)
    (he : Exact S t.x t.predictions t.subfunG) (hx : t.x i ∈ C) : objective S h (S.body i t).x ≤ objective S h t.x := by
  have hs : 0 < S.stepsize i := div_pos one_pos (hL i)
  have hsL : S.stepsize i * S.fn.lipschitz i = 1 := by unfold BCD.stepsize; field_simp [(hL i).ne']
  have h1 := prox_step hv hp hx (S.fn.gradAt t.x i) hs
  simp only [objective, BCD.body, gradElement_eq S he]
  rw [sum_update]
  have e : t.x i - S.stepsize i • S.fn.gradAt t.x i = t.x i + (-S.stepsize i) • S.fn.gradAt t.x i := by
    rw [neg_smul, sub_eq_add_neg]
  rw [e]
  set P := S.blockProx (t.x i + (-S.stepsize i) • S.fn.gradAt t.x i) (S.stepsize i)
  have h2 := hc t.x i P
  set s := S.stepsize i
  set q := S.vdot (P - t.x i) (P - t.x i)
  set a := S.vdot (P - t.x i) (S.fn.gradAt t.x i)
  have h3 : s * (h P + a + S.fn.lipschitz i / 2 * q) ≤ s * h (t.x i) := by
    have : s * (S.fn.lipschitz i / 2 * q) = 1 / 2 * q := by
      rw [← mul_assoc, ← mul_div_assoc, hsL]
    nlinarith
  have h4 := le_of_mul_le_mul_left h3 hs
  linarith

/-- One coordinate step with a convex regulariser tolerates constants that are up to twice too small. -/
theorem body_descent_convex (S : BCD K W m n) (hv : IsVdot S.vdot) {C : Set W} {h : W → K} (hp : IsProx S.vdot C h S.blockProx)
    (hh : ConvexOn K C h) (hL : ∀ j, 0 < S.fn.lipschitz j) (hc : CoordUpper S.vdot S.fn fun j => 2 * S.fn.lipschitz j) (i : Fin n)
    (t : LoopTup K W m n) (he : Exact S t.x t.predictions t.subfunG) (hx : t.x i ∈ C) :
    objective S h (S.body i t).x ≤ objective S h t.x := by
  have hs : 0 < S.stepsize i := div_pos one_pos (hL i)
  have hsL : S.stepsize i * S.fn.lipschitz i = 1 := by unfold BCD.stepsize; field_simp [(hL i).ne']
  have h1 := prox_vi hv hp hh (t.x i + (-S.stepsize i) • S.fn.gradAt t.x i) hs hx
  simp only [objective, BCD.body, gradElement_eq S he]
  rw [sum_update]
  have e : t.x i - S.stepsize i • S.fn.gradAt t.x i = t.x i + (-S.stepsize i) • S.fn.gradAt t.x i := by
    rw [neg_smul, sub_eq_add_neg]
  rw [e]
  set P := S.blockProx (t.x i + (-S.stepsize i) • S.fn.gradAt t.x i) (S.stepsize i)
  have h2 := hc t.x i P
  set s := S.stepsize i
  have e1 : P - (t.x i + (-s) • S.fn.gradAt t.x i) = (P - t.x i) + s • S.fn.gradAt t.x i := by rw [neg_smul]; abel
  have e2 : t.x i - P = -(P - t.x i) := by abel
  rw [e1, e2, hv.neg_right, hv.add_left, hv.smul_left, hv.symm (S.fn.gradAt t.x i)] at h1
  set q := S.vdot (P - t.x i) (P - t.x i)
  set a := S.vdot (P - t.x i) (S.fn.gradAt t.x i)
  have h3 : s * (h P + a + 2 * S.fn.lipschitz i / 2 * q) ≤ s * h (t.x i) := by
    have : s * (2 * S.fn.lipschitz i / 2 * q) = q := by
      have : s * (2 * S.fn.lipschitz i / 2 * q) = s * S.fn.lipschitz i * q := by ring
      rw [this, hsL, one_mul]
    nlinarith
  have h4 := le_of_mul_le_mul_left h3 hs
  linarith

/-- What a coordinate step preserves: exact caches and blocks in the domain. -/
theorem body_dom (S : BCD K W m n) {C : Set W} {h : W → K} (hp : IsProx S.vdot C h S.blockProx) (hL : ∀ j, 0 < S.fn.lipschitz j)
    (i : Fin n) (t : LoopTup K W m n) (hx : ∀ j, t.x j ∈ C) (j : Fin n) : (S.body i t).x j ∈ C := by
  simp only [BCD.body]
  by_cases hj : j = i
  · subst hj
    rw [Function.update_self]
    exact (hp _ _ (div_pos one_pos (hL j))).1
  · rw [Function.update_of_ne hj]; exact hx j

/-- Descent of the epochs, given descent of the coordinate steps. -/
theorem over_descent (S : BCD K W m n) {C : Set W} {h : W → K} (hp : IsProx S.vdot C h S.blockProx) (hL : ∀ j, 0 < S.fn.lipschitz j)
    (hstep : ∀ i t, Exact S t.x t.predictions t.subfunG → (∀ j, t.x j ∈ C) → objective S h (S.body i t).x ≤ objective S h t.x)
    (is : List (Fin n)) (t : LoopTup K W m n) (he : Exact S t.x t.predictions t.subfunG) (hx : ∀ j, t.x j ∈ C) :
    objective S h (S.over is t).x ≤ objective S h t.x ∧ ∀ j, (S.over is t).x j ∈ C := by
  induction is generalizing t with
  | nil => exact ⟨le_rfl, hx⟩
  | cons i is ih =>
    have h1 := ih (S.body i t) (body_exact S i t he) (body_dom S hp hL i t hx)
    exact ⟨h1.1.trans (hstep i t he hx), h1.2⟩

namespace BCD

/-- The conclusion of the descent theorems: along a run from a point of the domain, no coordinate step and no epoch increases the
objective, and the blocks stay in the domain. -/
def Descends (S : BCD K W m n) (C : Set W) (h : W → K) : Prop :=
  ∀ x0 : Fin n → W, (∀ j, x0 j ∈ C) → ∀ k,
    (∀ j, (S.iterate x0 k).1 j ∈ C) ∧
    (∀ i : Fin n, objective S h (S.inner x0 k (i + 1)).x ≤ objective S h (S.inner x0 k i).x) ∧
    objective S h (S.iterate x0 (k + 1)).1 ≤ objective S h (S.iterate x0 k).1

theorem descends_of_step (S : BCD K W m n) {C : Set W} {h : W → K} (hp : IsProx S.vdot C h S.blockProx)
    (hL : ∀ j, 0 < S.fn.lipschitz j)
    (hstep : ∀ i t, Exact S t.x t.predictions t.subfunG → (∀ j, t.x j ∈ C) → objective S h (S.body i t).x ≤ objective S h t.x) :
    S.Descends C h := by
  intro x0 hx0 k
  have dom : ∀ k, ∀ j, (S.iterate x0 k).1 j ∈ C := by
    intro k
    induction k with
    | zero => exact hx0
    | succ k ih =>
      rw [iterate_succ]
      exact (over_descent S hp hL hstep (List.finRange n) ⟨_, _, _, 0⟩ (S.C35_caches x0 k).1 ih).2
  refine ⟨dom k, fun i => ?_, ?_⟩
  · have hin := over_descent S hp hL hstep ((List.finRange n).take i) ⟨(S.iterate x0 k).1, (S.iterate x0 k).2.subfunG,
      (S.iterate x0 k).2.predictions, 0⟩ (S.C35_caches x0 k).1 (dom k)
    have e : S.inner x0 k (i + 1) = S.body i (S.inner x0 k i) := by
      unfold inner BCD.over
      rw [List.take_add_one, List.foldl_append]
      have : (List.finRange n)[(i : ℕ)]?.toList = [i] := by simp
      rw [this]; rfl
    rw [e]
    exact hstep i _ ((S.C35_caches x0 k).2 i) hin.2
  · rw [iterate_succ]
    exact (over_descent S hp hL hstep (List.finRange n) ⟨_, _, _, 0⟩ (S.C35_caches x0 k).1 (dom k)).1

/-- **C35**, descent in general: if the declared constants bound the growth along blocks and `block_prox` is a proximity operator
(of a convex function or not), no coordinate step increases the objective. -/
theorem C35_descent (S : BCD K W m n) (hv : IsVdot S.vdot) {C : Set W} {h : W → K} (hp : IsProx S.vdot C h S.blockProx)
    (hL : ∀ j, 0 < S.fn.lipschitz j) (hc : CoordUpper S.vdot S.fn S.fn.lipschitz) : S.Descends C h :=
  S.descends_of_step hp hL fun i t he hx => body_descent S hv hp hL hc i t he (hx i)

/-- **C35**, least squares: no coordinate step increases the objective, for every data set without zero columns. -/
theorem C35_least_squares (S : BCD K W m n) (hv : IsVdot S.vdot) {C : Set W} {h : W → K} (hp : IsProx S.vdot C h S.blockProx)
    {dim : ℕ} (hm : 1 ≤ m * dim) (X : Matrix (Fin m) (Fin n) K) (y : Fin m → W) (hfn : S.fn = leastSquares S.vdot dim X y)
    (hX : ∀ j, ∃ i, X i j ≠ 0) : S.Descends C h := by
  refine S.C35_descent hv hp (fun j => ?_) ?_
  · obtain ⟨i, hi⟩ := hX j
    rw [hfn]
    simp only [leastSquares, mul_one]
    exact Finset.sum_pos' (fun k _ => mul_self_nonneg _) ⟨i, Finset.mem_univ i, mul_self_pos.mpr hi⟩
  · rw [hfn]; exact C35_least_squares_constants hv hm X y

/-- **C35**, SVM dual: no coordinate step increases the objective when `l2reg ≥ 1`, or `l2reg ≥ 1/2` with a convex regulariser (the
simplex constraint of the dual is one).  Missing: smaller `l2reg`, where the declared constants lack the factor `1/l2reg` and the
claim is false, see `C35_svm_false`. -/
theorem C35_svm_partial (S : BCD K W m n) (hv : IsVdot S.vdot) {C : Set W} {h : W → K} (hp : IsProx S.vdot C h S.blockProx)
    {l2reg : K} (ones : W) (X : Matrix (Fin n) (Fin m) K) (Y : Fin n → W) (hfn : S.fn = svmDual S.vdot ones l2reg X Y)
    (hX : ∀ i, ∃ j, X i j ≠ 0) (hreg : 1 ≤ l2reg ∨ (1 / 2 ≤ l2reg ∧ ConvexOn K C h)) : S.Descends C h := by
  have hL : ∀ j, 0 < S.fn.lipschitz j := by
    intro j
    obtain ⟨i, hi⟩ := hX j
    rw [hfn]
    exact Finset.sum_pos' (fun k _ => mul_self_nonneg _) ⟨i, Finset.mem_univ i, mul_self_pos.mpr hi⟩
  have upper : ∀ r : K, 1 / l2reg ≤ r → CoordUpper S.vdot S.fn fun j => r * S.fn.lipschitz j := by
    intro r hr x j w
    have hq : IsQuadratic S.vdot S.fn (1 / l2reg) := by rw [hfn]; exact svmDual_quadratic hv ones X Y
    rw [quadratic_coord hv hq]
    have h2 : columnSqNorms S.fn.A j = S.fn.lipschitz j := by rw [hfn]; rfl
    rw [h2]
    have h3 := mul_le_mul_of_nonneg_right hr (hL j).le
    have h4 := hv.nonneg (w - x j)
    nlinarith
  rcases hreg with h1 | ⟨h1, hh⟩
  · refine S.C35_descent hv hp hL ?_
    have := upper 1 (by rw [div_le_one (by linarith)]; exact h1)
    simpa using this
  · refine S.descends_of_step hp hL fun i t he hx => body_descent_convex S hv hp hh hL ?_ i t he (hx i)
    refine upper 2 ?_
    rw [div_le_iff₀ (by linarith)]; linarith

/-- An epoch whose accumulated squared error is `0` does not move, and every block is a fixed point of its prox-gradient map. -/
theorem over_stuck (S : BCD K W m n) (hv : IsVdot S.vdot) (is : List (Fin n)) (t : LoopTup K W m n)
    (he : Exact S t.x t.predictions t.subfunG) (h : (S.over is t).sqerror = t.sqerror) :
    (S.over is t).x = t.x ∧ ∀ i ∈ is, S.blockProx (t.x i - S.stepsize i • S.fn.gradAt t.x i) (S.stepsize i) = t.x i := by
  have mono : ∀ (is : List (Fin n)) (t : LoopTup K W m n), t.sqerror ≤ (S.over is t).sqerror := by
    intro is
    induction is with
    | nil => intro t; exact le_rfl
    | cons i is ih =>
      intro t
      refine le_trans ?_ (ih (S.body i t))
      simp only [body]
      exact le_add_of_nonneg_right (hv.nonneg _)
  induction is generalizing t with
  | nil => exact ⟨rfl, by simp⟩
  | cons i is ih =>
    have e : S.over (i :: is) t = S.over is (S.body i t) := rfl
    rw [e] at h ⊢
    have h1 := mono is (S.body i t)
    have h2 := mono [i] t
    have h2' : t.sqerror ≤ (S.body i t).sqerror := h2
    have h3 : (S.body i t).sqerror = t.sqerror := le_antisymm (h ▸ h1) h2'
    have h4 : S.blockProx (t.x i - S.stepsize i • S.fn.gradAt t.x i) (S.stepsize i) = t.x i := by
      simp only [body, gradElement_eq S he] at h3
      exact sub_eq_zero.mp (hv.eq_zero (by linarith))
    have h5 : (S.body i t).x = t.x := by
      simp only [body, gradElement_eq S he, h4]; exact Function.update_eq_self i t.x
    obtain ⟨i1, i2⟩ := ih (S.body i t) (body_exact S i t he) (by rw [h, h3])
    rw [h5] at i1 i2
    refine ⟨i1, fun j hj => ?_⟩
    rcases List.mem_cons.mp hj with hj | hj
    · subst hj; exact h4
    · exact i2 j hj

/-- **C35**, stopping: an epoch with error `0` (for convex `fun` and regulariser, and exact square root) means that the point is a
global minimiser of the objective, whatever the constants. -/
theorem C35_stop (S : BCD K W m n) (hv : IsVdot S.vdot) {C : Set W} {h : W → K} (hp : IsProx S.vdot C h S.blockProx)
    (hh : ConvexOn K C h) (hL : ∀ j, 0 < S.fn.lipschitz j) (hsqrt : ∀ a, 0 ≤ a → (S.sqrt a = 0 ↔ a = 0))
    (hconv : ∀ x y : Fin n → W, S.fn.call S.vdot x + ∑ j, S.vdot (y j - x j) (S.fn.gradAt x j) ≤ S.fn.call S.vdot y)
    (x0 : Fin n → W) (k : ℕ) (herr : (S.iterate x0 (k + 1)).2.error = .fin 0) (y : Fin n → W) (hy : ∀ j, y j ∈ C) :
    objective S h (S.iterate x0 (k + 1)).1 ≤ objective S h y := by
  rw [iterate_succ] at herr ⊢
  set p := S.iterate x0 k with hpdef
  have he : Exact S p.1 p.2.predictions p.2.subfunG := (S.C35_caches x0 k).1
  let t0 : LoopTup K W m n := ⟨p.1, p.2.subfunG, p.2.predictions, 0⟩
  have h0 : S.sqrt (S.over (List.finRange n) t0).sqerror = 0 := by
    have : (S.update p).2.error = .fin (S.sqrt (S.over (List.finRange n) t0).sqerror) := rfl
    rw [this] at herr; simpa using herr
  have hnn : ∀ (is : List (Fin n)) (t : LoopTup K W m n), 0 ≤ t.sqerror → 0 ≤ (S.over is t).sqerror := by
    intro is
    induction is with
    | nil => intro t ht; exact ht
    | cons i is ih => intro t ht; exact ih (S.body i t) (add_nonneg ht (hv.nonneg _))
  have h1 := (hsqrt _ (hnn (List.finRange n) t0 le_rfl)).mp h0
  obtain ⟨h2, h3⟩ := S.over_stuck hv (List.finRange n) t0 he h1
  have e : (S.update p).1 = p.1 := h2
  rw [e]
  have h4 : ∀ j, h (p.1 j) ≤ h (y j) + S.vdot (y j - p.1 j) (S.fn.gradAt p.1 j) := by
    intro j
    have := h3 j (List.mem_finRange j)
    rw [sub_eq_add_neg, ← neg_smul] at this
    exact ((fixed_iff hv hp hh (p.1 j) (S.fn.gradAt p.1 j) (div_pos one_pos (hL j))).mp this).2 (y j) (hy j)
  have h5 : ∑ j, h (p.1 j) ≤ ∑ j, h (y j) + ∑ j, S.vdot (y j - p.1 j) (S.fn.gradAt p.1 j) := by
    rw [← Finset.sum_add_distrib]; exact Finset.sum_le_sum fun j _ => h4 j
  have h6 := hconv p.1 y
  unfold objective
  linarith

end BCD

/-! ## Witnesses -/

/-- One sample, one feature, two classes: `X = (1)`, `Y = (1, 0)`, `l2reg = 1/4`, with the simplex projection as `block_prox`. -/
def exSvm (l2reg : ℚ) : BCD ℚ (Fin 2 → ℚ) 1 1 where
  fn := svmDual (fun a b => a ⬝ᵥ b) (fun _ => 1) l2reg (fun _ _ => 1) (fun _ => ![1, 0])
  blockProx := fun x _ => Jaxopt.Proj.projectionSimplex x 1
  vdot := fun a b => a ⬝ᵥ b
  sqrt := fun a => a
  tol := 1 / 10000
  maxiter := 500
  unroll := true
  jit := true

/-- **C35 is false for the SVM dual with a small `l2reg`**: with `l2reg = 1/4` the first epoch from `(1, 0)` (a feasible point) goes
to `(1/2, 1/2)` and raises the objective from `0` to `1/2`; the second goes back, so the method cycles for ever. -/
theorem C35_svm_false :
    ((exSvm (1 / 4)).iterate (fun _ => ![1, 0]) 1).1 = (fun _ => ![1 / 2, 1 / 2]) ∧
    ((exSvm (1 / 4)).iterate (fun _ => ![1, 0]) 2).1 = (fun _ => ![1, 0]) ∧
    objective (exSvm (1 / 4)) (fun _ => 0) (fun _ => ![1, 0]) = 0 ∧
    objective (exSvm (1 / 4)) (fun _ => 0) (fun _ => ![1 / 2, 1 / 2]) = 1 / 2 := by
  decide +kernel

/-- Non-vacuity: lasso-free least squares on a 2×2 problem; the hypotheses hold and an epoch strictly decreases the objective. -/
def exLs : BCD ℚ ℚ 2 2 where
  fn := leastSquares (fun a b => a * b) 1 !![1, 1; 0, 2] ![1, 2]
  blockProx := fun x _ => x
  vdot := fun a b => a * b
  sqrt := fun a => a
  tol := 1 / 10000
  maxiter := 500
  unroll := true
  jit := true

example : IsVdot exLs.vdot ∧ IsProx exLs.vdot Set.univ (fun _ => 0) exLs.blockProx ∧
    objective exLs (fun _ => 0) (exLs.iterate ![0, 0] 1).1 < objective exLs (fun _ => 0) ![0, 0] := by
  refine ⟨IsVdot.mul, fun z s hs => ⟨trivial, fun u _ => ?_⟩, by decide +kernel⟩
  simp only [exLs, sub_self, mul_zero, zero_add]
  nlinarith [mul_self_nonneg (u - z)]

end Jaxopt.BlockCD
