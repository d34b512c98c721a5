import Verif.QP.Fun
import Verif.QP.CvxpyProps
import Verif.OSQP.BoxProps
import Mathlib.Analysis.Calculus.FDeriv.Mul
import Mathlib.Analysis.Calculus.FDeriv.Pi
import Mathlib.Analysis.Calculus.FDeriv.Add
import Mathlib.Analysis.Calculus.FDeriv.Prod
import Mathlib.Analysis.Calculus.Deriv.Basic
import Mathlib.Topology.Algebra.Module.FiniteDimension
import Mathlib.LinearAlgebra.Matrix.ToLin

/-!
# Property C71: a quadratic objective given as a function
-/

set_option autoImplicit false
set_option linter.unusedSectionVars false
set_option linter.unusedVariables false

namespace Jaxopt.QP.Fun

open Jaxopt.QP Jaxopt.Tree Jaxopt.OSQP

variable {n m : ℕ}

/-! ## Specification -/

/-- The linear functional `d ↦ ⟨g, d⟩`. -/
noncomputable def dotL (g : Fin n → ℝ) : (Fin n → ℝ) →L[ℝ] ℝ := ∑ i, g i • ContinuousLinearMap.proj i

theorem dotL_apply (g d : Fin n → ℝ) : dotL g d = ∑ i, g i * d i := by
  simp only [dotL, ContinuousLinearMap.sum_apply, ContinuousLinearMap.smul_apply, ContinuousLinearMap.proj_apply, smul_eq_mul]

/-- Automatic differentiation is right wherever the function has a gradient. -/
def Sound (grad : Grad ℝ n) : Prop := ∀ f x g, HasFDerivAt f (dotL g) x → grad f x = g

/-- `f(x) = ½ xᵀQx + cᵀx + k`, the promise that the documentation asks of `fun`. -/
def IsQuad (f : (Fin n → ℝ) → ℝ) (Q : Matrix (Fin n) (Fin n) ℝ) (c : Fin n → ℝ) (k : ℝ) : Prop :=
  ∀ x, f x = 1 / 2 * (∑ i, ∑ j, x i * Q i j * x j) + ∑ i, c i * x i + k

/-- `x` minimises `f` subject to `Ax = b`. -/
def IsEqMin (f : (Fin n → ℝ) → ℝ) (A : Matrix (Fin m) (Fin n) ℝ) (b : Fin m → ℝ) (x : Fin n → ℝ) : Prop :=
  A.mulVec x = b ∧ ∀ x', A.mulVec x' = b → f x ≤ f x'

/-! ## The gradient of a quadratic -/

theorem hasFDerivAt_quad {f : (Fin n → ℝ) → ℝ} {Q : Matrix (Fin n) (Fin n) ℝ} {c : Fin n → ℝ} {k : ℝ} (hf : IsQuad f Q c k)
    (x : Fin n → ℝ) :
    HasFDerivAt f (dotL fun j => 1 / 2 * ((∑ k, Q j k * x k) + ∑ k, Q k j * x k) + c j) x := by
  have e : f = fun x => 1 / 2 * (∑ i, ∑ j, Q i j * (x i * x j)) + ∑ i, c i * x i + k := by
    funext x
    rw [hf x]
    congr 3
    exact Finset.sum_congr rfl fun i _ => Finset.sum_congr rfl fun j _ => by ring
  rw [e]
  have hp : ∀ i, HasFDerivAt (fun x : Fin n → ℝ => x i) (ContinuousLinearMap.proj (R := ℝ) (φ := fun _ : Fin n => ℝ) i) x :=
    fun i => hasFDerivAt_apply i x
  have h1 := HasFDerivAt.fun_sum (u := Finset.univ) fun i _ => HasFDerivAt.fun_sum (u := Finset.univ) fun j _ =>
    ((hp i).mul (hp j)).const_mul (Q i j)
  have h2 := HasFDerivAt.fun_sum (u := Finset.univ) fun i _ => (hp i).const_mul (c i)
  have h3 := ((h1.const_mul (1 / 2)).add h2).add_const k
  refine h3.congr_fderiv ?_
  ext d
  simp only [dotL_apply, ContinuousLinearMap.add_apply, ContinuousLinearMap.sum_apply, ContinuousLinearMap.smul_apply,
    ContinuousLinearMap.proj_apply, smul_eq_mul, add_mul, Finset.sum_add_distrib, mul_add, Finset.mul_sum, Finset.sum_mul]
  rw [add_comm (∑ i, ∑ j, 1 / 2 * (Q i j * (x i * d j)))]
  congr 1
  congr 1
  · exact Finset.sum_congr rfl fun i _ => Finset.sum_congr rfl fun j _ => by ring
  · rw [Finset.sum_comm]
    exact Finset.sum_congr rfl fun i _ => Finset.sum_congr rfl fun j _ => by ring

/-- The symmetric part of a matrix. -/
noncomputable def symPart (Q : Matrix (Fin n) (Fin n) ℝ) : Matrix (Fin n) (Fin n) ℝ := (1 / 2 : ℝ) • (Q + Q.transpose)

theorem symPart_mulVec (Q : Matrix (Fin n) (Fin n) ℝ) (x : Fin n → ℝ) (j : Fin n) :
    (symPart Q).mulVec x j = 1 / 2 * ((∑ k, Q j k * x k) + ∑ k, Q k j * x k) := by
  simp only [symPart, Matrix.mulVec, dotProduct, Matrix.smul_apply, Matrix.add_apply, Matrix.transpose_apply, smul_eq_mul, mul_add,
    Finset.mul_sum, add_mul, Finset.sum_add_distrib]
  congr 1 <;> exact Finset.sum_congr rfl fun k _ => by ring

/-- **C71**, recovery: for every quadratic `fun`, the extracted `c` and constant are those of the quadratic, and `matvec_Q` is the
product with the symmetric part of `Q` (with `Q` itself when it is symmetric). -/
theorem C71_recover {grad : Grad ℝ n} (hg : Sound grad) {f : (Fin n → ℝ) → ℝ} {Q : Matrix (Fin n) (Fin n) ℝ} {c : Fin n → ℝ} {k : ℝ}
    (hf : IsQuad f Q c k) :
    extractQc grad f = (c, k) ∧ (∀ x, matvecQ grad f c x = (symPart Q).mulVec x) ∧
      (Q.transpose = Q → ∀ x, matvecQ grad f c x = Q.mulVec x) := by
  have h2 : ∀ x, matvecQ grad f c x = (symPart Q).mulVec x := by
    intro x
    have hq : IsQuad (fun xx => f xx - ∑ i, c i * xx i) Q 0 k := by
      intro x
      beta_reduce
      rw [hf x]
      simp only [Pi.zero_apply, zero_mul, Finset.sum_const_zero]
      ring
    rw [matvecQ, hg _ _ _ (hasFDerivAt_quad hq x)]
    funext j
    rw [symPart_mulVec, Pi.zero_apply, add_zero]
  refine ⟨?_, h2, fun hs x => ?_⟩
  · rw [extractQc]
    refine Prod.ext ?_ ?_
    · simp only
      rw [hg _ _ _ (hasFDerivAt_quad hf _)]
      funext j
      simp
    · simp only
      rw [hf]
      simp
  · rw [h2, symPart, hs, ← two_smul ℝ Q, smul_smul]
    norm_num

/-- **C71**, the objective: the quadratic that the solvers work with is `fun`. -/
theorem C71_objective {grad : Grad ℝ n} (hg : Sound grad) {f : (Fin n → ℝ) → ℝ} {Q : Matrix (Fin n) (Fin n) ℝ} {c : Fin n → ℝ} {k : ℝ}
    (hf : IsQuad f Q c k) (x : Fin n → ℝ) :
    1 / 2 * (∑ i, x i * matvecQ grad f (extractQc grad f).1 x i) + ∑ i, (extractQc grad f).1 i * x i + (extractQc grad f).2 = f x := by
  obtain ⟨h1, h2, -⟩ := C71_recover hg hf
  rw [h1, hf x]
  simp only [h2]
  congr 3
  simp only [symPart_mulVec, Finset.mul_sum, mul_add, Finset.sum_add_distrib]
  have e : ∑ i, ∑ j, x i * (1 / 2 * (Q j i * x j)) = ∑ i, ∑ j, 1 / 2 * (x i * Q i j * x j) := by
    rw [Finset.sum_comm]
    exact Finset.sum_congr rfl fun i _ => Finset.sum_congr rfl fun j _ => by ring
  rw [e, ← Finset.sum_add_distrib]
  refine Finset.sum_congr rfl fun i _ => ?_
  rw [← Finset.sum_add_distrib]
  exact Finset.sum_congr rfl fun j _ => by ring

/-- **C71**, without `init_params` the equality-constrained solver raises. -/
theorem C71_init_required (grad : Grad ℝ n) (f : (Fin n → ℝ) → ℝ) (init : Option (Fin n → ℝ)) :
    (∃ e, extractQcEq grad f init = .error e) ↔ init = none := by
  cases init <;> simp [extractQcEq]

/-! ## `EqualityConstrainedQP` -/

theorem dot_symPart (Q : Matrix (Fin n) (Fin n) ℝ) (x : Fin n → ℝ) :
    x ⬝ᵥ (symPart Q).mulVec x = ∑ i, ∑ j, x i * Q i j * x j := by
  have e : ∑ i, ∑ j, 1 / 2 * (x i * (Q j i * x j)) = ∑ i, ∑ j, 1 / 2 * (x i * (Q i j * x j)) := by
    rw [Finset.sum_comm]
    exact Finset.sum_congr rfl fun i _ => Finset.sum_congr rfl fun j _ => by ring
  have e2 : x ⬝ᵥ (symPart Q).mulVec x = ∑ i, ∑ j, 1 / 2 * (x i * (Q i j * x j)) + ∑ i, ∑ j, 1 / 2 * (x i * (Q j i * x j)) := by
    simp only [dotProduct, symPart_mulVec, Finset.mul_sum, mul_add, Finset.sum_add_distrib]
    congr 1 <;> exact Finset.sum_congr rfl fun i _ => Finset.sum_congr rfl fun j _ => by ring
  rw [e2, e, ← Finset.sum_add_distrib]
  refine Finset.sum_congr rfl fun i _ => ?_
  rw [← Finset.sum_add_distrib]
  exact Finset.sum_congr rfl fun j _ => by ring

theorem symPart_transpose (Q : Matrix (Fin n) (Fin n) ℝ) : (symPart Q).transpose = symPart Q := by
  rw [symPart, Matrix.transpose_smul, Matrix.transpose_add, Matrix.transpose_transpose, add_comm]

/-- **C71**, `EqualityConstrainedQP(fun)`: for every convex quadratic `fun` that attains its minimum on `Ax = b`, with an exact linear
solver and no regularisation, the run (whose `Q` and `c` are the extracted ones) returns a minimiser of `fun` on `Ax = b`, and the
optimality function, which differentiates `fun` itself, vanishes there. -/
theorem C71_eq_qp {grad : Grad ℝ n} (hg : Sound grad) {f : (Fin n → ℝ) → ℝ} {Q : Matrix (Fin n) (Fin n) ℝ} {c : Fin n → ℝ} {k : ℝ}
    (hf : IsQuad f Q c k) (hpsd : ∀ x : Fin n → ℝ, 0 ≤ ∑ i, ∑ j, x i * Q i j * x j)
    {A : Matrix (Fin m) (Fin n) ℝ} {b : Fin m → ℝ} {xs : Fin n → ℝ} (hx : IsEqMin f A b xs)
    (S : EqQP ℝ (Fin n → ℝ) (Fin m → ℝ)) (hc : S.c = (extractQc grad f).1) (hQ : ∀ x, S.Q x = matvecQ grad f S.c x)
    (hA : ∀ x, S.A x = A.mulVec x) (hAt : ∀ y, S.At y = A.transpose.mulVec y) (hb : S.b = b)
    (hs : ExactSolve ℝ S.solve) (hr : S.refineRegularization = 0) (init : Option ((Fin n → ℝ) × (Fin m → ℝ))) :
    ∃ r : KKT ℝ (Fin n → ℝ) (Fin m → ℝ) Empty,
      S.run init = .ok r ∧ IsEqMin f A b r.primal ∧ (eqOptimality grad f A b r).Zero := by
  obtain ⟨h1, h2, -⟩ := C71_recover hg hf
  have hc' : S.c = c := by rw [hc, h1]
  have hQ' : ∀ x, S.Q x = (symPart Q).mulVec x := fun x => by rw [hQ, hc', h2]
  let S' : EqQP ℝ (Fin n → ℝ) (Fin m → ℝ) := { S with Qt := S.Q }
  have hrun : (S'.run init : Except String (KKT ℝ (Fin n → ℝ) (Fin m → ℝ) Empty)) = S.run init := rfl
  have hobj : ∀ x, f x = quadObj (Cvxpy.vdot (K := ℝ)) S'.Q S'.c x + k := by
    intro x
    rw [hf x, quadObj]
    change _ = 1 / 2 * Cvxpy.vdot x (S.Q x) + Cvxpy.vdot x S.c + k
    rw [hQ', hc']
    have := dot_symPart Q x
    rw [dotProduct] at this
    rw [Cvxpy.vdot, this, Cvxpy.vdot]
    congr 2
    exact Finset.sum_congr rfl fun i _ => mul_comm _ _
  have hmin : ∀ x, S'.IsMin (Cvxpy.vdot (K := ℝ)) x ↔ IsEqMin f A b x := by
    intro x
    unfold EqQP.IsMin IsEqMin
    change S.A x = S.b ∧ (∀ x', S.A x' = S.b → _) ↔ _
    rw [hA, hb]
    simp only [hA, hobj, add_le_add_iff_right]
  have hadj : ∀ (M : Matrix (Fin m) (Fin n) ℝ) x y, Cvxpy.vdot (M.mulVec x) y = Cvxpy.vdot x (M.transpose.mulVec y) := by
    intro M x y
    change M.mulVec x ⬝ᵥ y = x ⬝ᵥ M.transpose.mulVec y
    rw [Matrix.mulVec_transpose, dotProduct_comm x, ← Matrix.dotProduct_mulVec, dotProduct_comm]
  have hconv : S'.Convex (Cvxpy.vdot (K := ℝ)) (Cvxpy.vdot (K := ℝ)) := by
    refine ⟨Cvxpy.isVdot_pi n, Cvxpy.isVdot_pi m, fun x y => ?_, fun x => rfl, fun x => ?_, fun x y => ?_⟩
    · change Cvxpy.vdot (S.Q x) y = Cvxpy.vdot x (S.Q y)
      rw [hQ', hQ']
      change (symPart Q).mulVec x ⬝ᵥ y = x ⬝ᵥ (symPart Q).mulVec y
      rw [← symPart_transpose, Matrix.mulVec_transpose, ← Matrix.dotProduct_mulVec, symPart_transpose]
    · change 0 ≤ Cvxpy.vdot x (S.Q x)
      rw [hQ']
      change 0 ≤ x ⬝ᵥ (symPart Q).mulVec x
      rw [dot_symPart]; exact hpsd x
    · change Cvxpy.vdot (S.A x) y = Cvxpy.vdot x (S.At y)
      rw [hA, hAt]; exact hadj A x y
  obtain ⟨r, e1, e2, e3⟩ := EqQP.C37_eq_qp (ι := Empty) S' hconv hs hr ((hmin xs).mpr hx) init
  refine ⟨r, by rw [← hrun, e1], (hmin _).mp e3, ?_⟩
  have he : eqOptimality grad f A b r = S'.optimalityFun r := by
    unfold eqOptimality EqQP.optimalityFun
    congr 1
    · funext x
      rw [hg _ _ _ (hasFDerivAt_quad hf x)]
      change _ = (1 / 2 : ℝ) • (S.Q x + S.Q x) + S.c
      rw [hQ', hc']
      funext j
      simp only [Pi.add_apply, Pi.smul_apply, smul_eq_mul, symPart_mulVec]
      ring
    · funext x
      change _ = S.A x - S.b
      rw [hA, hb]
    · funext x y
      exact (hAt y).symm
  rw [he]
  exact e2

/-! ## `BoxOSQP` -/

/-- **C71**, `BoxOSQP(fun)`: a run whose `Q` and `c` are the extracted ones works on `fun`.  For every convex quadratic `fun`, every
reachable iterate `x` satisfies the gap inequality of C38 for `fun`, and one with zero residuals is feasible and minimises `fun` over
the feasible set. -/
theorem C71_box {grad : Grad ℝ n} (hg : Sound grad) {f : (Fin n → ℝ) → ℝ} {Q : Matrix (Fin n) (Fin n) ℝ} {c : Fin n → ℝ} {k : ℝ}
    (hf : IsQuad f Q c k) (hpsd : ∀ x : Fin n → ℝ, 0 ≤ ∑ i, ∑ j, x i * Q i j * x j)
    (S : BoxOSQP ℝ n m) (ha : S.Attr) (hc : S.c = (extractQc grad f).1) (hQ : ∀ x, S.Q.mulVec x = matvecQ grad f S.c x)
    {p0 : Params ℝ n m} {r : Option (Params ℝ n m) × State ℝ n m} (h : S.Reach p0 r) {q : Params ℝ n m} (hq : r.1 = some q) :
    (∀ x', S.Feasible x' → f q.x ≤ f x' + (q.x - x') ⬝ᵥ S.dualRes q.x q.y - S.primalRes q.x q.z ⬝ᵥ q.y) ∧
      (r.2.primalResiduals = 0 → r.2.dualResiduals = 0 → S.Feasible q.x ∧ ∀ x', S.Feasible x' → f q.x ≤ f x') := by
  obtain ⟨h1, h2, -⟩ := C71_recover hg hf
  have hc' : S.c = c := by rw [hc, h1]
  have hQ' : S.Q = symPart Q := by
    ext i j
    have := congrFun (hQ (Pi.single j 1)) i
    rw [hc', h2] at this
    simpa using this
  have hobj : ∀ x, f x = S.obj x + k := by
    intro x
    rw [hf x, BoxOSQP.obj, hQ', dot_symPart, hc']
    rfl
  have hP : S.PSD := ⟨by rw [hQ', symPart_transpose], fun v => by rw [hQ', dot_symPart]; exact hpsd v⟩
  constructor
  · intro x' hx'
    obtain ⟨hgood, -⟩ := S.C38_iterates ha h hq
    have := S.C38_gap hP hgood hx'
    rw [hobj, hobj]
    linarith
  · intro r1 r2
    obtain ⟨a1, a2⟩ := S.C38_optimal ha hP h hq r1 r2
    refine ⟨a1, fun x' hx' => ?_⟩
    rw [hobj, hobj]
    have := a2 x' hx'
    linarith

/-- A user function with the documented signature `fun(x, params_obj)`: it evaluates `f` on a primal variable, and arithmetic on a
tuple of arrays raises. -/
def userFun (f : (Fin n → ℝ) → ℝ) : Arg ℝ n m → Except String ℝ
  | .x v => .ok (f v)
  | .pair _ _ => .error "TypeError"

/-- **C71**, the objective of the optimality function without `fun` is the quadratic of `x`. -/
theorem C71_box_objective (Q : Matrix (Fin n) (Fin n) ℝ) (c x : Fin n → ℝ) (z : Fin m → ℝ) :
    osqpObj none Q.mulVec c (.pair x z) = .ok (1 / 2 * (∑ i, ∑ j, x i * Q i j * x j) + ∑ i, c i * x i) := by
  simp only [osqpObj]
  congr 1
  rw [add_comm]
  congr 2
  refine Finset.sum_congr rfl fun i _ => ?_
  rw [Matrix.mulVec, dotProduct, Finset.mul_sum]
  exact Finset.sum_congr rfl fun j _ => by ring

/-- **C71**, false part: with `fun`, the optimality function of `BoxOSQP` (and so `l2_optimality_error` and implicit differentiation,
also of `OSQP`) calls `fun` on the pair `(x, z)` instead of `x`: for every function with the documented signature it raises at every
point. -/
theorem C71_box_optimality_raises (f : (Fin n → ℝ) → ℝ) (Q : (Fin n → ℝ) → (Fin n → ℝ)) (c x : Fin n → ℝ) (z : Fin m → ℝ) :
    ∃ e, osqpObj (some (userFun f)) Q c (.pair x z) = .error e := ⟨_, rfl⟩

theorem C71_box_optimality_false :
    ¬ ∀ (f : (Fin 1 → ℝ) → ℝ) (Q : (Fin 1 → ℝ) → (Fin 1 → ℝ)) (c x : Fin 1 → ℝ) (z : Fin 1 → ℝ), IsQuad f 1 0 0 →
      osqpObj (some (userFun f)) Q c (.pair x z) = .ok (f x) := by
  intro h
  have := h (fun x => 1 / 2 * (x 0 * x 0)) id 0 0 0 (by intro x; simp)
  simp [osqpObj, userFun] at this

/-! ## Pytrees -/

/-- **C71**, false part: `matvec_Q` of `EqualityConstrainedQP(fun)` multiplies `c*xx` with Python's `*`; on every primal variable that
is not a single array it raises, although the solver is documented to support pytrees. -/
theorem C71_pytree_raises (f : PyTree (Arr ℝ) → Except String ℝ) (c : PyTree (Arr ℝ)) (tag : String) (ts : List (PyTree (Arr ℝ))) :
    ∃ e, funMinusCx f c (.node tag ts) = .error e := by
  unfold funMinusCx
  have : ∃ e, pyMul c (.node tag ts) = .error e := by cases c <;> exact ⟨_, rfl⟩
  obtain ⟨e, he⟩ := this
  rw [he]
  cases f (.node tag ts) with
  | error e' => exact ⟨e', rfl⟩
  | ok v => exact ⟨e, rfl⟩

/-- On a single array it is `f(x) - ⟨c, x⟩`. -/
theorem C71_array (f : PyTree (Arr ℝ) → Except String ℝ) (c x : Arr ℝ) (h : c.shape = x.shape) (v : ℝ) (hv : f (.leaf x) = .ok v) :
    funMinusCx f (.leaf c) (.leaf x) = .ok (v - (List.zipWith (· * ·) c.data x.data).sum) := by
  unfold funMinusCx
  rw [hv, pyMul, if_pos h]

/-! ## Examples -/

open Classical in
/-- An automatic differentiation that is right: the gradient where there is one. -/
noncomputable def exGrad : Grad ℝ n := fun f x => if h : ∃ g, HasFDerivAt f (dotL g) x then h.choose else 0

theorem exGrad_sound : Sound (exGrad (n := n)) := by
  intro f x g hg
  have h : ∃ g, HasFDerivAt f (dotL g) x := ⟨g, hg⟩
  unfold exGrad
  rw [dif_pos h]
  have := h.choose_spec.unique hg
  funext i
  have := congrArg (fun L : (Fin n → ℝ) →L[ℝ] ℝ => L (Pi.single i 1)) this
  simpa [dotL_apply, Pi.single_apply] using this

/-- `f(x, y) = x² + xy + y² + 3x + 7` with a `Q` that is not symmetric. -/
example : IsQuad (n := 2) (fun x => x 0 * x 0 + x 0 * x 1 + x 1 * x 1 + 3 * x 0 + 7) !![2, 2; 0, 2] ![3, 0] 7 := by
  intro x
  simp [Fin.sum_univ_two]
  ring

example : (matvecQ exGrad (fun x : Fin 2 → ℝ => x 0 * x 0 + x 0 * x 1 + x 1 * x 1 + 3 * x 0 + 7) ![3, 0]) ![1, 2] = ![4, 5] := by
  have hf : IsQuad (n := 2) (fun x => x 0 * x 0 + x 0 * x 1 + x 1 * x 1 + 3 * x 0 + 7) !![2, 2; 0, 2] ![3, 0] 7 := by
    intro x
    simp [Fin.sum_univ_two]
    ring
  rw [(C71_recover exGrad_sound hf).2.1]
  funext j
  rw [symPart_mulVec]
  fin_cases j <;> simp [Fin.sum_univ_two] <;> norm_num

end Jaxopt.QP.Fun
