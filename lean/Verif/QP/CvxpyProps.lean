import Verif.QP.Cvxpy
import Verif.QP.KktProps
import Mathlib.LinearAlgebra.Matrix.Notation

/-!
# Property C70: `CvxpyQP` hands the quadratic program to CVXPY and returns its KKT triple
-/

set_option autoImplicit false
set_option linter.unusedSectionVars false
set_option linter.unusedVariables false

namespace Jaxopt.QP.Cvxpy

open Jaxopt.QP

variable {K : Type*} [Field K] [LinearOrder K] [IsStrictOrderedRing K]

/-! ## Specification -/

/-- The shapes of the documentation: `Q` is `n × n`, `c` has `n` entries, `A` is `m × n` and `b` has `m` entries, and so on. -/
structure Conform (Q : Mat K) (c : Vec K) (eq ineq : Option (Mat K × Vec K)) : Prop where
  Q_rows : Q.rows = c.len
  Q_cols : Q.cols = c.len
  eq_shape : ∀ A b, eq = some (A, b) → A.rows = b.len ∧ A.cols = c.len
  ineq_shape : ∀ G h, ineq = some (G, h) → G.rows = h.len ∧ G.cols = c.len

/-- `½ xᵀQx + cᵀx`. -/
def obj (Q : Mat K) (c : Vec K) (x : Fin c.len → K) : K :=
  (∑ i : Fin c.len, ∑ j : Fin c.len, x i * Q.at_ i j * x j) / 2 + ∑ i : Fin c.len, c.at_ i * x i

/-- `Ax = b` and `Gx ≤ h`, where the constraints are given. -/
def Feasible {n : ℕ} (eq ineq : Option (Mat K × Vec K)) (x : Fin n → K) : Prop :=
  (∀ A b, eq = some (A, b) → ∀ i < A.rows, ∑ j : Fin n, A.at_ i j * x j = b.at_ i) ∧
    ∀ G h, ineq = some (G, h) → ∀ i < G.rows, ∑ j : Fin n, G.at_ i j * x j ≤ h.at_ i

/-- A point satisfies a constraint of a CVXPY problem. -/
def Constraint.Holds {n : ℕ} (x : Fin n → K) : Constraint K → Prop
  | .eq A b => ∀ i < A.rows, ∑ j : Fin n, A.at_ i j * x j = b.at_ i
  | .le G h => ∀ i < G.rows, ∑ j : Fin n, G.at_ i j * x j ≤ h.at_ i

/-- The term of a constraint in the Lagrangian: `yᵀ(Ax - b)`. -/
def Constraint.term {n : ℕ} (x : Fin n → K) (y : ℕ → K) : Constraint K → K
  | .eq A b => ∑ i : Fin A.rows, y i * (∑ j : Fin n, A.at_ i j * x j - b.at_ i)
  | .le G h => ∑ i : Fin G.rows, y i * (∑ j : Fin n, G.at_ i j * x j - h.at_ i)

/-- Multipliers of inequalities are non-negative and complementary. -/
def Constraint.DualOk {n : ℕ} (x : Fin n → K) (y : ℕ → K) : Constraint K → Prop
  | .eq A b => True
  | .le G h => ∀ i < G.rows, 0 ≤ y i ∧ y i * (∑ j : Fin n, G.at_ i j * x j - h.at_ i) = 0

/-- CVXPY returned an optimal primal-dual pair of the problem it was given: `x` satisfies the constraints, the multipliers of the
inequalities are non-negative and complementary, and `x` minimises the Lagrangian. -/
structure Problem.Optimal {n : ℕ} (P : Problem K n) (r : Solved K n) (x : Fin n → K) (ys : List (ℕ → K)) : Prop where
  value : r.value = some x
  duals : r.duals = ys.map some
  len : ys.length = P.constraints.length
  feas : ∀ C ∈ P.constraints, C.Holds x
  dual : ∀ p ∈ P.constraints.zip ys, p.1.DualOk x p.2
  lag : ∀ x', P.objective x + ((P.constraints.zip ys).map fun p => p.1.term x p.2).sum ≤
    P.objective x' + ((P.constraints.zip ys).map fun p => p.1.term x' p.2).sum

/-! ## Shapes -/

/-- **C70**, shapes: the check passes exactly on data of conforming shapes; otherwise `run` raises without calling CVXPY. -/
theorem C70_check (Q : Mat K) (c : Vec K) (eq ineq : Option (Mat K × Vec K)) :
    checkParams Q c eq ineq = .ok () ↔ Conform Q c eq ineq := by
  constructor
  · intro h
    simp only [checkParams] at h
    by_cases h1 : Q.rows ≠ Q.cols
    · rw [if_pos h1] at h; cases h
    rw [if_neg h1] at h
    by_cases h2 : Q.cols ≠ c.len
    · rw [if_pos h2] at h; cases h
    rw [if_neg h2] at h
    push Not at h1 h2
    refine ⟨h1.trans h2, h2, ?_, ?_⟩
    · rintro A b rfl
      simp only at h
      by_cases h3 : A.rows ≠ b.len
      · rw [if_pos h3] at h; cases h
      rw [if_neg h3] at h
      by_cases h4 : A.cols ≠ Q.cols
      · rw [if_pos h4] at h; cases h
      push Not at h3 h4
      exact ⟨h3, h4.trans h2⟩
    · rintro G g rfl
      split at h
      · cases h
      · simp only at h
        by_cases h3 : G.rows ≠ g.len
        · rw [if_pos h3] at h; cases h
        rw [if_neg h3] at h
        by_cases h4 : G.cols ≠ Q.cols
        · rw [if_pos h4] at h; cases h
        push Not at h3 h4
        exact ⟨h3, h4.trans h2⟩
  · rintro ⟨h1, h2, h3, h4⟩
    simp only [checkParams]
    rw [if_neg (by rw [h1, h2]; simp), if_neg (by simpa using h2)]
    rcases eq with _ | ⟨A, b⟩
    · rcases ineq with _ | ⟨G, g⟩
      · rfl
      · obtain ⟨a1, a2⟩ := h4 G g rfl
        simp only
        rw [if_neg (by simpa using a1), if_neg (by rw [a2, h2]; simp)]
    · obtain ⟨b1, b2⟩ := h3 A b rfl
      rcases ineq with _ | ⟨G, g⟩
      · simp only
        rw [if_neg (by simpa using b1), if_neg (by rw [b2, h2]; simp)]
      · obtain ⟨a1, a2⟩ := h4 G g rfl
        simp only
        rw [if_neg (by simpa using b1), if_neg (by rw [b2, h2]; simp)]
        simp only
        rw [if_neg (by simpa using a1), if_neg (by rw [a2, h2]; simp)]

theorem C70_shape_raises (solve : (n : ℕ) → Problem K n → Except String (Solved K n)) (Q : Mat K) (c : Vec K)
    (eq ineq : Option (Mat K × Vec K)) (h : ¬ Conform Q c eq ineq) : ∃ m, run solve Q c eq ineq = .error m := by
  rw [← C70_check] at h
  unfold run
  cases hc : checkParams Q c eq ineq with
  | error m => exact ⟨m, rfl⟩
  | ok u => exact absurd hc h

/-! ## The problem that is handed over -/

/-- **C70**, the problem: CVXPY receives `½ xᵀQx + cᵀx` and constraints that hold exactly at the feasible points. -/
theorem C70_problem (Q : Mat K) (c : Vec K) (eq ineq : Option (Mat K × Vec K)) (x : Fin c.len → K) :
    (problem Q c eq ineq).objective x = obj Q c x ∧
      ((∀ C ∈ (problem Q c eq ineq).constraints, C.Holds x) ↔ Feasible eq ineq x) := by
  constructor
  · simp only [problem, obj, vdot, Finset.mul_sum]
    congr 1
    rw [Finset.sum_div]
    refine Finset.sum_congr rfl fun i _ => ?_
    rw [Finset.sum_div]
    exact Finset.sum_congr rfl fun j _ => by ring
  · rcases eq with _ | ⟨A, b⟩ <;> rcases ineq with _ | ⟨G, g⟩
    · simp [problem, Feasible]
    · simp [problem, Feasible, Constraint.Holds]
    · simp [problem, Feasible, Constraint.Holds]
    · simp only [problem, Feasible, List.singleton_append, List.forall_mem_cons, Constraint.Holds]
      constructor
      · rintro ⟨h1, h2, -⟩
        exact ⟨by rintro _ _ ⟨⟩; exact h1, by rintro _ _ ⟨⟩; exact h2⟩
      · rintro ⟨h1, h2⟩
        exact ⟨h1 A b rfl, h2 G g rfl, by simp⟩

/-! ## The result -/

theorem isVdot_pi (n : ℕ) : IsVdot (K := K) (E := Fin n → K) (vdot (K := K)) where
  add_left x y z := by simp only [vdot, Pi.add_apply, add_mul, Finset.sum_add_distrib]
  smul_left a x z := by simp only [vdot, Pi.smul_apply, smul_eq_mul, mul_assoc, Finset.mul_sum]
  symm x y := Finset.sum_congr rfl fun i _ => mul_comm _ _
  pos x hx := by
    obtain ⟨i, hi⟩ := Function.ne_iff.mp hx
    refine Finset.sum_pos' (fun j _ => mul_self_nonneg _) ⟨i, Finset.mem_univ _, ?_⟩
    exact mul_self_pos.mpr hi

/-- The matrix as a linear map. -/
def Mat.lin (Q : Mat K) (n : ℕ) : (Fin n → K) →ₗ[K] (Fin n → K) where
  toFun x i := ∑ j : Fin n, Q.at_ i j * x j
  map_add' x y := by funext i; simp only [Pi.add_apply, mul_add, Finset.sum_add_distrib]
  map_smul' a x := by
    funext i
    simp only [Pi.smul_apply, smul_eq_mul, RingHom.id_apply, Finset.mul_sum]
    exact Finset.sum_congr rfl fun j _ => by ring

/-- The transpose as a linear map. -/
def Mat.linT (Q : Mat K) (n : ℕ) : (Fin n → K) →ₗ[K] (Fin n → K) where
  toFun x i := ∑ j : Fin n, Q.at_ j i * x j
  map_add' x y := by funext i; simp only [Pi.add_apply, mul_add, Finset.sum_add_distrib]
  map_smul' a x := by
    funext i
    simp only [Pi.smul_apply, smul_eq_mul, RingHom.id_apply, Finset.mul_sum]
    exact Finset.sum_congr rfl fun j _ => by ring

theorem lin_adjoint (Q : Mat K) (n : ℕ) (x y : Fin n → K) : vdot (Q.lin n x) y = vdot x (Q.linT n y) := by
  simp only [vdot, Mat.lin, Mat.linT, LinearMap.coe_mk, AddHom.coe_mk, Finset.sum_mul, Finset.mul_sum]
  rw [Finset.sum_comm]
  exact Finset.sum_congr rfl fun i _ => Finset.sum_congr rfl fun j _ => by ring

theorem obj_quad (Q : Mat K) (c : Vec K) (x : Fin c.len → K) :
    obj Q c x = quadObj (vdot (K := K)) (Q.lin c.len) (fun i => c.at_ i) x := by
  simp only [obj, quadObj, vdot, Mat.lin, LinearMap.coe_mk, AddHom.coe_mk, Finset.mul_sum]
  congr 1
  · rw [Finset.sum_div]
    refine Finset.sum_congr rfl fun i _ => ?_
    rw [Finset.sum_div]
    exact Finset.sum_congr rfl fun j _ => by ring
  · exact Finset.sum_congr rfl fun i _ => mul_comm _ _

/-- A minimiser of a quadratic plus a linear term is stationary. -/
theorem stationary (Q : Mat K) (c : Vec K) (x w : Fin c.len → K)
    (h : ∀ x', obj Q c x + vdot x w ≤ obj Q c x' + vdot x' w) (j : Fin c.len) :
    1 / 2 * ((∑ k : Fin c.len, Q.at_ j k * x k) + ∑ k : Fin c.len, Q.at_ k j * x k) + c.at_ j + w j = 0 := by
  have hv := isVdot_pi (K := K) c.len
  set Ql := Q.lin c.len
  set Qt := Q.linT c.len
  set cv : Fin c.len → K := fun i => c.at_ i
  set g : Fin c.len → K := quadGrad Ql Qt cv x + w with hg
  have key : ∀ t : K, 0 ≤ t * vdot g g + t * t * (1 / 2 * vdot g (Ql g)) := by
    intro t
    have h1 := h (x + t • g)
    rw [obj_quad, obj_quad, quadObj_expand hv (lin_adjoint Q c.len), hv.add_left, map_smul] at h1
    simp only [hv.smul_left, hv.smul_right] at h1
    have h2 : vdot g g = vdot g (quadGrad Ql Qt cv x) + vdot g w := by rw [← hv.add_right]
    rw [h2]
    have h3 : 0 ≤ t * vdot g (quadGrad Ql Qt cv x) + 1 / 2 * (t * (t * vdot g (Ql g))) + t * vdot g w := by
      linarith
    calc (0 : K) ≤ _ := h3
      _ = _ := by ring
  have hz : vdot g g = 0 := by
    by_contra hne
    have hp : 0 < vdot g g := lt_of_le_of_ne (hv.nonneg g) (Ne.symm hne)
    set a := vdot g g
    set q := 1 / 2 * vdot g (Ql g)
    have hq : 0 < |q| + 1 := by positivity
    have := key (-(a / (2 * (|q| + 1))))
    have e1 : -(a / (2 * (|q| + 1))) * a + -(a / (2 * (|q| + 1))) * -(a / (2 * (|q| + 1))) * q
        = (a * a) / (4 * (|q| + 1) * (|q| + 1)) * (q - 2 * (|q| + 1)) := by
      field_simp
      ring
    rw [e1] at this
    have h5 : q - 2 * (|q| + 1) < 0 := by
      have := le_abs_self q
      have := abs_nonneg q
      linarith
    have h6 : 0 < (a * a) / (4 * (|q| + 1) * (|q| + 1)) := by positivity
    exact absurd this (not_le.mpr (mul_neg_of_pos_of_neg h6 h5))
  have g0 : g = 0 := hv.eq_zero hz
  exact congrFun g0 j

theorem term_eq (A : Mat K) (b : Vec K) {n : ℕ} (x : Fin n → K) (y : ℕ → K) :
    ∑ i : Fin A.rows, y i * (∑ j : Fin n, A.at_ i j * x j - b.at_ i) =
      vdot x (A.tdot n fun i : Fin A.rows => y i) - ∑ i : Fin A.rows, y i * b.at_ i := by
  simp only [vdot, Mat.tdot, mul_sub, Finset.sum_sub_distrib, Finset.mul_sum]
  congr 1
  rw [Finset.sum_comm]
  exact Finset.sum_congr rfl fun i _ => Finset.sum_congr rfl fun j _ => by ring

/-- The multipliers that belong to a family of constraints: absent without the constraints, otherwise non-negative. -/
def NonnegDual {m : ℕ} (d : Option (Fin m → K)) : Prop := ∀ l, d = some l → ∀ i, 0 ≤ l i

/-- **C70**, the result: if the shapes conform and CVXPY returns an optimal primal-dual pair with a status other than "infeasible" and
"unbounded", then `run` returns a triple whose multipliers are present exactly for the constraints that were given, the KKT function
used for implicit differentiation vanishes there, and the primal variable is feasible and minimises the objective over the feasible
set. -/
theorem C70_solution (solve : (n : ℕ) → Problem K n → Except String (Solved K n)) (Q : Mat K) (c : Vec K)
    (eq ineq : Option (Mat K × Vec K)) (hc : Conform Q c eq ineq) (r : Solved K c.len)
    (hr : solve c.len (problem Q c eq ineq) = .ok r) (hs : r.status ≠ "infeasible" ∧ r.status ≠ "unbounded")
    (x : Fin c.len → K) (ys : List (ℕ → K)) (ho : (problem Q c eq ineq).Optimal r x ys) :
    ∃ (de : Option (Fin (nrows eq) → K)) (di : Option (Fin (nrows ineq) → K)),
      run solve Q c eq ineq = .ok ⟨some x, de.map some, di.map some⟩ ∧
      (de.isSome ↔ eq.isSome) ∧ (di.isSome ↔ ineq.isSome) ∧ NonnegDual di ∧
      (optimalityFun Q c eq ineq ⟨x, de, di⟩).Zero ∧
      Feasible eq ineq x ∧ ∀ x', Feasible eq ineq x' → obj Q c x ≤ obj Q c x' := by
  obtain ⟨o1, o2, o3, o4, o5, o6⟩ := ho
  have hfeas : Feasible eq ineq x := (C70_problem Q c eq ineq x).2.mp o4
  have hst : ¬ r.status ∈ ["infeasible", "unbounded"] := by simpa using hs
  have hchk := (C70_check Q c eq ineq).mpr hc
  have hobj : ∀ x, (problem Q c eq ineq).objective x = obj Q c x := fun x => (C70_problem Q c eq ineq x).1
  simp only [hobj] at o6
  rcases eq with _ | ⟨A, b⟩ <;> rcases ineq with _ | ⟨G, g⟩
  · have hy : ys = [] := List.length_eq_zero_iff.mp (by simpa [problem] using o3)
    subst hy
    simp only [problem, List.append_nil, List.zip_nil_right, List.map_nil, List.sum_nil, add_zero] at o6
    refine ⟨none, none, ?_, by simp, by simp, by rintro _ ⟨⟩, ⟨?_, by rintro _ ⟨⟩, by rintro _ ⟨⟩⟩, hfeas, fun x' _ => o6 x'⟩
    · simp [run, hchk, hr, hst, o1]
    · funext j
      have := stationary Q c x 0 (fun x' => by
        rw [(isVdot_pi c.len).zero_right, (isVdot_pi c.len).zero_right, add_zero, add_zero]; exact o6 x') j
      simpa [optimalityFun, kktOptimality] using this
  · obtain ⟨l, rfl⟩ : ∃ l, ys = [l] := List.length_eq_one_iff.mp (by simpa [problem] using o3)
    simp only [problem, List.nil_append, List.zip_cons_cons, List.zip_nil_right, List.map_cons, List.map_nil, List.sum_cons,
      List.sum_nil, add_zero, Constraint.term, List.mem_singleton, forall_eq, Constraint.DualOk] at o5 o6
    refine ⟨none, some fun i => l i, ?_, by simp, by simp, ?_, ⟨?_, by rintro _ ⟨⟩, ?_⟩, hfeas, fun x' hx' => ?_⟩
    · simp [run, hchk, hr, hst, o1, o2]
    · rintro _ ⟨⟩ i; exact (o5 i i.2).1
    · funext j
      have := stationary Q c x (G.tdot c.len fun i : Fin G.rows => l i) (fun x' => by
        have := o6 x'
        rw [term_eq, term_eq] at this; linarith) j
      simpa [optimalityFun, kktOptimality, nrows] using this
    · rintro _ ⟨⟩
      funext i
      have := (o5 i i.2).2
      rw [mul_comm] at this
      exact this
    · have h1 := o6 x'
      have h2 : ∑ i : Fin G.rows, l i * (∑ j : Fin c.len, G.at_ i j * x j - g.at_ i) = 0 :=
        Finset.sum_eq_zero fun i _ => (o5 i i.2).2
      have h3 : ∑ i : Fin G.rows, l i * (∑ j : Fin c.len, G.at_ i j * x' j - g.at_ i) ≤ 0 :=
        Finset.sum_nonpos fun i _ => mul_nonpos_of_nonneg_of_nonpos (o5 i i.2).1 (sub_nonpos.mpr (hx'.2 G g rfl i i.2))
      linarith
  · obtain ⟨y, rfl⟩ : ∃ l, ys = [l] := List.length_eq_one_iff.mp (by simpa [problem] using o3)
    simp only [problem, List.append_nil, List.zip_cons_cons, List.zip_nil_right, List.map_cons, List.map_nil, List.sum_cons,
      List.sum_nil, add_zero, Constraint.term, List.mem_singleton, forall_eq, Constraint.DualOk] at o5 o6
    refine ⟨some fun i => y i, none, ?_, by simp, by simp, by rintro _ ⟨⟩, ⟨?_, ?_, by rintro _ ⟨⟩⟩, hfeas, fun x' hx' => ?_⟩
    · simp [run, hchk, hr, hst, o1, o2]
    · funext j
      have := stationary Q c x (A.tdot c.len fun i : Fin A.rows => y i) (fun x' => by
        have := o6 x'
        rw [term_eq, term_eq] at this; linarith) j
      simpa [optimalityFun, kktOptimality, nrows] using this
    · rintro _ ⟨⟩
      funext i
      exact sub_eq_zero.mpr (hfeas.1 A b rfl i i.2)
    · have h1 := o6 x'
      have h2 : ∀ z : Fin c.len → K, Feasible (some (A, b)) none z →
          ∑ i : Fin A.rows, y i * (∑ j : Fin c.len, A.at_ i j * z j - b.at_ i) = 0 := fun z hz =>
        Finset.sum_eq_zero fun i _ => by rw [hz.1 A b rfl i i.2, sub_self, mul_zero]
      rw [h2 x hfeas, h2 x' hx'] at h1
      linarith
  · obtain ⟨y, l, rfl⟩ : ∃ y l, ys = [y, l] := List.length_eq_two.mp (by simpa [problem] using o3)
    simp only [problem, List.singleton_append, List.zip_cons_cons, List.zip_nil_right, List.map_cons, List.map_nil, List.sum_cons,
      List.sum_nil, add_zero, Constraint.term, List.forall_mem_cons, Constraint.DualOk] at o5 o6
    have o5' := o5.2.1
    refine ⟨some fun i => y i, some fun i => l i, ?_, by simp, by simp, ?_, ⟨?_, ?_, ?_⟩, hfeas, fun x' hx' => ?_⟩
    · simp [run, hchk, hr, hst, o1, o2]
    · rintro _ ⟨⟩ i; exact (o5' i i.2).1
    · funext j
      have := stationary Q c x ((A.tdot c.len fun i : Fin A.rows => y i) + G.tdot c.len fun i : Fin G.rows => l i) (fun x' => by
        have := o6 x'
        rw [term_eq, term_eq, term_eq, term_eq] at this
        rw [(isVdot_pi c.len).add_right, (isVdot_pi c.len).add_right]; linarith) j
      simp only [Pi.add_apply] at this
      rw [← add_assoc] at this
      simpa [optimalityFun, kktOptimality, nrows] using this
    · rintro _ ⟨⟩
      funext i
      exact sub_eq_zero.mpr (hfeas.1 A b rfl i i.2)
    · rintro _ ⟨⟩
      funext i
      have := (o5' i i.2).2
      rw [mul_comm] at this
      exact this
    · have h1 := o6 x'
      have h2 : ∀ z : Fin c.len → K, Feasible (some (A, b)) (some (G, g)) z →
          ∑ i : Fin A.rows, y i * (∑ j : Fin c.len, A.at_ i j * z j - b.at_ i) = 0 := fun z hz =>
        Finset.sum_eq_zero fun i _ => by rw [hz.1 A b rfl i i.2, sub_self, mul_zero]
      have h3 : ∑ i : Fin G.rows, l i * (∑ j : Fin c.len, G.at_ i j * x j - g.at_ i) = 0 :=
        Finset.sum_eq_zero fun i _ => (o5' i i.2).2
      have h4 : ∑ i : Fin G.rows, l i * (∑ j : Fin c.len, G.at_ i j * x' j - g.at_ i) ≤ 0 :=
        Finset.sum_nonpos fun i _ => mul_nonpos_of_nonneg_of_nonpos (o5' i i.2).1 (sub_nonpos.mpr (hx'.2 G g rfl i i.2))
      rw [h2 x hfeas, h2 x' hx', h3] at h1
      linarith

/-- **C70**, the converse that implicit differentiation relies on: for a positive semidefinite `Q`, wherever the KKT function of the
wrapper vanishes with non-negative inequality multipliers and `Gx ≤ h`, the point solves the quadratic program (both kinds of
constraints given). -/
theorem C70_certificate (Q : Mat K) (c : Vec K) (A G : Mat K) (b h : Vec K)
    (hpsd : ∀ x : Fin c.len → K, 0 ≤ ∑ i : Fin c.len, ∑ j : Fin c.len, x i * Q.at_ i j * x j)
    (x : Fin c.len → K) (y : Fin A.rows → K) (l : Fin G.rows → K) (hl : ∀ i, 0 ≤ l i)
    (hG : ∀ i < G.rows, ∑ j : Fin c.len, G.at_ i j * x j ≤ h.at_ i)
    (hz : (optimalityFun Q c (some (A, b)) (some (G, h)) ⟨x, some y, some l⟩).Zero) :
    Feasible (some (A, b)) (some (G, h)) x ∧ ∀ x', Feasible (some (A, b)) (some (G, h)) x' → obj Q c x ≤ obj Q c x' := by
  have hadj : ∀ (M : Mat K) (z : Fin c.len → K) (u : Fin M.rows → K), ∑ i, M.dot z i * u i = vdot z (M.tdot c.len u) := by
    intro M z u
    simp only [vdot, Mat.tdot, Mat.dot, Finset.sum_mul, Finset.mul_sum]
    rw [Finset.sum_comm]
    exact Finset.sum_congr rfl fun i _ => Finset.sum_congr rfl fun j _ => by ring
  have hsub : ∀ (M : Mat K) (z z' : Fin c.len → K) (i : Fin M.rows), M.dot (z' - z) i = M.dot z' i - M.dot z i := by
    intro M z z' i
    simp only [Mat.dot, Pi.sub_apply, mul_sub, Finset.sum_sub_distrib]
  have hq : ProxGrad.GradIneq (K := K) (vdot (K := K)) (obj Q c)
      (fun x j => 1 / 2 * ((∑ k : Fin c.len, Q.at_ j k * x k) + ∑ k : Fin c.len, Q.at_ k j * x k) + c.at_ j) := by
    have := quad_gradIneq (isVdot_pi c.len) (lin_adjoint Q c.len) (fun z => by
      have := hpsd z
      simpa only [vdot, Mat.lin, LinearMap.coe_mk, AddHom.coe_mk, Finset.mul_sum, mul_assoc] using this) (fun i => c.at_ i)
    intro u v
    have h1 := this u v
    rw [obj_quad, obj_quad]
    exact h1
  have := C37_certificate (isVdot_pi c.len) (isVdot_pi A.rows) hq (eqFun := fun x (i : Fin A.rows) => A.dot x i - b.at_ i)
    (eqVjp := fun _ y => A.tdot c.len y)
    (fun z z' u => by
      rw [← hadj]
      exact Finset.sum_congr rfl fun i _ => by simp only [Pi.sub_apply, hsub]; ring)
    (ineqFun := fun x (i : Fin G.rows) => G.dot x i - h.at_ i) (ineqVjp := fun _ l => G.tdot c.len l)
    (fun z z' u _ => by
      rw [← hadj, ← Finset.sum_add_distrib]
      exact (Finset.sum_congr rfl fun i _ => by rw [hsub]; ring).le)
    x y l hl (fun i => sub_nonpos.mpr (hG i i.2)) hz
  obtain ⟨⟨h1, -⟩, h3⟩ := this
  refine ⟨⟨?_, ?_⟩, fun x' hx' => h3 x' ?_ ?_⟩
  · rintro _ _ ⟨⟩ i hi
    exact sub_eq_zero.mp (congrFun h1 ⟨i, hi⟩)
  · rintro _ _ ⟨⟩; exact hG
  · funext i; exact sub_eq_zero.mpr (hx'.1 A b rfl i i.2)
  · intro i; exact sub_nonpos.mpr (hx'.2 G h rfl i i.2)

/-! ## Statuses -/

/-- **C70**, statuses: the two statuses that the wrapper knows raise. -/
theorem C70_status_raises (solve : (n : ℕ) → Problem K n → Except String (Solved K n)) (Q : Mat K) (c : Vec K)
    (eq ineq : Option (Mat K × Vec K)) (hc : Conform Q c eq ineq) (r : Solved K c.len)
    (hr : solve c.len (problem Q c eq ineq) = .ok r) (hs : r.status = "infeasible" ∨ r.status = "unbounded") :
    run solve Q c eq ineq = .error ("The problem is " ++ r.status ++ ".") := by
  have hchk := (C70_check Q c eq ineq).mpr hc
  have : r.status ∈ ["infeasible", "unbounded"] := by simpa using hs
  simp only [run, hchk, hr]
  rw [if_pos this]

/-- The problem `minimise ½x² subject to 0·x = 1`, which has no feasible point. -/
def exQ : Mat ℚ := ⟨1, 1, fun _ _ => 1⟩
def exc : Vec ℚ := ⟨1, fun _ => 0⟩
def exEq : Option (Mat ℚ × Vec ℚ) := some (⟨1, 1, fun _ _ => 0⟩, ⟨1, fun _ => 1⟩)

/-- **C70**, false part: "a problem without a solution raises" does not hold.  CVXPY also reports `infeasible_inaccurate` (and
`unbounded_inaccurate`, `infeasible_or_unbounded`) with no value; the wrapper then returns an ordinary result that contains no point. -/
theorem C70_status_false : ¬ ∀ (solve : (n : ℕ) → Problem ℚ n → Except String (Solved ℚ n)) (Q : Mat ℚ) (c : Vec ℚ)
    (eq ineq : Option (Mat ℚ × Vec ℚ)) (r : Solved ℚ c.len), Conform Q c eq ineq → solve c.len (problem Q c eq ineq) = .ok r →
    (¬ ∃ x : Fin c.len → ℚ, Feasible eq ineq x) → r.value = none → ∃ m, run solve Q c eq ineq = .error m := by
  intro h
  obtain ⟨m, hm⟩ := h (fun n P => .ok ⟨"infeasible_inaccurate", none, P.constraints.map fun _ => none⟩) exQ exc exEq none
    ⟨"infeasible_inaccurate", none, [none]⟩
    ⟨rfl, rfl, by rintro A b ⟨⟩; exact ⟨rfl, rfl⟩, by rintro A b ⟨⟩⟩ rfl
    (by
      rintro ⟨x, hx, -⟩
      have := hx _ _ rfl 0 (by simp)
      simp at this) rfl
  simp [run, checkParams, exQ, exc, exEq, problem] at hm

/-! ## Examples -/

/-- `minimise ½(x² + y²)` subject to `x + y = 2` and `x ≤ 1/2`: the solution is `(1/2, 3/2)` with multipliers `-3/2` and `1`. -/
def exQ2 : Mat ℚ := ⟨2, 2, fun i j => if i = j then 1 else 0⟩
def exc2 : Vec ℚ := ⟨2, fun _ => 0⟩
def exEq2 : Option (Mat ℚ × Vec ℚ) := some (⟨1, 2, fun _ _ => 1⟩, ⟨1, fun _ => 2⟩)
def exIneq2 : Option (Mat ℚ × Vec ℚ) := some (⟨1, 2, fun _ j => if j = 0 then 1 else 0⟩, ⟨1, fun _ => 1 / 2⟩)

/-- A routine that returns this solution. -/
def exSolved : Solved ℚ 2 := ⟨"optimal", some ![1 / 2, 3 / 2], [some fun _ => -(3 / 2), some fun _ => 1]⟩

example : Conform exQ2 exc2 exEq2 exIneq2 :=
  ⟨rfl, rfl, by rintro A b ⟨⟩; exact ⟨rfl, rfl⟩, by rintro A b ⟨⟩; exact ⟨rfl, rfl⟩⟩

/-- The optimality hypothesis is satisfiable. -/
example : (problem exQ2 exc2 exEq2 exIneq2).Optimal exSolved ![1 / 2, 3 / 2] [fun _ => -(3 / 2), fun _ => 1] where
  value := rfl
  duals := rfl
  len := rfl
  feas := by
    rw [(C70_problem exQ2 exc2 exEq2 exIneq2 ![1 / 2, 3 / 2]).2]
    refine ⟨?_, ?_⟩
    · rintro A b ⟨⟩ i hi
      change ∑ j : Fin 2, (1 : ℚ) * ![1 / 2, 3 / 2] j = 2
      rw [Fin.sum_univ_two]; norm_num
    · rintro A b ⟨⟩ i hi
      change ∑ j : Fin 2, (if (j : ℕ) = 0 then (1 : ℚ) else 0) * ![1 / 2, 3 / 2] j ≤ 1 / 2
      rw [Fin.sum_univ_two]; norm_num
  dual := by
    intro p hp
    simp only [problem, exEq2, exIneq2, List.singleton_append, List.zip_cons_cons, List.zip_nil_right, List.mem_cons,
      List.not_mem_nil, or_false] at hp
    rcases hp with rfl | rfl
    · trivial
    · intro i hi
      refine ⟨by norm_num, ?_⟩
      change (1 : ℚ) * (∑ j : Fin 2, (if (j : ℕ) = 0 then (1 : ℚ) else 0) * ![1 / 2, 3 / 2] j - 1 / 2) = 0
      rw [Fin.sum_univ_two]; norm_num
  lag := by
    intro x'
    change Fin 2 → ℚ at x'
    have e : ∀ z : Fin 2 → ℚ, (problem exQ2 exc2 exEq2 exIneq2).objective z +
        (((problem exQ2 exc2 exEq2 exIneq2).constraints.zip [fun _ => -(3 / 2), fun _ => 1]).map fun p => p.1.term z p.2).sum =
        1 / 2 * (z 0 * z 0 + z 1 * z 1) + (-(3 / 2) * (z 0 + z 1 - 2) + (z 0 - 1 / 2)) := by
      intro z
      change 1 / 2 * (∑ i : Fin 2, z i * ∑ j : Fin 2, (if (i : ℕ) = j then (1 : ℚ) else 0) * z j) + ∑ i : Fin 2, 0 * z i +
        ((∑ i : Fin 1, -(3 / 2) * (∑ j : Fin 2, (1 : ℚ) * z j - 2)) +
          ((∑ i : Fin 1, (1 : ℚ) * (∑ j : Fin 2, (if (j : ℕ) = 0 then (1 : ℚ) else 0) * z j - 1 / 2)) + 0)) = _
      simp [Fin.sum_univ_two]
    refine (e ![1 / 2, 3 / 2]).trans_le (le_of_le_of_eq ?_ (e x').symm)
    have h0 := sq_nonneg (x' 0 - 1 / 2)
    have h1 := sq_nonneg (x' 1 - 3 / 2)
    simp only [Matrix.cons_val_zero, Matrix.cons_val_one]
    nlinarith

/-- The run returns the two multipliers in their places. -/
example : ∃ s, run (fun n P => if h : n = 2 then .ok (h ▸ exSolved) else .error "") exQ2 exc2 exEq2 exIneq2 = .ok s ∧
    s.dualEq = some (some fun _ => -(3 / 2)) ∧ s.dualIneq = some (some fun _ => 1) := ⟨_, rfl, rfl, rfl⟩

/-- A `Q` that is not square raises. -/
example : ∃ m, run (fun n P => .ok ⟨"optimal", none, []⟩) (⟨2, 3, fun _ _ => 0⟩ : Mat ℚ) ⟨3, fun _ => 0⟩ none none = .error m :=
  C70_shape_raises _ _ _ _ _ fun h => by have := h.Q_rows; simp at this

end Jaxopt.QP.Cvxpy
