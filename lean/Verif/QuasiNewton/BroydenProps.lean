import Verif.QuasiNewton.Broyden
import Verif.Num.Vdot
import Mathlib.Algebra.BigOperators.Intervals
import Mathlib.Algebra.Order.Ring.Rat
import Mathlib.Tactic.Abel

/-!
# Property C27: the secant equation of Broyden's method

The secant equation holds for a single leaf as long as the circular buffer has not overflowed
(`C27_broyden_partial`).  With several leaves, or once an old pair has been overwritten, it fails
(`C27_leaves_false`, `C27_history_false`); `C27_defect` gives the exact defect in the general case.
-/

set_option autoImplicit false
set_option linter.unusedSectionVars false
set_option linter.unusedVariables false

namespace Jaxopt.QuasiNewton.Broyden

open Jaxopt.QuasiNewton Finset

variable {K E L : Type*} [Field K] [LinearOrder K] [IsStrictOrderedRing K] [AddCommGroup E] [Module K E] [Fintype L]

theorem sum_cyclic (m : ℕ) (g : ℕ → E) (start : ℕ) : ((indices m start).map g).sum = ∑ j ∈ range m, g j := by
  have h : ∀ start, ∑ i ∈ range m, g ((start + i) % m) = ∑ j ∈ range m, g j := by
    intro start
    induction start with
    | zero =>
      apply Finset.sum_congr rfl
      intro i hi
      rw [Nat.zero_add, Nat.mod_eq_of_lt (Finset.mem_range.mp hi)]
    | succ k ih =>
      rw [← ih]
      have h1 := Finset.sum_range_succ (fun i => g ((k + i) % m)) m
      have h2 := Finset.sum_range_succ' (fun i => g ((k + i) % m)) m
      rw [h1] at h2
      simp only [Nat.add_mod_right, Nat.add_zero] at h2
      have h3 := add_right_cancel h2
      rw [h3]
      apply Finset.sum_congr rfl
      intro i _
      congr 2
      omega
  rw [← h start]
  simp only [indices, List.map_map, Function.comp_def]
  rw [Finset.sum_eq_multiset_sum, Finset.range_val, Multiset.range, Multiset.map_coe, Multiset.sum_coe]

theorem jacProd_apply (S : Broyden K E L) (st : BroydenState K E L) (v : L → E) (l : L) :
    S.jacProd st v l = st.gamma • v l + ∑ j ∈ range S.historySize, S.ldot (st.d j l) (v l) • st.c j l := by
  simp only [jacProd, invJacobianProduct, invJacobianProductLeaf, brMatvec]
  rw [sum_cyclic]

/-- The step and the residual difference of an update, and the vector `v = Bᵀ delta_x` whose product with the residual
difference is the denominator of the update. -/
def deltaX (S : Broyden K E L) (p : (L → E) × BroydenState K E L) : L → E := (S.update p).1 - p.1
def deltaG (S : Broyden K E L) (p : (L → E) × BroydenState K E L) : L → E := (S.update p).2.value - p.2.value
def denomVec (S : Broyden K E L) (p : (L → E) × BroydenState K E L) : L → E := S.jacRprod p.2 (S.deltaX p)

/-- **C27, exact form.** After any update with non-zero denominator, on every leaf `l` the new inverse-Jacobian product of
the residual difference misses the step by: the contribution of the pair that was overwritten, and the correction `c_l`
times the share of the *other* leaves in the denominator. -/
theorem C27_defect (S : Broyden K E L) (hl : IsVdot S.ldot) (hm : 1 ≤ S.historySize)
    (p : (L → E) × BroydenState K E L) (hden : (∑ l, S.ldot (S.denomVec p l) (S.deltaG p l)) ≠ 0) (l : L) :
    let j := p.2.iterNum % S.historySize
    let share := S.ldot (S.denomVec p l) (S.deltaG p l) / ∑ l, S.ldot (S.denomVec p l) (S.deltaG p l)
    let cl := S.deltaX p l - S.jacProd p.2 (S.deltaG p) l
    S.jacProd (S.update p).2 (S.deltaG p) l =
      S.deltaX p l - (1 - share) • cl - S.ldot (p.2.d j l) (S.deltaG p l) • p.2.c j l := by
  intro j share cl
  have hj : j ∈ range S.historySize := Finset.mem_range.mpr (Nat.mod_lt _ hm)
  have hlast : (p.2.iterNum % S.historySize + S.historySize) % S.historySize = j := by
    rw [Nat.add_mod_right, Nat.mod_mod]
  have hd : (S.update p).2.d = Function.update p.2.d j
      ((1 / ∑ l, S.ldot (S.denomVec p l) (S.deltaG p l)) • S.denomVec p) := by
    simp only [update, hlast]; rfl
  have hc : (S.update p).2.c = Function.update p.2.c j (S.deltaX p - S.jacProd p.2 (S.deltaG p)) := by
    simp only [update, hlast]; rfl
  have hγ : (S.update p).2.gamma = p.2.gamma := rfl
  rw [jacProd_apply, hd, hc, hγ]
  rw [← Finset.add_sum_erase _ _ hj]
  have h2 := jacProd_apply S p.2 (S.deltaG p) l
  rw [← Finset.add_sum_erase _ _ hj] at h2
  have h3 : ∑ k ∈ (range S.historySize).erase j,
      S.ldot ((Function.update p.2.d j
        ((1 / ∑ l, S.ldot (S.denomVec p l) (S.deltaG p l)) • S.denomVec p)) k l) (S.deltaG p l) •
        (Function.update p.2.c j (S.deltaX p - S.jacProd p.2 (S.deltaG p))) k l =
      ∑ k ∈ (range S.historySize).erase j, S.ldot (p.2.d k l) (S.deltaG p l) • p.2.c k l := by
    apply Finset.sum_congr rfl
    intro k hk
    have hne := Finset.ne_of_mem_erase hk
    rw [Function.update_of_ne hne, Function.update_of_ne hne]
  rw [h3, Function.update_self, Function.update_self]
  have h4 : S.ldot (((1 / ∑ l, S.ldot (S.denomVec p l) (S.deltaG p l)) • S.denomVec p) l) (S.deltaG p l) = share := by
    rw [Pi.smul_apply, hl.smul_left, one_div_mul_eq_div]
  rw [h4]
  have h5 : (S.deltaX p - S.jacProd p.2 (S.deltaG p)) l = cl := rfl
  rw [h5]
  have h6 : S.deltaX p l = cl + S.jacProd p.2 (S.deltaG p) l := by simp [cl]
  rw [h6, h2, sub_smul, one_smul]
  abel

/-- The `n`-th iterate. -/
def iter (S : Broyden K E L) (x0 : L → E) (n : ℕ) : (L → E) × BroydenState K E L :=
  S.update^[n] (x0, S.initState x0)

theorem iter_succ (S : Broyden K E L) (x0 : L → E) (n : ℕ) : S.iter x0 (n + 1) = S.update (S.iter x0 n) := by
  simp only [iter, Function.iterate_succ_apply']

theorem iterNum_iter (S : Broyden K E L) (x0 : L → E) (n : ℕ) : (S.iter x0 n).2.iterNum = n := by
  induction n with
  | zero => rfl
  | succ n ih => rw [iter_succ]; simp only [update, ih]

theorem empty_iter (S : Broyden K E L) (x0 : L → E) (n : ℕ) (hn : n ≤ S.historySize) (j : ℕ) (hj : n ≤ j)
    (hjm : j < S.historySize) : (S.iter x0 n).2.d j = 0 ∧ (S.iter x0 n).2.c j = 0 := by
  induction n with
  | zero => exact ⟨rfl, rfl⟩
  | succ n ih =>
    obtain ⟨h1, h2⟩ := ih (by omega) (by omega)
    rw [iter_succ]
    have hne : j ≠ (n % S.historySize + S.historySize) % S.historySize := by
      rw [Nat.add_mod_right, Nat.mod_mod, Nat.mod_eq_of_lt (by omega)]; omega
    simp only [update, iterNum_iter]
    rw [Function.update_of_ne hne, Function.update_of_ne hne]
    exact ⟨h1, h2⟩

/-- **C27 (partial).** For parameters consisting of one leaf, along any run (any function, stepsize, line search) the
inverse-Jacobian approximation after each of the first `history_size` updates maps the last residual difference to the last
step, provided the update is defined (non-zero denominator).  Missing with respect to C27: several leaves and later updates,
for which the claim is false (below). -/
theorem C27_broyden_partial [Unique L] (S : Broyden K E L) (hl : IsVdot S.ldot) (x0 : L → E) (n : ℕ)
    (hn : n < S.historySize)
    (hden : S.ldot (S.denomVec (S.iter x0 n) default) (S.deltaG (S.iter x0 n) default) ≠ 0) :
    S.jacProd (S.iter x0 (n + 1)).2 ((S.iter x0 (n + 1)).2.value - (S.iter x0 n).2.value) =
      (S.iter x0 (n + 1)).1 - (S.iter x0 n).1 := by
  rw [iter_succ]
  funext l
  have h := C27_defect S hl (by omega) (S.iter x0 n) (by rw [Fintype.sum_unique]; exact hden) l
  obtain ⟨h1, h2⟩ := empty_iter S x0 n (by omega) n le_rfl hn
  have hl' : l = default := Subsingleton.elim _ _
  subst hl'
  rw [Fintype.sum_unique, div_self hden] at h
  simp only [iterNum_iter, Nat.mod_eq_of_lt hn, h1, h2, sub_self, zero_smul, Pi.zero_apply, smul_zero, sub_zero] at h
  exact h

/-- A linear problem `(x, y) ↦ (2x, 3y)` whose two coordinates are two leaves. -/
def exLeaves : Broyden ℚ ℚ Bool where
  f := fun x b => if b then 2 * x b else 3 * x b
  ldot := fun x y => x * y
  norm := fun x => |x true| + |x false|
  historySize := 5
  gamma := 1
  stepsize := .const 1
  maxStepsize := 1
  minStepsize := 1 / 1000000
  increaseFactor := 3 / 2
  runLs := fun s x v d => ⟨s, x, v, true⟩

/-- **C27 fails for two leaves**, already at the first update, with a non-zero denominator. -/
theorem C27_leaves_false :
    ¬ ∀ (S : Broyden ℚ ℚ Bool) (x0 : Bool → ℚ) (n : ℕ), IsVdot S.ldot → n < S.historySize →
      (∑ l, S.ldot (S.denomVec (S.iter x0 n) l) (S.deltaG (S.iter x0 n) l)) ≠ 0 →
      S.jacProd (S.iter x0 (n + 1)).2 ((S.iter x0 (n + 1)).2.value - (S.iter x0 n).2.value) =
        (S.iter x0 (n + 1)).1 - (S.iter x0 n).1 := by
  intro h
  have := congrFun (h exLeaves (fun _ => 1) 0 IsVdot.mul (by decide) (by decide +kernel)) true
  revert this
  decide +kernel

/-- The scalar equation `x² - 2 = 0` with one memory slot. -/
def exHist (m : ℕ) : Broyden ℚ ℚ Unit where
  f := fun x _ => x () * x () - 2
  ldot := fun x y => x * y
  norm := fun x => |x ()|
  historySize := m
  gamma := 1 / 2
  stepsize := .const 1
  maxStepsize := 1
  minStepsize := 1 / 1000000
  increaseFactor := 3 / 2
  runLs := fun s x v d => ⟨s, x, v, true⟩

/-- **C27 fails once the buffer overflows**, even for a scalar unknown and a non-zero denominator. -/
theorem C27_history_false :
    ¬ ∀ (S : Broyden ℚ ℚ Unit) (x0 : Unit → ℚ) (n : ℕ), IsVdot S.ldot → 1 ≤ S.historySize →
      S.ldot (S.denomVec (S.iter x0 n) ()) (S.deltaG (S.iter x0 n) ()) ≠ 0 →
      S.jacProd (S.iter x0 (n + 1)).2 ((S.iter x0 (n + 1)).2.value - (S.iter x0 n).2.value) =
        (S.iter x0 (n + 1)).1 - (S.iter x0 n).1 := by
  intro h
  have := congrFun (h (exHist 1) (fun _ => 1) 1 IsVdot.mul (by decide) (by decide +kernel)) ()
  revert this
  decide +kernel

/-- The hypotheses of `C27_broyden_partial` hold at the third update of a run with three slots, and the iterates move. -/
example : (exHist 3).ldot ((exHist 3).denomVec ((exHist 3).iter (fun _ => 1) 2) ())
      ((exHist 3).deltaG ((exHist 3).iter (fun _ => 1) 2) ()) ≠ 0 ∧
    ((exHist 3).iter (fun _ => 1) 3).1 () ≠ ((exHist 3).iter (fun _ => 1) 2).1 () := by decide +kernel

end Jaxopt.QuasiNewton.Broyden
