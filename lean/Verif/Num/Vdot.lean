import Mathlib.Algebra.Module.Basic
import Mathlib.Algebra.Module.Prod
import Mathlib.Algebra.Order.Field.Basic
import Mathlib.Tactic.TypeStar
import Mathlib.Tactic.Ring
import Mathlib.Tactic.Linarith
import Mathlib.Tactic.Positivity

set_option autoImplicit false
set_option linter.unusedSectionVars false
set_option linter.unusedVariables false

/-!
# The laws of `tree_vdot`

`tree_vdot` (`/repo/jaxopt/_src/tree_util.py`, lines 101-116) is a parameter of the models of the
solvers: they only need that it is a (real) inner product. `Verif/Tree` proves these laws for the
leaf-wise sum the code computes.
-/

namespace Jaxopt

/-- `vdot` is an inner product over the ordered field `K`. -/
structure IsVdot {K E : Type*} [Field K] [LinearOrder K] [IsStrictOrderedRing K]
    [AddCommGroup E] [Module K E] (vdot : E → E → K) : Prop where
  add_left : ∀ x y z, vdot (x + y) z = vdot x z + vdot y z
  smul_left : ∀ (a : K) x z, vdot (a • x) z = a * vdot x z
  symm : ∀ x y, vdot x y = vdot y x
  pos : ∀ x, x ≠ 0 → 0 < vdot x x

namespace IsVdot

variable {K E : Type*} [Field K] [LinearOrder K] [IsStrictOrderedRing K]
  [AddCommGroup E] [Module K E] {vdot : E → E → K}

theorem add_right (h : IsVdot vdot) (x y z : E) : vdot x (y + z) = vdot x y + vdot x z := by
  rw [h.symm, h.add_left, h.symm y, h.symm z]

theorem smul_right (h : IsVdot vdot) (a : K) (x z : E) : vdot x (a • z) = a * vdot x z := by
  rw [h.symm, h.smul_left, h.symm z]

theorem zero_left (h : IsVdot vdot) (x : E) : vdot 0 x = 0 := by
  have := h.smul_left 0 0 x
  simpa using this

theorem zero_right (h : IsVdot vdot) (x : E) : vdot x 0 = 0 := by
  rw [h.symm, h.zero_left]

theorem neg_left (h : IsVdot vdot) (x y : E) : vdot (-x) y = -vdot x y := by
  have := h.smul_left (-1) x y
  simpa using this

theorem neg_right (h : IsVdot vdot) (x y : E) : vdot x (-y) = -vdot x y := by
  rw [h.symm, h.neg_left, h.symm]

theorem sub_left (h : IsVdot vdot) (x y z : E) : vdot (x - y) z = vdot x z - vdot y z := by
  rw [sub_eq_add_neg, h.add_left, h.neg_left, ← sub_eq_add_neg]

theorem sub_right (h : IsVdot vdot) (x y z : E) : vdot x (y - z) = vdot x y - vdot x z := by
  rw [h.symm, h.sub_left, h.symm y, h.symm z]

theorem nonneg (h : IsVdot vdot) (x : E) : 0 ≤ vdot x x := by
  rcases eq_or_ne x 0 with rfl | hx
  · rw [h.zero_left]
  · exact (h.pos x hx).le

theorem eq_zero (h : IsVdot vdot) {x : E} (hx : vdot x x = 0) : x = 0 := by
  by_contra hne
  exact (h.pos x hne).ne' hx

theorem self_eq_zero (h : IsVdot vdot) {x : E} : vdot x x = 0 ↔ x = 0 :=
  ⟨h.eq_zero, fun e => by rw [e, h.zero_left]⟩

/-- Cauchy-Schwarz, over any ordered field. -/
theorem cauchy (h : IsVdot vdot) (x y : E) :
    vdot x y * vdot x y ≤ vdot x x * vdot y y := by
  rcases eq_or_ne y 0 with rfl | hy
  · rw [h.zero_right, h.zero_right]; simp
  · have hp := h.pos y hy
    have := h.nonneg (vdot y y • x - vdot x y • y)
    simp only [h.sub_left, h.sub_right, h.smul_left, h.smul_right, h.symm y x] at this
    have h2 : 0 ≤ vdot y y * (vdot x x * vdot y y - vdot x y * vdot x y) := by linarith
    have h3 := nonneg_of_mul_nonneg_right h2 hp
    linarith

/-- The product of numbers is an inner product. -/
theorem mul : IsVdot (K := K) (E := K) (fun x y => x * y) where
  add_left := fun x y z => add_mul x y z
  smul_left := fun a x z => by simp [mul_assoc]
  symm := fun x y => mul_comm x y
  pos := fun x hx => mul_self_pos.mpr hx

/-- The dot product of pairs is an inner product. -/
theorem prod {E₂ : Type*} [AddCommGroup E₂] [Module K E₂] {vdot₂ : E₂ → E₂ → K}
    (h : IsVdot vdot) (h₂ : IsVdot vdot₂) :
    IsVdot (K := K) (E := E × E₂) (fun x y => vdot x.1 y.1 + vdot₂ x.2 y.2) where
  add_left := fun x y z => by
    simp only [Prod.fst_add, Prod.snd_add, h.add_left, h₂.add_left]; ring
  smul_left := fun a x z => by
    simp only [Prod.smul_fst, Prod.smul_snd, h.smul_left, h₂.smul_left]; ring
  symm := fun x y => by rw [h.symm, h₂.symm]
  pos := fun x hx => by
    by_cases h1 : x.1 = 0
    · have h2 : x.2 ≠ 0 := fun e => hx (Prod.ext h1 e)
      have := h₂.pos _ h2
      have := h.nonneg x.1
      linarith
    · have := h.pos _ h1
      have := h₂.nonneg x.2
      linarith

end IsVdot

end Jaxopt
