import Verif.Num.ExtArith

/-!
# Floating-point formats

An abstract format: a set of finite numbers and a monotone rounding function that leaves them unchanged and may overflow.  Every IEEE format with every
rounding direction is one (without the distinction of the two zeros).
-/

set_option autoImplicit false
set_option linter.unusedSectionVars false

namespace Jaxopt

variable {K : Type*} [Field K] [LinearOrder K]

/-- The finite numbers of the format and rounding to it. -/
structure Format (K : Type*) [Field K] [LinearOrder K] where
  mem : K → Prop
  round : K → Ext K
  mono : ∀ {x y}, x ≤ y → Ext.le (round x) (round y) = true
  exact : ∀ {x}, mem x → round x = .fin x
  mem_round : ∀ {x y}, round x = .fin y → mem y

namespace Format

/-- Rounding of the result of an operation; NaN and infinities are kept. -/
def rnd (F : Format K) : Ext K → Ext K
  | .fin x => F.round x
  | v => v

/-- `a + b` in the format. -/
def add (F : Format K) (a b : Ext K) : Ext K := F.rnd (Ext.add a b)

/-- `c * a` in the format, for a finite constant `c`. -/
def smul (F : Format K) (c : K) (a : Ext K) : Ext K := F.rnd (Ext.smul c a)

/-- Exact arithmetic. -/
def ideal : Format K where
  mem := fun _ => True
  round := .fin
  mono := fun h => by simpa [Ext.le] using h
  exact := fun _ => rfl
  mem_round := fun _ => trivial

/-- Rounding a number between two numbers of the format gives a number of the format between them. -/
theorem round_between (F : Format K) {a x b : K} (ha : F.mem a) (hb : F.mem b) (h1 : a ≤ x) (h2 : x ≤ b) :
    ∃ y, F.round x = .fin y ∧ F.mem y ∧ a ≤ y ∧ y ≤ b := by
  have l1 := F.mono h1
  have l2 := F.mono h2
  rw [F.exact ha] at l1
  rw [F.exact hb] at l2
  cases h : F.round x with
  | fin y =>
    rw [h] at l1 l2
    simp only [Ext.le, decide_eq_true_eq] at l1 l2
    exact ⟨y, rfl, F.mem_round h, l1, l2⟩
  | _ => rw [h] at l1 l2; simp [Ext.le] at l1 l2

end Format

end Jaxopt
