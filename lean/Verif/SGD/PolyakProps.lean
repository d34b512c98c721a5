import Verif.SGD.Polyak
import Verif.Base.Util
import Mathlib.Analysis.InnerProductSpace.Basic
import Mathlib.Tactic.FieldSimp

/-!
# Property C23: PolyakSGD step sizes and progress
-/

set_option autoImplicit false
set_option linter.unusedSectionVars false
set_option linter.unusedVariables false

namespace Jaxopt.SGD

section
variable {K E D : Type*} [Field K] [LinearOrder K] [IsStrictOrderedRing K] [AddCommGroup E] [Module K E]

theorem Polyak.update_step (s : Polyak K E D) (b : D) (x : E) (st : PState K E) (r : Option E × PState K E)
    (h : s.update b x st = .ok r) :
    s.stepsize (s.f b x) (s.sqnorm (s.grad b x)) = .ok r.2.stepsize ∧
    (s.momentum = 0 → ∀ t, r.2.stepsize = .fin t → r.1 = some (x - t • s.grad b x)) ∧
    (s.momentum ≠ 0 → ∀ t, r.2.stepsize = .fin t →
      r.1 = some (x + (s.momentum • st.velocity.getD 0 - t • s.grad b x))) := by
  unfold Polyak.update at h
  cases hs : s.stepsize (s.f b x) (s.sqnorm (s.grad b x)) with
  | error e => simp [hs] at h
  | ok t =>
    simp only [hs] at h
    split_ifs at h with hm
    · cases h
      refine ⟨rfl, fun _ u hu => ?_, fun hc => absurd hm hc⟩
      simp only at hu
      subst hu
      simp [sub_eq_add_neg]
    · cases h
      refine ⟨rfl, fun hc => absurd hc hm, fun _ u hu => ?_⟩
      simp only at hu
      subst hu
      rfl

/-- **C23** (state).  Whatever the momentum, the stored value and error are the objective and the gradient norm at the parameters before
the step, the counter advances, and a velocity is stored exactly with momentum; it is the displacement of the parameters, so the iterates
follow the heavy-ball recursion. -/
theorem C23_state (s : Polyak K E D) (b : D) (x : E) (st : PState K E) (r : Option E × PState K E) (h : s.update b x st = .ok r) :
    r.2.value = s.f b x ∧ r.2.error = .fin (s.sqrt (s.sqnorm (s.grad b x))) ∧ r.2.iterNum = st.iterNum + 1 ∧
    (s.momentum = 0 → r.2.velocity = none) ∧
    (s.momentum ≠ 0 → ∀ x', r.1 = some x' → r.2.velocity = some (x' - x)) := by
  unfold Polyak.update at h
  cases hs : s.stepsize (s.f b x) (s.sqnorm (s.grad b x)) with
  | error e => simp [hs] at h
  | ok t =>
    simp only [hs] at h
    split_ifs at h with hm
    · cases h
      exact ⟨rfl, rfl, rfl, fun _ => rfl, fun hc => absurd hm hc⟩
    · cases h
      refine ⟨rfl, rfl, rfl, fun hc => absurd hc hm, fun _ x' hx' => ?_⟩
      simp only [Option.map_eq_some_iff] at hx'
      obtain ⟨v, hv, e⟩ := hx'
      simp only [hv]
      rw [← e, add_sub_cancel_left]

/-- **C23** (variants).  Only the two documented variants are accepted. -/
theorem C23_variant (s : Polyak K E D) (b : D) (x : E) (st : PState K E) :
    (∃ r, s.update b x st = .ok r) ↔ s.variant = "SPS_max" ∨ s.variant = "SPS+" := by
  unfold Polyak.update Polyak.stepsize
  by_cases h1 : s.variant = "SPS_max"
  · simp only [h1, if_true]
    split_ifs <;> simp
  · by_cases h2 : s.variant = "SPS+"
    · simp only [h2, if_true]
      split_ifs <;> simp_all
    · simp [h1, h2]

/-- **C23** (SPS_max bound).  Unless it is NaN, the SPS_max step never exceeds `max_stepsize`; it is a number whenever the
objective value is a number and `‖grad‖² + delta > 0`. -/
theorem C23_sps_max (s : Polyak K E D) (hv : s.variant = "SPS_max") (b : D) (x : E) (st : PState K E)
    (r : Option E × PState K E) (h : s.update b x st = .ok r) :
    (r.2.stepsize = .nan ∨ r.2.stepsize.AtMost s.maxStepsize) ∧
    (s.f b x ≠ .nan → 0 < s.sqnorm (s.grad b x) + s.delta → r.2.stepsize ≠ .nan) := by
  have h1 := (Polyak.update_step s b x st r h).1
  unfold Polyak.stepsize at h1
  rw [if_pos hv] at h1
  cases h2 : Ext.min (divNonneg (Ext.sub (s.f b x) (.fin s.funMin)) (s.sqnorm (s.grad b x) + s.delta)) (.fin s.maxStepsize)
  all_goals
    rw [h2] at h1
    injection h1 with h1
    rw [← h1]
  · refine ⟨Or.inl rfl, fun hn hp => ?_⟩
    exfalso
    clear h1 h
    cases hf : s.f b x with
    | nan => exact hn hf
    | fin y => rw [hf] at h2; simp [divNonneg, Ext.sub, Ext.add, Ext.neg, Ext.min, ne_of_gt hp] at h2
    | _ => rw [hf] at h2; simp [divNonneg, Ext.sub, Ext.add, Ext.neg, Ext.min] at h2
  · exact ⟨Or.inr trivial, fun _ _ => by simp⟩
  · rename_i y
    refine ⟨Or.inr ?_, fun _ _ => by simp⟩
    show y ≤ _
    cases h3 : divNonneg (Ext.sub (s.f b x) (.fin s.funMin)) (s.sqnorm (s.grad b x) + s.delta) <;>
      rw [h3] at h2 <;> simp [Ext.min] at h2
    · rw [← h2]; exact min_le_right _ _
    · rw [← h2]
  · exfalso
    cases h3 : divNonneg (Ext.sub (s.f b x) (.fin s.funMin)) (s.sqnorm (s.grad b x) + s.delta) <;>
      rw [h3] at h2 <;> simp [Ext.min] at h2

/-- **C23** (SPS+).  At a finite value the SPS+ step is a non-negative number, equal to zero (and the parameters do not move
without momentum) when the squared gradient norm is at most the machine epsilon, in particular at a zero gradient. -/
theorem C23_sps_plus (s : Polyak K E D) (hv : s.variant = "SPS+") (heps : 0 ≤ s.eps) (b : D) (x : E) (st : PState K E)
    (v : K) (hf : s.f b x = .fin v) (r : Option E × PState K E) (h : s.update b x st = .ok r) :
    (∃ t, r.2.stepsize = .fin t ∧ 0 ≤ t) ∧
    (s.sqnorm (s.grad b x) ≤ s.eps → r.2.stepsize = .fin 0 ∧ (s.momentum = 0 → r.1 = some x)) := by
  obtain ⟨h1, h2, _⟩ := Polyak.update_step s b x st r h
  unfold Polyak.stepsize at h1
  have hne : ¬ s.variant = "SPS_max" := by rw [hv]; decide
  rw [if_neg hne, if_pos hv] at h1
  split_ifs at h1 with hg
  · injection h1 with h1
    refine ⟨⟨0, h1.symm, le_refl _⟩, fun _ => ⟨h1.symm, fun hm => ?_⟩⟩
    rw [h2 hm 0 h1.symm]; simp
  · injection h1 with h1
    refine ⟨?_, fun hc => absurd hc hg⟩
    have hg0 : s.sqnorm (s.grad b x) ≠ 0 := by
      intro h0; rw [h0] at hg; exact hg heps
    rw [hf] at h1
    simp only [Ext.sub, Ext.neg, Ext.add, divNonneg, if_neg hg0, Ext.max] at h1
    exact ⟨_, h1.symm, le_max_right _ _⟩

end

section
variable {V D : Type*} [NormedAddCommGroup V] [InnerProductSpace ℝ V]

/-- `g` is a subgradient of `f` at `x`: for differentiable convex `f` this is the gradient. -/
def IsSubgradientAt (f : V → ℝ) (g x : V) : Prop := ∀ y, f x + inner ℝ g (y - x) ≤ f y

/-- **C23** (progress).  For a convex objective with minimum value `fun_min`, an update without momentum brings the
parameters closer to *every* minimiser: the squared distance drops by at least `stepsize * (f(x) - fun_min) ≥ 0`.
`‖grad‖² + delta` must be positive for SPS_max (see `C23_zero_gradient_false`). -/
theorem C23_distance (s : Polyak ℝ V D) (hmom : s.momentum = 0) (F : D → V → ℝ) (hF : ∀ b x, s.f b x = .fin (F b x))
    (hsq : ∀ g, s.sqnorm g = ‖g‖ ^ 2) (heps : 0 ≤ s.eps) (hdelta : 0 ≤ s.delta) (hmax : 0 ≤ s.maxStepsize)
    (b : D) (x : V) (hsub : IsSubgradientAt (F b) (s.grad b x) x) (hmin : ∀ y, s.funMin ≤ F b y)
    (hpos : s.variant = "SPS_max" → 0 < ‖s.grad b x‖ ^ 2 + s.delta)
    (xs : V) (hxs : F b xs = s.funMin) (st : PState ℝ V) (r : Option V × PState ℝ V) (h : s.update b x st = .ok r) :
    ∃ t x', r.2.stepsize = .fin t ∧ r.1 = some x' ∧ 0 ≤ t ∧
      ‖x' - xs‖ ^ 2 ≤ ‖x - xs‖ ^ 2 - t * (F b x - s.funMin) ∧ ‖x' - xs‖ ≤ ‖x - xs‖ := by
  obtain ⟨h1, h2, _⟩ := Polyak.update_step s b x st r h
  have hgap : 0 ≤ F b x - s.funMin := by linarith [hmin x]
  -- the step is a number t with 0 ≤ t and t ‖g‖² ≤ gap
  have key : ∃ t, r.2.stepsize = .fin t ∧ 0 ≤ t ∧ t * ‖s.grad b x‖ ^ 2 ≤ F b x - s.funMin := by
    unfold Polyak.stepsize at h1
    by_cases hv : s.variant = "SPS_max"
    · rw [if_pos hv] at h1
      injection h1 with h1
      have hp := hpos hv
      rw [hF, hsq] at h1
      simp only [Ext.sub, Ext.neg, Ext.add, divNonneg, if_neg (ne_of_gt hp), Ext.min] at h1
      refine ⟨_, h1.symm, le_min (div_nonneg (by linarith) (le_of_lt hp)) hmax, ?_⟩
      have hle : min ((F b x + -s.funMin) / (‖s.grad b x‖ ^ 2 + s.delta)) s.maxStepsize ≤
          (F b x - s.funMin) / (‖s.grad b x‖ ^ 2 + s.delta) := min_le_left _ _
      calc _ ≤ (F b x - s.funMin) / (‖s.grad b x‖ ^ 2 + s.delta) * ‖s.grad b x‖ ^ 2 :=
            mul_le_mul_of_nonneg_right hle (by positivity)
        _ ≤ (F b x - s.funMin) / (‖s.grad b x‖ ^ 2 + s.delta) * (‖s.grad b x‖ ^ 2 + s.delta) :=
            mul_le_mul_of_nonneg_left (by linarith) (div_nonneg hgap (le_of_lt hp))
        _ = F b x - s.funMin := div_mul_cancel₀ _ (ne_of_gt hp)
    · by_cases hv2 : s.variant = "SPS+"
      · rw [if_neg hv, if_pos hv2] at h1
        rw [hsq] at h1
        split_ifs at h1 with hg
        · injection h1 with h1
          exact ⟨0, h1.symm, le_refl _, by simpa using hgap⟩
        · injection h1 with h1
          have hg0 : 0 < ‖s.grad b x‖ ^ 2 := by
            rw [not_le] at hg; linarith
          rw [hF] at h1
          simp only [Ext.sub, Ext.neg, Ext.add, divNonneg, if_neg (ne_of_gt hg0), Ext.max] at h1
          have e : max ((F b x + -s.funMin) / ‖s.grad b x‖ ^ 2) 0 = (F b x - s.funMin) / ‖s.grad b x‖ ^ 2 := by
            rw [← sub_eq_add_neg]; exact max_eq_left (div_nonneg hgap (le_of_lt hg0))
          rw [e] at h1
          exact ⟨_, h1.symm, div_nonneg hgap (le_of_lt hg0), le_of_eq (div_mul_cancel₀ _ (ne_of_gt hg0))⟩
      · rw [if_neg hv, if_neg hv2] at h1; cases h1
  obtain ⟨t, ht, ht0, htg⟩ := key
  have hx' := h2 hmom t ht
  have hin : F b x - s.funMin ≤ inner ℝ (s.grad b x) (x - xs) := by
    have := hsub xs
    rw [hxs, ← neg_sub x xs, inner_neg_right] at this
    linarith
  have e : ‖x - t • s.grad b x - xs‖ ^ 2 =
      ‖x - xs‖ ^ 2 - 2 * t * inner ℝ (s.grad b x) (x - xs) + t * (t * ‖s.grad b x‖ ^ 2) := by
    have : x - t • s.grad b x - xs = (x - xs) - t • s.grad b x := by abel
    rw [this, norm_sub_sq_real, inner_smul_right, norm_smul, mul_pow, Real.norm_eq_abs, sq_abs,
      real_inner_comm (s.grad b x) (x - xs)]
    ring
  have hfin : ‖x - t • s.grad b x - xs‖ ^ 2 ≤ ‖x - xs‖ ^ 2 - t * (F b x - s.funMin) := by
    rw [e]
    have h3 := mul_le_mul_of_nonneg_left hin ht0
    have h4 := mul_le_mul_of_nonneg_left htg ht0
    nlinarith
  refine ⟨t, _, ht, hx', ht0, hfin, ?_⟩
  have h5 : ‖x - t • s.grad b x - xs‖ ^ 2 ≤ ‖x - xs‖ ^ 2 := by
    have := mul_nonneg ht0 hgap
    linarith
  exact le_of_sq_le_sq h5 (norm_nonneg _)
where
  le_of_sq_le_sq {a b : ℝ} (h : a ^ 2 ≤ b ^ 2) (hb : 0 ≤ b) : a ≤ b := by
    by_contra hc
    rw [not_le] at hc
    nlinarith

end

/-- Example on `ℚ`: objective `x² / 2`, minimum `0`. -/
def examplePolyak (variant : String) (delta : ℚ) : Polyak ℚ ℚ Unit :=
  { f := fun _ x => .fin (x * x / 2), grad := fun _ x => x, sqnorm := fun g => g * g, sqrt := fun g => g, funMin := 0,
    variant := variant, maxStepsize := 1, delta := delta, momentum := 0, eps := 1 / 1000000 }

/-- Non-vacuity: one update from `1` goes to `1/2`, for both variants. -/
example : ((examplePolyak "SPS_max" 0).update () 1 (examplePolyak "SPS_max" 0).initState).toOption.map
    (fun r => (r.1, r.2.stepsize)) = some (some (1 / 2), .fin (1 / 2)) := by decide +kernel
example : ((examplePolyak "SPS+" 0).update () 1 (examplePolyak "SPS+" 0).initState).toOption.map
    (fun r => (r.1, r.2.stepsize)) = some (some (1 / 2), .fin (1 / 2)) := by decide +kernel

/-- At the minimiser the default variant (`SPS_max`, `delta = 0`) computes `0 / 0`: the parameters become NaN. -/
theorem C23_zero_gradient_false : ¬ ∀ (s : Polyak ℚ ℚ Unit) (x : ℚ) (st : PState ℚ ℚ) (r : Option ℚ × PState ℚ ℚ),
    s.sqnorm (s.grad () x) = 0 → s.momentum = 0 → s.update () x st = .ok r → r.2.stepsize = .fin 0 ∨ r.1 = some x := by
  intro hall
  obtain ⟨r, e, f⟩ := ok_of_toOption (x := (examplePolyak "SPS_max" 0).update () 0 (examplePolyak "SPS_max" 0).initState)
    (φ := fun r => (r.1, r.2.stepsize)) (v := (none, .nan)) (by decide +kernel)
  simp only [Prod.mk.injEq] at f
  have h := hall (examplePolyak "SPS_max" 0) 0 _ r (by decide +kernel) rfl e
  rw [f.1, f.2] at h
  rcases h with h | h <;> cases h

end Jaxopt.SGD
