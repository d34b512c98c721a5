import Verif.Proj.BoxSectionInf
import Verif.Proj.Props
import Verif.Proj.BoxSection
import Verif.Loss.MaskedProps

/-!
# C141: the box-section projection with infinite bounds
-/

set_option autoImplicit false
set_option linter.unusedSectionVars false
set_option linter.unusedVariables false

namespace Jaxopt.Proj.BoxInf

open Jaxopt.Loss

variable {K : Type*} [Field K] [LinearOrder K] [IsStrictOrderedRing K] {n : ℕ}

/-! ## Specification -/

/-- A finite number or an infinite upper bound. -/
def High (v : Ext K) : Prop := v = .pinf ∨ ∃ y, v = .fin y

/-! ## Brackets -/

theorem foldr_min_high {l : List (Ext K)} (h : ∀ v ∈ l, High v) : High (l.foldr Ext.min .pinf) := by
  induction l with
  | nil => exact Or.inl rfl
  | cons a l ih =>
    rw [List.foldr_cons]
    rcases h a (by simp) with rfl | ⟨y, rfl⟩ <;> rcases ih fun v hv => h v (by simp [hv]) with e | ⟨z, e⟩ <;> rw [e]
    · exact Or.inl rfl
    · exact Or.inr ⟨z, rfl⟩
    · exact Or.inr ⟨y, rfl⟩
    · exact Or.inr ⟨_, rfl⟩

theorem foldr_min_ninf {l : List (Ext K)} (h : ∀ v ∈ l, Low v) (hm : Ext.ninf ∈ l) : l.foldr Ext.min .pinf = .ninf := by
  have key : ∀ l : List (Ext K), (∀ v ∈ l, Low v) → l.foldr Ext.min .pinf ≠ .nan := fun l => by
    induction l with
    | nil => intro _; simp
    | cons a l ih =>
      intro h
      have h2 := ih fun v hv => h v (by simp [hv])
      rw [List.foldr_cons]
      rcases h a (by simp) with rfl | ⟨y, rfl⟩ <;> revert h2 <;> cases l.foldr Ext.min .pinf <;> simp [Ext.min]
  induction l with
  | nil => simp at hm
  | cons a l ih =>
    rw [List.foldr_cons]
    have h2 := key l fun v hv => h v (by simp [hv])
    rcases List.mem_cons.1 hm with rfl | hm
    · revert h2
      cases l.foldr Ext.min .pinf <;> simp [Ext.min]
    · rw [ih (fun v hv => h v (by simp [hv])) hm]
      rcases h a (by simp) with rfl | ⟨y, rfl⟩ <;> rfl

variable {x w : Fin n → K} {alpha beta : Fin n → Ext K} {c : K}

theorem quot_pinf {i : Fin n} (hw : 0 < w i) : Ext.smul (w i)⁻¹ (Ext.sub .pinf (.fin (x i))) = .pinf := by
  show (if 0 < (w i)⁻¹ then Ext.pinf else _) = _
  rw [if_pos (inv_pos.2 hw)]

theorem quot_ninf {i : Fin n} (hw : 0 < w i) : Ext.smul (w i)⁻¹ (Ext.sub .ninf (.fin (x i))) = .ninf := by
  show (if 0 < (w i)⁻¹ then Ext.ninf else _) = _
  rw [if_pos (inv_pos.2 hw)]

theorem upper_pinf (hw : ∀ i, 0 < w i) (hb : ∀ i, High (beta i)) (h : ∃ i, beta i = .pinf) : upperE x beta w = .pinf := by
  obtain ⟨i, hi⟩ := h
  refine max_pinf (fun v hv => ?_) (List.mem_ofFn.mpr ⟨i, by rw [hi]; exact quot_pinf (hw i)⟩)
  obtain ⟨j, rfl⟩ := List.mem_ofFn.mp hv
  rcases hb j with e | ⟨y, e⟩ <;> rw [e]
  · exact Or.inl (quot_pinf (hw j))
  · exact Or.inr ⟨_, rfl⟩

theorem lower_ninf (hw : ∀ i, 0 < w i) (ha : ∀ i, Low (alpha i)) (h : ∃ i, alpha i = .ninf) : lowerE x alpha w = .ninf := by
  obtain ⟨i, hi⟩ := h
  refine foldr_min_ninf (fun v hv => ?_) (List.mem_ofFn.mpr ⟨i, by rw [hi]; exact quot_ninf (hw i)⟩)
  obtain ⟨j, rfl⟩ := List.mem_ofFn.mp hv
  rcases ha j with e | ⟨y, e⟩ <;> rw [e]
  · exact Or.inl (quot_ninf (hw j))
  · exact Or.inr ⟨_, rfl⟩

theorem half_pinf {v : Ext K} (h : High v) : Ext.smul (1 / 2 : K) (Ext.add .pinf v) = .pinf := by
  rcases h with rfl | ⟨y, rfl⟩
  all_goals
    show (if (0 : K) < 1 / 2 then Ext.pinf else _) = _
    rw [if_pos (by norm_num)]

theorem half_ninf {v : Ext K} (h : Low v) : Ext.smul (1 / 2 : K) (Ext.add v .ninf) = .ninf := by
  rcases h with rfl | ⟨y, rfl⟩
  all_goals
    show (if (0 : K) < 1 / 2 then Ext.ninf else _) = _
    rw [if_pos (by norm_num)]

theorem bracket_upper (f : Ext K → Ext K) (sign : K) {low : Ext K} (h : High low) (k : ℕ) :
    High (bracketAfterE f sign (low, .pinf) k).1 ∧ (bracketAfterE f sign (low, .pinf) k).2 = .pinf := by
  induction k with
  | zero => exact ⟨h, rfl⟩
  | succ k ih =>
    obtain ⟨h1, h2⟩ := ih
    show High (updateE f sign _).2.1 ∧ (updateE f sign _).2.2 = .pinf
    unfold updateE
    rw [h2, half_pinf h1]
    simp only
    refine ⟨?_, by split_ifs <;> rfl⟩
    split_ifs
    · exact h1
    · exact Or.inl rfl

theorem bracket_lower (f : Ext K → Ext K) (sign : K) {high : Ext K} (h : Low high) (k : ℕ) :
    Low (bracketAfterE f sign (.ninf, high) k).2 ∧ (bracketAfterE f sign (.ninf, high) k).1 = .ninf := by
  induction k with
  | zero => exact ⟨h, rfl⟩
  | succ k ih =>
    obtain ⟨h1, h2⟩ := ih
    show Low (updateE f sign _).2.2 ∧ (updateE f sign _).2.1 = .ninf
    unfold updateE
    rw [h2, half_ninf h1]
    simp only
    refine ⟨?_, by split_ifs <;> rfl⟩
    split_ifs
    · exact Or.inl rfl
    · exact h1

theorem half_nan {v : Ext K} (h : v = .ninf ∨ v = .nan) : Ext.smul (1 / 2 : K) (Ext.add .pinf v) = .nan := by
  rcases h with rfl | rfl <;> rfl

theorem point_nan (i : Fin n) : pointE x alpha beta w .nan i = .nan := by
  unfold pointE clipE
  show Ext.min (Ext.max .nan _) _ = _
  cases alpha i <;> cases beta i <;> rfl

theorem fun_nan (i : Fin n) : funE x alpha beta w c .nan = .nan := by
  unfold funE dotE
  rw [sumE_nan (List.mem_ofFn.mpr ⟨i, by rw [point_nan]; rfl⟩)]
  rfl

theorem bracket_both (i : Fin n) (sign : K) (k : ℕ) :
    ((bracketAfterE (funE x alpha beta w c) sign (.ninf, .pinf) k).1 = .ninf ∨ (bracketAfterE (funE x alpha beta w c) sign (.ninf, .pinf) k).1 = .nan) ∧
      (bracketAfterE (funE x alpha beta w c) sign (.ninf, .pinf) k).2 = .pinf := by
  induction k with
  | zero => exact ⟨Or.inl rfl, rfl⟩
  | succ k ih =>
    obtain ⟨h1, h2⟩ := ih
    have hg : Ext.gt (Ext.smul sign (Ext.nan : Ext K)) (.fin 0) = false := rfl
    show ((updateE _ sign _).2.1 = .ninf ∨ (updateE _ sign _).2.1 = .nan) ∧ (updateE _ sign _).2.2 = .pinf
    unfold updateE
    rw [h2, half_nan h1]
    simp only [fun_nan i, hg, Bool.false_eq_true, if_false]
    exact ⟨Or.inr trivial, trivial⟩

/-! ## Finite bounds -/

theorem foldr_min_fin (g : Fin (n + 1) → K) : (List.ofFn fun i => Ext.fin (g i)).foldr Ext.min .pinf = .fin (Finset.univ.inf' Finset.univ_nonempty g) := by
  have key : ∀ l : List K, l ≠ [] → ∃ v ∈ l, (l.map Ext.fin).foldr Ext.min .pinf = .fin v ∧ ∀ y ∈ l, v ≤ y := fun l => by
    induction l with
    | nil => intro h; exact absurd rfl h
    | cons a l ih =>
      intro _
      by_cases hl : l = []
      · subst hl; exact ⟨a, by simp, rfl, by simp⟩
      · obtain ⟨v, hv, e, hle⟩ := ih hl
        rw [List.map_cons, List.foldr_cons, e]
        refine ⟨min a v, ?_, rfl, ?_⟩
        · rcases min_choice a v with h | h <;> rw [h] <;> simp [hv]
        · intro y hy
          rcases List.mem_cons.1 hy with rfl | hy
          · exact min_le_left _ _
          · exact (min_le_right _ _).trans (hle y hy)
  obtain ⟨v, hv, e, hle⟩ := key (List.ofFn g) (by simp)
  rw [List.map_ofFn] at e
  refine e.trans ?_
  congr 1
  obtain ⟨i, rfl⟩ := List.mem_ofFn.mp hv
  exact le_antisymm (Finset.le_inf' _ _ fun j _ => hle _ (List.mem_ofFn.mpr ⟨j, rfl⟩)) (Finset.inf'_le _ (Finset.mem_univ i))

theorem foldr_max_fin (g : Fin (n + 1) → K) : (List.ofFn fun i => Ext.fin (g i)).foldr Ext.max .ninf = .fin (Finset.univ.sup' Finset.univ_nonempty g) := by
  have key : ∀ l : List K, l ≠ [] → ∃ v ∈ l, (l.map Ext.fin).foldr Ext.max .ninf = .fin v ∧ ∀ y ∈ l, y ≤ v := fun l => by
    induction l with
    | nil => intro h; exact absurd rfl h
    | cons a l ih =>
      intro _
      by_cases hl : l = []
      · subst hl; exact ⟨a, by simp, rfl, by simp⟩
      · obtain ⟨v, hv, e, hle⟩ := ih hl
        rw [List.map_cons, List.foldr_cons, e]
        refine ⟨max a v, ?_, rfl, ?_⟩
        · rcases max_choice a v with h | h <;> rw [h] <;> simp [hv]
        · intro y hy
          rcases List.mem_cons.1 hy with rfl | hy
          · exact le_max_left _ _
          · exact (hle y hy).trans (le_max_right _ _)
  obtain ⟨v, hv, e, hle⟩ := key (List.ofFn g) (by simp)
  rw [List.map_ofFn] at e
  refine e.trans ?_
  congr 1
  obtain ⟨i, rfl⟩ := List.mem_ofFn.mp hv
  exact le_antisymm (Finset.le_sup' _ (Finset.mem_univ i)) (Finset.sup'_le _ _ fun j _ => hle _ (List.mem_ofFn.mpr ⟨j, rfl⟩))

theorem point_fin (x a b w : Fin n → K) (t : K) :
    pointE x (fun i => .fin (a i)) (fun i => .fin (b i)) w (.fin t) = fun i => .fin (clip (w i * t + x i) (a i) (b i)) := rfl

theorem fun_fin (x a b w : Fin n → K) (c t : K) :
    funE x (fun i => .fin (a i)) (fun i => .fin (b i)) w c (.fin t) = .fin (boxSecFun x a b w c t) := by
  unfold funE dotE
  rw [point_fin]
  show Ext.sub (sumE (List.ofFn fun j => Ext.fin (w j * clip (w j * t + x j) (a j) (b j)))) (.fin c) = _
  rw [sumE_ofFn_fin]
  show Ext.fin (_ + -c) = _
  rw [← sub_eq_add_neg]
  rfl

theorem sign_fin (l u : K) : signE (Ext.fin l) (.fin u) = (Bisect.bracketSign l u : K) := by
  unfold signE Bisect.bracketSign
  simp only [Ext.lt, Ext.gt, Ext.le, Bool.and_eq_true, decide_eq_true_eq, ge_iff_le, gt_iff_lt]
  split_ifs <;> simp

theorem bracket_fin (f : K → K) (F : Ext K → Ext K) (hF : ∀ t, F (.fin t) = .fin (f t)) (s : Bisect.State K) (k : ℕ) :
    bracketAfterE F (s.sign : K) (.fin s.low, .fin s.high) k = (.fin (Bisect.stateAfter f s k).low, .fin (Bisect.stateAfter f s k).high) ∧
      (Bisect.stateAfter f s k).sign = s.sign := by
  induction k with
  | zero => exact ⟨rfl, rfl⟩
  | succ k ih =>
    obtain ⟨e, es⟩ := ih
    refine ⟨?_, es⟩
    show (updateE F _ (bracketAfterE F _ _ k)).2 = (.fin (Bisect.update f _).2.low, .fin (Bisect.update f _).2.high)
    rw [e]
    unfold updateE Bisect.update
    have e1 : Ext.smul (1 / 2 : K) (Ext.add (.fin (Bisect.stateAfter f s k).high) (.fin (Bisect.stateAfter f s k).low)) =
      .fin (1 / 2 * ((Bisect.stateAfter f s k).high + (Bisect.stateAfter f s k).low)) := rfl
    simp only [e1, hF, es]
    have e2 : ∀ v : K, Ext.gt (Ext.smul (s.sign : K) (.fin v)) (.fin 0) = decide ((s.sign : K) * v > 0) := fun v => rfl
    rw [e2]
    split_ifs <;> rfl

/-! ## Properties -/

/-- C141.  With an infinite upper bound and finite lower bounds the result is the vector of upper bounds, whatever the point, the offset and the number of
iterations. -/
theorem C141_upper (hw : ∀ i, 0 < w i) (ha : ∀ i, ∃ y, alpha i = .fin y) (hb : ∀ i, High (beta i)) (h : ∃ i, beta i = .pinf) (k : ℕ) :
    projectionBoxSectionE x alpha beta w c k = beta := by
  have hl : High (lowerE x alpha w) := foldr_min_high fun v hv => by
    obtain ⟨j, rfl⟩ := List.mem_ofFn.mp hv
    obtain ⟨y, e⟩ := ha j
    rw [e]
    exact Or.inr ⟨_, rfl⟩
  unfold projectionBoxSectionE
  simp only [upper_pinf hw hb h]
  generalize signE (K := K) _ _ = sg
  obtain ⟨h1, h2⟩ := bracket_upper (funE x alpha beta w c) sg hl k
  funext i
  unfold updateE
  rw [h2, half_pinf h1]
  obtain ⟨y, e⟩ := ha i
  show Ext.min (Ext.max (Ext.add (if 0 < w i then Ext.pinf else _) _) _) _ = _
  rw [if_pos (hw i), e]
  rcases hb i with e | ⟨z, e⟩ <;> rw [e] <;> rfl

/-- C141.  With an infinite lower bound and finite upper bounds it is the vector of lower bounds. -/
theorem C141_lower (hw : ∀ i, 0 < w i) (ha : ∀ i, Low (alpha i)) (hb : ∀ i, ∃ y, beta i = .fin y) (hab : ∀ i, Ext.le (alpha i) (beta i) = true)
    (h : ∃ i, alpha i = .ninf) (k : ℕ) : projectionBoxSectionE x alpha beta w c k = alpha := by
  have hu : Low (upperE x beta w) := (max_low fun v hv => by
    obtain ⟨j, rfl⟩ := List.mem_ofFn.mp hv
    obtain ⟨y, e⟩ := hb j
    rw [e]
    exact Or.inr ⟨_, rfl⟩).1
  unfold projectionBoxSectionE
  simp only [lower_ninf hw ha h]
  generalize signE (K := K) _ _ = sg
  obtain ⟨h1, h2⟩ := bracket_lower (funE x alpha beta w c) sg hu k
  funext i
  unfold updateE
  rw [h2, half_ninf h1]
  obtain ⟨y, e⟩ := hb i
  have hab := hab i
  show Ext.min (Ext.max (Ext.add (if 0 < w i then Ext.ninf else _) _) _) _ = _
  rw [if_pos (hw i)]
  rw [e] at hab ⊢
  rcases ha i with e | ⟨z, e⟩ <;> rw [e]
  · rfl
  · rw [e] at hab
    have hzy : z ≤ y := by simpa [Ext.le] using hab
    show Ext.fin (min z y) = _
    rw [min_eq_left hzy]

/-- C141.  With infinite bounds on both sides (of any coordinates) every entry is NaN. -/
theorem C141_both (hw : ∀ i, 0 < w i) (ha : ∀ i, Low (alpha i)) (hb : ∀ i, High (beta i)) (h : ∃ i, alpha i = .ninf) (h' : ∃ i, beta i = .pinf) (k : ℕ) :
    projectionBoxSectionE x alpha beta w c k = fun _ => .nan := by
  unfold projectionBoxSectionE
  simp only [lower_ninf hw ha h, upper_pinf hw hb h']
  generalize signE (K := K) _ _ = sg
  obtain ⟨i0, -⟩ := h
  obtain ⟨h1, h2⟩ := bracket_both (x := x) (alpha := alpha) (beta := beta) (w := w) (c := c) i0 sg k
  funext i
  unfold updateE
  rw [h2, half_nan h1]
  exact point_nan i

/-- C141.  With finite bounds the IEEE run is the run of exact arithmetic, so that C13 applies. -/
theorem C141_finite (x a b w : Fin (n + 1) → K) (c : K) (k : ℕ) (q : Fin (n + 1) → K) (hq : projectionBoxSectionAfter x a b w c k = .ok q) :
    projectionBoxSectionE x (fun i => .fin (a i)) (fun i => .fin (b i)) w c k = fun i => .fin (q i) := by
  have hl : lowerE x (fun i => .fin (a i)) w = .fin (boxSecLower x a w) := by
    have e : ∀ i, Ext.smul (w i)⁻¹ (Ext.sub (.fin (a i)) (.fin (x i))) = .fin ((a i - x i) / w i) := fun i => by
      show Ext.fin ((w i)⁻¹ * (a i + -x i)) = _
      congr 1
      rw [div_eq_inv_mul, sub_eq_add_neg]
    unfold lowerE
    simp only [e]
    exact foldr_min_fin _
  have hu : upperE x (fun i => .fin (b i)) w = .fin (boxSecUpper x b w) := by
    have e : ∀ i, Ext.smul (w i)⁻¹ (Ext.sub (.fin (b i)) (.fin (x i))) = .fin ((b i - x i) / w i) := fun i => by
      show Ext.fin ((w i)⁻¹ * (b i + -x i)) = _
      congr 1
      rw [div_eq_inv_mul, sub_eq_add_neg]
    unfold upperE
    simp only [e]
    exact foldr_max_fin _
  unfold projectionBoxSectionE
  simp only [hl, hu, fun_fin, sign_fin]
  set f := boxSecFun x a b w c with hf
  let s : Bisect.State K := ⟨0, .pinf, .pinf, boxSecLower x a w, boxSecUpper x b w, Bisect.bracketSign (f (boxSecLower x a w)) (f (boxSecUpper x b w)), 2⟩
  have hq' : q = fun i => clip (w i * Bisect.paramsAfter f s k + x i) (a i) (b i) := by
    simp only [projectionBoxSectionAfter, Bisect.initState, bind, Except.bind, pure, Except.pure, Bool.false_eq_true, false_and, if_false,
      Except.ok.injEq] at hq
    exact hq.symm
  have e := (bracket_fin (boxSecFun x a b w c) (funE x (fun i => .fin (a i)) (fun i => .fin (b i)) w c) (fun_fin x a b w c) s k).1
  have e2 : (updateE (funE x (fun i => .fin (a i)) (fun i => .fin (b i)) w c) (s.sign : K)
      (bracketAfterE (funE x (fun i => .fin (a i)) (fun i => .fin (b i)) w c) (s.sign : K) (.fin s.low, .fin s.high) k)).1 =
      .fin (Bisect.paramsAfter (boxSecFun x a b w c) s k) := by
    rw [e]; rfl
  show pointE x _ _ w (updateE _ (s.sign : K) (bracketAfterE _ (s.sign : K) (.fin s.low, .fin s.high) k)).1 = _
  rw [e2, point_fin, hq']

/-- C141.  The optional feasibility check accepts the problems of `C141_upper` whose lower bounds are admissible: the infinite result is silent. -/
theorem C141_check (hw : ∀ i, 0 < w i) (a : Fin n → K) (hac : ∑ i, w i * a i ≤ c) (hb : ∀ i, High (beta i)) (h : ∃ i, beta i = .pinf) :
    checkFeasibleE (fun i => .fin (a i)) beta w c = true := by
  have e1 : dotE (fun i => .fin (w i)) (fun i => Ext.fin (a i)) = .fin (∑ i, w i * a i) := sumE_ofFn_fin _
  have hm : ∀ i, mulE (.fin (w i)) .pinf = .pinf := fun i => by
    show (if 0 < w i then Ext.pinf else _) = _
    rw [if_pos (hw i)]
  have e2 : dotE (fun i => .fin (w i)) beta = .pinf := by
    obtain ⟨i, hi⟩ := h
    refine (sumE_pinf fun v hv => ?_).2 (List.mem_ofFn.mpr ⟨i, by rw [hi]; exact hm i⟩)
    obtain ⟨j, rfl⟩ := List.mem_ofFn.mp hv
    rcases hb j with e | ⟨y, e⟩ <;> rw [e]
    · exact Or.inl (hm j)
    · exact Or.inr ⟨_, rfl⟩
  unfold checkFeasibleE
  rw [e1, e2]
  simpa [Ext.gt, Ext.lt] using hac

/-- C141, a well-posed problem with a wrong result.  The simplex is the box section with the bounds `0` and `inf`, the weights `1` and the offset `1`; its closest
point is that of `projection_simplex`, but `projection_box_section` returns `inf` in every entry. -/
theorem C141_simplex_false (x : Fin (n + 1) → K) (k : ℕ) :
    IsUniqueProj {y : Fin (n + 1) → K | (∀ i, 0 ≤ y i) ∧ ∑ i, 1 * y i = 1} x (projectionSimplex x 1) ∧
      projectionBoxSectionE x (fun _ => .fin 0) (fun _ => .pinf) (fun _ => 1) 1 k = fun _ => .pinf := by
  refine ⟨?_, C141_upper (fun _ => one_pos) (fun _ => ⟨0, rfl⟩) (fun _ => Or.inl rfl) ⟨0, rfl⟩ k⟩
  have h := C08_simplex (Nat.succ_pos n) x 1 one_pos
  simpa using h

/-! ## Examples -/

example : projectionBoxSectionE ![(1 : ℚ), 2] ![.fin 0, .fin 0] ![.pinf, .fin 3] ![1, 1] 1 29 = ![.pinf, .fin 3] :=
  C141_upper (fun i => by fin_cases i <;> norm_num) (fun i => by fin_cases i <;> exact ⟨0, rfl⟩)
    (fun i => by fin_cases i; exacts [Or.inl rfl, Or.inr ⟨3, rfl⟩]) ⟨0, rfl⟩ 29

example : projectionBoxSectionE ![(1 : ℚ), 2] ![.ninf, .fin 0] ![.pinf, .fin 3] ![1, 1] 1 29 = fun _ => .nan :=
  C141_both (fun i => by fin_cases i <;> norm_num) (fun i => by fin_cases i; exacts [Or.inl rfl, Or.inr ⟨0, rfl⟩])
    (fun i => by fin_cases i; exacts [Or.inl rfl, Or.inr ⟨3, rfl⟩]) ⟨0, rfl⟩ ⟨0, rfl⟩ 29

end Jaxopt.Proj.BoxInf
