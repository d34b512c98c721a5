import Verif.Scipy.Wrappers
import Mathlib.Tactic.Linarith
import Mathlib.Tactic.FieldSimp
import Mathlib.Tactic.NormNum

/-!
# Properties C55, C56, C57
-/

set_option autoImplicit false
set_option linter.unusedSectionVars false
set_option linter.unusedVariables false

namespace Jaxopt.Scipy

variable {V X Y A : Type*}

/-! ## C55 -/

/-- The references passed by the caller. -/
def refs (cs : List (Option ℕ × V)) : List ℕ := cs.filterMap (·.1)

/-- The options dictionary that the caller passed, `none` for no dictionary. -/
def passed (h : List (Dict V)) (o : Option ℕ) : Dict V := match o with
  | none => []
  | some r => h[r]?.getD []

theorem construct_some {h : List (Dict V)} {r : ℕ} {d : Dict V} (hd : h[r]? = some d) (hm : d.lookup "maxiter" = none) (m : V) :
    construct h (some r) m = .ok (h.set r (("maxiter", m) :: d), r) := by
  unfold construct
  simp only [hd, hm]

theorem construct_none (h : List (Dict V)) (m : V) : construct h none m = .ok (h ++ [[("maxiter", m)]], h.length) := by
  unfold construct
  simp

theorem lookup_cons_ne {k : String} (hk : k ≠ "maxiter") (m : V) (d : Dict V) : List.lookup k (("maxiter", m) :: d) = List.lookup k d := by
  rw [List.lookup_cons]
  have : (k == "maxiter") = false := by simpa using hk
  rw [this]

/-- **C55**, for constructions that do not share an options dictionary: every construction succeeds, and at the end every solver has an
options dictionary with its own `maxiter` and otherwise the entries that the caller passed. -/
theorem C55_separate_partial (cs : List (Option ℕ × V)) : ∀ (h : List (Dict V)), (refs cs).Nodup → (∀ r ∈ refs cs, ∃ d, h[r]? = some d ∧ d.lookup "maxiter" = none) →
    ∃ h' rs, constructAll h cs = .ok (h', rs) ∧ rs.length = cs.length ∧ h.length ≤ h'.length ∧
      (∀ r < h.length, r ∉ refs cs → h'[r]? = h[r]?) ∧
      ∀ i (hi : i < cs.length) (hr : i < rs.length), ∃ d, h'[rs[i]]? = some d ∧ d.lookup "maxiter" = some (cs[i]).2 ∧
        ∀ k, k ≠ "maxiter" → d.lookup k = (passed h (cs[i]).1).lookup k := by
  induction cs with
  | nil => intro h _ _; exact ⟨h, [], rfl, rfl, Nat.le_refl _, fun _ _ _ => rfl, by intro i hi; simp at hi⟩
  | cons c cs ih =>
    intro h hnd hok
    obtain ⟨o, m⟩ := c
    cases o with
    | none =>
      have hrefs : refs ((none, m) :: cs) = refs cs := rfl
      rw [hrefs] at hnd hok ⊢
      have hlt : ∀ r ∈ refs cs, r < h.length := fun r hr => by
        obtain ⟨d, hd, _⟩ := hok r hr
        exact (List.getElem?_eq_some_iff.mp hd).1
      obtain ⟨h', rs, g1, g2, g3, g4, g5⟩ := ih (h ++ [[("maxiter", m)]]) hnd fun r hr => by
        obtain ⟨d, hd, hm⟩ := hok r hr
        exact ⟨d, by rw [List.getElem?_append_left (hlt r hr)]; exact hd, hm⟩
      refine ⟨h', h.length :: rs, ?_, by simp [g2], ?_, ?_, ?_⟩
      · simp only [constructAll, construct_none, Except.bind, g1, Except.map]
      · rw [List.length_append] at g3; omega
      · intro r hr hn
        rw [g4 r (by rw [List.length_append]; omega) hn, List.getElem?_append_left hr]
      · intro i hi hr
        cases i with
        | zero =>
          refine ⟨[("maxiter", m)], ?_, by simp, ?_⟩
          · simp only [List.getElem_cons_zero]
            rw [g4 h.length (by simp) (fun hmem => by have := hlt _ hmem; omega)]
            simp
          · intro k hk
            rw [lookup_cons_ne hk]
            simp [passed]
        | succ i =>
          obtain ⟨d, d1, d2, d3⟩ := g5 i (by simpa using hi) (by simpa using hr)
          refine ⟨d, by simpa using d1, by simpa using d2, fun k hk => ?_⟩
          simp only [List.getElem_cons_succ]
          rw [d3 k hk]
          have hi' : i < cs.length := by simpa using hi
          cases ho : (cs[i]'hi').1 with
          | none => rfl
          | some r =>
            have hmem : r ∈ refs cs := List.mem_filterMap.mpr ⟨_, List.getElem_mem (by simpa using hi), ho⟩
            simp only [passed]
            rw [List.getElem?_append_left (hlt r hmem)]
    | some r =>
      have hrefs : refs ((some r, m) :: cs) = r :: refs cs := rfl
      rw [hrefs] at hnd hok ⊢
      rw [List.nodup_cons] at hnd
      obtain ⟨d0, hd0, hm0⟩ := hok r (by simp)
      have hrlt : r < h.length := (List.getElem?_eq_some_iff.mp hd0).1
      obtain ⟨h', rs, g1, g2, g3, g4, g5⟩ := ih (h.set r (("maxiter", m) :: d0)) hnd.2 fun q hq => by
        obtain ⟨d, hd, hm⟩ := hok q (by simp [hq])
        refine ⟨d, ?_, hm⟩
        rw [List.getElem?_set_ne (fun (he : r = q) => hnd.1 (he ▸ hq))]
        exact hd
      refine ⟨h', r :: rs, ?_, by simp [g2], by simpa using g3, ?_, ?_⟩
      · simp only [constructAll, construct_some hd0 hm0, Except.bind, g1, Except.map]
      · intro q hq hn
        simp only [List.mem_cons, not_or] at hn
        rw [g4 q (by simpa using hq) hn.2, List.getElem?_set_ne (Ne.symm hn.1)]
      · intro i hi hr
        cases i with
        | zero =>
          refine ⟨("maxiter", m) :: d0, ?_, by simp, ?_⟩
          · simp only [List.getElem_cons_zero]
            rw [g4 r (by simpa using hrlt) hnd.1, List.getElem?_set_self hrlt]
          · intro k hk
            rw [lookup_cons_ne hk]
            simp [passed, hd0]
        | succ i =>
          obtain ⟨d, d1, d2, d3⟩ := g5 i (by simpa using hi) (by simpa using hr)
          refine ⟨d, by simpa using d1, by simpa using d2, fun k hk => ?_⟩
          simp only [List.getElem_cons_succ]
          rw [d3 k hk]
          have hi' : i < cs.length := by simpa using hi
          cases ho : (cs[i]'hi').1 with
          | none => rfl
          | some q =>
            have hmem : q ∈ refs cs := List.mem_filterMap.mpr ⟨_, List.getElem_mem (by simpa using hi), ho⟩
            simp only [passed]
            rw [List.getElem?_set_ne (fun (he : r = q) => hnd.1 (he ▸ hmem))]

/-- **C55 is false of the code**: for *every* options dictionary, the first construction succeeds and every later construction with the same
dictionary raises, whatever `maxiter` is requested. -/
theorem C55_same_dict_false (h : List (Dict V)) (r : ℕ) (d : Dict V) (hd : h[r]? = some d) (hm : d.lookup "maxiter" = none) (m m' : V) :
    ∃ h', construct h (some r) m = .ok (h', r) ∧ (∃ e, construct h' (some r) m' = .error e) ∧
      h'[r]?.bind (fun d' => d'.lookup "maxiter") = some m := by
  have hlt : r < h.length := (List.getElem?_eq_some_iff.mp hd).1
  refine ⟨h.set r (("maxiter", m) :: d), construct_some hd hm m, ?_, ?_⟩
  · unfold construct
    simp only [List.getElem?_set_self hlt, List.lookup_cons, BEq.rfl]
    exact ⟨_, rfl⟩
  · rw [List.getElem?_set_self hlt]
    simp

/-- Two solvers without options and one with a dictionary of its own. -/
example : (constructAll [[("gtol", 7)]] [(none, 10), (some 0, 20), (none, 30)]).toOption =
    some ([[("maxiter", 20), ("gtol", 7)], [("maxiter", 10)], [("maxiter", 30)]], [1, 0, 2]) := by decide +kernel

/-! ## C56 -/

/-- **C56**, for `has_aux=False`: the wrapped function evaluates the user's function once and returns its value. -/
theorem C56_no_aux_partial (f : X → Y) (jit : Bool) (x : X) (fuel : ℕ) (h : 2 ≤ fuel) :
    evalWrapped fuel false jit (.user f : Fn X Y A) x = .ok (.single (f x), 1) := by
  obtain ⟨n, rfl⟩ := Nat.exists_eq_add_of_le h
  rw [Nat.add_comm]
  cases jit <;> rfl

/-- **C56 is false of the code**: with `has_aux=True` the wrapped function never returns, for any user function, input and recursion limit;
the user's function is not even evaluated. -/
theorem C56_has_aux_false (f : X → Y × A) (jit : Bool) (x : X) (fuel : ℕ) :
    ∃ e, evalWrapped fuel true jit (.userAux f) x = .error e := by
  have key : ∀ (fuel : ℕ) (self : Fn X Y A), self = .dropAux ∨ self = .jit .dropAux →
      (∃ e, call self fuel self x = .error e) ∧ ∃ e, call self fuel .dropAux x = .error e := by
    intro fuel
    induction fuel with
    | zero => intro self _; exact ⟨⟨_, rfl⟩, _, rfl⟩
    | succ n ih =>
      intro self hs
      have h2 : ∃ e, call self (n + 1) .dropAux x = .error e := by
        obtain ⟨⟨e, he⟩, -⟩ := ih self hs
        exact ⟨e, by simp only [call, he]; rfl⟩
      refine ⟨?_, h2⟩
      rcases hs with hs | hs
      · subst hs; exact h2
      · subst hs
        obtain ⟨-, e, he⟩ := ih (.jit .dropAux) (Or.inr rfl)
        exact ⟨e, by simp only [call]; exact he⟩
  unfold evalWrapped attrAfterInit
  cases jit
  · exact (key fuel _ (Or.inl rfl)).1
  · exact (key fuel _ (Or.inr rfl)).1

/-! ## C57 -/

/-- SciPy's `rho(z)` with `z` the squared scaled residual (documentation of `scipy.optimize.least_squares`). -/
noncomputable def scipyRho : LossName → ℝ → ℝ
  | .linear, z => z
  | .softL1, z => 2 * (Real.sqrt (1 + z) - 1)
  | .huber, z => if z ≤ 1 then z else 2 * Real.sqrt z - 1
  | .cauchy, z => Real.log (1 + z)
  | .arctan, z => Real.arctan z

/-- SciPy's cost `0.5 * sum(C**2 * rho((r / C)**2))`. -/
noncomputable def scipyCost (loss : LossName) (C : ℝ) (residuals : List ℝ) : ℝ :=
  1 / 2 * (residuals.map fun r => C ^ 2 * scipyRho loss ((r / C) ^ 2)).sum

theorem rho_eq (loss : LossName) (z : ℝ) (h : loss = .huber → -1 ≤ z) : rhoFun loss z = scipyRho loss (z ^ 2) := by
  cases loss with
  | linear => rfl
  | softL1 => rfl
  | cauchy => rfl
  | arctan => rfl
  | huber =>
    have hz := h rfl
    simp only [rhoFun, scipyRho]
    by_cases h1 : z ≤ 1
    · rw [if_pos h1, if_pos (by nlinarith)]
    · rw [if_neg h1, if_neg (by nlinarith), Real.sqrt_sq (by linarith)]

/-- **C57**: the cost whose gradient is the optimality function is SciPy's cost divided by the number of residuals, for all residuals — except
that for the Huber loss scaled residuals below -1 are excluded. -/
theorem C57_cost_partial (loss : LossName) (C : ℝ) (residuals : List ℝ) (hC : 0 < C) (hne : residuals ≠ [])
    (h : loss = .huber → ∀ r ∈ residuals, -1 ≤ r / C) :
    0 < (residuals.length : ℝ) ∧ costFun loss C residuals = scipyCost loss C residuals / residuals.length := by
  refine ⟨by exact_mod_cast List.length_pos_iff.mpr hne, ?_⟩
  unfold costFun scipyCost
  have h1 : (residuals.map fun r => rhoFun loss (r / C)) = residuals.map fun r => scipyRho loss ((r / C) ^ 2) :=
    List.map_congr_left fun r hr => rho_eq loss _ fun hl => h hl r hr
  have h2 : (residuals.map fun r => C ^ 2 * scipyRho loss ((r / C) ^ 2)).sum = C ^ 2 * (residuals.map fun r => scipyRho loss ((r / C) ^ 2)).sum := by
    rw [← List.sum_map_mul_left]
  rw [h1, h2]
  norm_num
  ring

/-- **C57 is false of the code** for negative residuals under the Huber loss: every scaled residual below -1 gets the square instead of the
linear growth, and no constant factor repairs it (residuals 2 and -2 have equal SciPy cost but different cost here). -/
theorem C57_huber_false : (∀ z : ℝ, z < -1 → scipyRho .huber (z ^ 2) < rhoFun .huber z) ∧
    ¬ ∃ c : ℝ, 0 < c ∧ ∀ r : ℝ, costFun .huber 1 [r] = c * scipyCost .huber 1 [r] := by
  have h1 : ∀ z : ℝ, z < -1 → scipyRho .huber (z ^ 2) < rhoFun .huber z := by
    intro z hz
    simp only [rhoFun, scipyRho]
    rw [if_pos (by linarith : z ≤ 1), if_neg (by nlinarith : ¬ z ^ 2 ≤ 1), Real.sqrt_sq_eq_abs, abs_of_neg (by linarith)]
    nlinarith
  refine ⟨h1, ?_⟩
  rintro ⟨c, hc, h⟩
  have ha := h 2
  have hb := h (-2)
  have h4 : Real.sqrt 4 = 2 := by rw [show (4 : ℝ) = 2 ^ 2 by norm_num]; exact Real.sqrt_sq (by norm_num)
  simp only [costFun, scipyCost, rhoFun, scipyRho, List.map_cons, List.map_nil, List.sum_cons, List.sum_nil] at ha hb
  norm_num [h4] at ha hb
  linarith

/-- Three residuals of both signs, soft L1 loss. -/
example : costFun .softL1 2 [1, -3, 5] = scipyCost .softL1 2 [1, -3, 5] / (3 : ℕ) :=
  (C57_cost_partial .softL1 2 [1, -3, 5] (by norm_num) (by simp) (by intro h; cases h)).2

end Jaxopt.Scipy
