import Verif.Tree.Model

/-!
# Structural lemmas about pytrees
-/

set_option autoImplicit false
set_option linter.unusedSectionVars false
set_option linter.unusedVariables false

namespace Jaxopt.Tree

variable {α β γ K : Type*}

mutual
theorem sameDef_refl : ∀ t : PyTree α, sameDef t t = true
  | .leaf _ => rfl
  | .node s ts => by simp only [sameDef, beq_self_eq_true, Bool.true_and]; exact sameDefL_refl ts
theorem sameDefL_refl : ∀ ts : List (PyTree α), sameDefL ts ts = true
  | [] => rfl
  | t :: ts => by simp only [sameDefL, sameDef_refl t, sameDefL_refl ts, Bool.and_self]
end

mutual
theorem sameDef_symm : ∀ (t : PyTree α) (u : PyTree β), sameDef t u = sameDef u t
  | .leaf _, .leaf _ => rfl
  | .leaf _, .node _ _ => rfl
  | .node _ _, .leaf _ => rfl
  | .node s ts, .node s' us => by
    simp only [sameDef, sameDefL_symm ts us]
    congr 1
    exact Bool.beq_comm
theorem sameDefL_symm : ∀ (ts : List (PyTree α)) (us : List (PyTree β)), sameDefL ts us = sameDefL us ts
  | [], [] => rfl
  | [], _ :: _ => rfl
  | _ :: _, [] => rfl
  | t :: ts, u :: us => by simp only [sameDefL, sameDef_symm t u, sameDefL_symm ts us]
end

mutual
theorem sameDef_trans : ∀ (t : PyTree α) (u : PyTree β) (w : PyTree γ), sameDef t u = true → sameDef u w = true → sameDef t w = true
  | .leaf _, .leaf _, .leaf _, _, _ => rfl
  | .leaf _, .leaf _, .node _ _, _, h => by simp [sameDef] at h
  | .leaf _, .node _ _, _, h, _ => by simp [sameDef] at h
  | .node _ _, .leaf _, _, h, _ => by simp [sameDef] at h
  | .node _ _, .node _ _, .leaf _, _, h => by simp [sameDef] at h
  | .node s ts, .node s' us, .node s'' ws, h1, h2 => by
    simp only [sameDef, Bool.and_eq_true, beq_iff_eq] at h1 h2 ⊢
    exact ⟨h1.1.trans h2.1, sameDefL_trans ts us ws h1.2 h2.2⟩
theorem sameDefL_trans : ∀ (ts : List (PyTree α)) (us : List (PyTree β)) (ws : List (PyTree γ)), sameDefL ts us = true →
    sameDefL us ws = true → sameDefL ts ws = true
  | [], [], [], _, _ => rfl
  | [], [], _ :: _, _, h => by simp [sameDefL] at h
  | [], _ :: _, _, h, _ => by simp [sameDefL] at h
  | _ :: _, [], _, h, _ => by simp [sameDefL] at h
  | _ :: _, _ :: _, [], _, h => by simp [sameDefL] at h
  | t :: ts, u :: us, w :: ws, h1, h2 => by
    simp only [sameDefL, Bool.and_eq_true] at h1 h2 ⊢
    exact ⟨sameDef_trans t u w h1.1 h2.1, sameDefL_trans ts us ws h1.2 h2.2⟩
end

mutual
theorem sameDef_length : ∀ (t : PyTree α) (u : PyTree β), sameDef t u = true → (leaves t).length = (leaves u).length
  | .leaf _, .leaf _, _ => rfl
  | .leaf _, .node _ _, h => by simp [sameDef] at h
  | .node _ _, .leaf _, h => by simp [sameDef] at h
  | .node s ts, .node s' us, h => by
    simp only [sameDef, Bool.and_eq_true] at h
    simp only [leaves]
    exact sameDefL_length ts us h.2
theorem sameDefL_length : ∀ (ts : List (PyTree α)) (us : List (PyTree β)), sameDefL ts us = true → (leavesL ts).length = (leavesL us).length
  | [], [], _ => rfl
  | [], _ :: _, h => by simp [sameDefL] at h
  | _ :: _, [], h => by simp [sameDefL] at h
  | t :: ts, u :: us, h => by
    simp only [sameDefL, Bool.and_eq_true] at h
    simp only [leavesL, List.length_append, sameDef_length t u h.1, sameDefL_length ts us h.2]
end

mutual
/-- Filling a structure with enough leaves succeeds. -/
theorem fill_spec : ∀ (t : PyTree β) (as rest : List α), as.length = (leaves t).length →
    ∃ r, fill t (as ++ rest) = some (r, rest) ∧ leaves r = as ∧ sameDef t r = true
  | .leaf _, [], _, h => by simp [leaves] at h
  | .leaf _, [a], rest, _ => ⟨.leaf a, rfl, rfl, rfl⟩
  | .leaf _, _ :: _ :: _, _, h => by simp [leaves] at h
  | .node s ts, as, rest, h => by
    obtain ⟨r, h1, h2, h3⟩ := fillL_spec ts as rest (by simpa only [leaves] using h)
    refine ⟨.node s r, ?_, ?_, ?_⟩
    · simp only [fill, h1, Option.map_some]
    · simpa only [leaves] using h2
    · simp only [sameDef, beq_self_eq_true, Bool.true_and, h3]
theorem fillL_spec : ∀ (ts : List (PyTree β)) (as rest : List α), as.length = (leavesL ts).length →
    ∃ r, fillL ts (as ++ rest) = some (r, rest) ∧ leavesL r = as ∧ sameDefL ts r = true
  | [], as, rest, h => by
    have : as = [] := List.length_eq_zero_iff.mp (by simpa only [leavesL, List.length_nil] using h)
    subst this
    exact ⟨[], rfl, rfl, rfl⟩
  | t :: ts, as, rest, h => by
    have h0 : as.length = (leaves t).length + (leavesL ts).length := by simpa only [leavesL, List.length_append] using h
    obtain ⟨r, h1, h2, h3⟩ := fill_spec t (as.take (leaves t).length) (as.drop (leaves t).length ++ rest) (by rw [List.length_take]; omega)
    obtain ⟨q, g1, g2, g3⟩ := fillL_spec ts (as.drop (leaves t).length) rest (by rw [List.length_drop]; omega)
    refine ⟨r :: q, ?_, ?_, ?_⟩
    · rw [← List.append_assoc, List.take_append_drop] at h1
      simp only [fillL, h1, Option.bind_some, g1, Option.map_some]
    · simp only [leavesL, h2, g2, List.take_append_drop]
    · simp only [sameDefL, h3, g3, Bool.and_self]
end

mutual
/-- Two trees with the same structure and the same leaves are equal. -/
theorem eq_of_leaves : ∀ (t u : PyTree α), sameDef t u = true → leaves t = leaves u → t = u
  | .leaf a, .leaf b, _, h => by simp only [leaves, List.cons.injEq, and_true] at h; rw [h]
  | .leaf _, .node _ _, h, _ => by simp [sameDef] at h
  | .node _ _, .leaf _, h, _ => by simp [sameDef] at h
  | .node s ts, .node s' us, h, hl => by
    simp only [sameDef, Bool.and_eq_true, beq_iff_eq] at h
    simp only [leaves] at hl
    rw [h.1, eq_of_leavesL ts us h.2 hl]
theorem eq_of_leavesL : ∀ (ts us : List (PyTree α)), sameDefL ts us = true → leavesL ts = leavesL us → ts = us
  | [], [], _, _ => rfl
  | [], _ :: _, h, _ => by simp [sameDefL] at h
  | _ :: _, [], h, _ => by simp [sameDefL] at h
  | t :: ts, u :: us, h, hl => by
    simp only [sameDefL, Bool.and_eq_true] at h
    simp only [leavesL] at hl
    obtain ⟨h1, h2⟩ := List.append_inj hl (sameDef_length t u h.1)
    rw [eq_of_leaves t u h.1 h1, eq_of_leavesL ts us h.2 h2]
end

mutual
/-- If filling succeeds, exactly the right number of leaves was consumed. -/
theorem fill_length : ∀ (t : PyTree β) (as : List α) (r : PyTree α) (rest : List α), fill t as = some (r, rest) →
    as.length = (leaves t).length + rest.length
  | .leaf _, [], _, _, h => by simp [fill] at h
  | .leaf _, a :: as, r, rest, h => by
    simp only [fill, Option.some.injEq, Prod.mk.injEq] at h
    rw [← h.2]; simp only [leaves, List.length_cons, List.length_nil]; omega
  | .node s ts, as, r, rest, h => by
    simp only [fill] at h
    cases hf : fillL ts as with
    | none => rw [hf] at h; simp at h
    | some q =>
      rw [hf] at h
      simp only [Option.map_some, Option.some.injEq, Prod.mk.injEq] at h
      have := fillL_length ts as q.1 q.2 (by rw [hf])
      rw [← h.2]
      simpa only [leaves] using this
theorem fillL_length : ∀ (ts : List (PyTree β)) (as : List α) (r : List (PyTree α)) (rest : List α), fillL ts as = some (r, rest) →
    as.length = (leavesL ts).length + rest.length
  | [], as, r, rest, h => by
    simp only [fillL, Option.some.injEq, Prod.mk.injEq] at h
    rw [← h.2]; simp [leavesL]
  | t :: ts, as, r, rest, h => by
    simp only [fillL] at h
    cases hf : fill t as with
    | none => rw [hf] at h; simp at h
    | some q =>
      rw [hf] at h
      simp only [Option.bind_some] at h
      cases hg : fillL ts q.2 with
      | none => rw [hg] at h; simp at h
      | some q2 =>
        rw [hg] at h
        simp only [Option.map_some, Option.some.injEq, Prod.mk.injEq] at h
        have h1 := fill_length t as q.1 q.2 (by rw [hf])
        have h2 := fillL_length ts q.2 q2.1 q2.2 (by rw [hg])
        rw [← h.2]
        simp only [leavesL, List.length_append]
        omega
end

/-- `unflatten` succeeds on the right number of leaves, with the given structure and leaves. -/
theorem unflatten_spec (t : PyTree β) (as : List α) (h : as.length = (leaves t).length) :
    ∃ r, unflatten t as = some r ∧ leaves r = as ∧ sameDef t r = true := by
  obtain ⟨r, h1, h2, h3⟩ := fill_spec t as [] h
  rw [List.append_nil] at h1
  exact ⟨r, by unfold unflatten; rw [h1], h2, h3⟩

/-- ... and only then. -/
theorem unflatten_some {t : PyTree β} {as : List α} {r : PyTree α} (h : unflatten t as = some r) :
    as.length = (leaves t).length ∧ leaves r = as ∧ sameDef t r = true := by
  have hl : as.length = (leaves t).length := by
    unfold unflatten at h
    cases hf : fill t as with
    | none => rw [hf] at h; simp at h
    | some q =>
      obtain ⟨q1, q2⟩ := q
      cases q2 with
      | nil =>
        have := fill_length t as q1 [] hf
        simpa using this
      | cons x xs => rw [hf] at h; simp at h
  obtain ⟨r', h1, h2, h3⟩ := unflatten_spec t as hl
  rw [h1] at h
  cases h
  exact ⟨hl, h2, h3⟩

/-- Unflattening its own leaves gives back the tree. -/
theorem unflatten_leaves (t : PyTree α) : unflatten t (leaves t) = some t := by
  obtain ⟨r, h1, h2, h3⟩ := unflatten_spec t (leaves t) rfl
  rw [h1, eq_of_leaves t r h3 h2.symm]

theorem treeMap_spec (f : α → β) (t : PyTree α) : ∃ r, treeMap f t = some r ∧ leaves r = (leaves t).map f ∧ sameDef t r = true :=
  unflatten_spec t _ (by simp)

theorem zipM_length {f : α → β → Option γ} : ∀ {as : List α} {bs : List β} {cs : List γ}, zipM f as bs = some cs → cs.length = as.length
  | [], [], cs, h => by simp only [zipM, Option.some.injEq] at h; rw [← h]; rfl
  | [], _ :: _, cs, h => by simp [zipM] at h
  | _ :: _, [], cs, h => by simp [zipM] at h
  | a :: as, b :: bs, cs, h => by
    simp only [zipM] at h
    cases hf : f a b with
    | none => rw [hf] at h; simp at h
    | some c =>
      rw [hf] at h
      simp only [Option.bind_some] at h
      cases hz : zipM f as bs with
      | none => rw [hz] at h; simp at h
      | some l =>
        rw [hz] at h
        simp only [Option.map_some, Option.some.injEq] at h
        rw [← h, List.length_cons, List.length_cons, zipM_length hz]

theorem treeMap2_spec {f : α → β → Option γ} {t : PyTree α} {u : PyTree β} (hd : sameDef t u = true) {cs : List γ}
    (hz : zipM f (leaves t) (leaves u) = some cs) : ∃ r, treeMap2 f t u = some r ∧ leaves r = cs ∧ sameDef t r = true := by
  obtain ⟨r, h1, h2, h3⟩ := unflatten_spec t cs (zipM_length hz)
  exact ⟨r, by unfold treeMap2; rw [if_pos hd, hz]; exact h1, h2, h3⟩

/-- Different structures raise. -/
theorem treeMap2_none {f : α → β → Option γ} {t : PyTree α} {u : PyTree β} (hd : sameDef t u = false) : treeMap2 f t u = none := by
  unfold treeMap2
  rw [hd]; rfl

end Jaxopt.Tree
