import Verif.Tree.DType
import Verif.Tree.Lemmas

/-!
# C145: the dtype of a pytree
-/

set_option autoImplicit false
set_option linter.unusedSectionVars false
set_option linter.unusedVariables false

namespace Jaxopt.Tree

/-! ## Specification -/

/-- The dtype that NumPy gives to a leaf, for Python numbers and arrays. -/
inductive NpDtype : DLeaf → DType → Prop
  | pyBool : NpDtype .pyBool .bool
  | pyInt : NpDtype .pyInt (.int 64)
  | pyFloat : NpDtype .pyFloat (.float 64)
  | pyComplex : NpDtype .pyComplex (.complex 128)
  | array (d : DType) : NpDtype (.array d) d

/-- `InPrec x64 e d`: JAX stores numbers of dtype `e` with dtype `d`. -/
inductive InPrec : Bool → DType → DType → Prop
  | double (d : DType) : InPrec true d d
  | int : InPrec false (.int 64) (.int 32)
  | uint : InPrec false (.uint 64) (.uint 32)
  | float : InPrec false (.float 64) (.float 32)
  | complex : InPrec false (.complex 128) (.complex 64)
  | keep (d : DType) : d ∉ [.int 64, .uint 64, .float 64, .complex 128] → InPrec false d d

/-- Some numeric leaf of the tree has the dtype `d` (in JAX's precision if `convert`). -/
def HasDtype (convert x64 : Bool) (t : PyTree DLeaf) (d : DType) : Prop :=
  ∃ p ∈ leaves t, ∃ e, NpDtype p e ∧ if convert then InPrec x64 e d else d = e

/-! ## Helpers -/

/-- `HasDtype` in terms of the model. -/
def HasDtypeM (convert x64 : Bool) (t : PyTree DLeaf) (d : DType) : Prop := ∃ p ∈ leaves t, ∃ e, onpDtype p = some e ∧ d = if convert then canon x64 e else e

variable {convert x64 : Bool} {t : PyTree DLeaf}

theorem mem_dtypes (d : DType) : d ∈ ((leaves t).filterMap (if convert then jnpDtype x64 else onpDtype)).dedup ↔ HasDtypeM convert x64 t d := by
  rw [List.mem_dedup, List.mem_filterMap]
  unfold HasDtypeM
  refine exists_congr fun p => and_congr_right fun _ => ?_
  cases convert
  · simp
  · simp only [if_true, jnpDtype, Option.map_eq_some_iff]
    exact exists_congr fun e => and_congr_right fun _ => eq_comm

theorem npDtype_iff (p : DLeaf) (e : DType) : NpDtype p e ↔ onpDtype p = some e := by
  constructor
  · rintro (_ | _ | _ | _ | _) <;> rfl
  · intro h
    cases p <;> simp only [onpDtype, Option.some.injEq, reduceCtorEq] at h <;> subst h <;> constructor

theorem inPrec_iff (x64 : Bool) (e d : DType) : InPrec x64 e d ↔ d = canon x64 e := by
  constructor
  · rintro (_ | _ | _ | _ | _ | ⟨_, h⟩)
    · unfold canon
      split <;> rfl
    · rfl
    · rfl
    · rfl
    · rfl
    · simp only [List.mem_cons, List.not_mem_nil, or_false, not_or] at h
      unfold canon
      split <;> simp_all
  · rintro rfl
    cases x64
    · by_cases h : e ∈ [.int 64, .uint 64, .float 64, .complex 128]
      · simp only [List.mem_cons, List.not_mem_nil, or_false] at h
        rcases h with rfl | rfl | rfl | rfl <;> constructor
      · have : canon false e = e := by
          simp only [List.mem_cons, List.not_mem_nil, or_false, not_or] at h
          unfold canon
          split <;> simp_all
        rw [this]
        exact .keep e h
    · have : canon true e = e := by
        unfold canon
        split <;> rfl
      rw [this]
      exact .double e

theorem single_some (d : DType) : treeSingleDtype convert x64 t = .ok (some d) ↔ HasDtypeM convert x64 t d ∧ ∀ e, HasDtypeM convert x64 t e → e = d := by
  have hm := mem_dtypes (convert := convert) (x64 := x64) (t := t)
  have hn := List.nodup_dedup ((leaves t).filterMap (if convert then jnpDtype x64 else onpDtype))
  unfold treeSingleDtype
  revert hm hn
  generalize ((leaves t).filterMap (if convert then jnpDtype x64 else onpDtype)).dedup = l
  intro hm hn
  match l, hm, hn with
  | [], hm, _ =>
    simp only [Except.ok.injEq, reduceCtorEq, false_iff]
    rintro ⟨h, -⟩
    exact absurd ((hm d).2 h) (by simp)
  | [a], hm, _ =>
    simp only [Except.ok.injEq, Option.some.injEq]
    simp only [List.mem_singleton] at hm
    constructor
    · rintro rfl
      exact ⟨(hm a).1 rfl, fun e he => (hm e).2 he⟩
    · rintro ⟨h, -⟩
      exact ((hm d).2 h).symm
  | a :: b :: l, hm, hn =>
    simp only [reduceCtorEq, false_iff]
    rintro ⟨-, h⟩
    have ha := h a ((hm a).1 (by simp))
    have hb := h b ((hm b).1 (by simp))
    rw [List.nodup_cons] at hn
    exact hn.1 (by rw [ha, hb]; simp)

theorem single_none : treeSingleDtype convert x64 t = .ok none ↔ ∀ p ∈ leaves t, onpDtype p = none := by
  have hm := mem_dtypes (convert := convert) (x64 := x64) (t := t)
  have key : (∀ p ∈ leaves t, onpDtype p = none) ↔ ∀ d, ¬ HasDtypeM convert x64 t d := by
    constructor
    · rintro h d ⟨p, hp, e, he, -⟩
      rw [h p hp] at he
      exact absurd he (by simp)
    · intro h p hp
      cases he : onpDtype p with
      | none => rfl
      | some e => exact absurd ⟨p, hp, e, he, rfl⟩ (h _)
  rw [key]
  unfold treeSingleDtype
  revert hm
  generalize ((leaves t).filterMap (if convert then jnpDtype x64 else onpDtype)).dedup = l
  intro hm
  match l, hm with
  | [], hm => exact ⟨fun _ d h => absurd ((hm d).2 h) (by simp), fun _ => rfl⟩
  | [a], hm => exact ⟨fun h => by simp at h, fun h => absurd ((hm a).1 (by simp)) (h a)⟩
  | a :: b :: l, hm => exact ⟨fun h => by simp at h, fun h => absurd ((hm a).1 (by simp)) (h a)⟩

theorem single_raises : (∃ msg, treeSingleDtype convert x64 t = .error msg) ↔ ∃ d e, HasDtypeM convert x64 t d ∧ HasDtypeM convert x64 t e ∧ d ≠ e := by
  constructor
  · rintro ⟨msg, h⟩
    by_contra hne
    push Not at hne
    by_cases hd : ∃ d, HasDtypeM convert x64 t d
    · obtain ⟨d, hd⟩ := hd
      have := (single_some d).2 ⟨hd, fun e he => hne e d he hd⟩
      rw [h] at this
      simp at this
    · have := (single_none (convert := convert) (x64 := x64) (t := t)).2 fun p hp => by
        cases he : onpDtype p with
        | none => rfl
        | some e => exact absurd ⟨_, p, hp, e, he, rfl⟩ hd
      rw [h] at this
      simp at this
  · rintro ⟨d, e, hd, he, hne⟩
    cases h : treeSingleDtype convert x64 t with
    | error msg => exact ⟨msg, rfl⟩
    | ok o =>
      exfalso
      cases o with
      | none =>
        obtain ⟨p, hp, q, hq, -⟩ := hd
        rw [single_none.1 h p hp] at hq
        simp at hq
      | some a =>
        have := (single_some a).1 h
        exact hne ((this.2 d hd).trans (this.2 e he).symm)

theorem hasDtype_iff (d : DType) : HasDtype convert x64 t d ↔ HasDtypeM convert x64 t d := by
  unfold HasDtype HasDtypeM
  simp only [npDtype_iff, inPrec_iff]
  cases convert <;> simp

/-! ## Properties -/

/-- C145.  A dtype is returned exactly if some leaf is numeric and all numeric leaves have this dtype. -/
theorem C145_some (d : DType) : treeSingleDtype convert x64 t = .ok (some d) ↔
    HasDtype convert x64 t d ∧ ∀ e, HasDtype convert x64 t e → e = d := by
  simp only [hasDtype_iff]
  exact single_some d

/-- C145.  `None` is returned exactly if no leaf is a Python number or an array. -/
theorem C145_none : treeSingleDtype convert x64 t = .ok none ↔ ∀ p ∈ leaves t, p = .other := by
  rw [single_none]
  refine forall_congr' fun p => forall_congr' fun _ => ?_
  cases p <;> simp [onpDtype]

/-- C145.  The function raises exactly if two numeric leaves have different dtypes. -/
theorem C145_raises : (∃ msg, treeSingleDtype convert x64 t = .error msg) ↔
    ∃ d e, HasDtype convert x64 t d ∧ HasDtype convert x64 t e ∧ d ≠ e := by
  simp only [hasDtype_iff]
  exact single_raises

/-- C145.  In the default precision, Python floats and real arrays of 32 or 64 bits may be mixed. -/
theorem C145_default (hne : leaves t ≠ []) (h : ∀ p ∈ leaves t, p = .pyFloat ∨ p = .array (.float 32) ∨ p = .array (.float 64)) :
    treeSingleDtype true false t = .ok (some (.float 32)) := by
  have key : ∀ p ∈ leaves t, ∃ e, onpDtype p = some e ∧ canon false e = .float 32 := fun p hp => by
    rcases h p hp with rfl | rfl | rfl
    · exact ⟨_, rfl, rfl⟩
    · exact ⟨_, rfl, rfl⟩
    · exact ⟨_, rfl, rfl⟩
  rw [single_some]
  constructor
  · obtain ⟨p, hp⟩ := List.exists_mem_of_ne_nil _ hne
    obtain ⟨e, he, hc⟩ := key p hp
    exact ⟨p, hp, e, he, by simp [hc]⟩
  · rintro d ⟨p, hp, e, he, rfl⟩
    obtain ⟨e', he', hc⟩ := key p hp
    rw [he] at he'
    obtain rfl := Option.some.inj he'
    simp [hc]

/-- C145, in double precision this is false: a Python float and an array of 32 bits, which JAX would compute with in 32 bits, are rejected. -/
theorem C145_x64_false : ∃ t : PyTree DLeaf, leaves t ≠ [] ∧ (∀ p ∈ leaves t, p = .pyFloat ∨ p = .array (.float 32)) ∧
    treeSingleDtype true false t = .ok (some (.float 32)) ∧ ∃ msg, treeSingleDtype true true t = .error msg := by
  have h : ∀ p ∈ leaves (.node "tuple" [.leaf .pyFloat, .leaf (.array (.float 32))] : PyTree DLeaf), p = .pyFloat ∨ p = .array (.float 32) := by
    intro p hp
    simpa [leaves, leavesL] using hp
  refine ⟨.node "tuple" [.leaf .pyFloat, .leaf (.array (.float 32))], by simp [leaves, leavesL], h,
    C145_default (by simp [leaves, leavesL]) fun p hp => (h p hp).imp_right Or.inl, ?_⟩
  refine single_raises.2 ⟨.float 64, .float 32, ⟨.pyFloat, by simp [leaves, leavesL], _, rfl, rfl⟩, ⟨.array (.float 32), by simp [leaves, leavesL], _, rfl, rfl⟩, ?_⟩
  simp

/-- C145.  The real dtype of a complex dtype has half its bits, that of another dtype is itself; JAX's complex dtypes have
64 or 128 bits. -/
theorem C145_real (d : DType) : getRealDtype (getRealDtype d) = getRealDtype d ∧ ((∀ b, d = .complex b → b = 64 ∨ b = 128) → ∀ e, InPrec x64 d e → InPrec x64 (getRealDtype d) (getRealDtype e)) ∧
    (d = .complex 64 → getRealDtype d = .float 32) ∧ (d = .complex 128 → getRealDtype d = .float 64) ∧ ((∀ b, d ≠ .complex b) → getRealDtype d = d) := by
  refine ⟨?_, ?_, ?_, ?_, ?_⟩
  · cases d <;> simp only [getRealDtype]
    split_ifs with h <;> simp [getRealDtype, h]
  · intro h e he
    rw [inPrec_iff] at he ⊢
    subst he
    cases d with
    | complex b => rcases h b rfl with rfl | rfl <;> cases x64 <;> rfl
    | bool => rfl
    | bfloat16 => rfl
    | int b => by_cases hb : b = 64
               · subst hb; cases x64 <;> rfl
               · simp [canon, getRealDtype, hb]
    | uint b => by_cases hb : b = 64
                · subst hb; cases x64 <;> rfl
                · simp [canon, getRealDtype, hb]
    | float b => by_cases hb : b = 64
                 · subst hb; cases x64 <;> rfl
                 · simp [canon, getRealDtype, hb]
  · rintro rfl; rfl
  · rintro rfl; rfl
  · intro h
    cases d with
    | complex b => exact absurd rfl (h b)
    | _ => rfl

/-! ## Examples -/

example : treeSingleDtype true false (.node "tuple" [.leaf .pyFloat, .leaf .other, .leaf (.array (.float 64))]) = .ok (some (.float 32)) := rfl

example : treeSingleDtype true false (.node "tuple" [.leaf .other, .node "list" [.leaf .other]]) = .ok none := rfl

example : ∃ msg, treeSingleDtype false false (.node "tuple" [.leaf .pyFloat, .leaf (.array (.float 32))]) = .error msg := ⟨_, rfl⟩

example : getRealDtype (canon false (.complex 128)) = .float 32 := rfl

end Jaxopt.Tree
