import Verif.Implicit.Signature
import Mathlib.Data.List.Perm.Basic
import Mathlib.Data.List.Nodup
import Mathlib.Data.List.Lookmap
import Mathlib.Tactic.Tauto

/-!
# Property C42: cotangents are returned for the arguments that supplied them
-/

set_option autoImplicit false
set_option linter.unusedSectionVars false
set_option linter.unusedVariables false

namespace Jaxopt.Implicit

variable {V C : Type*}

/-! ## Specification -/

/-- Parameters that positional arguments can fill one by one. -/
def Param.IsPos (p : Param V) : Prop := p.kind = .posOnly ∨ p.kind = .posOrKw

/-- Parameters that need not be supplied. -/
def Param.IsOpt (p : Param V) : Prop := p.default.isSome ∨ p.kind = .varPos ∨ p.kind = .varKw

/-- The order of kinds that Python enforces, as far as needed: after `*args` only keyword-only parameters and `**kwargs`. -/
def SigWf (sig : Sig V) : Prop :=
  (sig.map (·.name)).Nodup ∧ sig.Pairwise fun p q => p.kind = .varPos → q.kind = .kwOnly ∨ q.kind = .varKw

/-- Python's calling convention: the `j`-th argument of a call with `n` positional arguments followed by keyword arguments named
`keys` supplies position `k` of the signature: positional arguments by position, keyword arguments by name. -/
def Supplies (sig : Sig V) (n : ℕ) (keys : List String) (j k : ℕ) : Prop :=
  (j < n ∧ k = j) ∨ (n ≤ j ∧ n ≤ k ∧ ∃ p, sig[k]? = some p ∧ p.kind = .posOrKw ∧ keys[j - n]? = some p.name)

/-- A call with `n` positional arguments and keywords `keys` can be resolved to positions: the keywords are, in some order, the
names of the parameters that follow the first `n`; the others need not be supplied.  Or the positional arguments run into `*args`
and there are no keywords. -/
def Resolvable (sig : Sig V) (n : ℕ) (keys : List String) : Prop :=
  (∃ pre seg post, sig = pre ++ (seg ++ post) ∧ pre.length = n ∧ (∀ p ∈ pre, p.IsPos) ∧ (∀ p ∈ seg, p.kind = .posOrKw) ∧
    (seg.map (·.name)).Perm keys ∧ ∀ p ∈ post, p.IsOpt) ∨
  (∃ pre p post, sig = pre ++ p :: post ∧ pre.length < n ∧ p.kind = .varPos ∧ (∀ q ∈ pre, q.IsPos) ∧ keys = [] ∧ ∀ q ∈ post, q.IsOpt)

/-! ## Lemmas about binding -/

theorem hasKey_iff {kw : Dict V} {k : String} : hasKey kw k = true ↔ k ∈ kw.map (·.1) := by
  simp [hasKey]

theorem lookup_none_iff {kw : Dict V} {k : String} : kw.lookup k = none ↔ k ∉ kw.map (·.1) := by
  induction kw with
  | nil => simp
  | cons e kw ih =>
    obtain ⟨k', v⟩ := e
    rw [List.lookup_cons]
    by_cases h : k = k'
    · subst h; simp
    · have : (k == k') = false := by simpa using h
      simp [this, ih, h]

theorem map_popKey (kw : Dict V) (k : String) : (popKey kw k).map (·.1) = (kw.map (·.1)).filter (· != k) := by
  rw [popKey, List.filter_map]; rfl

theorem lookup_popKey {kw : Dict V} {k k' : String} (h : k' ≠ k) : (popKey kw k).lookup k' = kw.lookup k' := by
  induction kw with
  | nil => rfl
  | cons e kw ih =>
    obtain ⟨a, v⟩ := e
    unfold popKey at ih ⊢
    rw [List.filter_cons]
    by_cases ha : a = k
    · subst ha
      have : (k' == a) = false := by simpa using h
      simp only [bne_self_eq_false, Bool.false_eq_true, if_false]
      rw [ih, List.lookup_cons, this]
    · have : (a != k) = true := by simpa using ha
      simp only [this, if_true]
      rw [List.lookup_cons, List.lookup_cons, ih]

/-- The prefix filled by positional arguments. -/
def posPart (pre : Sig V) (args : List V) : Bound V := List.zipWith (fun p a => (p, some (BArg.val a))) pre args

theorem baArgs_posPart {pre : Sig V} {args : List V} (T : Bound V) (hl : pre.length = args.length) (hp : ∀ p ∈ pre, p.IsPos) :
    baArgs (posPart pre args ++ T) = args ++ baArgs T := by
  induction pre generalizing args with
  | nil =>
    cases args with
    | nil => rfl
    | cons _ _ => simp at hl
  | cons p pre ih =>
    cases args with
    | nil => simp at hl
    | cons a args =>
      have hk := hp p (by simp)
      have hkind : (decide (p.kind = .varKw) || decide (p.kind = .kwOnly)) = false := by
        rcases hk with hk | hk <;> simp [hk]
      have := ih (args := args) (by simpa using hl) fun q hq => hp q (by simp [hq])
      simp only [posPart, List.zipWith_cons_cons, List.cons_append, baArgs, hkind, Bool.false_eq_true, if_false]
      rw [← this]; rfl

theorem baKwargs_posPart {pre : Sig V} {args : List V} (T : Bound V) (hl : pre.length = args.length) (hp : ∀ p ∈ pre, p.IsPos) :
    baKwargs false (posPart pre args ++ T) = baKwargs false T := by
  induction pre generalizing args with
  | nil =>
    cases args with
    | nil => rfl
    | cons _ _ => simp at hl
  | cons p pre ih =>
    cases args with
    | nil => simp at hl
    | cons a args =>
      have hk := hp p (by simp)
      have hkind : (decide (p.kind = .varKw) || decide (p.kind = .kwOnly)) = false := by
        rcases hk with hk | hk <;> simp [hk]
      have := ih (args := args) (by simpa using hl) fun q hq => hp q (by simp [hq])
      simp only [posPart, List.zipWith_cons_cons, List.cons_append, baKwargs, hkind, Bool.false_eq_true, if_false]
      rw [← this]; rfl

/-- The result of the positional phase. -/
theorem bindPos_ok {kw : Dict V} {S : Sig V} {args : List V} {acc : Bound V} {R : Sig V} (h : bindPos kw S args = .ok (acc, R)) :
    ∃ pre, (∀ p ∈ pre, p.IsPos) ∧
      ((S = pre ++ R ∧ pre.length = args.length ∧ acc = posPart pre args) ∨
       (∃ p, p.kind = .varPos ∧ S = pre ++ p :: R ∧ pre.length = args.length ∧ acc = posPart pre args ++ [(p, none)]) ∨
       (∃ p a1 a2, p.kind = .varPos ∧ S = pre ++ p :: R ∧ args = a1 ++ a2 ∧ a2 ≠ [] ∧ pre.length = a1.length ∧
          acc = posPart pre a1 ++ [(p, some (.tuple a2))])) := by
  induction S generalizing args acc with
  | nil =>
    cases args with
    | nil =>
      simp only [bindPos, Except.ok.injEq, Prod.mk.injEq] at h
      obtain ⟨rfl, rfl⟩ := h
      exact ⟨[], by simp, Or.inl ⟨rfl, rfl, rfl⟩⟩
    | cons a as => simp [bindPos] at h
  | cons p ps ih =>
    cases args with
    | nil =>
      unfold bindPos at h
      split_ifs at h with h1 h2 h3 h4
      · cases h; exact ⟨[], by simp, Or.inr (Or.inl ⟨p, h1, rfl, rfl, rfl⟩)⟩
      · cases h; exact ⟨[], by simp, Or.inl ⟨rfl, rfl, rfl⟩⟩
      · cases h; exact ⟨[], by simp, Or.inl ⟨rfl, rfl, rfl⟩⟩
    | cons a as =>
      unfold bindPos at h
      split_ifs at h with h1 h2 h3
      · cases h
        exact ⟨[], by simp, Or.inr (Or.inr ⟨p, [], a :: as, h2, rfl, rfl, by simp, rfl, rfl⟩)⟩
      · cases hr : bindPos kw ps as with
        | error e => rw [hr] at h; cases h
        | ok r =>
          rw [hr] at h
          cases h
          obtain ⟨pre, hpre, hcase⟩ := ih (acc := r.1) hr
          have hp : p.IsPos := by
            unfold Param.IsPos
            cases hk : p.kind <;> simp_all
          refine ⟨p :: pre, ?_, ?_⟩
          · intro q hq
            rcases List.mem_cons.mp hq with rfl | hq
            · exact hp
            · exact hpre q hq
          · rcases hcase with ⟨e1, e2, e3⟩ | ⟨q, e0, e1, e2, e3⟩ | ⟨q, a1, a2, e0, e1, e2, e3, e4, e5⟩
            · left; exact ⟨by rw [e1]; rfl, by simp [e2], by rw [e3]; rfl⟩
            · right; left; exact ⟨q, e0, by rw [e1]; rfl, by simp [e2], by rw [e3]; rfl⟩
            · right; right; exact ⟨q, a :: a1, a2, e0, by rw [e1]; rfl, by rw [e2]; rfl, e3, by simp [e4], by rw [e5]; rfl⟩

/-- With nothing passed by keyword in the bound arguments, no keyword was consumed. -/
theorem bindKw_started {R : Sig V} {kw rem : Dict V} {R' : Bound V} (h : bindKw R kw = .ok (R', rem)) (hk : baKwargs true R' = []) :
    rem = kw ∧ ∀ p ∈ R, p.IsOpt := by
  induction R generalizing kw R' with
  | nil => cases h; exact ⟨rfl, by simp⟩
  | cons p ps ih =>
    unfold bindKw at h
    by_cases h1 : (decide (p.kind = Kind.varKw) || decide (p.kind = Kind.varPos)) = true
    · rw [if_pos h1] at h
      cases hr : bindKw ps kw with
      | error e => rw [hr] at h; cases h
      | ok r =>
        rw [hr] at h; cases h
        obtain ⟨e1, e2⟩ := ih (R' := r.1) hr (by simpa [baKwargs, kwEntry] using hk)
        refine ⟨e1, fun q hq => ?_⟩
        rcases List.mem_cons.mp hq with rfl | hq
        · right
          have : q.kind = .varKw ∨ q.kind = .varPos := by simpa using h1
          tauto
        · exact e2 q hq
    · rw [if_neg h1] at h
      cases hl : kw.lookup p.name with
      | none =>
        rw [hl] at h
        simp only at h
        split_ifs at h with h2
        cases hr : bindKw ps kw with
        | error e => rw [hr] at h; cases h
        | ok r =>
          rw [hr] at h; cases h
          obtain ⟨e1, e2⟩ := ih (R' := r.1) hr (by simpa [baKwargs, kwEntry] using hk)
          refine ⟨e1, fun q hq => ?_⟩
          rcases List.mem_cons.mp hq with rfl | hq
          · left
            cases hd : q.default <;> simp_all
          · exact e2 q hq
      | some v =>
        rw [hl] at h
        simp only at h
        split_ifs at h with h2
        cases hr : bindKw ps (popKey kw p.name) with
        | error e => rw [hr] at h; cases h
        | ok r =>
          rw [hr] at h; cases h
          simp [baKwargs, kwEntry] at hk

/-- The keywords are consumed by a contiguous block of parameters. -/
theorem bindKw_segment {R : Sig V} {kw : Dict V} {R' : Bound V} (hn : (kw.map (·.1)).Nodup) (h : bindKw R kw = .ok (R', []))
    (hk : baKwargs false R' = []) :
    ∃ seg post, R = seg ++ post ∧ (∀ p ∈ seg, p.kind = .posOrKw) ∧ (∀ p ∈ post, p.IsOpt) ∧ (seg.map (·.name)).Perm (kw.map (·.1)) ∧
      (baArgs R').map some = (seg.map (·.name)).map (fun k => kw.lookup k) := by
  induction R generalizing kw R' with
  | nil =>
    simp only [bindKw, Except.ok.injEq, Prod.mk.injEq] at h
    obtain ⟨rfl, rfl⟩ := h
    exact ⟨[], [], rfl, by simp, by simp, by simp, by simp [baArgs]⟩
  | cons p ps ih =>
    have hfull := h
    -- no keyword is consumed: everything is in `post`
    have stop : baKwargs true R' = [] → baArgs R' = [] → ∃ seg post, p :: ps = seg ++ post ∧ (∀ p ∈ seg, p.kind = .posOrKw) ∧
        (∀ p ∈ post, p.IsOpt) ∧ (seg.map (·.name)).Perm (kw.map (·.1)) ∧ (baArgs R').map some = (seg.map (·.name)).map (fun k => kw.lookup k) := by
      intro h1 h2
      obtain ⟨e1, e2⟩ := bindKw_started hfull h1
      refine ⟨[], p :: ps, rfl, by simp, e2, ?_, by simp [h2]⟩
      rw [← e1]; simp
    unfold bindKw at h
    by_cases h1 : (decide (p.kind = Kind.varKw) || decide (p.kind = Kind.varPos)) = true
    · rw [if_pos h1] at h
      cases hr : bindKw ps kw with
      | error e => rw [hr] at h; cases h
      | ok r =>
        rw [hr] at h
        obtain ⟨r1, r2⟩ := r
        simp only [Except.map, Except.ok.injEq, Prod.mk.injEq] at h
        obtain ⟨rfl, rfl⟩ := h
        refine stop ?_ ?_
        · have hkind : p.kind = .varKw ∨ p.kind = .varPos := by simpa using h1
          rcases hkind with e | e <;> simpa [baKwargs, kwEntry, e] using hk
        · simp [baArgs]
    · rw [if_neg h1] at h
      cases hl : kw.lookup p.name with
      | none =>
        rw [hl] at h
        simp only at h
        split_ifs at h with h2
        cases hr : bindKw ps kw with
        | error e => rw [hr] at h; cases h
        | ok r =>
          rw [hr] at h
          obtain ⟨r1, r2⟩ := r
          simp only [Except.map, Except.ok.injEq, Prod.mk.injEq] at h
          obtain ⟨rfl, rfl⟩ := h
          refine stop ?_ ?_
          · cases e : p.kind <;> simpa [baKwargs, kwEntry, e] using hk
          · simp [baArgs]
      | some v =>
        rw [hl] at h
        simp only at h
        split_ifs at h with h2
        cases hr : bindKw ps (popKey kw p.name) with
        | error e => rw [hr] at h; cases h
        | ok r =>
          rw [hr] at h
          obtain ⟨r1, r2⟩ := r
          simp only [Except.map, Except.ok.injEq, Prod.mk.injEq] at h
          obtain ⟨rfl, rfl⟩ := h
          have hkind : p.kind = .posOrKw := by
            cases e : p.kind with
            | posOnly => exact absurd e h2
            | posOrKw => rfl
            | varPos => simp [e] at h1
            | kwOnly => simp [baKwargs, kwEntry, e] at hk
            | varKw => simp [e] at h1
          have hk' : baKwargs false r1 = [] := by simpa [baKwargs, hkind] using hk
          obtain ⟨seg, post, e1, e2, e3, e4, e5⟩ := ih (kw := popKey kw p.name) (by rw [map_popKey]; exact hn.filter _) hr hk'
          have hmem : p.name ∈ kw.map (·.1) := by
            by_contra hcon
            rw [lookup_none_iff.mpr hcon] at hl; cases hl
          have hnot : p.name ∉ seg.map (·.name) := by
            intro hcon
            have := e4.subset hcon
            rw [map_popKey, List.mem_filter] at this
            simpa using this.2
          refine ⟨p :: seg, post, by rw [e1]; rfl, ?_, e3, ?_, ?_⟩
          · intro q hq
            rcases List.mem_cons.mp hq with rfl | hq
            · exact hkind
            · exact e2 q hq
          · rw [List.map_cons]
            rw [map_popKey] at e4
            have hf : (kw.map (·.1)).filter (· != p.name) = (kw.map (·.1)).erase p.name := by
              rw [hn.erase_eq_filter]
            rw [hf] at e4
            exact (e4.cons p.name).trans (List.perm_cons_erase hmem).symm
          · have e6 : baArgs ((p, some (BArg.val v)) :: r1) = v :: baArgs r1 := by simp [baArgs, hkind]
            rw [e6, List.map_cons, e5, List.map_cons, List.map_cons, hl]
            congr 1
            refine List.map_congr_left fun k hk2 => lookup_popKey ?_
            rintro rfl
            exact hnot hk2

theorem baKwargs_fill_ne {L : Bound V} {rem : Dict V} (hrem : rem ≠ []) (hany : L.any (fun e => e.1.kind = .varKw) = true) (s : Bool) :
    baKwargs s (L.map fun e => if e.1.kind = .varKw then (e.1, some (.dict rem)) else e) ≠ [] := by
  induction L generalizing s with
  | nil => simp at hany
  | cons e L ih =>
    obtain ⟨p, o⟩ := e
    by_cases hp : p.kind = .varKw
    · cases s <;> simp [baKwargs, hp, kwEntry, hrem]
    · have hany' : L.any (fun e => e.1.kind = .varKw) = true := by simpa [hp] using hany
      cases s
      · have h1 := ih hany' true
        have h2 := ih hany' false
        simp only [List.map_cons, hp, if_false, baKwargs]
        split_ifs with hk
        · simp [h1]
        · cases o with
          | none => exact h1
          | some x => exact h2
      · have h1 := ih hany' true
        simp only [List.map_cons, hp, if_false, baKwargs]
        simp [h1]

theorem fillKw_ok {rem : Dict V} {R' R'' : Bound V} {s : Bool} (h : fillKw rem R' = .ok R'') (hk : baKwargs s R'' = []) :
    rem = [] ∧ R'' = R' := by
  unfold fillKw at h
  split_ifs at h with h1 h2
  · cases h; exact ⟨List.isEmpty_iff.mp h1, rfl⟩
  · cases h
    exact absurd hk (baKwargs_fill_ne (fun e => h1 (List.isEmpty_iff.mpr e)) h2 s)

theorem bindKw_names {R : Sig V} {kw rem : Dict V} {R' : Bound V} (h : bindKw R kw = .ok (R', rem)) : R'.map (·.1) = R := by
  induction R generalizing kw R' with
  | nil => cases h; rfl
  | cons p ps ih =>
    unfold bindKw at h
    by_cases h1 : (decide (p.kind = Kind.varKw) || decide (p.kind = Kind.varPos)) = true
    · rw [if_pos h1] at h
      cases hr : bindKw ps kw with
      | error e => rw [hr] at h; cases h
      | ok r => rw [hr] at h; cases h; simp [ih (R' := r.1) hr]
    · rw [if_neg h1] at h
      cases hl : kw.lookup p.name with
      | none =>
        rw [hl] at h
        simp only at h
        split_ifs at h with h2
        cases hr : bindKw ps kw with
        | error e => rw [hr] at h; cases h
        | ok r => rw [hr] at h; cases h; simp [ih (R' := r.1) hr]
      | some v =>
        rw [hl] at h
        simp only at h
        split_ifs at h with h2
        cases hr : bindKw ps (popKey kw p.name) with
        | error e => rw [hr] at h; cases h
        | ok r => rw [hr] at h; cases h; simp [ih (R' := r.1) hr]

/-- What a successful resolution looks like. -/
theorem bind_resolved {sig : Sig V} (hw : SigWf sig) {args : List V} {kw : Dict V} (hn : (kw.map (·.1)).Nodup) {b : Bound V}
    (h : bind sig args kw = .ok b) (hk : baKwargs false b = []) :
    Resolvable sig args.length (kw.map (·.1)) ∧
    ∃ seg : Sig V, (∃ post, seg ≠ [] → ∃ pre, sig = pre ++ (seg ++ post) ∧ pre.length = args.length) ∧ (∀ p ∈ seg, p.kind = .posOrKw) ∧
      (seg.map (·.name)).Perm (kw.map (·.1)) ∧ ∃ L, baArgs b = args ++ L ∧ L.map some = (seg.map (·.name)).map (fun k => kw.lookup k) := by
  unfold bind at h
  cases hp : bindPos kw sig args with
  | error e => rw [hp] at h; cases h
  | ok r =>
    obtain ⟨acc, R⟩ := r
    rw [hp] at h
    simp only [Except.bind] at h
    cases hb : bindKw R kw with
    | error e => rw [hb] at h; cases h
    | ok s =>
      obtain ⟨R', rem⟩ := s
      rw [hb] at h
      simp only at h
      cases hf : fillKw rem R' with
      | error e => rw [hf] at h; cases h
      | ok R'' =>
        rw [hf] at h
        simp only [Except.map, Except.ok.injEq] at h
        subst h
        obtain ⟨pre, hpre, hcase⟩ := bindPos_ok hp
        rcases hcase with ⟨e1, e2, e3⟩ | ⟨p, e0, e1, e2, e3⟩ | ⟨p, a1, a2, e0, e1, e2, e3, e4, e5⟩
        · rw [e3, baKwargs_posPart R'' e2 hpre] at hk
          obtain ⟨rfl, rfl⟩ := fillKw_ok hf hk
          obtain ⟨seg, post, f1, f2, f3, f4, f5⟩ := bindKw_segment hn hb hk
          refine ⟨Or.inl ⟨pre, seg, post, by rw [e1, f1], e2, hpre, f2, f4, f3⟩, seg,
            ⟨post, fun _ => ⟨pre, by rw [e1, f1], e2⟩⟩, f2, f4, _, ?_, f5⟩
          rw [e3, baArgs_posPart _ e2 hpre]
        · rw [e3, List.append_assoc, baKwargs_posPart _ e2 hpre] at hk
          have hk2 : baKwargs true R'' = [] := by simpa [baKwargs, e0] using hk
          obtain ⟨rfl, rfl⟩ := fillKw_ok hf hk2
          obtain ⟨f1, f2⟩ := bindKw_started hb hk2
          refine ⟨Or.inl ⟨pre, [], p :: R, by rw [e1]; rfl, e2, hpre, by simp, by rw [← f1]; simp, ?_⟩, [],
            ⟨[], by simp⟩, by simp, by rw [← f1]; simp, [], ?_, by simp⟩
          · intro q hq
            rcases List.mem_cons.mp hq with rfl | hq
            · exact Or.inr (Or.inl e0)
            · exact f2 q hq
          · rw [e3, List.append_assoc, baArgs_posPart _ e2 hpre]
            simp [baArgs, e0]
        · have hkinds : ∀ q ∈ R, q.kind = .kwOnly ∨ q.kind = .varKw := by
            intro q hq
            have := hw.2
            rw [e1, List.pairwise_append] at this
            exact (List.pairwise_cons.mp this.2.1).1 q hq e0
          rw [e5, List.append_assoc, baKwargs_posPart _ e4 hpre] at hk
          have hk1 : baKwargs false R'' = [] := by simpa [baKwargs, e0] using hk
          obtain ⟨rfl, rfl⟩ := fillKw_ok hf hk1
          have hnames := bindKw_names hb
          have hk2 : baKwargs true R'' = [] ∧ baArgs R'' = [] := by
            cases R'' with
            | nil => exact ⟨rfl, rfl⟩
            | cons e t =>
              have hq := hkinds e.1 (by rw [← hnames]; simp)
              have hdec : (decide (e.1.kind = .varKw) || decide (e.1.kind = .kwOnly)) = true := by
                rcases hq with hq | hq <;> simp [hq]
              obtain ⟨q, o⟩ := e
              simp only [baKwargs, hdec, if_true] at hk1
              refine ⟨hk1, ?_⟩
              simp only [baArgs, hdec, if_true]
          obtain ⟨f1, f2⟩ := bindKw_started hb hk2.1
          have hlen : pre.length < args.length := by
            rw [e4, e2, List.length_append]
            have := List.length_pos_iff.mpr e3
            omega
          refine ⟨Or.inr ⟨pre, p, R, e1, hlen, e0, hpre, by rw [← f1]; rfl, f2⟩, [],
            ⟨[], by simp⟩, by simp, by rw [← f1]; simp, [], ?_, by simp⟩
          rw [e5, List.append_assoc, baArgs_posPart _ e4 hpre]
          simp [baArgs, e0, hk2.2, e2]

/-! ## Lemmas about `map_back` -/

theorem foldl_pos (out : List (Option C)) (d : Dict (Option C)) (L0 : List (Option C)) (s : ℕ) (h : s + out.length ≤ L0.length) :
    (((List.range' s out.length).map Src.pos).zip out).foldl mapBackStep (L0, d) =
      (L0.take s ++ out ++ L0.drop (s + out.length), d) := by
  induction out generalizing L0 s with
  | nil => simp
  | cons a out ih =>
    simp only [List.length_cons] at h
    rw [List.length_cons, List.range'_succ, List.map_cons, List.zip_cons_cons, List.foldl_cons]
    have : mapBackStep (L0, d) (Src.pos s, a) = (L0.set s a, d) := rfl
    rw [this, ih (L0.set s a) (s + 1) (by rw [List.length_set]; omega)]
    have e1 : (L0.set s a).take (s + 1) = L0.take s ++ [a] := by
      rw [List.take_add_one, List.take_set_of_le (Nat.le_refl s)]
      simp [show s < L0.length by omega]
    have e2 : (L0.set s a).drop (s + 1 + out.length) = L0.drop (s + (out.length + 1)) := by
      rw [List.drop_set_of_lt (by omega)]
      congr 1; omega
    rw [e1, e2]
    simp

theorem foldl_kw (ks : List String) (out : List (Option C)) (L : List (Option C)) (d : Dict (Option C)) :
    ((ks.map Src.kw).zip out).foldl mapBackStep (L, d) = (L, d ++ ks.zip out) := by
  induction ks generalizing out d with
  | nil => simp
  | cons k ks ih =>
    cases out with
    | nil => simp
    | cons a out =>
      rw [List.map_cons, List.zip_cons_cons, List.foldl_cons]
      have : mapBackStep (L, d) (Src.kw k, a) = (L, d ++ [(k, a)]) := rfl
      rw [this, ih, List.zip_cons_cons]
      simp

theorem mapBack_eq (n : ℕ) (ks : List String) (out : List (Option C)) (h : out.length = n + ks.length) :
    mapBack n ((List.range n).map Src.pos ++ ks.map Src.kw) out = (out.take n, ks.zip (out.drop n)) := by
  unfold mapBack
  have hn : (out.take n).length = n := by rw [List.length_take]; omega
  conv_lhs => rw [← List.take_append_drop n out]
  rw [List.zip_append (by simp [hn]), List.foldl_append]
  have := foldl_pos (out.take n) ([] : Dict (Option C)) (List.replicate n none) 0 (by simp [hn])
  rw [hn] at this
  rw [List.range_eq_range', this, foldl_kw]
  simp

theorem lookup_zip {ks : List String} {out : List (Option C)} (hl : ks.length = out.length) (hn : ks.Nodup) (t : ℕ) (ht : t < ks.length) :
    (ks.zip out).lookup (ks[t]) = some (out[t]'(hl ▸ ht)) := by
  induction ks generalizing out t with
  | nil => simp at ht
  | cons k ks ih =>
    cases out with
    | nil => simp at hl
    | cons a out =>
      rw [List.zip_cons_cons, List.lookup_cons]
      cases t with
      | zero => simp
      | succ t =>
        have hk : (ks[t]'(by simpa using ht) == k) = false := by
          have hmem : ks[t]'(by simpa using ht) ∈ ks := List.getElem_mem _
          have := (List.nodup_cons.mp hn).1
          simp only [beq_eq_false_iff_ne, ne_eq]
          intro he; rw [he] at hmem; exact this hmem
        simp only [List.getElem_cons_succ, hk]
        exact ih (by simpa using hl) (List.nodup_cons.mp hn).2 t (by simpa using ht)

theorem mapM_getKey {d : Dict (Option C)} {keys : List String} {vals : List (Option C)} (hl : keys.map (d.lookup ·) = vals.map some) :
    keys.mapM (getKey d) = .ok vals := by
  induction keys generalizing vals with
  | nil =>
    cases vals with
    | nil => rfl
    | cons _ _ => simp at hl
  | cons k keys ih =>
    cases vals with
    | nil => simp at hl
    | cons v vals =>
      simp only [List.map_cons, List.cons.injEq] at hl
      rw [List.mapM_cons]
      have : getKey d k = .ok v := by unfold getKey; rw [hl.1]
      rw [this, ih hl.2]
      rfl

/-! ## C42 -/

/-- The cotangent that belongs to position `k`: `None` for `init_params`, else that of `root_vjp`. -/
def cotangentAt (rootVjp : List V → List C) (bound : List V) (k : ℕ) : Option C :=
  match k with
  | 0 => none
  | k + 1 => (rootVjp bound.tail)[k]?

/-- The backward pass in closed form. -/
theorem bwd_closed {sig : Sig (Src × V)} (hw : SigWf sig) {rootVjp : List V → List C} (hr : ∀ a, (rootVjp a).length = a.length)
    {keys : List String} (hn : keys.Nodup) {args : List V} {vals : List V} (hl : vals.length = keys.length) {b : Bound (Src × V)}
    (hb : bind sig (tagArgs args) (tagKwargs (keys.zip vals)) = .ok b) (hk : baKwargs false b = []) :
    ∃ seg : Sig (Src × V), (seg ≠ [] → ∃ pre post, sig = pre ++ (seg ++ post) ∧ pre.length = args.length) ∧ (∀ p ∈ seg, p.kind = .posOrKw) ∧
      (seg.map (·.name)).Perm keys ∧ Resolvable sig args.length keys ∧
      ∃ bound : List V, bound.length = args.length + keys.length ∧ bound.take args.length = args ∧
        (bound.drop args.length).map some = (seg.map (·.name)).map (fun k => (keys.zip vals).lookup k) ∧
        solverFunBwd sig rootVjp keys (args ++ vals) =
          .ok ((List.range args.length).map (cotangentAt rootVjp bound) ++
            keys.map fun k => cotangentAt rootVjp bound (args.length + (seg.map (·.name)).idxOf k)) := by
  have hkeys : (tagKwargs (keys.zip vals)).map (·.1) = keys := by
    unfold tagKwargs
    rw [List.map_map]
    have : ((fun e : String × (Src × V) => e.1) ∘ fun e : String × V => (e.1, (Src.kw e.1, e.2))) = fun e => e.1 := rfl
    rw [this]
    exact List.map_fst_zip (by omega)
  have htl : (tagArgs args).length = args.length := by simp [tagArgs]
  obtain ⟨hres, seg, ⟨post, hpost⟩, hkind, hperm, L, hL, hLv⟩ := bind_resolved hw (by rw [hkeys]; exact hn) hb hk
  rw [hkeys] at hres hperm
  rw [htl] at hres
  set ks := seg.map (·.name) with hks
  have hksn : ks.Nodup := hperm.nodup_iff.mpr hn
  -- the tagged values of the keywords
  have hlook : ∀ k, (tagKwargs (keys.zip vals)).lookup k = ((keys.zip vals).lookup k).map fun v => (Src.kw k, v) := by
    intro k
    generalize keys.zip vals = kw
    induction kw with
    | nil => rfl
    | cons e kw ih =>
      obtain ⟨a, v⟩ := e
      unfold tagKwargs at ih ⊢
      rw [List.map_cons, List.lookup_cons, List.lookup_cons, ih]
      by_cases h : k = a
      · subst h; simp
      · have : (k == a) = false := by simpa using h
        simp [this]
  have hLtag : L.map (·.1) = ks.map Src.kw ∧ (L.map (·.2)).map some = ks.map (fun k => (keys.zip vals).lookup k) := by
    clear hL
    generalize ks = ks' at hLv
    induction L generalizing ks' with
    | nil =>
      cases ks' with
      | nil => exact ⟨rfl, rfl⟩
      | cons _ _ => simp at hLv
    | cons x L ih =>
      cases ks' with
      | nil => simp at hLv
      | cons k ks' =>
        simp only [List.map_cons, List.cons.injEq] at hLv
        obtain ⟨i1, i2⟩ := ih ks' hLv.2
        have h1 := hLv.1
        rw [hlook] at h1
        cases hv : (keys.zip vals).lookup k with
        | none => rw [hv] at h1; cases h1
        | some v =>
          rw [hv] at h1
          simp only [Option.map_some, Option.some.injEq] at h1
          simp only [List.map_cons, i1, i2, hv, h1]
          exact ⟨trivial, trivial⟩
  have hLlen : L.length = keys.length := by
    have := congrArg List.length hLtag.1
    simp only [List.length_map] at this
    rw [this, hperm.length_eq]
  have htag1 : (tagArgs args).map (·.1) = (List.range args.length).map Src.pos := by
    unfold tagArgs
    rw [List.map_map]
    refine List.ext_getElem (by simp) fun i h1 h2 => ?_
    simp
  have htag2 : (tagArgs args).map (·.2) = args := by
    unfold tagArgs
    rw [List.map_map]
    refine List.ext_getElem (by simp) fun i h1 h2 => ?_
    simp
  set bound := args ++ L.map (·.2) with hbound
  have hblen : bound.length = args.length + keys.length := by rw [hbound, List.length_append, List.length_map, hLlen]
  refine ⟨seg, fun hne => ?_, hkind, hperm, hres, bound, hblen, by simp [hbound], ?_, ?_⟩
  · obtain ⟨pre, e1, e2⟩ := hpost hne
    exact ⟨pre, post, e1, by rw [e2, htl]⟩
  · rw [hbound, List.drop_left]; exact hLtag.2
  · have hext : extractKwargs keys (args ++ vals) = (args, keys.zip vals) := by
      unfold extractKwargs
      have : (args ++ vals).length - keys.length = args.length := by rw [List.length_append]; omega
      simp only [this, List.take_left, List.drop_left]
    unfold solverFunBwd
    simp only [hext]
    rw [hb]
    simp only [Except.bind]
    rw [hk]
    simp only [List.isEmpty_nil, if_true]
    have hA2 : (baArgs b).map (·.2) = bound := by rw [hL, List.map_append, htag2]
    have hA1 : (baArgs b).map (·.1) = (List.range args.length).map Src.pos ++ ks.map Src.kw := by
      rw [hL, List.map_append, htag1, hLtag.1]
    rw [hA1, hA2]
    have hkk : (keys.zip vals).map (·.1) = keys := List.map_fst_zip (by omega)
    rw [hkk]
    have hkslen : ks.length = keys.length := hperm.length_eq
    by_cases h0 : bound.length = 0
    · -- no arguments at all
      have ha : args = [] := List.length_eq_zero_iff.mp (by omega)
      have hkn : keys = [] := List.length_eq_zero_iff.mp (by omega)
      have hksn' : ks = [] := List.length_eq_zero_iff.mp (by rw [hkslen, hkn]; rfl)
      rw [hksn', ha, hkn]
      rfl
    · set vjps : List (Option C) := none :: (rootVjp bound.tail).map some with hvj
      have hvlen : vjps.length = args.length + ks.length := by
        rw [hvj, List.length_cons, List.length_map, hr, List.length_tail, hkslen, ← hblen]; omega
      have hvget : ∀ i (hi : i < vjps.length), vjps[i] = cotangentAt rootVjp bound i := by
        intro i hi
        cases i with
        | zero => rfl
        | succ i =>
          have hi' : i < (rootVjp bound.tail).length := by simpa [hvj] using hi
          simp [hvj, cotangentAt, List.getElem?_eq_getElem hi']
      rw [mapBack_eq _ _ _ hvlen]
      have e1 : vjps.take args.length = (List.range args.length).map (cotangentAt rootVjp bound) := by
        refine List.ext_getElem (by rw [List.length_take, hvlen]; simp) fun i h1 h2 => ?_
        rw [List.getElem_take, hvget]
        simp
      have e2 : keys.mapM (getKey (ks.zip (vjps.drop args.length))) =
          .ok (keys.map fun k => cotangentAt rootVjp bound (args.length + ks.idxOf k)) := by
        refine mapM_getKey ?_
        rw [List.map_map]
        refine List.map_congr_left fun k hkm => ?_
        have hmem : k ∈ ks := hperm.symm.subset hkm
        have hidx : ks.idxOf k < ks.length := List.idxOf_lt_length_iff.mpr hmem
        have := lookup_zip (ks := ks) (out := vjps.drop args.length) (by rw [List.length_drop, hvlen]; omega) hksn (ks.idxOf k) hidx
        rw [List.getElem_idxOf] at this
        rw [this]
        simp only [Function.comp, List.getElem_drop]
        rw [hvget]
      rw [e1, e2]
      rfl

/-- **C42**, routing: for every signature, every split into positional and keyword arguments and every keyword order, if the backward
pass succeeds then it returns one cotangent for each flat argument; the argument that supplies position `k` of the reference signature
is the `k`-th argument of `root_vjp`'s optimality function and receives the cotangent for it, `None` if `k = 0` (`init_params`). -/
theorem C42_routing {sig : Sig (Src × V)} (hw : SigWf sig) {rootVjp : List V → List C} (hr : ∀ a, (rootVjp a).length = a.length)
    {keys : List String} (hn : keys.Nodup) {args vals : List V} (hl : vals.length = keys.length) {out : List (Option C)}
    (h : solverFunBwd sig rootVjp keys (args ++ vals) = .ok out) :
    out.length = args.length + vals.length ∧ ∃ bound : List V, bound.length = args.length + vals.length ∧
      ∀ j, j < args.length + vals.length → ∃ k, Supplies sig args.length keys j k ∧ k < bound.length ∧
        bound[k]? = (args ++ vals)[j]? ∧ out[j]? = some (cotangentAt rootVjp bound k) := by
  have hext : extractKwargs keys (args ++ vals) = (args, keys.zip vals) := by
    unfold extractKwargs
    have : (args ++ vals).length - keys.length = args.length := by rw [List.length_append]; omega
    simp only [this, List.take_left, List.drop_left]
  have hb : ∃ b, bind sig (tagArgs args) (tagKwargs (keys.zip vals)) = .ok b ∧ baKwargs false b = [] := by
    unfold solverFunBwd at h
    simp only [hext] at h
    cases hb : bind sig (tagArgs args) (tagKwargs (keys.zip vals)) with
    | error e => rw [hb] at h; cases h
    | ok b =>
      rw [hb] at h
      simp only [Except.bind] at h
      split_ifs at h with h1
      · exact ⟨b, rfl, List.isEmpty_iff.mp h1⟩
  obtain ⟨b, hb, hk⟩ := hb
  obtain ⟨seg, hseg, hkind, hperm, hres, bound, hblen, hb1, hb2, hout⟩ := bwd_closed hw hr hn hl hb hk
  rw [h] at hout
  cases hout
  set ks := seg.map (·.name) with hks
  have hksn : ks.Nodup := hperm.nodup_iff.mpr hn
  have hkslen : ks.length = keys.length := hperm.length_eq
  refine ⟨by simp [hl], bound, by rw [hblen, hl], fun j hj => ?_⟩
  by_cases hja : j < args.length
  · refine ⟨j, Or.inl ⟨hja, rfl⟩, by rw [hblen]; omega, ?_, ?_⟩
    · rw [List.getElem?_append_left hja]
      conv_rhs => rw [← hb1]
      rw [List.getElem?_take_of_lt hja]
    · rw [List.getElem?_append_left (by simpa using hja)]
      simp [hja]
  · have hjk : j - args.length < keys.length := by omega
    set k := keys[j - args.length] with hkdef
    have hmem : k ∈ ks := hperm.symm.subset (List.getElem_mem _)
    have hidx : ks.idxOf k < ks.length := List.idxOf_lt_length_iff.mpr hmem
    have hne : seg ≠ [] := by
      rintro rfl
      simp [hks] at hmem
    obtain ⟨pre, post, e1, e2⟩ := hseg hne
    have hidx' : ks.idxOf k < seg.length := by simpa [hks] using hidx
    refine ⟨args.length + ks.idxOf k, Or.inr ⟨by omega, by omega, seg[ks.idxOf k], ?_, hkind _ (List.getElem_mem _), ?_⟩,
      by rw [hblen]; omega, ?_, ?_⟩
    · rw [e1, List.getElem?_append_right (by omega), List.getElem?_append_left (by omega)]
      rw [List.getElem?_eq_getElem (by omega)]
      congr 2
      omega
    · rw [List.getElem?_eq_getElem hjk]
      have : seg[ks.idxOf k].name = ks[ks.idxOf k]'hidx := (List.getElem_map (f := fun x : Param (Src × V) => x.name) (h := hidx)).symm
      rw [this, List.getElem_idxOf]
    · have e3 : (bound.drop args.length)[ks.idxOf k]?.map some = some ((keys.zip vals).lookup k) := by
        rw [← List.getElem?_map, hb2, List.getElem?_map, List.getElem?_eq_getElem hidx, List.getElem_idxOf]
        rfl
      have e4 : (keys.zip vals).lookup k = vals[j - args.length]? := by
        have : ∀ (keys : List String) (vals : List V), keys.Nodup → vals.length = keys.length → ∀ t (ht : t < keys.length),
            (keys.zip vals).lookup keys[t] = vals[t]? := by
          intro keys
          induction keys with
          | nil => intro vals _ _ t ht; simp at ht
          | cons a keys ih =>
            intro vals hn hl t ht
            cases vals with
            | nil => simp at hl
            | cons v vals =>
              rw [List.zip_cons_cons, List.lookup_cons]
              cases t with
              | zero => simp
              | succ t =>
                have hmem : keys[t]'(by simpa using ht) ∈ keys := List.getElem_mem _
                have hk : (keys[t]'(by simpa using ht) == a) = false := by
                  simp only [beq_eq_false_iff_ne, ne_eq]
                  intro he; rw [he] at hmem; exact (List.nodup_cons.mp hn).1 hmem
                simp only [List.getElem_cons_succ, hk, List.getElem?_cons_succ]
                exact ih vals (List.nodup_cons.mp hn).2 (by simpa using hl) t (by simpa using ht)
        exact this keys vals hn hl _ hjk
      rw [List.getElem?_append_right (by omega), ← e4]
      rw [List.getElem?_drop] at e3
      cases hbv : bound[args.length + ks.idxOf k]? with
      | none => rw [hbv] at e3; cases e3
      | some v =>
        rw [hbv] at e3
        simpa using e3
    · rw [List.getElem?_append_right (by simp; omega)]
      simp only [List.length_map, List.length_range, List.getElem?_map]
      rw [List.getElem?_eq_getElem hjk]
      rfl

/-- **C42**, unresolved calls: the backward pass either succeeds, and then the call is resolvable, or raises `TypeError`; a `KeyError`
never occurs. -/
theorem C42_unresolved {sig : Sig (Src × V)} (hw : SigWf sig) {rootVjp : List V → List C} (hr : ∀ a, (rootVjp a).length = a.length)
    {keys : List String} (hn : keys.Nodup) {args vals : List V} (hl : vals.length = keys.length) :
    (∃ out, solverFunBwd sig rootVjp keys (args ++ vals) = .ok out ∧ Resolvable sig args.length keys) ∨
    ∃ msg, solverFunBwd sig rootVjp keys (args ++ vals) = .error (.typeError msg) := by
  have hext : extractKwargs keys (args ++ vals) = (args, keys.zip vals) := by
    unfold extractKwargs
    have : (args ++ vals).length - keys.length = args.length := by rw [List.length_append]; omega
    simp only [this, List.take_left, List.drop_left]
  cases hb : bind sig (tagArgs args) (tagKwargs (keys.zip vals)) with
  | error e =>
    right
    have hte : ∃ msg, e = .typeError msg := by
      have h1 : ∀ {W : Type _} (kw : Dict W) (S : Sig W) (a : List W) e, bindPos kw S a = .error e → ∃ msg, e = .typeError msg := by
        intro W kw S
        induction S with
        | nil => intro a e he; cases a <;> simp [bindPos] at he; exact ⟨_, he.symm⟩
        | cons p ps ih =>
          intro a e he
          cases a with
          | nil =>
            unfold bindPos at he
            split_ifs at he <;> simp at he <;> exact ⟨_, he.symm⟩
          | cons x xs =>
            unfold bindPos at he
            split_ifs at he
            · simp at he; exact ⟨_, he.symm⟩
            · simp at he; exact ⟨_, he.symm⟩
            · cases hr : bindPos kw ps xs with
              | error e' => rw [hr] at he; cases he; exact ih xs _ hr
              | ok r => rw [hr] at he; cases he
      have h2 : ∀ {W : Type _} (S : Sig W) (kw : Dict W) e, bindKw S kw = .error e → ∃ msg, e = .typeError msg := by
        intro W S
        induction S with
        | nil => intro kw e he; simp [bindKw] at he
        | cons p ps ih =>
          intro kw e he
          unfold bindKw at he
          by_cases g1 : (decide (p.kind = Kind.varKw) || decide (p.kind = Kind.varPos)) = true
          · rw [if_pos g1] at he
            cases hr : bindKw ps kw with
            | error e' => rw [hr] at he; cases he; exact ih _ _ hr
            | ok r => rw [hr] at he; cases he
          · rw [if_neg g1] at he
            cases hl : kw.lookup p.name with
            | none =>
              rw [hl] at he
              simp only at he
              split_ifs at he with g2
              · simp at he; exact ⟨_, he.symm⟩
              · cases hr : bindKw ps kw with
                | error e' => rw [hr] at he; cases he; exact ih _ _ hr
                | ok r => rw [hr] at he; cases he
            | some v =>
              rw [hl] at he
              simp only at he
              split_ifs at he with g2
              · simp at he; exact ⟨_, he.symm⟩
              · cases hr : bindKw ps (popKey kw p.name) with
                | error e' => rw [hr] at he; cases he; exact ih _ _ hr
                | ok r => rw [hr] at he; cases he
      unfold bind at hb
      cases hp : bindPos (tagKwargs (keys.zip vals)) sig (tagArgs args) with
      | error e' => rw [hp] at hb; cases hb; exact h1 _ _ _ _ hp
      | ok r =>
        rw [hp] at hb
        simp only [Except.bind] at hb
        cases hq : bindKw r.2 (tagKwargs (keys.zip vals)) with
        | error e' => rw [hq] at hb; cases hb; exact h2 _ _ _ hq
        | ok s =>
          rw [hq] at hb
          simp only at hb
          cases hf : fillKw s.2 s.1 with
          | ok t => rw [hf] at hb; cases hb
          | error e' =>
            rw [hf] at hb; cases hb
            unfold fillKw at hf
            split_ifs at hf
            cases hf; exact ⟨_, rfl⟩
    obtain ⟨msg, rfl⟩ := hte
    refine ⟨msg, ?_⟩
    unfold solverFunBwd
    simp only [hext, hb]
    rfl
  | ok b =>
    by_cases hk : baKwargs false b = []
    · left
      obtain ⟨seg, -, -, -, hres, bound, -, -, -, hout⟩ := bwd_closed hw hr hn hl hb hk
      exact ⟨_, hout, hres⟩
    · right
      refine ⟨unresolvedMsg, ?_⟩
      unfold solverFunBwd
      simp only [hext, hb, Except.bind]
      rw [if_neg (by simpa using hk)]

theorem bindPos_pre {kw : Dict V} {pre S : Sig V} {a1 rest : List V} (hl : pre.length = a1.length) (hp : ∀ p ∈ pre, p.IsPos)
    (hk : ∀ p ∈ pre, p.name ∉ kw.map (·.1)) :
    bindPos kw (pre ++ S) (a1 ++ rest) = (bindPos kw S rest).map fun r => (posPart pre a1 ++ r.1, r.2) := by
  induction pre generalizing a1 with
  | nil =>
    cases a1 with
    | nil => cases h : bindPos kw S rest <;> simp [posPart, h, Except.map]
    | cons _ _ => simp at hl
  | cons p pre ih =>
    cases a1 with
    | nil => simp at hl
    | cons a a1 =>
      have hkey : hasKey kw p.name = false := by
        rw [Bool.eq_false_iff, ne_eq, hasKey_iff]; exact hk p (by simp)
      have h1 : (decide (p.kind = .varKw) || decide (p.kind = .kwOnly)) = false := by
        rcases hp p (by simp) with e | e <;> simp [e]
      have h2 : ¬ p.kind = .varPos := by
        rcases hp p (by simp) with e | e <;> simp [e]
      simp only [List.cons_append, bindPos, h1, hkey, Bool.false_eq_true, if_false, if_neg h2, Bool.false_and]
      rw [ih (by simpa using hl) (fun q hq => hp q (by simp [hq])) fun q hq => hk q (by simp [hq])]
      cases h : bindPos kw S rest <;> simp [posPart, Except.map]

theorem bindKw_opt {post : Sig V} (hp : ∀ p ∈ post, p.IsOpt) : bindKw post ([] : Dict V) = .ok (post.map fun p => (p, none), []) := by
  induction post with
  | nil => rfl
  | cons p post ih =>
    have h := ih fun q hq => hp q (by simp [hq])
    have hpo := hp p (by simp)
    unfold bindKw
    by_cases h1 : (decide (p.kind = Kind.varKw) || decide (p.kind = Kind.varPos)) = true
    · rw [if_pos h1, h]; rfl
    · rw [if_neg h1]
      have hd : p.default.isNone = false := by
        rcases hpo with e | e | e
        · cases hd : p.default <;> simp_all
        · simp [e] at h1
        · simp [e] at h1
      simp only [List.lookup_nil, hd, Bool.false_eq_true, if_false, h]
      rfl

theorem baKwargs_none (post : Sig V) (s : Bool) : baKwargs s (post.map fun p => (p, none)) = [] := by
  induction post generalizing s with
  | nil => cases s <;> rfl
  | cons p post ih =>
    cases s
    · simp [baKwargs, kwEntry, ih]
    · simp [baKwargs, kwEntry, ih]

theorem bindKw_seg {seg post : Sig V} {kw : Dict V} (hs : ∀ p ∈ seg, p.kind = .posOrKw) (hp : ∀ p ∈ post, p.IsOpt)
    (hn : (kw.map (·.1)).Nodup) (hperm : (seg.map (·.name)).Perm (kw.map (·.1))) :
    ∃ R', bindKw (seg ++ post) kw = .ok (R', []) ∧ baKwargs false R' = [] := by
  induction seg generalizing kw with
  | nil =>
    have : kw = [] := by simpa using hperm
    subst this
    exact ⟨_, bindKw_opt hp, baKwargs_none _ _⟩
  | cons p seg ih =>
    have hk := hs p (by simp)
    have hmem : p.name ∈ kw.map (·.1) := hperm.subset (by simp)
    obtain ⟨v, hv⟩ : ∃ v, kw.lookup p.name = some v := by
      cases hl : kw.lookup p.name with
      | none => exact absurd hmem (lookup_none_iff.mp hl)
      | some v => exact ⟨v, rfl⟩
    obtain ⟨R', e1, e2⟩ := ih (kw := popKey kw p.name) (fun q hq => hs q (by simp [hq])) (by rw [map_popKey]; exact hn.filter _) (by
      rw [map_popKey, ← hn.erase_eq_filter]
      exact (List.cons_perm_iff_perm_erase.mp hperm).2)
    refine ⟨(p, some (.val v)) :: R', ?_, ?_⟩
    · rw [List.cons_append, bindKw, if_neg (by simp [hk]), hv]
      simp only [hk]
      rw [e1]; rfl
    · simp [baKwargs, hk, e2]

/-- **C42**, completeness: every resolvable call succeeds. -/
theorem C42_resolvable {sig : Sig (Src × V)} (hw : SigWf sig) {rootVjp : List V → List C} (hr : ∀ a, (rootVjp a).length = a.length)
    {keys : List String} (hn : keys.Nodup) {args vals : List V} (hl : vals.length = keys.length)
    (hres : Resolvable sig args.length keys) : ∃ out, solverFunBwd sig rootVjp keys (args ++ vals) = .ok out := by
  have hkeys : (tagKwargs (keys.zip vals)).map (·.1) = keys := by
    unfold tagKwargs
    rw [List.map_map]
    have : ((fun e : String × (Src × V) => e.1) ∘ fun e : String × V => (e.1, (Src.kw e.1, e.2))) = fun e => e.1 := rfl
    rw [this]
    exact List.map_fst_zip (by omega)
  have htl : (tagArgs args).length = args.length := by simp [tagArgs]
  have hb : ∃ b, bind sig (tagArgs args) (tagKwargs (keys.zip vals)) = .ok b ∧ baKwargs false b = [] := by
    generalize tagKwargs (keys.zip vals) = kw at hkeys
    generalize tagArgs args = ta at htl
    rcases hres with ⟨pre, seg, post, e1, e2, e3, e4, e5, e6⟩ | ⟨pre, p, post, e1, e2, e3, e4, e5, e6⟩
    · have hnot : ∀ q ∈ pre, q.name ∉ kw.map (·.1) := by
        intro q hq hmem
        rw [hkeys] at hmem
        have h1 := hw.1
        rw [e1, List.map_append, List.nodup_append] at h1
        have h2 := e5.symm.subset hmem
        exact h1.2.2 q.name (List.mem_map_of_mem hq) q.name (by rw [List.map_append]; exact List.mem_append_left _ h2) rfl
      have hstart : ∃ acc R, bindPos kw (seg ++ post) [] = .ok (acc, R) ∧
          ((acc = [] ∧ R = seg ++ post) ∨ (seg = [] ∧ ∃ q, q.kind = .varPos ∧ post = q :: R ∧ acc = [(q, none)])) := by
        cases seg with
        | cons q seg =>
          have hq := e4 q (by simp)
          have hkey : hasKey kw q.name = true := by
            rw [hasKey_iff, hkeys]; exact e5.subset (by simp)
          exact ⟨[], _, by simp [bindPos, hq, hkey], Or.inl ⟨rfl, rfl⟩⟩
        | nil =>
          have hkw : kw = [] := by
            have : keys = [] := by simpa using e5
            rw [this] at hkeys; simpa using hkeys
          subst hkw
          cases post with
          | nil => exact ⟨[], [], rfl, Or.inl ⟨rfl, rfl⟩⟩
          | cons q post =>
            by_cases hq : q.kind = .varPos
            · exact ⟨[(q, none)], post, by simp [bindPos, hq], Or.inr ⟨rfl, q, hq, rfl, rfl⟩⟩
            · refine ⟨[], q :: post, ?_, Or.inl ⟨rfl, rfl⟩⟩
              have hopt := e6 q (by simp)
              have : (decide (q.kind = .varKw) || q.default.isSome) = true := by
                rcases hopt with e | e | e
                · simp [e]
                · exact absurd e hq
                · simp [e]
              simp [bindPos, hq, hasKey, this]
      obtain ⟨acc, R, f1, f2⟩ := hstart
      have hpos : bindPos kw sig ta = .ok (posPart pre ta ++ acc, R) := by
        have := bindPos_pre (kw := kw) (S := seg ++ post) (a1 := ta) (rest := []) (by omega) e3 hnot
        rw [List.append_nil] at this
        rw [e1, this, f1]; rfl
      rcases f2 with ⟨rfl, rfl⟩ | ⟨rfl, q, hq, rfl, rfl⟩
      · obtain ⟨R', g1, g2⟩ := bindKw_seg e4 e6 (by rw [hkeys]; exact hn) (by rw [hkeys]; exact e5)
        refine ⟨posPart pre ta ++ [] ++ R', ?_, ?_⟩
        · unfold bind
          rw [hpos]; simp only [Except.bind]
          rw [g1]; rfl
        · rw [List.append_nil, baKwargs_posPart _ (by omega) e3, g2]
      · have hkw : kw = [] := by
          have : keys = [] := by simpa using e5
          rw [this] at hkeys; simpa using hkeys
        subst hkw
        refine ⟨posPart pre ta ++ [(q, none)] ++ R.map fun p => (p, none), ?_, ?_⟩
        · unfold bind
          rw [hpos]; simp only [Except.bind]
          rw [bindKw_opt fun r hr => e6 r (by simp [hr])]; rfl
        · rw [List.append_assoc, baKwargs_posPart _ (by omega) e3]
          simp [baKwargs, hq, baKwargs_none]
    · have hkw : kw = [] := by rw [e5] at hkeys; simpa using hkeys
      subst hkw
      have hsplit : ta = ta.take pre.length ++ ta.drop pre.length := (List.take_append_drop _ _).symm
      have hlen : pre.length = (ta.take pre.length).length := by rw [List.length_take]; omega
      obtain ⟨x, xs, hx⟩ : ∃ x xs, ta.drop pre.length = x :: xs := by
        cases hd : ta.drop pre.length with
        | nil =>
          have := congrArg List.length hd
          rw [List.length_drop] at this
          simp at this; omega
        | cons x xs => exact ⟨x, xs, rfl⟩
      have hpos : bindPos [] sig ta = .ok (posPart pre (ta.take pre.length) ++ [(p, some (.tuple (x :: xs)))], post) := by
        have := bindPos_pre (kw := ([] : Dict (Src × V))) (S := p :: post) (a1 := ta.take pre.length) (rest := x :: xs) hlen e4 (by simp)
        rw [← hx, List.take_append_drop] at this
        rw [e1, this, hx]
        simp [bindPos, e3, Except.map]
      refine ⟨posPart pre (ta.take pre.length) ++ [(p, some (.tuple (x :: xs)))] ++ post.map fun p => (p, none), ?_, ?_⟩
      · unfold bind
        rw [hpos]; simp only [Except.bind]
        rw [bindKw_opt e6]; rfl
      · rw [List.append_assoc, baKwargs_posPart _ hlen e4]
        simp [baKwargs, e3, baKwargs_none]
  obtain ⟨b, hb, hk⟩ := hb
  obtain ⟨seg, -, -, -, -, bound, -, -, -, hout⟩ := bwd_closed hw hr hn hl hb hk
  exact ⟨_, hout⟩

/-- `_extract_kwargs` undoes the flattening of `wrapped_solver_fun`: the solver receives the bound call. -/
theorem C42_flatten {sig : Sig V} {args : List V} {kwargs : Dict V} {a : List V} {kw : Dict V}
    (h : signatureBind sig args kwargs = .ok (a, kw)) :
    ∃ keys flat, wrappedFlat sig args kwargs = .ok (keys, flat) ∧ extractKwargs keys flat = (a, kw) := by
  refine ⟨kw.map (·.1), a ++ kw.map (·.2), ?_, ?_⟩
  · unfold wrappedFlat; rw [h]; rfl
  · unfold extractKwargs
    have : (a ++ kw.map (·.2)).length - (kw.map (·.1)).length = a.length := by simp
    simp only [this, List.take_left, List.drop_left]
    congr 1
    rw [List.zip_map', List.map_id'']
    intro x; rfl

/-! ## Non-vacuity -/

/-- `fun(params, X, y, l2reg=1.0)`. -/
def exSig : Sig (Src × ℕ) := [⟨"params", .posOrKw, none⟩, ⟨"X", .posOrKw, none⟩, ⟨"y", .posOrKw, none⟩, ⟨"l2reg", .posOrKw, some (.pos 0, 0)⟩]

/-- The call `run(p, X, l2reg=30, y=20)`: cotangents (here: the argument plus one hundred) go to the right arguments. -/
example : solverFunBwd exSig (fun a => a.map (· + 100)) ["l2reg", "y"] [1, 10, 30, 20] = .ok [none, some 110, some 130, some 120] := by
  rfl

/-- The call `run(p, X, y=20, unknown=3)` raises `TypeError`. -/
example : solverFunBwd exSig (fun a => a.map (· + 100)) ["y", "unknown"] [1, 10, 20, 3] =
    .error (.typeError "got an unexpected keyword argument") := by
  rfl

example : SigWf exSig := by
  constructor
  · decide
  · simp [exSig]

end Jaxopt.Implicit
