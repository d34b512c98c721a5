import Verif.Implicit.RefSig
import Verif.Implicit.SignatureProps
import Verif.Implicit.DefaultsProps

/-!
# C93: which calls of `run` can be differentiated implicitly

For each solver class and each signature of the user function: the calls `solver.run(...)` whose backward pass succeeds, in terms of the
signature of the user function, and the classes for which data passed by keyword makes it fail.
-/

set_option autoImplicit false
set_option linter.unusedSectionVars false
set_option linter.unusedVariables false

namespace Jaxopt.Implicit

variable {W V C S : Type*}

/-! ## Specification -/

/-- What `inspect` requires of a list of parameters. -/
def ValidSig (ps : Sig W) : Prop :=
  (ps.map (·.name)).Nodup ∧ (ps.Pairwise fun p q => p.kind.rank ≤ q.kind.rank) ∧
    ps.Pairwise fun p q => p.kind = q.kind → p.IsPos → p.default.isSome → q.default.isSome

/-- The classes whose reference signature is that of the user function. -/
def UserRef (c : Cls) : Prop :=
  c ∈ [Cls.andersonAcceleration, .armijoSGD, .bfgs, .broyden, .fixedPointIteration, .gradientDescent, .lbfgs, .nonlinearCG, .optaxSolver,
    .polyakSGD, .bisection, .scipyRootFinding]

/-- The classes whose `run` takes one more argument, with its name in the reference signature and in the signature of `run`. -/
def Hyper (c : Cls) (name : String) : Prop :=
  (c, name) ∈ [(Cls.proximalGradient, "hyperparams_prox"), (.blockCoordinateDescent, "hyperparams_prox"),
    (.mirrorDescent, "hyperparams_proj"), (.lbfgsb, "bounds"), (.projectedGradient, "hyperparams_prox")]

/-- The classes that hand `*args, **kwargs` to the user function without saying so in a signature. -/
def Opaque (c : Cls) : Prop := c ∈ [Cls.gaussNewton, .levenbergMarquardt, .scipyMinimize, .scipyLeastSquares]

/-- The same with a parameter `bounds`. -/
def OpaqueBounded (c : Cls) : Prop := c ∈ [Cls.scipyBoundedMinimize, .scipyBoundedLeastSquares]

/-- The quadratic programming solvers and iterative refinement, whose `run` names its parameters. -/
def Named (c : Cls) : Prop := c ∈ [Cls.boxOSQP, .iterativeRefinement, .equalityConstrainedQP, .cvxpyQP]

/-- The classes that set no attribute `reference_signature`. -/
def NoRef (c : Cls) : Prop :=
  c ∈ [Cls.bisection, .scipyRootFinding, .projectedGradient, .gaussNewton, .levenbergMarquardt, .scipyMinimize, .scipyLeastSquares,
    .scipyBoundedMinimize, .scipyBoundedLeastSquares, .boxCDQP, .boxOSQP, .iterativeRefinement, .equalityConstrainedQP, .cvxpyQP]

/-! ## `inspect.Signature` -/

theorem checkParams_iff (ps : Sig W) (top : ℕ) (seen : Bool) (names : List String) :
    checkParams top seen names ps = .ok () ↔
      ValidSig ps ∧ (∀ p ∈ ps, top ≤ p.kind.rank) ∧ (∀ p ∈ ps, p.name ∉ names) ∧
        (seen = true → ∀ p ∈ ps, p.kind.rank = top → p.IsPos → p.default.isSome) := by
  induction ps generalizing top seen names with
  | nil => simp [checkParams, ValidSig]
  | cons p ps ih =>
    have hpos : (decide (p.kind = Kind.posOnly) || decide (p.kind = Kind.posOrKw)) = true ↔ p.IsPos := by simp [Param.IsPos]
    unfold checkParams
    by_cases h1 : p.kind.rank < top
    · rw [if_pos h1]
      refine ⟨fun h => by simp at h, fun h => absurd (h.2.1 p (by simp)) (by omega)⟩
    rw [if_neg h1]
    simp only
    set seen1 : Bool := if top < p.kind.rank then false else seen with hs1
    have hseen1 : seen1 = true ↔ p.kind.rank = top ∧ seen = true := by
      rw [hs1]
      by_cases ht : top < p.kind.rank
      · rw [if_pos ht]; simp; omega
      · rw [if_neg ht]; constructor
        · exact fun h => ⟨by omega, h⟩
        · exact fun h => h.2
    by_cases h2 : ((decide (p.kind = Kind.posOnly) || decide (p.kind = Kind.posOrKw)) && p.default.isNone && seen1) = true
    · rw [if_pos h2]
      simp only [Bool.and_eq_true] at h2
      refine ⟨fun h => by simp at h, fun h => ?_⟩
      obtain ⟨e1, e2⟩ := hseen1.mp h2.2
      have := h.2.2.2 e2 p (by simp) e1 (hpos.mp h2.1.1)
      cases hd : p.default <;> simp [hd] at this h2
    rw [if_neg h2]
    by_cases h3 : names.contains p.name = true
    · rw [if_pos h3]
      refine ⟨fun h => by simp at h, fun h => absurd (by simpa using h3) (h.2.2.1 p (by simp))⟩
    rw [if_neg h3, ih]
    have h3' : p.name ∉ names := by simpa using h3
    have h2' : p.IsPos → seen1 = true → p.default.isSome = true := by
      intro hp hs
      cases hd : p.default with
      | some v => rfl
      | none => exact absurd (by rw [hpos.mpr hp, hd, hs]; rfl) h2
    have hk : ∀ q : Param W, q.kind.rank = p.kind.rank ↔ p.kind = q.kind := by
      intro q
      constructor
      · intro h
        cases hq : q.kind <;> cases hp : p.kind <;> rw [hq, hp] at h <;> first | rfl | (exact absurd h (by decide))
      · intro h; rw [h]
    constructor
    · rintro ⟨⟨v1, v2, v3⟩, t, n, s⟩
      refine ⟨⟨?_, ?_, ?_⟩, ?_, ?_, ?_⟩
      · rw [List.map_cons, List.nodup_cons]
        refine ⟨fun hm => ?_, v1⟩
        obtain ⟨q, hq, hqn⟩ := List.mem_map.mp hm
        exact n q hq (by rw [hqn]; simp)
      · exact List.pairwise_cons.mpr ⟨fun q hq => t q hq, v2⟩
      · refine List.pairwise_cons.mpr ⟨fun q hq he hp hd => ?_, v3⟩
        exact s (by rw [if_pos (hpos.mpr hp)]; exact hd) q hq ((hk q).mpr he) (by unfold Param.IsPos at hp ⊢; rw [← he]; exact hp)
      · intro q hq
        rcases List.mem_cons.mp hq with rfl | hq
        · omega
        · have := t q hq; omega
      · intro q hq
        rcases List.mem_cons.mp hq with rfl | hq
        · exact h3'
        · exact fun hm => n q hq (by simp [hm])
      · intro hs q hq he hp
        rcases List.mem_cons.mp hq with rfl | hq
        · exact h2' hp (hseen1.mpr ⟨he, hs⟩)
        · have e : p.kind.rank = top := by have := t q hq; omega
          have hpk : p.kind = q.kind := (hk q).mp (by rw [he, e])
          have hpp : p.IsPos := by unfold Param.IsPos at hp ⊢; rw [hpk]; exact hp
          exact s (by rw [if_pos (hpos.mpr hpp)]; exact h2' hpp (hseen1.mpr ⟨e, hs⟩)) q hq (by rw [he, e]) hp
    · rintro ⟨⟨v1, v2, v3⟩, t, n, s⟩
      rw [List.map_cons, List.nodup_cons] at v1
      rw [List.pairwise_cons] at v2 v3
      refine ⟨⟨v1.2, v2.2, v3.2⟩, fun q hq => v2.1 q hq, ?_, ?_⟩
      · intro q hq hm
        rcases List.mem_cons.mp hm with h | h
        · exact v1.1 (by rw [← h]; exact List.mem_map_of_mem hq)
        · exact n q (by simp [hq]) h
      · intro hs q hq he hp
        have hpk : p.kind = q.kind := (hk q).mp he
        have hpp : p.IsPos := by unfold Param.IsPos at hp ⊢; rw [hpk]; exact hp
        rw [if_pos (hpos.mpr hpp)] at hs
        exact v3.1 q hq hpk hpp hs

theorem mkSignature_iff (ps r : Sig W) : mkSignature ps = .ok r ↔ r = ps ∧ ValidSig ps := by
  have h := checkParams_iff ps 0 false []
  unfold mkSignature
  cases hc : checkParams 0 false [] ps with
  | error e =>
    rw [hc] at h
    simp only [Except.map]
    refine ⟨fun h' => by simp at h', fun h' => ?_⟩
    have := h.mpr ⟨h'.2, by simp, by simp, by simp⟩
    cases this
  | ok x =>
    rw [hc] at h
    simp only [Except.map, Except.ok.injEq]
    exact ⟨fun h' => ⟨h'.symm, (h.mp rfl).1⟩, fun h' => h'.1.symm⟩

theorem ValidSig.wf {ps : Sig W} (h : ValidSig ps) (h1 : (ps.filter fun p => p.kind = .varPos).length ≤ 1) : SigWf ps := by
  refine ⟨h.1, ?_⟩
  have h2 := h.2.1
  clear h
  induction ps with
  | nil => exact List.Pairwise.nil
  | cons p ps ih =>
    rw [List.pairwise_cons] at h2 ⊢
    refine ⟨fun q hq hp => ?_, ih ?_ h2.2⟩
    · have h3 := h2.1 q hq
      have h4 : q.kind ≠ .varPos := by
        intro hqk
        rw [List.filter_cons_of_pos (by simp [hp]), List.length_cons] at h1
        have : q ∈ ps.filter fun p => p.kind = .varPos := List.mem_filter.mpr ⟨hq, by simp [hqk]⟩
        have := List.length_pos_of_mem this
        omega
      cases hk : q.kind <;> simp [hk, hp, Kind.rank] at h3 h4 ⊢
    · by_cases hp : p.kind = .varPos
      · rw [List.filter_cons_of_pos (by simp [hp]), List.length_cons] at h1; omega
      · rw [List.filter_cons_of_neg (by simp [hp])] at h1; exact h1

/-- **C93, construction**: for a user function with first parameter `p0`, the constructors that insert a parameter raise no exception
exactly if the first parameter is positional (without a default if it is not positional-only), no other parameter is positional-only,
and no parameter has the name that is inserted. -/
theorem C93_construct (p0 : Param W) (rest : Sig W) (hu : ValidSig (p0 :: rest)) (name : String) :
    (∃ s, mkSignature (insert1 (p0 :: rest) (newParam name)) = .ok s) ↔
      p0.IsPos ∧ (p0.kind = .posOrKw → p0.default = none) ∧ (∀ q ∈ rest, q.kind ≠ .posOnly) ∧ name ∉ (p0 :: rest).map (·.name) := by
  have e : insert1 (p0 :: rest) (newParam (W := W) name) = p0 :: newParam name :: rest := rfl
  obtain ⟨v1, v2, v3⟩ := hu
  rw [List.map_cons, List.nodup_cons] at v1
  rw [List.pairwise_cons] at v2 v3
  constructor
  · rintro ⟨s, hs⟩
    obtain ⟨-, w1, w2, w3⟩ := (mkSignature_iff _ _).mp hs
    rw [e] at w1 w2 w3
    rw [List.map_cons, List.map_cons, List.nodup_cons, List.nodup_cons] at w1
    rw [List.pairwise_cons, List.pairwise_cons] at w2 w3
    have hp : p0.IsPos := by
      have h := w2.1 (newParam name) (by simp)
      unfold Param.IsPos
      cases hk : p0.kind <;> simp [hk, newParam, Kind.rank] at h ⊢
    refine ⟨hp, fun hk => ?_, fun q hq hk => ?_, fun hm => ?_⟩
    · by_contra hd
      have := w3.1 (newParam name) (by simp) hk hp (Option.isSome_iff_ne_none.mpr hd)
      simp [newParam] at this
    · have := w2.2.1 q hq
      rw [hk] at this
      simp [newParam, Kind.rank] at this
    · rw [List.map_cons, List.mem_cons] at hm
      rcases hm with h | h
      · exact w1.1 (by rw [← h]; simp [newParam])
      · exact w1.2.1 h
  · rintro ⟨hp, hd, hq, hn⟩
    rw [List.map_cons, List.mem_cons, not_or] at hn
    refine ⟨_, (mkSignature_iff _ _).mpr ⟨rfl, ?_, ?_, ?_⟩⟩ <;> rw [e]
    · rw [List.map_cons, List.map_cons, List.nodup_cons, List.nodup_cons]
      refine ⟨fun hm => ?_, hn.2, v1.2⟩
      rcases List.mem_cons.mp hm with h | h
      · exact hn.1 h.symm
      · exact v1.1 h
    · rw [List.pairwise_cons, List.pairwise_cons]
      refine ⟨fun q hq' => ?_, fun q hq' => ?_, v2.2⟩
      · rcases List.mem_cons.mp hq' with rfl | hq'
        · rcases hp with h | h <;> simp [h, newParam, Kind.rank]
        · exact v2.1 q hq'
      · have := hq q hq'
        cases hk : q.kind <;> simp [hk, newParam, Kind.rank] at this ⊢
    · rw [List.pairwise_cons, List.pairwise_cons]
      refine ⟨fun q hq' hk hp' hd' => ?_, fun q hq' hk hp' hd' => by simp [newParam] at hd', v3.2⟩
      rcases List.mem_cons.mp hq' with rfl | hq'
      · rw [hd hk] at hd'; simp at hd'
      · exact v3.1 q hq' hk hp' hd'

/-! ## Binding to `run` -/

theorem sb_var {pos : Sig V} (hp : ∀ p ∈ pos, p.kind = .posOrKw) (a k : String) {vals : List V} (hl : pos.length = vals.length)
    (rest : List V) {kw : Dict V} (hk : ∀ p ∈ pos, p.name ∉ kw.map (·.1)) :
    signatureBind (pos ++ [⟨a, .varPos, none⟩, ⟨k, .varKw, none⟩]) (vals ++ rest) kw = .ok (vals ++ rest, kw) := by
  have h1 := bindPos_full (kw := kw) (T := [⟨a, .varPos, none⟩, ⟨k, .varKw, none⟩]) (fun p h => .inr (hp p h)) (rest := rest) hl
    (fun p h _ => by
      have := hk p h
      rw [← hasKey_iff] at this
      simpa using this)
  have hpp : ∀ p ∈ pos, p.IsPos := fun p h => .inr (hp p h)
  unfold signatureBind bind
  rw [h1]
  have hdef := default_posPart pos vals
  have fin : ∀ (T : Bound V), (∀ e ∈ T, True) →
      (baArgs ((posPart pos vals ++ T).map default1), baKwargs false ((posPart pos vals ++ T).map default1)) =
        (vals ++ baArgs (T.map default1), baKwargs false (T.map default1)) := by
    intro T _
    rw [List.map_append, hdef, baArgs_posPart _ hl hpp, baKwargs_posPart _ hl hpp]
  cases rest with
  | nil =>
    cases kw with
    | nil =>
      simp only [bindPos, if_true, Except.map, Except.bind, bindKw, fillKw, List.isEmpty, decide_true, Bool.true_or,
        applyDefaults_eq, List.append_assoc, fin _ (fun _ _ => trivial)]
      simp [default1, baArgs, baKwargs, kwEntry]
    | cons e kw =>
      simp only [bindPos, if_true, Except.map, Except.bind, bindKw, fillKw, List.isEmpty, decide_true, Bool.true_or, List.any,
        List.map, Bool.or_false, applyDefaults_eq, List.append_assoc]
      rw [if_neg (by simp)]
      simp only [fin _ (fun _ _ => trivial)]
      simp [default1, baArgs, baKwargs, kwEntry]
  | cons b rest =>
    cases kw with
    | nil =>
      simp only [bindPos, if_true, Except.map, Except.bind, bindKw, fillKw, List.isEmpty, decide_true, Bool.true_or,
        applyDefaults_eq, List.append_assoc, reduceCtorEq, decide_false, Bool.or_self, if_false, fin _ (fun _ _ => trivial)]
      simp [default1, baArgs, baKwargs, kwEntry, fin _ (fun _ _ => trivial)]
    | cons e kw =>
      simp only [bindPos, if_true, Except.map, Except.bind, bindKw, fillKw, List.isEmpty, decide_true, Bool.true_or, List.any,
        List.map, Bool.or_false, applyDefaults_eq, List.append_assoc, reduceCtorEq, decide_false, Bool.or_self, if_false]
      simp only [Bool.false_eq_true, if_false, if_true, List.map, List.any, decide_true, Bool.true_or, fin _ (fun _ _ => trivial)]
      simp [default1, baArgs, baKwargs, kwEntry]

/-- The backward pass of a class whose `run` and decorated function are `(init_params, *args, **kwargs)`. -/
theorem runBwd_base {noneV : V} {noneW : Src × V} {u : Sig (Src × V)} {c : Cls} {rootVjp : List V → List C} {d : Option V}
    (h1 : runSig noneV c = [⟨"init_params", .posOrKw, d⟩] ++ [⟨"args", .varPos, none⟩, ⟨"kwargs", .varKw, none⟩])
    (h2 : decoratedSig noneV (runner c) = [⟨"init_params", .posOrKw, none⟩] ++ [⟨"args", .varPos, none⟩, ⟨"kwargs", .varKw, none⟩])
    {ref : Sig (Src × V)} (h3 : backRef noneW u c = .ok ref) (init : V) (args : List V) {kwargs : Dict V}
    (hk : "init_params" ∉ kwargs.map (·.1)) :
    runBwd noneV noneW u c rootVjp (init :: args) kwargs =
      match solverFunBwd ref rootVjp (kwargs.map (·.1)) ((init :: args) ++ kwargs.map (·.2)) with
      | .ok out => .ok out
      | .error e => .error (.inner e) := by
  have e1 : signatureBind (runSig noneV c) (init :: args) kwargs = .ok (init :: args, kwargs) := by
    rw [h1]
    exact sb_var (pos := [⟨"init_params", .posOrKw, d⟩]) (by simp) "args" "kwargs" (vals := [init]) rfl args (by simpa using hk)
  have e2 : wrappedFlat (decoratedSig noneV (runner c)) (init :: args) kwargs =
      .ok (kwargs.map (·.1), (init :: args) ++ kwargs.map (·.2)) := by
    unfold wrappedFlat
    rw [h2, show init :: args = [init] ++ args from rfl,
      sb_var (pos := [⟨"init_params", .posOrKw, none⟩]) (by simp) "args" "kwargs" (vals := [init]) rfl args (by simpa using hk)]
    rfl
  unfold runBwd
  rw [h3, e1]
  simp only [Except.bind, e2]
  cases solverFunBwd ref rootVjp (kwargs.map (·.1)) ((init :: args) ++ kwargs.map (·.2)) <;> rfl

/-- The same for one more positional parameter of `run`. -/
theorem runBwd_hyper {noneV : V} {noneW : Src × V} {u : Sig (Src × V)} {c : Cls} {rootVjp : List V → List C} {name : String} {d : Option V}
    (h1 : runSig noneV c = [⟨"init_params", .posOrKw, none⟩, ⟨name, .posOrKw, d⟩] ++ [⟨"args", .varPos, none⟩, ⟨"kwargs", .varKw, none⟩])
    (h2 : decoratedSig noneV (runner c) = [⟨"init_params", .posOrKw, none⟩] ++ [⟨"args", .varPos, none⟩, ⟨"kwargs", .varKw, none⟩] ∨
      decoratedSig noneV (runner c) = [⟨"init_params", .posOrKw, none⟩, ⟨name, .posOrKw, d⟩] ++ [⟨"args", .varPos, none⟩, ⟨"kwargs", .varKw, none⟩])
    {ref : Sig (Src × V)} (h3 : backRef noneW u c = .ok ref) (init h : V) (args : List V) {kwargs : Dict V}
    (hk : "init_params" ∉ kwargs.map (·.1)) (hn : name ∉ kwargs.map (·.1)) :
    runBwd noneV noneW u c rootVjp (init :: h :: args) kwargs =
      match solverFunBwd ref rootVjp (kwargs.map (·.1)) ((init :: h :: args) ++ kwargs.map (·.2)) with
      | .ok out => .ok out
      | .error e => .error (.inner e) := by
  have e0 : signatureBind ([⟨"init_params", .posOrKw, none⟩, ⟨name, .posOrKw, d⟩] ++ [⟨"args", .varPos, none⟩, ⟨"kwargs", .varKw, none⟩])
      (init :: h :: args) kwargs = .ok (init :: h :: args, kwargs) := by
    refine sb_var (pos := [⟨"init_params", .posOrKw, none⟩, ⟨name, .posOrKw, d⟩]) (by simp) "args" "kwargs" (vals := [init, h]) rfl args ?_
    intro p hp
    simp only [List.mem_cons, List.not_mem_nil, or_false] at hp
    rcases hp with rfl | rfl
    · exact hk
    · exact hn
  have e2 : wrappedFlat (decoratedSig noneV (runner c)) (init :: h :: args) kwargs =
      .ok (kwargs.map (·.1), (init :: h :: args) ++ kwargs.map (·.2)) := by
    unfold wrappedFlat
    rcases h2 with h2 | h2
    · rw [h2, show init :: h :: args = [init] ++ (h :: args) from rfl,
        sb_var (pos := [⟨"init_params", .posOrKw, none⟩]) (by simp) "args" "kwargs" (vals := [init]) rfl (h :: args) (by simpa using hk)]
      rfl
    · rw [h2, e0]; rfl
  unfold runBwd
  rw [h3, h1, e0]
  simp only [Except.bind, e2]
  cases solverFunBwd ref rootVjp (kwargs.map (·.1)) ((init :: h :: args) ++ kwargs.map (·.2)) <;> rfl

/-- Success of the backward pass is resolvability. -/
theorem bwd_iff {ref : Sig (Src × V)} (hw : SigWf ref) {rootVjp : List V → List C} (hr : ∀ a, (rootVjp a).length = a.length)
    (args : List V) {kwargs : Dict V} (hn : (kwargs.map (·.1)).Nodup) :
    (∃ out, (match solverFunBwd ref rootVjp (kwargs.map (·.1)) (args ++ kwargs.map (·.2)) with
      | .ok out => Except.ok out
      | .error e => .error (ExcR.inner e)) = .ok out) ↔ Resolvable ref args.length (kwargs.map (·.1)) := by
  have hl : (kwargs.map (·.2)).length = (kwargs.map (·.1)).length := by simp
  constructor
  · rintro ⟨out, h⟩
    rcases C42_unresolved hw hr hn (args := args) hl with ⟨o, ho, hres⟩ | ⟨msg, ho⟩
    · exact hres
    · rw [ho] at h; cases h
  · intro h
    obtain ⟨out, ho⟩ := C42_resolvable hw hr hn hl h
    exact ⟨out, by rw [ho]⟩

/-! ## Resolvability of the inserted signature -/

theorem resolvable_insert {p0 q : Param W} (hp0 : p0.IsPos) (hq : q.kind = .posOrKw) (rest : Sig W) (n : ℕ) (keys : List String) :
    Resolvable (p0 :: q :: rest) (n + 2) keys ↔ Resolvable (p0 :: rest) (n + 1) keys := by
  have hq' : q.IsPos := .inr hq
  constructor
  · rintro (⟨pre, seg, post, e1, e2, e3, e4, e5, e6⟩ | ⟨pre, p, post, e1, e2, e3, e4, e5, e6⟩)
    · match pre, e2 with
      | a :: b :: pre, e2 =>
        simp only [List.cons_append, List.cons.injEq] at e1
        obtain ⟨rfl, rfl, rfl⟩ := e1
        refine .inl ⟨p0 :: pre, seg, post, rfl, by simpa using e2, ?_, e4, e5, e6⟩
        intro p hp
        exact e3 p (by rcases List.mem_cons.mp hp with h | h <;> simp [h])
    · match pre with
      | [] =>
        simp only [List.nil_append, List.cons.injEq] at e1
        obtain ⟨rfl, -⟩ := e1
        rcases hp0 with h | h <;> rw [h] at e3 <;> cases e3
      | [a] =>
        simp only [List.cons_append, List.nil_append, List.cons.injEq] at e1
        obtain ⟨-, rfl, -⟩ := e1
        rw [hq] at e3; cases e3
      | a :: b :: pre =>
        simp only [List.cons_append, List.cons.injEq] at e1
        obtain ⟨rfl, rfl, rfl⟩ := e1
        refine .inr ⟨p0 :: pre, p, post, rfl, by simpa using e2, e3, ?_, e5, e6⟩
        intro r hr
        exact e4 r (by rcases List.mem_cons.mp hr with h | h <;> simp [h])
  · rintro (⟨pre, seg, post, e1, e2, e3, e4, e5, e6⟩ | ⟨pre, p, post, e1, e2, e3, e4, e5, e6⟩)
    · match pre, e2 with
      | a :: pre, e2 =>
        simp only [List.cons_append, List.cons.injEq] at e1
        obtain ⟨rfl, rfl⟩ := e1
        refine .inl ⟨p0 :: q :: pre, seg, post, rfl, by simpa using e2, ?_, e4, e5, e6⟩
        intro p hp
        simp only [List.mem_cons] at hp
        rcases hp with rfl | rfl | hp
        · exact hp0
        · exact hq'
        · exact e3 p (by simp [hp])
    · match pre with
      | [] =>
        simp only [List.nil_append, List.cons.injEq] at e1
        obtain ⟨rfl, -⟩ := e1
        rcases hp0 with h | h <;> rw [h] at e3 <;> cases e3
      | a :: pre =>
        simp only [List.cons_append, List.cons.injEq] at e1
        obtain ⟨rfl, rfl⟩ := e1
        refine .inr ⟨p0 :: q :: pre, p, post, rfl, by simpa using e2, e3, ?_, e5, e6⟩
        intro r hr
        simp only [List.mem_cons] at hr
        rcases hr with rfl | rfl | hr
        · exact hp0
        · exact hq'
        · exact e4 r (by simp [hr])

theorem resolvable_generic (n : ℕ) (keys : List String) : Resolvable (genericSig : Sig W) (n + 1) keys ↔ keys = [] := by
  constructor
  · rintro (⟨pre, seg, post, e1, e2, e3, e4, e5, e6⟩ | ⟨pre, p, post, e1, e2, e3, e4, e5, e6⟩)
    · match pre, e2 with
      | a :: pre, e2 =>
        simp only [genericSig, List.cons_append, List.cons.injEq] at e1
        obtain ⟨rfl, e1⟩ := e1
        match pre with
        | [] =>
          match seg with
          | [] => exact List.perm_nil.mp (by simpa using e5.symm)
          | b :: seg =>
            simp only [List.nil_append, List.cons_append, List.cons.injEq] at e1
            obtain ⟨rfl, -⟩ := e1
            have := e4 _ (List.mem_cons_self ..)
            simp at this
        | b :: pre =>
          simp only [List.cons_append, List.cons.injEq] at e1
          obtain ⟨rfl, -⟩ := e1
          have := e3 ⟨"args", .varPos, none⟩ (by simp)
          simp [Param.IsPos] at this
    · exact e5
  · rintro rfl
    cases n with
    | zero =>
      exact .inl ⟨[⟨"params", .posOrKw, none⟩], [], [⟨"args", .varPos, none⟩, ⟨"kwargs", .varKw, none⟩], rfl, rfl, by simp [Param.IsPos], by simp,
        by simp, by simp [Param.IsOpt]⟩
    | succ n =>
      exact .inr ⟨[⟨"params", .posOrKw, none⟩], ⟨"args", .varPos, none⟩, [⟨"kwargs", .varKw, none⟩], rfl, by simp, rfl, by simp [Param.IsPos], rfl,
        by simp [Param.IsOpt]⟩

theorem genericSig_wf : SigWf (genericSig : Sig W) := by
  refine ⟨by simp [genericSig], ?_⟩
  simp [genericSig]

theorem genericSig2_wf {name : String} (h : name ∈ ["hyperparams_prox", "hyperparams_proj", "bounds"]) :
    SigWf (genericSig2 name : Sig W) := by
  simp only [List.mem_cons, List.not_mem_nil, or_false] at h
  rcases h with rfl | rfl | rfl <;> exact ⟨by simp [genericSig2], by simp [genericSig2]⟩

/-! ## C93 -/

variable {noneV : V} {noneW : Src × V} {u : Sig (Src × V)} {rootVjp : List V → List C}

/-- **C93, solvers with the signature of the user function**: `run(init, *args, **kwargs)` can be differentiated exactly if
`fun(params, *args, **kwargs)` resolves to positions, for every user function and every call. -/
theorem C93_user {c : Cls} (hc : UserRef c) (hw : SigWf u) (hr : ∀ a, (rootVjp a).length = a.length) (init : V) (args : List V)
    {kwargs : Dict V} (hn : (kwargs.map (·.1)).Nodup) (hi : "init_params" ∉ kwargs.map (·.1)) :
    (∃ out, runBwd noneV noneW u c rootVjp (init :: args) kwargs = .ok out) ↔ Resolvable u (args.length + 1) (kwargs.map (·.1)) := by
  have h1 : ∃ d, runSig noneV c = [⟨"init_params", .posOrKw, d⟩] ++ [⟨"args", .varPos, none⟩, ⟨"kwargs", .varKw, none⟩] := by
    simp only [UserRef, List.mem_cons, List.not_mem_nil, or_false] at hc
    rcases hc with rfl | rfl | rfl | rfl | rfl | rfl | rfl | rfl | rfl | rfl | rfl | rfl <;> exact ⟨_, rfl⟩
  have h2 : decoratedSig noneV (runner c) = [⟨"init_params", .posOrKw, none⟩] ++ [⟨"args", .varPos, none⟩, ⟨"kwargs", .varKw, none⟩] := by
    simp only [UserRef, List.mem_cons, List.not_mem_nil, or_false] at hc
    rcases hc with rfl | rfl | rfl | rfl | rfl | rfl | rfl | rfl | rfl | rfl | rfl | rfl <;> rfl
  have h3 : backRef noneW u c = .ok u := by
    simp only [UserRef, List.mem_cons, List.not_mem_nil, or_false] at hc
    rcases hc with rfl | rfl | rfl | rfl | rfl | rfl | rfl | rfl | rfl | rfl | rfl | rfl <;> rfl
  obtain ⟨d, h1⟩ := h1
  rw [runBwd_base h1 h2 h3 init args hi]
  exact bwd_iff hw hr (init :: args) hn

/-- The reference signature of the classes that insert a parameter. -/
theorem backRef_hyper {c : Cls} {name : String} (hc : Hyper c name) {s : Sig (Src × V)}
    (hs : mkSignature (insert1 u (newParam name)) = .ok s) : backRef noneW u c = .ok s := by
  simp only [Hyper, List.mem_cons, Prod.mk.injEq, List.not_mem_nil, or_false] at hc
  rcases hc with ⟨rfl, rfl⟩ | ⟨rfl, rfl⟩ | ⟨rfl, rfl⟩ | ⟨rfl, rfl⟩ | ⟨rfl, rfl⟩ <;>
    simp [backRef, refAttr, hs, runner, Except.map, Except.bind]

/-- **C93, solvers with one more parameter**: if the solver can be constructed, `run(init, hyperparams, *args, **kwargs)` can be
differentiated exactly if `fun(params, *args, **kwargs)` resolves to positions. -/
theorem C93_hyper {c : Cls} {name : String} (hc : Hyper c name) {p0 : Param (Src × V)} {rest : Sig (Src × V)} (hw : SigWf (p0 :: rest))
    {s : Sig (Src × V)} (hv : ValidSig (p0 :: rest)) (hs : mkSignature (insert1 (p0 :: rest) (newParam name)) = .ok s)
    (hr : ∀ a, (rootVjp a).length = a.length) (init h : V) (args : List V) {kwargs : Dict V} (hn : (kwargs.map (·.1)).Nodup)
    (hi : "init_params" ∉ kwargs.map (·.1)) (hk : "hyperparams_proj" ∉ kwargs.map (·.1)) :
    (∃ out, runBwd noneV noneW (p0 :: rest) c rootVjp (init :: h :: args) kwargs = .ok out) ↔
      Resolvable (p0 :: rest) (args.length + 1) (kwargs.map (·.1)) := by
  have hcon := (C93_construct p0 rest hv name).mp ⟨s, hs⟩
  obtain ⟨rfl, vs⟩ := (mkSignature_iff _ _).mp hs
  have h3 := backRef_hyper (noneW := noneW) hc hs
  have hws : SigWf (insert1 (p0 :: rest) (newParam name)) := by
    refine ⟨vs.1, ?_⟩
    have e : insert1 (p0 :: rest) (newParam (W := Src × V) name) = p0 :: newParam name :: rest := rfl
    have h2 := hw.2
    rw [e]
    rw [List.pairwise_cons] at h2
    rw [List.pairwise_cons, List.pairwise_cons]
    refine ⟨fun q hq hk => ?_, fun q hq hk => by simp [newParam] at hk, h2.2⟩
    rcases hcon.1 with h' | h' <;> rw [h'] at hk <;> cases hk
  rw [← resolvable_insert (q := newParam name) hcon.1 rfl]
  have key : ∀ c', runSig noneV c' = [⟨"init_params", .posOrKw, none⟩] ++ [⟨"args", .varPos, none⟩, ⟨"kwargs", .varKw, none⟩] →
      decoratedSig noneV (runner c') = [⟨"init_params", .posOrKw, none⟩] ++ [⟨"args", .varPos, none⟩, ⟨"kwargs", .varKw, none⟩] →
      backRef noneW (p0 :: rest) c' = .ok (insert1 (p0 :: rest) (newParam name)) →
      ((∃ out, runBwd noneV noneW (p0 :: rest) c' rootVjp (init :: h :: args) kwargs = .ok out) ↔
        Resolvable (p0 :: newParam name :: rest) (args.length + 2) (kwargs.map (·.1))) := by
    intro c' h1 h2 h3
    rw [runBwd_base h1 h2 h3 init (h :: args) hi]
    exact bwd_iff hws hr (init :: h :: args) hn
  have key2 : ∀ c', runSig noneV c' = [⟨"init_params", .posOrKw, none⟩, ⟨"hyperparams_proj", .posOrKw, some noneV⟩] ++
        [⟨"args", .varPos, none⟩, ⟨"kwargs", .varKw, none⟩] →
      decoratedSig noneV (runner c') = [⟨"init_params", .posOrKw, none⟩] ++ [⟨"args", .varPos, none⟩, ⟨"kwargs", .varKw, none⟩] →
      backRef noneW (p0 :: rest) c' = .ok (insert1 (p0 :: rest) (newParam name)) →
      ((∃ out, runBwd noneV noneW (p0 :: rest) c' rootVjp (init :: h :: args) kwargs = .ok out) ↔
        Resolvable (p0 :: newParam name :: rest) (args.length + 2) (kwargs.map (·.1))) := by
    intro c' h1 h2 h3
    rw [runBwd_hyper h1 (.inl h2) h3 init h args hi hk]
    exact bwd_iff hws hr (init :: h :: args) hn
  simp only [Hyper, List.mem_cons, Prod.mk.injEq, List.not_mem_nil, or_false] at hc
  rcases hc with ⟨rfl, rfl⟩ | ⟨rfl, rfl⟩ | ⟨rfl, rfl⟩ | ⟨rfl, rfl⟩ | ⟨rfl, rfl⟩
  · exact key _ rfl rfl h3
  · exact key _ rfl rfl h3
  · exact key2 _ rfl rfl h3
  · exact key _ rfl rfl h3
  · exact key2 _ rfl rfl h3

/-- **C93, solvers without a reference signature**: `run(init, *args, **kwargs)` of `GaussNewton`, `LevenbergMarquardt`, `ScipyMinimize`
and `ScipyLeastSquares` can be differentiated exactly if no data is passed by keyword, whatever the user function. -/
theorem C93_opaque {c : Cls} (hc : Opaque c) (hr : ∀ a, (rootVjp a).length = a.length) (init : V) (args : List V)
    {kwargs : Dict V} (hn : (kwargs.map (·.1)).Nodup) (hi : "init_params" ∉ kwargs.map (·.1)) :
    (∃ out, runBwd noneV noneW u c rootVjp (init :: args) kwargs = .ok out) ↔ kwargs = [] := by
  have h1 : runSig noneV c = [⟨"init_params", .posOrKw, none⟩] ++ [⟨"args", .varPos, none⟩, ⟨"kwargs", .varKw, none⟩] ∧
      decoratedSig noneV (runner c) = [⟨"init_params", .posOrKw, none⟩] ++ [⟨"args", .varPos, none⟩, ⟨"kwargs", .varKw, none⟩] ∧
      backRef noneW u c = .ok genericSig := by
    simp only [Opaque, List.mem_cons, List.not_mem_nil, or_false] at hc
    rcases hc with rfl | rfl | rfl | rfl <;> exact ⟨rfl, rfl, rfl⟩
  rw [runBwd_base h1.1 h1.2.1 h1.2.2 init args hi, bwd_iff genericSig_wf hr (init :: args) hn, List.length_cons, resolvable_generic,
    List.map_eq_nil_iff]

/-- The same for `ScipyBoundedMinimize` and `ScipyBoundedLeastSquares`. -/
theorem C93_opaque_bounded {c : Cls} (hc : OpaqueBounded c) (hr : ∀ a, (rootVjp a).length = a.length) (init b : V) (args : List V)
    {kwargs : Dict V} (hn : (kwargs.map (·.1)).Nodup) (hi : "init_params" ∉ kwargs.map (·.1)) (hb : "bounds" ∉ kwargs.map (·.1)) :
    (∃ out, runBwd noneV noneW u c rootVjp (init :: b :: args) kwargs = .ok out) ↔ kwargs = [] := by
  have h1 : runSig noneV c = [⟨"init_params", .posOrKw, none⟩, ⟨"bounds", .posOrKw, none⟩] ++
        [⟨"args", .varPos, none⟩, ⟨"kwargs", .varKw, none⟩] ∧
      decoratedSig noneV (runner c) = [⟨"init_params", .posOrKw, none⟩, ⟨"bounds", .posOrKw, none⟩] ++
        [⟨"args", .varPos, none⟩, ⟨"kwargs", .varKw, none⟩] ∧
      backRef noneW u c = .ok (genericSig2 "bounds") := by
    simp only [OpaqueBounded, List.mem_cons, List.not_mem_nil, or_false] at hc
    rcases hc with rfl | rfl <;> exact ⟨rfl, rfl, rfl⟩
  have e : (genericSig2 "bounds" : Sig (Src × V)) =
      ⟨"sol", .posOrKw, none⟩ :: ⟨"bounds", .posOrKw, none⟩ :: [⟨"args", .varPos, none⟩, ⟨"kwargs", .varKw, none⟩] := rfl
  rw [runBwd_hyper h1.1 (.inr h1.2.1) h1.2.2 init b args hi hb, bwd_iff (genericSig2_wf (by simp)) hr (init :: b :: args) hn,
    List.length_cons, List.length_cons, e, resolvable_insert (.inr rfl) rfl]
  rw [← List.map_eq_nil_iff (f := fun x : String × V => x.1)]
  constructor
  · rintro (⟨pre, seg, post, e1, e2, e3, e4, e5, e6⟩ | ⟨pre, p, post, e1, e2, e3, e4, e5, e6⟩)
    · match pre, e2 with
      | a :: pre, e2 =>
        simp only [List.cons_append, List.cons.injEq] at e1
        obtain ⟨rfl, e1⟩ := e1
        match pre with
        | [] =>
          match seg with
          | [] => exact List.perm_nil.mp (by simpa using e5.symm)
          | b :: seg =>
            simp only [List.nil_append, List.cons_append, List.cons.injEq] at e1
            obtain ⟨rfl, -⟩ := e1
            have := e4 _ (List.mem_cons_self ..)
            simp at this
        | b :: pre =>
          simp only [List.cons_append, List.cons.injEq] at e1
          obtain ⟨rfl, -⟩ := e1
          have := e3 ⟨"args", .varPos, none⟩ (by simp)
          simp [Param.IsPos] at this
    · exact e5
  · intro hk
    rw [hk]
    cases args with
    | nil =>
      exact .inl ⟨[⟨"sol", .posOrKw, none⟩], [], [⟨"args", .varPos, none⟩, ⟨"kwargs", .varKw, none⟩], rfl, rfl, by simp [Param.IsPos], by simp,
        by simp, by simp [Param.IsOpt]⟩
    | cons a args =>
      exact .inr ⟨[⟨"sol", .posOrKw, none⟩], ⟨"args", .varPos, none⟩, [⟨"kwargs", .varKw, none⟩], rfl, by simp, rfl, by simp [Param.IsPos], rfl,
        by simp [Param.IsOpt]⟩

/-- **C93, solvers with named arguments**: every call of `run` that Python accepts can be differentiated. -/
theorem C93_named {c : Cls} (hc : Named c) (hr : ∀ a, (rootVjp a).length = a.length) (args : List V) (kwargs : Dict V)
    {r : List V × Dict V} (h : signatureBind (runSig noneV c) args kwargs = .ok r) :
    ∃ out, runBwd noneV noneW u c rootVjp args kwargs = .ok out := by
  have hall : ∀ {l : Sig V}, (∀ p ∈ l, p.kind = .posOrKw) → (l.map (·.name)).Nodup → Shape l l [] [] [] := by
    intro l hl hn
    exact ⟨by simp, fun p hp => .inr (hl p hp), by simp, by simp, by simp, by simp, by simp, hn⟩
  have hk : (∀ p ∈ runSig noneV c, p.kind = .posOrKw) ∧ ((runSig noneV c).map (·.name)).Nodup := by
    simp only [Named, List.mem_cons, List.not_mem_nil, or_false] at hc
    rcases hc with rfl | rfl | rfl | rfl <;> constructor <;> simp [runSig, optionalSig, namedSig]
  have hsh := hall hk.1 hk.2
  obtain ⟨a, kw⟩ := r
  obtain ⟨vals, kvals, v1, v2, v3, v4, v5, v6⟩ := C42_defaults hsh h
  have hkw : kw = [] := by
    rw [v4, v6 rfl]; simp
  have hlen : a.length = (runSig noneV c).length := by
    rw [v3, v5 rfl, List.append_nil]
    have := congrArg List.length v1
    rw [posValues_length, List.length_map] at this
    exact this.symm
  subst hkw
  -- the decorated function passes the arguments on
  have hflat : wrappedFlat (decoratedSig noneV (runner c)) a [] = .ok ([], a) := by
    have gen : a ≠ [] → wrappedFlat ([⟨"init_params", .posOrKw, none⟩] ++ [⟨"args", .varPos, none⟩, ⟨"kwargs", .varKw, none⟩]) a [] =
        .ok ([], a) := by
      intro hne
      cases a with
      | nil => exact absurd rfl hne
      | cons x xs =>
        unfold wrappedFlat
        rw [show x :: xs = [x] ++ xs from rfl,
          sb_var (pos := [⟨"init_params", .posOrKw, none⟩]) (by simp) "args" "kwargs" (vals := [x]) rfl xs (by simp)]
        simp [Except.map]
    have same : wrappedFlat (runSig noneV c) a [] = .ok ([], a) := by
      unfold wrappedFlat
      rw [C42_transparent hsh h]
      simp [Except.map]
    have hne : a ≠ [] := by
      intro h0
      rw [h0] at hlen
      simp only [Named, List.mem_cons, List.not_mem_nil, or_false] at hc
      rcases hc with rfl | rfl | rfl | rfl <;> simp [runSig, optionalSig, namedSig] at hlen
    simp only [Named, List.mem_cons, List.not_mem_nil, or_false] at hc
    rcases hc with rfl | rfl | rfl | rfl
    · exact gen hne
    · exact gen hne
    · exact same
    · exact same
  have href : ∃ ref, backRef noneW u c = .ok ref ∧ SigWf ref ∧ ref.length = a.length ∧ ∀ p ∈ ref, p.kind = .posOrKw := by
    rw [hlen]
    simp only [Named, List.mem_cons, List.not_mem_nil, or_false] at hc
    rcases hc with rfl | rfl | rfl | rfl <;> refine ⟨_, rfl, ⟨?_, ?_⟩, rfl, ?_⟩ <;>
      simp [runSig, optionalSig, namedSig, optSig, runner]
  obtain ⟨ref, h1, h2, h3, h4⟩ := href
  have hres : Resolvable ref a.length [] :=
    .inl ⟨ref, [], [], by simp, h3, fun p hp => .inr (h4 p hp), by simp, by simp, by simp⟩
  obtain ⟨out, ho⟩ := C42_resolvable h2 hr (keys := []) List.nodup_nil (args := a) (vals := []) rfl hres
  refine ⟨out, ?_⟩
  unfold runBwd
  rw [List.append_nil] at ho
  rw [h1, h]
  simp only [Except.bind, hflat, ho]

/-- **C93, solvers with named arguments**: after the first parameter, the names of `run` are those of the signature the backward pass
resolves the arguments with, in the same order, so that each argument is routed to the parameter of the optimality function with its name. -/
theorem C93_named_names {c : Cls} (hc : Named c) :
    ∃ ref, backRef noneW u c = .ok ref ∧ ref.tail.map (·.name) = (runSig noneV c).tail.map (·.name) := by
  simp only [Named, List.mem_cons, List.not_mem_nil, or_false] at hc
  rcases hc with rfl | rfl | rfl | rfl <;> refine ⟨_, rfl, ?_⟩ <;> simp [runSig, optionalSig, namedSig, optSig, runner]

/-- `BoxCDQP.run(init, *args, **kwargs)` resolves keywords with `(sol, params_obj, params_ineq)`. -/
theorem C93_box_cd (hr : ∀ a, (rootVjp a).length = a.length) (init : V) (args : List V) {kwargs : Dict V}
    (hn : (kwargs.map (·.1)).Nodup) (hi : "init_params" ∉ kwargs.map (·.1)) :
    (∃ out, runBwd noneV noneW u .boxCDQP rootVjp (init :: args) kwargs = .ok out) ↔
      Resolvable (namedSig ["sol", "params_obj", "params_ineq"] : Sig (Src × V)) (args.length + 1) (kwargs.map (·.1)) := by
  rw [runBwd_base (d := none) rfl rfl rfl init args hi]
  exact bwd_iff ⟨by simp [namedSig, optSig, runner], by simp [namedSig, optSig, runner]⟩ hr (init :: args) hn

/-- **C93, routing**: in every differentiable call of a solver with a reference signature, an argument that supplies position `k` of the
reference signature receives the cotangent of the `k`-th argument of the optimality function. -/
theorem C93_routing {c : Cls} {d : Option V}
    (h1 : runSig noneV c = [⟨"init_params", .posOrKw, d⟩] ++ [⟨"args", .varPos, none⟩, ⟨"kwargs", .varKw, none⟩])
    (h2 : decoratedSig noneV (runner c) = [⟨"init_params", .posOrKw, none⟩] ++ [⟨"args", .varPos, none⟩, ⟨"kwargs", .varKw, none⟩])
    {ref : Sig (Src × V)} (h3 : backRef noneW u c = .ok ref) (hw : SigWf ref) (hr : ∀ a, (rootVjp a).length = a.length) (init : V)
    (args : List V) {kwargs : Dict V} (hn : (kwargs.map (·.1)).Nodup) (hi : "init_params" ∉ kwargs.map (·.1)) {out : List (Option C)}
    (h : runBwd noneV noneW u c rootVjp (init :: args) kwargs = .ok out) :
    out.length = args.length + 1 + kwargs.length ∧ ∃ bound : List V, ∀ j, j < args.length + 1 + kwargs.length →
      ∃ k, Supplies ref (args.length + 1) (kwargs.map (·.1)) j k ∧ bound[k]? = ((init :: args) ++ kwargs.map (·.2))[j]? ∧
        out[j]? = some (cotangentAt rootVjp bound k) := by
  rw [runBwd_base h1 h2 h3 init args hi] at h
  cases hb : solverFunBwd ref rootVjp (kwargs.map (·.1)) ((init :: args) ++ kwargs.map (·.2)) with
  | error e => rw [hb] at h; cases h
  | ok o =>
    rw [hb] at h
    simp only [Except.ok.injEq] at h
    subst h
    obtain ⟨r1, bound, -, r3⟩ := C42_routing hw hr hn (by simp) hb
    simp only [List.length_cons, List.length_map] at r1 r3
    refine ⟨r1, bound, fun j hj => ?_⟩
    obtain ⟨k, k1, -, k2, k3⟩ := r3 j hj
    exact ⟨k, k1, k2, k3⟩

/-- **C93, Anderson wrapper**: construction raises `AttributeError` for every wrapped class that does not set the attribute (if that
class can be constructed), and succeeds otherwise with the signature of the wrapped solver. -/
theorem C93_wrapper {c : Cls} (hc : NoRef c) {r : Option (Sig (Src × V))} (h : refAttr u c = .ok r) :
    refAttr u (.andersonWrapper c) = .error .attributeError := by
  have hr : r = none := by
    simp only [NoRef, List.mem_cons, List.not_mem_nil, or_false] at hc
    rcases hc with rfl | rfl | rfl | rfl | rfl | rfl | rfl | rfl | rfl | rfl | rfl | rfl | rfl | rfl
    case inr.inr.inl =>
      simp only [refAttr] at h
      cases hm : mkSignature (insert1 u (newParam "hyperparams_prox")) with
      | error e => rw [hm] at h; cases h
      | ok s => rw [hm] at h; simpa [Except.map] using h.symm
    all_goals simpa [refAttr] using h.symm
  rw [refAttr, h, hr]

theorem C93_wrapper_run {c : Cls} {s : Sig (Src × V)} (h : refAttr u c = .ok (some s)) (hw : SigWf s)
    (hr : ∀ a, (rootVjp a).length = a.length) (init : V) (args : List V) {kwargs : Dict V} (hn : (kwargs.map (·.1)).Nodup)
    (hi : "init_params" ∉ kwargs.map (·.1)) :
    (∃ out, runBwd noneV noneW u (.andersonWrapper c) rootVjp (init :: args) kwargs = .ok out) ↔
      Resolvable s (args.length + 1) (kwargs.map (·.1)) := by
  have h3 : backRef noneW u (.andersonWrapper c) = .ok s := by
    have : refAttr u (.andersonWrapper c) = .ok (some s) := by rw [refAttr, h]
    simp only [backRef, runner, this, Except.bind, Except.map, Option.getD]
  rw [runBwd_base (d := none) rfl rfl h3 init args hi]
  exact bwd_iff hw hr (init :: args) hn

/-- **C93, linear solver**: the linear solver given as `implicit_diff_solve` is the one used, except by `ProjectedGradient`, which uses
`solve_normal_cg` whatever it was given. -/
theorem C93_solve (normalCg s : S) (c : Cls) : solveUsed normalCg ⟨true, some s⟩ c = some s ↔ c ≠ .projectedGradient ∨ s = normalCg := by
  cases c <;> simp [solveUsed, runnerOptions, customRootSolve, eq_comm]

/-! ## Non-vacuity and counterexamples -/

/-- `fun(params, X, y)`. -/
def exFun : Sig (Src × ℕ) := [⟨"params", .posOrKw, none⟩, ⟨"X", .posOrKw, none⟩, ⟨"y", .posOrKw, none⟩]

/-- **C93**, the negation: `solver.run(params, X, y=y)` can be differentiated with `LBFGS` but raises `TypeError` in the backward pass
of `GaussNewton`, `LevenbergMarquardt`, `ScipyMinimize` and `ScipyLeastSquares`, for the same user function. -/
theorem C93_keyword_false :
    runBwd 0 (.pos 0, 0) exFun .lbfgs (fun a => a.map (· + 100)) [1, 10] [("y", 20)] = .ok [none, some 110, some 120] ∧
    ∀ c, Opaque c → runBwd 0 (.pos 0, 0) exFun c (fun a => a.map (· + 100)) [1, 10] [("y", 20)] =
      .error (.inner (.typeError unresolvedMsg)) := by
  refine ⟨rfl, fun c hc => ?_⟩
  simp only [Opaque, List.mem_cons, List.not_mem_nil, or_false] at hc
  rcases hc with rfl | rfl | rfl | rfl <;> rfl

/-- **C93**, the negation: `AndersonWrapper(ProjectedGradient(fun, projection))` raises `AttributeError`, while
`AndersonWrapper(ProximalGradient(fun, prox))` can be constructed and run. -/
theorem C93_wrapper_false :
    refAttr exFun (.andersonWrapper .projectedGradient) = .error .attributeError ∧
    runBwd 0 (.pos 0, 0) exFun (.andersonWrapper .proximalGradient) (fun a => a.map (· + 100)) [1, 5, 10] [("y", 20)] =
      .ok [none, some 105, some 110, some 120] := ⟨rfl, rfl⟩

/-- **C93**, the negation: a user function with two positional-only parameters, with a parameter called `bounds`, or whose first
parameter has a default cannot be given to `LBFGSB`, although `LBFGS` accepts it. -/
theorem C93_construct_false :
    (∃ m, refAttr [⟨"params", .posOnly, none⟩, ⟨"X", .posOnly, none⟩] (W := ℕ) .lbfgsb = .error (.valueError m)) ∧
    (∃ m, refAttr [⟨"params", .posOrKw, none⟩, ⟨"bounds", .posOrKw, none⟩] (W := ℕ) .lbfgsb = .error (.valueError m)) ∧
    (∃ m, refAttr [⟨"params", .posOrKw, some 0⟩] (W := ℕ) .lbfgsb = .error (.valueError m)) ∧
    ∀ u : Sig ℕ, refAttr u .lbfgs = .ok (some u) := ⟨⟨_, rfl⟩, ⟨_, rfl⟩, ⟨_, rfl⟩, fun _ => rfl⟩

/-- `ProximalGradient.run(params, X=10, hyperparams_prox=5, y=20)`: the hyperparameters may be passed by keyword as well. -/
example : runBwd 0 (.pos 0, 0) exFun .proximalGradient (fun a => a.map (· + 100)) [1] [("X", 10), ("hyperparams_prox", 5), ("y", 20)] =
    .ok [none, some 110, some 105, some 120] := rfl

/-- `ProjectedGradient.run(params, hyperparams_proj=5, X=10, y=20)`. -/
example : runBwd 0 (.pos 0, 0) exFun .projectedGradient (fun a => a.map (· + 100)) [1] [("hyperparams_proj", 5), ("X", 10), ("y", 20)] =
    .ok [none, some 105, some 110, some 120] := rfl

/-- `BoxOSQP.run(params_obj=1, params_ineq=2)`. -/
example : runBwd 0 (.pos 0, 0) exFun .boxOSQP (fun a => a.map (· + 100)) [] [("params_obj", 1), ("params_ineq", 2)] =
    .ok [none, some 101, some 100, some 102] := rfl

example : Resolvable exFun 2 ["y"] ∧ ValidSig exFun := by
  refine ⟨.inl ⟨exFun.take 2, exFun.drop 2, [], rfl, rfl, ?_, ?_, ?_, ?_⟩, ?_⟩
  · simp [exFun, Param.IsPos]
  · simp [exFun]
  · simp [exFun]
  · simp
  · refine ⟨by simp [exFun], ?_, ?_⟩ <;> simp [exFun]

end Jaxopt.Implicit
