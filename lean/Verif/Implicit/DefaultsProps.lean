import Verif.Implicit.SignatureProps

/-!
# C42: the wrapped solver is called with the values of the original call

`wrapped_solver_fun` (implicit_diff.py lines 248-251) binds the arguments to the signature of the solver, fills in the defaults and calls
the `custom_vjp` function with the flattened result.  The defaults have to be filled in so that the backward pass evaluates the optimality
function at the values that the solver used.
-/

set_option autoImplicit false
set_option linter.unusedSectionVars false
set_option linter.unusedVariables false

namespace Jaxopt.Implicit

variable {V C : Type*}

/-! ## Specification: Python's calling convention -/

/-- The shape of every Python signature: positional parameters, `*args`, keyword-only parameters, `**kwargs`, with different names. -/
structure Shape (sig pos vp ko vk : Sig V) : Prop where
  eq : sig = pos ++ (vp ++ (ko ++ vk))
  pos_kind : ∀ p ∈ pos, p.IsPos
  vp_kind : ∀ p ∈ vp, p.kind = .varPos ∧ p.default = none
  vp_one : vp.length ≤ 1
  ko_kind : ∀ p ∈ ko, p.kind = .kwOnly
  vk_kind : ∀ p ∈ vk, p.kind = .varKw ∧ p.default = none
  vk_one : vk.length ≤ 1
  names : (sig.map (·.name)).Nodup

/-- The values of the positional parameters in a call: by position, then by keyword, then by default. -/
def posValues (kwargs : Dict V) : List V → Sig V → List (Option V)
  | _, [] => []
  | a :: args, _ :: ps => some a :: posValues kwargs args ps
  | [], p :: ps => (if p.kind = .posOnly then p.default else (kwargs.lookup p.name).or p.default) :: posValues kwargs [] ps

/-- The value of a keyword-only parameter in a call. -/
def kwValue (kwargs : Dict V) (p : Param V) : Option V := (kwargs.lookup p.name).or p.default

/-- The parameters that keyword arguments can name. -/
def namable (sig : Sig V) : List String := (sig.filter fun p => p.kind = .posOrKw || p.kind = .kwOnly).map (·.name)

/-- The dict that `**kwargs` receives. -/
def extra (sig : Sig V) (kwargs : Dict V) : Dict V := kwargs.filter fun e => !(namable sig).contains e.1

/-! ## Lemmas -/

/-- A parameter that binds a single value. -/
def Param.Single (p : Param V) : Prop := ¬(p.kind = .varKw ∨ p.kind = .varPos)

instance (p : Param V) : Decidable p.Single := inferInstanceAs (Decidable (¬ _))

/-- The keyword phase in closed form. -/
theorem bindKw_desc {R : Sig V} {kw rem : Dict V} {R' : Bound V} (hR : (R.map (·.name)).Nodup) (h : bindKw R kw = .ok (R', rem)) :
    R' = R.map (fun p => (p, if p.Single then (kw.lookup p.name).map BArg.val else none)) ∧
    rem = kw.filter (fun e => !((R.filter fun p => p.Single).map (·.name)).contains e.1) ∧
    ∀ p ∈ R, p.Single → (kw.lookup p.name = none → p.default.isSome) ∧ (p.kind = .posOnly → kw.lookup p.name = none) := by
  induction R generalizing kw R' with
  | nil => cases h; exact ⟨rfl, by simp, by simp⟩
  | cons p ps ih =>
    rw [List.map_cons, List.nodup_cons] at hR
    unfold bindKw at h
    by_cases h1 : (decide (p.kind = Kind.varKw) || decide (p.kind = Kind.varPos)) = true
    · rw [if_pos h1] at h
      have hp : ¬ p.Single := fun hs => hs (by simpa using h1)
      cases hr : bindKw ps kw with
      | error e => rw [hr] at h; cases h
      | ok r =>
        rw [hr] at h; cases h
        obtain ⟨e1, e2, e3⟩ := ih (R' := r.1) hR.2 hr
        refine ⟨by simp [e1, hp], by simp [e2, hp], fun q hq => ?_⟩
        rcases List.mem_cons.mp hq with rfl | hq
        · exact fun h => absurd h hp
        · exact e3 q hq
    · rw [if_neg h1] at h
      have hp : p.Single := by simpa [Param.Single] using h1
      cases hl : kw.lookup p.name with
      | none =>
        rw [hl] at h
        simp only at h
        split_ifs at h with h2
        cases hr : bindKw ps kw with
        | error e => rw [hr] at h; cases h
        | ok r =>
          rw [hr] at h; cases h
          obtain ⟨e1, e2, e3⟩ := ih (R' := r.1) hR.2 hr
          refine ⟨by simp [e1, hl], ?_, fun q hq => ?_⟩
          · simp only [e2]
            refine List.filter_congr fun e he => ?_
            have : e.1 ≠ p.name := by
              rintro hc
              have := lookup_none_iff.mp hl
              exact this (by rw [← hc]; exact List.mem_map_of_mem he)
            simp [hp, this]
          · rcases List.mem_cons.mp hq with rfl | hq
            · intro _
              exact ⟨fun _ => by cases hd : q.default <;> simp_all, fun _ => hl⟩
            · exact e3 q hq
      | some v =>
        rw [hl] at h
        simp only at h
        split_ifs at h with h2
        cases hr : bindKw ps (popKey kw p.name) with
        | error e => rw [hr] at h; cases h
        | ok r =>
          rw [hr] at h; cases h
          obtain ⟨e1, e2, e3⟩ := ih (R' := r.1) hR.2 hr
          have hne : ∀ q ∈ ps, q.name ≠ p.name := fun q hq hc => hR.1 (by rw [← hc]; exact List.mem_map_of_mem hq)
          refine ⟨?_, ?_, fun q hq => ?_⟩
          · simp only [List.map_cons, hl, hp, if_true, Option.map_some, List.cons.injEq, true_and, e1]
            refine List.map_congr_left fun q hq => ?_
            rw [lookup_popKey (hne q hq)]
          · simp only [e2, popKey, List.filter_filter]
            refine List.filter_congr fun e he => ?_
            simp only [hp, List.filter_cons, decide_true, if_true, List.map_cons, List.contains_cons, Bool.not_or, bne]
            rw [Bool.and_comm]
          · rcases List.mem_cons.mp hq with rfl | hq
            · intro _
              exact ⟨fun h => (by rw [hl] at h; cases h), fun h => absurd h h2⟩
            · have := e3 q hq
              rw [lookup_popKey (hne q hq)] at this
              exact this

/-- The positional phase rejects keywords for parameters that are filled by position. -/
theorem bindPos_noKey {kw : Dict V} {S : Sig V} {args : List V} {acc : Bound V} {R : Sig V} (h : bindPos kw S args = .ok (acc, R))
    {pre : Sig V} (hpre : ∀ p ∈ pre, p.IsPos) {T : Sig V} (hS : S = pre ++ T) (hl : pre.length ≤ args.length) :
    ∀ p ∈ pre, p.kind = .posOrKw → kw.lookup p.name = none := by
  induction pre generalizing S args acc with
  | nil => simp
  | cons p pre ih =>
    subst hS
    cases args with
    | nil => simp at hl
    | cons a as =>
      rw [List.cons_append] at h
      unfold bindPos at h
      have hk := hpre p (by simp)
      rw [if_neg (by rcases hk with hk | hk <;> simp [hk]), if_neg (by rcases hk with hk | hk <;> simp [hk])] at h
      split_ifs at h with h3
      cases hr : bindPos kw (pre ++ T) as with
      | error e => rw [hr] at h; cases h
      | ok r =>
        rw [hr] at h
        obtain ⟨r1, r2⟩ := r
        simp only [Except.map, Except.ok.injEq, Prod.mk.injEq] at h
        obtain ⟨-, rfl⟩ := h
        intro q hq hqk
        rcases List.mem_cons.mp hq with rfl | hq
        · rw [lookup_none_iff, ← hasKey_iff]
          simpa [hqk] using h3
        · exact ih (acc := r1) hr (fun q hq => hpre q (by simp [hq])) rfl (by simpa using hl) q hq hqk

/-- `apply_defaults` on one parameter. -/
def default1 (e : Param V × Option (BArg V)) : Param V × Option (BArg V) :=
  match e.2 with
  | some v => (e.1, some v)
  | none =>
    match e.1.default with
    | some v => (e.1, some (.val v))
    | none => if e.1.kind = .varPos then (e.1, some (.tuple [])) else if e.1.kind = .varKw then (e.1, some (.dict [])) else (e.1, none)

theorem applyDefaults_eq (b : Bound V) : applyDefaults b = b.map default1 := rfl

theorem default1_single {p : Param V} (hp : p.Single) (o : Option V) :
    default1 (p, o.map BArg.val) = (p, (o.or p.default).map BArg.val) := by
  cases o with
  | some v => rfl
  | none =>
    unfold default1
    cases hd : p.default with
    | some v => simp [hd]
    | none =>
      have h1 : p.kind ≠ .varPos := fun h => hp (.inr h)
      have h2 : p.kind ≠ .varKw := fun h => hp (.inl h)
      simp [hd, h1, h2]

/-- The end of `_bind` followed by `apply_defaults`. -/
theorem fill_default {R : Sig V} {f : Param V → Option (BArg V)} {rem : Dict V} {R'' : Bound V}
    (hvk : ∀ p ∈ R, p.kind = .varKw → f p = none ∧ p.default = none) (h : fillKw rem (R.map fun p => (p, f p)) = .ok R'') :
    applyDefaults R'' = R.map (fun p => if p.kind = .varKw then (p, some (.dict rem)) else default1 (p, f p)) ∧
    (rem ≠ [] → ∃ p ∈ R, p.kind = .varKw) := by
  unfold fillKw at h
  rw [applyDefaults_eq]
  split_ifs at h with h1 h2
  · cases h
    have hr : rem = [] := List.isEmpty_iff.mp h1
    refine ⟨?_, fun h => absurd hr h⟩
    rw [List.map_map]
    refine List.map_congr_left fun p hp => ?_
    by_cases hk : p.kind = .varKw
    · obtain ⟨e1, e2⟩ := hvk p hp hk
      simp [default1, e1, e2, hk, hr]
    · simp [hk]
  · cases h
    refine ⟨?_, fun _ => ?_⟩
    · rw [List.map_map, List.map_map]
      refine List.map_congr_left fun p hp => ?_
      by_cases hk : p.kind = .varKw
      · simp [default1, hk]
      · simp [hk]
    · obtain ⟨e, he, hk⟩ := List.any_eq_true.mp h2
      obtain ⟨p, hp, rfl⟩ := List.mem_map.mp he
      exact ⟨p, hp, by simpa using hk⟩

/-- The closed form of `bind` followed by `apply_defaults`. -/
def fullBound (sig pos vp ko vk : Sig V) (args : List V) (kwargs : Dict V) : Bound V :=
  List.zipWith (fun p v => (p, v.map BArg.val)) pos (posValues kwargs args pos) ++
    (vp.map (fun p => (p, some (.tuple (args.drop pos.length)))) ++
      (ko.map (fun p => (p, (kwValue kwargs p).map BArg.val)) ++ vk.map (fun p => (p, some (.dict (extra sig kwargs))))))

theorem zipWith_posPart (kwargs : Dict V) (pre pos2 : Sig V) (args : List V) (h : pre.length = args.length) :
    List.zipWith (fun p v => (p, Option.map BArg.val v)) (pre ++ pos2) (posValues kwargs args (pre ++ pos2)) =
      posPart pre args ++ List.zipWith (fun p v => (p, Option.map BArg.val v)) pos2 (posValues kwargs [] pos2) := by
  induction pre generalizing args with
  | nil =>
    cases args with
    | nil => rfl
    | cons _ _ => simp at h
  | cons p pre ih =>
    cases args with
    | nil => simp at h
    | cons a args =>
      simp only [List.cons_append, posValues, List.zipWith_cons_cons, posPart, Option.map_some]
      rw [ih args (by simpa using h)]
      rfl

theorem zipWith_nil_args (kwargs : Dict V) (pos : Sig V) :
    List.zipWith (fun p v => (p, Option.map BArg.val v)) pos (posValues kwargs [] pos) =
      pos.map fun p => (p, (if p.kind = .posOnly then p.default else (kwargs.lookup p.name).or p.default).map BArg.val) := by
  induction pos with
  | nil => rfl
  | cons p pos ih => simp only [posValues, List.zipWith_cons_cons, List.map_cons, ih]

theorem default_posPart (pre : Sig V) (args : List V) : (posPart pre args).map default1 = posPart pre args := by
  unfold posPart
  rw [List.map_zipWith]
  rfl

/-- `posValues` with enough positional arguments. -/
theorem posValues_full (kwargs : Dict V) (pos : Sig V) (args : List V) (h : pos.length ≤ args.length) :
    posValues kwargs args pos = (args.take pos.length).map some := by
  induction pos generalizing args with
  | nil => simp [posValues]
  | cons p pos ih =>
    cases args with
    | nil => simp at h
    | cons a args => simp [posValues, ih args (by simpa using h)]

theorem bind_desc {sig pos vp ko vk : Sig V} (hs : Shape sig pos vp ko vk) {args : List V} {kwargs : Dict V} {b : Bound V}
    (h : bind sig args kwargs = .ok b) :
    applyDefaults b = fullBound sig pos vp ko vk args kwargs ∧ (∀ v ∈ posValues kwargs args pos, v.isSome) ∧
      (∀ p ∈ ko, (kwValue kwargs p).isSome) ∧ (vp = [] → args.drop pos.length = []) ∧ (vk = [] → extra sig kwargs = []) := by
  unfold bind at h
  cases hp : bindPos kwargs sig args with
  | error e => rw [hp] at h; cases h
  | ok r =>
    obtain ⟨acc, R⟩ := r
    rw [hp] at h
    simp only [Except.bind] at h
    cases hb : bindKw R kwargs with
    | error e => rw [hb] at h; cases h
    | ok s =>
      obtain ⟨R', rem⟩ := s
      rw [hb] at h
      simp only at h
      cases hf : fillKw rem R' with
      | error e => rw [hf] at h; cases h
      | ok R'' =>
        rw [hf] at h
        simp only [Except.map, Except.ok.injEq] at h
        subst h
        obtain ⟨pre, hpre, hcase⟩ := bindPos_ok hp
        have happ : ∀ (X Y : Bound V), applyDefaults (X ++ Y) = applyDefaults X ++ applyDefaults Y := fun X Y => by
          simp only [applyDefaults_eq, List.map_append]
        -- what remains after the positional phase
        have tail : ∀ pos1 pos2 vp2, pos = pos1 ++ pos2 → (∀ p ∈ pos1, p.kind = .posOrKw → kwargs.lookup p.name = none) →
            R = pos2 ++ (vp2 ++ (ko ++ vk)) → (∀ p ∈ vp2, p ∈ vp) →
            applyDefaults R'' = (pos2.map fun p => (p, (if p.kind = .posOnly then p.default else
                (kwargs.lookup p.name).or p.default).map BArg.val)) ++
              (vp2.map (fun p => (p, some (.tuple []))) ++ (ko.map (fun p => (p, (kwValue kwargs p).map BArg.val)) ++
                vk.map (fun p => (p, some (.dict (extra sig kwargs)))))) ∧
            (∀ v ∈ posValues kwargs [] pos2, v.isSome) ∧ (∀ p ∈ ko, (kwValue kwargs p).isSome) ∧ (vk = [] → extra sig kwargs = []) := by
          intro pos1 pos2 vp2 hpos hkey hR hvp2
          have hnd : (R.map (·.name)).Nodup := by
            have := hs.names
            rcases hcase with ⟨e1, -, -⟩ | ⟨p, -, e1, -, -⟩ | ⟨p, a1, a2, -, e1, -, -, -, -⟩
            · rw [e1, List.map_append] at this; exact this.of_append_right
            · rw [e1, List.map_append, List.map_cons] at this; exact (List.nodup_cons.mp this.of_append_right).2
            · rw [e1, List.map_append, List.map_cons] at this; exact (List.nodup_cons.mp this.of_append_right).2
          obtain ⟨d1, d2, d3⟩ := bindKw_desc hnd hb
          rw [d1] at hf
          have hkinds : ∀ p ∈ R, (p ∈ pos2 ∧ p.IsPos) ∨ (p ∈ vp2 ∧ p.kind = .varPos ∧ p.default = none) ∨ (p ∈ ko ∧ p.kind = .kwOnly) ∨
              (p ∈ vk ∧ p.kind = .varKw ∧ p.default = none) := by
            intro p hp
            rw [hR] at hp
            simp only [List.mem_append] at hp
            rcases hp with hp | hp | hp | hp
            · exact .inl ⟨hp, hs.pos_kind p (by rw [hpos]; simp [hp])⟩
            · exact .inr (.inl ⟨hp, hs.vp_kind p (hvp2 p hp)⟩)
            · exact .inr (.inr (.inl ⟨hp, hs.ko_kind p hp⟩))
            · exact .inr (.inr (.inr ⟨hp, hs.vk_kind p hp⟩))
          obtain ⟨g1, g2⟩ := fill_default (fun p hp hk => by
            rcases hkinds p hp with ⟨_, h⟩ | ⟨_, h, _⟩ | ⟨_, h⟩ | ⟨_, h, h'⟩
            · rcases h with h | h <;> rw [h] at hk <;> cases hk
            · rw [h] at hk; cases hk
            · rw [h] at hk; cases hk
            · exact ⟨by simp [Param.Single, hk], h'⟩) hf
          have single_pos : ∀ p : Param V, p.IsPos → p.Single := by
            rintro p (h | h) <;> simp [Param.Single, h]
          have hextra : rem = extra sig kwargs := by
            rw [d2]
            unfold extra
            refine List.filter_congr fun e he => ?_
            have hlk : kwargs.lookup e.1 ≠ none := fun hc => lookup_none_iff.mp hc (List.mem_map_of_mem he)
            congr 1
            rw [Bool.eq_iff_iff, List.contains_iff_mem, List.contains_iff_mem]
            simp only [namable, List.mem_map, List.mem_filter, decide_eq_true_eq, Bool.or_eq_true]
            constructor
            · rintro ⟨p, ⟨hpR, hps⟩, hpn⟩
              refine ⟨p, ⟨?_, ?_⟩, hpn⟩
              · rcases hkinds p hpR with ⟨h, _⟩ | ⟨h, _, _⟩ | ⟨h, _⟩ | ⟨h, _, _⟩
                · rw [hs.eq, hpos]; simp [h]
                · rw [hs.eq]; simp [hvp2 p h]
                · rw [hs.eq]; simp [h]
                · rw [hs.eq]; simp [h]
              · rcases hkinds p hpR with ⟨_, h⟩ | ⟨_, h, _⟩ | ⟨_, h⟩ | ⟨_, h, _⟩
                · rcases h with h | h
                  · exact absurd ((d3 p hpR hps).2 h) (by rw [hpn]; exact hlk)
                  · exact .inl h
                · exact absurd (.inr h) hps
                · exact .inr h
                · exact absurd (.inl h) hps
            · rintro ⟨p, ⟨hpS, hpk⟩, hpn⟩
              refine ⟨p, ⟨?_, by rintro (h | h) <;> rw [h] at hpk <;> simp at hpk⟩, hpn⟩
              rw [hs.eq, hpos] at hpS
              simp only [List.mem_append] at hpS
              rw [hR]
              simp only [List.mem_append]
              rcases hpS with (h | h) | h | h | h
              · rcases hpk with hk | hk
                · exact absurd (hkey p h hk) (by rw [hpn]; exact hlk)
                · rcases hs.pos_kind p (by rw [hpos]; simp [h]) with h' | h' <;> rw [h'] at hk <;> cases hk
              · exact .inl h
              · rw [(hs.vp_kind p h).1] at hpk; simp at hpk
              · exact .inr (.inr (.inl h))
              · rw [(hs.vk_kind p h).1] at hpk; simp at hpk
          rw [hextra] at g1 g2
          have hposR : ∀ p ∈ pos2, p ∈ R ∧ p.IsPos := fun p hp =>
            ⟨by rw [hR]; simp [hp], hs.pos_kind p (by rw [hpos]; simp [hp])⟩
          have hkoR : ∀ p ∈ ko, p ∈ R ∧ p.Single := fun p hp =>
            ⟨by rw [hR]; simp [hp], by simp [Param.Single, hs.ko_kind p hp]⟩
          refine ⟨?_, ?_, ?_, ?_⟩
          · rw [g1, hR, List.map_append, List.map_append, List.map_append]
            congr 1
            · refine List.map_congr_left fun p hp => ?_
              obtain ⟨hpR, hpp⟩ := hposR p hp
              have hsg := single_pos p hpp
              rw [if_neg (fun h => hsg (.inl h)), if_pos hsg, default1_single hsg]
              by_cases hk : p.kind = .posOnly
              · rw [if_pos hk, (d3 p hpR hsg).2 hk]; rfl
              · rw [if_neg hk]
            · congr 1
              · refine List.map_congr_left fun p hp => ?_
                obtain ⟨hk, hd⟩ := hs.vp_kind p (hvp2 p hp)
                simp [hk, Param.Single, default1, hd]
              · congr 1
                · refine List.map_congr_left fun p hp => ?_
                  obtain ⟨hpR, hsg⟩ := hkoR p hp
                  rw [if_neg (fun h => hsg (.inl h)), if_pos hsg, default1_single hsg]
                  rfl
                · refine List.map_congr_left fun p hp => ?_
                  rw [if_pos (hs.vk_kind p hp).1]
          · have : posValues kwargs [] pos2 = pos2.map fun p => if p.kind = .posOnly then p.default else
                (kwargs.lookup p.name).or p.default := by
              clear hposR hR hpos hkinds
              induction pos2 with
              | nil => rfl
              | cons p pos2 ih => simp only [posValues, List.map_cons, ih]
            rw [this]
            intro v hv
            obtain ⟨p, hp, rfl⟩ := List.mem_map.mp hv
            obtain ⟨hpR, hpp⟩ := hposR p hp
            have hd := d3 p hpR (single_pos p hpp)
            by_cases hk : p.kind = .posOnly
            · rw [if_pos hk]; exact hd.1 (hd.2 hk)
            · rw [if_neg hk]
              cases hl : kwargs.lookup p.name with
              | none => simpa using hd.1 hl
              | some v => simp
          · intro p hp
            obtain ⟨hpR, hsg⟩ := hkoR p hp
            unfold kwValue
            cases hl : kwargs.lookup p.name with
            | none => simpa using (d3 p hpR hsg).1 hl
            | some v => simp
          · intro hvk
            by_contra hne
            obtain ⟨p, hp, hk⟩ := g2 hne
            rcases hkinds p hp with ⟨_, h⟩ | ⟨_, h, _⟩ | ⟨_, h⟩ | ⟨h, _, _⟩
            · rcases h with h | h <;> rw [h] at hk <;> cases hk
            · rw [h] at hk; cases hk
            · rw [h] at hk; cases hk
            · rw [hvk] at h; simp at h
        -- the parameters filled by position are a prefix of the positional ones
        have notPos : ∀ q ∈ vp ++ (ko ++ vk), ¬ q.IsPos := by
          intro q hq
          simp only [List.mem_append] at hq
          unfold Param.IsPos
          rcases hq with h | h | h
          · rw [(hs.vp_kind q h).1]; simp
          · rw [hs.ko_kind q h]; simp
          · rw [(hs.vk_kind q h).1]; simp
        have split_pos : ∀ T, sig = pre ++ T → ∃ pos2, pos = pre ++ pos2 ∧ T = pos2 ++ (vp ++ (ko ++ vk)) := by
          intro T hT
          rw [hs.eq] at hT
          rcases List.append_eq_append_iff.mp hT with ⟨c, h1, h2⟩ | ⟨c, h1, h2⟩
          · cases c with
            | nil => exact ⟨[], by simpa using h1.symm, by simpa using h2.symm⟩
            | cons q c => exact absurd (hpre q (by rw [h1]; simp)) (notPos q (by rw [h2]; simp))
          · exact ⟨c, h1, h2⟩
        have split_vp : ∀ p, p.kind = .varPos → sig = pre ++ p :: R → pos = pre ∧ vp = [p] ∧ R = ko ++ vk := by
          intro p hk hT
          obtain ⟨pos2, h1, h2⟩ := split_pos _ hT
          cases pos2 with
          | cons q pos2 =>
            rw [List.cons_append, List.cons.injEq] at h2
            rcases hs.pos_kind q (by rw [h1]; simp) with h | h <;> rw [← h2.1, hk] at h <;> cases h
          | nil =>
            rw [List.nil_append] at h2
            refine ⟨by simpa using h1, ?_⟩
            have h3 := hs.vp_one
            cases hv : vp with
            | nil =>
              rw [hv, List.nil_append] at h2
              have : p ∈ ko ++ vk := by rw [← h2]; simp
              rcases List.mem_append.mp this with h | h
              · have := hs.ko_kind p h; rw [hk] at this; cases this
              · have := (hs.vk_kind p h).1; rw [hk] at this; cases this
            | cons q vp' =>
              rw [hv] at h2 h3
              have : vp' = [] := by
                cases vp' with
                | nil => rfl
                | cons _ _ => simp at h3
              subst this
              rw [List.cons_append, List.nil_append, List.cons.injEq] at h2
              exact ⟨by rw [h2.1], h2.2⟩
        rcases hcase with ⟨e1, e2, e3⟩ | ⟨p, e0, e1, e2, e3⟩ | ⟨p, a1, a2, e0, e1, e2, e3, e4, e5⟩
        · obtain ⟨pos2, f1, f2⟩ := split_pos R e1
          obtain ⟨t1, t2, t3, t4⟩ := tail pre pos2 vp f1 (bindPos_noKey hp hpre e1 (Nat.le_of_eq e2)) f2 (fun _ h => h)
          have hdrop : args.drop pos.length = [] := by
            rw [List.drop_eq_nil_iff, f1, List.length_append]; omega
          refine ⟨?_, ?_, t3, fun _ => hdrop, t4⟩
          · rw [happ, t1, e3, applyDefaults_eq, default_posPart]
            unfold fullBound
            rw [f1, zipWith_posPart _ _ _ _ e2, zipWith_nil_args, ← f1, hdrop, List.append_assoc]
          · have happ2 : ∀ (pre : Sig V) (args : List V), pre.length = args.length →
                posValues kwargs args (pre ++ pos2) = args.map some ++ posValues kwargs [] pos2 := by
              intro pre
              induction pre with
              | nil => intro args h; cases args with
                | nil => rfl
                | cons _ _ => simp at h
              | cons q pre ih => intro args h; cases args with
                | nil => simp at h
                | cons a args => simp [posValues, ih args (by simpa using h)]
            rw [f1, happ2 pre args e2]
            intro v hv
            rcases List.mem_append.mp hv with h | h
            · obtain ⟨w, _, rfl⟩ := List.mem_map.mp h; rfl
            · exact t2 v h
        · obtain ⟨rfl, rfl, f3⟩ := split_vp p e0 e1
          obtain ⟨t1, t2, t3, t4⟩ := tail pos [] [] (by simp) (bindPos_noKey hp hpre e1 (Nat.le_of_eq e2)) (by simpa using f3) (by simp)
          have hdrop : args.drop pos.length = [] := by rw [List.drop_eq_nil_iff]; omega
          refine ⟨?_, ?_, t3, fun h => absurd h (by simp), t4⟩
          · have hd := (hs.vp_kind p (by simp)).2
            rw [happ, t1, e3, applyDefaults_eq, List.map_append, default_posPart]
            unfold fullBound
            have := zipWith_posPart kwargs pos [] args e2
            simp only [List.append_nil, posValues, List.zipWith_nil_right] at this
            rw [this, hdrop]
            simp [default1, hd, e0]
          · rw [posValues_full _ _ _ (Nat.le_of_eq e2)]
            intro v hv
            obtain ⟨w, _, rfl⟩ := List.mem_map.mp hv
            rfl
        · obtain ⟨rfl, rfl, f3⟩ := split_vp p e0 e1
          subst e2
          obtain ⟨t1, t2, t3, t4⟩ := tail pos [] [] (by simp) (bindPos_noKey hp hpre e1 (by simp [e4])) (by simpa using f3) (by simp)
          have hdrop : (a1 ++ a2).drop pos.length = a2 := by rw [e4, List.drop_left]
          refine ⟨?_, ?_, t3, fun h => absurd h (by simp), t4⟩
          · rw [happ, t1, e5, applyDefaults_eq, List.map_append, default_posPart]
            unfold fullBound
            have : List.zipWith (fun p v => (p, Option.map BArg.val v)) pos (posValues kwargs (a1 ++ a2) pos) = posPart pos a1 := by
              rw [posValues_full _ _ _ (by simp [e4]), e4, List.take_left, posPart, List.zipWith_map_right]
              rfl
            rw [this, hdrop]
            simp [default1]
          · rw [posValues_full _ _ _ (by simp [e4])]
            intro v hv
            obtain ⟨w, _, rfl⟩ := List.mem_map.mp hv
            rfl

theorem exists_values {l : List (Option V)} (h : ∀ v ∈ l, v.isSome) : ∃ vals : List V, l = vals.map some := by
  induction l with
  | nil => exact ⟨[], rfl⟩
  | cons v l ih =>
    obtain ⟨vals, e⟩ := ih fun w hw => h w (by simp [hw])
    obtain ⟨w, hw⟩ := Option.isSome_iff_exists.mp (h v (by simp))
    exact ⟨w :: vals, by rw [hw, e]; rfl⟩

theorem posValues_length (kwargs : Dict V) (args : List V) (pos : Sig V) : (posValues kwargs args pos).length = pos.length := by
  induction pos generalizing args with
  | nil => cases args <;> rfl
  | cons p pos ih => cases args <;> simp [posValues, ih]

theorem baArgs_ko {ko : Sig V} (hk : ∀ p ∈ ko, p.kind = .kwOnly ∨ p.kind = .varKw) (f : Param V → Option (BArg V)) :
    baArgs (ko.map fun p => (p, f p)) = [] := by
  cases ko with
  | nil => rfl
  | cons p ko =>
    have := hk p (by simp)
    rcases this with h | h <;> simp [baArgs, h]

theorem baKwargs_true (b : Bound V) : baKwargs true b = (b.map fun e => kwEntry e.1 e.2).flatten := by
  induction b with
  | nil => rfl
  | cons e b ih => obtain ⟨p, o⟩ := e; simp [baKwargs, ih]

theorem baKwargs_ko {ko : Sig V} (hk : ∀ p ∈ ko, p.kind = .kwOnly ∨ p.kind = .varKw) (f : Param V → Option (BArg V)) :
    baKwargs false (ko.map fun p => (p, f p)) = (ko.map fun p => kwEntry p (f p)).flatten := by
  cases ko with
  | nil => rfl
  | cons p ko =>
    have h := hk p (by simp)
    have e : (decide (p.kind = .varKw) || decide (p.kind = .kwOnly)) = true := by rcases h with h | h <;> simp [h]
    simp only [List.map_cons, baKwargs, e, if_true, baKwargs_true, List.map_map, List.flatten_cons]
    rfl

/-! ## The property -/

/-- **C42, the arguments of the wrapped call**: a call that binds is passed on with one positional argument for each positional
parameter (the one given by position or by keyword, else the default of the solver) followed by those of `*args`, and with one keyword
argument for each keyword-only parameter followed by those of `**kwargs`. -/
theorem C42_defaults {sig pos vp ko vk : Sig V} (hs : Shape sig pos vp ko vk) {args : List V} {kwargs : Dict V} {a : List V} {kw : Dict V}
    (h : signatureBind sig args kwargs = .ok (a, kw)) :
    ∃ vals kvals : List V, posValues kwargs args pos = vals.map some ∧ ko.map (kwValue kwargs) = kvals.map some ∧
      a = vals ++ args.drop pos.length ∧ kw = (ko.map (·.name)).zip kvals ++ extra sig kwargs ∧
      (vp = [] → args.drop pos.length = []) ∧ (vk = [] → extra sig kwargs = []) := by
  unfold signatureBind at h
  cases hb : bind sig args kwargs with
  | error e => rw [hb] at h; cases h
  | ok b =>
    rw [hb] at h
    simp only [Except.map, Except.ok.injEq, Prod.mk.injEq] at h
    obtain ⟨h1, h2⟩ := h
    obtain ⟨d1, d2, d3, d4, d5⟩ := bind_desc hs hb
    obtain ⟨vals, hv⟩ := exists_values d2
    obtain ⟨kvals, hkv⟩ : ∃ kvals : List V, ko.map (kwValue kwargs) = kvals.map some :=
      exists_values fun v hv => by obtain ⟨p, hp, rfl⟩ := List.mem_map.mp hv; exact d3 p hp
    have hlen : pos.length = vals.length := by
      have := posValues_length kwargs args pos
      rw [hv, List.length_map] at this
      exact this.symm
    have hfull : fullBound sig pos vp ko vk args kwargs = posPart pos vals ++
        (vp.map (fun p => (p, some (.tuple (args.drop pos.length)))) ++
          (ko ++ vk).map (fun p => (p, if p.kind = .varKw then some (.dict (extra sig kwargs)) else (kwValue kwargs p).map BArg.val))) := by
      unfold fullBound
      rw [hv, List.zipWith_map_right, List.map_append]
      congr 2
      congr 1
      · refine List.map_congr_left fun p hp => ?_
        rw [hs.ko_kind p hp]; rfl
      · refine List.map_congr_left fun p hp => ?_
        rw [(hs.vk_kind p hp).1]; rfl
    have hko : ∀ p ∈ ko ++ vk, p.kind = .kwOnly ∨ p.kind = .varKw := by
      intro p hp
      rcases List.mem_append.mp hp with h | h
      · exact .inl (hs.ko_kind p h)
      · exact .inr (hs.vk_kind p h).1
    refine ⟨vals, kvals, hv, hkv, ?_, ?_, d4, d5⟩
    · rw [← h1, d1, hfull, baArgs_posPart _ hlen hs.pos_kind]
      congr 1
      have h1 := hs.vp_one
      cases hvp : vp with
      | nil => rw [d4 hvp, List.map_nil, List.nil_append, baArgs_ko hko]
      | cons p vp' =>
        have : vp' = [] := by
          cases vp' with
          | nil => rfl
          | cons _ _ => rw [hvp] at h1; simp at h1
        subst this
        have hk := (hs.vp_kind p (by rw [hvp]; simp)).1
        have hne : (decide (p.kind = .varKw) || decide (p.kind = .kwOnly)) = false := by simp [hk]
        simp only [List.map_cons, List.map_nil, List.cons_append, List.nil_append, baArgs, hne, Bool.false_eq_true, if_false,
          baArgs_ko hko, List.append_nil]
    · rw [← h2, d1, hfull, baKwargs_posPart _ hlen hs.pos_kind]
      have h1 := hs.vp_one
      have hmid : baKwargs false (vp.map (fun p => (p, some (.tuple (args.drop pos.length)))) ++
          (ko ++ vk).map (fun p => (p, if p.kind = .varKw then some (.dict (extra sig kwargs)) else (kwValue kwargs p).map BArg.val))) =
          baKwargs false ((ko ++ vk).map (fun p => (p, if p.kind = .varKw then some (.dict (extra sig kwargs)) else
            (kwValue kwargs p).map BArg.val))) := by
        cases hvp : vp with
        | nil => rfl
        | cons p vp' =>
          have : vp' = [] := by
            cases vp' with
            | nil => rfl
            | cons _ _ => rw [hvp] at h1; simp at h1
          subst this
          have hk := (hs.vp_kind p (by rw [hvp]; simp)).1
          have hne : (decide (p.kind = .varKw) || decide (p.kind = .kwOnly)) = false := by simp [hk]
          simp only [List.map_cons, List.map_nil, List.cons_append, List.nil_append, baKwargs, hne, Bool.false_eq_true, if_false]
      rw [hmid, baKwargs_ko hko, List.map_append, List.flatten_append]
      congr 1
      · have : ∀ (l : Sig V) (kv : List V), (∀ p ∈ l, p.kind = .kwOnly) → l.map (kwValue kwargs) = kv.map some →
            (l.map fun p => kwEntry p (if p.kind = .varKw then some (.dict (extra sig kwargs)) else (kwValue kwargs p).map BArg.val)).flatten =
              (l.map (·.name)).zip kv := by
          intro l
          induction l with
          | nil => intro kv _ _; simp
          | cons p l ih =>
            intro kv hk he
            cases kv with
            | nil => simp at he
            | cons v kv =>
              simp only [List.map_cons, List.cons.injEq] at he
              have h0 := hk p (by simp)
              simp only [List.map_cons, List.flatten_cons, ih kv (fun q hq => hk q (by simp [hq])) he.2, List.zip_cons_cons, he.1, h0]
              rfl
        exact this ko kvals hs.ko_kind hkv
      · have h2 := hs.vk_one
        cases hvk : vk with
        | nil => simp [d5 hvk]
        | cons p vk' =>
          have : vk' = [] := by
            cases vk' with
            | nil => rfl
            | cons _ _ => rw [hvk] at h2; simp at h2
          subst this
          have hk := (hs.vk_kind p (by rw [hvk]; simp)).1
          simp [hk, kwEntry]

theorem bindPos_full {kw : Dict V} {pos T : Sig V} (hp : ∀ p ∈ pos, p.IsPos) {vals rest : List V} (hl : pos.length = vals.length)
    (hk : ∀ p ∈ pos, p.kind = .posOrKw → hasKey kw p.name = false) :
    bindPos kw (pos ++ T) (vals ++ rest) = (bindPos kw T rest).map fun r => (posPart pos vals ++ r.1, r.2) := by
  induction pos generalizing vals with
  | nil =>
    cases vals with
    | nil => cases h : bindPos kw T rest <;> simp [Except.map, h, posPart]
    | cons _ _ => simp at hl
  | cons p pos ih =>
    cases vals with
    | nil => simp at hl
    | cons a vals =>
      have hpk := hp p (by simp)
      have h3 : (hasKey kw p.name && p.kind != .posOnly) = false := by
        rcases hpk with h | h
        · simp [h]
        · simp [hk p (by simp) h]
      have ih' := ih (vals := vals) (fun q hq => hp q (by simp [hq])) (by simpa using hl) (fun q hq => hk q (by simp [hq]))
      rw [List.cons_append, List.cons_append, bindPos,
        if_neg (by rcases hpk with h | h <;> simp [h]), if_neg (by rcases hpk with h | h <;> simp [h]), if_neg (by simp [h3]), ih']
      cases bindPos kw T rest <;> rfl

theorem bindKw_total {R : Sig V} {kw : Dict V} (hR : (R.map (·.name)).Nodup)
    (h : ∀ p ∈ R, p.Single → p.kind ≠ .posOnly ∧ kw.lookup p.name ≠ none) : ∃ r, bindKw R kw = .ok r := by
  induction R generalizing kw with
  | nil => exact ⟨_, rfl⟩
  | cons p ps ih =>
    rw [List.map_cons, List.nodup_cons] at hR
    unfold bindKw
    by_cases h1 : (decide (p.kind = Kind.varKw) || decide (p.kind = Kind.varPos)) = true
    · obtain ⟨r, hr⟩ := ih (kw := kw) hR.2 fun q hq => h q (by simp [hq])
      rw [if_pos h1, hr]; exact ⟨_, rfl⟩
    · rw [if_neg h1]
      have hp : p.Single := by simpa [Param.Single] using h1
      obtain ⟨h2, h3⟩ := h p (by simp) hp
      cases hl : kw.lookup p.name with
      | none => exact absurd hl h3
      | some v =>
        simp only [if_neg h2]
        obtain ⟨r, hr⟩ := ih (kw := popKey kw p.name) hR.2 fun q hq hqs => by
          rw [lookup_popKey (fun hc => hR.1 (by rw [← hc]; exact List.mem_map_of_mem hq))]
          exact h q (by simp [hq]) hqs
        rw [hr]; exact ⟨_, rfl⟩

theorem lookup_zip_append {l : Sig V} {kv : List V} {f : Param V → Option V} (hn : (l.map (·.name)).Nodup) (h : l.map f = kv.map some)
    (rest : Dict V) {p : Param V} (hp : p ∈ l) : ((l.map (·.name)).zip kv ++ rest).lookup p.name = f p := by
  induction l generalizing kv with
  | nil => simp at hp
  | cons q l ih =>
    cases kv with
    | nil => simp at h
    | cons v kv =>
      simp only [List.map_cons, List.cons.injEq] at h
      rw [List.map_cons, List.nodup_cons] at hn
      simp only [List.map_cons, List.zip_cons_cons, List.cons_append, List.lookup_cons]
      rcases List.mem_cons.mp hp with rfl | hp'
      · simp [h.1]
      · have : (p.name == q.name) = false := by
          simpa using fun hc => hn.1 (by rw [← hc]; exact List.mem_map_of_mem hp')
        rw [this]
        exact ih hn.2 h.2 hp'

/-- **C42, the wrapped solver is the solver**: binding the arguments of the wrapped call again succeeds and changes nothing, so that the
solver receives the same values for all its parameters as in the original call. -/
theorem C42_transparent {sig pos vp ko vk : Sig V} (hs : Shape sig pos vp ko vk) {args : List V} {kwargs : Dict V} {a : List V}
    {kw : Dict V} (h : signatureBind sig args kwargs = .ok (a, kw)) : signatureBind sig a kw = .ok (a, kw) := by
  obtain ⟨vals, kvals, hv, hkv, rfl, rfl, d4, d5⟩ := C42_defaults hs h
  set rest := args.drop pos.length with hrest
  set ex := extra sig kwargs with hex
  set kw := (ko.map (·.name)).zip kvals ++ ex with hkw
  have hlen : pos.length = vals.length := by
    have := posValues_length kwargs args pos
    rw [hv, List.length_map] at this
    exact this.symm
  have hklen : ko.length = kvals.length := by simpa using congrArg List.length hkv
  have hnames := hs.names
  rw [hs.eq] at hnames
  simp only [List.map_append] at hnames
  have hnd_ko : (ko.map (·.name)).Nodup := hnames.of_append_right.of_append_right.of_append_left
  have hnd_R : ((ko ++ vk).map (·.name)).Nodup := by
    rw [List.map_append]; exact hnames.of_append_right.of_append_right
  have hdisj : ∀ p ∈ pos, ∀ q ∈ ko, p.name ≠ q.name := by
    intro p hp q hq hc
    have := List.disjoint_of_nodup_append hnames (List.mem_map_of_mem hp)
    exact this (by simp only [List.mem_append]; exact .inr (.inl (by rw [hc]; exact List.mem_map_of_mem hq)))
  have hnamable : ∀ p ∈ sig, p.kind = .posOrKw ∨ p.kind = .kwOnly → p.name ∈ namable sig := by
    intro p hp hk
    unfold namable
    exact List.mem_map_of_mem (List.mem_filter.mpr ⟨hp, by simpa using hk⟩)
  have hex_name : ∀ e ∈ ex, e.1 ∉ namable sig := by
    intro e he
    have := (List.mem_filter.mp he).2
    simpa using this
  have hzip : ∀ e ∈ (ko.map (·.name)).zip kvals, ∃ p ∈ ko, p.name = e.1 := by
    intro e he
    have := (List.of_mem_zip (a := e.1) (b := e.2) he).1
    simpa using this
  have hkey_pos : ∀ p ∈ pos, p.kind = .posOrKw → hasKey kw p.name = false := by
    intro p hp hk
    rw [← Bool.not_eq_true, hasKey_iff]
    intro hc
    obtain ⟨e, he, hen⟩ := List.mem_map.mp hc
    rcases List.mem_append.mp he with h | h
    · obtain ⟨q, hq, hqn⟩ := hzip e h
      exact hdisj p hp q hq (by rw [hqn, hen])
    · exact hex_name e h (by rw [hen]; exact hnamable p (by rw [hs.eq]; simp [hp]) (.inl hk))
  have hlk : ∀ p ∈ ko, kw.lookup p.name = kwValue kwargs p := fun p hp => lookup_zip_append hnd_ko hkv ex hp
  have hlk_some : ∀ p ∈ ko, ∃ v, kw.lookup p.name = some v := by
    intro p hp
    rw [hlk p hp]
    have : kwValue kwargs p ∈ kvals.map some := by rw [← hkv]; exact List.mem_map_of_mem hp
    obtain ⟨v, _, hv⟩ := List.mem_map.mp this
    exact ⟨v, hv.symm⟩
  -- binding succeeds
  have hpos : ∃ acc, bindPos kw sig (vals ++ rest) = .ok (acc, ko ++ vk) := by
    rw [hs.eq, bindPos_full hs.pos_kind hlen hkey_pos]
    have h1 := hs.vp_one
    cases hvp : vp with
    | nil =>
      rw [d4 hvp, List.nil_append]
      cases hT : ko ++ vk with
      | nil => exact ⟨_, rfl⟩
      | cons p ps =>
        have hk : p ∈ ko ++ vk := by rw [hT]; simp
        have hb : bindPos kw (p :: ps) [] = .ok ([], p :: ps) := by
          unfold bindPos
          rcases List.mem_append.mp hk with h | h
          · have e := hs.ko_kind p h
            obtain ⟨v, hv⟩ := hlk_some p h
            have : hasKey kw p.name = true := by
              rw [hasKey_iff]; by_contra hc; rw [lookup_none_iff.mpr hc] at hv; cases hv
            rw [if_neg (by simp [e]), if_pos this, if_neg (by simp [e])]
          · have e := (hs.vk_kind p h).1
            rw [if_neg (by simp [e])]
            by_cases hh : hasKey kw p.name = true
            · rw [if_pos hh, if_neg (by simp [e])]
            · rw [if_neg hh, if_pos (by simp [e])]
        rw [hb]; exact ⟨_, rfl⟩
    | cons p vp' =>
      have : vp' = [] := by
        cases vp' with
        | nil => rfl
        | cons _ _ => rw [hvp] at h1; simp at h1
      subst this
      have hk := (hs.vp_kind p (by rw [hvp]; simp)).1
      have hb : ∃ acc, bindPos kw ([p] ++ (ko ++ vk)) rest = .ok (acc, ko ++ vk) := by
        cases rest with
        | nil => exact ⟨[(p, none)], by simp [bindPos, hk]⟩
        | cons a as => exact ⟨[(p, some (.tuple (a :: as)))], by simp [bindPos, hk]⟩
      obtain ⟨acc, hb⟩ := hb
      rw [hb]; exact ⟨_, rfl⟩
  obtain ⟨acc, hpos⟩ := hpos
  obtain ⟨⟨R', rem⟩, hb⟩ := bindKw_total (R := ko ++ vk) (kw := kw) hnd_R (by
    intro p hp hsg
    rcases List.mem_append.mp hp with h | h
    · obtain ⟨v, hv⟩ := hlk_some p h
      exact ⟨by rw [hs.ko_kind p h]; simp, by rw [hv]; simp⟩
    · exact absurd (.inl (hs.vk_kind p h).1) hsg)
  obtain ⟨f1, f2, -⟩ := bindKw_desc hnd_R hb
  have hfill : ∃ R'', fillKw rem R' = .ok R'' := by
    unfold fillKw
    by_cases hr : rem.isEmpty = true
    · rw [if_pos hr]; exact ⟨_, rfl⟩
    · rw [if_neg hr]
      cases hvk : vk with
      | nil =>
        exfalso
        refine hr (List.isEmpty_iff.mpr ?_)
        rw [f2, List.filter_eq_nil_iff]
        intro e he
        rw [hkw, d5 hvk, List.append_nil] at he
        obtain ⟨q, hq, hqn⟩ := hzip e he
        simp only [Bool.not_eq_true, Bool.not_eq_false', List.contains_iff_mem]
        rw [← hqn]
        exact List.mem_map_of_mem (List.mem_filter.mpr ⟨by simp [hq], by simp [Param.Single, hs.ko_kind q hq]⟩)
      | cons p vk' =>
        rw [if_pos]
        · exact ⟨_, rfl⟩
        · rw [f1, List.any_eq_true]
          exact ⟨_, List.mem_map_of_mem (a := p) (by rw [hvk]; simp), by simpa using (hs.vk_kind p (by rw [hvk]; simp)).1⟩
  obtain ⟨R'', hfill⟩ := hfill
  have hbind : bind sig (vals ++ rest) kw = .ok (acc ++ R'') := by
    unfold bind
    rw [hpos]
    simp only [Except.bind, hb, hfill, Except.map]
  have hsb : ∃ a' kw', signatureBind sig (vals ++ rest) kw = .ok (a', kw') := by
    unfold signatureBind
    rw [hbind]
    exact ⟨_, _, rfl⟩
  obtain ⟨a', kw', hsb⟩ := hsb
  obtain ⟨vals', kvals', hv', hkv', rfl, rfl, -, -⟩ := C42_defaults hs hsb
  have e1 : vals' = vals := by
    rw [posValues_full _ _ _ (by simp [hlen]), hlen, List.take_left] at hv'
    exact ((List.map_injective_iff.mpr (fun _ _ h => Option.some.inj h)) hv').symm
  have e2 : (vals ++ rest).drop pos.length = rest := by rw [hlen, List.drop_left]
  have e3 : kvals' = kvals := by
    have : ko.map (kwValue kw) = ko.map (kwValue kwargs) := by
      refine List.map_congr_left fun p hp => ?_
      have h1 : kwValue kw p = (kw.lookup p.name).or p.default := rfl
      obtain ⟨v, hv⟩ := hlk_some p hp
      rw [h1, hv, ← hlk p hp, hv]; rfl
    rw [this, hkv] at hkv'
    exact ((List.map_injective_iff.mpr (fun _ _ h => Option.some.inj h)) hkv').symm
  have e4 : extra sig kw = ex := by
    rw [hkw]
    unfold extra
    rw [List.filter_append]
    have h1 : ((ko.map (·.name)).zip kvals).filter (fun e => !(namable sig).contains e.1) = [] := by
      rw [List.filter_eq_nil_iff]
      intro e he
      obtain ⟨q, hq, hqn⟩ := hzip e he
      simp only [Bool.not_eq_true, Bool.not_eq_false', List.contains_iff_mem]
      rw [← hqn]
      exact hnamable q (by rw [hs.eq]; simp [hq]) (.inr (hs.ko_kind q hq))
    rw [h1, List.nil_append, List.filter_eq_self]
    intro e he
    simpa using hex_name e he
  rw [hsb, e1, e2, e3, e4]

/-- **C42, the backward pass sees the values of the call**: if all arguments are positional for the solver, the optimality function is
differentiated at the values that the solver used, defaults of the solver included. -/
theorem C42_same_values {sig pos vp ko vk : Sig V} (hs : Shape sig pos vp ko vk) {ref : Sig (Src × V)} (hw : SigWf ref)
    {rootVjp : List V → List C} (hr : ∀ a, (rootVjp a).length = a.length) {args : List V} {kwargs : Dict V} {flat : List V}
    (h : wrappedFlat sig args kwargs = .ok ([], flat)) {out : List (Option C)} (hb : solverFunBwd ref rootVjp [] flat = .ok out) :
    flat.map some = posValues kwargs args pos ++ (args.drop pos.length).map some ∧ out.length = flat.length ∧
      ∀ k < flat.length, out[k]? = some (cotangentAt rootVjp flat k) := by
  unfold wrappedFlat at h
  cases hsb : signatureBind sig args kwargs with
  | error e => rw [hsb] at h; cases h
  | ok r =>
    obtain ⟨a, kw⟩ := r
    rw [hsb] at h
    simp only [Except.map, Except.ok.injEq, Prod.mk.injEq, List.map_eq_nil_iff] at h
    obtain ⟨rfl, rfl⟩ := h
    obtain ⟨vals, kvals, hv, -, rfl, -, -, -⟩ := C42_defaults hs hsb
    rw [List.map_nil] at hb ⊢
    refine ⟨by rw [hv, List.append_nil, List.map_append], ?_⟩
    generalize vals ++ args.drop pos.length = a at hb ⊢
    obtain ⟨h1, bound, h2, h3⟩ := C42_routing hw hr (keys := []) List.nodup_nil (args := a) (vals := []) rfl hb
    have hbound : bound = a ++ [] := by
      refine List.ext_getElem? fun k => ?_
      by_cases hk : k < a.length
      · obtain ⟨k', hsup, _, h5, _⟩ := h3 k (by simpa using hk)
        rcases hsup with ⟨_, e⟩ | ⟨_, _, _, _, _, e⟩
        · rw [e] at h5; exact h5
        · simp at e
      · rw [List.getElem?_eq_none (by rw [h2]; simpa using hk), List.getElem?_eq_none (by simpa using hk)]
    refine ⟨by simpa using h1, fun k hk => ?_⟩
    obtain ⟨k', hsup, _, _, h6⟩ := h3 k (by simpa using hk)
    rcases hsup with ⟨_, e⟩ | ⟨_, _, _, _, _, e⟩
    · rw [h6, hbound, e]
    · simp at e

/-- Non-vacuity: `solver(params, X, l2reg=7, *rest, tol=5, **options)` called as `solver(1, X=2, verbose=3)`. -/
example :
    let sig : Sig ℕ := [⟨"params", .posOrKw, none⟩, ⟨"X", .posOrKw, none⟩, ⟨"l2reg", .posOrKw, some 7⟩, ⟨"rest", .varPos, none⟩,
      ⟨"tol", .kwOnly, some 5⟩, ⟨"options", .varKw, none⟩]
    (signatureBind sig [1] [("verbose", 3), ("X", 2)] = .ok ([1, 2, 7], [("tol", 5), ("verbose", 3)])) ∧
    Shape sig (sig.take 3) [⟨"rest", .varPos, none⟩] [⟨"tol", .kwOnly, some 5⟩] [⟨"options", .varKw, none⟩] := by
  refine ⟨rfl, rfl, ?_, by simp, by simp, by simp, by simp, by simp, by decide⟩
  intro p hp
  simp only [List.take, List.mem_cons, List.not_mem_nil, or_false] at hp
  rcases hp with rfl | rfl | rfl <;> exact .inr rfl

end Jaxopt.Implicit
