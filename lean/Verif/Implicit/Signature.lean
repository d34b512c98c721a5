import Mathlib.Tactic.TypeStar
import Mathlib.Data.Nat.Notation

/-!
# Model of the argument handling of `custom_root` (`jaxopt/_src/implicit_diff.py` lines 124-253)

`inspect.Signature.bind`, `BoundArguments.args`, `BoundArguments.kwargs` and `BoundArguments.apply_defaults` are modelled after
CPython 3.11 (`inspect.py` lines 2822-2905 and 3059-3158).  A dict is an association list in insertion order.  As the parameter names of a
signature are unique, `BoundArguments.arguments` is represented by an optional value for each parameter of the signature.
-/

set_option autoImplicit false
set_option linter.unusedSectionVars false
set_option linter.unusedVariables false

namespace Jaxopt.Implicit

/-- Parameter kinds of `inspect`. -/
inductive Kind where
  | posOnly | posOrKw | varPos | kwOnly | varKw
  deriving DecidableEq, Repr

/-- A parameter with its default. -/
structure Param (V : Type*) where
  name : String
  kind : Kind
  default : Option V

abbrev Sig (V : Type*) := List (Param V)

/-- A dict. -/
abbrev Dict (V : Type*) := List (String × V)

/-- A bound value: a plain one, the tuple of `*args`, or the dict of `**kwargs`. -/
inductive BArg (V : Type*) where
  | val (v : V)
  | tuple (v : List V)
  | dict (d : Dict V)

/-- `BoundArguments.arguments`, along the parameters. -/
abbrev Bound (V : Type*) := List (Param V × Option (BArg V))

variable {V C : Type*}

/-- Membership in a dict. -/
def hasKey (kw : Dict V) (k : String) : Bool := (kw.map (·.1)).contains k

/-- `kwargs.pop(k)`. -/
def popKey (kw : Dict V) (k : String) : Dict V := kw.filter fun e => e.1 != k

/-- The exceptions of this file. -/
inductive Exc where
  | typeError (msg : String)
  | keyError (key : String)
  deriving DecidableEq

/-- The positional phase of `_bind` (inspect.py lines 3068-3123): the parameters dealt with, and those that remain. -/
def bindPos (kw : Dict V) : Sig V → List V → Except Exc (Bound V × Sig V)
  | [], [] => .ok ([], [])
  | p :: ps, [] =>
    if p.kind = .varPos then .ok ([(p, none)], ps)
    else if hasKey kw p.name then
      if p.kind = .posOnly then .error (.typeError "parameter is positional only, but was passed as a keyword")
      else .ok ([], p :: ps)
    else if p.kind = .varKw || p.default.isSome then .ok ([], p :: ps)
    else .error (.typeError "missing a required argument")
  | [], _ :: _ => .error (.typeError "too many positional arguments")
  | p :: ps, a :: as =>
    if p.kind = .varKw || p.kind = .kwOnly then .error (.typeError "too many positional arguments")
    else if p.kind = .varPos then .ok ([(p, some (.tuple (a :: as)))], ps)
    else if hasKey kw p.name && p.kind != .posOnly then .error (.typeError "multiple values for argument")
    else (bindPos kw ps as).map fun r => ((p, some (.val a)) :: r.1, r.2)

/-- The keyword phase of `_bind` (inspect.py lines 3125-3148): the parameters with their values, and the keywords that remain. -/
def bindKw : Sig V → Dict V → Except Exc (Bound V × Dict V)
  | [], kw => .ok ([], kw)
  | p :: ps, kw =>
    if p.kind = .varKw || p.kind = .varPos then (bindKw ps kw).map fun r => ((p, none) :: r.1, r.2)
    else
      match kw.lookup p.name with
      | none =>
        if p.default.isNone then .error (.typeError "missing a required argument")
        else (bindKw ps kw).map fun r => ((p, none) :: r.1, r.2)
      | some v =>
        if p.kind = .posOnly then .error (.typeError "parameter is positional only, but was passed as a keyword")
        else (bindKw ps (popKey kw p.name)).map fun r => ((p, some (.val v)) :: r.1, r.2)

/-- The end of `_bind` (inspect.py lines 3150-3158): left-over keywords go to the `**kwargs` parameter, if there is one. -/
def fillKw (rem : Dict V) (b : Bound V) : Except Exc (Bound V) :=
  if rem.isEmpty then .ok b
  else if b.any (fun e => e.1.kind = .varKw) then .ok (b.map fun e => if e.1.kind = .varKw then (e.1, some (.dict rem)) else e)
  else .error (.typeError "got an unexpected keyword argument")

/-- `Signature.bind`. -/
def bind (sig : Sig V) (args : List V) (kwargs : Dict V) : Except Exc (Bound V) :=
  (bindPos kwargs sig args).bind fun r => (bindKw r.2 kwargs).bind fun s => (fillKw s.2 s.1).map fun t => r.1 ++ t

/-- `BoundArguments.args`, inspect.py lines 2822-2843. -/
def baArgs : Bound V → List V
  | [] => []
  | (p, o) :: b =>
    if p.kind = .varKw || p.kind = .kwOnly then []
    else
      match o with
      | none => []
      | some (.tuple vs) => vs ++ baArgs b
      | some (.val v) => v :: baArgs b
      | some (.dict _) => baArgs b

/-- The values that `BoundArguments.kwargs` adds for a parameter. -/
def kwEntry (p : Param V) : Option (BArg V) → Dict V
  | none => []
  | some (.val v) => [(p.name, v)]
  | some (.tuple _) => []
  | some (.dict d) => d

/-- `BoundArguments.kwargs`, inspect.py lines 2845-2873; the flag is `kwargs_started`. -/
def baKwargs : Bool → Bound V → Dict V
  | _, [] => []
  | true, (p, o) :: b => kwEntry p o ++ baKwargs true b
  | false, (p, o) :: b =>
    if p.kind = .varKw || p.kind = .kwOnly then kwEntry p o ++ baKwargs true b
    else
      match o with
      | none => baKwargs true b
      | some _ => baKwargs false b

/-- `BoundArguments.apply_defaults`, inspect.py lines 2875-2905. -/
def applyDefaults (b : Bound V) : Bound V :=
  b.map fun e =>
    match e.2 with
    | some v => (e.1, some v)
    | none =>
      match e.1.default with
      | some v => (e.1, some (.val v))
      | none => if e.1.kind = .varPos then (e.1, some (.tuple [])) else if e.1.kind = .varKw then (e.1, some (.dict [])) else (e.1, none)

/-- `_extract_kwargs`, lines 124-128. -/
def extractKwargs (keys : List String) (flat : List V) : List V × Dict V :=
  let n := flat.length - keys.length
  (flat.take n, keys.zip (flat.drop n))

/-- `_signature_bind`, lines 131-134. -/
def signatureBind (sig : Sig V) (args : List V) (kwargs : Dict V) : Except Exc (List V × Dict V) :=
  (bind sig args kwargs).map fun b => (baArgs (applyDefaults b), baKwargs false (applyDefaults b))

/-- Where an argument came from: its position, or its keyword. -/
inductive Src where
  | pos (i : ℕ)
  | kw (k : String)
  deriving DecidableEq

/-- The tagged arguments of `_signature_bind_and_match`, lines 150-151. -/
def tagArgs (args : List V) : List (Src × V) := args.zipIdx.map fun e => (.pos e.2, e.1)
def tagKwargs (kwargs : Dict V) : Dict (Src × V) := kwargs.map fun e => (e.1, (.kw e.1, e.2))

/-- One step of the loop of `map_back`, lines 159-163. -/
def mapBackStep (acc : List (Option C) × Dict (Option C)) (e : Src × Option C) : List (Option C) × Dict (Option C) :=
  match e.1 with
  | .kw k => (acc.1, acc.2 ++ [(k, e.2)])
  | .pos i => (acc.1.set i e.2, acc.2)

/-- `map_back`, lines 156-164. -/
def mapBack (n : ℕ) (mapping : List Src) (out : List (Option C)) : List (Option C) × Dict (Option C) :=
  (mapping.zip out).foldl mapBackStep (List.replicate n none, [])

/-- The message of lines 228-234 (shortened). -/
def unresolvedMsg : String := "keyword arguments to solver_fun could not be resolved to positional arguments"

/-- `kws_vjps[k]`. -/
def getKey (d : Dict (Option C)) (k : String) : Except Exc (Option C) :=
  match d.lookup k with
  | some v => .ok v
  | none => .error (.keyError k)

/-- `solver_fun_bwd`, lines 211-243.  `rootVjp` is `root_vjp` with the solution and the cotangent fixed.  A `None` cotangent is
`none`.  Defaults of the signature play no role besides being present. -/
def solverFunBwd (sig : Sig (Src × V)) (rootVjp : List V → List C) (keys : List String) (flat : List V) :
    Except Exc (List (Option C)) :=
  let ak := extractKwargs keys flat
  let args := ak.1
  let kwargs := ak.2
  (bind sig (tagArgs args) (tagKwargs kwargs)).bind fun b =>
    let baA := baArgs b
    if (baKwargs false b).isEmpty then
      let vjps := none :: (rootVjp (baA.map (·.2)).tail).map some
      let mb := mapBack args.length (baA.map (·.1)) vjps
      ((kwargs.map (·.1)).mapM (getKey mb.2)).map fun ks => mb.1 ++ ks
    else .error (.typeError unresolvedMsg)

/-- `wrapped_solver_fun`, lines 248-251: the keys and the flat arguments given to the `custom_vjp` function. -/
def wrappedFlat (sig : Sig V) (args : List V) (kwargs : Dict V) : Except Exc (List String × List V) :=
  (signatureBind sig args kwargs).map fun r => (r.2.map (·.1), r.1 ++ r.2.map (·.2))

end Jaxopt.Implicit
