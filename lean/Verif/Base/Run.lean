import Verif.Base.Loop
import Verif.Num.Ext

/-!
# Model of `IterativeSolver.run` and `StochasticSolver.run_iterator` (`jaxopt/_src/base.py`)

A solver state is a named tuple of fields, some of which may be `None`: it is modelled as a function
from field names `ι` to `Option V`.  `params` has any type `P`.
-/

set_option autoImplicit false

namespace Jaxopt.Base

open Jaxopt.Loop

/-- The user-visible parts of an iterative solver that `run` relies on (base.py lines 232-254).  The extra arguments
`*args, **kwargs` are constant during a run and are absorbed in the functions. -/
structure Solver (K P ι V : Type*) where
  initState : P → (ι → Option V)
  update : P → (ι → Option V) → P × (ι → Option V)
  /-- reads `state.error` -/
  error : (ι → Option V) → Ext K
  tol : Ext K
  maxiter : Int
  /-- `unroll`: `none` stands for "auto" -/
  unroll : Option Bool
  jit : Bool
  implicitDiff : Bool

variable {K P ι V : Type*} [LinearOrder K]

/-- `_get_unroll_option`, base.py lines 256-262. -/
def Solver.getUnrollOption (s : Solver K P ι V) : Bool :=
  match s.unroll with
  | none => !s.implicitDiff || !s.jit
  | some b => b

/-- `_cond_fun`, base.py lines 264-266. -/
def Solver.condFun (s : Solver K P ι V) (x : P × (ι → Option V)) : Bool := Ext.gt (s.error x.2) s.tol

/-- `_body_fun`, base.py lines 283-285. -/
def Solver.bodyFun (s : Solver K P ι V) (x : P × (ι → Option V)) : P × (ι → Option V) := s.update x.1 x.2

/-- `_where`, base.py lines 365-368. -/
def whereLeaf (cond : Bool) (x y : Option V) : Option V :=
  match x, y with
  | none, y => y
  | some x, none => some x
  | some x, some y => if cond then some x else some y

/-- `_run`, base.py lines 296-332 (params leaves are never `None`). -/
def Solver.run (s : Solver K P ι V) (initParams : P) : Except String (P × (ι → Option V)) := do
  let state := s.initState initParams
  let optStep := s.update initParams state
  let manyStep ← whileLoop s.condFun s.bodyFun optStep (s.maxiter - 1) s.getUnrollOption s.jit
  let z := decide (s.maxiter = 0)
  return (if z then initParams else manyStep.1, fun i => whereLeaf z (state i) (manyStep.2 i))

/-- `itertools.islice(iterator, 0, maxiter)` followed by the update loop, base.py lines 404-411: returns the result and the
batches left in the iterator. -/
def sliceLoop {S D : Type*} (update : P → S → D → P × S) : Nat → List D → P × S → (P × S) × List D
  | 0, ds, ps => (ps, ds)
  | _ + 1, [], ps => (ps, [])
  | n + 1, d :: ds, ps => sliceLoop update n ds (update ps.1 ps.2 d)

/-- `run_iterator`, base.py lines 385-411.  The iterator is the list of batches it will still produce;
`next` of an exhausted iterator raises `StopIteration`.  The second component is the rest of the iterator.  A negative
`maxiter` makes `itertools.islice` raise `ValueError`. -/
def runIterator {S D : Type*} (initState : P → D → S) (update : P → S → D → P × S) (maxiter : Int)
    (initParams : P) (iterator : List D) : Except String ((P × S) × List D) :=
  match iterator with
  | [] => .error "StopIteration"
  | d :: rest =>
    let state := initState initParams d
    if maxiter < 0 then .error "ValueError: islice"
    else .ok (sliceLoop update maxiter.toNat rest (initParams, state))

end Jaxopt.Base
