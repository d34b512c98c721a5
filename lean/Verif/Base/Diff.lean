import Verif.Base.Loop

/-!
# Automatic differentiation through the loops of `jaxopt/_src/loop.py`

With `implicit_diff=False` (or when the loop is called directly) JAX differentiates through the loop itself.  The rules used by JAX are part of the
trusted base: forward mode runs the same loop on pairs (value, tangent), the condition looking at the value only; reverse mode of `lax.scan` and of a
Python loop stores the values of the forward pass and goes through them backwards; reverse mode of `lax.while_loop` is an error.
-/

set_option autoImplicit false
set_option linter.unusedSectionVars false
set_option linter.unusedVariables false

namespace Jaxopt.Loop

variable {V : Type*}

/-- The body of the loop on pairs: `jvp v t` is the forward-mode derivative of the body at `v` applied to `t`. -/
def jvpBody (body : V → V) (jvp : V → V → V) (p : V × V) : V × V := (body p.1, jvp p.1 p.2)

/-- Forward mode through `while_loop`, loop.py lines 63-82. -/
def whileLoopJvp (cond : V → Bool) (body : V → V) (jvp : V → V → V) (x t : V) (maxiter : Int) (unroll jit : Bool) : Except String (V × V) :=
  whileLoop (fun p => cond p.1) (jvpBody body jvp) (x, t) maxiter unroll jit

/-- The carries `(val, cond)` met by `_while_loop_scan`, loop.py lines 28-34. -/
def scanTape (cond : V → Bool) (body : V → V) : V × Bool → Nat → List (V × Bool)
  | _, 0 => []
  | s, n + 1 => s :: scanTape cond body (if s.2 then (body s.1, cond (body s.1)) else (s.1, false)) n

/-- Reverse mode of `_while_loop_scan`: `vjp v w` is the reverse-mode derivative of the body at `v` applied to the cotangent `w`; the no-op branch of
line 31 passes the cotangent on. -/
def scanBack (vjp : V → V → V) (tape : List (V × Bool)) (w : V) : V :=
  tape.foldr (fun s w => if s.2 then vjp s.1 w else w) w

/-- The values at which `_while_loop_python` calls the body, loop.py lines 40-45. -/
def pythonTape (cond : V → Bool) (body : V → V) : V → Nat → List V
  | _, 0 => []
  | v, n + 1 => if !cond v then [] else v :: pythonTape cond body (body v) n

/-- Reverse mode through `while_loop`, loop.py lines 63-82. -/
def whileLoopVjp (cond : V → Bool) (body : V → V) (vjp : V → V → V) (x w : V) (maxiter : Int) (unroll jit : Bool) : Except String V :=
  if unroll then
    if jit then
      if maxiter < 0 then .error "negative scan length"
      else .ok (scanBack vjp (scanTape cond body (x, cond x) maxiter.toNat) w)
    else .ok ((pythonTape cond body x maxiter.toNat).foldr vjp w)
  else
    if jit then .error "Reverse-mode differentiation does not work for lax.while_loop"
    else .error "unroll=False and jit=False cannot be used together"

end Jaxopt.Loop
