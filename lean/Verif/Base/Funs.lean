import Mathlib.Tactic.TypeStar

/-!
# Model of the objective-function adapters of `jaxopt/_src/base.py` (lines 60-192)

`X` is the type of all call arguments, `V` values, `G` gradients, `A` aux data.  Python's aux is
`Option A`, with `none` for `None`.
-/

set_option autoImplicit false

namespace Jaxopt.Base

variable {X V G A : Type*}

/-- What the user passes as `fun`, `value_and_grad`, `has_aux`.  `jax.value_and_grad` is applied by the code in
the `plain` cases; `grad` is the function it computes.
* `plain f g` : `value_and_grad=False, has_aux=False`
* `plainAux f g` : `value_and_grad=False, has_aux=True`
* `joint vg` : `value_and_grad=True, has_aux=False`
* `jointAux vg` : `value_and_grad=True, has_aux=True`
* `sep f vg` : `value_and_grad` callable, `has_aux=False`
* `sepAux f vg` : `value_and_grad` callable, `has_aux=True` -/
inductive UserFun (X V G A : Type*) where
  | plain (f : X → V) (grad : X → G)
  | plainAux (f : X → V × A) (grad : X → G)
  | joint (vg : X → V × G)
  | jointAux (vg : X → (V × A) × G)
  | sep (f : X → V) (vg : X → V × G)
  | sepAux (f : X → V × A) (vg : X → (V × A) × G)

/-- `jax.value_and_grad(fun)`. -/
def jaxValueAndGrad (f : X → V) (grad : X → G) : X → V × G := fun x => (f x, grad x)

/-- `jax.value_and_grad(fun, has_aux=True)`. -/
def jaxValueAndGradAux {B : Type*} (f : X → V × B) (grad : X → G) : X → (V × B) × G :=
  fun x => (f x, grad x)

/-- `_add_aux_to_value_and_grad`, lines 60-65. -/
def addAuxToValueAndGrad (vg : X → V × G) : X → (V × Option A) × G := fun x =>
  let (v, g) := vg x
  ((v, none), g)

/-- `_add_aux_to_fun`, lines 68-72. -/
def addAuxToFun (f : X → V) : X → V × Option A := fun x => (f x, none)

/-- `_split_value_and_grad_with_aux`, lines 75-86. -/
def splitValueAndGradWithAux {B : Type*} (vg : X → (V × B) × G) : (X → V × B) × (X → G × B) :=
  (fun x => let ((v, aux), _) := vg x; (v, aux), fun x => let ((_, aux), g) := vg x; (g, aux))

/-- `_remove_aux_from_value_and_grad`, lines 89-104. -/
def removeAuxFromValueAndGrad {B : Type*} (vg : X → (V × B) × G) : (X → V) × (X → G) × (X → V × G) :=
  (fun x => let ((v, _), _) := vg x; v, fun x => let ((_, _), g) := vg x; g,
    fun x => let ((v, _), g) := vg x; (v, g))

/-- A user function returning `(value, aux)`; the aux it returns is some Python object. -/
def someAux (f : X → V × A) : X → V × Option A := fun x => ((f x).1, some (f x).2)

/-- Same for a user value-and-grad function. -/
def someAuxVG (f : X → (V × A) × G) : X → (V × Option A) × G :=
  fun x => (((f x).1.1, some (f x).1.2), (f x).2)

/-- `_make_funs_without_aux`, lines 107-140. -/
def makeFunsWithoutAux : UserFun X V G A → (X → V) × (X → G) × (X → V × G)
  | .jointAux vg => removeAuxFromValueAndGrad vg
  | .joint vg => removeAuxFromValueAndGrad (addAuxToValueAndGrad (A := A) vg)
  | .plainAux f g => removeAuxFromValueAndGrad (jaxValueAndGradAux f g)
  | .plain f g =>
    let vg := jaxValueAndGrad f g
    (f, fun x => (vg x).2, vg)
  | .sepAux f vg =>
    let (_, grad, vg') := removeAuxFromValueAndGrad vg
    (fun x => (f x).1, grad, vg')
  | .sep f vg => (f, fun x => (vg x).2, vg)

/-- `_make_funs_with_aux`, lines 143-192. -/
def makeFunsWithAux : UserFun X V G A →
    (X → V × Option A) × (X → G × Option A) × (X → (V × Option A) × G)
  | .jointAux vg =>
    let vg' := someAuxVG vg
    let (f, g) := splitValueAndGradWithAux vg'
    (f, g, vg')
  | .joint vg =>
    let vg' := addAuxToValueAndGrad vg
    let (f, g) := splitValueAndGradWithAux vg'
    (f, g, vg')
  | .plainAux f g =>
    let f' := someAux f
    let vg' := jaxValueAndGradAux f' g
    let (_, g') := splitValueAndGradWithAux vg'
    (f', g', vg')
  | .plain f g =>
    let f' := addAuxToFun f
    let vg' := jaxValueAndGradAux f' g
    let (_, g') := splitValueAndGradWithAux vg'
    (f', g', vg')
  | .sepAux f vg =>
    let f' := someAux f
    let vg' := someAuxVG vg
    let (_, g') := splitValueAndGradWithAux vg'
    (f', g', vg')
  | .sep f vg =>
    let f' := addAuxToFun f
    let vg' := addAuxToValueAndGrad vg
    let (_, g') := splitValueAndGradWithAux vg'
    (f', g', vg')

end Jaxopt.Base
