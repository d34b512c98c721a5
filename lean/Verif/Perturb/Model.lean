import Mathlib.Analysis.InnerProductSpace.Basic
import Mathlib.Algebra.BigOperators.Group.Finset.Basic

/-!
# Model of `jaxopt/_src/perturbations.py` and of `make_fenchel_young_loss` (loss.py)

Arrays of any shape are elements of a real inner product space.  `noise.sample(seed=rng, ...)` is a function of the key, so for a fixed key
the samples are fixed: they are a parameter.
-/

set_option autoImplicit false
set_option linter.unusedSectionVars false
set_option linter.unusedVariables false

namespace Jaxopt.Perturb

variable {E : Type*} [NormedAddCommGroup E] [InnerProductSpace ℝ E] {N : ℕ}

/-- `forward_pert` of `make_perturbed_argmax`, perturbations.py lines 92-97. -/
noncomputable def perturbedArgmax (argmaxFun : E → E) (sigma : ℝ) (samples : Fin N → E) (inputs : E) : E :=
  (1 / (N : ℝ)) • ∑ i, argmaxFun (inputs + sigma • samples i)

/-- `forward_pert` of `make_perturbed_max`, perturbations.py lines 178-187. -/
noncomputable def perturbedMax (argmaxFun : E → E) (sigma : ℝ) (samples : Fin N → E) (inputs : E) : ℝ :=
  (1 / (N : ℝ)) * ∑ i, inner ℝ (inputs + sigma • samples i) (argmaxFun (inputs + sigma • samples i))

/-- `pert_jvp` of `make_perturbed_max`, perturbations.py lines 189-195. -/
noncomputable def perturbedMaxJvp (argmaxFun : E → E) (sigma : ℝ) (samples : Fin N → E) (inputs tangent : E) : ℝ :=
  inner ℝ (perturbedArgmax argmaxFun sigma samples inputs) tangent

/-- `fy_loss` of `make_fenchel_young_loss`, loss.py lines 274-276. -/
noncomputable def fyLoss (maxFun : E → ℝ) (yTrue scores : E) : ℝ := maxFun scores - inner ℝ yTrue scores

end Jaxopt.Perturb
