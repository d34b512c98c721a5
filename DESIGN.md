# Design: a Lean 4 model of jaxopt

## Trusted base

* Lean 4.33.0's kernel and Mathlib's definitions.
* Axioms: every property theorem depends on at most `propext`, `Classical.choice`, `Quot.sound`
  (no own axioms, no `sorry`, no `native_decide`/`bv_decide`).
* The reading of the Python source: every definition cites the file and lines of `/repo` it models.
* Arithmetic: real numbers (or an arbitrary linearly ordered field) stand for floats. **Rounding, overflow and
  dtype promotion are not modelled** (except in C108, C113, C114, C118, C130, C135 and C139, which allow rounding). NaN / infinities are modelled (type `Ext`, or explicit `Option`) where control flow
  depends on them (stopping test, line searches, Levenberg-Marquardt selection).
* JAX itself (tracing, jit, vmap, autodiff, `lax.scan/while_loop/cond`) is modelled by its documented meaning:
  `lax.cond` is if-then-else, `lax.scan` a left fold, `lax.while_loop` iteration while the condition holds, `jax.grad` a
  gradient supplied with (a hypothesis saying) that it is the gradient. Under `vmap` (C109) `lax.cond` and `lax.while_loop` evaluate the whole batch and select per element. Derivatives of loops (C107): forward mode is the loop on
  pairs (value, tangent), reverse mode of a scan or Python loop replays the stored values backwards, and reverse mode of
  `lax.while_loop` is an error. Derivatives of primitives (C115): the `jvp` and transpose rules of `jax.lax` for `sqrt`,
  `square`, `div`, `select` and `cond`, applied in the order in which JAX applies them; a zero cotangent is an ordinary number.
  The losses, proximal operators and projections (C132, C133) use the `jvp` rules of `abs`, `sign`, `max`, `min`, `div`, `reduce_max`, `select`, `logaddexp`, `logsumexp` and `relu`.
* User callables are arbitrary functions (function parameters). Inner linear solvers are parameters; theorems say which
  accuracy they assume.
* Pytrees: solver-level code is modelled over an arbitrary real inner product space `E` (a pytree of arrays *is* such a
  space, C47 justifies this on an explicit inductive pytree model); coordinate-level code over `Fin n → ℝ` or lists.

Not modelled: logging/verbose (except the messages of the zoom search, C106), sharding, dtypes, hashing of solvers, the CVXPY / Optax / SciPy back-ends themselves (only
the glue code around them), random number generation (noise samples are parameters).

## Layout

`lean/Verif/<Area>/Model.lean` – executable model, `Lemmas.lean` – helper lemmas, `Props.lean` – property theorems
(named `Cnn_…`) with an `example` next to each. Suffix `_partial`: only part of the English property; suffix `_false`: the
English property is false of the code, the theorem is a concrete counterexample.

## Plan per property

| Id | Model | Proof |
|----|-------|-------|
| C01 | the three loops as fold / recursion / fuel-free iteration characterised by a least exit index | induction on maxiter |
| C02 | `_run` with `while_loop`, `_where` on a state with optional fields, errors in `Ext` | induction, uses C01 |
| C03 | iterator as list with explicit `next`, `islice` | induction on list |
| C04 | `_make_funs_*` as functions on a sum type of user callables | case analysis |
| C05 C06 | `Bisection` over ℝ | induction on iterations, intermediate value theorem |
| C07–C11 | projections on `Fin n → ℝ` or inner product space | variational inequality |
| C08 | sort, cumsum, count_nonzero on lists | threshold lemma: the condition holds exactly on a prefix |
| C09 | sign/abs reduction | C08 + rearrangement; sphere false at zeros |
| C12 | top_k | exchange argument + C08 |
| C13 | dual root + clip | monotone dual function, C05 |
| C14–C16 | prox operators | strong convexity per coordinate; ridge documented objective is false |
| C17 | PAV with the in-place `target` pointer array | loop invariant: blocks with dual certificate |
| C18 C19 | backtracking `init_state`/`update` | induction on iterations; descent lemma |
| C20 | zoom search interval / zoom phases | state invariant |
| C21 | HZ `_update`, `update` | state invariant, counterexamples |
| C22 C23 | SGD step sizes | induction on histories, convexity |
| C24–C26 | two-loop recursion, ring buffer, BFGS update as linear maps on `E` | induction on the history |
| C27 | Broyden product per leaf | algebra + counterexamples |
| C28 | Cauchy point / subspace minimisation / line-search step on `Fin n → ℝ` | invariants |
| C29 | Anderson update with history as functions `Fin m → E` | invariant |
| C30 C31 | fixed-point iteration, iterative refinement | contraction estimates |
| C32 C33 | prox-gradient, FISTA | three-point inequality, Lyapunov function |
| C34 | nonlinear CG | algebra, counterexample |
| C35 C36 C51 | coordinate descent with caches, linear operator updates | loop invariants over coordinates |
| C37–C40 | QP KKT systems, ADMM step, conversion | convexity, case analysis |
| C41 C42 | implicit function derivative, signature binding on lists of names | calculus, list induction |
| C43 C44 | Gauss-Newton, Levenberg-Marquardt | normal equations, gain-ratio invariant |
| C45–C47 | inductive pytree | structural induction |
| C48 | finite noise samples | finite sums |
| C49 C50 | losses on ℝ / vectors | calculus, convexity |
| C52 | KL mirror step | log-sum-exp algebra |
| C53 | `_init_stepsize` | case analysis |
| C54 | projected gradient | C32 + variational inequality |
| C55 C56 C57 | mutable options dict as state; self-referential closure with fuel; rho functions | history induction, divergence for all fuel, witness |
| C58 C59 | semi-dual / dual stationarity, IEEE version for zero marginals | C08 + KKT, quadratic sandwich for the derivatives |
| C60 | `_cubicmin`, `_quadmin` with NaN as no result | coefficients of the interpolating polynomial |
| C61 C62 | `linear_solve.py`, `linear_operator.py`: materialisation, ridge, dense routines and CG as parameters | linear algebra |
| C63 | custom JVP rules of the simplex projections | locally the projection is an affine map; uniqueness of the threshold |
| C64 | sort/one-hot/cumsum/diff construction of the block matrix; derivative of `jnp.clip` | counting lemma for sorted lists; block averages keep their certificate nearby |
| C65 | flattened arrays, samples with independent entries of density proportional to exp(log_prob) | translation invariance and differentiation under the integral (Stein identity); the score has mean zero |
| C66 | shapes as lists, broadcasting and reshape rules of jnp | computation on shapes; false with control variate for vectors and with axes of size one (negation proved) |
| C67 | real scores, the losses of C50 | Hoeffding's lemma for the softmax distribution gives the curvature, Jensen the tangents; tightness by log cosh |
| C68 | the prox step at stepsize 1, box clipping with infinite bounds | prox optimality condition; false for the SciPy wrappers with bounds=None (negation proved) |
| C69 | SciPy routines as parameters over the flattening of C45/C46 | transport of minimisers and roots along the bijection |
| C70 | external solver as a parameter | shapes and KKT conditions |
| C71 | derivatives of quadratic functions at zero | algebra of quadratic forms |
| C72 | transformation as a parameter | induction over the loop |
| C73 | the models of C37 and C38-C40 with Q = I, c = -x | KKT conditions, rank of A A^T, strong convexity |
| C74 | the models of the quasi-Newton updates with their loops | induction over the loop |
| C75 | the blocks of m_inv as in the code, exact inverse | induction over the pairs (bordered system), invariant of the history; false after wrap-around |
| C76 | breakpoints over extended numbers, loop as in the code, exact solve | loop invariant (derivatives of the model along the current piece), Sherman-Morrison-Woodbury; false for equal breakpoints |
| C77 | model of ProximalGradient with prox_none | telescoping of the key inequality of a step; the meaning of the error is false with line search |
| C78 | model of BoxOSQP with an exact solver | Fejer monotonicity of the iterations, Cauchy-Schwarz for the residuals, potential argument over the failed tests |
| C79 | model of C44 with exact solvers; attributes that __post_init__ sets as options | closed form of the update; false: cost can increase, warm start has the wrong sign, jac_fun is never used |
| C80 | models of C22, C23 | sum of the per-step decrease of the squared distance; false for ArmijoSGD with the default aggressiveness: divergence on alternating batches |
| C81 | model of C34 | induction on the number of updates with the classical orthogonality relations; dimension count; false below the threshold, where clipped denominators spoil conjugacy |
| C82 | models of C34 and C20 | Zoutendijk's bound, growth of the directions, divergence of the harmonic series; false for the default options: an ascent direction after a successful line search |
| C83 | model of C24 | cocoercivity and strong monotonicity bound every stored pair; each inverse update keeps spectral bounds; Zoutendijk's decrease (C82) and the gradient bound give the rate |
| C84 | model of C20 | the bracket always contains a point of small slope; each zoom step shortens it by a factor 1 - r; once shorter than (c2 - c1) |slope| / (L |d|^2) the bracket cannot exist; false with the default constants without convexity: a function on which the search fails for every maxiter |
| C85 | model of C52 | Pinsker's inequality and the three-point identity; the last clause is false: short steps near a wrong vertex |
| C86 | model of C29 | optimality of the weights against unit and uniform weights; the residual of the extrapolated point is the map applied to the combined residual; induction over windows of the history |
| C87 | model of C26 | inverse and determinant of the update (Weinstein-Aronszajn), tr B - log det B as potential (Byrd-Nocedal), Zoutendijk decrease of C82 |
| C88 | `OSQP/LinSolver.lean`, solvers as state machines over calls | simulation between the two state machines; positive definiteness of the blocks |
| C89 | `QuasiNewton/Lbfgs.lean`, `QuasiNewton/Bfgs.lean` composed with `LineSearch/Backtracking.lean` | lower bound on the steps by induction over the strategies; trace-determinant potential of Byrd and Nocedal keeping both terms |
| C90 | `LineSearch/Setup.lean` | reduction to C18 and C20 for the default attributes; computed counterexamples |
| C91 | `LeastSquares/LM.lean` | small decreases are incompatible with the damping rule: below L the damping grows, above L steps are accepted; counterexample above the cap 2^32 by induction over the iterations |
| C92 | `LeastSquares/GaussNewton.lean` | normal equations and the Taylor remainder with constant 1/2; induction over the iterations; a strict minimiser that repels shows that the condition is needed |
| C93 | `Implicit/RefSig.lean` | reduction to C42 through the signatures of the classes; the validity check of `inspect.Signature` is characterised; classes without a reference signature refuse every keyword |
| C94 | `QP/BoxCD.lean` | one-dimensional decrease and variational inequality of every coordinate step, drift of the gradient bounded by the error, telescoping over epochs |
| C95 | `BlockCD/Model.lean` | prox inequality of every block step, drift of the gradient bounded by the error, telescoping; a two-cycle for the SVM dual |
| C96 | `LineSearch/HagerZhang.lean` | potential of the interval in the bisection loop, first probe that ends the bracketing loop, slopes in a short bracket; logistic loss and Huber loss as counterexamples |
| C97 | `QuasiNewton/Lbfgs.lean`, `LineSearch/Zoom.lean` | composition of C83 (direction bounds) with C84 (the search succeeds); on quadratics the approximate decrease condition implies the exact one; counterexample: closed polygons with an autoregressive Gram matrix, objective a sum of squared hinges |
| C98 | `ProxGrad/Model.lean` | telescoping of the prox-gradient inequality with the error `eps` of the line search; potential argument with non-increasing steps; invariants of the two-periodic line search on `L/2 x²` |
| C99 | `OSQP/Box.lean` | Lyapunov distance of C78 with the factor of every change of `rho`; for the negation an exactly periodic orbit (period 40) of the whole solver with the default attributes |
| C100 | `ProxGrad/Model.lean` | closed form of the motion on the affine part and nested intervals of starting points (accelerated); exact cycle of period 15 (plain); rates of C98 for enough halvings |
| C101 | `Implicit/Root.lean`, `FixedPoint/Iteration.lean` | perturbation of the linear system at the solution; recursion for the derivative of the iterates |
| C102 | `QuasiNewton/Broyden.lean`, `QuasiNewton/BroydenSearch.lean` | the inverse of the product operator follows Broyden's formula (Sherman-Morrison); bounded deterioration; exact Frobenius identity; arithmetic-geometric mean |
| C103 | `LineSearch/Counters.lean` | counting monad; the counting versions return the same as the models without counters (projection of runs); invariants relating counters and calls |
| C104 | `QuasiNewton/Complex.lean` | models with `tree_conj` kept; a run on images under a linear map of parameters and a map of gradients is the image of the run (`LineSearch/Equivariance.lean`); uniqueness of the derivative relates the two gradients |
| C105 | `QuasiNewton/RotationProps.lean` | the maps of `LineSearch/Equivariance.lean` and `QuasiNewton/ComplexProps.lean` with an orthogonal matrix; gradients of the two functions related by uniqueness of the derivative; the update of BFGS commutes with `H -> Q H Q^T` |
| C106 | `LineSearch/ZoomMessages.lean` | the search with a log of messages; invariants of C20 extended by: the safe stepsize was tried, has sufficient decrease and lacks curvature |
| C107 | `Base/Diff.lean` | forward mode is the loop on pairs, reverse mode a tape; induction on the number of iterations of the Python loop, transported by C01 |
| C108 | `Num/Format.lean`, `Bisect/Float.lean` | monotone rounding keeps midpoints between the ends; loop invariant, then the run specification of C01 |
| C109 | `Base/Batch.lean` | batching rules of JAX as definitions; functional induction on the batched loop, element by element |
| C110 | `FixedPoint/Iteration.lean` | triangle inequalities and induction; explicit map of period two for the threshold |
| C111 | `ProxGrad/Model.lean`, `Prox/Model.lean`, `Proj/Model.lean`, `BlockCD/Logreg.lean` | composition of C07-C09, C14, C16, C33, C67, C77 |
| C112 | `SGD/Armijo.lean` | pass-by-pass invariant, explicit cycle as counterexample |
| C113 | `QuasiNewton/BoundsFloat.lean`, `Num/Format.lean`, `Num/Binary.lean` | invariant for every format, exact binary64 witness |
| C114 | `Isotonic/Float.lean`, `Isotonic/FloatLemmas.lean`, `Isotonic/FloatAccuracy.lean` | loop invariant for an arbitrary arithmetic, backward error analysis, exact binary64 witness |
| C115 | `Prox/Reverse.lean` | differentiation rules applied operation by operation in extended arithmetic, compared with the Frechet derivative |
| C116 | `LineSearch/Shift.lean`, `QuasiNewton/ShiftProps.lean` | the run of the shifted problem against the translate of the original run; rational counterexamples for the default thresholds |
| C117 | `Num/Displacement.lean`, `Num/Elimination.lean`, `OSQP/Detect.lean`, `OSQP/DetectProps.lean` | the steps of averaged iterations converge; Fourier-Motzkin elimination turns vanishing residuals into feasible points; the tests accept the limits; induction over the loop |
| C118 | `Proj/Float.lean`, `Proj/FloatProps.lean` | backward error of the sums for any bracketing; a count made with errors gives a threshold within n e of the exact one (pigeonhole and monotone gaps); Lipschitz threshold |
| C119 | `LeastSquares/LMLocalProps.lean` | error of the linearisation by the mean value inequality; error recursion from the normal equations; gain ratio 1 - O(d); induction on distance and damping together |
| C120 | `QuasiNewton/LbfgsbFreeProps.lean`, `QuasiNewton/LbfgsbFreeRateProps.lean` | the direct and inverse BFGS forms are inverse to each other; invariant relating the two histories; operator bounds of C83 for the stored pairs |
| C121 | `QuasiNewton/BfgsDennisMoreProps.lean`, `QuasiNewton/BfgsSuperProps.lean`, `QuasiNewton/BfgsSuperExamples.lean` | the function tr B - log det B after the change of variables by a square root of the Hessian; linear convergence of C89; unit steps pass Armijo's condition by Taylor's formula |
| C122 | `ProxGrad/IdentifyLemmas.lean`, `ProxGrad/IdentifyProps.lean` | rates C33 and C77; values converging to the minimum force convergence of the iterates when the minimiser is unique; gradient steps and prox are nonexpansive; the pattern of the prox is locally constant at non-degenerate points |
| C123 | `ProxGrad/StationaryProps.lean` | sufficient decrease per iteration, telescoping; the prox inequality at the last step; two-cycles for the negative parts |
| C124 | `FixedPoint/AndersonLocalProps.lean` | the ridge bounds the weights, so the linearisation error of a mixed step is a small multiple of the largest stored residual; strong induction; exact four-cycle for the negative part |
| C125 | `Implicit/KktRoot.lean`, `Implicit/KktProps.lean` | the derivative of the optimality function has no kernel at a regular point; implicit function theorem; a second minimiser would give a segment of roots |
| C126 | `Implicit/BoxRoot.lean`, `Implicit/BoxProps.lean` | the kernel consists of multipliers that are not determined; the branch comes from the program of the active rows (C125); any solution of the consistent transposed system gives the same gradient |
| C127 | `Implicit/ProxRoot.lean`, `Implicit/ProxProps.lean` | near the forward point the prox is affine in each coordinate; the implicit function theorem gives a branch of fixed points, which for convex problems are the minimisers; a second minimiser would give a segment of roots |
| C128 | `Implicit/RegressionRoot.lean`, `Implicit/RegressionProps.lean` | instances of C127; Hessians of the losses, positive definite exactly off the kernel of the design matrix |
| C129 | `Implicit/SimplexRoot.lean`, `Implicit/SimplexProps.lean` | implicit function theorem for any function whose roots are the first-order points; firm non-expansiveness; derivatives of the simplex projection (C63), of the group shrinkage and of the softmax step |
| C130 | `Loss/Float.lean`, `Loss/FloatProps.lean` | monotone rounding that fixes the format; induction on the bracketing of the sums; counterexamples by kernel evaluation in binary32 and binary64 |
| C131 | `Loss/Masked.lean`, `Loss/MaskedProps.lean` | the infinite entries sort last and their partial sums give NaN conditions, so the count and the threshold are those of the finite entries |
| C132 | `Loss/Autodiff.lean`, `Loss/AutodiffProps.lean` | evaluation on dual numbers; the tangent of the projection drops out of the sparsemax loss because the projection is the maximiser; differentiability from the maximum formula and non-expansiveness |
| C133 | `Prox/Autodiff.lean`, `Prox/AutodiffProps.lean` | evaluation on dual numbers; composition of rules; outside the l1 ball the projection only depends on coordinates that keep their sign; false at unpenalised zero coordinates and at fixed variables (negation proved) |
| C134 | `Prox/BoxSectionAD.lean`, `Prox/BoxSectionADProps.lean` | explicit local root, uniqueness of derivatives, linearity of the rule of `clip`; the derivative in the offset at a vertex is wrong (witness proved) |
| C135 | `Prox/Float.lean`, `Prox/FloatProps.lean` | products of rounding factors; induction over the bracketing of the sum; binary64 witness for a projection outside the ball |
| C136 | `Transport/Autodiff.lean`, `Transport/AutodiffProps.lean` | implicit function theorem with a pinned constant, least squares over the support, kernel of a bipartite Laplacian; the default Euclidean formulation has derivative zero (witness proved) |
| C137 | `Transport/Accuracy.lean` | firm nonexpansiveness of relu, summation by parts over the cells, Cauchy-Schwarz |
| C138 | `Transport/Existence.lean` | coercivity modulo constants, compactness, bounds of the semi-dual by the spread of the potentials |
| C139 | `Proj/HalfspaceFloat.lean`, `Proj/HalfspaceFloatProps.lean` | products of rounding factors; induction over the bracketing of the sums; binary64 witness |
| C140 | `Transport/ZeroMarginal.lean`, `Transport/ZeroMarginalProps.lean` | case analysis of IEEE sums without finite terms; the sorted-threshold algorithm on infinite input |
| C141 | `Proj/BoxSectionInf.lean`, `Proj/BoxSectionInfProps.lean` | invariant of the bracket: an infinite end stays infinite and so does every midpoint |
| C142 | `Tree/Stacked.lean`, `Tree/StackedProps.lean` | row-major slices by index arithmetic, induction over the leaves, refinement of the functional histories |
| C143 | `Tree/LbfgsTree.lean`, `Tree/LbfgsTreeProps.lean` | representation relation kept by every operation, induction over both loops |
| C144 | `Tree/FlatConcat.lean`, `Tree/FlatConcatProps.lean` | induction over the leaves; row-major slices of concatenated blocks |
| C145 | `Tree/DType.lean`, `Tree/DTypeProps.lean` | characterisation of the set of dtypes by membership |

No property in the list is considered inexpressible.

## Parameters with specifications

Where the code calls a library routine, the model takes a function and the theorem states what it needs of it:

| Routine | Parameter | Assumed |
|---------|-----------|---------|
| `jax.grad`, `jax.jvp`, `jax.vjp` | a function | Frechet derivative / adjoint of the modelled function, or proved (C41, C58, C59) |
| `tree_l2_norm`, `jnp.linalg.norm`, `jnp.sqrt` | `norm`, `sqrt` | stated per theorem (non-negative, zero only at zero, or `inner x x = norm x ^ 2`) |
| `jnp.linalg.inv`, `solve`, `cg`, QR | a function | exact for the systems considered, or arbitrary (C28 feasibility, C38 invariants) |
| `jnp.argsort`, `top_k`, `sort` | insertion sort | computed |
| `inspect.Signature.bind` | lists of parameters with kinds | CPython 3.11 rules, computed |
| `jax.tree_util` | inductive `PyTree` | computed, dictionaries ordered by key |
| line searches inside solvers | the models of C18–C21, or arbitrary where the claim does not depend on them | stated |
| noise samples | a finite family | arbitrary |
| user callables, solver back-ends | functions | arbitrary |

NumPy broadcasting, dtype casts and rounding are not modelled (rounding is for bisection, C108).

## Findings

Clauses that turned out to be false of the code.  Each has a theorem with a concrete witness (suffix `_false`); what remains true is proved
(suffix `_partial`).

| Id | What the code does | Theorem |
|----|--------------------|---------|
| C06 | Bisection rejects a root located exactly at `lower` | `C06_…_false` |
| C09 | `projection_l1_sphere` puts no mass on zero coordinates (`sign(0) = 0`) | `C09_…_false` |
| C13 | `projection_box_section`: when the root is the lower end of the bracket the result is wrong | `C13_…_false` |
| C16 | `prox_ridge` halves the regulariser with respect to its documentation | `C16_…_false` |
| C20 | a failed zoom search may return a step without sufficient decrease | `C20_…_false` |
| C21 | Hager-Zhang: bisection loses strictness of the opposite slope; a search done at initialisation returns the old parameters with a non-zero stepsize; a failure flag does not persist | three `_false` theorems |
| C22 | Armijo SGD: the documented lower bound on the stepsize fails; a NaN value is accepted | two `_false` theorems |
| C23 | Polyak SGD with `delta = 0` computes 0/0 at a minimiser | `C23_…_false` |
| C27 | Broyden: several leaves are treated as one; the order of the history is lost after overflow | `_false` theorems |
| C28 | L-BFGS-B: entries of the gradient below machine epsilon, and Hager-Zhang steps, leave the box | `_false` theorems |
| C29 | Anderson: a fixed point reached in the middle of a run can be left again | `_false` |
| C31 | iterative refinement with a warm start and one iteration does not solve the system | `C31_warm_start_false` |
| C32 | accelerated proximal gradient: the error compares points that the step does not connect | `C32_accel_error_false` |
| C34 | nonlinear CG: backtracking ignores `method`; the error is that of the previous point | two `_false` theorems |
| C35 | block coordinate descent on the SVM dual diverges for small `l2reg` | `C35_svm_false` |
| C36 | BoxCDQP never moves a coordinate with a zero diagonal entry | `C36_stop_false` |
| C37 | refined EqualityConstrainedQP is not exact | `C37_refine_false` |
| C38 | OSQP: `rho_bar` can become NaN | `C38_rho_false` |
| C39 | OSQP reports primal infeasibility when the multipliers do not change (e.g. inactive constraints), and dual infeasibility along directions of ascent (the test is `c·dx <= +criterion`) | `C39_unchanged_dual_false`, `C39_inactive_false`, `C39_dual_ascent_false` |
| C40 | OSQP: zero rows in the dense case return the multipliers of other constraints | `C40_zero_rows_false` |
| C44 | Levenberg-Marquardt: NaN trial residuals contaminate the state; damping can exceed its cap; no increase at the cap; `madsen-nielsen` has the wrong sign of `xtol` | four `_false` theorems |
| C45 C46 C47 | empty pytrees raise | `_false` theorems |
| C50 | one class: the logistic loss is 0 | `C50_single_class_false` |
| C55 | SciPy wrappers mutate the user's options dictionary, so reusing it raises | `C55_same_dict_false` |
| C56 | ScipyLeastSquares with `has_aux=True` recurses forever | `C56_has_aux_false` |
| C57 | the Huber rho of ScipyLeastSquares is wrong for residuals below -1 | `C57_huber_false` |
| C58 | a zero column marginal makes the column of the plan NaN (semi-dual) | `C140_l2` |
| C61 | `solve_cholesky` raises on every matrix right-hand side with more than one entry | `C61_cholesky_matrix_false` |
| C66 | `make_perturbed_fun(control_variate=True)` raises for vector outputs; the plain rule drops axes of size one | `C66_control_variate_false`, `C66_shape_partial` |
| C68 | `ScipyBoundedMinimize`/`ScipyBoundedLeastSquares`: `optimality_fun` raises for the documented `bounds=None` | `C68_scipy_bounds_none_false` |
| C70 | `CvxpyQP.run` raises only for the statuses `infeasible` and `unbounded`; with `infeasible_inaccurate` etc. it returns a result without a point | `C70_status_false` |
| C71 | `BoxOSQP`/`OSQP` with `fun`: `optimality_fun` calls `fun` on the pair `(x, z)`, so implicit differentiation and `l2_optimality_error` raise | `C71_box_optimality_raises`, `C71_box_optimality_false` |
| C71 | `EqualityConstrainedQP` with `fun` raises on parameters that are not one array | `C71_pytree_raises` |
| C72 | the error of `OptaxSolver` is the gradient norm before the last step, so the returned parameters may exceed `tol` | `C72_error_false` |
| C73 | `projection_polyhedron` raises "The polyhedron is empty." for points well inside a non-empty polyhedron, e.g. the origin whenever it is feasible | `C73_nonempty_false`, `C73_origin_false` |
| C75 | `LBFGSB` uses its circular history in buffer order: after the buffer has wrapped around, the pair at the last position plays the part of the newest pair and the secant equation fails for the newest one | `C75_wrap_false` |
| C76 | `_find_cauchy_point` removes coordinates that hit their bounds at the same time one by one and tests the derivative in between: it can stop at a point that is not a local minimiser along the path, with a coordinate at its bound marked as free, and the result depends on how argsort orders the ties | `C76_ties_false`, `C76_ties_order_false` |
| C77 | with line search the error of (proximal) gradient descent divides by the stepsize of the next iteration, which is reset to 1 after a step of at most 1e-6: the run can stop by the tolerance at a large gradient | `C77_error_false` |
| C79 | with geodesic acceleration the denominator of the gain ratio can be negative: LevenbergMarquardt then accepts steps that increase the cost and rejects steps that decrease it | `C79_increase_false`, `C79_reject_false` |
| C79 | a callable linear solver is warm started at minus its previous solution (`state.delta` is the negated velocity) | `C79_warm_start_false` |
| C79 | `jac_fun` is never used: with materialize_jac=True `_jac_fun` is not set and init_state raises AttributeError, otherwise it is ignored | `C79_jac_fun_false` |
| C80 | with the default aggressiveness (0.9, i.e. Armijo constant 0.1) ArmijoSGD can diverge although all losses are convex, smooth and have a common minimiser: on two alternating batches the iterates are (-3)^n; aggressiveness < 1/2 is needed | `C80_default_diverges_false` |
| C81 | below a squared gradient norm of 1e-6 NonlinearCG clips the denominators of the betas, so that with a tolerance below 1e-3 conjugacy and finite termination are lost on quadratics | `C81_small_gradients_false` |
| C82 | NonlinearCG runs its line searches with curvature constant c2 = 0.9: with all options at their defaults the search direction after one successful line search can be an ascent direction (c2 < 1/2 would be needed, for Fletcher-Reeves) | `C82_default_ascent_false` |
| C84 | with the default constants the zoom line search may bracket an interval that holds no acceptable step (a step accepted by the approximate decrease condition with a steep positive slope becomes the low end); it then fails whatever `maxiter` is although exact strong Wolfe steps exist, and returns a step that increases the objective | `C84_default_fails_false` |
| C85 | the error of mirror descent (length of the last step over the stepsize) certifies nothing in the KL geometry: near a wrong vertex of the simplex every step is short, and a run stops after one update with a gap of more than 1/2 | `C85_error_false` |
| C88 | `eq_qp_solve='cg+jacobi'` raises on every pytree of matrices that is not a single array (`tree_add(diag_precond, sigma)`, osqp.py line 220) | `C88_jacobi_container_false` |
| C90 | the argument `max_stepsize` ("upper bound on stepsize") has no effect with `linesearch='hager-zhang'`: with `max_stepsize=1` the search takes a step above 20; when its first bracket already succeeds it reports the initial stepsize instead of the step taken | `C90_hager_zhang_bound_false` |
| C90 | `max_stepsize=0` is replaced by `2**maxls` by the zoom line search (`if not self.max_stepsize`) | `C90_zoom_zero_false` |
| C91 | the damping factor is capped at 2^32, so on strongly curved residuals (`r(x) = 1 + (x-1) + 2^33 (x-1)^2` from `1`) every step is rejected for ever although the gradient is 1; by C44 accepted steps may exceed the cap, but rejected ones cannot | `C91_cap_false` |
| C93 | data passed by keyword to `run` of `GaussNewton`, `LevenbergMarquardt`, `ScipyMinimize`, `ScipyBoundedMinimize`, `ScipyLeastSquares`, `ScipyBoundedLeastSquares` raises `TypeError` in the backward pass: these classes set no `reference_signature` | `C93_opaque`, `C93_keyword_false` |
| C93 | `AndersonWrapper` around a solver without `reference_signature` (`ProjectedGradient`, `GaussNewton`, ...) raises `AttributeError` at construction | `C93_wrapper`, `C93_wrapper_false` |
| C93 | `ProjectedGradient` ignores `implicit_diff_solve` | `C93_solve` |
| C93 | `ProximalGradient`, `BlockCoordinateDescent`, `MirrorDescent`, `LBFGSB` cannot be constructed for a user function with two positional-only parameters, a first parameter with a default, or a parameter named like the inserted one | `C93_construct`, `C93_construct_false` |
| C94 | with a zero diagonal entry `BoxCDQP` stops at once at the worst point of the box, for every tolerance | `C94_diagonal_false` |
| C95 | `BlockCoordinateDescent` on the SVM dual with a small `l2reg` alternates for ever and never meets its tolerance | `C95_svm_false` |
| C95 | the error of `BlockCoordinateDescent` is not the lower bound of the optimality error that its comment announces | `C95_lower_bound_false` |
| C96 | the bracketing loop of `HagerZhangLineSearch` never ends on a decreasing function bounded below (logistic loss), although its first probe satisfies the Wolfe conditions | `C96_logistic_false` |
| C96 | an infinite second secant step (equal slopes) makes `HagerZhangLineSearch` report a failure together with an accepted step (Huber loss) | `C96_failure_reported_false` |
| C97 | The approximate decrease condition of the zoom line search (zoom_linesearch.py lines 261-280) accepts steps that do not decrease the objective. For every history size `m` there is a smooth strongly convex objective on `ℝ^(2(m+1))` on which `LBFGS(history_size=m, max_stepsize=3)` with otherwise default options visits the corners of a closed polygon forever: every line search succeeds, the value never changes, the gradient norm stays 1/3. | `Lbfgs.C97_cycle_false` |
| C98 | With the default line search (`stepsize=0`, `maxls=15`, `decrease_factor=0.5`) gradient descent diverges on `L/2 x²` for every `L` between 970000 and 1000000 (`acceleration=True` and `False`): an accepted step of at most `1e-6` resets the next trial step to 1 (proximal_gradient.py lines 229-232), 15 halvings of which end at `2^-15`, thirty times too long, and the failed search is used as if it had succeeded. Objective multiplied by at least 16/9 every two iterations. | `C98_default_false`, `C98_steep_run` |
| C98 | Even with `L = 1` the unaccelerated line search is not monotone: steps double on flat parts, and 15 halvings may then not suffice. On the Huber function from `2^20 - 1/2`, iteration 21 raises the objective from 1/8 to 15. | `C98_monotone_false` |
| C99 | With all default attributes (`rho_start=0.1`, `stepsize_updates_frequency=10`, `termination_check_frequency=5`, ...), an exact linear solver and exact arithmetic, there are a linear program with two variables and a valid start from which `BoxOSQP` cycles for ever: `rho` alternates between two values, the iterates return after 40 iterations, the error stays at least 2/5 and every run ends UNSOLVED, whatever `maxiter`. With `rho_min=rho_max=0.1` the same program from the same start is solved. The witness orbit is exact; simulations in floating point from the default start show the same failure for simple programs (`A=(10,1)^T`). | `Cycle.C99_default_false`, `Cycle.C99_constant` |
| C100 | The step is doubled after every iteration and halved at most `maxls = 15` times; a failed search is used as if it had succeeded. On the convex 1-smooth function `x²/2` (`x ≥ -1`), `-x-1/2` (`x ≤ -1`) the steps grow on the affine part until 15 halvings no longer suffice. With all default attributes (acceleration) there are starts from which the objective tends to infinity (also for every `L ≥ 1` in place of 1 and every machine epsilon in `[0,1]`); without acceleration the start `-2147450881` leads into a cycle of period 15. In simulations about 97% of the starts beyond `10⁶` in absolute value diverge for `L = 1`, and starts of moderate size for `L = 100`. | `PG.C100_diverges`, `PG.C100_run`, `PG.C100_default_false`, `PG.C100_plain_cycle`, `PG.C100_plain_run` |
| C101 | With `implicit_diff=False`, `FixedPointIteration` started at (or near) the fixed point stops after one iteration with error 0, and the unrolled derivative is that of a single iteration: 1 instead of 2 for `x/2 + θ`, whatever `tol`. Implicit differentiation is exact there. | `C101_unrolled_tol_false` |
| C102 | `Broyden.update` passes the residual (a pytree) as the objective value of its line search, whose objective is the squared norm (line 339). Harmless only because the gradient is `None`, which makes the search recompute both. At an exact root the denominator is 0 and the history becomes NaN (`run` then stops because the residual is 0, but the state cannot be used for a warm start). | excluded by `F x ≠ 0` in `C102_halves`, `C102_run` |
| C103 | `ZoomLineSearch.init_state` recomputes the auxiliary value with the function alone but adds one to `num_grad_eval` as well (lines 684-687). The solvers give value and gradient and always use `has_aux=True`, so with their default search every iteration counts one gradient too many. With `value_and_grad=True` the Armijo and Goldstein conditions of the backtracking search evaluate gradients that are not counted. | `C103_zoom_false`, `C103_solver_zoom_false`, `C103_backtracking_joint_false`; exact counts in `C103_backtracking`, `C103_zoom`, `C103_hager_zhang`, `C103_solver` |
| C106 | Two texts of `failure_diagnostic` (zoom_linesearch.py lines 866-878) say more than is checked: "Cannot even make a step without getting Inf or Nan" is printed when the last trial is outside the domain, although earlier trials may have finite values; "does not reduce values" is printed for steps that reduce the value by less than the Armijo condition asks. | `C106_outside_false`, `C106_unsafe_false`; what is true in `C106_outcome` |
| C107 | When an error met by the run equals `tol`, the result jumps as a function of the arguments (base.py line 266) and has no derivative; differentiating through the loop returns a number all the same. | `C107_tie_false`; the other points in `C107_fixed_point` |
| C108 | The midpoint `0.5 * (high + low)` (bisection.py line 133) overflows for ends beyond half the largest number: the run returns infinity although the bracket is finite and contains a root. The error `sqrt(value ** 2)` (line 135) underflows to 0 for small nonzero values, so that `tol=0` stops at a point that is not a root. | `C108_overflow_false`, `C108_underflow_false`; ends that can be doubled in `C108_bracket`, `C108_run` |
| C109 | The README promises that solvers can be batched with vmap; `Bisection` with its default `check_bracket=True` raises under vmap (`if sign == 0`, bisection.py line 105), and so does every loop with `jit=False`. | `C109_check_bracket_false`, `C109_accepted` |
| C112 | `ArmijoSGD(reset_option="goldstein")` accepts every `aggressiveness` in (0,1), but below 1/2 the two conditions contradict each other and no step is ever accepted. With the default options the search can alternate between two rejected steps on a smooth convex function; the last one is used although it increases the objective (armijo_sgd.py lines 90-114, 346). | `C112_never_accepts`, `C112_cycle_false` |
| C113 | `LBFGSB` with its default line search does not clip the new parameters (lbfgsb.py lines 465-492; the branch without line search does, line 501): by rounding of `target - params` the result can be above the upper bound, for instance 0.10000000000000009 for the bound 0.1. | `C113_lbfgsb_linesearch_false` |
| C114 | `isotonic_l2_pav` on integer data converts the averages back to integers by truncation (isotonic.py line 87): `1, 1, 0` gives `0, 0, 0` instead of `2/3`, and is not even the closest integer sequence. | `C114_integer_false` |
| C114 | A constant float64 sequence is pooled (the test is `>`, line 56), so rounding can change it and leave the range of `y`: three times `0.1` gives `0.10000000000000002`. | `C114_constant_false` |
| C115 | The reverse-mode derivatives of `prox_group_lasso` (prox.py lines 163-166) and `projection_l2_ball` (projection.py lines 284-289) are NaN at `x = 0`, where both functions are differentiable: the branch that is not selected sends a zero cotangent into `l / norm`, and `0 * inf` is NaN. The derivative with respect to `l2reg` is NaN too. Forward mode is right. | `C115_origin_reverse`, `C115_reverse_false`, `C115_origin_forward` |
| C115 | With `l2reg = 0` the operator `prox_group_lasso` is the identity, but its forward-mode derivative at `x = 0` is zero and the reverse-mode one NaN. | `C115_unpenalised_false` |
| C116 | The approximate Wolfe conditions compare with `1e-6 * abs(f(x0))` (`c3` in zoom_linesearch.py line 237, `approximate_wolfe_threshold` in hager_zhang_linesearch.py line 106), so the default searches depend on a constant added to the objective: for `-x + 7/2 x^2 - 2x^3 + 10^6` the zoom search of `LBFGS` accepts a step from 0 to 1 that increases the objective by 1/2; without the constant it steps to 1/3 and decreases it. | `C116_zoom_false`, `C116_hager_zhang_false` |
| C118 | `_projection_unit_simplex` does not subtract the largest entry first, so its error is relative to the size of the inputs: in binary64 the inputs (2^53+72, 2^53+74) give (1/2, 5/2), far from the simplex. | `C118_sum_false` |
| C120 | Without bounds `LBFGSB` is not `LBFGS` after the history buffer has wrapped around: for x^2 + x^4 with `history_size=2` and the same line search the fourth iterates are 12/13 and 4/5 (same cause as C75). | `C120_wrap_false` |
| C121 | `BFGS` with `linesearch_init="current"` is not superlinearly convergent: a search that backtracks lowers all later steps; on 3/2 ‖x‖² all steps are 1/2. | `C121_current_false` |
| C123 | `ProjectedGradient` with `projection_sparse_simplex` and a constant step between 1/L and 2/L (safe for convex sets) can alternate between two points forever. | `C123_sparse_step_false` |
| C124 | Anderson acceleration has no safeguard: on a contraction of the real line (where `FixedPointIteration` converges from everywhere) it can alternate between four points forever, with default `beta` and `ridge` and `history_size = mixing_frequency = 2`. | `C124_global_false` |
| C126 | The optimality function that `BoxOSQP` and `OSQP` are differentiated with drops an equality row whose multiplier is zero: at `min ½x²` s.t. `x = t`, `t = 0`, the implicit gradient with respect to `t` is 0 for every linear solver, the true one is 1. The linear system is singular for every `OSQP` program, so direct solvers fail; `solve_normal_cg` copes. | `C126_zero_multiplier_false`, `C126_singular` |
| C130 | `multiclass_hinge_loss` adds and subtracts one before it subtracts the score of the label, so in floating point the loss of a correctly classified example is negative: -1 for scores `(2^24, 0)` in binary32. `multiclass_sparsemax_loss` is -3.75 instead of 0 for `(2^53 + 72, 2^53 + 74)` in binary64, because the projection it uses does not centre its input. | `C130_hinge_false`, `C130_sparsemax_false` |
| C131 | `multiclass_hinge_loss`, `multiclass_perceptron_loss` and the losses of `make_fenchel_young_loss` select the label's score with `jnp.dot(scores, one_hot)`; one excluded class (score `-inf`) makes them NaN (`0 * inf`). The logistic and sparsemax losses index instead and are right. | `C131_nan`, `C131_masked_false` |
| C133 | Differentiating `prox_lasso` or `prox_elastic_net` at a zero coordinate whose weight is zero gives 0, because `jnp.sign(0) = 0`; the operator is the identity there. Differentiating `projection_box` at a fixed variable (`lower == upper`) on its bound gives 1/4 instead of 0 (two ties of `jnp.clip`). Implicit derivatives of `ProximalGradient` and `ProjectedGradient` inherit both. | `C133_unpenalised_false`, `C133_fixed_false`, `C133_implicit_false` |
| C134 | At a vertex of the box section (every coordinate strictly beyond a bound) the derivative of `projection_box_section` in the offset `c` is computed as 0, because the coefficient of the implicit system is 0; both one-sided derivatives of the closest point are nonzero. | `C134_vertex_offset_false` |
| C136 | `_max_l2` puts the maximiser under `stop_gradient`, and the plan of the semi-dual formulation is the gradient of `_max_l2`; so the derivative of `projection_transport` and `projection_birkhoff` in the similarity matrix is computed as 0 with the default `use_semi_dual=True`. | `C136_semi_dual_l2`, `C136_semi_dual_l2_false` |
| C139 | In floating-point arithmetic `projection_halfspace` can return a point outside the half-space (by rounding), so projecting twice is not projecting once: 3 on `3 y <= 1`, double precision. | `C139_halfspace`, `C139_feasible_false` |
| C140 | `_max_l2` divides by `gamma * marginal_b` and `_max_ent` takes `log(marginal_b)`: with a zero entry in `marginals_b` the default (semi-dual) objective of `projection_transport` and `kl_projection_transport` is NaN everywhere, and the plan of the former is NaN in that column. | `C140_l2`, `C140_ent`, `C140_well_posed` |
| C141 | `_root_proj_box_sec` brackets the root by the smallest and largest quotient of the bounds: an infinite bound makes every midpoint infinite (or NaN), so `projection_box_section` silently returns the bounds themselves (or NaN), e.g. `inf` for the simplex. | `C141_upper`, `C141_lower`, `C141_both`, `C141_simplex_false` |
| C142 | `tree_mean` averages the means of the leaves, which is not the mean of the entries when the leaves have different sizes (the function is not used inside the library). | `C142_mean_false` |
| C145 | With `jax_enable_x64`, parameters that mix a Python float and a `float32` array are rejected (`tree_single_dtype` gives the Python float 64 bits), although they are accepted in the default precision. | `C145_x64_false` |

Observed while reading, outside the listed properties: the documentation of `projection_transport` transposes the marginals; Hager-Zhang ignores
`max_stepsize`; `OSQP` ignores `fun` in its objective in one branch.

## Wrong programs tried

`seeded/LOG.jsonl` has one line per edit of a definition.  "killed" means that the build failed.  `failed_theorems` lists property theorems whose own
proof failed or that use a lemma whose proof failed.  Where the build did not report this for a theorem in a nested namespace, it was computed from
the dependency graph of the current sources.  `blocked_theorems` are theorems of modules that could not be built any more because they import a failing one;
they were not checked themselves.  An edit that only breaks an `example` does not count against a theorem; its line says so.
