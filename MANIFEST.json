{
 "claims": [
  {
   "property": "C01",
   "status": "proved",
   "theorems": [
    "Jaxopt.Base.C01_loop_backends_agree",
    "Jaxopt.Base.C01_same_result"
   ],
   "note": "All three back-ends equal the same specification loop; the jit=False, unroll=False combination is an error."
  },
  {
   "property": "C02",
   "status": "proved",
   "theorems": [
    "Jaxopt.Base.C02_run_contract",
    "Jaxopt.Base.C02_run_maxiter_zero",
    "Jaxopt.Base.C02_nan_stops",
    "Jaxopt.Base.C02_rejected_iff"
   ],
   "note": "State fields that an update sets to None keep their initial value, as in the code. maxiter=0 is covered for the two back-ends that accept it (lax.scan with negative length is an error)."
  },
  {
   "property": "C03",
   "status": "proved",
   "theorems": [
    "Jaxopt.Base.C03_run_iterator",
    "Jaxopt.Base.C03_empty"
   ],
   "note": ""
  },
  {
   "property": "C04",
   "status": "proved",
   "theorems": [
    "Jaxopt.Base.C04_with_aux",
    "Jaxopt.Base.C04_without_aux",
    "Jaxopt.Base.C04_separate"
   ],
   "note": ""
  },
  {
   "property": "C05",
   "status": "proved",
   "theorems": [
    "Jaxopt.Bisect.C05_bracket_halves",
    "Jaxopt.Bisect.C05_accuracy"
   ],
   "note": ""
  },
  {
   "property": "C06",
   "status": "partial",
   "theorems": [
    "Jaxopt.Bisect.C06_accepts_iff_partial",
    "Jaxopt.Bisect.C06_unchecked_accepts",
    "Jaxopt.Bisect.C06_root_at_lower_rejected_false"
   ],
   "note": "False as stated: a root exactly at `lower` is rejected. The exact acceptance condition is proved."
  },
  {
   "property": "C07",
   "status": "proved",
   "theorems": [
    "Jaxopt.Proj.C07_box",
    "Jaxopt.Proj.C07_hypercube",
    "Jaxopt.Proj.C07_linf_ball",
    "Jaxopt.Proj.C07_non_negative",
    "Jaxopt.Proj.C07_box_empty"
   ],
   "note": ""
  },
  {
   "property": "C08",
   "status": "proved",
   "theorems": [
    "Jaxopt.Proj.C08_simplex"
   ],
   "note": ""
  },
  {
   "property": "C09",
   "status": "partial",
   "theorems": [
    "Jaxopt.Proj.C09_l1_ball",
    "Jaxopt.Proj.C09_l1_sphere_iff_partial",
    "Jaxopt.Proj.C09_l1_sphere_false"
   ],
   "note": "The ball projection is fully proved. The sphere projection is false when zero coordinates receive mass (sign(0)=0); exact condition proved."
  },
  {
   "property": "C10",
   "status": "proved",
   "theorems": [
    "Jaxopt.Proj.C10_l2_sphere",
    "Jaxopt.Proj.C10_l2_ball"
   ],
   "note": ""
  },
  {
   "property": "C100",
   "status": "partial",
   "theorems": [
    "Jaxopt.ProxGrad.PG.C100_enough_halvings_partial",
    "Jaxopt.ProxGrad.PG.C100_default_false",
    "Jaxopt.ProxGrad.PG.C100_diverges",
    "Jaxopt.ProxGrad.PG.C100_run",
    "Jaxopt.ProxGrad.PG.C100_plain_cycle",
    "Jaxopt.ProxGrad.PG.C100_plain_run"
   ],
   "note": "The claim is false for the default attributes: on a convex 1-smooth function of one variable the accelerated method diverges from some start (C100_diverges, C100_run, C100_default_false) and the plain method cycles (C100_plain_cycle, C100_plain_run). Proved without acceleration when maxls is at least maxiter + log2(L). Missing: a positive result with acceleration."
  },
  {
   "property": "C101",
   "status": "proved",
   "theorems": [
    "Jaxopt.Implicit.C101_jvp",
    "Jaxopt.Implicit.C101_vjp",
    "Jaxopt.Implicit.C101_fixed_point",
    "Jaxopt.Implicit.C101_unrolled",
    "Jaxopt.Implicit.C101_unrolled_limit",
    "Jaxopt.Implicit.C101_unrolled_tol_false"
   ],
   "note": "Finite-dimensional parameters; automatic differentiation is the Frechet derivative (trusted base). C101_unrolled_tol_false: the tolerance does not control the unrolled derivative."
  },
  {
   "property": "C102",
   "status": "proved",
   "theorems": [
    "Jaxopt.QuasiNewton.Broyden.C102_halves",
    "Jaxopt.QuasiNewton.Broyden.C102_superlinear",
    "Jaxopt.QuasiNewton.Broyden.C102_unit_steps",
    "Jaxopt.QuasiNewton.Broyden.C102_run"
   ],
   "note": "One leaf (with several leaves the secant equation fails, C27_leaves_false). Exact arithmetic; the iterations considered are those before an exact root, where the code divides by zero."
  },
  {
   "property": "C103",
   "status": "partial",
   "theorems": [
    "Jaxopt.LineSearch.C103_backtracking",
    "Jaxopt.LineSearch.C103_backtracking_closed",
    "Jaxopt.LineSearch.C103_backtracking_joint_false",
    "Jaxopt.LineSearch.C103_zoom",
    "Jaxopt.LineSearch.C103_zoom_false",
    "Jaxopt.LineSearch.C103_hager_zhang",
    "Jaxopt.LineSearch.C103_solver",
    "Jaxopt.LineSearch.C103_solver_zoom_false"
   ],
   "note": "Exact for backtracking (unless value_and_grad=True with a condition on values) and Hager-Zhang. False for the zoom search as the solvers call it: num_grad_eval is too large by exactly one per search."
  },
  {
   "property": "C104",
   "status": "proved",
   "theorems": [
    "Jaxopt.QuasiNewton.C104_lbfgs",
    "Jaxopt.QuasiNewton.C104_ncg",
    "Jaxopt.QuasiNewton.C104_backtracking",
    "Jaxopt.QuasiNewton.C104_zoom",
    "Jaxopt.QuasiNewton.C104_hager_zhang",
    "Jaxopt.QuasiNewton.C104_slope"
   ],
   "note": "All attributes, all three line searches. Exact arithmetic; a search that raises or does not end is reported as failed at its starting point."
  },
  {
   "property": "C105",
   "status": "proved",
   "theorems": [
    "Jaxopt.Rotation.C105_lbfgs",
    "Jaxopt.Rotation.C105_ncg",
    "Jaxopt.Rotation.C105_bfgs",
    "Jaxopt.Rotation.C105_prox_grad",
    "Jaxopt.Rotation.C105_gradient_descent"
   ],
   "note": "Exact arithmetic; a search that raises or does not end is reported as failed at its starting point."
  },
  {
   "property": "C106",
   "status": "partial",
   "theorems": [
    "Jaxopt.LineSearch.C106_same_run",
    "Jaxopt.LineSearch.C106_curvature",
    "Jaxopt.LineSearch.C106_no_stepsize",
    "Jaxopt.LineSearch.C106_advice",
    "Jaxopt.LineSearch.C106_outcome",
    "Jaxopt.LineSearch.C106_nan",
    "Jaxopt.LineSearch.C106_small",
    "Jaxopt.LineSearch.C106_interval",
    "Jaxopt.LineSearch.C106_silent",
    "Jaxopt.LineSearch.C106_outside_false",
    "Jaxopt.LineSearch.C106_unsafe_false"
   ],
   "note": "Everything except two texts that are false as printed ('cannot even make a step', 'does not reduce values'); for these the exact condition of printing and the behaviour are proved. The table of log_info is not modelled."
  },
  {
   "property": "C107",
   "status": "proved",
   "theorems": [
    "Jaxopt.Loop.C107_jvp",
    "Jaxopt.Loop.C107_vjp",
    "Jaxopt.Loop.C107_reverse_available",
    "Jaxopt.Implicit.C107_fixed_point",
    "Jaxopt.Implicit.C107_tie_false"
   ],
   "note": "The rules of JAX for pairs, tapes and lax.while_loop are trusted. C107_tie_false shows that the proviso is needed."
  },
  {
   "property": "C108",
   "status": "proved",
   "theorems": [
    "Jaxopt.Bisect.Float.C108_bracket",
    "Jaxopt.Bisect.Float.C108_run",
    "Jaxopt.Bisect.Float.C108_accuracy",
    "Jaxopt.Bisect.Float.C108_ideal",
    "Jaxopt.Bisect.Float.C108_overflow_false",
    "Jaxopt.Bisect.Float.C108_underflow_false"
   ],
   "note": "The two _false theorems show what fails without the condition on doubling and for the error near zero."
  },
  {
   "property": "C109",
   "status": "proved",
   "theorems": [
    "Jaxopt.Loop.C109_loop",
    "Jaxopt.Loop.C109_accepted",
    "Jaxopt.Loop.C109_passes",
    "Jaxopt.Loop.C109_nested",
    "Jaxopt.Loop.C109_cond",
    "Jaxopt.Base.C109_run",
    "Jaxopt.Base.C109_run_ok",
    "Jaxopt.Bisect.Float.C109_bisection",
    "Jaxopt.Bisect.Float.C109_check_bracket_false"
   ],
   "note": "The batching rules of JAX are trusted; predicates that do not depend on the batch are treated as batched."
  },
  {
   "property": "C11",
   "status": "proved",
   "theorems": [
    "Jaxopt.Proj.C11_hyperplane",
    "Jaxopt.Proj.C11_halfspace"
   ],
   "note": ""
  },
  {
   "property": "C110",
   "status": "proved",
   "theorems": [
    "Jaxopt.FixedPoint.FPI.C110_iterates",
    "Jaxopt.FixedPoint.FPI.C110_certificate",
    "Jaxopt.FixedPoint.FPI.C110_terminates",
    "Jaxopt.FixedPoint.FPI.C110_sharp_false"
   ],
   "note": "C110_sharp_false is the sharpness clause."
  },
  {
   "property": "C111",
   "status": "proved",
   "theorems": [
    "Jaxopt.ProxGrad.C111_lasso",
    "Jaxopt.ProxGrad.C111_sparse_logreg",
    "Jaxopt.ProxGrad.C111_elastic_net",
    "Jaxopt.ProxGrad.C111_non_negative_lasso",
    "Jaxopt.ProxGrad.C111_ridge",
    "Jaxopt.ProxGrad.C111_nnls",
    "Jaxopt.ProxGrad.C111_box",
    "Jaxopt.ProxGrad.C111_simplex",
    "Jaxopt.ProxGrad.C111_l1_ball"
   ],
   "note": ""
  },
  {
   "property": "C112",
   "status": "proved",
   "theorems": [
    "Jaxopt.SGD.Armijo.C112_conflict",
    "Jaxopt.SGD.Armijo.C112_never_accepts",
    "Jaxopt.SGD.Armijo.C112_accepts",
    "Jaxopt.SGD.C112_cycle_false"
   ],
   "note": ""
  },
  {
   "property": "C113",
   "status": "partial",
   "theorems": [
    "Jaxopt.Bounds.C113_lbfgsb_fixed_step",
    "Jaxopt.Bounds.C113_projected_box",
    "Jaxopt.Bounds.C113_projected_non_negative",
    "Jaxopt.Bounds.C113_box_cd",
    "Jaxopt.Bounds.C113_lbfgsb_exact",
    "Jaxopt.Bounds.C113_lbfgsb_bound",
    "Jaxopt.Bounds.C113_lbfgsb_overshoot",
    "Jaxopt.Bounds.C113_lbfgsb_linesearch_false"
   ],
   "note": "Exact feasibility is false for LBFGSB with a line search (negation proved with a binary64 witness, together with an error bound and the exact case); proved for the other solvers. Products and sums are rounded separately."
  },
  {
   "property": "C114",
   "status": "proved",
   "theorems": [
    "Jaxopt.Isotonic.C114_returns",
    "Jaxopt.Isotonic.C114_monotone",
    "Jaxopt.Isotonic.C114_nan_spreads",
    "Jaxopt.Isotonic.C114_accuracy",
    "Jaxopt.Isotonic.C114_accuracy_binary64",
    "Jaxopt.Isotonic.C114_exact",
    "Jaxopt.Isotonic.C114_constant_false",
    "Jaxopt.Isotonic.C114_integer_false"
   ],
   "note": "The two expectations that fail are proved false with concrete data. Accuracy is for numbers without overflow and underflow; termination, monotonicity and NaN are for all floats."
  },
  {
   "property": "C115",
   "status": "proved",
   "theorems": [
    "Jaxopt.Reverse.C115_values",
    "Jaxopt.Reverse.C115_sphere",
    "Jaxopt.Reverse.C115_ball",
    "Jaxopt.Reverse.C115_group_lasso",
    "Jaxopt.Reverse.C115_group_lasso_penalty",
    "Jaxopt.Reverse.C115_transpose",
    "Jaxopt.Reverse.C115_origin_forward",
    "Jaxopt.Reverse.C115_origin_reverse",
    "Jaxopt.Reverse.C115_reverse_false",
    "Jaxopt.Reverse.C115_unpenalised_false"
   ],
   "note": "The differentiation rules of the JAX primitives (sqrt, square, div, select, cond, transposition) are part of the trusted base; arithmetic is exact with NaN and infinities."
  },
  {
   "property": "C116",
   "status": "partial",
   "theorems": [
    "Jaxopt.Shift.C116_lbfgs_partial",
    "Jaxopt.Shift.C116_ncg_partial",
    "Jaxopt.Shift.C116_bfgs_partial",
    "Jaxopt.Shift.C116_prox_grad",
    "Jaxopt.Shift.C116_gradient_descent",
    "Jaxopt.Shift.C116_zoom_partial",
    "Jaxopt.Shift.C116_interpolation",
    "Jaxopt.Shift.C116_hager_zhang_partial",
    "Jaxopt.Shift.C116_gradient",
    "Jaxopt.Shift.C116_zoom_false",
    "Jaxopt.Shift.C116_hager_zhang_false"
   ],
   "note": "With the default thresholds of the zoom and Hager-Zhang searches the claim is false of the code (C116_zoom_false, C116_hager_zhang_false); proved for zero thresholds, backtracking, prescribed steps, and for moved origins."
  },
  {
   "property": "C117",
   "status": "proved",
   "theorems": [
    "Jaxopt.OSQP.BoxOSQP.C117_iterates",
    "Jaxopt.OSQP.BoxOSQP.C117_limits",
    "Jaxopt.OSQP.BoxOSQP.C117_stops",
    "Jaxopt.OSQP.BoxOSQP.C117_infeasible"
   ],
   "note": "Constant stepsize and exact linear solves; that the verdicts themselves can be wrong is C39."
  },
  {
   "property": "C118",
   "status": "proved",
   "theorems": [
    "Jaxopt.Proj.C118_index",
    "Jaxopt.Proj.C118_order",
    "Jaxopt.Proj.C118_accuracy",
    "Jaxopt.Proj.C118_sum",
    "Jaxopt.Proj.C118_scaled",
    "Jaxopt.Proj.C118_sparse",
    "Jaxopt.Proj.C118_sum_false"
   ],
   "note": "Overflow and underflow are not modelled. The point far from the simplex is C118_sum_false."
  },
  {
   "property": "C119",
   "status": "proved",
   "theorems": [
    "Jaxopt.LeastSquares.C119_step",
    "Jaxopt.LeastSquares.C119_linear",
    "Jaxopt.LeastSquares.C119_superlinear",
    "Jaxopt.LeastSquares.C119_damping",
    "Jaxopt.LeastSquares.C119_run",
    "Jaxopt.LeastSquares.C119_ball",
    "Jaxopt.LeastSquares.C119_quadratic_false"
   ],
   "note": "Exact arithmetic; at the root itself the code divides 0 by 0 in the gain ratio (C44). Quadratic convergence is refuted by C119_quadratic_false."
  },
  {
   "property": "C12",
   "status": "proved",
   "theorems": [
    "Jaxopt.Proj.C12_sparse_simplex"
   ],
   "note": ""
  },
  {
   "property": "C120",
   "status": "proved",
   "theorems": [
    "Jaxopt.QuasiNewton.C120_direction",
    "Jaxopt.QuasiNewton.C120_same",
    "Jaxopt.QuasiNewton.C120_wrap_false",
    "Jaxopt.QuasiNewton.C120_linear"
   ],
   "note": "Linear algebra (inverse, solve) exact. The difference after wrap-around is C120_wrap_false."
  },
  {
   "property": "C121",
   "status": "proved",
   "theorems": [
    "Jaxopt.QuasiNewton.Bfgs.dennisMore",
    "Jaxopt.QuasiNewton.Bfgs.C121_superlinear",
    "Jaxopt.QuasiNewton.Bfgs.C121_current_false"
   ],
   "note": "Exact arithmetic. Assumes that no line search fails; the strategy current is excluded by C121_current_false."
  },
  {
   "property": "C122",
   "status": "proved",
   "theorems": [
    "Jaxopt.ProxGrad.C122_lasso",
    "Jaxopt.ProxGrad.C122_elastic_net",
    "Jaxopt.ProxGrad.C122_non_negative_lasso",
    "Jaxopt.ProxGrad.C122_box",
    "Jaxopt.ProxGrad.C122_non_negative",
    "Jaxopt.ProxGrad.C122_simplex",
    "Jaxopt.ProxGrad.C122_l1_ball",
    "Jaxopt.ProxGrad.C122_radius",
    "Jaxopt.ProxGrad.C122_plain",
    "Jaxopt.ProxGrad.C122_accelerated",
    "Jaxopt.ProxGrad.C122_lasso_regression",
    "Jaxopt.ProxGrad.C122_degenerate_false"
   ],
   "note": "Exact arithmetic, constant step. Degenerate solutions are excluded by C122_degenerate_false."
  },
  {
   "property": "C123",
   "status": "proved",
   "theorems": [
    "Jaxopt.ProxGrad.PG.C123_convex",
    "Jaxopt.ProxGrad.PG.C123_general",
    "Jaxopt.ProxGrad.C123_sparse_simplex",
    "Jaxopt.ProxGrad.C123_convex_step_false",
    "Jaxopt.ProxGrad.C123_sparse_step_false"
   ],
   "note": "Exact arithmetic; the limits on the step are shown to be necessary by the two negative theorems."
  },
  {
   "property": "C124",
   "status": "proved",
   "theorems": [
    "Jaxopt.FixedPoint.Anderson.C124_rate",
    "Jaxopt.FixedPoint.Anderson.C124_run",
    "Jaxopt.FixedPoint.AWrapper.C124_wrapper",
    "Jaxopt.FixedPoint.C124_global_false"
   ],
   "note": "Exact arithmetic. Local convergence is what holds; global convergence on contractions is refuted by C124_global_false."
  },
  {
   "property": "C125",
   "status": "proved",
   "theorems": [
    "Jaxopt.Implicit.C125_branch",
    "Jaxopt.Implicit.C125_qp",
    "Jaxopt.Implicit.C125_cvxpy",
    "Jaxopt.Implicit.C125_strict_false"
   ],
   "note": "Exact arithmetic; automatic differentiation is the derivative (trusted base). Programs with both kinds of multipliers; an empty index set gives the others."
  },
  {
   "property": "C126",
   "status": "proved",
   "theorems": [
    "Jaxopt.Implicit.C126_diff",
    "Jaxopt.Implicit.C126_normal_cg",
    "Jaxopt.Implicit.C126_singular",
    "Jaxopt.Implicit.C126_zero_multiplier_false"
   ],
   "note": "Exact arithmetic, fun = None. The positive part assumes nonzero multipliers on equality rows; without it C126_zero_multiplier_false shows the gradient is lost."
  },
  {
   "property": "C127",
   "status": "proved",
   "theorems": [
    "Jaxopt.Implicit.C127_elastic_net",
    "Jaxopt.Implicit.C127_lasso",
    "Jaxopt.Implicit.C127_box",
    "Jaxopt.Implicit.C127_strict_false"
   ],
   "note": "Exact arithmetic. The derivative of the prox at points where it is not differentiable (degenerate solutions) is not modelled; there C127_strict_false shows that the solution map may have no derivative."
  },
  {
   "property": "C128",
   "status": "proved",
   "theorems": [
    "Jaxopt.Implicit.C128_lasso",
    "Jaxopt.Implicit.C128_block_cd",
    "Jaxopt.Implicit.C128_logreg",
    "Jaxopt.Implicit.C128_box_cd"
   ],
   "note": "Exact arithmetic. BlockCoordinateDescent with blocks of one entry; labels of the logistic model are fixed."
  },
  {
   "property": "C129",
   "status": "proved",
   "theorems": [
    "Jaxopt.Implicit.C129_general",
    "Jaxopt.Implicit.C129_range",
    "Jaxopt.Implicit.C129_simplex",
    "Jaxopt.Implicit.C129_group_lasso",
    "Jaxopt.Implicit.C129_mirror"
   ],
   "note": "Exact arithmetic. prox_group_lasso with the whole array as one group. MirrorDescent at solutions with a zero coordinate is outside the claim (the logarithm is not differentiable there)."
  },
  {
   "property": "C13",
   "status": "partial",
   "theorems": [
    "Jaxopt.Proj.C13_exact_root",
    "Jaxopt.Proj.C13_accuracy_partial",
    "Jaxopt.Proj.C13_check_feasible",
    "Jaxopt.Proj.C13_degenerate_false"
   ],
   "note": "Accuracy in terms of the bisection width is proved; the degenerate instance where the root is at the lower end of the bracket gives a wrong answer."
  },
  {
   "property": "C130",
   "status": "partial",
   "theorems": [
    "Jaxopt.Loss.C130_huber",
    "Jaxopt.Loss.C130_sparse_plus",
    "Jaxopt.Loss.C130_sparse_sigmoid",
    "Jaxopt.Loss.C130_binary",
    "Jaxopt.Loss.C130_binary_sparsemax",
    "Jaxopt.Loss.C130_logistic",
    "Jaxopt.Loss.C130_multiclass_logistic",
    "Jaxopt.Loss.C130_perceptron",
    "Jaxopt.Loss.C130_hinge_partial",
    "Jaxopt.Loss.C130_hinge_false",
    "Jaxopt.Loss.C130_sparsemax_false"
   ],
   "note": "Overflow and underflow are not modelled. Non-negativity is false of the multiclass hinge and sparsemax losses (C130_hinge_false, C130_sparsemax_false); for the hinge loss C130_hinge_partial bounds how negative it can be."
  },
  {
   "property": "C131",
   "status": "partial",
   "theorems": [
    "Jaxopt.Loss.C131_sparsemax",
    "Jaxopt.Loss.C131_logistic",
    "Jaxopt.Loss.C131_logistic_label",
    "Jaxopt.Loss.C131_binary",
    "Jaxopt.Loss.C131_nan",
    "Jaxopt.Loss.C131_finite",
    "Jaxopt.Loss.C131_masked_false"
   ],
   "note": "Exact finite arithmetic with IEEE infinities and NaN. The claim is false of the hinge, perceptron and Fenchel-Young losses (C131_masked_false)."
  },
  {
   "property": "C132",
   "status": "proved",
   "theorems": [
    "Jaxopt.Loss.C132_huber",
    "Jaxopt.Loss.C132_binary_sparsemax",
    "Jaxopt.Loss.C132_binary_logistic",
    "Jaxopt.Loss.C132_binary_margin",
    "Jaxopt.Loss.C132_multiclass_logistic",
    "Jaxopt.Loss.C132_multiclass_sparsemax",
    "Jaxopt.Loss.C132_multiclass_margin"
   ],
   "note": "Exact arithmetic. The rules of the primitives (abs, max, where, logaddexp, logsumexp, reduce-max) are the ones of JAX and part of the trusted base; reverse mode is the transpose of the same linear maps."
  },
  {
   "property": "C133",
   "status": "partial",
   "theorems": [
    "Jaxopt.ProxAD.C133_lasso_partial",
    "Jaxopt.ProxAD.C133_elastic_net_partial",
    "Jaxopt.ProxAD.C133_non_negative_lasso",
    "Jaxopt.ProxAD.C133_ridge",
    "Jaxopt.ProxAD.C133_non_negative_ridge",
    "Jaxopt.ProxAD.C133_non_negative",
    "Jaxopt.ProxAD.C133_box_partial",
    "Jaxopt.ProxAD.C133_hypercube",
    "Jaxopt.ProxAD.C133_linf_ball",
    "Jaxopt.ProxAD.C133_lasso_kink",
    "Jaxopt.ProxAD.C133_box_kink",
    "Jaxopt.ProxAD.C133_hyperplane",
    "Jaxopt.ProxAD.C133_halfspace",
    "Jaxopt.ProxAD.C133_l1_ball",
    "Jaxopt.ProxAD.C133_unpenalised_false",
    "Jaxopt.ProxAD.C133_fixed_false",
    "Jaxopt.ProxAD.C133_implicit_false"
   ],
   "note": "Exact arithmetic. The claim is false at a zero coordinate with zero weight (C133_unpenalised_false) and at a fixed variable on its bound (C133_fixed_false); C133_implicit_false carries both to implicit differentiation."
  },
  {
   "property": "C134",
   "status": "proved",
   "theorems": [
    "Jaxopt.ProxAD.C134_box_section",
    "Jaxopt.ProxAD.C134_tangent",
    "Jaxopt.ProxAD.C134_inexact",
    "Jaxopt.ProxAD.C134_vertex",
    "Jaxopt.ProxAD.C134_vertex_offset_false"
   ],
   "note": "Exact arithmetic; the scalar linear system of custom_root is solved exactly, with solution 0 if its coefficient is 0."
  },
  {
   "property": "C135",
   "status": "proved",
   "theorems": [
    "Jaxopt.Prox.C135_lasso_backward",
    "Jaxopt.Prox.C135_lasso_shape",
    "Jaxopt.Prox.C135_non_negative_lasso",
    "Jaxopt.Prox.C135_elastic_net",
    "Jaxopt.Prox.C135_ridge",
    "Jaxopt.Prox.C135_norm",
    "Jaxopt.Prox.C135_norm_zero",
    "Jaxopt.Prox.C135_group_lasso",
    "Jaxopt.Prox.C135_l2_ball",
    "Jaxopt.Prox.C135_l2_sphere",
    "Jaxopt.Prox.C135_l2_ball_false"
   ],
   "note": "Overflow, underflow and flushing of subnormal numbers are not modelled. Exact feasibility of projection_l2_ball is not claimed; C135_l2_ball_false is a witness against it."
  },
  {
   "property": "C136",
   "status": "proved",
   "theorems": [
    "Jaxopt.Transport.C136_dual_ent",
    "Jaxopt.Transport.C136_semi_dual_ent",
    "Jaxopt.Transport.C136_dual_l2",
    "Jaxopt.Transport.C136_dual_l2_fixed",
    "Jaxopt.Transport.C136_semi_dual_l2",
    "Jaxopt.Transport.C136_semi_dual_l2_false"
   ],
   "note": "Exact arithmetic; the potentials are exactly stationary and the implicit equations are solved exactly. For moving marginals C136_dual_l2 takes the differentiable curve of stationary potentials as a hypothesis."
  },
  {
   "property": "C137",
   "status": "proved",
   "theorems": [
    "Jaxopt.Transport.C137_own_marginals",
    "Jaxopt.Transport.C137_dual",
    "Jaxopt.Transport.C137_semi_dual",
    "Jaxopt.Transport.C137_tolerance",
    "Jaxopt.Transport.C137_unequal_masses"
   ],
   "note": "Exact arithmetic; positive marginals_b in the semi-dual formulation; the requested projection is the plan of some stationary potentials."
  },
  {
   "property": "C138",
   "status": "proved",
   "theorems": [
    "Jaxopt.Transport.C138_exists",
    "Jaxopt.Transport.C138_entropic_iff",
    "Jaxopt.Transport.C138_accuracy_l2",
    "Jaxopt.Transport.C138_accuracy_ent"
   ],
   "note": "Exact arithmetic; the accuracy is for the semi-dual formulation (the default of both projections) and asks that the solver does not end above its starting value."
  },
  {
   "property": "C139",
   "status": "proved",
   "theorems": [
    "Jaxopt.Proj.C139_zero_normal",
    "Jaxopt.Proj.C139_hyperplane",
    "Jaxopt.Proj.C139_halfspace",
    "Jaxopt.Proj.C139_exact",
    "Jaxopt.Proj.C139_feasible_false"
   ],
   "note": "Real leaves, without overflow, underflow and fused multiply-add."
  },
  {
   "property": "C14",
   "status": "proved",
   "theorems": [
    "Jaxopt.Prox.C14_lasso",
    "Jaxopt.Prox.C14_non_negative_lasso",
    "Jaxopt.Prox.C14_elastic_net",
    "Jaxopt.Prox.C14_none"
   ],
   "note": ""
  },
  {
   "property": "C140",
   "status": "proved",
   "theorems": [
    "Jaxopt.Transport.C140_l2",
    "Jaxopt.Transport.C140_ent",
    "Jaxopt.Transport.C140_well_posed"
   ],
   "note": "Finite potentials and costs; the zero marginal is +0; finite operations exact (no overflow)."
  },
  {
   "property": "C141",
   "status": "proved",
   "theorems": [
    "Jaxopt.Proj.BoxInf.C141_upper",
    "Jaxopt.Proj.BoxInf.C141_lower",
    "Jaxopt.Proj.BoxInf.C141_both",
    "Jaxopt.Proj.BoxInf.C141_check",
    "Jaxopt.Proj.BoxInf.C141_finite",
    "Jaxopt.Proj.BoxInf.C141_simplex_false"
   ],
   "note": "Finite point, weights and offset; finite operations exact (no overflow)."
  },
  {
   "property": "C142",
   "status": "partial",
   "theorems": [
    "Jaxopt.Tree.C142_average",
    "Jaxopt.Tree.C142_replace",
    "Jaxopt.Tree.C142_gram",
    "Jaxopt.Tree.C142_init",
    "Jaxopt.Tree.C142_step",
    "Jaxopt.Tree.C142_update",
    "Jaxopt.Tree.C142_mean_partial",
    "Jaxopt.Tree.C142_mean_false"
   ],
   "note": "Proved for all batched operations (real arrays, at least one leaf for the inner products); the clause on tree_mean holds only for leaves of equal size, C142_mean_false shows the code's value otherwise."
  },
  {
   "property": "C143",
   "status": "proved",
   "theorems": [
    "Jaxopt.Tree.C143_product",
    "Jaxopt.Tree.C143_gamma",
    "Jaxopt.Tree.C143_init",
    "Jaxopt.Tree.C143_update"
   ],
   "note": "Real parameters (complex ones: C104); compute_gamma needs at least one leaf."
  },
  {
   "property": "C144",
   "status": "proved",
   "theorems": [
    "Jaxopt.Tree.C144_roundtrip",
    "Jaxopt.Tree.C144_pack",
    "Jaxopt.Tree.C144_history",
    "Jaxopt.Tree.C144_empty_false"
   ],
   "note": "Exceptions are none / error values."
  },
  {
   "property": "C145",
   "status": "proved",
   "theorems": [
    "Jaxopt.Tree.C145_some",
    "Jaxopt.Tree.C145_none",
    "Jaxopt.Tree.C145_raises",
    "Jaxopt.Tree.C145_default",
    "Jaxopt.Tree.C145_x64_false",
    "Jaxopt.Tree.C145_real"
   ],
   "note": "The dtypes that NumPy and JAX give to Python numbers and the precision rule are those of their documentation."
  },
  {
   "property": "C15",
   "status": "proved",
   "theorems": [
    "Jaxopt.Prox.C15_group_lasso"
   ],
   "note": ""
  },
  {
   "property": "C16",
   "status": "partial",
   "theorems": [
    "Jaxopt.Prox.C16_ridge_partial",
    "Jaxopt.Prox.C16_non_negative_ridge_partial",
    "Jaxopt.Prox.C16_ridge_documented_iff",
    "Jaxopt.Prox.C16_ridge_false",
    "Jaxopt.Prox.C16_non_negative_ridge_false"
   ],
   "note": "False as documented: the code minimises the objective with an extra factor 1/2 on the regulariser."
  },
  {
   "property": "C17",
   "status": "proved",
   "theorems": [
    "Jaxopt.Isotonic.C17_isotonic",
    "Jaxopt.Isotonic.C17_empty_bounds"
   ],
   "note": ""
  },
  {
   "property": "C18",
   "status": "proved",
   "theorems": [
    "Jaxopt.LineSearch.C18_backtracking",
    "Jaxopt.LineSearch.C18_condition"
   ],
   "note": ""
  },
  {
   "property": "C19",
   "status": "proved",
   "theorems": [
    "Jaxopt.LineSearch.C19_armijo_lower_bound"
   ],
   "note": ""
  },
  {
   "property": "C20",
   "status": "partial",
   "theorems": [
    "Jaxopt.LineSearch.C20_zoom_partial",
    "Jaxopt.LineSearch.C20_failed_step_unsafe_false"
   ],
   "note": "All clauses proved except 'failure with a positive stepsize satisfies sufficient decrease', which is false when no tried step satisfies it (the code deliberately returns the last trial); proved instead: if any tried step satisfied it, the returned one does."
  },
  {
   "property": "C21",
   "status": "partial",
   "theorems": [
    "Jaxopt.LineSearch.C21_interval_update_partial",
    "Jaxopt.LineSearch.HZ.C21_run_partial",
    "Jaxopt.LineSearch.C21_opposite_slope_false",
    "Jaxopt.LineSearch.HZ.C21_params_false",
    "Jaxopt.LineSearch.HZ.C21_failed_forgotten_false",
    "Jaxopt.LineSearch.C21_secant",
    "Jaxopt.LineSearch.C21_midpoint",
    "Jaxopt.LineSearch.HZ.C21_secant2_left",
    "Jaxopt.LineSearch.HZ.C21_secant2_right",
    "Jaxopt.LineSearch.HZ.C21_secant2_neither",
    "Jaxopt.LineSearch.HZ.C21_shrink",
    "Jaxopt.LineSearch.HZ.C21_nan_failed"
   ],
   "note": "Nesting, left-end conditions, weak right-end condition (slope >= 0 or value above threshold), consistency and Wolfe conditions when the initial state is not already done are proved. False of the code: strict opposite slope after bisection, params = params + stepsize*direction when the initial state is done, persistence of a reported failure."
  },
  {
   "property": "C22",
   "status": "partial",
   "theorems": [
    "Jaxopt.SGD.Armijo.C22_range",
    "Jaxopt.SGD.Armijo.C22_conservative",
    "Jaxopt.SGD.Armijo.C22_armijo",
    "Jaxopt.SGD.Armijo.C22_armijo_goldstein",
    "Jaxopt.SGD.Armijo.C22_goldstein_curvature",
    "Jaxopt.SGD.Armijo.C22_momentum",
    "Jaxopt.SGD.Armijo.C22_lower_bound",
    "Jaxopt.SGD.C22_options",
    "Jaxopt.SGD.C22_documented_bound_false",
    "Jaxopt.SGD.C22_nan_accepted_false"
   ],
   "note": "All clauses proved except the documented 'aggressiveness > 0.5 implies stepsize >= min(1/L, max_stepsize)', which is false of the code (counterexample); a NaN objective is accepted by the line search."
  },
  {
   "property": "C23",
   "status": "partial",
   "theorems": [
    "Jaxopt.SGD.C23_variant",
    "Jaxopt.SGD.C23_state",
    "Jaxopt.SGD.C23_sps_max",
    "Jaxopt.SGD.C23_sps_plus",
    "Jaxopt.SGD.C23_distance",
    "Jaxopt.SGD.C23_zero_gradient_false"
   ],
   "note": "Proved except 'zero step at zero gradient for every variant': SPS_max with delta=0 gives 0/0 at a minimiser."
  },
  {
   "property": "C24",
   "status": "proved",
   "theorems": [
    "Jaxopt.QuasiNewton.Lbfgs.C24_two_loop",
    "Jaxopt.QuasiNewton.Lbfgs.C24_buffer",
    "Jaxopt.QuasiNewton.Lbfgs.C24_direction",
    "Jaxopt.QuasiNewton.Lbfgs.C24_gamma",
    "Jaxopt.QuasiNewton.Lbfgs.C24_warm_start"
   ],
   "note": ""
  },
  {
   "property": "C25",
   "status": "proved",
   "theorems": [
    "Jaxopt.QuasiNewton.Lbfgs.C25_descent",
    "Jaxopt.QuasiNewton.Lbfgs.C25_secant",
    "Jaxopt.QuasiNewton.Lbfgs.C25_run",
    "Jaxopt.QuasiNewton.Lbfgs.C25_wolfe_run"
   ],
   "note": ""
  },
  {
   "property": "C26",
   "status": "proved",
   "theorems": [
    "Jaxopt.QuasiNewton.Bfgs.C26_bfgs",
    "Jaxopt.QuasiNewton.Bfgs.C26_closed_form",
    "Jaxopt.QuasiNewton.Bfgs.C26_agrees_with_lbfgs"
   ],
   "note": ""
  },
  {
   "property": "C27",
   "status": "partial",
   "theorems": [
    "Jaxopt.QuasiNewton.Broyden.C27_broyden_partial",
    "Jaxopt.QuasiNewton.Broyden.C27_defect",
    "Jaxopt.QuasiNewton.Broyden.C27_leaves_false",
    "Jaxopt.QuasiNewton.Broyden.C27_history_false"
   ],
   "note": "Proved for one leaf and the first history_size updates; false of the code for several leaves and after the buffer overflows (counterexamples), the exact defect is given in general."
  },
  {
   "property": "C28",
   "status": "partial",
   "theorems": [
    "Jaxopt.QuasiNewton.C28_cauchy_partial",
    "Jaxopt.QuasiNewton.C28_cauchy_defined",
    "Jaxopt.QuasiNewton.C28_subspace",
    "Jaxopt.QuasiNewton.Lbfgsb.C28_update_partial",
    "Jaxopt.QuasiNewton.Lbfgsb.C28_run_partial",
    "Jaxopt.QuasiNewton.C28_error_zero_iff",
    "Jaxopt.QuasiNewton.Lbfgsb.C28_small_gradient_false",
    "Jaxopt.QuasiNewton.Lbfgsb.C28_linesearch_false"
   ],
   "note": "Feasibility proved for arbitrary histories, inverses and solvers when gradient entries are 0 or at least machine epsilon and the line search steps within [0,1] (no condition without line search). False of the code otherwise: tiny gradient entries, and the Hager-Zhang line search, which is not clipped."
  },
  {
   "property": "C29",
   "status": "partial",
   "theorems": [
    "Jaxopt.FixedPoint.Anderson.C29_bookkeeping",
    "Jaxopt.FixedPoint.Anderson.C29_warmup",
    "Jaxopt.FixedPoint.C29_weights",
    "Jaxopt.FixedPoint.Anderson.C29_fixed_point_partial",
    "Jaxopt.FixedPoint.Anderson.C29_history_size",
    "Jaxopt.FixedPoint.Anderson.C29_run",
    "Jaxopt.FixedPoint.AWrapper.C29_wrapper",
    "Jaxopt.FixedPoint.AWrapper.C29_wrapper_schedule",
    "Jaxopt.FixedPoint.C29_reached_fixed_point_false"
   ],
   "note": "All bookkeeping clauses, weights and warm-up proved for both Anderson solvers. A run started at a fixed point stays there; a fixed point reached during the run can be left by a further update (witness), because older points are mixed in."
  },
  {
   "property": "C30",
   "status": "proved",
   "theorems": [
    "Jaxopt.FixedPoint.FPI.C30_count",
    "Jaxopt.FixedPoint.FPI.C30_rate",
    "Jaxopt.FixedPoint.FPI.C30_certificate",
    "Jaxopt.FixedPoint.FPI.C30_terminates"
   ],
   "note": ""
  },
  {
   "property": "C31",
   "status": "partial",
   "theorems": [
    "Jaxopt.FixedPoint.Refine.C31_tracks",
    "Jaxopt.FixedPoint.Refine.C31_contracts",
    "Jaxopt.FixedPoint.Refine.C31_rate",
    "Jaxopt.FixedPoint.Refine.C31_exact_partial",
    "Jaxopt.FixedPoint.C31_warm_start_false"
   ],
   "note": "The last clause is false of the code: with a non-zero warm start and one iteration the returned point does not solve the system (init_state sets target_residuals=b). Proved for the default start, and for any start with at least two iterations up to tol."
  },
  {
   "property": "C32",
   "status": "partial",
   "theorems": [
    "Jaxopt.ProxGrad.PG.C32_linesearch",
    "Jaxopt.ProxGrad.PG.C32_linesearch_succeeds",
    "Jaxopt.ProxGrad.PG.C32_monotone",
    "Jaxopt.ProxGrad.PG.C32_linesearch_run",
    "Jaxopt.ProxGrad.C32_hilbert",
    "Jaxopt.ProxGrad.PG.C32_error_partial",
    "Jaxopt.ProxGrad.PG.C32_error_optimal_partial",
    "Jaxopt.ProxGrad.PG.C32_error_accel_partial",
    "Jaxopt.ProxGrad.C32_accel_error_false"
   ],
   "note": "The error clause holds without acceleration; with acceleration it is false of the code (error uses next_x - x although the step starts from the extrapolated point): a default-tolerance run stops at a non-stationary point with error 0."
  },
  {
   "property": "C33",
   "status": "proved",
   "theorems": [
    "Jaxopt.ProxGrad.PG.C33_rate",
    "Jaxopt.ProxGrad.C33_hilbert"
   ],
   "note": "Proved against every comparison point of the domain, not only minimisers."
  },
  {
   "property": "C34",
   "status": "partial",
   "theorems": [
    "Jaxopt.QuasiNewton.C34_beta",
    "Jaxopt.QuasiNewton.NCG.C34_descent",
    "Jaxopt.QuasiNewton.NCG.C34_fletcher_reeves",
    "Jaxopt.QuasiNewton.NCG.C34_error_partial",
    "Jaxopt.QuasiNewton.NCG.C34_backtracking_ignores_method_false",
    "Jaxopt.QuasiNewton.C34_method_matters_partial",
    "Jaxopt.QuasiNewton.C34_error_false"
   ],
   "note": "Proved: the three betas are non-negative and equal the textbook formulas; descent directions after exact (and, for Fletcher-Reeves, strong Wolfe) line searches. False in the code: with linesearch='backtracking' the method has no influence on the iterates, and the error is the gradient norm at the previous parameters (witness: a run that stops with error 1e-3 at a point of gradient norm 0.101)."
  },
  {
   "property": "C35",
   "status": "partial",
   "theorems": [
    "Jaxopt.BlockCD.BCD.C35_caches",
    "Jaxopt.BlockCD.C35_least_squares_constants",
    "Jaxopt.BlockCD.BCD.C35_descent",
    "Jaxopt.BlockCD.BCD.C35_least_squares",
    "Jaxopt.BlockCD.BCD.C35_svm_partial",
    "Jaxopt.BlockCD.BCD.C35_stop",
    "Jaxopt.BlockCD.C35_svm_false"
   ],
   "note": "Proved: caches exact before every coordinate of every epoch; descent in general and for least squares; an epoch with error 0 is a minimiser. SVM dual: descent only for l2reg >= 1/2 (convex) or >= 1; false for smaller l2reg because columnwise_lipschitz_const lacks the factor 1/l2reg (witness: l2reg=1/4 cycles and raises the objective). Zero columns are excluded (the code divides by zero)."
  },
  {
   "property": "C36",
   "status": "partial",
   "theorems": [
    "Jaxopt.QP.BoxCDQP.C36_feasible",
    "Jaxopt.QP.BoxCDQP.C36_descent",
    "Jaxopt.QP.BoxCDQP.C36_run",
    "Jaxopt.QP.BoxCDQP.C36_stop_partial",
    "Jaxopt.QP.BoxCDQP.C36_optimality_fun",
    "Jaxopt.QP.C36_stop_false"
   ],
   "note": "Feasibility, descent and the characterisation of optimality_fun hold for all data. 'Error 0 means optimal' is proved when Q_ii = 0 implies c_i = 0 and is false otherwise: a coordinate with a zero diagonal entry never moves."
  },
  {
   "property": "C37",
   "status": "partial",
   "theorems": [
    "Jaxopt.QP.C37_certificate",
    "Jaxopt.QP.C37_qp",
    "Jaxopt.QP.EqQP.C37_eq_qp",
    "Jaxopt.QP.EqQP.C37_refine_rate",
    "Jaxopt.QP.EqQP.C37_refine_partial",
    "Jaxopt.QP.C37_refine_false"
   ],
   "note": "Certificate proved for convex programs and QPs; EqualityConstrainedQP without regularisation proved exact whenever a minimiser exists. With refine_regularization the returned point is only a KKT point up to the tolerance: an O(1/sqrt(k)) residual bound is proved, exactness is false (witness)."
  },
  {
   "property": "C38",
   "status": "partial",
   "theorems": [
    "Jaxopt.OSQP.BoxOSQP.C38_iterates",
    "Jaxopt.OSQP.BoxOSQP.C38_rho_partial",
    "Jaxopt.OSQP.BoxOSQP.C38_solved",
    "Jaxopt.OSQP.BoxOSQP.C38_gap",
    "Jaxopt.OSQP.BoxOSQP.C38_optimal",
    "Jaxopt.OSQP.BoxOSQP.C38_fixed_point",
    "Jaxopt.OSQP.C38_rho_false"
   ],
   "note": "All clauses proved for every solver of the linear system, except that rho_bar can become NaN (0/0 when primal residual and Ax vanish; witness), which is the only exception to the interval clause."
  },
  {
   "property": "C39",
   "status": "partial",
   "theorems": [
    "Jaxopt.OSQP.BoxOSQP.C39_primal_partial",
    "Jaxopt.OSQP.BoxOSQP.C39_dual_partial",
    "Jaxopt.OSQP.BoxOSQP.C39_status",
    "Jaxopt.OSQP.BoxOSQP.C39_no_check",
    "Jaxopt.OSQP.BoxOSQP.C39_unchanged_dual_false",
    "Jaxopt.OSQP.BoxOSQP.C39_dual_quant",
    "Jaxopt.OSQP.BoxOSQP.C39_dual_exact",
    "Jaxopt.OSQP.C39_inactive_false",
    "Jaxopt.OSQP.BoxOSQP.C39_dual_ascent_false"
   ],
   "note": "False of the code: certif_lu <= criterion accepts the zero direction, so a solvable problem with inactive constraints raises 'Primal infeasible.' (witness, and in general whenever the multiplier is unchanged). The dual test accepts directions of ascent (c.dx <= +criterion): a run on a solvable linear program raises 'Dual infeasible.' (witness). Proved: what an accepted dual certificate says quantitatively; exact (strict) certificates imply infeasibility; without the check nothing is ever reported or raised."
  },
  {
   "property": "C40",
   "status": "partial",
   "theorems": [
    "Jaxopt.OSQP.C40_transform",
    "Jaxopt.OSQP.C40_split_partial",
    "Jaxopt.OSQP.C40_split_blocks",
    "Jaxopt.OSQP.C40_round_trip",
    "Jaxopt.OSQP.C40_run_partial",
    "Jaxopt.OSQP.C40_suboptimality",
    "Jaxopt.OSQP.C40_zero_rows_false"
   ],
   "note": "End to end: a SOLVED run returns an approximately KKT point and, for a convex problem, an explicit bound on its suboptimality. Feasible set and objective preserved for every number of rows. Splitting is exact for present constraints with at least one row (dense case) and for every number of rows with matvecs; with zero rows in the dense case the code returns the multipliers of the other constraints (witness: leaf[0:] is the whole leaf)."
  },
  {
   "property": "C41",
   "status": "proved",
   "theorems": [
    "Jaxopt.Implicit.C41_jvp",
    "Jaxopt.Implicit.C41_adjoint",
    "Jaxopt.Implicit.C41_vjp",
    "Jaxopt.Implicit.C41_fixed_point"
   ],
   "note": "root_jvp/root_vjp equal the implicit function derivative and its adjoint when the inner linear solve is exact; autodiff of the optimality function is its Frechet derivative."
  },
  {
   "property": "C42",
   "status": "proved",
   "theorems": [
    "Jaxopt.Implicit.C42_routing",
    "Jaxopt.Implicit.C42_unresolved",
    "Jaxopt.Implicit.C42_resolvable",
    "Jaxopt.Implicit.C42_flatten",
    "Jaxopt.Implicit.C42_defaults",
    "Jaxopt.Implicit.C42_transparent",
    "Jaxopt.Implicit.C42_same_values"
   ],
   "note": "Signature binding follows CPython 3.11 inspect; every signature whose kinds are in Python's order."
  },
  {
   "property": "C43",
   "status": "proved",
   "theorems": [
    "Jaxopt.LeastSquares.GN.C43_normal_equations",
    "Jaxopt.LeastSquares.GN.C43_affine",
    "Jaxopt.LeastSquares.GN.C43_error_zero",
    "Jaxopt.LeastSquares.GN.C43_value",
    "Jaxopt.LeastSquares.GN.C43_run",
    "Jaxopt.LeastSquares.C43_solvable",
    "Jaxopt.LeastSquares.C43_gradient"
   ],
   "note": "For every residual function with a linear Jacobian and its adjoint; the inner solve is exact for the update considered (C43_solvable: always possible)."
  },
  {
   "property": "C44",
   "status": "partial",
   "theorems": [
    "Jaxopt.LeastSquares.C44_update_partial",
    "Jaxopt.LeastSquares.C44_history",
    "Jaxopt.LeastSquares.C44_damping_partial",
    "Jaxopt.LeastSquares.C44_run",
    "Jaxopt.LeastSquares.C44_accepted",
    "Jaxopt.LeastSquares.C44_stop_partial",
    "Jaxopt.LeastSquares.C44_qr",
    "Jaxopt.LeastSquares.C44_inv",
    "Jaxopt.LeastSquares.C44_bounded_false",
    "Jaxopt.LeastSquares.C44_raise_false",
    "Jaxopt.LeastSquares.C44_criterion_false",
    "Jaxopt.LeastSquares.C44_nonfinite_false"
   ],
   "note": "False of the code: a NaN trial residual contaminates residual, gradient, value and damping (selection by multiplication); accepted steps can push damping above damping_factor_max; at the cap a rejection does not raise damping; madsen-nielsen uses ||params|| - xtol instead of + xtol. Everything else proved for finite residuals and every history."
  },
  {
   "property": "C45",
   "status": "partial",
   "theorems": [
    "Jaxopt.Scipy.C45_roundtrip_partial",
    "Jaxopt.Scipy.C45_converse_partial",
    "Jaxopt.Scipy.C45_wrong_length",
    "Jaxopt.Scipy.C45_empty_false"
   ],
   "note": "Every structure with at least one leaf and all leaf shapes; for a pytree without leaves flattening raises (C45_empty_false). dtype casts not modelled."
  },
  {
   "property": "C46",
   "status": "partial",
   "theorems": [
    "Jaxopt.Scipy.C46_jacobian_partial",
    "Jaxopt.Scipy.C46_empty_false"
   ],
   "note": "All input/output structures with at least one leaf each; onp.block raises on an empty side (C46_empty_false)."
  },
  {
   "property": "C47",
   "status": "partial",
   "theorems": [
    "Jaxopt.Tree.C47_add",
    "Jaxopt.Tree.C47_sub",
    "Jaxopt.Tree.C47_mul",
    "Jaxopt.Tree.C47_scalar_mul",
    "Jaxopt.Tree.C47_negative",
    "Jaxopt.Tree.C47_zeros_like",
    "Jaxopt.Tree.C47_add_scalar_mul",
    "Jaxopt.Tree.C47_mismatch",
    "Jaxopt.Tree.C47_vdot",
    "Jaxopt.Tree.C47_vdot_real",
    "Jaxopt.Tree.C47_sum",
    "Jaxopt.Tree.C47_l2_norm",
    "Jaxopt.Tree.C47_inner_product",
    "Jaxopt.Tree.C47_inf_norm",
    "Jaxopt.Tree.C47_broadcast_partial",
    "Jaxopt.Tree.C47_broadcast_leaves",
    "Jaxopt.Tree.C47_broadcast_raises",
    "Jaxopt.Tree.C47_empty_false",
    "Jaxopt.Tree.C47_broadcast_empty_false"
   ],
   "note": "All structures and shapes; reductions raise on trees without leaves and broadcasting a leaf to a structure without leaves raises (the _false theorems). Real leaves of equal shape (no NumPy broadcasting)."
  },
  {
   "property": "C48",
   "status": "proved",
   "theorems": [
    "Jaxopt.Perturb.C48_subgradient",
    "Jaxopt.Perturb.C48_convex",
    "Jaxopt.Perturb.C48_jvp",
    "Jaxopt.Perturb.C48_hull",
    "Jaxopt.Perturb.C48_max"
   ],
   "note": "Every feasible set, argmax oracle and finite family of noise samples."
  },
  {
   "property": "C49",
   "status": "proved",
   "theorems": [
    "Jaxopt.Perturb.C49_fenchel_young",
    "Jaxopt.Perturb.C49_regularised",
    "Jaxopt.Perturb.C49_fenchel_young_gradient",
    "Jaxopt.Loss.C49_binary_sparsemax",
    "Jaxopt.Loss.C49_sparse_plus",
    "Jaxopt.Loss.C49_multiclass_sparsemax"
   ],
   "note": ""
  },
  {
   "property": "C50",
   "status": "partial",
   "theorems": [
    "Jaxopt.Loss.C50_huber_nonneg",
    "Jaxopt.Loss.C50_huber_lipschitz",
    "Jaxopt.Loss.C50_huber_smooth",
    "Jaxopt.Loss.C50_binary_logistic",
    "Jaxopt.Loss.C50_multiclass_logistic_partial",
    "Jaxopt.Loss.C50_single_class_false",
    "Jaxopt.Loss.C50_binary_margin",
    "Jaxopt.Loss.C50_multiclass_margin"
   ],
   "note": "All clauses proved, except that with a single class the multiclass logistic loss is zero, not strictly positive (C50_single_class_false)."
  },
  {
   "property": "C51",
   "status": "proved",
   "theorems": [
    "Jaxopt.Base.LinearOperator.C51_update_matvec",
    "Jaxopt.Base.LinearOperator.C51_update_rmatvec",
    "Jaxopt.Base.LinearOperator.C51_update_matmat",
    "Jaxopt.Base.LinearOperator.C51_elements",
    "Jaxopt.Base.LinearOperator.C51_adjoint"
   ],
   "note": ""
  },
  {
   "property": "C52",
   "status": "proved",
   "theorems": [
    "Jaxopt.Mirror.C52_feasible",
    "Jaxopt.Mirror.C52_run",
    "Jaxopt.Mirror.C52_projection",
    "Jaxopt.Mirror.C52_three_point",
    "Jaxopt.Mirror.C52_three_point_le",
    "Jaxopt.Mirror.C52_regret",
    "Jaxopt.Mirror.C52_fixed_point",
    "Jaxopt.Mirror.C52_optimality",
    "Jaxopt.Mirror.C52_minimises",
    "Jaxopt.Mirror.C52_state"
   ],
   "note": "Positivity and mass after at least one update, for every start, gradient function and stepsize schedule; fixed points for every non-zero stepsize."
  },
  {
   "property": "C53",
   "status": "proved",
   "theorems": [
    "Jaxopt.LineSearch.C53_init_stepsize",
    "Jaxopt.LineSearch.C53_positive"
   ],
   "note": ""
  },
  {
   "property": "C54",
   "status": "proved",
   "theorems": [
    "Jaxopt.ProxGrad.C54_feasible",
    "Jaxopt.ProxGrad.C54_run_feasible",
    "Jaxopt.ProxGrad.C54_stationary",
    "Jaxopt.ProxGrad.C54_minimiser"
   ],
   "note": ""
  },
  {
   "property": "C55",
   "status": "partial",
   "theorems": [
    "Jaxopt.Scipy.C55_separate_partial",
    "Jaxopt.Scipy.C55_same_dict_false"
   ],
   "note": "False of the code: the options dict is mutated, so the second construction with the same dict always raises. Proved: every sequence of constructions with distinct dicts or None."
  },
  {
   "property": "C56",
   "status": "partial",
   "theorems": [
    "Jaxopt.Scipy.C56_no_aux_partial",
    "Jaxopt.Scipy.C56_has_aux_false"
   ],
   "note": "False of the code: with has_aux=True the closure calls itself and never returns. Proved for has_aux=False."
  },
  {
   "property": "C57",
   "status": "partial",
   "theorems": [
    "Jaxopt.Scipy.C57_cost_partial",
    "Jaxopt.Scipy.C57_huber_false"
   ],
   "note": "False for the Huber loss at scaled residuals below -1; proved for all other losses and residuals."
  },
  {
   "property": "C58",
   "status": "partial",
   "theorems": [
    "Jaxopt.Transport.C58_semi_dual_minimiser",
    "Jaxopt.Transport.C58_semi_dual_partial",
    "Jaxopt.Transport.C58_projection_transport_partial",
    "Jaxopt.Transport.C58_semi_dual_gradient",
    "Jaxopt.Transport.C58_semi_dual_stationary_partial",
    "Jaxopt.Transport.C58_dual_minimiser",
    "Jaxopt.Transport.C58_dual",
    "Jaxopt.Transport.C58_dual_gradient",
    "Jaxopt.Transport.C58_dual_stationary",
    "Jaxopt.Transport.C58_formulations_agree",
    "Jaxopt.Transport.C58_birkhoff",
    "Jaxopt.Transport.C58_birkhoff_dual",
    "Jaxopt.Transport.C140_l2"
   ],
   "note": "Dual formulation: all data. Semi-dual formulation: strictly positive marginals_b; a zero entry makes that column NaN in IEEE arithmetic (C140_l2)."
  },
  {
   "property": "C59",
   "status": "proved",
   "theorems": [
    "Jaxopt.Transport.C59_semi_dual_gradient",
    "Jaxopt.Transport.C59_semi_dual",
    "Jaxopt.Transport.C59_dual_gradient",
    "Jaxopt.Transport.C59_dual",
    "Jaxopt.Transport.C59_kl_projection_transport"
   ],
   "note": "Strictly positive marginals_b in the semi-dual formulation (as the statement says)."
  },
  {
   "property": "C60",
   "status": "proved",
   "theorems": [
    "Jaxopt.LineSearch.C60_cubic_critical",
    "Jaxopt.LineSearch.C60_cubic_none",
    "Jaxopt.LineSearch.C60_quad",
    "Jaxopt.LineSearch.C60_quad_minimiser"
   ],
   "note": "Division by zero and the square root of a negative number give no result (the code's NaN)."
  },
  {
   "property": "C61",
   "status": "partial",
   "theorems": [
    "Jaxopt.LinSolve.C61_lu",
    "Jaxopt.LinSolve.C61_lu_matrix",
    "Jaxopt.LinSolve.C61_inv",
    "Jaxopt.LinSolve.C61_scalar",
    "Jaxopt.LinSolve.C61_qr",
    "Jaxopt.LinSolve.C61_cholesky",
    "Jaxopt.LinSolve.C61_cg",
    "Jaxopt.LinSolve.C61_normal_cg",
    "Jaxopt.LinSolve.C61_cholesky_matrix_false"
   ],
   "note": "All clauses proved except solve_cholesky on a matrix right-hand side, which always raises (the materialised 4-d array is not reshaped)."
  },
  {
   "property": "C62",
   "status": "proved",
   "theorems": [
    "Jaxopt.LinSolve.C62_dense",
    "Jaxopt.LinSolve.C62_functional"
   ],
   "note": ""
  },
  {
   "property": "C63",
   "status": "proved",
   "theorems": [
    "Jaxopt.Proj.C63_simplex",
    "Jaxopt.Proj.C63_sparse_simplex"
   ],
   "note": "Exact top_k (use_approx_max_nz=False)."
  },
  {
   "property": "C64",
   "status": "proved",
   "theorems": [
    "Jaxopt.Isotonic.C64_blocks",
    "Jaxopt.Isotonic.C64_derivative"
   ],
   "note": ""
  },
  {
   "property": "C65",
   "status": "proved",
   "theorems": [
    "Jaxopt.Perturb.C65_normal",
    "Jaxopt.Perturb.C65_gumbel",
    "Jaxopt.Perturb.C65_law"
   ],
   "note": "Law of the samples: independent entries with density proportional to exp(log_prob)."
  },
  {
   "property": "C66",
   "status": "partial",
   "theorems": [
    "Jaxopt.Perturb.C66_shape_partial",
    "Jaxopt.Perturb.C66_control_variate_false"
   ],
   "note": "The plain JVP returns the output shape without its axes of size one; with control variate it raises for vector outputs of length >= 2 (negation proved)."
  },
  {
   "property": "C67",
   "status": "proved",
   "theorems": [
    "Jaxopt.BlockCD.C67_binary_constants",
    "Jaxopt.BlockCD.C67_multiclass_constants",
    "Jaxopt.BlockCD.C67_binary_tight",
    "Jaxopt.BlockCD.C67_multiclass_tight",
    "Jaxopt.BlockCD.C67_binary_gradient",
    "Jaxopt.BlockCD.C67_multiclass_gradient",
    "Jaxopt.BlockCD.C67_binary_convex",
    "Jaxopt.BlockCD.C67_multiclass_convex",
    "Jaxopt.BlockCD.C67_binary_descends",
    "Jaxopt.BlockCD.C67_multiclass_descends",
    "Jaxopt.BlockCD.C67_multiclass_stop",
    "Jaxopt.BlockCD.C67_binary_stop",
    "Jaxopt.BlockCD.C67_values",
    "Jaxopt.BlockCD.C67_binary_value",
    "Jaxopt.BlockCD.C67_intercept",
    "Jaxopt.BlockCD.C67_l2_strong",
    "Jaxopt.BlockCD.C67_l2_unique",
    "Jaxopt.BlockCD.C67_l2_intercept_unique",
    "Jaxopt.BlockCD.C67_intercept_shift",
    "Jaxopt.BlockCD.C67_ridge",
    "Jaxopt.BlockCD.C67_ridge_unique"
   ],
   "note": ""
  },
  {
   "property": "C68",
   "status": "partial",
   "theorems": [
    "Jaxopt.BlockCD.C68_prox_gradient",
    "Jaxopt.BlockCD.C68_block_cd",
    "Jaxopt.BlockCD.C68_block_error",
    "Jaxopt.BlockCD.C68_l2_error",
    "Jaxopt.QuasiNewton.C68_bounded",
    "Jaxopt.QuasiNewton.C68_bounded_feasible",
    "Jaxopt.QuasiNewton.C68_bounded_minimiser",
    "Jaxopt.QuasiNewton.C68_scipy_bounded_partial",
    "Jaxopt.QuasiNewton.C68_scipy_bounds_none_false"
   ],
   "note": "The bounded SciPy wrappers accept bounds=None in run, but their optimality_fun then raises (negation proved); everything else holds as stated."
  },
  {
   "property": "C69",
   "status": "proved",
   "theorems": [
    "Jaxopt.Scipy.C69_objective",
    "Jaxopt.Scipy.C69_gradient",
    "Jaxopt.Scipy.C69_callback",
    "Jaxopt.Scipy.C69_result",
    "Jaxopt.Scipy.C69_minimize",
    "Jaxopt.Scipy.C69_minimize_complete",
    "Jaxopt.Scipy.C69_stationary",
    "Jaxopt.Scipy.C69_hess_inv_raises",
    "Jaxopt.Scipy.C69_root_fun",
    "Jaxopt.Scipy.C69_root",
    "Jaxopt.Scipy.C69_root_complete",
    "Jaxopt.Scipy.C69_ls_fun",
    "Jaxopt.Scipy.C69_least_squares"
   ],
   "note": "SciPy routines are parameters; dtypes and casting are not modelled.  A result whose hess_inv is of a third type raises (C69_hess_inv_raises)."
  },
  {
   "property": "C70",
   "status": "partial",
   "theorems": [
    "Jaxopt.QP.Cvxpy.C70_check",
    "Jaxopt.QP.Cvxpy.C70_shape_raises",
    "Jaxopt.QP.Cvxpy.C70_problem",
    "Jaxopt.QP.Cvxpy.C70_solution",
    "Jaxopt.QP.Cvxpy.C70_certificate",
    "Jaxopt.QP.Cvxpy.C70_status_raises",
    "Jaxopt.QP.Cvxpy.C70_status_false"
   ],
   "note": "All clauses proved, except that only the statuses 'infeasible' and 'unbounded' raise: with 'infeasible_inaccurate' (and similar) run returns a result without a point (negation proved)."
  },
  {
   "property": "C71",
   "status": "partial",
   "theorems": [
    "Jaxopt.QP.Fun.C71_recover",
    "Jaxopt.QP.Fun.C71_objective",
    "Jaxopt.QP.Fun.C71_init_required",
    "Jaxopt.QP.Fun.C71_eq_qp",
    "Jaxopt.QP.Fun.C71_box",
    "Jaxopt.QP.Fun.C71_box_objective",
    "Jaxopt.QP.Fun.C71_box_optimality_raises",
    "Jaxopt.QP.Fun.C71_box_optimality_false",
    "Jaxopt.QP.Fun.C71_pytree_raises",
    "Jaxopt.QP.Fun.C71_array"
   ],
   "note": "Recovery proved for every quadratic function. False parts proved as negations: the optimality function of BoxOSQP/OSQP calls fun on the pair (x, z), so implicit differentiation raises; EqualityConstrainedQP with fun raises on parameters that are not a single array."
  },
  {
   "property": "C72",
   "status": "partial",
   "theorems": [
    "Jaxopt.SGD.Optax.C72_run",
    "Jaxopt.SGD.Optax.C72_returns",
    "Jaxopt.SGD.Optax.C72_maxiter_zero",
    "Jaxopt.SGD.Optax.C72_pre_update",
    "Jaxopt.SGD.Optax.C72_pre_update_state",
    "Jaxopt.SGD.Optax.C72_optimality",
    "Jaxopt.SGD.Optax.C72_sgd",
    "Jaxopt.SGD.Optax.C72_error_false"
   ],
   "note": "All clauses proved, except that the error is the gradient norm before the last step (negation proved)."
  },
  {
   "property": "C73",
   "status": "partial",
   "theorems": [
    "Jaxopt.QP.C73_affine",
    "Jaxopt.QP.C73_polyhedron_partial",
    "Jaxopt.QP.C73_polyhedron_exact",
    "Jaxopt.QP.C73_nonempty_false",
    "Jaxopt.QP.C73_origin_false"
   ],
   "note": "Affine sets proved. Polyhedra: proved for runs that report SOLVED; projection_polyhedron raises 'The polyhedron is empty.' for points well inside a non-empty polyhedron (negation proved)."
  },
  {
   "property": "C74",
   "status": "proved",
   "theorems": [
    "Jaxopt.QuasiNewton.Lbfgs.C74_lbfgs_state",
    "Jaxopt.QuasiNewton.Lbfgs.C74_lbfgs_run",
    "Jaxopt.QuasiNewton.Bfgs.C74_bfgs_state",
    "Jaxopt.QuasiNewton.Bfgs.C74_bfgs_run",
    "Jaxopt.QuasiNewton.Broyden.C74_broyden_state",
    "Jaxopt.QuasiNewton.Broyden.C74_broyden_step",
    "Jaxopt.QuasiNewton.Broyden.C74_broyden_transpose",
    "Jaxopt.QuasiNewton.Broyden.C74_broyden_run",
    "Jaxopt.QuasiNewton.Lbfgsb.C74_lbfgsb_state",
    "Jaxopt.QuasiNewton.Lbfgsb.C74_lbfgsb_run",
    "Jaxopt.QuasiNewton.NCG.C74_ncg_run",
    "Jaxopt.QuasiNewton.C74_ncg_method"
   ],
   "note": "The line search is a parameter that returns the value and gradient at its point; a maxiter of at least 1 is assumed."
  },
  {
   "property": "C75",
   "status": "partial",
   "theorems": [
    "Jaxopt.QuasiNewton.Lbfgsb.C75_invertible",
    "Jaxopt.QuasiNewton.Lbfgsb.C75_compact",
    "Jaxopt.QuasiNewton.Lbfgsb.C75_history",
    "Jaxopt.QuasiNewton.Lbfgsb.C75_run",
    "Jaxopt.QuasiNewton.Lbfgsb.C75_secant_partial",
    "Jaxopt.QuasiNewton.Lbfgsb.C75_defined",
    "Jaxopt.QuasiNewton.Lbfgsb.C75_total",
    "Jaxopt.QuasiNewton.Lbfgsb.C75_wrap_false"
   ],
   "note": "All clauses proved, except chronological order: the buffer is used in buffer order, so after it has wrapped around (more pairs than history_size, not a multiple of it) the secant equation for the newest pair fails (negation proved); until then and at multiples of history_size it holds. Exact inverse assumed."
  },
  {
   "property": "C76",
   "status": "partial",
   "theorems": [
    "Jaxopt.QuasiNewton.C76_cauchy_partial",
    "Jaxopt.QuasiNewton.C76_cauchy_minimiser_partial",
    "Jaxopt.QuasiNewton.C76_subspace",
    "Jaxopt.QuasiNewton.C76_step_length",
    "Jaxopt.QuasiNewton.C76_truncation",
    "Jaxopt.QuasiNewton.C76_descent_partial",
    "Jaxopt.QuasiNewton.Lbfgsb.C76_run_partial",
    "Jaxopt.QuasiNewton.C76_ties_false",
    "Jaxopt.QuasiNewton.C76_ties_order_false"
   ],
   "note": "Subspace minimisation and step length proved in general. Cauchy point and descent proved for gradient entries that are 0 or at least machine epsilon and no breakpoint in (0, eps]; local minimality needs different breakpoints: with equal ones the loop can stop early and the result depends on the order of the ties (negations proved)."
  },
  {
   "property": "C77",
   "status": "partial",
   "theorems": [
    "Jaxopt.ProxGrad.PG.C77_gd_prox",
    "Jaxopt.ProxGrad.PG.C77_gd_step",
    "Jaxopt.ProxGrad.PG.C77_gd_linesearch",
    "Jaxopt.ProxGrad.PG.C77_gd_gradient",
    "Jaxopt.ProxGrad.PG.C77_rate",
    "Jaxopt.ProxGrad.PG.C77_linear",
    "Jaxopt.ProxGrad.PG.C77_error_false"
   ],
   "note": "All clauses proved for constant and scheduled stepsizes. With line search the error divides by the stepsize of the next iteration: it is decrease_factor times the gradient norm, and when the step is at most 1e-6 that stepsize is reset to 1, so that a run can stop by the tolerance at a large gradient (witness)."
  },
  {
   "property": "C78",
   "status": "proved",
   "theorems": [
    "Jaxopt.OSQP.BoxOSQP.C78_step",
    "Jaxopt.OSQP.BoxOSQP.C78_residual",
    "Jaxopt.OSQP.BoxOSQP.C78_run",
    "Jaxopt.OSQP.BoxOSQP.C78_no_nan",
    "Jaxopt.OSQP.BoxOSQP.C78_converges"
   ],
   "note": "Proved for exact arithmetic, exactly solved linear systems and a constant stepsize."
  },
  {
   "property": "C79",
   "status": "partial",
   "theorems": [
    "Jaxopt.LeastSquares.C79_step",
    "Jaxopt.LeastSquares.C79_third_order",
    "Jaxopt.LeastSquares.C79_decrease_partial",
    "Jaxopt.LeastSquares.C79_config_partial",
    "Jaxopt.LeastSquares.C79_increase_false",
    "Jaxopt.LeastSquares.C79_reject_false",
    "Jaxopt.LeastSquares.C79_warm_start_false",
    "Jaxopt.LeastSquares.C79_jac_fun_false"
   ],
   "note": "Step and configuration without jac_fun proved; decrease proved where the denominator of the gain ratio is positive. Negations proved for the acceptance test, the warm start and jac_fun."
  },
  {
   "property": "C80",
   "status": "partial",
   "theorems": [
    "Jaxopt.SGD.C80_armijo_partial",
    "Jaxopt.SGD.C80_polyak",
    "Jaxopt.SGD.C80_default_diverges_false"
   ],
   "note": "PolyakSGD proved. ArmijoSGD proved for aggressiveness < 1/2, reset options other than goldstein and maxls large enough; with the default aggressiveness 0.9 the claim is false (divergence proved for all n)."
  },
  {
   "property": "C81",
   "status": "proved",
   "theorems": [
    "Jaxopt.QuasiNewton.NCG.C81_conjugate",
    "Jaxopt.QuasiNewton.NCG.C81_methods_agree",
    "Jaxopt.QuasiNewton.NCG.C81_terminates",
    "Jaxopt.QuasiNewton.NCG.C81_run",
    "Jaxopt.QuasiNewton.C81_small_gradients_false"
   ],
   "note": "Exact arithmetic and an exact line search along the direction. The restriction to squared gradient norms of at least 1e-6 is necessary (negation without it proved)."
  },
  {
   "property": "C82",
   "status": "partial",
   "theorems": [
    "Jaxopt.QuasiNewton.C82_decrease",
    "Jaxopt.QuasiNewton.C82_zoutendijk",
    "Jaxopt.QuasiNewton.C82_fletcher_reeves",
    "Jaxopt.QuasiNewton.C82_default_ascent_false"
   ],
   "note": "Zoutendijk's bound and global convergence of Fletcher-Reeves for c2 < 1/2 proved. The last clause is false of the code: the line searches use c2 = 0.9, and with all default options an ascent direction occurs (witness with the modelled zoom line search)."
  },
  {
   "property": "C83",
   "status": "proved",
   "theorems": [
    "Jaxopt.QuasiNewton.Lbfgs.C83_direction",
    "Jaxopt.QuasiNewton.Lbfgs.C83_linear"
   ],
   "note": "Exact real arithmetic on a real Hilbert space; the Wolfe conditions are the hypothesis on the line search, along the descent directions of the run and while the gradient is nonzero."
  },
  {
   "property": "C84",
   "status": "partial",
   "theorems": [
    "Jaxopt.LineSearch.C84_succeeds",
    "Jaxopt.LineSearch.C84_bounded",
    "Jaxopt.LineSearch.C84_default_fails_false"
   ],
   "note": "Proved for convex smooth objectives, and for all smooth objectives when 1 - 2 c1 <= c2. With the default constants and no convexity the claim is false (a run that fails whatever maxiter is)."
  },
  {
   "property": "C85",
   "status": "partial",
   "theorems": [
    "Jaxopt.Mirror.C85_smooth",
    "Jaxopt.Mirror.C85_run",
    "Jaxopt.Mirror.C85_nonsmooth",
    "Jaxopt.Mirror.C85_uniform",
    "Jaxopt.Mirror.C85_error_false"
   ],
   "note": "The rates are proved. The clause about the error is false of the code: for every tolerance there is a start from which the run stops after one update with a large gap."
  },
  {
   "property": "C86",
   "status": "proved",
   "theorems": [
    "Jaxopt.FixedPoint.Anderson.C86_extrapolation",
    "Jaxopt.FixedPoint.Anderson.C86_rate",
    "Jaxopt.FixedPoint.Anderson.C86_run"
   ],
   "note": "Exact real arithmetic, an exact linear solver and a positive ridge (the default)."
  },
  {
   "property": "C87",
   "status": "proved",
   "theorems": [
    "Jaxopt.QuasiNewton.Bfgs.C87_angles",
    "Jaxopt.QuasiNewton.Bfgs.C87_linear",
    "Jaxopt.QuasiNewton.Bfgs.C87_stationary"
   ],
   "note": "Exact real arithmetic; the Wolfe conditions are the hypothesis on the line search, along the descent directions of the run and while the gradient is nonzero; a stationary point is assumed to exist."
  },
  {
   "property": "C88",
   "status": "partial",
   "theorems": [
    "Jaxopt.OSQP.LinSolver.C88_lu",
    "Jaxopt.OSQP.LinSolver.C88_agree",
    "Jaxopt.OSQP.LinSolver.C88_jacobi",
    "Jaxopt.OSQP.LinSolver.C88_jacobi_container_false"
   ],
   "note": "Exact routines are hypotheses. The clause about the preconditioner holds for a single array only: on a container `tree_add(diag_precond, sigma)` raises."
  },
  {
   "property": "C89",
   "status": "proved",
   "theorems": [
    "Jaxopt.QuasiNewton.Lbfgs.C89_lbfgs_linear",
    "Jaxopt.QuasiNewton.Lbfgs.C89_lbfgs_run",
    "Jaxopt.QuasiNewton.Bfgs.C89_bfgs_quality",
    "Jaxopt.QuasiNewton.Bfgs.C89_bfgs_linear",
    "Jaxopt.QuasiNewton.Bfgs.C89_bfgs_backtracking",
    "Jaxopt.QuasiNewton.Bfgs.C89_bfgs_run"
   ],
   "note": "Exact real arithmetic; Armijo condition with tol 0 (the default condition of the string 'backtracking' is strong-wolfe, covered by C83 and C87 when it succeeds). For BFGS the success of the line searches is a hypothesis and the initial stepsizes are bounded below."
  },
  {
   "property": "C90",
   "status": "partial",
   "theorems": [
    "Jaxopt.LineSearch.C90_accepts",
    "Jaxopt.LineSearch.C90_backtracking",
    "Jaxopt.LineSearch.C90_zoom",
    "Jaxopt.LineSearch.C90_hager_zhang_bound_false",
    "Jaxopt.LineSearch.C90_zoom_zero_false"
   ],
   "note": "The bound max_stepsize is proved for 'backtracking' and 'zoom' with a positive bound; it is false for 'hager-zhang' (the bound is not passed; the reported step can also differ from the step taken) and for 'zoom' with max_stepsize = 0 (replaced by 2**maxls)."
  },
  {
   "property": "C91",
   "status": "partial",
   "theorems": [
    "Jaxopt.LeastSquares.C91_liminf_partial",
    "Jaxopt.LeastSquares.C91_run_partial",
    "Jaxopt.LeastSquares.C91_zero_residual_partial",
    "Jaxopt.LeastSquares.C91_cap_false"
   ],
   "note": "Proved for smoothness constants of at most damping_factor_max = 2**32 (no geodesic acceleration, exact solves). Above it the claim is false of the code: a run that rejects every step for ever at a point that is not stationary."
  },
  {
   "property": "C92",
   "status": "proved",
   "theorems": [
    "Jaxopt.LeastSquares.C92_step",
    "Jaxopt.LeastSquares.C92_linear",
    "Jaxopt.LeastSquares.C92_quadratic",
    "Jaxopt.LeastSquares.C92_run",
    "Jaxopt.LeastSquares.C92_sharp"
   ],
   "note": "Exact inner solve. C92_sharp shows that the condition on the residual cannot be dropped."
  },
  {
   "property": "C93",
   "status": "partial",
   "theorems": [
    "Jaxopt.Implicit.C93_construct",
    "Jaxopt.Implicit.C93_user",
    "Jaxopt.Implicit.C93_hyper",
    "Jaxopt.Implicit.C93_opaque",
    "Jaxopt.Implicit.C93_opaque_bounded",
    "Jaxopt.Implicit.C93_named",
    "Jaxopt.Implicit.C93_named_names",
    "Jaxopt.Implicit.C93_box_cd",
    "Jaxopt.Implicit.C93_routing",
    "Jaxopt.Implicit.C93_wrapper",
    "Jaxopt.Implicit.C93_wrapper_run",
    "Jaxopt.Implicit.C93_solve",
    "Jaxopt.Implicit.C93_keyword_false",
    "Jaxopt.Implicit.C93_wrapper_false",
    "Jaxopt.Implicit.C93_construct_false"
   ],
   "note": "True for the classes with a reference signature and for those with named parameters. False of GaussNewton, LevenbergMarquardt, ScipyMinimize, ScipyLeastSquares and their bounded versions (any keyword raises in the backward pass), of AndersonWrapper around a class without the attribute (AttributeError) and of the linear solver of ProjectedGradient (ignored)."
  },
  {
   "property": "C94",
   "status": "proved",
   "theorems": [
    "Jaxopt.QP.BoxCDQP.C94_sufficient_decrease",
    "Jaxopt.QP.BoxCDQP.C94_certificate",
    "Jaxopt.QP.BoxCDQP.C94_terminates",
    "Jaxopt.QP.BoxCDQP.C94_epsilon",
    "Jaxopt.QP.BoxCDQP.C94_linear_rate",
    "Jaxopt.QP.C94_diagonal_false"
   ],
   "note": "Needs a positive diagonal, as the statement says; C94_diagonal_false gives the failure for every tolerance and every iteration limit without it."
  },
  {
   "property": "C95",
   "status": "partial",
   "theorems": [
    "Jaxopt.BlockCD.BCD.C95_sufficient_decrease",
    "Jaxopt.BlockCD.BCD.C95_terminates",
    "Jaxopt.BlockCD.BCD.C95_certificate",
    "Jaxopt.BlockCD.BCD.C95_least_squares",
    "Jaxopt.BlockCD.C95_svm_false",
    "Jaxopt.BlockCD.C95_lower_bound_false"
   ],
   "note": "Proved whenever the declared constants bound the growth along blocks, in particular for every least squares problem without zero columns. False for the SVM dual with a small l2reg (C95_svm_false: a run never stops), and the comment on the lower bound is false (C95_lower_bound_false)."
  },
  {
   "property": "C96",
   "status": "partial",
   "theorems": [
    "Jaxopt.LineSearch.C96_update_ends",
    "Jaxopt.LineSearch.HZ.C96_bracket_ends",
    "Jaxopt.LineSearch.HZ.C96_succeeds",
    "Jaxopt.LineSearch.HZ.C96_convex",
    "Jaxopt.LineSearch.HZ.C96_never_ends",
    "Jaxopt.LineSearch.HZ.C96_logistic_false",
    "Jaxopt.LineSearch.HZ.C96_failure_reported_false"
   ],
   "note": "The interval update always ends. The bracketing loop ends exactly when some probe has an upward slope or a value above the threshold; then the search succeeds without convexity. The claim is false when no probe does (C96_logistic_false: the logistic loss of one sample), and the failure flag can be raised together with an accepted step when the objective is NaN at an infinite secant step (C96_failure_reported_false)."
  },
  {
   "property": "C97",
   "status": "partial",
   "theorems": [
    "Jaxopt.QuasiNewton.Lbfgs.C97_no_failure",
    "Jaxopt.QuasiNewton.Lbfgs.C97_quadratic_linear",
    "Jaxopt.QuasiNewton.Lbfgs.C97_quadratic_run",
    "Jaxopt.QuasiNewton.Lbfgs.C97_cycle_false"
   ],
   "note": "No line search fails on any smooth strongly convex objective, and on strongly convex quadratics the run converges linearly. Linear convergence on all smooth strongly convex objectives is false of the code: for every history size there is one on which the run with max_stepsize=3 goes around a polygon forever, because the approximate decrease condition accepts steps that do not decrease the objective."
  },
  {
   "property": "C98",
   "status": "partial",
   "theorems": [
    "Jaxopt.ProxGrad.PG.C98_step_lower",
    "Jaxopt.ProxGrad.PG.C98_succeeds_first",
    "Jaxopt.ProxGrad.PG.C98_plain_rate",
    "Jaxopt.ProxGrad.PG.C98_linear",
    "Jaxopt.ProxGrad.PG.C98_accel_rate",
    "Jaxopt.ProxGrad.PG.C98_steep_diverges",
    "Jaxopt.ProxGrad.PG.C98_steep_run",
    "Jaxopt.ProxGrad.PG.C98_default_false",
    "Jaxopt.ProxGrad.PG.C98_monotone_false"
   ],
   "note": "Step bounds and rates are proved for iterations whose line searches succeed (the accelerated rate also needs steps that do not increase), and success and a linear rate unconditionally for exact values when L <= decrease_factor^-maxls and L/mu <= decrease_factor^(1-maxls). Beyond that the claim is false: with the defaults the run diverges on L/2 x^2 for L near a million (C98_default_false, with and without acceleration), and even for L = 1 an iteration can raise the objective (C98_monotone_false)."
  },
  {
   "property": "C99",
   "status": "partial",
   "theorems": [
    "Jaxopt.OSQP.BoxOSQP.C99_change",
    "Jaxopt.OSQP.BoxOSQP.C99_bounded_variation_partial",
    "Jaxopt.OSQP.BoxOSQP.C99_few_updates_partial",
    "Jaxopt.OSQP.BoxOSQP.C99_single_update",
    "Jaxopt.OSQP.Cycle.C99_default_false",
    "Jaxopt.OSQP.Cycle.C99_constant"
   ],
   "note": "Proved when the product of the factors of all stepsize changes stays bounded (a single update, or few updates relative to maxiter); the stepsize becoming NaN is excluded only when c is not 0 and 0 violates the bounds. For the adaptive stepsize in general the claim is false: with all default attributes a run on a two-variable linear program is periodic and never solved (C99_default_false), while the same program is solved with a constant stepsize (C99_constant)."
  }
 ]
}