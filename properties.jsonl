{"id": "C01", "title": "Loop back-ends agree", "statement": "The result of a solver's bounded while loop does not depend on whether it is executed by lax.scan (jit+unroll), by a Python loop (no jit, unroll) or by lax.while_loop (jit, no unroll): all three return body applied k times to the initial value, where k is the smallest number of applications after which the condition is false, capped by maxiter. Asking for no unroll and no jit is rejected with ValueError.", "quantifier": "every condition, body, initial value, and every non-negative iteration bound", "why_tests_cant": "the equality ranges over arbitrary user callables and unbounded iteration counts", "anchors": ["jaxopt/_src/loop.py:_while_loop_scan", "jaxopt/_src/loop.py:_while_loop_python", "jaxopt/_src/loop.py:_while_loop_lax", "jaxopt/_src/loop.py:while_loop"]}
{"id": "C02", "title": "Contract of IterativeSolver.run", "statement": "run performs between 1 and maxiter updates (0 when maxiter=0), returns exactly the iterate obtained by that many consecutive update calls from init_state, never performs another update after the first one whose state does not satisfy error > tol, and if fewer than maxiter updates were made then the returned state does not satisfy error > tol. With maxiter=0 the initial params are returned unchanged, and each state field is the initial one except fields that are None initially, which leak the value of the first update.", "quantifier": "every solver (init_state/update pair), tolerance, maxiter, initial params; error values include NaN and infinity", "why_tests_cant": "quantifies over all solvers, all histories of updates and all stopping times", "anchors": ["jaxopt/_src/base.py:IterativeSolver._run", "jaxopt/_src/base.py:_where", "jaxopt/_src/base.py:IterativeSolver._cond_fun"]}
{"id": "C03", "title": "run_iterator consumes each batch exactly once, in order", "statement": "run_iterator draws one batch only to initialise the state and then performs one update per following batch, in order, at most maxiter of them: the result is the left fold of update over batches 2..maxiter+1 of the stream. Batch 1 is never used for an update, and stopping tolerance is ignored. An empty iterator raises.", "quantifier": "every data stream (finite or longer than maxiter), update function and maxiter", "why_tests_cant": "all stream lengths and all update functions, including stateful ones", "anchors": ["jaxopt/_src/base.py:StochasticSolver.run_iterator"]}
{"id": "C04", "title": "Uniform (value, grad, aux) interface", "statement": "For each of the ways a user can supply an objective (plain value function, value_and_grad=True, value_and_grad a separate callable; each with or without aux) the functions used internally return the value, gradient and aux the user function denotes, with aux=None exactly when has_aux is False; the with-aux and without-aux variants agree on value and gradient.", "quantifier": "all user functions and all combinations of value_and_grad and has_aux", "why_tests_cant": "range over arbitrary callables", "anchors": ["jaxopt/_src/base.py:_make_funs_with_aux", "jaxopt/_src/base.py:_make_funs_without_aux"]}
{"id": "C05", "title": "Bisection keeps a bracket and halves it", "statement": "With a valid bracket, after k updates the interval [low, high] is contained in [lower, upper], has length (upper-lower)/2^k, still has the sign change across it (so for continuous functions contains a root), the returned point lies in [lower, upper] and is within (upper-lower)/2^k of a root; error is |f(params)| and num_fun_eval is k+2.", "quantifier": "every continuous function, every valid bracket, every number of iterations", "why_tests_cant": "continuum of functions and unbounded iteration counts", "anchors": ["jaxopt/_src/bisection.py:Bisection.init_state", "jaxopt/_src/bisection.py:Bisection.update"]}
{"id": "C06", "title": "Bisection accepts exactly the brackets that contain a sign change", "statement": "With check_bracket=True init_state raises iff the endpoint values do not have opposite signs; in particular a bracket one of whose endpoints is an exact root is accepted.", "quantifier": "every function and every pair of endpoints", "why_tests_cant": "every real endpoint value", "anchors": ["jaxopt/_src/bisection.py:Bisection.init_state"]}
{"id": "C07", "title": "Coordinate-wise projections are Euclidean projections", "statement": "projection_non_negative, projection_box, projection_hypercube and projection_linf_ball return a feasible point, and no feasible point is strictly closer to the input (for box/hypercube when lower<=upper, l-inf ball when value>=0); the minimiser is unique.", "quantifier": "every input vector of every size and every admissible hyperparameter", "why_tests_cant": "continuous inputs, arbitrary dimension", "anchors": ["jaxopt/_src/projection.py:projection_non_negative", "jaxopt/_src/projection.py:projection_box", "jaxopt/_src/projection.py:projection_hypercube", "jaxopt/_src/projection.py:projection_linf_ball"]}
{"id": "C08", "title": "projection_simplex is the Euclidean projection on the simplex", "statement": "For value > 0 the output has non-negative entries summing to value, and is the unique closest such point to the input, including inputs with ties.", "quantifier": "every non-empty input vector, every value > 0", "why_tests_cant": "the sort/threshold algorithm has exponentially many support patterns over a continuum of inputs", "anchors": ["jaxopt/_src/projection.py:_projection_unit_simplex", "jaxopt/_src/projection.py:projection_simplex"]}
{"id": "C09", "title": "projection_l1_ball and projection_l1_sphere", "statement": "projection_l1_ball returns a point of l1 norm at most value closest to the input. projection_l1_sphere returns a point of l1 norm exactly value closest to the input.", "quantifier": "every input vector and value > 0", "why_tests_cant": "continuum of inputs; the failure set of the sphere projection is the measure-zero set of inputs with too few non-zeros", "anchors": ["jaxopt/_src/projection.py:projection_l1_ball", "jaxopt/_src/projection.py:projection_l1_sphere"]}
{"id": "C10", "title": "projection_l2_ball and projection_l2_sphere", "statement": "projection_l2_ball returns the unique closest point of Euclidean norm at most value; for non-zero inputs projection_l2_sphere returns the unique closest point of norm value.", "quantifier": "every input vector and every value > 0", "why_tests_cant": "continuum of inputs, arbitrary dimension", "anchors": ["jaxopt/_src/projection.py:projection_l2_ball", "jaxopt/_src/projection.py:projection_l2_sphere"]}
{"id": "C11", "title": "projection_hyperplane and projection_halfspace", "statement": "For a non-zero normal a, projection_hyperplane(x,(a,b)) is the unique closest point with <a,y>=b, and projection_halfspace(x,(a,b)) the unique closest point with <a,y><=b.", "quantifier": "every x, every non-zero a, every b", "why_tests_cant": "continuum of inputs", "anchors": ["jaxopt/_src/projection.py:projection_hyperplane", "jaxopt/_src/projection.py:projection_halfspace"]}
{"id": "C12", "title": "projection_sparse_simplex is optimal among k-sparse simplex points", "statement": "The output lies on the scaled simplex, has at most max_nz non-zeros, and no point of the scaled simplex with at most max_nz non-zeros is closer to the input.", "quantifier": "every input vector, every max_nz >= 1, value > 0", "why_tests_cant": "combinatorially many supports; non-convex feasible set", "anchors": ["jaxopt/_src/projection.py:projection_sparse_simplex"]}
{"id": "C13", "title": "projection_box_section solves the box-constrained hyperplane projection", "statement": "For a feasible box section (alpha<=beta, w>0, w.alpha <= c <= w.beta) the returned point is, up to the bisection accuracy, the Euclidean projection onto {alpha<=y<=beta, w.y=c}: if the dual root is found exactly the output is exactly the projection.", "quantifier": "every x, alpha, beta, w, c that is feasible, including the extreme values of c", "why_tests_cant": "continuum of inputs and degenerate boundary cases", "anchors": ["jaxopt/_src/projection.py:_optimality_fun_proj_box_sec", "jaxopt/_src/projection.py:projection_box_section"]}
{"id": "C14", "title": "Soft-thresholding proximal operators", "statement": "prox_lasso, prox_non_negative_lasso and prox_elastic_net return the unique minimiser of the documented objective 0.5||x-y||^2 + scaling*g(y) (with the non-negativity constraint where documented).", "quantifier": "every input, every non-negative regularisation (per coordinate) and scaling", "why_tests_cant": "continuum of inputs", "anchors": ["jaxopt/_src/prox.py:prox_lasso", "jaxopt/_src/prox.py:prox_non_negative_lasso", "jaxopt/_src/prox.py:prox_elastic_net"]}
{"id": "C15", "title": "prox_group_lasso", "statement": "prox_group_lasso(x, l2reg, scaling) is the unique minimiser of 0.5||x-y||^2 + scaling*l2reg*||y||_2, including x=0.", "quantifier": "every input block and every non-negative l2reg*scaling", "why_tests_cant": "continuum of inputs; singular point x=0", "anchors": ["jaxopt/_src/prox.py:prox_group_lasso"]}
{"id": "C16", "title": "prox_ridge and prox_non_negative_ridge minimise their documented objective", "statement": "prox_ridge(x, l2reg, scaling) minimises 0.5||x-y||^2 + scaling*l2reg*||y||_2^2, and prox_non_negative_ridge the same over y>=0, as documented.", "quantifier": "every input, l2reg >= 0, scaling >= 0", "why_tests_cant": "the tests compare against the same formula; the claim is about the documented objective for every input", "anchors": ["jaxopt/_src/prox.py:prox_ridge", "jaxopt/_src/prox.py:prox_non_negative_ridge"]}
{"id": "C17", "title": "isotonic_l2_pav solves isotonic regression", "statement": "The result is monotone in the requested direction, within the given bounds, and no monotone in-bounds sequence has a smaller sum of squared differences from the input; it is the unique such sequence.", "quantifier": "every input sequence of every length, both directions, every pair of bounds", "why_tests_cant": "in-place pool-adjacent-violators with backtracking: unboundedly many merge histories", "anchors": ["jaxopt/_src/isotonic.py:_isotonic_l2_pav_numba", "jaxopt/_src/isotonic.py:isotonic_l2_pav"]}
{"id": "C18", "title": "Backtracking line search returns what it promises", "statement": "The returned stepsize is min(max_stepsize, init)*decrease_factor^k with k < maxiter; if the search does not report failure then the selected condition (Armijo / Wolfe / strong Wolfe / Goldstein) holds at the returned stepsize and failed at every larger tried stepsize; params, value and grad in the state are those at params + stepsize*direction; failed is reported iff no tried stepsize satisfied the condition. Exactly the four documented names of conditions are accepted.", "quantifier": "every objective, direction, initial stepsize, condition, maxiter >= 1", "why_tests_cant": "arbitrary objective functions and iteration histories, including NaN values", "anchors": ["jaxopt/_src/backtracking_linesearch.py:BacktrackingLineSearch.update", "jaxopt/_src/backtracking_linesearch.py:BacktrackingLineSearch.init_state"]}
{"id": "C19", "title": "Backtracking step sizes are bounded below for smooth functions", "statement": "If the objective has L-Lipschitz gradient and the direction is a descent direction, the Armijo backtracking search with enough iterations succeeds and the stepsize is at least min(init, decrease_factor*2(1-c1)|slope|/(L||d||^2)).", "quantifier": "every L-smooth objective, every descent direction", "why_tests_cant": "ranges over all smooth functions", "anchors": ["jaxopt/_src/backtracking_linesearch.py:BacktrackingLineSearch.update"]}
{"id": "C20", "title": "Zoom line search never returns an unsafe step", "statement": "Whenever the zoom search reports done it returns a stepsize satisfying the sufficient-decrease test and either the curvature test or being at max_stepsize; whenever it reports failure with a positive stepsize that step satisfies the sufficient-decrease test; the returned stepsize lies in [0, max_stepsize] and state.params/value/grad are evaluated at that stepsize.", "quantifier": "every objective (values may be NaN), direction, initial stepsize and iteration history", "why_tests_cant": "a stateful two-phase search over arbitrary functions", "anchors": ["jaxopt/_src/zoom_linesearch.py:ZoomLineSearch._search_interval", "jaxopt/_src/zoom_linesearch.py:ZoomLineSearch._zoom_into_interval", "jaxopt/_src/zoom_linesearch.py:ZoomLineSearch.update"]}
{"id": "C21", "title": "Hager-Zhang line search keeps a valid bracket and reports consistently", "statement": "The interval produced by the interval update is nested in the input interval and satisfies the opposite-slope conditions of the reference algorithm; the returned state's params equal params + stepsize*direction; a failure once reported is not forgotten.", "quantifier": "every objective, direction and iteration history", "why_tests_cant": "arbitrary functions and nested loops", "anchors": ["jaxopt/_src/hager_zhang_linesearch.py:HagerZhangLineSearch._update", "jaxopt/_src/hager_zhang_linesearch.py:HagerZhangLineSearch.update"]}
{"id": "C22", "title": "ArmijoSGD step sizes", "statement": "Step sizes stay in (0, max_stepsize]; with reset_option conservative they never increase; a non-exhausted line search returns a step meeting the Armijo condition; for L-smooth objectives the step never drops below min(max_stepsize, 2*decrease_factor*aggressiveness/L), and for aggressiveness > 0.5 not below min(1/L, max_stepsize). The constructor accepts exactly the three documented reset options with an aggressiveness in the open interval (0, 1).", "quantifier": "every objective, every sequence of batches, every reset option", "why_tests_cant": "all histories of batches and step sizes", "anchors": ["jaxopt/_src/armijo_sgd.py:armijo_line_search", "jaxopt/_src/armijo_sgd.py:ArmijoSGD.update", "jaxopt/_src/armijo_sgd.py:ArmijoSGD.reset_stepsize"]}
{"id": "C23", "title": "PolyakSGD step sizes and progress", "statement": "The SPS_max step never exceeds max_stepsize, the SPS+ step is non-negative and zero whenever the gradient vanishes; for convex objectives minimised at value fun_min, an update without momentum never increases the distance to any minimiser; the step is zero at a zero gradient for every variant as documented.", "quantifier": "every objective, parameter vector, gradient, delta >= 0", "why_tests_cant": "all convex functions and all points", "anchors": ["jaxopt/_src/polyak_sgd.py:PolyakSGD.update"]}
{"id": "C24", "title": "L-BFGS two-loop recursion equals the BFGS matrix product", "statement": "For any history the direction computed by inv_hessian_product is H*g where H is built by applying the BFGS inverse update to gamma*I with the stored pairs in chronological order, and the circular buffer holds exactly the last min(iter, history_size) pairs in order, whatever the number of iterations.", "quantifier": "every history content, history size >= 1 and iteration number", "why_tests_cant": "unbounded histories with wrap-around", "anchors": ["jaxopt/_src/lbfgs.py:inv_hessian_product_leaf", "jaxopt/_src/lbfgs.py:inv_hessian_product", "jaxopt/_src/lbfgs.py:update_history"]}
{"id": "C25", "title": "L-BFGS produces descent directions under positive curvature", "statement": "If every stored pair has positive curvature (or was zeroed) and gamma > 0 then the computed direction is a descent direction for every non-zero gradient, and the latest pair satisfies the secant equation H*y = s.", "quantifier": "every history meeting the curvature condition, every gradient", "why_tests_cant": "all histories", "anchors": ["jaxopt/_src/lbfgs.py:inv_hessian_product", "jaxopt/_src/lbfgs.py:LBFGS.update"]}
{"id": "C26", "title": "BFGS update keeps symmetry, positive definiteness and the secant equation", "statement": "Along any run the inverse Hessian approximation stays symmetric; each update with y.s != 0 satisfies H*y = s; if every update has y.s > 0 it stays positive definite so all search directions are descent directions; with y.s = 0 it is left unchanged.", "quantifier": "every run, every sequence of gradients and steps", "why_tests_cant": "unbounded sequences", "anchors": ["jaxopt/_src/bfgs.py:BFGS.update"]}
{"id": "C27", "title": "Broyden satisfies the secant equation", "statement": "After every update the inverse-Jacobian approximation maps the last residual difference to the last step, independently of how the parameters are split into pytree leaves and of the history size.", "quantifier": "every pytree of parameters, history size, run length", "why_tests_cant": "unbounded histories and arbitrary tree structures", "anchors": ["jaxopt/_src/broyden.py:inv_jacobian_product", "jaxopt/_src/broyden.py:Broyden.update"]}
{"id": "C28", "title": "L-BFGS-B iterates stay inside the bounds", "statement": "If the start is feasible every iterate is feasible: the Cauchy point, the subspace minimiser and the line-search point all satisfy lower <= x <= upper, for every line search.", "quantifier": "every objective, bounds, history and line search result", "why_tests_cant": "all histories and all active sets", "anchors": ["jaxopt/_src/lbfgsb.py:_find_cauchy_point", "jaxopt/_src/lbfgsb.py:_minimize_subspace", "jaxopt/_src/lbfgsb.py:LBFGSB.update"]}
{"id": "C29", "title": "Anderson acceleration bookkeeping", "statement": "At every iteration the stored Gram matrix is the Gram matrix of the stored residuals, every written history slot holds a pair (x, f(x)-x), error is the norm of the latest residual, the first history_size iterations are plain fixed-point iterations, and mixing weights returned by the linear system sum to one, so that an exact solver leaves fixed points fixed.", "quantifier": "every fixed-point map, history size, mixing frequency and iteration count", "why_tests_cant": "unbounded histories with wrap-around", "anchors": ["jaxopt/_src/anderson.py:AndersonAcceleration.update", "jaxopt/_src/anderson.py:update_history", "jaxopt/_src/anderson.py:minimize_residuals"]}
{"id": "C30", "title": "Fixed point iteration certificate", "statement": "For a map contracting with factor q<1, if run stops because error <= tol then the returned params are within q/(1-q)*tol of the unique fixed point; error after k updates is at most q^(k-1) times the first error; num_fun_eval equals the number of updates.", "quantifier": "every contraction on every complete space, tolerance, start", "why_tests_cant": "all contractions", "anchors": ["jaxopt/_src/fixed_point_iteration.py:FixedPointIteration.update"]}
{"id": "C31", "title": "Iterative refinement tracks the true residual and tolerates inexact solvers", "statement": "After each update target_residuals = b - A x and error is its norm; if the inner solver reduces the residual by a factor rho<1 the error contracts by rho per update; with an exact inner solver the returned params solve the system whatever the warm start.", "quantifier": "every linear operator, right-hand side, inner solver and warm start", "why_tests_cant": "all operators and all solver error patterns", "anchors": ["jaxopt/_src/iterative_refinement.py:IterativeRefinement.update", "jaxopt/_src/iterative_refinement.py:IterativeRefinement.init_state"]}
{"id": "C32", "title": "Proximal gradient line search guarantees descent", "statement": "When the line search ends because its condition holds, the composite objective at the new point exceeds the old one by at most eps/stepsize (never with eps = 0); with a constant stepsize at most 1/L the objective never increases along the unaccelerated method; the reported error is zero only at a fixed point of the prox-gradient map.", "quantifier": "every smooth function, every prox, every start", "why_tests_cant": "all functions", "anchors": ["jaxopt/_src/proximal_gradient.py:fista_line_search", "jaxopt/_src/proximal_gradient.py:ProximalGradient._update", "jaxopt/_src/proximal_gradient.py:ProximalGradient._update_accel"]}
{"id": "C33", "title": "Accelerated proximal gradient converges at rate 1/k^2", "statement": "For convex L-smooth fun, convex non_smooth with exact prox and constant stepsize s <= 1/L, the accelerated iterates satisfy objective(x_k) - objective(x*) <= 2||x_0-x*||^2/(s (k+1)^2).", "quantifier": "every convex problem of this class, every start and minimiser, every k", "why_tests_cant": "all convex functions and unbounded k", "anchors": ["jaxopt/_src/proximal_gradient.py:ProximalGradient._update_accel"]}
{"id": "C34", "title": "Nonlinear CG method selection and reported error", "statement": "beta is non-negative for all three formulas, the search direction after an exact line search is a descent direction, the selected method influences the iterates for every line search, and the reported error is the gradient norm at the returned params.", "quantifier": "every objective, run and method", "why_tests_cant": "all functions and histories", "anchors": ["jaxopt/_src/nonlinear_cg.py:NonlinearCG.update"]}
{"id": "C35", "title": "Block coordinate descent keeps its caches exact and never increases the objective", "statement": "During and after every epoch predictions = linop(params) and subfun_g is the gradient of subfun there; each coordinate step with the declared coordinate-wise Lipschitz constant does not increase the objective, for each provided objective (least squares, SVM dual).", "quantifier": "every data matrix, parameters, prox and number of epochs", "why_tests_cant": "all data and unbounded epochs", "anchors": ["jaxopt/_src/block_cd.py:BlockCoordinateDescent.update", "jaxopt/_src/objective.py:LeastSquares", "jaxopt/_src/objective.py:MulticlassLinearSvmDual"]}
{"id": "C36", "title": "BoxCDQP descends, stays feasible and stops only at optima", "statement": "After one epoch the iterate is in the box; the QP objective never increases from a feasible point; an epoch with error 0 means the point is optimal, for every positive semidefinite Q.", "quantifier": "every PSD Q, every c, every box, every start", "why_tests_cant": "all problem data", "anchors": ["jaxopt/_src/cd_qp.py:fori_loop_body_fun", "jaxopt/_src/cd_qp.py:BoxCDQP.update"]}
{"id": "C37", "title": "KKT residuals certify optimality for QPs", "statement": "If the KKT optimality function vanishes at a primal-dual point with non-negative inequality multipliers and the point is primal feasible, the primal point is a global minimiser of the convex QP; EqualityConstrainedQP with an exact linear solver returns such a point, also with refine_regularization.", "quantifier": "every convex QP", "why_tests_cant": "all problem data", "anchors": ["jaxopt/_src/implicit_diff.py:make_kkt_optimality_fun", "jaxopt/_src/eq_qp.py:EqualityConstrainedQP.run"]}
{"id": "C38", "title": "BoxOSQP iterates carry a dual certificate", "statement": "After every update l<=z<=u, y=mu-phi with mu,phi>=0, and y is complementary to z (y_i>0 only where z_i=u_i, y_i<0 only where z_i=l_i); rho_bar stays in [rho_min, rho_max] after an update; status SOLVED returned by run implies primal and dual residuals of the returned params at most tol, and zero residuals imply global optimality.", "quantifier": "every convex QP, momentum, stepsize history and linear-solver output", "why_tests_cant": "all histories and arbitrary inexact inner solves", "anchors": ["jaxopt/_src/osqp.py:BoxOSQP._admm_step", "jaxopt/_src/osqp.py:BoxOSQP.update", "jaxopt/_src/osqp.py:BoxOSQP._get_full_KKT_solution"]}
{"id": "C39", "title": "BoxOSQP infeasibility reports are sound", "statement": "Status PRIMAL_INFEASIBLE (resp. the ValueError) is only reported for problems without feasible point up to tolerance; a solvable problem with constraints inactive at the solution is never reported infeasible.", "quantifier": "every problem and every iterate history", "why_tests_cant": "the certificate is checked on arbitrary iterate differences, including zero ones", "anchors": ["jaxopt/_src/osqp.py:BoxOSQP._check_primal_infeasability", "jaxopt/_src/osqp.py:BoxOSQP._check_dual_infeasability"]}
{"id": "C40", "title": "OSQP to BoxOSQP conversion is lossless", "statement": "Converting an (A,b,G,h) problem to box form preserves the feasible set and objective, and splitting the box dual back returns exactly the multipliers of Ax=b and Gx<=h, for every number of equality and inequality rows.", "quantifier": "every number of rows including zero, every dual vector", "why_tests_cant": "all sizes", "anchors": ["jaxopt/_src/osqp.py:OSQP_to_BoxOSQP.transform", "jaxopt/_src/osqp.py:OSQP_to_BoxOSQP.inverse_transform", "jaxopt/_src/osqp.py:OSQP_to_BoxOSQP._pytree_split"]}
{"id": "C41", "title": "Implicit differentiation returns the true derivative", "statement": "If x(theta) solves F(x(theta),theta)=0 and is differentiable, the partial Jacobian of F in x is invertible and the linear solver is exact, then root_jvp(tangent) is the directional derivative of x and root_vjp(cotangent) is its transpose applied to the cotangent; the two are adjoint.", "quantifier": "every differentiable optimality function and solution map", "why_tests_cant": "all functions", "anchors": ["jaxopt/_src/implicit_diff.py:root_vjp", "jaxopt/_src/implicit_diff.py:root_jvp"]}
{"id": "C42", "title": "Gradients are routed to the right arguments", "statement": "Whatever mix of positional and keyword arguments a solver is called with, the cotangent computed for each parameter of the optimality function is returned for the argument that supplied it, init_params gets None, and calls that cannot be resolved raise TypeError. The wrapped solver receives for each of its parameters the value of the original call, its own defaults included, and the backward pass evaluates the optimality function at those values.", "quantifier": "every signature and every call (positional/keyword split, keyword order)", "why_tests_cant": "combinatorially many call shapes", "anchors": ["jaxopt/_src/implicit_diff.py:_signature_bind_and_match", "jaxopt/_src/implicit_diff.py:_extract_kwargs", "jaxopt/_src/implicit_diff.py:_custom_root"]}
{"id": "C43", "title": "Gauss-Newton", "statement": "If the inner solve is exact, delta solves the normal equations of the linearised problem, one update solves any affine least-squares problem exactly, error=0 implies zero gradient, and the reported value is the cost of the previous params.", "quantifier": "every residual function", "why_tests_cant": "all functions", "anchors": ["jaxopt/_src/gauss_newton.py:GaussNewton.update"]}
{"id": "C44", "title": "Levenberg-Marquardt never increases the cost", "statement": "With exact linear solves, positive damping and no geodesic term each update either strictly decreases the cost and lowers or adapts damping, or leaves params, residual and gradient unchanged and raises damping, even when the trial point has non-finite residuals; damping stays positive and bounded; the madsen-nielsen criterion stops as documented.", "quantifier": "every residual function, every iteration history", "why_tests_cant": "all functions and histories", "anchors": ["jaxopt/_src/levenberg_marquardt.py:LevenbergMarquardt.update", "jaxopt/_src/levenberg_marquardt.py:LevenbergMarquardt._cond_fun", "jaxopt/_src/levenberg_marquardt.py:LevenbergMarquardt.update_state_using_gain_ratio"]}
{"id": "C45", "title": "SciPy bridge: flattening pytrees is a bijection", "statement": "Flattening a pytree of arrays to one vector and unflattening with its topology returns the same pytree, and conversely for every vector of the right length; the lengths match the total size.", "quantifier": "every pytree structure and leaf shapes", "why_tests_cant": "all tree shapes", "anchors": ["jaxopt/_src/scipy_wrappers.py:jnp_to_onp", "jaxopt/_src/scipy_wrappers.py:make_onp_to_jnp"]}
{"id": "C46", "title": "SciPy bridge: flattened Jacobian is the Jacobian of the flattened function", "statement": "The dense matrix assembled from the Jacobian pytree acts on flattened vectors exactly as the pytree of blocks acts on pytrees, for all numbers and sizes of input and output leaves.", "quantifier": "every input/output topology and every block contents", "why_tests_cant": "all tree shapes and sizes", "anchors": ["jaxopt/_src/scipy_wrappers.py:make_jac_jnp_to_onp"]}
{"id": "C47", "title": "Pytree arithmetic behaves like vector arithmetic", "statement": "tree_add/sub/scalar_mul/add_scalar_mul/vdot/l2_norm agree with the operations on the flattened vectors, so the tree inner product is bilinear, symmetric and Cauchy-Schwarz holds; broadcast_pytrees returns trees of identical structure whose leaves are those of the inputs, or raises when structures differ.", "quantifier": "every pytree structure", "why_tests_cant": "all tree shapes", "anchors": ["jaxopt/_src/tree_util.py:tree_vdot", "jaxopt/_src/tree_util.py:tree_add_scalar_mul", "jaxopt/_src/tree_util.py:broadcast_pytrees"]}
{"id": "C48", "title": "Perturbed optimizers are consistent", "statement": "For fixed noise the perturbed argmax is a subgradient of the perturbed max (so its custom derivative is a valid derivative wherever one exists), the perturbed max is convex, and the perturbed argmax lies in the convex hull of the argmax outputs.", "quantifier": "every feasible set, noise sample, number of samples and input", "why_tests_cant": "all sets and samples", "anchors": ["jaxopt/_src/perturbations.py:make_perturbed_argmax", "jaxopt/_src/perturbations.py:make_perturbed_max"]}
{"id": "C49", "title": "Fenchel-Young and sparsemax losses", "statement": "Fenchel-Young losses built from a max/argmax oracle are non-negative, convex, zero exactly when the target is a maximiser, with gradient argmax - target; sparse_plus is convex with derivative sparse_sigmoid; the binary and multiclass sparsemax losses are non-negative and vanish exactly when the prediction margin is at least one.", "quantifier": "every score vector and target", "why_tests_cant": "continuum of inputs", "anchors": ["jaxopt/_src/loss.py:make_fenchel_young_loss", "jaxopt/_src/loss.py:sparse_plus", "jaxopt/_src/loss.py:sparse_sigmoid", "jaxopt/_src/loss.py:multiclass_sparsemax_loss"]}
{"id": "C50", "title": "Regression and margin losses", "statement": "huber_loss is non-negative, even, continuously differentiable, convex and delta-Lipschitz; logistic losses equal the negative log likelihood and are strictly positive; hinge and perceptron losses are non-negative, hinge dominates the perceptron and the 0/1 error.", "quantifier": "every target, score and threshold", "why_tests_cant": "continuum of inputs", "anchors": ["jaxopt/_src/loss.py:huber_loss", "jaxopt/_src/loss.py:binary_logistic_loss", "jaxopt/_src/loss.py:multiclass_logistic_loss", "jaxopt/_src/loss.py:multiclass_hinge_loss"]}
{"id": "C51", "title": "Incremental linear operator updates", "statement": "LinearOperator.update_matvec / update_rmatvec applied after any sequence of coordinate changes equal a fresh matvec / rmatvec; element accessors agree with the full products; column_l2_norms are the column norms.", "quantifier": "every matrix and every sequence of coordinate updates", "why_tests_cant": "unbounded update sequences", "anchors": ["jaxopt/_src/base.py:LinearOperator"]}
{"id": "C52", "title": "Mirror descent with the KL projection stays on the simplex", "statement": "make_projection_grad(projection_simplex under KL, log) keeps iterates strictly positive and summing to the requested value, satisfies the three-point inequality of mirror descent, and its fixed points for every stepsize are the points whose gradient is constant on all coordinates.", "quantifier": "every objective, gradient sequence and stepsize sequence", "why_tests_cant": "all histories", "anchors": ["jaxopt/_src/mirror_descent.py:MirrorDescent.make_projection_grad", "jaxopt/_src/mirror_descent.py:MirrorDescent._update"]}
{"id": "C53", "title": "Initial stepsize strategies", "statement": "The starting stepsize of a line search is max_stepsize for 'max', the previous one for 'current', and for 'increase' the previous one times increase_factor when it exceeds min_stepsize and max_stepsize otherwise; for max and increase with a previous step at most max_stepsize it is positive whenever the inputs are; unknown strategies are rejected.", "quantifier": "every previous stepsize and every strategy string", "why_tests_cant": "all floats", "anchors": ["jaxopt/_src/linesearch_util.py:_init_stepsize", "jaxopt/_src/linesearch_util.py:_setup_linesearch"]}
{"id": "C54", "title": "Projected gradient stays feasible and stops at stationary points", "statement": "Every iterate of ProjectedGradient after the first update is feasible; a point is a fixed point of the update iff it satisfies the first-order optimality condition on the convex set, for every stepsize.", "quantifier": "every closed convex set with exact projection, objective, stepsize", "why_tests_cant": "all convex sets and functions", "anchors": ["jaxopt/_src/projected_gradient.py:ProjectedGradient", "jaxopt/_src/prox.py:make_prox_from_projection"]}
{"id": "C55", "title": "Reusing an options dict across SciPy solvers", "statement": "Constructing a solver does not change the observable meaning of the arguments passed to it: constructing ScipyMinimize twice with the same options dict succeeds both times with the requested maxiter.", "quantifier": "every options dict and every sequence of constructions", "why_tests_cant": "depends on the history of constructions sharing one mutable object", "anchors": ["jaxopt/_src/scipy_wrappers.py:ScipyMinimize.__post_init__"]}
{"id": "C56", "title": "has_aux in the SciPy root / least-squares wrappers", "statement": "With has_aux=True the wrapped function evaluates the user function once and drops the aux output.", "quantifier": "every user function", "why_tests_cant": "the failure is non-termination (self-reference), which no finite test can establish", "anchors": ["jaxopt/_src/scipy_wrappers.py:ScipyRootFinding.__post_init__", "jaxopt/_src/scipy_wrappers.py:ScipyLeastSquares.__post_init__"]}
{"id": "C57", "title": "Robust losses of ScipyLeastSquares match SciPy's", "statement": "The cost used for optimality conditions is the documented one, 0.5*sum(rho(residual^2)) with SciPy's rho (up to a positive constant factor), for every residual sign.", "quantifier": "every residual value", "why_tests_cant": "all reals", "anchors": ["jaxopt/_src/scipy_wrappers.py:LS_RHO_FUNS"]}
{"id": "C58", "title": "Optimal transport projections return plans with the requested marginals", "statement": "If the inner solver reaches stationarity of the (semi-)dual, the returned plan is non-negative, has the requested row and column sums and is the closest such plan to the negative scaled cost in the Euclidean sense.", "quantifier": "every cost matrix and marginals", "why_tests_cant": "continuum of inputs", "anchors": ["jaxopt/_src/projection.py:projection_transport", "jaxopt/_src/projection.py:_make_semi_dual"]}
{"id": "C59", "title": "KL transport projections return the entropic optimal plan", "statement": "If the inner solver reaches stationarity of the entropic (semi-)dual and the column marginals are positive, the returned plan is strictly positive, has the requested row and column sums and is the only plan minimising the Kullback-Leibler divergence to exp(sim_matrix); the gradients used for the plan are the partial derivatives of the objective being minimised.", "quantifier": "every similarity matrix, marginals and regularisation constant", "why_tests_cant": "continuum of inputs; tests compare with one Sinkhorn run", "anchors": ["jaxopt/_src/projection.py:kl_projection_transport", "jaxopt/_src/projection.py:_max_ent", "jaxopt/_src/projection.py:_delta_ent"]}
{"id": "C60", "title": "Interpolation points of the zoom search are critical points", "statement": "_cubicmin returns a stationary point of the unique cubic through the three values and the slope it is given, with non-negative curvature there, and NaN exactly when that point does not exist; _quadmin returns the stationary point of the interpolating parabola, which minimises it when its curvature is positive.", "quantifier": "all real points, values and slopes", "why_tests_cant": "continuum of inputs", "anchors": ["jaxopt/_src/zoom_linesearch.py:_cubicmin", "jaxopt/_src/zoom_linesearch.py:_quadmin"]}
{"id": "C61", "title": "Every linear solver wrapper solves the ridge-regularised system", "statement": "solve_lu, solve_inv, solve_qr, solve_cholesky, solve_cg and solve_normal_cg return the unique x with (A + ridge I) x = b (normal equations (A^T A + ridge I) x = A^T b for solve_normal_cg), for scalar, vector and matrix right-hand sides the function accepts, if the dense routine or CG they call is exact.", "quantifier": "all sizes, operators and right-hand sides with a regular system", "why_tests_cant": "continuum of inputs and all sizes", "anchors": ["jaxopt/_src/linear_solve.py"]}
{"id": "C62", "title": "Linear operator classes agree with their matrices", "statement": "DenseLinearOperator and FunctionalLinearOperator compute matvec, rmatvec, normal_matvec and diag consistently: rmatvec is the adjoint of matvec, the normal product is their composition.", "quantifier": "all block structures and sizes", "why_tests_cant": "all tree structures and all real entries", "anchors": ["jaxopt/_src/linear_operator.py"]}
{"id": "C63", "title": "Derivative rules of the simplex projections are the derivatives", "statement": "Wherever no coordinate ties with the support (no coordinate exactly at the threshold; for the sparse simplex the support strictly separated from the rest), projection_simplex and projection_sparse_simplex are differentiable in x and value, and their custom JVP rules return the projection and its derivative; the tangent sums to the tangent of value and is zero off the support.", "quantifier": "all dimensions, points, values > 0, tangents and max_nz", "why_tests_cant": "continuum of points and tangents; finite differences at sampled points only", "anchors": ["jaxopt/_src/projection.py:_projection_unit_simplex_jvp", "jaxopt/_src/projection.py:_projection_unit_sparse_simplex_jvp"]}
{"id": "C64", "title": "Derivative rule of isotonic regression", "statement": "The custom JVP of _isotonic_l2_pav sums the tangent over maximal runs of the solution whose consecutive entries differ by at most 1e-8 and divides by the length of the run plus 1e-8. Where neighbouring blocks are more than 1e-8 apart, no multiplier of an active ordering constraint vanishes and no value sits at a bound, isotonic_l2_pav is differentiable and the JVP equals the derivative up to the factor 1/(1 + 1e-8/c), c the block size.", "quantifier": "all lengths, inputs, bounds, directions and tangents", "why_tests_cant": "continuum of inputs; all block structures", "anchors": ["jaxopt/_src/isotonic.py:_jvp_isotonic_l2_jax_pav", "jaxopt/_src/isotonic.py:_isotonic_l2_pav_jvp"]}
{"id": "C65", "title": "Perturbation gradients are unbiased", "statement": "For Normal and Gumbel noise, any number of samples >= 1, sigma != 0 and any bounded measurable function, the expectation over the samples of the custom JVP of make_perturbed_argmax and make_perturbed_fun, with and without control variate, is the directional derivative of the expectation of the perturbed function.", "quantifier": "every bounded measurable function, input, tangent, sigma, number of samples and dimension", "why_tests_cant": "an expectation over a continuous law and an arbitrary non-smooth function", "anchors": ["jaxopt/_src/perturbations.py:make_perturbed_argmax", "jaxopt/_src/perturbations.py:make_perturbed_fun", "jaxopt/_src/perturbations.py:Normal", "jaxopt/_src/perturbations.py:Gumbel"]}
{"id": "C66", "title": "Perturbed function derivatives have the shape of the output", "statement": "For every output shape, the custom JVPs of make_perturbed_fun (with and without control variate) succeed and return an array with the shape of the output.", "quantifier": "every output shape and number of samples", "why_tests_cant": "all shapes", "anchors": ["jaxopt/_src/perturbations.py:make_perturbed_fun"]}
{"id": "C67", "title": "Regression objectives, their constants and their minimisers", "statement": "BinaryLogreg and MulticlassLogreg (with or without intercept and L2 penalty) equal the negative mean log-likelihood of the logistic/softmax model plus l2reg/2 times the squared weights, the intercept not penalised; columnwise_lipschitz_const bounds the growth of the objective along every block and is the best possible constant for one sample, so block coordinate descent never increases the objective and a zero error certifies a global minimum; with l2reg > 0 the minimiser weights are unique; the same strong convexity holds for ridge_regression.", "quantifier": "every data set with at least one sample, every label vector, weights, number of classes and l2reg", "why_tests_cant": "curvature bounds over all of parameter space and all data sets", "anchors": ["jaxopt/_src/objective.py:BinaryLogreg", "jaxopt/_src/objective.py:MulticlassLogreg", "jaxopt/_src/objective.py:multiclass_logreg_with_intercept", "jaxopt/_src/objective.py:l2_multiclass_logreg", "jaxopt/_src/objective.py:l2_multiclass_logreg_with_intercept", "jaxopt/_src/objective.py:ridge_regression"]}
{"id": "C68", "title": "Optimality functions vanish exactly at the solutions", "statement": "The optimality_fun used for implicit differentiation has exactly the solutions of the problem as its roots: ProximalGradient and BlockCoordinateDescent (convex problems: the global minimisers of the regularised objective, and for block coordinate descent exactly the points at which the next epoch reports error 0), LBFGSB and the bounded SciPy wrappers (at feasible points the first-order conditions of the box-constrained problem, equivalently error 0, and for convex fun the constrained minimisers), with bounds=None meaning no constraint; l2_optimality_error is 0 exactly there.", "quantifier": "every convex problem with a valid prox, every point, every pair of bounds including infinite ones and None", "why_tests_cant": "equivalence between the zero set of a function and the solution set of an optimisation problem", "anchors": ["jaxopt/_src/proximal_gradient.py:ProximalGradient.optimality_fun", "jaxopt/_src/block_cd.py:BlockCoordinateDescent.optimality_fun", "jaxopt/_src/lbfgsb.py:LBFGSB.optimality_fun", "jaxopt/_src/scipy_wrappers.py:ScipyBoundedMinimize.optimality_fun", "jaxopt/_src/scipy_wrappers.py:ScipyBoundedLeastSquares.optimality_fun", "jaxopt/_src/base.py:Solver.l2_optimality_error"]}
{"id": "C69", "title": "The SciPy wrappers solve the pytree problem through its flattened form", "statement": "For every pytree init_params with at least one leaf, the callables that ScipyMinimize, ScipyBoundedMinimize, ScipyRootFinding and ScipyLeastSquares hand to SciPy are the user's functions read through flattening: defined on every vector of the right length, with the value, flattened gradient and Jacobian matrix of the pytree with that content. Whatever vector of that length SciPy returns, the wrapper returns the pytree of the structure and shapes of init_params with that content; if SciPy returns a minimiser within the flattened bounds (a root, a least-squares minimiser) the wrapper's result is a minimiser over pytrees within the leafwise bounds (a root, ...), and conversely no solution is lost. Counters missing from SciPy's result are reported as 0; callbacks receive pytrees.", "quantifier": "every pytree, every user function, every SciPy routine (as a function of the callables it is given), every result, all bounds incl. infinite ones", "why_tests_cant": "universally quantified over pytree structures, objectives and the behaviour of the external optimiser", "anchors": ["jaxopt/_src/scipy_wrappers.py:ScipyMinimize._run", "jaxopt/_src/scipy_wrappers.py:ScipyRootFinding.run", "jaxopt/_src/scipy_wrappers.py:ScipyLeastSquares._run"]}
{"id": "C70", "title": "CvxpyQP solves the stated problem and returns its KKT certificate", "statement": "CvxpyQP.run raises for parameters of the wrong shape and otherwise hands cvxpy exactly the problem min 1/2 x^T Q x + c^T x subject to A x = b, G x <= h (constraints present exactly when given), and returns the primal and the multipliers in the documented fields; when cvxpy returns a KKT point, the returned triple satisfies the KKT system that the implicit differentiation uses, and it is a minimiser for convex Q. Infeasible or unbounded problems raise.", "quantifier": "all dimensions, all matrices and vectors, all combinations of present constraints, every behaviour of the external solver", "why_tests_cant": "universally quantified over problems and over the answers of an external solver", "anchors": ["jaxopt/_src/cvxpy_wrapper.py:_check_params", "jaxopt/_src/cvxpy_wrapper.py:CvxpyQP.run", "jaxopt/_src/cvxpy_wrapper.py:_make_cvxpy_qp_optimality_fun"]}
{"id": "C71", "title": "Quadratic solvers given a function recover its matrices", "statement": "When EqualityConstrainedQP or OSQP/BoxOSQP is given `fun` instead of matrices, the recovered c is the gradient at zero and the recovered Q-product is the Hessian product, so that for every quadratic function the solved problem has the objective fun up to the additive constant; init_params must be given; the implicit differentiation of the result works as for matrices.", "quantifier": "every quadratic function, all dimensions, every starting point", "why_tests_cant": "universally quantified over functions", "anchors": ["jaxopt/_src/eq_qp.py:extract_Qc_from_obj", "jaxopt/_src/eq_qp.py:EqualityConstrainedQP.__post_init__", "jaxopt/_src/osqp.py:extract_Qc_from_obj", "jaxopt/_src/osqp.py:_make_osqp_optimality_fun", "jaxopt/_src/osqp.py:BoxOSQP.__post_init__"]}
{"id": "C72", "title": "OptaxSolver composes pre_update, the optax transformation and apply_updates", "statement": "For every optax transformation, the k-th iterate of OptaxSolver is the composition of pre_update, the gradient of the objective, the transformation and the addition of its updates, with the transformation's state threaded through; run stops at the first iterate whose error is at most tol or at maxiter; the optimality function is the gradient; with the sgd transformation the iterates are those of gradient descent. The reported error is the gradient norm at the returned parameters.", "quantifier": "every transformation, every objective, every pre_update, all starts, tol, maxiter", "why_tests_cant": "universally quantified over external transformations and runs of any length", "anchors": ["jaxopt/_src/optax_wrapper.py:OptaxSolver.init_state", "jaxopt/_src/optax_wrapper.py:OptaxSolver.update", "jaxopt/_src/optax_wrapper.py:OptaxSolver.optimality_fun"]}
{"id": "C73", "title": "projection_affine_set and projection_polyhedron return the closest point", "statement": "projection_affine_set returns, for every consistent system A y = b (redundant rows allowed) and exact linear algebra, the unique point of the affine set closest to x. Whenever the solver of projection_polyhedron reports SOLVED the result satisfies the constraints up to tol and its squared distance to x is within an explicit residual term of the smallest (exactly the projection for tol = 0). projection_polyhedron raises only if the polyhedron is empty.", "quantifier": "all dimensions, matrices, right-hand sides and points", "why_tests_cant": "universally quantified over polyhedra and points; the false alarm needs a point inside the polyhedron", "anchors": ["jaxopt/_src/projection.py:projection_affine_set", "jaxopt/_src/projection.py:projection_polyhedron"]}
{"id": "C74", "title": "What a quasi-Newton run returns: the state describes the returned parameters and the loop stops only for the documented reasons", "statement": "After every update of LBFGS, BFGS, Broyden and LBFGSB the state carries the value, gradient (or residual) and error of the returned parameters. For maxiter >= 1 a run makes between 1 and maxiter updates (the first one unconditionally) and stops exactly at the first iterate whose error is at most tol, at maxiter, or after a failed line search when stop_if_linesearch_fails is set. Broyden's transposed product is the transpose of its product with the approximate inverse Jacobian. A NonlinearCG run stops at the first iterate whose predecessor has a gradient of norm at most tol (its error lags one step, see C34) or at maxiter. NonlinearCG raises for an unknown method and otherwise uses the named formula.", "quantifier": "every objective, every line search, all starts, tol, maxiter and flags, runs of any length", "why_tests_cant": "universally quantified over objectives, line searches and runs of any length", "anchors": ["jaxopt/_src/bfgs.py:BFGS.update", "jaxopt/_src/lbfgs.py:LBFGS._cond_fun", "jaxopt/_src/lbfgs.py:LBFGS.update", "jaxopt/_src/broyden.py:Broyden._cond_fun", "jaxopt/_src/broyden.py:Broyden.update", "jaxopt/_src/broyden.py:inv_jacobian_rproduct", "jaxopt/_src/lbfgsb.py:LBFGSB._cond_fun", "jaxopt/_src/lbfgsb.py:LBFGSB.update", "jaxopt/_src/nonlinear_cg.py:NonlinearCG.update"]}
{"id": "C75", "title": "The quadratic model of L-BFGS-B is the limited-memory BFGS matrix", "statement": "At every iterate of LBFGSB the matrix m_inv is invertible (the padding of unused history positions keeps it so), and theta I - W M W^T with M its inverse is the BFGS matrix obtained from theta I by the last history_size accepted pairs, oldest first: it is symmetric, positive definite and satisfies the secant equation for the newest pair. Pairs are accepted exactly when their curvature is positive, theta is the attribute theta scaled by y^T y / s^T y of the newest pair (with use_gamma), and the next iterate is always defined.", "quantifier": "every objective, bounds, line search, history size and number of updates", "why_tests_cant": "all histories of any length and all dimensions; the failure needs more updates than history_size and a non-quadratic objective", "anchors": ["jaxopt/_src/lbfgsb.py:LBFGSB.update", "jaxopt/_src/lbfgs.py:update_history"]}
{"id": "C76", "title": "Cauchy point, subspace minimisation and descent direction of L-BFGS-B", "statement": "_find_cauchy_point returns the first local minimiser of the quadratic model along the projected steepest-descent path: a point of the path before which the model decreases strictly and from which it does not decrease, together with c = W^T (xc - x), and the coordinates that are not free are at a bound. _minimize_subspace moves the free coordinates by the largest step in [0, 1] that keeps the box towards the minimiser of the model over the free coordinates. The point reached is feasible, and the direction towards it is a direction of descent of the objective unless the iterate is first-order optimal, in which case it is zero.", "quantifier": "every feasible point, gradient, bounds (finite or infinite), history and positive definite model, every run", "why_tests_cant": "all combinations of breakpoints and model matrices in any dimension; the failure needs two coordinates that hit their bounds at the same time with coupling of a special sign", "anchors": ["jaxopt/_src/lbfgsb.py:_find_cauchy_point", "jaxopt/_src/lbfgsb.py:_minimize_subspace", "jaxopt/_src/lbfgsb.py:LBFGSB.update"]}
{"id": "C77", "title": "Gradient descent: steps, rates of the unaccelerated method and the meaning of its error", "statement": "GradientDescent is the proximal gradient method of the zero function. Without acceleration each update is x - s grad f(x), where s is the constant or scheduled stepsize, or the one found by backtracking (the first power of decrease_factor with the sufficient decrease of f). For s <= 1/L the smallest gradient among the first k iterates is O(1/sqrt(k)) even without convexity, F(x_k) - F(u) <= |x0-u|^2/(2sk) for convex f, and the distance to the minimiser contracts linearly for strongly convex f. The error in the state is the norm of the gradient mapping of the last step, so that a run that stops by the tolerance is nearly stationary.", "quantifier": "every smooth f, prox, start, stepsize and number of iterations", "why_tests_cant": "rates hold for all functions and all k; the failing case needs a Lipschitz constant above 1e6", "anchors": ["jaxopt/_src/gradient_descent.py:GradientDescent", "jaxopt/_src/proximal_gradient.py:ProximalGradient._iter", "jaxopt/_src/proximal_gradient.py:ProximalGradient._update", "jaxopt/_src/proximal_gradient.py:ProximalGradient._error"]}
{"id": "C78", "title": "BoxOSQP converges with a constant stepsize", "statement": "For a convex problem with a KKT point, sigma > 0, rho > 0 and 0 < momentum < 2, every ADMM iteration with exactly solved linear systems decreases a weighted squared distance to every KKT point by at least a multiple of the squared residuals. With a constant stepsize (rho_min = rho_max = rho_start) and without infeasibility checks, a run whose maxiter exceeds an explicit bound in terms of the distance of the start to a KKT point, tol and the data therefore ends with status SOLVED and residuals at most tol, unless the stepsize becomes NaN, which cannot happen if c is not zero and the origin violates the bounds.", "quantifier": "every convex quadratic program with a KKT point, every valid start, momentum in (0,2), tol, test frequency, maxiter", "why_tests_cant": "convergence for all problems and all relaxation parameters; tests check a few runs", "anchors": ["jaxopt/_src/osqp.py:BoxOSQP._admm_step", "jaxopt/_src/osqp.py:BoxOSQP._solve_linear_system", "jaxopt/_src/osqp.py:BoxOSQP.update", "jaxopt/_src/osqp.py:BoxOSQP.run"]}
{"id": "C79", "title": "Levenberg-Marquardt: geodesic acceleration and configuration", "statement": "With geodesic=True the step of LevenbergMarquardt is minus the velocity minus half the acceleration, where the velocity solves the damped linearised least-squares problem and the acceleration the damped problem for the second directional derivative of the residual along the velocity, so that for quadratic residuals the second-order error of the Gauss-Newton step cancels; a trial point is accepted only if it decreases the cost and the ratio of acceleration and velocity is at most contribution_ratio_threshold, and points that do so are accepted. A callable linear solver is warm started at its previous solution. __post_init__ accepts exactly the documented solvers, rejects QR in matrix-free mode, and with materialize_jac=True the Jacobian comes from jac_fun if given and from jax.jacfwd otherwise.", "quantifier": "every residual function, parameters, state of a run, damping and configuration", "why_tests_cant": "the wrong sign of the gain ratio needs an ill-conditioned Jacobian and large curvature; jac_fun is not covered by the test-suite", "anchors": ["jaxopt/_src/levenberg_marquardt.py:LevenbergMarquardt.update", "jaxopt/_src/levenberg_marquardt.py:LevenbergMarquardt.update_state_using_delta_params", "jaxopt/_src/levenberg_marquardt.py:LevenbergMarquardt._solve_linear_eqs", "jaxopt/_src/levenberg_marquardt.py:LevenbergMarquardt.__post_init__"]}
{"id": "C80", "title": "Stochastic solvers under interpolation", "statement": "When the losses of all batches are convex and smooth and have a common minimiser (the interpolation property that ArmijoSGD and PolyakSGD document as their assumption), the runs of both solvers without momentum do not diverge, whatever the sequence of batches: the distance to the common minimiser stays bounded by the initial one (for PolyakSGD it never increases as long as gradients do not vanish exactly), and the sum over all iterations of the losses in excess of the minimum is bounded by a constant times the squared initial distance (for ArmijoSGD up to the machine epsilon tolerated in every line search).", "quantifier": "every family of convex smooth losses with a common minimiser, every sequence of batches of any length, every initial point", "why_tests_cant": "whether a run diverges depends on the order of batches; the unit tests use random batches of one data set with losses for which the default aggressiveness happens to work", "anchors": ["jaxopt/_src/armijo_sgd.py:ArmijoSGD.update", "jaxopt/_src/armijo_sgd.py:armijo_line_search", "jaxopt/_src/polyak_sgd.py:PolyakSGD.update"]}
{"id": "C81", "title": "NonlinearCG on quadratic objectives is the conjugate gradient method", "statement": "On a quadratic objective with a line search that is exact along the given direction, and as long as the squared gradient norms are at least the local eps = 1e-6, the gradients of the iterates of NonlinearCG are mutually orthogonal, its directions are conjugate and descent directions, and the three methods produce the same iterates and states. Hence an iterate with index at most the number of parameters has squared gradient norm below 1e-6, and with the default tolerance a run stops after at most one more iteration than there are parameters.", "quantifier": "every self-adjoint linear map, right-hand side, initial point and method, in any finite dimension, every exact line search", "why_tests_cant": "the tests only compare final values with scikit-learn or scipy; a wrong beta still converges on the small examples", "anchors": ["jaxopt/_src/nonlinear_cg.py:NonlinearCG.update", "jaxopt/_src/nonlinear_cg.py:NonlinearCG.init_state"]}
{"id": "C82", "title": "Global convergence of NonlinearCG with Wolfe line searches", "statement": "On a smooth objective each step along a descent direction that satisfies the strong Wolfe conditions decreases the objective by at least c1 (1 - c2) / L times the squared slope over the squared length of the direction, so that these quantities are summable along a run (Zoutendijk). Consequently NonlinearCG with the Fletcher-Reeves method reaches gradients of arbitrarily small norm on every smooth objective that is bounded below, when the curvature constant is below 1/2; and with the options NonlinearCG passes to its line search every search direction is a descent direction.", "quantifier": "every smooth objective bounded below, initial point and Wolfe line search", "why_tests_cant": "global convergence is a statement about infinite runs; the ascent directions with default options show up only as failed line searches, from which the solver recovers with a tiny step", "anchors": ["jaxopt/_src/nonlinear_cg.py:NonlinearCG.update", "jaxopt/_src/linesearch_util.py:_setup_linesearch", "jaxopt/_src/zoom_linesearch.py:ZoomLineSearch"]}
{"id": "C83", "title": "Linear convergence of L-BFGS on strongly convex functions", "statement": "On a strongly convex and smooth objective the L-BFGS search directions make an angle with the negative gradient that is bounded away from 90 degrees, uniformly over the run and the steps taken, with bounds depending only on the two constants and the history size. With a line search satisfying the Wolfe conditions the function values then converge to the minimum linearly, with one contraction factor for the whole run, and so do the squared distances to the minimiser.", "quantifier": "every strongly convex smooth objective on a Hilbert space, history size, setting of use_gamma, initial point and Wolfe line search", "why_tests_cant": "a rate is a statement about all iterations of all runs; a wrong pair in the circular buffer degrades the rate without preventing convergence on test problems", "anchors": ["jaxopt/_src/lbfgs.py:LBFGS.update", "jaxopt/_src/lbfgs.py:inv_hessian_product", "jaxopt/_src/lbfgs.py:compute_gamma"]}
{"id": "C84", "title": "The zoom line search succeeds on smooth functions", "statement": "Along a descent direction of a function with Lipschitz gradient the zoom line search ends with a step satisfying its decrease and curvature conditions (or with the maximal step) once maxiter exceeds an explicit number of interval increases and reductions that depends only on the Lipschitz constant, the slope and the attributes, whatever the cubic and quadratic interpolation formulas return.", "quantifier": "every smooth objective, descent direction, initial step, tolerances and interpolation formulas", "why_tests_cant": "liveness over all smooth functions; a bracket update that breaks the invariant makes the search fail only on rare functions", "anchors": ["jaxopt/_src/zoom_linesearch.py:ZoomLineSearch._search_interval", "jaxopt/_src/zoom_linesearch.py:ZoomLineSearch._zoom_into_interval", "jaxopt/_src/zoom_linesearch.py:ZoomLineSearch.update"]}
{"id": "C85", "title": "Convergence rates of mirror descent", "statement": "Mirror descent with the KL projection on the simplex never increases a convex objective that is smooth in the l1 norm when the stepsize is at most 1/(L value), and after T updates its gap to any point z of the simplex is at most KL(z, x0)/(stepsize T); for non-smooth convex objectives the weighted gaps sum up to at most KL(z, x0) plus value G^2/2 times the sum of the squared stepsizes, for every schedule. A run that stops by its tolerance has a gap that is small with the tolerance.", "quantifier": "every convex objective, dimension, mass, start in the interior of the simplex, schedule and number of iterations", "why_tests_cant": "a rate over all objectives and iterations; a wrong sign or scaling in the mirror step only slows convergence down on test problems", "anchors": ["jaxopt/_src/mirror_descent.py:MirrorDescent._update", "jaxopt/_src/mirror_descent.py:MirrorDescent.make_projection_grad", "jaxopt/_src/mirror_descent.py:MirrorDescent._error"]}
{"id": "C86", "title": "Anderson acceleration converges on affine contractions", "statement": "On an affine contraction with factor c the residual of an extrapolated point is at most |1-beta| + |beta| c times that of the best affine combination of the stored points, up to a term in the ridge, and never more than this factor times the longest stored residual. Hence the residuals tend to zero linearly for every history size, ridge and mixing frequency when 0 < beta < 2/(1+c), and a run with a large enough budget ends within the tolerance, at a distance of at most c/(1-c) times the tolerance from the fixed point.", "quantifier": "every affine contraction on an inner product space, start, history size, ridge > 0, mixing frequency and admissible beta", "why_tests_cant": "a rate over all maps, starts and iterations; a misplaced row of the Gram matrix or a stale residual only spoils the weights and is invisible on well-conditioned tests", "anchors": ["jaxopt/_src/anderson.py:anderson_step", "jaxopt/_src/anderson.py:minimize_residuals", "jaxopt/_src/anderson.py:AndersonAcceleration.update"]}
{"id": "C87", "title": "BFGS converges linearly on strongly convex functions", "statement": "On a mu-strongly convex L-smooth function, with a line search that meets the weak Wolfe conditions, the inverse Hessian approximation of BFGS stays symmetric positive definite, the squared cosines between gradients and directions average at least mu exp(1-L), the excess over the minimum after n iterations is at most exp(-2 mu^2 c1 (1-c2) exp(1-L) n / L) times the initial one, in every dimension, and the gradient norm gets below every positive tolerance.", "quantifier": "every strongly convex smooth function in any dimension, start, constants 0 < c1, c2 < 1, Wolfe line search and number of iterations", "why_tests_cant": "a rate over all functions, dimensions and iterations; an update with s and y exchanged or a wrong rho still makes progress on small problems", "anchors": ["jaxopt/_src/bfgs.py:BFGS.update", "jaxopt/_src/bfgs.py:BFGS.init_state"]}
{"id": "C88", "title": "The linear solvers of OSQP solve the system of the current stepsize", "statement": "For convex data, whatever the order of stepsize changes and solves, the LU solver returns at each solve the unique solution of (Q + sigma I + rho A'A) x = b for the last rho; with an exact iterative routine the indirect solver returns the same solutions; the Jacobi preconditioner divides by the diagonal of the current matrix, which is positive, on every pytree of matrices.", "quantifier": "every pytree of matrices with Q psd and sigma > 0, sequence of calls, rho >= 0, right-hand sides", "why_tests_cant": "stale factors only show after a stepsize change in the middle of a run, and still converge slowly; container inputs are a separate case for each solver", "anchors": ["jaxopt/_src/osqp.py:OSQPIndirectSolver", "jaxopt/_src/osqp.py:OSQPLUSolver"]}
{"id": "C89", "title": "L-BFGS and BFGS with the Armijo backtracking line search converge linearly, end to end", "statement": "On a mu-strongly convex L-smooth function: LBFGS run with BacktrackingLineSearch(condition='armijo') never fails a line search once maxls is large enough (for a bound depending only on mu, L, c1 and the history size), uses steps in a fixed interval for each of the three linesearch_init strategies, contracts the excess over the minimum by a fixed factor per iteration, and its run returns a point with gradient norm at most tol after a computable number of iterations; BFGS with linesearch_init='max' does the same, with an exponential rate, as long as its line searches succeed, and needs no curvature condition on the steps.", "quantifier": "every smooth strongly convex function, dimension, starting point, history size, use_gamma, initial stepsize strategy, number of iterations", "why_tests_cant": "rates and the absence of line-search failures are statements about all runs; the interplay of the stepsize strategy, the cap and the matrix only shows over long runs", "anchors": ["jaxopt/_src/lbfgs.py:LBFGS.update", "jaxopt/_src/bfgs.py:BFGS.update", "jaxopt/_src/backtracking_linesearch.py:BacktrackingLineSearch.run", "jaxopt/_src/linesearch_util.py:_init_stepsize"]}
{"id": "C90", "title": "The line search that a solver creates respects max_stepsize and the documented conditions", "statement": "_setup_linesearch accepts exactly the three documented names and line search objects. The search created for a name never steps further than max_stepsize, returns the value and the gradient at the point that its step reaches, and unless it reports a failure its step satisfies the documented decrease and curvature conditions with the default constants.", "quantifier": "every objective, point, direction, initial stepsize, maxls, max_stepsize and argument linesearch", "why_tests_cant": "the bound and the reported step are only exercised by objectives whose minimiser along the line is far away", "anchors": ["jaxopt/_src/linesearch_util.py:_setup_linesearch"]}
{"id": "C91", "title": "Global convergence of Levenberg-Marquardt", "statement": "From every start and with every positive damping parameter the gradients of the Levenberg-Marquardt iterates come arbitrarily close to zero, for every cost that is smooth on the level set of the start; hence every run with a large enough maxiter stops by its tolerance at a point of gradient norm at most tol, and the cost converges to zero when the rows of the Jacobian are uniformly independent.", "quantifier": "every residual function with bounded Jacobian and smooth cost on the level set, every start, damping state, solver, tolerance and budget", "why_tests_cant": "convergence is a statement about unboundedly many iterations and about every objective", "anchors": ["jaxopt/_src/levenberg_marquardt.py:LevenbergMarquardt.update", "jaxopt/_src/levenberg_marquardt.py:LevenbergMarquardt.update_state_using_gain_ratio"]}
{"id": "C92", "title": "Local convergence of Gauss-Newton", "statement": "Near a stationary point of the cost with an injective Jacobian, one Gauss-Newton update maps the distance d to the point to at most (c/(2s) d + c |r|/s^2) d, where c is the Lipschitz constant of the Jacobian, s its lower bound and r the residual at the point: convergence is quadratic for zero residuals and linear when c |r| < s^2. Every run with a large enough budget from such a start stops by its tolerance, at a distance bounded by a multiple of tol.", "quantifier": "every residual function, stationary point, radius, start in the ball, state, number of updates, tolerance and budget", "why_tests_cant": "orders of convergence concern all starts and unboundedly many iterations", "anchors": ["jaxopt/_src/gauss_newton.py:GaussNewton.update"]}
{"id": "C93", "title": "Which calls of run can be differentiated implicitly", "statement": "For every solver class and every user function, solver.run(init, ..., *args, **kwargs) can be differentiated implicitly exactly if fun(params, *args, **kwargs) resolves to positions by the signature of fun, each argument gets its own cotangent, and the linear solver used is implicit_diff_solve.", "quantifier": "all solver classes, all signatures of the user function, all splits of the arguments into positional and keyword arguments, all keyword orders", "why_tests_cant": "tests differentiate a few solvers with a few call styles", "anchors": ["jaxopt/_src/base.py:IterativeSolver.run", "jaxopt/_src/implicit_diff.py:custom_root", "jaxopt/_src/proximal_gradient.py:ProximalGradient.__post_init__", "jaxopt/_src/anderson_wrapper.py:AndersonWrapper.__post_init__", "jaxopt/_src/projected_gradient.py:ProjectedGradient.__post_init__"]}
{"id": "C94", "title": "Box coordinate descent stops, certifies its accuracy and converges linearly", "statement": "For every box quadratic program with a positive semidefinite Q and a positive diagonal: an epoch of BoxCDQP decreases the objective by at least q/(2n) times its squared error; the error of an epoch bounds the suboptimality of the point it returns; with maxiter above an explicit bound every run stops by its tolerance with a certified objective; for a positive definite Q the gap shrinks by a constant factor per epoch. With a zero on the diagonal all of this fails.", "quantifier": "all dimensions, all Q c l u, all starts (feasible or not), all tolerances, all iteration limits, both loop backends", "why_tests_cant": "a convergence bound quantifies over all problems and all iteration counts", "anchors": ["jaxopt/_src/cd_qp.py:fori_loop_body_fun", "jaxopt/_src/cd_qp.py:BoxCDQP.update"]}
{"id": "C95", "title": "Block coordinate descent stops and its error certifies the result", "statement": "For BlockCoordinateDescent with a convex regulariser and the constants declared by the objective: an epoch decreases the objective by at least half the smallest constant times the squared error; if the objective is bounded below every run with maxiter above an explicit bound stops by its tolerance; the error of an epoch bounds the suboptimality of the point it returns, and is a lower bound of the optimality error as the comment in update says.", "quantifier": "all composite linear functions, all convex regularisers, all block shapes and counts, all starts, all tolerances and iteration limits", "why_tests_cant": "a termination bound quantifies over all problems and all iteration counts", "anchors": ["jaxopt/_src/block_cd.py:BlockCoordinateDescent.update", "jaxopt/_src/objective.py:LeastSquares", "jaxopt/_src/objective.py:MulticlassLinearSvmDual"]}
{"id": "C96", "title": "The Hager-Zhang line search ends and succeeds on smooth functions", "statement": "For an objective with Lipschitz gradient, bounded below, and a descent direction, every loop of HagerZhangLineSearch ends; with enough iterations the search is done, returns a step satisfying the Wolfe or approximate Wolfe conditions, and reports no failure.", "quantifier": "all smooth objectives in any Hilbert space, convex or not, all points and descent directions, all attribute values, all iteration limits, any amount of inner loop iterations", "why_tests_cant": "termination of unbounded while loops for every smooth function cannot be tested", "anchors": ["jaxopt/_src/hager_zhang_linesearch.py:HagerZhangLineSearch._update", "jaxopt/_src/hager_zhang_linesearch.py:HagerZhangLineSearch._bracket", "jaxopt/_src/hager_zhang_linesearch.py:HagerZhangLineSearch.update"]}
{"id": "C97", "title": "L-BFGS with its default (zoom) line search, end to end", "statement": "On a smooth strongly convex objective, LBFGS with the zoom line search never reports a failed line search (given enough line search iterations) and converges linearly to the minimiser, for every history size.", "quantifier": "all smooth strongly convex objectives in any Hilbert space, all starts, all iteration counts, all history sizes, all initialisation strategies, all line search constants", "why_tests_cant": "a rate for every objective and start, and the existence of a cycle for every history size, cannot be sampled; the cycle is a polygon with 2(m+1) corners that random tests do not hit", "anchors": ["jaxopt/_src/lbfgs.py:LBFGS.update", "jaxopt/_src/zoom_linesearch.py:ZoomLineSearch._decrease_error", "jaxopt/_src/zoom_linesearch.py:ZoomLineSearch._search_interval", "jaxopt/_src/linesearch_util.py:_init_stepsize"]}
{"id": "C98", "title": "Proximal gradient with its default backtracking line search: step bounds, rates and divergence", "statement": "With the default stepsize=0 the accepted steps are at least min(1, decrease_factor/L); while the line searches succeed the unaccelerated method has F(x_k)-F(u) <= |x0-u|^2/(2 sigma k) + k eps/sigma, and the accelerated one 2|x0-u|^2/(s (k+1)^2) + k eps/s if its steps do not increase; on strongly convex smooth problems the line searches always succeed and the unaccelerated method converges linearly; the objective never increases without acceleration.", "quantifier": "every convex smooth f, prox, start, number of iterations, line search constants, both acceleration modes", "why_tests_cant": "rates hold for all functions and all k; the divergence needs a Lipschitz constant near a million, the loss of monotonicity a start far away on a flat part", "anchors": ["jaxopt/_src/proximal_gradient.py:fista_line_search", "jaxopt/_src/proximal_gradient.py:ProximalGradient._iter", "jaxopt/_src/proximal_gradient.py:ProximalGradient._update", "jaxopt/_src/proximal_gradient.py:ProximalGradient._update_accel"]}
{"id": "C99", "title": "BoxOSQP with its adaptive stepsize reaches SOLVED", "statement": "On a feasible convex QP with an exact linear solver, BoxOSQP with rho adapted every stepsize_updates_frequency iterations ends with status SOLVED once maxiter is large enough. True if the product of the factors max(rho'/rho, rho/rho') of all changes stays bounded (in particular for a constant rho or a single update); a change of rho multiplies the distance to a KKT point by at most that factor.", "quantifier": "every convex QP with a KKT point, every start, every maxiter, every tolerance; adaptive stepsizes in [rho_min, rho_max]", "why_tests_cant": "convergence for all problems; the failure needs a problem on which the residuals of the adaptation alternate for ever", "anchors": ["jaxopt/_src/osqp.py:BoxOSQP._update_stepsize", "jaxopt/_src/osqp.py:BoxOSQP._admm_step", "jaxopt/_src/osqp.py:BoxOSQP.update"]}
{"id": "C100", "title": "Gradient descent with all default options converges on smooth convex functions", "statement": "GradientDescent (ProximalGradient without a prox) with its default attributes, run on a convex function with Lipschitz gradient that has a minimiser, brings the objective to its minimum as maxiter grows. False, with and without acceleration. True without acceleration when maxls is at least maxiter + log2(L): then F(x) - F(u) <= |x0-u|^2/(2 sigma n) + n eps/sigma after n iterations.", "quantifier": "every convex L-smooth function, every start, every maxiter and tol", "why_tests_cant": "convergence for all problems; the failure needs starts from which the iterates cross the kink with ever longer steps", "anchors": ["jaxopt/_src/proximal_gradient.py:fista_line_search", "jaxopt/_src/proximal_gradient.py:ProximalGradient._iter", "jaxopt/_src/proximal_gradient.py:ProximalGradient._update_accel", "jaxopt/_src/gradient_descent.py:GradientDescent"]}
{"id": "C101", "title": "Derivatives computed at an approximate solution are accurate to the order of the tolerance", "statement": "root_jvp and root_vjp, evaluated at the point a solver returned and with a linear solver of relative residual eta, differ from the derivative of the exact solution map by at most a constant times (distance to the solution + eta). For FixedPointIteration on a contraction the error is O(tol + eta). The derivative of the unrolled iteration converges to the implicit derivative with the number of iterations, but a small final error says nothing about it.", "quantifier": "every optimality function with Lipschitz derivatives, every approximate solution, every tangent and cotangent, every linear solver with relative residual eta, every number of iterations", "why_tests_cant": "error bound for all problems and tolerances", "anchors": ["jaxopt/_src/implicit_diff.py:root_vjp", "jaxopt/_src/implicit_diff.py:root_jvp", "jaxopt/_src/implicit_diff.py:custom_fixed_point", "jaxopt/_src/fixed_point_iteration.py:FixedPointIteration.update"]}
{"id": "C102", "title": "Broyden converges superlinearly near a root", "statement": "For parameters made of one leaf, from a point close enough to a root, with 1/gamma close enough to the derivative at the root: the default line search accepts the unit step, every update is defined (positive denominator), every update at least halves the distance to the root, in finite dimension the n-th error is at most (C/n)^(n/2) times the first with C independent of n, and run returns a point whose residual norm is at most tol.", "quantifier": "every residual function, root, starting point and gamma satisfying the closeness conditions, every number of iterations up to history_size (by default maxiter)", "why_tests_cant": "convergence rate for all problems near a root", "anchors": ["jaxopt/_src/broyden.py:Broyden.update", "jaxopt/_src/broyden.py:inv_jacobian_product", "jaxopt/_src/broyden.py:inv_jacobian_rproduct", "jaxopt/_src/broyden.py:Broyden._cond_fun", "jaxopt/_src/backtracking_linesearch.py:BacktrackingLineSearch.update"]}
{"id": "C103", "title": "The evaluation counters count the evaluations", "statement": "When a line search or a solver that calls one returns, num_fun_eval and num_grad_eval are the numbers of evaluations of the function and of its gradient made during the call; with k trials a backtracking search makes k evaluations of both for the Wolfe conditions, and k+1 of the function and 1 of the gradient for the Armijo and Goldstein conditions (one more of each when value and gradient are not given).", "quantifier": "every function, point, direction, stepsize, option of the three line searches, every sequence of searches of a solver", "why_tests_cant": "the number of evaluations depends on the path taken through nested loops", "anchors": ["jaxopt/_src/backtracking_linesearch.py:BacktrackingLineSearch.update", "jaxopt/_src/zoom_linesearch.py:ZoomLineSearch.init_state", "jaxopt/_src/zoom_linesearch.py:ZoomLineSearch.update", "jaxopt/_src/hager_zhang_linesearch.py:HagerZhangLineSearch.update", "jaxopt/_src/hager_zhang_linesearch.py:HagerZhangLineSearch._secant2", "jaxopt/_src/bfgs.py:BFGS.update", "jaxopt/_src/lbfgs.py:LBFGS.update"]}
{"id": "C104", "title": "Complex parameters are optimised as pairs of real parameters", "statement": "With the gradient that JAX returns for a real function of complex parameters, every run of LBFGS, of NonlinearCG and of the backtracking, zoom and Hager-Zhang line searches is the run on the real and imaginary parts of the same function: parameters, step sizes, values, errors, histories and failure flags correspond and stored gradients are conjugate.", "quantifier": "every differentiable real function on complex arrays, initial point, choice of attributes, line search and interpolation, given or default direction, number of iterations", "why_tests_cant": "the tests compare five iterations on one function", "anchors": ["jaxopt/_src/lbfgs.py:LBFGS.update", "jaxopt/_src/lbfgs.py:inv_hessian_product", "jaxopt/_src/nonlinear_cg.py:NonlinearCG.update", "jaxopt/_src/backtracking_linesearch.py:BacktrackingLineSearch.update", "jaxopt/_src/zoom_linesearch.py:ZoomLineSearch._value_and_slope_on_line", "jaxopt/_src/hager_zhang_linesearch.py:HagerZhangLineSearch._value_and_grad_on_line", "jaxopt/_src/tree_util.py:tree_vdot_real", "jaxopt/_src/tree_util.py:tree_conj"]}
{"id": "C105", "title": "Runs do not depend on the choice of orthonormal coordinates", "statement": "For every orthogonal matrix Q (rotation, reflection, permutation or reshaping of the parameters), minimising x -> F(Qx) from x0 and minimising F from Q x0 give the same run of LBFGS, NonlinearCG, BFGS, GradientDescent and ProximalGradient (with corresponding proximity operators): parameters, velocities, gradients and histories are mapped by Q, the inverse Hessian approximation of BFGS becomes Q H Q^T, step sizes, values, errors, iteration counts and failure flags are equal.", "quantifier": "every differentiable function, orthogonal matrix, initial point, choice of attributes, line search and interpolation, number of iterations", "why_tests_cant": "tests fix one coordinate system and compare numbers with scipy on a few functions", "anchors": ["jaxopt/_src/lbfgs.py:LBFGS.update", "jaxopt/_src/nonlinear_cg.py:NonlinearCG.update", "jaxopt/_src/bfgs.py:BFGS.update", "jaxopt/_src/proximal_gradient.py:ProximalGradient.update", "jaxopt/_src/gradient_descent.py:GradientDescent"]}
{"id": "C106", "title": "The warnings of the zoom line search are true", "statement": "With verbose output, a zoom search prints 'sufficient decrease but curvature condition not satisfied' exactly when the returned step is such a step, 'no stepsize satisfying sufficient decrease found' exactly when it fails and no step it tried has sufficient decrease, 'NaN or Inf values' exactly when a tried step has such a value, 'consider augmenting the number of iterations' only when all iterations were used along a descent direction, 'not a descent direction' exactly for those failures whose slope at zero is not negative, 'cannot even make a step without getting Inf or Nan' only when no tried step has a finite value, and 'does not reduce values' only when the value is not reduced; a search that prints nothing satisfies both conditions.", "quantifier": "every function (values may be NaN or infinite), direction with finite slope, positive initial stepsize, attributes, interpolation formulas", "why_tests_cant": "the tests look for a message in a handful of captured outputs", "anchors": ["jaxopt/_src/zoom_linesearch.py:ZoomLineSearch._make_safe_step", "jaxopt/_src/zoom_linesearch.py:ZoomLineSearch.failure_diagnostic", "jaxopt/_src/zoom_linesearch.py:ZoomLineSearch._search_interval", "jaxopt/_src/zoom_linesearch.py:ZoomLineSearch._zoom_into_interval"]}
{"id": "C107", "title": "Differentiating through the loops gives the derivative of the run", "statement": "With implicit_diff=False, forward mode through any accepted loop and reverse mode through an unrolled loop (scan or Python) return the derivative of the loop result and its adjoint, whatever the number of iterations, provided the body is differentiable where it is applied and the stopping test does not flip nearby; reverse mode is possible for unroll='auto' exactly when implicit differentiation or jit is off; a run of FixedPointIteration whose errors differ from the tolerance keeps its number of iterations nearby and has the derivative of the unrolled iteration.", "quantifier": "every loop body and condition on a normed space, number of iterations, back-end, argument, tangent and cotangent; every differentiable fixed point map", "why_tests_cant": "tests compare a few numerical derivatives; the set of points where the stopping test flips has measure zero", "anchors": ["jaxopt/_src/loop.py:_while_loop_scan", "jaxopt/_src/loop.py:_while_loop_python", "jaxopt/_src/loop.py:_while_loop_lax", "jaxopt/_src/loop.py:while_loop", "jaxopt/_src/base.py:IterativeSolver._get_unroll_option"]}
{"id": "C108", "title": "Bisection keeps a valid bracket in floating-point arithmetic", "statement": "With any monotone rounding, any computed function (including NaN values) and ends whose doubles do not overflow, the bracket stays inside the initial one with ends in the format and in order, its lower end is the initial one or a point where the computed function is not above zero and its upper end the initial one or a point where it is above zero (for an increasing bracket), its width is halved up to the rounding of the midpoints, and the returned point is an end of the last bracket; if the computed function is within d of a continuous function, the returned point is within the width of the last bracket of a point where that function is at most d in absolute value. With exact arithmetic this is the model of C05. Without the condition on doubling a finite bracket containing a root can give infinity, and the error sqrt(value**2) can be 0 at a point that is not a root.", "quantifier": "every number format with monotone rounding, computed function, bracket, tolerance and number of iterations", "why_tests_cant": "tests run one format on a few functions; invariants under every rounding are not observable", "anchors": ["jaxopt/_src/bisection.py:Bisection.init_state", "jaxopt/_src/bisection.py:Bisection.update", "jaxopt/_src/bisection.py:Bisection.run"]}
{"id": "C109", "title": "Batched runs are the individual runs", "statement": "Under jax.vmap every accepted loop, branch and run returns for each element of the batch exactly what it returns for that element alone, whatever the numbers of iterations the elements need, also when loops are nested; a batched lax.while_loop evaluates its body as often as the slowest element needs; lax.while_loop accepts every bound (also one for each element), scan every static non-negative bound, the Python loop none with at least one pass. Batched bisection without the check of the bracket is the individual runs; with the default check it always raises.", "quantifier": "every finite batch, condition, body, bound, back-end; every function and bracket for bisection", "why_tests_cant": "tests batch a few problems that need similar numbers of iterations", "anchors": ["jaxopt/_src/loop.py:while_loop", "jaxopt/_src/loop.py:_while_loop_scan", "jaxopt/_src/loop.py:_while_loop_lax", "jaxopt/_src/loop.py:_while_loop_python", "jaxopt/_src/cond.py:cond", "jaxopt/_src/base.py:IterativeSolver._run", "jaxopt/_src/bisection.py:Bisection.init_state"]}
{"id": "C110", "title": "Fixed point iteration with an inexact map", "statement": "When the map given to FixedPointIteration agrees with a contraction T of factor q only up to d (rounding, an inner solver) and the norm is computed up to h, the iterates approach the fixed point of T geometrically down to d/(1-q), the reported error e bounds the distance by (q(e+h)+d)/(1-q), and every tolerance above 2d/(1-q)+h is reached given enough iterations; the threshold 2d/(1-q) is sharp: below it a run can use any number of iterations without stopping.", "quantifier": "every contraction, inexact map, start, tolerance and number of iterations", "why_tests_cant": "tests run exact maps on a few problems; the sharp threshold needs all maps", "anchors": ["jaxopt/_src/fixed_point_iteration.py:FixedPointIteration.update", "jaxopt/_src/base.py:IterativeSolver.run"]}
{"id": "C111", "title": "Penalised and constrained regression, end to end", "statement": "ProximalGradient on least_squares with prox_lasso, prox_elastic_net, prox_non_negative_lasso or prox_ridge, on binary_logreg with prox_lasso, and ProjectedGradient on least_squares with projection_non_negative, projection_box, projection_simplex or projection_l1_ball return a feasible point whose value of the documented regression objective (for prox_ridge: of ridge_regression) exceeds the value at any feasible point u by at most 2|x0-u|^2/(s (k+1)^2) with acceleration and |x0-u|^2/(2 s k) without, where k is the reported number of iterations and s any constant step with s * sum X_ij^2 <= n_samples (four times that for logistic regression).", "quantifier": "every data set, penalty, constraint parameter, start, competitor, option and number of iterations", "why_tests_cant": "tests compare a few data sets with another solver up to a tolerance; the bound holds for all data and all iteration counts", "anchors": ["jaxopt/_src/proximal_gradient.py:ProximalGradient.run", "jaxopt/_src/projected_gradient.py:ProjectedGradient.__post_init__", "jaxopt/_src/objective.py:LeastSquares.__call__", "jaxopt/_src/objective.py:BinaryLogreg", "jaxopt/_src/objective.py:ridge_regression", "jaxopt/_src/prox.py:prox_lasso", "jaxopt/_src/projection.py:projection_simplex"]}
{"id": "C112", "title": "When the Goldstein search of ArmijoSGD accepts a step", "statement": "With reset_option='goldstein' an accepted step satisfies (1-2*aggressiveness)*stepsize*|grad|^2 <= eps, so for aggressiveness < 1/2 (which the constructor allows) no step is ever accepted in exact arithmetic and all maxls passes are used. On an L-smooth mu-strongly convex batch objective whose window [2(1-a)/mu, 2a/L] is wide enough for both factors, the search ends with a step satisfying both conditions once maxls exceeds the number of multiplications needed to reach the window. On other convex smooth objectives the default options can cycle between two rejected steps, and the update then returns a point with a larger objective whatever maxls.", "quantifier": "every objective, batch, point, step, option and maxls", "why_tests_cant": "tests run a few data sets where the search ends; the non-termination depends on the ratio of the factors and the objective", "anchors": ["jaxopt/_src/armijo_sgd.py:armijo_line_search", "jaxopt/_src/armijo_sgd.py:wolfe_cond_violated", "jaxopt/_src/armijo_sgd.py:curvature_cond_violated", "jaxopt/_src/armijo_sgd.py:ArmijoSGD.update", "jaxopt/_src/armijo_sgd.py:ArmijoSGD.__post_init__"]}
{"id": "C113", "title": "Bound constraints hold in floating-point arithmetic", "statement": "Whatever the floating-point format, the computed functions and the start, a run with maxiter >= 1 of BoxCDQP, of ProjectedGradient with projection_box or projection_non_negative and of LBFGSB without line search returns coordinates that are NaN or satisfy the bounds exactly. LBFGSB with a line search computes params + stepsize * (target - params) without clipping: it satisfies the bounds exactly when the difference is exact, overshoots by at most (2 eps + eps^2) times the width of the box plus one rounding error otherwise, and does overshoot: in binary64, from -3 with bounds [-4, 0.1], it returns 0.10000000000000009.", "quantifier": "every format, objective, direction, step, start and number of iterations", "why_tests_cant": "tests compare with a tolerance, so one unit in the last place outside the bounds is not seen, although an objective such as log(upper - x) is NaN there", "anchors": ["jaxopt/_src/lbfgsb.py:LBFGSB.update", "jaxopt/_src/cd_qp.py:fori_loop_body_fun", "jaxopt/_src/projected_gradient.py:ProjectedGradient.run", "jaxopt/_src/projection.py:projection_box", "jaxopt/_src/projection.py:projection_non_negative", "jaxopt/_src/proximal_gradient.py:ProximalGradient._prox_grad"]}
{"id": "C114", "title": "Isotonic regression in floating-point arithmetic", "statement": "isotonic_l2_pav returns for every arithmetic of the pooling loops (rounded, overflowing, NaN). In IEEE arithmetic with any rounding and any type of y the result is exactly monotone in the requested direction, without tolerance, and one NaN in y makes every entry NaN. With relative rounding error u every entry is within 2 n max|y| ((1+u)^(n+1) - 1), plus the error of the final conversion, of the exact constrained least-squares solution; in binary64 this is about 2 n^2 2^-53 max|y|. Not true: a constant sequence is returned unchanged (three times 0.1 gives 0.10000000000000002), and integer data are averaged correctly (1, 1, 0 gives 0, 0, 0 because the averages are truncated).", "quantifier": "every length, every data, direction and bounds, every rounding", "why_tests_cant": "tests compare a few random vectors with scikit-learn up to a tolerance: they cannot show exact monotonicity or termination for every rounding, and never use NaN or integers", "anchors": ["jaxopt/_src/isotonic.py:_isotonic_l2_pav_numba", "jaxopt/_src/isotonic.py:isotonic_l2_pav"]}
{"id": "C115", "title": "Automatic differentiation of prox_group_lasso and of the l2 projections", "statement": "For every x other than 0 and off the kink (norm equal to the threshold or radius), the forward and reverse passes that JAX derives from prox_group_lasso, projection_l2_ball and projection_l2_sphere are finite and equal the Frechet derivative and its adjoint, also with respect to l2reg; on the kinks the reverse pass is still finite and the transpose of the forward pass. At x = 0 the forward passes of the ball and the group lasso equal the derivative (identity, zero), but the reverse passes are NaN in every coordinate for every cotangent, zero included, although the functions are differentiable there; with l2reg = 0 the forward pass at 0 returns 0 where the derivative is the identity.", "quantifier": "every dimension, point, radius, penalty, tangent and cotangent", "why_tests_cant": "the tests differentiate at a few random points by comparison with finite differences: they never hit the origin and cannot cover all points", "anchors": ["jaxopt/_src/prox.py:prox_group_lasso", "jaxopt/_src/projection.py:projection_l2_ball", "jaxopt/_src/projection.py:projection_l2_sphere", "jaxopt/_src/tree_util.py:tree_l2_norm"]}
{"id": "C116", "title": "Constants in the objective and the choice of the origin", "statement": "Replacing f(x) by f(x - a) + c and x0 by x0 + a translates the whole run of ProximalGradient and GradientDescent (plain or accelerated, any step size rule): parameters move by a, step sizes and errors are the same. The same holds for LBFGS, BFGS and NonlinearCG with prescribed step sizes, with backtracking, or for c = 0; zoom and Hager-Zhang searches ignore c when their approximate Wolfe thresholds are zero. With the default thresholds the claim is false: after adding 10^6 to the objective the zoom search of LBFGS accepts a step that increases the objective where it would have accepted a descending one, and Hager-Zhang ends at another local minimum.", "quantifier": "every objective, gradient, translation, constant, starting point and setting of the attributes", "why_tests_cant": "the tests use objectives with small values and never compare runs of shifted problems", "anchors": ["jaxopt/_src/zoom_linesearch.py:_decrease_error", "jaxopt/_src/hager_zhang_linesearch.py:_value_and_grad_on_line", "jaxopt/_src/backtracking_linesearch.py:update", "jaxopt/_src/lbfgs.py:update", "jaxopt/_src/bfgs.py:update", "jaxopt/_src/nonlinear_cg.py:update", "jaxopt/_src/proximal_gradient.py:fista_line_search"]}
{"id": "C117", "title": "BoxOSQP with infeasibility checks stops on every convex program", "statement": "With a constant stepsize (rho_min = rho_max = rho_start), exact linear solves, 0 < momentum < 2, positive tolerances and check_primal_dual_infeasability=True, a run of BoxOSQP on a convex program with consistent bounds (c nonzero and zero outside the bounds, so that no NaN appears) with enough iterations raises 'Primal infeasible.' or 'Dual infeasible.' or returns a status other than unsolved, whether or not the program has a solution. The differences of consecutive iterates converge. The limit for the multipliers is zero exactly if the program is feasible, and otherwise an exact certificate of infeasibility; the limit for the variables is zero exactly if the dual program is feasible, and otherwise an exact certificate of dual infeasibility. If no point satisfies the optimality conditions up to tol then infeasibility is reported.", "quantifier": "every symmetric positive semidefinite Q, c, A, bounds (finite or infinite), stepsize, starting point, tolerances and test frequency", "why_tests_cant": "two infeasible programs are tested; termination on every infeasible or unbounded program is a limit statement", "anchors": ["jaxopt/_src/osqp.py:_check_dual_infeasability", "jaxopt/_src/osqp.py:_check_primal_infeasability", "jaxopt/_src/osqp.py:_check_termination_conditions", "jaxopt/_src/osqp.py:_admm_step", "jaxopt/_src/osqp.py:update"]}
{"id": "C118", "title": "The simplex projections in floating-point arithmetic", "statement": "With rounded arithmetic (relative error at most u per operation, monotone rounding, no overflow or underflow) and any order of the additions inside cumsum: for representable inputs idx is between 1 and n (no division by zero), the entries are non-negative and ordered as the inputs (equal inputs give equal entries). If |x_i| <= M then each entry of _projection_unit_simplex is within (n+1) e of the exact projection, with e = ((1+u)^2-1)(1+M) + M((1+u)^(n+3)-1), so the entries sum to one up to n(n+1)e. The same holds for _projection_unit_sparse_simplex with max_nz in place of n (the other entries are exactly zero), and for projection_simplex with the additional roundings of the scaling. The error is relative to the size of the inputs and not to the size of the result: in binary64 the inputs (2^53+72, 2^53+74) give (1/2, 5/2), which sums to three.", "quantifier": "every rounding function, size, input vector, max_nz, positive value and bracketing of the sums", "why_tests_cant": "tests compare random normal vectors with a tolerance; a bound for all vectors, sizes and summation orders cannot be sampled", "anchors": ["jaxopt/_src/projection.py:_projection_unit_simplex", "jaxopt/_src/projection.py:projection_simplex", "jaxopt/_src/projection.py:_projection_unit_sparse_simplex"]}
{"id": "C119", "title": "Local convergence of Levenberg-Marquardt", "statement": "Near a root of the residual at which the Jacobian is injective (Jacobian Lipschitz with constant c, between s and b on a ball of radius R; exact linear solves, no geodesic acceleration): the gain ratio is at least 1 - kappa d at distance d, so every step is accepted; one update multiplies the distance by at most mu/(s^2+mu) + c d/(2s) and divides the damping by between 4/3 and 3; eventually the damping is divided by exactly three in each update. For every bound on the damping there is a ball from which the iterates stay in the ball and converge superlinearly to the root, and a run with a positive tolerance stops by the tolerance at distance at most 2 tol / s^2. The convergence is not quadratic, because the damping decreases only by a factor of three per update: for r(x) = x no constant C gives |x_(k+1)| <= C x_k^2, whatever the start and damping parameter.", "quantifier": "every inner product space, residual function, solver satisfying its specification, damping parameter, consistent state in the ball and iteration count", "why_tests_cant": "tests run a few problems to a tolerance; asymptotic rates and acceptance of all steps are statements about every k", "anchors": ["jaxopt/_src/levenberg_marquardt.py:LevenbergMarquardt.update", "jaxopt/_src/levenberg_marquardt.py:LevenbergMarquardt.update_state_using_gain_ratio", "jaxopt/_src/levenberg_marquardt.py:LevenbergMarquardt.update_state_using_delta_params"]}
{"id": "C120", "title": "L-BFGS-B without bounds", "statement": "With infinite bounds, exact linear algebra and a history with positive curvatures, the subspace minimiser of LBFGSB is params plus the L-BFGS direction (two-loop recursion) of the stored pairs in buffer order with gamma = 1/theta. So with the same attributes, theta = 1 and any line search, LBFGSB and LBFGS produce the same parameters, values, gradients and stepsizes up to iteration history_size + 1, as long as the curvatures are positive. Afterwards they may differ although all curvatures are positive, because LBFGSB does not reorder the wrapped buffer: for x^2 + x^4 with history_size 2 the fourth iterates are 12/13 and 4/5. Nevertheless, on a mu-strongly convex L-smooth function with the Armijo backtracking line search every iteration of LBFGSB without bounds is defined, no line search fails and the excess contracts by a factor that depends only on mu, L, the history size and the line search, also after the buffer has wrapped around.", "quantifier": "every objective, dimension, history size, line search, starting point and iteration count", "why_tests_cant": "tests compare final parameters with scipy within a tolerance; agreement of all iterates, and where it ends, is not visible there", "anchors": ["jaxopt/_src/lbfgsb.py:LBFGSB.update", "jaxopt/_src/lbfgsb.py:_find_cauchy_point", "jaxopt/_src/lbfgsb.py:_minimize_subspace", "jaxopt/_src/lbfgs.py:LBFGS.update"]}
{"id": "C121", "title": "Superlinear convergence of BFGS", "statement": "On a strongly convex function with Lipschitz continuous gradient whose Hessian exists at the minimiser and is Lipschitz continuous there, BFGS with the Armijo backtracking line search (c1 < 1/2, max_stepsize = 1, linesearch_init max or increase with increase_factor > 1), as long as no search fails, eventually takes only unit steps, and the distance to the minimiser is eventually divided by any given factor at each iteration. The update of H alone gives the condition of Dennis and More: if the pairs satisfy |y - G s| <= e |s| with the e square summable, then |(B - G) s| / |s| tends to zero, without convergence of the matrices. With linesearch_init = current the steps cannot grow back after a search that backtracked, and the convergence is only linear: on 3/2 |x|^2 all steps are 1/2.", "quantifier": "every dimension, objective with these properties, starting point and parameters in the ranges", "why_tests_cant": "an asymptotic rate is not visible in a finite run, and runs in floating point stop before it", "anchors": ["jaxopt/_src/bfgs.py:BFGS.update", "jaxopt/_src/backtracking_linesearch.py:BacktrackingLineSearch.update", "jaxopt/_src/linesearch_util.py:_init_stepsize"]}
{"id": "C122", "title": "The zeros, signs and active bounds of the solution are found exactly after finitely many iterations", "statement": "ProximalGradient with prox_lasso, prox_elastic_net or prox_non_negative_lasso and ProjectedGradient on a box, the non-negative orthant, the simplex or the l1 ball, with a constant step of at most 1/L and with or without acceleration, on a convex smooth function: if the solution is unique and non-degenerate (strict inequalities for the partial derivatives at zeros or active bounds), all but finitely many iterates have exactly the zeros and signs (or active bounds) of the solution, and so do the results of all runs with enough iterations. For the lasso a step from any point closer than rho to the solution already does it, where rho is the smallest of the nonzero |u_j| and the s (l_j - |d_j f(u)|); with strong convexity this gives explicit iteration counts. Without non-degeneracy it is false: there is a strongly convex lasso problem with solution 0 whose iterates are never 0.", "quantifier": "every dimension, convex smooth function, penalty, bounds, start, step at most 1/L, maxiter and tol", "why_tests_cant": "finitely many runs cannot show that zeros stay zero ever after, for all problems", "anchors": ["jaxopt/_src/proximal_gradient.py:ProximalGradient._update", "jaxopt/_src/proximal_gradient.py:ProximalGradient._update_accel", "jaxopt/_src/prox.py:prox_lasso", "jaxopt/_src/prox.py:prox_elastic_net", "jaxopt/_src/prox.py:prox_non_negative_lasso", "jaxopt/_src/projected_gradient.py:ProjectedGradient", "jaxopt/_src/projection.py:projection_box"]}
{"id": "C123", "title": "The unaccelerated methods stop at approximately stationary points of nonconvex functions", "statement": "ProximalGradient and ProjectedGradient without acceleration, constant step s, f smooth but not necessarily convex, F = f + h bounded below: with a convex penalty or set and s < 2/L a run makes at most 1 + (F(x0) - inf F)/(s (1 - s L/2) tol^2) iterations, ends by the error test when maxiter allows that many, never ends above F(x0), and the first-order condition holds at its result up to (1 + s L) times the final error. With an arbitrary penalty or set (for instance projection_sparse_simplex) the same holds for s < 1/L with s (1 - s L)/2 and an additional quadratic term. Both limits are necessary: at s = 2/L gradient descent alternates forever on a quadratic, and on the sparse simplex a step of 3/(2L) alternates between two vertices for every maxiter.", "quantifier": "every function with these properties, start in the domain, step below the limit, tol and maxiter", "why_tests_cant": "runs on sample problems do not bound the number of iterations over all nonconvex functions", "anchors": ["jaxopt/_src/proximal_gradient.py:ProximalGradient._update", "jaxopt/_src/proximal_gradient.py:ProximalGradient._error", "jaxopt/_src/projected_gradient.py:ProjectedGradient", "jaxopt/_src/projection.py:projection_sparse_simplex", "jaxopt/_src/base.py:IterativeSolver.run"]}
{"id": "C124", "title": "Anderson acceleration converges locally on differentiable maps, but not globally on contractions", "statement": "Let G be differentiable at a fixed point with a derivative of norm at most c < 1, and let max(c, |1-beta| + |beta| c) < q < 1. There is a neighbourhood of the fixed point such that every AndersonAcceleration run started in it, whatever mixing_frequency, has residuals at most q^ceil(k/m) times the first; its points and iterates converge to the fixed point, and with enough iterations it returns an error within tol and a point within 2/(1-c) tol of the fixed point. The iterates of AndersonWrapper around a memoryless solver converge likewise. The neighbourhood is needed: on a contraction of the real line with constant 4/5, default beta and ridge, history_size = mixing_frequency = 2, a run alternates between four points for every maxiter.", "quantifier": "every map differentiable at the fixed point, start in the neighbourhood, history size, mixing frequency, ridge, beta, exact linear solver, maxiter and tol", "why_tests_cant": "a limit over infinitely many iterations for all maps; sample maps converge even where the claim of global convergence is false", "anchors": ["jaxopt/_src/anderson.py:AndersonAcceleration.update", "jaxopt/_src/anderson.py:anderson_step", "jaxopt/_src/anderson.py:minimize_residuals", "jaxopt/_src/anderson_wrapper.py:AndersonWrapper.update"]}
{"id": "C125", "title": "Implicit derivatives of constrained programs are the derivatives of the solution", "statement": "Let the data of a program with equality and inequality constraints be continuously differentiable in the variables and in parameters, and let a Karush-Kuhn-Tucker point be regular: strict complementarity, linearly independent gradients of the active constraints, second-order sufficient condition. Then the root of make_kkt_optimality_fun is, near the point, one differentiable function of the parameters whose values keep the signs of a Karush-Kuhn-Tucker point, the linear system of root_vjp and root_jvp is invertible, root_jvp returns its directional derivative and root_vjp its transposed partial derivatives. For convex quadratic programs (the optimality function of CvxpyQP) the primal part is the unique minimiser for all parameters nearby. Strict complementarity cannot be dropped: for min x^2/2 - t x subject to x <= 0, no choice of solutions is differentiable at t = 0 and the system is singular.", "quantifier": "every program with such data, every regular solution, every tangent and cotangent, every exact linear solver, all parameters in a neighbourhood", "why_tests_cant": "a statement about derivatives for all data; finite differences test one program at a time up to truncation error", "anchors": ["jaxopt/_src/implicit_diff.py:make_kkt_optimality_fun", "jaxopt/_src/implicit_diff.py:root_vjp", "jaxopt/_src/implicit_diff.py:root_jvp", "jaxopt/_src/cvxpy_wrapper.py:_make_cvxpy_qp_optimality_fun"]}
{"id": "C126", "title": "Implicit derivatives of BoxOSQP and OSQP are right on singular systems, except at zero multipliers", "statement": "Let the data of BoxOSQP be continuously differentiable in parameters, convex, with consistent bounds, and let a solution be regular: every active row, equality rows included, has a nonzero multiplier, the active rows are linearly independent, and the objective is curved on their null space. Then nearby programs have a unique minimiser which, with the multipliers BoxOSQP reports, is a differentiable function of the parameters and a root of the optimality function. The linear system of root_vjp and root_jvp is singular as soon as one row has an infinite bound or equal bounds, hence for every OSQP program; still, for every solver of consistent systems (solve_normal_cg among them) root_jvp gives the derivative in x, z, y and the multipliers of finite bounds of inequality rows, and root_vjp the transposed derivative for cotangents on these entries. At an equality row with zero multiplier this is false: for min x^2/2 subject to x = t at t = 0 the gradient is zero for every linear solver, while the solution is x = t.", "quantifier": "every such family of programs, every regular solution, tangent, cotangent supported on determined entries, every solver of consistent linear systems, all parameters in a neighbourhood", "why_tests_cant": "gradient tests use generic data, where equality multipliers are nonzero, and cannot show that the arbitrary component of a singular solve never matters", "anchors": ["jaxopt/_src/osqp.py:_make_osqp_optimality_fun", "jaxopt/_src/osqp.py:BoxOSQP._get_full_KKT_solution", "jaxopt/_src/osqp.py:OSQP_to_BoxOSQP.transform", "jaxopt/_src/implicit_diff.py:root_vjp", "jaxopt/_src/implicit_diff.py:root_jvp", "jaxopt/_src/linear_solve.py:solve_normal_cg"]}
{"id": "C127", "title": "Implicit derivatives of lasso, elastic net and bound-constrained solutions are the derivatives of the solution", "statement": "Let f be convex with a gradient that is continuously differentiable in the variable and the parameters, and let x0 minimise f plus a lasso or elastic-net penalty, or f between bounds, where the weights or bounds may depend on the parameters too. Suppose x0 is non-degenerate (the gradient is strictly below the weight at zeros; it is not zero at active bounds) and the objective is strictly curved on the free coordinates. Then for all nearby parameters the minimiser is unique, has the same zeros and signs (the same active bounds), and is differentiable at the given parameters; root_jvp and root_vjp of ProximalGradient.optimality_fun and ProjectedGradient.optimality_fun give exactly its derivative and transposed derivative, with respect to the arguments of f and to the hyperparameters of the prox or projection. Without non-degeneracy the solution need not be differentiable.", "quantifier": "every such family of objectives and penalties or bounds, every non-degenerate solution, every tangent and cotangent, every exact linear solver, all parameters in a neighbourhood", "why_tests_cant": "gradient tests compare with finite differences at sample data; they neither show that the support is locally constant nor that it never matters which coordinates are at a kink elsewhere", "anchors": ["jaxopt/_src/proximal_gradient.py:ProximalGradient.optimality_fun", "jaxopt/_src/projected_gradient.py:ProjectedGradient.optimality_fun", "jaxopt/_src/prox.py:prox_lasso", "jaxopt/_src/prox.py:prox_elastic_net", "jaxopt/_src/projection.py:projection_box", "jaxopt/_src/implicit_diff.py:root_vjp", "jaxopt/_src/implicit_diff.py:root_jvp"]}
{"id": "C128", "title": "Hyperparameter gradients of lasso regression, sparse logistic regression and box-constrained quadratic programs are right", "statement": "For lasso regression (ProximalGradient or BlockCoordinateDescent with least_squares and prox_lasso), sparse logistic regression (ProximalGradient with binary_logreg) and box-constrained quadratic programs (BoxCDQP), where the design matrix, targets, weights, quadratic and linear terms and bounds are continuously differentiable functions of parameters: if the columns of the design matrix in the support of the solution are independent and the residual correlations are strictly below the weights off the support (for BoxCDQP: the gradient is not zero at active bounds and the matrix is positive definite on the free coordinates), then the solution is unique and differentiable for nearby parameters, keeps its support, signs and active bounds, and implicit differentiation of the solver's optimality function returns its derivative in both modes.", "quantifier": "all data of these problems, all sizes, every smooth parametrisation, every solution satisfying the stated non-degeneracy, every tangent and cotangent, every exact linear solver", "why_tests_cant": "the existing tests compare one lasso Jacobian with finite differences of scikit-learn; no finite set of data covers all supports and parametrisations", "anchors": ["jaxopt/_src/proximal_gradient.py:ProximalGradient.optimality_fun", "jaxopt/_src/block_cd.py:BlockCoordinateDescent.optimality_fun", "jaxopt/_src/block_cd.py:BlockCoordinateDescent._fixed_point_fun", "jaxopt/_src/cd_qp.py:BoxCDQP._fixed_point_fun", "jaxopt/_src/cd_qp.py:BoxCDQP.optimality_fun", "jaxopt/_src/objective.py:LeastSquares.subfun", "jaxopt/_src/objective.py:BinaryLogreg.subfun"]}
{"id": "C129", "title": "Implicit derivatives on the simplex, with a group penalty, and for every smooth proximal operator are right", "statement": "ProximalGradient: if the proximal operator is that of a convex function, is continuously differentiable near the forward point, and the Hessian of the smooth part is positive definite on the range of the operator's derivative (the curvature of the penalty may be added), then the solution is unique and differentiable for nearby parameters and implicit differentiation of optimality_fun returns its derivative in both modes. In particular for ProjectedGradient with projection_simplex when the partial derivatives at the zeros of the solution exceed those at its support and the Hessian is positive on zero-sum directions of the support (the support is kept, and the mass of the simplex may be a parameter); for prox_group_lasso at a zero solution with gradient smaller than the weight and at a non-zero solution with positive definite Hessian of the whole objective. MirrorDescent with the Kullback-Leibler projection: the same at every positive solution where the Hessian is positive on zero-sum directions.", "quantifier": "all convex objectives with continuously differentiable gradient, all dimensions, every smooth parametrisation of the objective, the mass and the weight, every solution satisfying the stated non-degeneracy, every tangent and cotangent, every exact linear solver", "why_tests_cant": "the existing tests differentiate a few simplex-constrained problems at one point; no finite set of problems covers all supports, objectives and parametrisations", "anchors": ["jaxopt/_src/proximal_gradient.py:ProximalGradient.optimality_fun", "jaxopt/_src/projected_gradient.py:ProjectedGradient.optimality_fun", "jaxopt/_src/mirror_descent.py:MirrorDescent.optimality_fun", "jaxopt/_src/mirror_descent.py:MirrorDescent._fixed_point_fun", "jaxopt/_src/projection.py:projection_simplex", "jaxopt/_src/prox.py:prox_group_lasso"]}
{"id": "C130", "title": "In floating-point arithmetic the losses are never negative, except the multiclass hinge and sparsemax losses", "statement": "For every symmetric monotone rounding with relative error u in which one is a number and halving is exact, every order of the additions, and elementary functions with exp(0) = 1, 0 <= exp <= 1 on non-positive numbers and log >= 0 from one on: the computed Huber loss is non-negative, zero at an exact prediction and non-decreasing in the size of the residual, also across the change of branch; sparse_plus is non-negative and non-decreasing and sparse_sigmoid stays in [0, 1]; the binary sparsemax loss is non-negative, monotone in the logit, zero from the margin one on and the size of the logit beyond one on the wrong side; the binary hinge loss is zero exactly when the margin is at least one and does not increase with the margin, the perceptron loss is exact; the binary logistic loss lies between the positive part of the logit and that plus log1p(1); the multiclass logistic loss is at least zero and at least every computed score difference, and exceeds the largest by at most the computed log of the number of classes; the multiclass perceptron loss is the rounded exact loss and is zero exactly when the label has the largest score. The multiclass hinge loss is non-negative when the label score plus one is representable and otherwise bounded below by a few rounding errors of the score; it is negative in binary32 for the scores (2^24, 0): -1. The multiclass sparsemax loss is -15/4 for two scores near 2^53 in binary64 whose exact loss is 0.", "quantifier": "every such rounding, every input of the format, every order of the additions in sums and dot products, every number of classes", "why_tests_cant": "tests compare with reference values up to a tolerance on scores of moderate size; sign and monotonicity across branches for all floats and summation orders cannot be sampled", "anchors": ["jaxopt/_src/loss.py:huber_loss", "jaxopt/_src/loss.py:sparse_plus", "jaxopt/_src/loss.py:sparse_sigmoid", "jaxopt/_src/loss.py:binary_hinge_loss", "jaxopt/_src/loss.py:binary_logistic_loss", "jaxopt/_src/loss.py:multiclass_logistic_loss", "jaxopt/_src/loss.py:multiclass_perceptron_loss", "jaxopt/_src/loss.py:multiclass_hinge_loss", "jaxopt/_src/loss.py:multiclass_sparsemax_loss"]}
{"id": "C131", "title": "Losses with excluded classes (score -inf): right for the logistic and sparsemax losses, NaN for hinge, perceptron and Fenchel-Young losses", "statement": "With IEEE infinities: if the classes of any set not containing the label have score -inf, multiclass_logistic_loss is the logistic loss over the remaining classes, which is the limit of the finite losses when these scores go to -inf, and multiclass_sparsemax_loss equals the loss of all finite scores in which each excluded class is at least one below some other class; if only the label is excluded, the logistic loss is +inf. Infinite logits give binary losses of 0 (right sign) or +inf (wrong sign). multiclass_hinge_loss, multiclass_perceptron_loss and every loss of make_fenchel_young_loss with a one-hot target are NaN as soon as a class other than the label has an infinite score, because they select the score of the label with a dot product (0 * inf), although the finite losses do not depend on a low enough score. On finite scores the IEEE versions of the hinge, perceptron, binary sparsemax and Fenchel-Young losses are those of exact arithmetic.", "quantifier": "every number of classes, every set of excluded classes, all scores of the others, every max function", "why_tests_cant": "tests check that the logistic loss is finite on one or two infinite inputs; they do not cover all masks nor compare with the limit", "anchors": ["jaxopt/_src/loss.py:multiclass_logistic_loss", "jaxopt/_src/loss.py:multiclass_sparsemax_loss", "jaxopt/_src/loss.py:multiclass_hinge_loss", "jaxopt/_src/loss.py:multiclass_perceptron_loss", "jaxopt/_src/loss.py:make_fenchel_young_loss", "jaxopt/_src/loss.py:binary_logistic_loss", "jaxopt/_src/projection.py:_projection_unit_simplex"]}
{"id": "C132", "title": "Automatic differentiation of the losses gives their gradients, at kinks too", "statement": "Forward-mode differentiation of the code of the losses, operation by operation with the rules of the JAX primitives, returns the value of the loss and the derivative along every differentiable curve of the arguments, at every point: huber_loss with a positive radius (in target, prediction and radius; also where the branch changes and where the residual is zero), binary_sparsemax_loss, binary_logistic_loss, multiclass_logistic_loss (although the maximum inside logsumexp is not differentiated and the label's centred score is a constant), and multiclass_sparsemax_loss (also where the support of the projection changes and the projection itself is not differentiable). For the binary and multiclass hinge and perceptron losses it returns a subgradient at every point, ties included; in the multiclass case its components sum to zero and the one of the label lies in [-1, 0].", "quantifier": "all labels, all numbers of classes, all real scores, all differentiable curves through them, all tangents", "why_tests_cant": "tests compare gradients at random points, which avoid the ties, the branch changes and the edges of the simplex where automatic differentiation can silently return something that is no derivative", "anchors": ["jaxopt/_src/loss.py:huber_loss", "jaxopt/_src/loss.py:binary_logistic_loss", "jaxopt/_src/loss.py:binary_sparsemax_loss", "jaxopt/_src/loss.py:sparse_plus", "jaxopt/_src/loss.py:binary_hinge_loss", "jaxopt/_src/loss.py:binary_perceptron_loss", "jaxopt/_src/loss.py:multiclass_logistic_loss", "jaxopt/_src/loss.py:multiclass_sparsemax_loss", "jaxopt/_src/loss.py:multiclass_hinge_loss", "jaxopt/_src/loss.py:multiclass_perceptron_loss", "jaxopt/_src/projection.py:_projection_unit_simplex_jvp"]}
{"id": "C133", "title": "Automatic differentiation of the thresholding operators and of the box, l1, hyperplane and half-space projections", "statement": "Forward-mode differentiation of the code, operation by operation with the rules of the JAX primitives, returns the value and the derivative along every differentiable curve of the point and of the parameters (weights, scaling, bounds, radius, normal, offset): prox_ridge and projection_hyperplane everywhere; prox_lasso, prox_elastic_net, prox_non_negative_lasso, prox_non_negative_ridge, projection_non_negative, projection_box, projection_hypercube, projection_linf_ball, projection_halfspace off their kinks; projection_l1_ball inside the ball and, if no coordinate is at the threshold, outside it, zero coordinates included. On the kinks the result is a one-sided derivative (0 for soft thresholding, the identity for the half-space) or the mean of the one-sided tangents (box with interior). Two cases where the operator is differentiable and the result is wrong: a zero coordinate with zero weight (prox_lasso and prox_elastic_net are the identity, the result is 0) and a point equal to both bounds of a fixed variable (the projection is constant, the result is 1/4); both carry over to implicit differentiation of ProximalGradient and ProjectedGradient.", "quantifier": "all dimensions, all points, all parameters, all differentiable curves through them", "why_tests_cant": "tests compare Jacobians at random points; zero coordinates, zero weights and points on their bounds have measure zero, but solutions of sparse and bound-constrained problems sit there", "anchors": ["jaxopt/_src/prox.py:prox_lasso", "jaxopt/_src/prox.py:prox_elastic_net", "jaxopt/_src/prox.py:prox_non_negative_lasso", "jaxopt/_src/prox.py:prox_ridge", "jaxopt/_src/prox.py:prox_non_negative_ridge", "jaxopt/_src/projection.py:projection_non_negative", "jaxopt/_src/projection.py:projection_box", "jaxopt/_src/projection.py:projection_hypercube", "jaxopt/_src/projection.py:projection_linf_ball", "jaxopt/_src/projection.py:projection_hyperplane", "jaxopt/_src/projection.py:projection_halfspace", "jaxopt/_src/projection.py:projection_l1_ball", "jaxopt/_src/proximal_gradient.py:ProximalGradient.optimality_fun"]}
{"id": "C134", "title": "Derivative of the box-section projection", "statement": "Differentiating projection_box_section (implicit differentiation of the bisection root, then the primitive rules of the last line) gives the derivative of the closest point of the box section in the point, the bounds, the weights and the offset, along every differentiable curve that keeps the bounds ordered, if the weights are positive, some coordinate of the solution is strictly between its bounds and no coordinate is on a kink; the closest point exists and is unique for all nearby data. With a free coordinate the tangents satisfy the differentiated constraint sum (w_i p_i)' = c' also on kinks. With fixed weights an approximate root in the same piece gives the same tangents, so the bisection error does not reach the derivative. At a vertex (every coordinate strictly beyond a bound) the result 0 is right when only the point moves; it is wrong when the offset moves, where both one-sided derivatives satisfy the differentiated constraint and the computed tangents do not.", "quantifier": "all dimensions, all points, bounds, weights and offsets, all differentiable curves through them", "why_tests_cant": "tests compare Jacobians at random points; vertices, ties and moving bounds or weights are not covered", "anchors": ["jaxopt/_src/projection.py:_optimality_fun_proj_box_sec", "jaxopt/_src/projection.py:_root_proj_box_sec", "jaxopt/_src/projection.py:projection_box_section", "jaxopt/_src/bisection.py:Bisection", "jaxopt/_src/implicit_diff.py:custom_root"]}
{"id": "C135", "title": "The proximal operators and the l2 projections in floating-point arithmetic", "statement": "With every operation rounded (relative error u, monotone, idempotent; additions of a norm in any order): prox_lasso and prox_non_negative_lasso return the exact minimiser for a point and a weight with relative errors of at most u; a coordinate is zero exactly if it does not exceed the rounded threshold. prox_elastic_net and prox_ridge are the exact operators (with a once-rounded threshold) up to a factor of four roundings, zeros exact. The l2 norm is zero only for the zero vector and its square has a relative error of n+2 roundings. prox_group_lasso is exactly zero if the computed norm does not exceed the rounded weight, only zero if it exceeds it by at most one rounding, and otherwise has an error of at most (3u+u^2)|x_i|. projection_l2_ball returns points of computed norm within the radius unchanged and otherwise exceeds the squared radius by at most n+6 roundings; projection_l2_sphere likewise from both sides. None of the operators makes a coordinate larger or changes its sign (sphere excepted). The result of projection_l2_ball can lie outside the ball.", "quantifier": "all dimensions, points, weights and radii, every rounding function of the standard model, every order of additions; witness in binary64", "why_tests_cant": "tests use tolerances; exact zeros, exact signs and error bounds for every input and every summation order cannot be enumerated", "anchors": ["jaxopt/_src/prox.py:prox_lasso", "jaxopt/_src/prox.py:prox_non_negative_lasso", "jaxopt/_src/prox.py:prox_elastic_net", "jaxopt/_src/prox.py:prox_ridge", "jaxopt/_src/prox.py:prox_non_negative_ridge", "jaxopt/_src/prox.py:prox_group_lasso", "jaxopt/_src/projection.py:projection_l2_ball", "jaxopt/_src/projection.py:projection_l2_sphere", "jaxopt/_src/tree_util.py:tree_l2_norm"]}
{"id": "C136", "title": "Derivatives of the optimal transport projections", "statement": "Differentiating kl_projection_transport, in both formulations, gives the derivative of the Kullback-Leibler projection in the similarity matrix and the marginals: for continuously differentiable data with equal masses the projections near stationary potentials form a differentiable curve, the singular implicit equations of the potentials have a solution, and every solution gives the derivative of the plan. Differentiating projection_transport with use_semi_dual=False gives the derivative of the Euclidean projection off the kinks of relu: for fixed marginals without further assumption, and for moving marginals along every differentiable curve of stationary potentials. With the default use_semi_dual=True the computed derivative is zero in the similarity matrix for all inputs and every solver (the plan is under stop_gradient); for projection_birkhoff on [[t,0],[0,0]] the derivative of the closest point is 1/4 and the computed one is 0.", "quantifier": "all sizes, all regularisation strengths, all costs and marginals, all solutions of the implicit equations", "why_tests_cant": "tests compare values of the plans only; no Jacobian of a transport projection is tested, and the linear system of the potentials is singular", "anchors": ["jaxopt/_src/projection.py:_max_l2", "jaxopt/_src/projection.py:_max_ent", "jaxopt/_src/projection.py:_delta_l2", "jaxopt/_src/projection.py:_delta_ent", "jaxopt/_src/projection.py:_regularized_transport_semi_dual", "jaxopt/_src/projection.py:_regularized_transport_dual", "jaxopt/_src/projection.py:projection_transport", "jaxopt/_src/projection.py:kl_projection_transport", "jaxopt/_src/projection.py:projection_birkhoff"]}
{"id": "C137", "title": "Transport projections when the solver of the potentials stops early", "statement": "Whatever potentials the solver returns, the plan of projection_transport and kl_projection_transport is the exact (Kullback-Leibler) projection onto the plans with the same marginals as itself; in the semi-dual formulation the column marginals are the requested ones. The distance to the requested projection is controlled by the gradient g of the dual, whose norm is the error of the solver: gamma |P - P*|^2 <= <g, difference of potentials> for the squared l2 regulariser, and KL(P,P*) + KL(P*,P) = <g, difference of potentials> / gamma for the entropic one, so that a stop at tolerance tol gives gamma |P - P*|^2 <= tol |alpha - alpha*| and row sums right up to tol. If the masses of the marginals differ (the code does not check), every gradient has norm at least |sum b - sum a| / sqrt(m), or / sqrt(m + n) in the dual formulation, so that a run with a smaller tolerance never stops before maxiter.", "quantifier": "all sizes, costs, marginals, regularisation strengths and potentials", "why_tests_cant": "tests compare with a reference plan at fixed tolerances on a few matrices with equal masses", "anchors": ["jaxopt/_src/projection.py:_regularized_transport_semi_dual", "jaxopt/_src/projection.py:_regularized_transport_dual", "jaxopt/_src/projection.py:projection_transport", "jaxopt/_src/projection.py:kl_projection_transport", "jaxopt/_src/projection.py:_make_dual", "jaxopt/_src/projection.py:kl_projection_birkhoff"]}
{"id": "C138", "title": "Optimal potentials exist and the transport projections have an explicit accuracy", "statement": "For positive marginals of equal mass the semi-dual and dual objectives of projection_transport and kl_projection_transport have minimisers, and their plans have the requested marginals (so the assumptions of the optimality results can always be met). For the entropic semi-dual with positive column marginals, stationary potentials exist exactly when the row marginals are positive and the masses agree, and they are unique up to an additive constant. If the solver, started at zero as in the code, returns potentials whose objective is not above the one at zero, the plan P satisfies gamma |P - P*|^2 <= |g|_1 D / min a with D = (max cost - min cost) sum b + gamma |b|^2 / 2 for the squared l2 regulariser, and KL(P,P*) + KL(P*,P) <= |g|_1 D / (gamma min a) with D = (max cost - min cost + gamma log m) sum b for the entropic one, where g is the error of the row sums and P* the requested projection.", "quantifier": "all sizes, costs, positive marginals of equal mass, regularisation strengths and potentials", "why_tests_cant": "tests check fixed matrices and cannot rule out marginals for which the solver has no solution to converge to", "anchors": ["jaxopt/_src/projection.py:_regularized_transport_semi_dual", "jaxopt/_src/projection.py:_regularized_transport_dual", "jaxopt/_src/projection.py:_make_semi_dual", "jaxopt/_src/projection.py:projection_transport", "jaxopt/_src/projection.py:kl_projection_transport"]}
{"id": "C139", "title": "The hyperplane and half-space projections in floating-point arithmetic", "statement": "With every operation rounded (relative error u, monotone, idempotent; additions of the inner products in any order): the result is NaN exactly for the zero normal. Every entry of projection_hyperplane and projection_halfspace differs from the exact closest point by at most u |x_i| plus |a_i| / |a|^2 times an explicit multiple (of order n u) of sum |a_k x_k| and of the computed violation, and the constraint is violated by at most ((1+u)^n - 1 + u) sum |a_k x_k| + ((1+u)^4 / (1-u)^n - 1) |violation|. Exactly: a point whose computed inner product satisfies the constraint is returned unchanged, coordinates with a zero coefficient never change, and no coordinate moves in the wrong direction. The result need not be feasible: in double precision the projection of 3 on 3 y <= 1 violates the constraint, and projecting it again changes it.", "quantifier": "all dimensions, points, normals, offsets, rounding functions and orders of the additions", "why_tests_cant": "tests compare with tolerances on a few random inputs and one backend order of summation", "anchors": ["jaxopt/_src/projection.py:projection_hyperplane", "jaxopt/_src/projection.py:projection_halfspace", "jaxopt/_src/tree_util.py:tree_vdot", "jaxopt/_src/tree_util.py:tree_add_scalar_mul"]}
{"id": "C140", "title": "Zero column marginals make the default transport projections NaN", "statement": "In IEEE arithmetic (division by zero, log 0 and 0 times infinity as specified, finite arithmetic exact) and for non-negative marginals_b: if marginals_b has a zero entry, the semi-dual objective of projection_transport and of kl_projection_transport (the default formulation) is NaN at all potentials; the plan of projection_transport is NaN in every row of that column whatever the solver returns, while the plan of the KL projection is right for every potential. The problem itself is well posed: its plans are those of the remaining columns with a zero column. If all entries are positive, the IEEE objective and plan are those of exact arithmetic.", "quantifier": "all sizes, costs, non-negative column marginals, potentials and positive gamma", "why_tests_cant": "the tests draw random positive marginals", "anchors": ["jaxopt/_src/projection.py:_max_l2", "jaxopt/_src/projection.py:_max_ent", "jaxopt/_src/projection.py:_make_semi_dual", "jaxopt/_src/projection.py:_regularized_transport_semi_dual", "jaxopt/_src/projection.py:projection_simplex"]}
{"id": "C141", "title": "projection_box_section with infinite bounds returns the bounds", "statement": "In IEEE arithmetic, with positive weights: if some upper bound is +inf and the lower bounds are finite, projection_box_section returns the vector of upper bounds; if some lower bound is -inf and the upper bounds are finite it returns the vector of lower bounds; with both it returns NaN in every entry. This holds for all points, offsets and numbers of bisection steps, and the optional feasibility check accepts such problems (upper case, admissible lower bounds). In particular on the simplex written as a box section (0, inf, 1, 1) the result is infinite although the unique closest point is that of projection_simplex. With finite bounds the IEEE run is the run of exact arithmetic.", "quantifier": "all sizes, points, weights, offsets, bounds and iteration counts", "why_tests_cant": "the tests use finite bounds; the loop ends silently at maxiter", "anchors": ["jaxopt/_src/projection.py:projection_box_section", "jaxopt/_src/projection.py:_root_proj_box_sec", "jaxopt/_src/projection.py:_optimality_fun_proj_box_sec", "jaxopt/_src/bisection.py:Bisection.update"]}
{"id": "C142", "title": "Batched pytrees are lists of vectors: the histories of Anderson acceleration", "statement": "For pytrees of arrays with a leading batch axis: tree_average is the linear combination of the flattened vectors, tree_gram the matrix of their inner products, pytree_replace_elem replaces one vector and keeps the others, and the initial histories repeat the initial point and zero. Hence anderson_step and update_history on pytrees are the step and update on histories of vectors of all entries (the model of C29, C86 and C124). tree_mean is the mean of all entries if all leaves have the same size, and not otherwise.", "quantifier": "all tree structures, leaf shapes, history sizes, weights, linear solvers and entries", "why_tests_cant": "the tests use a few structures", "anchors": ["jaxopt/_src/tree_util.py:tree_average", "jaxopt/_src/tree_util.py:tree_gram", "jaxopt/_src/tree_util.py:tree_mean", "jaxopt/_src/anderson.py:pytree_replace_elem", "jaxopt/_src/anderson.py:anderson_step", "jaxopt/_src/anderson.py:update_history"]}
{"id": "C143", "title": "The L-BFGS buffers and two-loop recursion on pytrees are those on vectors", "statement": "For pytrees of real arrays: the buffers built by init_history and update_history hold the flattened differences at the right positions; inv_hessian_product on such buffers never raises, keeps structure and shapes, and its flattened result is the two-loop recursion of C24 on the flattened vectors; compute_gamma, computed leaf by leaf, is the quotient of inner products of the whole vectors, 1 if the denominator is zero.", "quantifier": "all tree structures, leaf shapes, history sizes, buffer contents, gamma and start indices", "why_tests_cant": "the tests use a few structures and sizes", "anchors": ["jaxopt/_src/lbfgs.py:inv_hessian_product", "jaxopt/_src/lbfgs.py:compute_gamma", "jaxopt/_src/lbfgs.py:init_history", "jaxopt/_src/lbfgs.py:update_history", "jaxopt/_src/lbfgs.py:select_ith_tree"]}
{"id": "C144", "title": "LBFGSB's conversion between pytrees and arrays is a bijection and keeps histories aligned", "statement": "For pytrees with at least one leaf: _flatten_and_concat gives the vector of all entries and _split_and_pack_like with the same example gives the pytree back; every vector of the right length is packed into a pytree of the structure and shapes of the example that flattens to it; the flattened histories (batch_ndims=1, positive history size) are matrices whose i-th row is the flattened i-th pytree of the history. A pytree without leaves cannot be flattened.", "quantifier": "all tree structures, leaf shapes (sizes zero and one included), history sizes and entries", "why_tests_cant": "the tests use single arrays or a pair of arrays", "anchors": ["jaxopt/_src/lbfgsb.py:_flatten_and_concat", "jaxopt/_src/lbfgsb.py:_split_and_pack_like"]}
{"id": "C145", "title": "The dtype that solvers take from the parameters", "statement": "tree_single_dtype returns d exactly if some leaf is a Python number or an array and all such leaves have dtype d (in JAX's precision unless told otherwise); it returns None exactly if there is no such leaf (other leaves are ignored) and raises exactly if two such leaves have different dtypes. In the default precision Python floats and real 32/64-bit arrays may be mixed; with double precision enabled a Python float next to a 32-bit array is rejected, so the same parameters are then refused by the solvers that call it. get_real_dtype maps complex64 and complex128 to float32 and float64, keeps every dtype that is not complex and is idempotent; on all of these it commutes with the conversion to JAX's precision.", "quantifier": "all tree structures, leaves and both precisions", "why_tests_cant": "the tests use uniform dtypes", "anchors": ["jaxopt/_src/tree_util.py:tree_single_dtype", "jaxopt/_src/tree_util.py:get_real_dtype"]}
