{"id": "C01", "title": "Filter membership is exactly domination by a recorded pair", "statement": "After any sequence of clear / (re)initialize(theta_max) / add(theta,phi) calls, contains(theta,phi) returns true if and only if some pair recorded since the last clear or initialize (the pair (theta_max,-1e20) counting as recorded by initialize) has both coordinates <= the queried ones; nothing recorded before the last clear/initialize influences the answer.", "quantifier": "every finite history of filter calls and every queried (theta,phi)", "why_tests_cant": "A test exercises a handful of histories; the claim is about all histories and all query points.", "anchors": ["src/Optimization/hiopFilter.cpp:hiopFilter::initialize,add,contains", "src/Optimization/hiopFilter.hpp:hiopFilter::clear,reinitialize"]}
{"id": "C02", "title": "Line-search acceptance always implies real progress and filter acceptability", "statement": "Whenever the line search reports a trial point as accepted (status 1, 2 or 3), the trial pair (infeasibility, barrier objective) is not in the filter and it satisfies sufficient decrease of infeasibility or of the barrier objective (status 1,2), or the switching condition together with the Armijo condition (status 3); and status 0 is reported in exactly the remaining cases. A trial acceptable under no condition is never accepted.", "quantifier": "all real values of current/trial infeasibility, barrier objectives, directional derivative, step length, all parameter values and all filter contents", "why_tests_cant": "The decision depends on seven real quantities and arbitrary filter content; tests sample points only.", "anchors": ["src/Optimization/hiopAlgFilterIPM.cpp:accept_line_search_conditions"]}
{"id": "C03", "title": "Fraction-to-the-boundary keeps every bounded quantity strictly positive and is maximal", "statement": "For a vector with positive entries at its bounded positions, any direction, and tau in (0,1), the returned step alpha lies in (0,1], every bounded entry satisfies x_i+alpha*d_i >= (1-tau)*x_i > 0 (and so does every smaller nonnegative step), and no larger step in (0,1] has this property. The primal/dual steps of an iterate are such steps for all four slack blocks, respectively all four bound-dual blocks, simultaneously.", "quantifier": "all vector lengths, all entries, all directions, all bound patterns, all tau in (0,1)", "why_tests_cant": "Strict positivity of the slacks is the basic safety invariant of the interior-point loop; it must hold for every direction the linear solver may return.", "anchors": ["src/LinAlg/hiopVectorPar.cpp:fractionToTheBdry_local,fractionToTheBdry_w_pattern_local", "src/Optimization/hiopIterate.cpp:fractionToTheBdry"]}
{"id": "C04", "title": "The starting point is pushed strictly inside the bounds", "statement": "The projection of the user's starting point reports failure exactly when some variable has both bounds and lower>upper; otherwise, when the gap of each two-sided variable is large enough to be representable and kappa2<=1/2, every component ends strictly inside its bounds, components already well inside are not moved, and free components are untouched.", "quantifier": "all starting points, all bound patterns and bounds, all kappa1>0 and 0<kappa2<=1/2", "why_tests_cant": "Strict interiority has to hold for every bound configuration, including one-sided and nearly equal bounds.", "anchors": ["src/LinAlg/hiopVectorPar.cpp:projectIntoBounds_local", "src/Optimization/hiopIterate.cpp:projectPrimalsXIntoBounds,projectPrimalsDIntoBounds"]}
{"id": "C05", "title": "Bound-dual safeguard puts z*s into [mu/kappa, kappa*mu] and nothing else changes", "statement": "After the primal-Hessian safeguard, every bounded dual z_i with slack s_i>0 satisfies mu/kappa <= z_i*s_i <= kappa*mu, duals already in that interval are unchanged, unbounded positions are unchanged, and applying the safeguard twice equals applying it once.", "quantifier": "all vectors, patterns, mu>0, kappa>=1", "why_tests_cant": "Global convergence relies on it at every iterate.", "anchors": ["src/LinAlg/hiopVectorPar.cpp:adjustDuals_plh", "src/Optimization/hiopIterate.cpp:adjustDuals_primalLogHessian"]}
{"id": "C06", "title": "Slack correction yields positive slacks, never shrinks a slack, and reports how many were changed", "statement": "For mu>0 and positive bound duals, after the small-slack correction every slack of a bounded component is strictly positive and at least as large as before, slacks not below the threshold are unchanged, slacks of unbounded components stay zero, and the returned count is the number of bounded components whose slack was below the threshold.", "quantifier": "all slacks (also negative ones), bounds, duals>0, patterns, mu>0", "why_tests_cant": "Needs to hold for every near-active configuration met along an optimization run.", "anchors": ["src/Optimization/hiopIterate.cpp:adjust_small_slacks,compute_safe_slacks,determineSlacks"]}
{"id": "C07", "title": "The barrier gradient used by the line search is the gradient of the barrier objective used by the line search", "statement": "For every iterate with positive slacks, every bound pattern and every direction, the directional derivative reported by the log-barrier problem equals the mathematical derivative at 0 of t -> barrier objective(x+t*dx, d+t*dd), where the barrier objective is the one evaluated for trial points (log terms plus linear damping).", "quantifier": "all iterates with positive slacks, all patterns, directions, mu, kappa_d, and every objective differentiable along the direction", "why_tests_cant": "Equality of an analytic derivative with the implemented formula is a statement about all points, finite differences can only approximate it.", "anchors": ["src/Optimization/hiopLogBarProblem.hpp:updateWithNlpInfo,updateWithNlpInfo_trial_funcOnly,directionalDerivative", "src/Optimization/hiopIterate.cpp:evalLogBarrier,addLogBarGrad_x,addLogBarGrad_d,linearDampingTerm,addLinearDampingTermToGrad_x,addLinearDampingTermToGrad_d", "src/LinAlg/hiopVectorPar.cpp:logBarrier_local,addLogBarrierGrad,linearDampingTerm_local,addLinearDampingTerm"]}
{"id": "C08", "title": "Barrier parameter is positive, never increases, stops at its floor, and the inner reduction loop terminates", "statement": "Each barrier update returns a parameter that is at most the previous one and at least the floor determined by the tolerances, as long as the previous one was; tau stays in [tau_min,1); an update is refused exactly when the parameter would not change by at least 1e-16, and repeated updates are refused after finitely many steps whatever the error values are.", "quantifier": "all parameter values in the option ranges, all mu, all sequences of updates", "why_tests_cant": "The loop `while err<=kappa_eps*mu` has no iteration cap, so termination is a claim about all executions.", "anchors": ["src/Optimization/hiopAlgFilterIPM.cpp:update_log_barrier_params,run"]}
{"id": "C09", "title": "Reported termination status means what it says", "statement": "Solve_Success is reported only when the scaled error is within `tolerance` and the unscaled dual, feasibility and complementarity errors are within their tolerances; Solve_Acceptable_Level only after `acceptable_iterations` consecutive checks within the acceptable tolerance; Max_Iter_Exceeded only when the iteration count reached max_iter; and the priority among these is fixed.", "quantifier": "all error values, tolerances, counters and all histories of checks", "why_tests_cant": "The acceptable-level rule depends on the whole history of checks.", "anchors": ["src/Optimization/hiopAlgFilterIPM.cpp:checkTermination,evalNlpAndLogErrors"]}
{"id": "C10", "title": "Inertia-correction perturbations stay within limits and every correction loop is finite", "statement": "From any reachable state, consecutive wrong-inertia corrections produce primal perturbations that are positive, at least the smaller of the initial and the minimal and at most the maximal perturbation, and strictly increasing (unless the dual perturbation is turned on), and after finitely many consecutive corrections the request is refused; the perturbation used for x and for the inequality slacks is always the same; a new linear system starts unperturbed unless a block has been declared degenerate.", "quantifier": "all sequences of start/wrong-inertia/singularity requests, all mu>0 and all option values in range", "why_tests_cant": "The corrections form an unbounded history-dependent automaton.", "anchors": ["src/Optimization/hiopPDPerturbation.cpp:hiopPDPerturbationPrimalFirstScalar::*,hiopPDPerturbationDualFirstScalar::*", "src/Optimization/hiopPDPerturbation.hpp"]}
{"id": "C11", "title": "Factorization acceptance is decided by inertia (or by curvature in inertia-free mode)", "statement": "The inertia-based acceptor accepts a factorization exactly when the number of negative eigenvalues equals the required number; otherwise it asks for a refactorization with new perturbations or reports failure exactly when the perturbation limit is hit. The inertia-free acceptor accepts exactly nonsingular factorizations without forced regularization.", "quantifier": "all eigenvalue counts, required counts, flags and perturbation states", "why_tests_cant": "Decision over unbounded integers and histories.", "anchors": ["src/Optimization/hiopFactAcceptor.cpp:hiopFactAcceptorIC::requireReFactorization,hiopFactAcceptorInertiaFreeDWD::requireReFactorization"]}
{"id": "C12", "title": "Bounds are classified exactly: finite means |bound|<1e20, fixed variables are counted exactly", "statement": "For every variable the lower (upper) indicator is 1 iff the bound is >-1e20 (<1e20); the reported numbers of lower-, upper- and two-sided bounded and fixed variables equal the numbers of variables satisfying the respective condition.", "quantifier": "all bound vectors of all lengths and all tolerances", "why_tests_cant": "Statement over arrays of arbitrary length and arbitrary values including the infinity thresholds.", "anchors": ["src/Optimization/hiopNlpFormulation.cpp:process_bounds"]}
{"id": "C13", "title": "Splitting constraints into equalities and inequalities loses and duplicates nothing", "statement": "The index maps for equalities and inequalities are strictly increasing, disjoint, together cover all user constraints, and a constraint goes to the equalities iff its lower and upper bounds are equal; splitting the constraint body and multipliers by these maps and merging them back is the identity, so the user receives each constraint's value and multiplier at that constraint's own position.", "quantifier": "all numbers of constraints and all bound values", "why_tests_cant": "Permutation correctness for arbitrary interleavings of equality and inequality rows.", "anchors": ["src/Optimization/hiopNlpFormulation.cpp:process_constraints,eval_c_d,get_dual_solutions", "src/LinAlg/hiopVectorPar.cpp:copy_from_two_vec_w_pattern,copy_to_two_vec_w_pattern"]}
{"id": "C14", "title": "Removing fixed variables is transparent to the user", "statement": "With fixed-variable removal, every point passed to the user's callbacks has the fixed variables at their fixed values and the free variables at the solver's values, in the original order; reducing and re-expanding a vector that agrees with the fixed values is the identity; gradients and Jacobian columns returned by the user are restricted to exactly the free variables.", "quantifier": "all numbers of variables, all bound vectors, all fixed-variable tolerances, all points", "why_tests_cant": "Index-compaction errors appear for particular patterns of fixed variables; all patterns are claimed.", "anchors": ["src/Optimization/hiopNlpTransforms.cpp:hiopFixedVarsRemover::*", "src/Optimization/hiopNlpTransforms.hpp"]}
{"id": "C15", "title": "The chain of NLP transformations presents one consistent problem to the solver", "statement": "For every chain of fixed-variable removal, relaxation and scalings: points are mapped to the user's space in the opposite order of values; the user's functions are evaluated with removed variables at their fixed values and the others at the solver's values; the solver receives the user's values times all scale factors; the gradient and Jacobians it receives are the derivatives of the values it receives; the user's starting point arrives unchanged on the remaining variables; and the objective value reported back is the user's own.", "quantifier": "all chains of transformations, all user functions with correct derivatives, all points and buffer contents", "why_tests_cant": "Composition order matters only for chains of length >= 2 of non-commuting maps; the claim is for all chains and all functions.", "anchors": ["src/Optimization/hiopNlpTransforms.hpp:hiopNlpTransformations", "src/Optimization/hiopNlpFormulation.cpp:finalizeInitialization,eval_f,eval_grad_f,eval_c,eval_d,eval_Jac_c,eval_Jac_d,get_starting_point"]}
{"id": "C16", "title": "Gradient scaling is invertible and limits the scaled gradient", "statement": "Scaling by the gradient-based factors followed by unscaling is the identity for objective, constraints and derivatives; with a positive gradient norm the scaled objective gradient has infinity norm at most the configured maximum, the scale factor is in (0,1], and problems whose gradients are below the threshold are left unscaled.", "quantifier": "all gradients, Jacobians, option values and evaluation points", "why_tests_cant": "Requires all norms and all option combinations.", "anchors": ["src/Optimization/hiopNlpTransforms.cpp:hiopNLPObjGradScaling", "src/Optimization/hiopNlpTransforms.hpp:hiopNLPObjGradScaling"]}
{"id": "C17", "title": "Bound relaxation only enlarges the feasible box, by a controlled amount", "statement": "Relaxed lower bounds are at most, and relaxed upper bounds at least, the original ones, by exactly the relative perturbation times max(1,|bound|); infinite bounds stay infinite; relaxed fixed variables get a nonempty interior.", "quantifier": "all bounds and all relaxation parameters >= 0", "why_tests_cant": "All bound values including negative and huge ones.", "anchors": ["src/Optimization/hiopNlpTransforms.cpp:hiopFixedVarsRelaxer::relax,hiopBoundsRelaxer::relax,relax_from_ori"]}
{"id": "C18", "title": "Solving the condensed (x,yc,yd) system yields a solution of the full primal-dual Newton system", "statement": "If the compressed right-hand side formed from the residuals is solved exactly by the (x,yc,yd) linear system, then the full direction recovered from it satisfies all twelve block equations of the linearized perturbed KKT system.", "quantifier": "all problem sizes, matrices, positive slacks, residuals and perturbations", "why_tests_cant": "An algebraic identity for all data; tests compare numbers for one instance with a tolerance.", "anchors": ["src/Optimization/hiopKKTLinSys.cpp:hiopKKTLinSysCompressedXYcYd::computeDirections,computeDirections helpers"]}
{"id": "C19", "title": "Solving the (x,d,yc,yd) system yields a solution of the full primal-dual Newton system", "statement": "Same as C18 for the (x,d,yc,yd) compression.", "quantifier": "all problem sizes, matrices, positive slacks, residuals and perturbations", "why_tests_cant": "Algebraic identity for all data.", "anchors": ["src/Optimization/hiopKKTLinSys.cpp:hiopKKTLinSysCompressedXDYcYd::computeDirections"]}
{"id": "C20", "title": "Direction recovery for bound slacks and bound duals satisfies the linearized complementarity rows", "statement": "Given any directions in x, d, yc, yd, the directions recovered for the slacks and bound multipliers satisfy the linearized slack and complementarity equations exactly on bounded components and are zero on unbounded components.", "quantifier": "all iterates with positive slacks, residuals and patterns", "why_tests_cant": "Componentwise identities for all data.", "anchors": ["src/Optimization/hiopKKTLinSys.cpp:compute_directions_for_full_space"]}
{"id": "C21", "title": "Zero residual is exactly the perturbed KKT system", "statement": "The residual vectors computed at an iterate are all zero if and only if the iterate satisfies stationarity in x and d, primal feasibility, slack definitions and perturbed complementarity; the reported error norms are the maxima of the absolute residual entries of their blocks.", "quantifier": "all iterates, problem data, bound patterns, mu", "why_tests_cant": "Optimality of the returned point is only as good as the residual's definition at every point.", "anchors": ["src/Optimization/hiopResidual.cpp:update,compute_nlp_infeasib_onenorm"]}
{"id": "C22", "title": "The backtracking line search always stops", "statement": "For every behaviour of the user's functions and of the acceptance test, the backtracking loop ends after at most 2+log2(alpha_max/min_step_size) trial points, every trial step is alpha_max/2^k, and it ends with acceptance of the last trial, with a user-function error, or with a step below min_step_size.", "quantifier": "all oracles for acceptance, all alpha_max, all min_step_size>0", "why_tests_cant": "A termination claim over all infinite behaviours of user code.", "anchors": ["src/Optimization/hiopAlgFilterIPM.cpp:run (line-search loop)"]}
{"id": "C23", "title": "Moving limits bound the step taken", "statement": "With a relative moving limit r in (0,1) the primal step is multiplied by r; with an absolute limit L>0 the step in the x variables has infinity norm at most L; and the primal step is never increased.", "quantifier": "all directions, steps in (0,1], limits", "why_tests_cant": "The claim is for all directions and steps.", "anchors": ["src/Optimization/hiopAlgFilterIPM.cpp:ensure_moving_lims"]}
{"id": "C24", "title": "Solver main loop returns a final status for every behaviour of callbacks and linear solvers", "statement": "For every behaviour of the user callbacks, the KKT solver, the line search and restoration, the main loop performs at most max_iter accepted iterations, a false return from the iterate callback ends the run with User_Stopped, a failing evaluation ends with Error_In_User_Function, and the status returned when the loop is left is never the transient `pending` status.", "quantifier": "all infinite oracle behaviours", "why_tests_cant": "All interleavings of failures and callbacks.", "anchors": ["src/Optimization/hiopAlgFilterIPM.cpp:hiopAlgFilterIPMNewton::run,hiopAlgFilterIPMQuasiNewton::run"]}
{"id": "C25", "title": "Primal decomposition evaluates every recourse term exactly once per iteration, whatever the message timing", "statement": "For every order in which evaluator ranks complete, the master ends its collection loop having received exactly one result per recourse index 0..S-1, so the averaged value and gradient are the exact averages, independent of the schedule.", "quantifier": "all numbers of ranks >= 2, all S >= ranks-1, all completion schedules", "why_tests_cant": "All interleavings of asynchronous completions.", "anchors": ["src/Optimization/hiopAlgPrimalDecomp.cpp:hiopAlgPrimalDecomposition::run"]}
{"id": "C26", "title": "Options always hold a registered, in-range value", "statement": "After any sequence of option-setting calls and option-file lines, no internal check fails and each option holds a value of its registered type and within its registered range or set of choices; an accepted setting is what the getter returns next; an out-of-range or unknown setting leaves all values unchanged; values from the options file override values set at run time through the API; and the documented relations between options (tolerances, Hessian and KKT system, KKT system and linear solver, compute mode and memory space) hold after every call.", "quantifier": "all option files, all histories of API settings, all combinations of build flags", "why_tests_cant": "All histories and all values.", "anchors": ["src/Utils/hiopOptions.cpp:SetIntegerValue,SetNumericValue,SetStringValue,loadFromFile,ensure_consistence"]}
{"id": "C27", "title": "Sparse triplet matrix operations equal dense matrix algebra", "statement": "For every triplet matrix, matrix-vector and transposed matrix-vector products, symmetric products, row-max norms, and the assembly of scaled (transposed) blocks into larger matrices agree entrywise with the dense matrix obtained by summing the triplets.", "quantifier": "all shapes, all nonzero patterns, all values", "why_tests_cant": "Refinement to dense algebra for all sparsity patterns.", "anchors": ["src/LinAlg/hiopMatrixSparseTriplet.cpp"]}
{"id": "C28", "title": "CSR matrix operations equal dense matrix algebra", "statement": "Building a CSR matrix from triplets (symbolically and numerically), transposing it, multiplying and adding diagonal terms agree entrywise with dense algebra.", "quantifier": "all shapes and sparsity patterns", "why_tests_cant": "Refinement for all patterns.", "anchors": ["src/LinAlg/hiopMatrixSparseCSRSeq.cpp"]}
{"id": "C29", "title": "Limited-memory quasi-Newton pairs: bounded memory and positive curvature", "statement": "The stored secant pairs never exceed the configured memory length, only pairs with sufficiently positive curvature are stored, pairs are kept in chronological order dropping the oldest, and the diagonal scaling stays positive.", "quantifier": "all histories of iterates", "why_tests_cant": "History-dependent data structure.", "anchors": ["src/Optimization/hiopHessianLowRank.cpp:update"]}
{"id": "C30", "title": "Recourse approximation: value, gradient and Hessian are consistent", "statement": "The quadratic recourse model reproduces the given value and gradient at the expansion point, and its reported gradient and Hessian are the exact derivatives of its reported value.", "quantifier": "all expansion points, values, gradients, Hessian diagonals and evaluation points", "why_tests_cant": "Analytic identity for all points.", "anchors": ["src/Interface/hiopInterfacePrimalDecomp.cpp:RecourseApproxEvaluator"]}
{"id": "C31", "title": "Both-constraint evaluation protocol gives the user a consistent calling sequence", "statement": "Constraints and Jacobians are either always evaluated with two calls (equalities, then inequalities) or always with one call for all constraints; the first request decides, one-call mode being chosen exactly when the user refuses both partial calls; a request succeeds exactly if the calls delivering its values succeeded.", "quantifier": "all sequences of user return values and all numbers and orders of requests", "why_tests_cant": "History dependent on user answers.", "anchors": ["src/Optimization/hiopNlpFormulation.cpp:eval_c_d,eval_Jac_c_d"]}
{"id": "C32", "title": "Bound multipliers and slacks vanish exactly on unbounded components for the whole run", "statement": "Every iterate produced by initialization, primal/dual steps, slack recomputation, slack correction and dual safeguarding keeps slack and bound-multiplier vectors zero on components without that bound and positive on the others.", "quantifier": "all operation sequences on iterates", "why_tests_cant": "Invariant over unbounded runs.", "anchors": ["src/Optimization/hiopIterate.cpp"]}
{"id": "C33", "title": "Infeasibility cap", "statement": "No trial point whose constraint violation is at or above the cap fixed at the start of the run (1e4 times the larger of 1 and the initial violation) is ever accepted by the line search.", "quantifier": "all histories of line searches and barrier problems", "why_tests_cant": "History dependent: the cap lives in the filter, which is reset with every barrier problem.", "anchors": ["src/Optimization/hiopAlgFilterIPM.cpp:accept_line_search_conditions,run", "src/Optimization/hiopFilter.hpp:initialize"]}
{"id": "C36", "title": "The solver's constraint bounds always describe the user's scaled and relaxed region", "statement": "At every moment of a run the inequality bounds used by the solver are the user's bounds relaxed by the current relaxation parameter and multiplied by the constraint scale factors, whatever sequence of initial relaxation, scaling and elastic-mode tightening has happened.", "quantifier": "all bounds, scale factors and sequences of relaxation parameters", "why_tests_cant": "History of operations on shared bound vectors.", "anchors": ["src/Optimization/hiopNlpFormulation.cpp:apply_scaling,reset_bounds", "src/Optimization/hiopNlpTransforms.cpp:hiopBoundsRelaxer"]}
{"id": "C37", "title": "Multipliers returned to the user belong to the user's problem", "statement": "If the solver stops at a point where its own (scaled, split) problem is stationary, then the bound and constraint multipliers handed to the user through the solution callback and the dual-solution getter make the user's unscaled problem stationary, each multiplier at its constraint's own position.", "quantifier": "all numbers and interleavings of constraints, all Jacobians, all scale factors, all multipliers", "why_tests_cant": "Requires every interleaving and every scale factor; tests run with scaling factors of one pass even when the unscaling is wrong.", "anchors": ["src/Optimization/hiopNlpFormulation.cpp:get_dual_solutions,user_callback_solution"]}
{"id": "C38", "title": "Multipliers given to the user's Hessian callback produce the Hessian of the solver's Lagrangian", "statement": "If the user evaluates the Hessian of the Lagrangian with the objective factor and multipliers passed, in the order documented for the interface, the result is the Hessian of the solver's scaled Lagrangian.", "quantifier": "all interleavings of equalities and inequalities, all multipliers, scale factors and user Hessians", "why_tests_cant": "Wrong orders are invisible unless equalities and inequalities are interleaved; all interleavings are claimed.", "anchors": ["src/Optimization/hiopNlpFormulation.cpp:hiopNlpMDS::eval_Hess_Lagr,hiopNlpSparse::eval_Hess_Lagr", "src/Interface/hiopInterface.hpp"]}
{"id": "C39", "title": "An accepted step moves the iterate by exactly the reported step lengths and never tightens bounds", "statement": "After an accepted step the primal variables and constraint multipliers equal the old ones plus the primal step length times the direction; bound multipliers equal the old ones plus the dual step length times the direction, moved as little as possible into the complementarity interval; over any history without elastic mode the solver's bounds are only ever widened, each correction making a slack exceed the distance to the old bound by at most a fixed multiple of max(1,|bound|).", "quantifier": "all iterates, directions, step lengths, barrier parameters and histories", "why_tests_cant": "Universally quantified over histories; swapped step lengths are invisible when primal and dual step lengths agree.", "anchors": ["src/Optimization/hiopIterate.cpp:takeStep_primals,takeStep_duals,adjustDuals_primalLogHessian", "src/Optimization/hiopDualsUpdater.hpp:hiopDualsNewtonLinearUpdate", "src/Optimization/hiopNlpFormulation.cpp:adjust_bounds"]}
{"id": "C40", "title": "The matrix-free KKT operator and the reported linear-solve error are those of the Newton system", "statement": "Applying the full KKT operator to a direction gives the residual right-hand side if and only if the direction solves all block equations of the linearized perturbed KKT system; the error vectors monitored after a linear solve are the defects of those equations; the transposed application is the transpose of the operator.", "quantifier": "all sizes, matrices, iterates, perturbations and directions", "why_tests_cant": "Operator identities over all data; a test multiplies one vector.", "anchors": ["src/Optimization/hiopKKTLinSys.cpp:hiopMatVecKKTFullOpr,errorKKT"]}
{"id": "C41", "title": "Iterative refinement returns a point whose residual meets the requested accuracy or reports failure", "statement": "The dense quasi-Newton solve with refinement returns an answer whose residual is the refined one; if the requested accuracy is not reached the caller is told.", "quantifier": "all matrices, right-hand sides and inner solvers", "why_tests_cant": "Depends on the inner solver's error for every input; tests use well-conditioned matrices on which refinement never changes anything.", "anchors": ["src/Optimization/hiopKKTLinSys.cpp:hiopKKTLinSysLowRank::solveWithRefin"]}
{"id": "C42", "title": "A Krylov solver that reports convergence returns a vector whose true residual meets the tolerance", "statement": "If the conjugate gradient or BiCGStab solver returns success, the vector it leaves in the right-hand side satisfies norm(b - A x) <= tol * norm(b) for the original b; a zero right-hand side gives the zero solution; the number of iterations is bounded by the limit.", "quantifier": "all operators, preconditioners, right-hand sides, starting points, tolerances and iteration limits", "why_tests_cant": "Holds for every operator and every breakdown or stagnation pattern; tests run a handful of operators that converge without stagnating.", "anchors": ["src/LinAlg/hiopKrylovSolver.cpp:hiopPCGSolver::solve,hiopBiCGStabSolver::solve"]}
{"id": "C43", "title": "An accepted direction is a descent direction of the barrier function", "statement": "When the computed direction solves the Newton system, the constraints' linearizations hold and the curvature test of the inertia-free acceptor passes, the directional derivative of the log-barrier objective along the direction is nonpositive, and negative unless the direction vanishes.", "quantifier": "all iterates with positive slacks, Hessians, Jacobians, perturbations and barrier parameters", "why_tests_cant": "Relates residuals, linear solve, curvature test and barrier gradient for all data.", "anchors": ["src/Optimization/hiopKKTLinSys.cpp:test_direction", "src/Optimization/hiopLogBarProblem.hpp:directionalDerivative", "src/Optimization/hiopResidual.cpp:update"]}
{"id": "C44", "title": "Quasi-Newton Hessian is one positive definite matrix behind products, solves and the constraint system", "statement": "At every point of a run the quasi-Newton Hessian is the BFGS matrix of the stored secant pairs started from the current multiple of the identity; it is symmetric positive definite and satisfies the newest secant equation; solves return exactly the solution with this matrix plus the barrier diagonal and never abort; the constraint matrix and matrix-vector products are built from the same matrix.", "quantifier": "all histories of updates, diagonal changes, solves and inverse products, all dimensions and memory lengths", "why_tests_cant": "Depends on the whole history of iterates through a shifted memory and a compact inverse representation.", "anchors": ["src/Optimization/hiopHessianLowRank.cpp:solve", "src/Optimization/hiopHessianLowRank.cpp:symMatTimesInverseTimesMatTrans", "src/Optimization/hiopHessianLowRank.cpp:timesVecCmn", "src/Optimization/hiopHessianLowRank.cpp:updateInternalBFGSRepresentation"]}
{"id": "C45", "title": "Primal decomposition outer iteration: stopping rule, coefficient bounds and tangent models", "statement": "A run ends in the first outer iteration that meets the documented stopping rule and never exceeds max_iter; in every iteration the approximation handed to the master problem has quadratic coefficients within [alpha_min, alpha_max], is tangent to the mean recourse function at the current coupling variables, and stays above the documented fraction of the recourse value; the basecase objective is recovered exactly from the master objective; the reported status and iteration count describe the run.", "quantifier": "all master problems, recourse functions, coupling index lists, options and numbers of iterations", "why_tests_cant": "Relates quantities of consecutive iterations for every user problem and every run length.", "anchors": ["src/Optimization/hiopAlgPrimalDecomp.cpp:run_single", "src/Optimization/hiopAlgPrimalDecomp.cpp:stopping_criteria", "src/Optimization/hiopAlgPrimalDecomp.cpp:HessianApprox"]}
{"id": "C46", "title": "The condensed sparse KKT matrix is the documented one on every call", "statement": "For sparse problems with inequality constraints only and KKTLinsys=condensed, on the first and on every later iteration the symmetric matrix handed to the linear solver equals, entry by entry, the Hessian of the Lagrangian plus the barrier diagonal plus the primal perturbation plus J'*(Dd+delta_wd)*J of that iteration, with nothing left over from earlier iterations, and a solver exact for that matrix yields exact directions.", "quantifier": "all sparsity patterns, dimensions, values, diagonals and perturbations, all sequences of iterations, all contents of freshly allocated memory", "why_tests_cant": "Leftovers appear only after particular sequences of numeric updates on particular sparsity patterns; tests see a few patterns and compare final objectives.", "anchors": ["src/Optimization/hiopKKTLinSysSparseCondensed.cpp: build_kkt_matrix, solve_compressed_direct", "src/LinAlg/hiopMatrixSparseCSRSeq.cpp", "src/LinAlg/hiopLinSolverSymSparseMA57.hpp: hiopLinSolverSparseCsrMa57"]}
{"id": "C35", "title": "Least-squares multipliers minimize the dual infeasibility", "statement": "When HiOp computes constraint multipliers by least squares (initial multipliers, and after each step with duals_update_type=lsq), a successful computation gives multipliers that minimize, over all multipliers, the Euclidean norm of the dual infeasibility with the current gradient, Jacobians and bound multipliers, and changes nothing else of the iterate. The initial multipliers are those or zero, and never larger than duals_lsq_ini_max. The dense, mixed dense-sparse and sparse computations give the same multipliers when the equality gradients are independent, and the dense system is positive definite in exactly that case.", "quantifier": "all dimensions, gradients, Jacobians, bound multipliers, step lengths and option values; all contents left in the work space by earlier calls; all linear solvers that fail or answer exactly", "why_tests_cant": "Minimality is a statement over all competing multipliers, and leftovers of earlier factorizations matter only for particular sequences of calls.", "anchors": ["src/Optimization/hiopDualsUpdater.cpp: hiopDualsLsqUpdate::go, hiopDualsLsqUpdateLinsysRedDense::do_lsq_update, hiopDualsLsqUpdateLinsysAugSparse::do_lsq_update", "src/Optimization/hiopDualsUpdater.hpp: compute_initial_duals_eq", "src/LinAlg/hiopMatrixMDS.hpp: timesMatTrans, timesVec"]}
{"id": "C47", "title": "Checkpoints restore the quasi-Newton solver", "statement": "Saving the solver state to a sidre group and loading it into a solver for the same problem on the same number of ranks restores the iterate, barrier parameter, iteration count and the whole quasi-Newton Hessian exactly, and the restored solver can go on storing secant pairs. A load that reports no error has faithfully copied every view; missing views, wrong sizes and a wrong number of ranks are reported and the solver then behaves as if no checkpoint had been given. Saving repeatedly replaces the previous checkpoint. With checkpoint_save, files are written exactly at the multiples of checkpoint_save_every_N_iter, and every '#' of the file name is replaced by the iteration number, so different iterations give different files.", "quantifier": "all states of the saving and of the loading solver, all problem sizes and memory lengths, all groups to save into (empty or with strided views) and to load from (including damaged ones), all file name options and iteration numbers", "why_tests_cant": "Which state is lost in a round trip, or half overwritten by a failed one, depends on the state of both solvers and on the damage; tests restore one run of one problem.", "anchors": ["src/Optimization/hiopAlgFilterIPM.cpp: save_state_to_sidre_group, load_state_from_sidre_group, save_state_to_file, load_state_from_file, checkpointing_stuff, hiopAlgFilterIPMQuasiNewton::run", "src/Utils/SidreHelper.hpp: SidreHelper", "src/Optimization/hiopHessianLowRank.cpp: alloc_for_limited_mem"]}
{"id": "C34", "title": "Results on any number of ranks are those on one rank", "statement": "Distributing the variables over any number of MPI ranks, with any column partition (empty ranks included) and any order in which the reductions combine the contributions, every rank obtains the value the one-rank run computes: norms, dot products, minima, pattern tests and counts; products of a column-distributed matrix with vectors and matrices; the bound counts and offsets of the reduced space; dual norms, fraction-to-the-boundary step lengths, log barrier, damping term, all residual blocks and norms; and the limited-memory matrix, its solves and its products. No collective is left waiting.", "quantifier": "all problem sizes, numbers of ranks and monotone partitions, all data, all combination trees and orders of every reduction", "why_tests_cant": "The result depends on the partition (also empty parts) and on the order of the reduction, over all of which a test would have to range; tests run two or three ranks on even splits.", "anchors": ["src/LinAlg/hiopVectorPar.cpp: dotProductWith, twonorm, infnorm, onenorm, min, min_w_pattern, allPositive, matchesPattern, is_zero, is_equal, numOfElemsLessThan", "src/LinAlg/hiopMatrixDenseRowMajor.cpp: timesVec, transTimesVec, timesMatTrans, max_abs_value, row_max_abs_value", "src/Optimization/hiopNlpTransforms.cpp: allocRSVectorDistrib", "src/Optimization/hiopIterate.cpp: normOneOfDuals, fractionToTheBdry, evalLogBarrier, linearDampingTerm", "src/Optimization/hiopResidual.cpp: update", "src/Optimization/hiopHessianLowRank.cpp: updateInternalBFGSRepresentation, solve, symMatTimesInverseTimesMatTrans"]}
{"id": "C48", "title": "Feasibility restoration solves the documented subproblem", "statement": "When the line search fails and feasibility restoration starts, the subproblem handed to the inner solver is the one documented: unknowns (x, p, n) with p, n nonnegative, constraints c(x) - p + n = c_rhs and d_l <= d(x) - p + n <= d_u, objective rho*sum(p+n) + zeta/2*|D_R(x - x_ref)|^2, with exact gradient, Jacobian and Lagrangian Hessian; its optimal p, n make the objective rho times the l1 violation plus the proximity term. It starts at the reference point, feasible, with p and n minimising the barrier objective. It stops, returning the iterate, exactly when the violation is reduced by the requested factor and the original filter accepts the point; failures of user callbacks are reported. The original solver resumes only from such a point and reports an infeasible problem only when the subproblem was solved.", "quantifier": "all base problems (sparse, mixed dense-sparse and dense), sizes, reference points, iterates, multipliers, filters and parameters", "why_tests_cant": "The subproblem depends on the point at which the line search happens to fail and on the filter at that time; a test only exercises the iterates of its own problem, and derivative errors only slow the inner solver down.", "anchors": ["src/Optimization/hiopFRProb.cpp: hiopFRProbSparse, hiopFRProbMDS, hiopFRProbDense, get_vars_info, get_cons_info, eval_f, eval_grad_f, eval_cons, eval_Jac_cons, eval_Hess_Lagr, get_warmstart_point, iterate_callback, force_update_x", "src/Optimization/hiopAlgFilterIPM.cpp: apply_feasibility_restoration, solve_feasibility_restoration", "src/LinAlg/hiopMatrixSparseTriplet.cpp: set_Jac_FR, set_Hess_FR"]}
{"id": "C49", "title": "The new_x flag tells the truth about every evaluation", "statement": "Every call of a user function is made with new_x = false only if the point is the one of the call before; so a user who recomputes shared quantities only when new_x is true returns, at every call, the values at the point passed.", "quantifier": "all user problems (including ones that fail at some calls), starting points, sequences of trial points, second-order corrections, restorations and run lengths", "why_tests_cant": "Which calls follow each other depends on rejected steps, corrections and restorations; a wrong flag is invisible to every test problem that ignores new_x.", "anchors": ["src/Optimization/hiopAlgFilterIPM.cpp: startingProcedure, evalNlp_noHess, evalNlp_HessOnly, evalNlp_funcOnly, evalNlp_derivOnly, run, apply_second_order_correction, apply_feasibility_restoration, solve_soft_feasibility_restoration, reset_var_from_fr_sol", "src/Optimization/hiopNlpFormulation.cpp: eval_c_d, eval_Jac_c_d, eval_Hess_Lagr", "src/Optimization/hiopFRProb.cpp: eval_f, eval_grad_f, eval_cons, eval_Jac_cons, eval_Hess_Lagr"]}
{"id": "C50", "title": "Stored function values and derivatives belong to the current iterate", "statement": "At the start of every iteration, where termination is tested and the iterate callback is called, the objective value, constraint values, gradient, Jacobian and Hessian the solver uses are those at the current iterate (and, for the Hessian, its multipliers); a failing user function ends the run with the corresponding status.", "quantifier": "all user problems, starting points, sequences of accepted and rejected trial points, second-order corrections, restorations and run lengths", "why_tests_cant": "Stale values show up only after particular histories (a correction after a rejected trial, a restoration) and then only as slow or wrong convergence.", "anchors": ["src/Optimization/hiopAlgFilterIPM.cpp: startingProcedure, evalNlp_noHess, evalNlp_HessOnly, evalNlp_funcOnly, evalNlp_derivOnly, run, apply_second_order_correction, apply_feasibility_restoration, solve_soft_feasibility_restoration, reset_var_from_fr_sol"]}
{"id": "C51", "title": "Sparse direct solvers are handed the matrix that was assembled", "statement": "After the first factorization and after every later one with new values, the compressed-row arrays a sparse direct solver is called with represent the matrix whose triplets were assembled (for symmetric solvers the full symmetric matrix, or its upper triangle for PARDISO), with the regularization diagonal added on the diagonal, whatever the order and however often values change.", "quantifier": "all dimensions, all patterns with at most one diagonal triplet per row before the additional diagonal (at most two for nonsymmetric solvers), all sequences of values, all contents of uninitialized memory, all sorting routines", "why_tests_cant": "The conversion depends on which rows lack a diagonal triplet and on sorting permutations; an index that goes stale shows only from the second factorization on, and then as a slightly wrong step that iterative refinement hides.", "anchors": ["src/LinAlg/hiopLinSolverSparseSTRUMPACK.cpp: firstCall, matrixChanged", "src/LinAlg/hiopLinSolverSparsePARDISO.cpp: firstCall, matrixChanged", "src/LinAlg/hiopLinSolverSparseGinkgo.cpp: transferTripletToCSR, update_matrix", "src/LinAlg/hiopLinSolverSparseReSolve.cpp: compute_nnz, set_csr_indices_values, update_matrix_values", "src/LinAlg/hiopMatrixSparseTriplet.cpp: convert_to_csr_arrays"]}
{"id": "C52", "title": "The dense symmetric solver reports the exact inertia", "statement": "When the factorization wrapper for dense symmetric matrices answers with a nonnegative number, the matrix is nonsingular and the number is the number of its negative eigenvalues. It answers -1 (and only then) when the factorization reports an error or a pivot is smaller than 1e-14 in absolute value; a singular matrix always gets -1. The scan of the pivots never reads outside the arrays or fails an assertion.", "quantifier": "all orders, all symmetric matrices, all mixtures of one by one and two by two pivots in the factors", "why_tests_cant": "Eigenvalue counts are inferred from pivots, and two by two pivots are scaled and split over two passes of a loop; only particular indefinite matrices produce them at the end of the matrix, next to each other or with extreme entries.", "anchors": ["src/LinAlg/hiopLinSolverSymDenseLapack.hpp: hiopLinSolverSymDenseLapack::matrixChanged"]}
{"id": "C53", "title": "An accepted factorization gives a descent direction", "statement": "If the factorization loop reports success, the linear system last factorized, with the perturbations in force, is nonsingular and has exactly as many negative eigenvalues as constraints. Then the perturbed Hessian with the barrier terms is positive definite on the null space of the linearized constraints, and at a point satisfying the constraints the computed direction strictly decreases the barrier objective (without dual perturbation). The (x, yc, yd) and the (x, d, yc, yd) systems agree on this.", "quantifier": "all mixed dense-sparse problems, sizes, Hessians, Jacobians, iterates, bound patterns, histories of perturbations and numbers of passes", "why_tests_cant": "Whether the count for the eliminated sparse block plus the count of the dense solver equals the inertia of the whole system is a theorem about all matrices; a miscount shows as a wrong-curvature step on particular nonconvex problems only.", "anchors": ["src/Optimization/hiopKKTLinSysMDS.cpp: hiopKKTLinSysCompressedMDSXYcYd::factorizeWithCurvCheck, build_kkt_matrix", "src/Optimization/hiopKKTLinSys.cpp: factorize", "src/Optimization/hiopFactAcceptor.cpp: hiopFactAcceptorIC::requireReFactorization", "src/LinAlg/hiopVectorPar.cpp: numOfElemsLessThan, numOfElemsAbsLessThan"]}
{"id": "C54", "title": "Regularization repairs the inertia", "statement": "A larger primal perturbation never spoils the inertia of a system that has the required one. If the gradients of the equality constraints are independent (or the dual perturbation is positive), every sufficiently large primal perturbation yields the required inertia, so that a pass of the factorization loop is accepted unless the dense solver reports a small pivot. If they are dependent and there is no dual perturbation the system is singular whatever the primal perturbation. A positive definite Hessian needs no primal perturbation.", "quantifier": "all sizes, Hessians, Jacobians, barrier diagonals, perturbations", "why_tests_cant": "Tests see a few nonconvex Hessians; that increasing the perturbation is monotone and eventually enough must hold for all matrices.", "anchors": ["src/Optimization/hiopPDPerturbation.cpp", "src/Optimization/hiopKKTLinSysMDS.cpp: build_kkt_matrix, factorizeWithCurvCheck"]}
{"id": "C55", "title": "A vector made of parts behaves like one long vector", "statement": "Every operation of a compound vector has the same effect, and every reduction the same value, as the plain operation on the concatenation of the parts in order: constants and copies, elementwise products, quotients, minima and maxima, scaled sums, masked updates, projections, norms, dot products, sums, log-barrier values, step-to-the-boundary lengths, pattern and sign tests. Building a compound vector from an iterate or residual shares all twelve parts in one fixed order, so that the dot product of an iterate and a residual pairs matching components.", "quantifier": "all numbers and sizes of parts (including empty parts), all values, patterns and scalars", "why_tests_cant": "Each operation forwards part by part and combines partial results; whether every operation forwards to the right parts with the right arguments and combines correctly must hold for all partitions, and several operations are exercised by no test.", "anchors": ["src/LinAlg/hiopVectorCompoundPD.cpp", "src/LinAlg/hiopVectorCompoundPD.hpp", "src/LinAlg/hiopKrylovSolver.cpp: hiopPCGSolver::solve, hiopBiCGStabSolver::solve"]}
{"id": "C56", "title": "Copies between parts of vectors move exactly the requested entries", "statement": "Copying a vector into a range of another, or a range of it out, changes exactly the entries of that range and nothing else, and is refused (assertion) exactly when the range does not fit. Packing the entries selected by a pattern puts them, in order, next to each other from the given place on; unpacking gives them back to the selected places and leaves the others alone. A block or packed block written into a buffer is read back unchanged whatever else is written next to it. Equality of vectors means equal size and entries.", "quantifier": "all sizes, offsets, counts (also the default, copy until one of the two ends), patterns and values", "why_tests_cant": "Offsets, defaults and exhausted sources or destinations combine into many boundary cases, and a wrong one silently overwrites the neighbouring block of a right-hand side.", "anchors": ["src/LinAlg/hiopVectorPar.cpp: copyFromStarting, startingAtCopyFromStartingAt, copyToStarting, copyToStartingAt_w_pattern, startingAtCopyToStartingAt, startingAtCopyToStartingAt_w_pattern, copy_from_indexes, is_equal"]}
{"id": "C57", "title": "With KKTLinsys = full the direction satisfies all Newton equations", "statement": "With the full (unreduced, unsymmetric) sparse linear system the matrix is assembled without a failed assertion and within its storage, the right-hand side is packed and the solution unpacked within the buffers, and whenever the linear solver answers with an exact solution the direction satisfies all twelve blocks of the Newton equations with the perturbations in force, and is zero where there is no bound; conversely every direction that satisfies the Newton equations solves the assembled system. A failure of the linear solver is reported and the direction is left alone.", "quantifier": "all problem sizes, sparsity patterns, sets of bounds, iterates, perturbations, right-hand sides, solvers and contents of the buffers, over several calls", "why_tests_cant": "The system has thirty-two blocks at offsets that depend on the number of bounds of each kind; a block one place off is only visible for particular combinations of bounds, and the effect of earlier calls only after a perturbed iteration.", "anchors": ["src/Optimization/hiopKKTLinSysSparse.cpp: hiopKKTLinSysSparseFull::build_kkt_matrix, hiopKKTLinSysSparseFull::solve", "src/Optimization/hiopKKTLinSys.cpp: hiopKKTLinSysFull::computeDirections"]}
{"id": "C58", "title": "Operations on dense matrices compute the documented result", "statement": "Every operation of a dense matrix (products with vectors and matrices and their transposes, additions to the diagonal or to part of it, sums, additions into a symmetric upper triangle, copies of whole matrices, rows and blocks, appending and shifting rows, scaling, norms, symmetrization) stays within the storage and leaves exactly the documented entries, changing no other entry, for every size including empty ones.", "quantifier": "all matrices, sizes, capacities, offsets, scalars and vectors", "why_tests_cant": "The data is one row-major array handed to column-major library routines with swapped arguments; whether each swap, leading dimension, offset and loop bound is right depends on the shape, and empty or full matrices take paths of their own.", "anchors": ["src/LinAlg/hiopMatrixDenseRowMajor.cpp: hiopMatrixDenseRowMajor"]}
{"id": "C59", "title": "The normal-equation system gives the Newton direction of the current iterate and perturbations", "statement": "After every sequence of full and dual-only updates, the matrix handed to the direct solver of the normal-equation formulation equals J D^{-1} J' plus the dual perturbations for the data of the current call, so that an exact solve gives the Newton direction; and a factorization that is accepted has the inertia that makes the direction one of descent.", "quantifier": "all Jacobian and Hessian patterns and values, sizes, histories of full and dual-only updates, perturbation strategies, exact solvers", "why_tests_cant": "The matrix is assembled once and afterwards only parts of it are refreshed, depending on what the perturbation strategy announced; whether it is up to date depends on the whole history of calls.", "anchors": ["src/Optimization/hiopKKTLinSysSparseNormalEqn.cpp: hiopKKTLinSysNormalEquation", "src/Optimization/hiopPDPerturbation.cpp: hiopPDPerturbationDualFirst"]}
{"id": "C60", "title": "Operations on mixed dense-sparse matrices compute the documented result", "statement": "Every operation of a mixed dense-sparse matrix (sparse columns followed by dense columns; for symmetric matrices a sparse and a dense diagonal block) leaves exactly the documented entries of the whole matrix: products with vectors and with transposed matrices, additions into a symmetric upper triangle, norms, row scaling, copies of whole matrices and of rows, and the Jacobian of the feasibility problem.", "quantifier": "all matrices, sizes including empty blocks, triplet patterns, scalars and vectors", "why_tests_cant": "Each operation is a pair of operations on the two parts with offsets and scalings of its own; whether the pair is the operation on the whole matrix depends on sizes and scalars no finite test set covers.", "anchors": ["src/LinAlg/hiopMatrixMDS.hpp: hiopMatrixMDS, hiopMatrixSymBlockDiagMDS", "src/LinAlg/hiopMatrixMDS.cpp: set_Jac_FR"]}
{"id": "C61", "title": "Network reduction eliminates the auxiliary nodes exactly", "statement": "For an ordered symmetric complex matrix without duplicates and nodes split into nonauxiliary and auxiliary ones, the reduction succeeds whenever the solver solves with the auxiliary block; then, for every vector of voltages, the currents at all auxiliary nodes vanish exactly if the auxiliary voltages are those computed by the map from nonauxiliary to auxiliary voltages, and in that case the currents at the nonauxiliary nodes are the reduced matrix times the nonauxiliary voltages. The operations it rests on (sorting and adding up duplicates, slices of general and symmetric triplet matrices, products, solves with several sparse right-hand sides) give the documented matrix.", "quantifier": "all sizes, sparsity patterns, values in any field, index lists and solvers", "why_tests_cant": "The slices and right-hand sides are read off triplet arrays in a single pass whose position is carried over rows and columns; a wrong step shows only for particular patterns. The claim about currents is for all voltages.", "anchors": ["src/Utils/hiopKronReduction.cpp: go, apply_nonaux_to_aux", "src/LinAlg/hiopMatrixComplexSparseTriplet.cpp: new_slice, new_sliceFromSym, new_sliceFromSymToSym, timesVec, transTimesMat", "src/LinAlg/hiopMatrixSparseTripletStorage.hpp: sort_indexes, sum_up_duplicates", "src/LinAlg/hiopMatrixComplexDense.cpp: timesVec, addSparseMatrix", "src/LinAlg/hiopLinSolverUMFPACKZ.cpp: matrixChanged, solve"]}
{"id": "C62", "title": "Parallel sparse kernels give the host result on every schedule", "statement": "The RAJA versions of the triplet-matrix operations (products with vectors, weighted products and additions into dense matrices, copies, norms, scaling, tests, assembly of blocks and rows, Jacobian and Hessian of the restoration problem) end, on every interleaving of the loop iterations and every order of the reductions, with exactly the result of the host versions, and stop at an assertion exactly where the host does.", "quantifier": "all sizes, patterns, values, contents of fresh memory, interleavings of the loop iterations and reduction orders", "why_tests_cant": "A test runs a handful of schedules; a lost update or an uninitialized position shows only on particular interleavings. The claim is for every schedule.", "anchors": ["src/LinAlg/hiopMatrixRajaSparseTripletImpl.hpp: timesVec, transTimesVec, timesMatTrans, addMDinvMtransToDiagBlockOfSymDeMatUTri, addMDinvNtransToSymDeMatUTri, transAddToSymDenseMatrixUpperTriangle, addUpperTriangleToSymDenseMatrixUpperTriangle, addSubDiagTo, row_max_abs_value, scale_row, copyRowsFrom, copyRowsBlockFrom, copySubmatrixFrom, copySubmatrixFromTrans, setSubmatrixToConstantDiag_w_colpattern, setSubmatrixToConstantDiag_w_rowpattern, copyDiagMatrixToSubblock, copyDiagMatrixToSubblock_w_pattern, set_Jac_FR, set_Hess_FR"]}
{"id": "C63", "title": "Parallel vector kernels give the host result on every schedule", "statement": "The RAJA versions of the vector operations (element-wise updates, patterned updates, norms, dot products, minima, barrier terms, fraction-to-boundary, tests, projection, copies, gathering, merging, packing, indexed addition) end, on every interleaving of the loop iterations and every order of the reductions, with exactly the result of the host versions, and stop at an assertion exactly where the host does.", "quantifier": "all sizes, values, patterns, contents of fresh memory, interleavings of the loop iterations, reduction orders and, for packing, all earlier calls on the same vector", "why_tests_cant": "A test runs a handful of schedules and calls on fresh vectors; races and stale cached indexes show only on particular interleavings and histories. The claim is for every schedule and history.", "anchors": ["src/LinAlg/hiopVectorRajaImpl.hpp: setToConstant_w_patternSelect, copyFromIndexes, copy_from_starting_at, copyFromStarting, copyToStarting, copyToStartingAt_w_pattern, copy_from_two_vec_w_pattern, copy_to_two_vec_w_pattern, startingAtCopyToStartingAt, startingAtCopyToStartingAt_w_pattern, componentDiv_w_selectPattern, axpy, axdzpy_w_pattern, addLogBarrierGrad, addLinearDampingTerm, dotProductWith, infnorm_local, onenorm_local, min_w_pattern, logBarrier_local, projectIntoBounds_local, fractionToTheBdry_local, matchesPattern, adjustDuals_plh, is_equal, process_bounds_local", "src/LinAlg/hiopVectorPar.cpp: copy_from_starting_at, axpy"]}
{"id": "C64", "title": "Parallel dense matrices give the host result on every schedule", "statement": "The RAJA dense matrix gives, on every interleaving of the loop iterations and every order of the reductions, the values documented for the host dense matrix: products with vectors and matrices, diagonal and block additions, row and block copies, row shifts, scaling, norms, triangle copies and symmetrization; it accesses no array out of range.", "quantifier": "all sizes, allocated numbers of rows, matrix and vector values, scalars, block positions, interleavings of the loop iterations and reduction orders", "why_tests_cant": "A test runs a few schedules on matrices whose allocated rows are all in use; races show on particular interleavings and the out-of-range copies only for matrices with spare rows. The claim is for every schedule and allocation.", "anchors": ["src/LinAlg/hiopMatrixDenseRajaImpl.hpp: appendRow, copyFrom, copy_to, copyRowsFrom, copyBlockFromMatrix, copyFromMatrixBlock, shiftRows, replaceRow, getRow, set_Hess_FR, overwriteUpperTriangleWithLower, overwriteLowerTriangleWithUpper, new_copy, setToConstant, timesVec, transTimesVec, timesMat, timesMat_local, transTimesMat, timesMatTrans_local, addDiagonal, addSubDiagonal, addMatrix, addToSymDenseMatrixUpperTriangle, transAddToSymDenseMatrixUpperTriangle, addUpperTriangleToSymDenseMatrixUpperTriangle, max_abs_value, row_max_abs_value, scale_row, symmetrize"]}
{"id": "C65", "title": "The solver used fits the system, the build and the way the inertia is checked", "statement": "For every build and every setting of the options, each iteration of the interior-point run uses the linear system asked for, with the linear solver that the documentation names for it: the solver named in the options if HiOp was built with it, otherwise the first available one of the documented order. The check of the factorization requires the number of negative eigenvalues that belongs to the system in use, and is never combined with a solver that cannot report them. Switching between the fast and the safe solvers during a run keeps this so, and a run leaves safe mode again when the documented waiting time is over. The default options work.", "quantifier": "all builds (combinations of libraries), option settings reachable through the API, kinds of problems, numbers of constraints, iterations, and courses of the run (which factorizations fail, when safe mode is asked for, sizes of mu)", "why_tests_cant": "A test exercises one build, a few option combinations and runs in which safe mode is seldom entered; the combinations of libraries, options and switches are too many, and safe mode is entered only on particular numerical failures.", "anchors": ["src/Optimization/hiopAlgFilterIPM.cpp: decideAndCreateLinearSystem, decideAndCreateFactAcceptor, switch_to_safer_KKT, switch_to_fast_KKT, run", "src/Optimization/hiopKKTLinSysSparse.cpp: determineAndCreateLinsys", "src/Optimization/hiopKKTLinSysSparseCondensed.cpp: determine_and_create_linsys", "src/Optimization/hiopKKTLinSysMDS.cpp: determineAndCreateLinsys", "src/Optimization/hiopKKTLinSysDense.hpp: update", "src/Utils/hiopOptions.cpp: register_options, ensure_consistence"]}
{"id": "C66", "title": "A problem given through the C or Fortran interface is solved like the same problem given in C++", "statement": "Whatever the solver does, a problem given as C callbacks behaves like the same problem written in C++: every call of the solver reaches the callback with the same arguments (including new_x), a callback that reports an error makes the evaluation fail, and the caller learns status, objective and point of the run. A Fortran program that describes its matrices with one-based indices is given the same problem, its arrays are copied at creation, and create and delete are balanced: a program may create, solve and delete any number of problems without losing memory. The options set at creation are in force, so that the problem can be solved in every build that has a solver for it.", "quantifier": "all users (callbacks with state, return codes and outputs), all sequences of calls chosen adaptively by the solver, all optimisation runs (every course of line search and restoration), all sequences of matrix evaluations, all histories of create and delete, all builds", "why_tests_cant": "Tests call the interfaces with one well-behaved example per language; they do not return error codes, do not rely on new_x, do not repeat create and delete, and run in one build.", "anchors": ["src/Interface/chiopInterface.hpp: cppUserProblemMDS, cppUserProblemSparse, cppUserProblemDense", "src/Interface/chiopInterface.cpp: hiop_mds_create_problem, hiop_mds_solve_problem, hiop_sparse_create_problem, hiop_sparse_solve_problem, hiop_dense_create_problem", "src/Interface/hiopFortranInterface.c: eval_jac_sparse_wrapper, eval_hess_sparse_wrapper, hiopsparseprob, hiopsparsesolve, deletehiopsparseprob", "src/Optimization/hiopNlpFormulation.cpp: hiopNlpSparse::eval_Jac_c_d_interface_impl, hiopNlpSparse::eval_Hess_Lagr"]}
{"id": "C67", "title": "Ipopt is given the problem that was given to HiOp", "statement": "A problem written for HiOp and solved through the Ipopt adapters is the same problem: whatever Ipopt asks (constraints, structure and values of Jacobian and Hessian), in whatever order and over any number of solves, the values are those of the user's problem, the structures never change and have the announced number of entries, in any order of equality and inequality constraints and for both ways of giving constraints (separate calls or one call for all); a callback that fails is reported as a failed evaluation.", "quantifier": "all problems (dimensions, numbers of nonzeros, which constraints are equalities), all users of the two kinds, all points, all sequences of calls, assertions on and off", "why_tests_cant": "Tests compare the optimal value on examples whose equalities come first; no test has an inequality before an equality, a failing callback or a second solve with the same adapter.", "anchors": ["src/Drivers/IpoptAdapter/IpoptAdapter.hpp: hiopDenseCons2IpoptTNLP, hiopMDS2IpoptTNLP, hiopSparse2IpoptTNLP (eval_g, eval_jac_g, eval_h, get_bounds_info, finalize_solution)"]}
{"id": "C68", "title": "What the linear solvers report is true, over every history of calls", "statement": "For each of the linear solvers: refactorizing returns (always), with -1 or, only if the matrix is nonsingular, the number of its negative eigenvalues (0 for solvers that do not count them); a solve that returns true has left the solution of the system with the matrix passed last, whatever sequence of factorizations, failed factorizations and solves came before; internal reordering does not change which system is solved.", "quantifier": "all matrices, all libraries that keep their documented contract (status codes, workspace sizes and outputs otherwise arbitrary), all sequences of calls, assertions on and off, all orderings", "why_tests_cant": "Tests run one library version on a few matrices; error statuses, workspace reallocation, failing inertia computations, singular matrices after a successful factorization and two factorizations without a solve in between do not occur in them.", "anchors": ["src/LinAlg/hiopLinSolver.hpp: hiopLinSolver::matrixChanged, solve", "src/LinAlg/hiopLinSolverSymSparseMA57.cpp", "src/LinAlg/hiopLinSolverSparsePARDISO.cpp", "src/LinAlg/hiopLinSolverSparseSTRUMPACK.cpp", "src/LinAlg/hiopLinSolverSparseGinkgo.cpp", "src/LinAlg/hiopLinSolverSparseReSolve.cpp", "src/LinAlg/ReSolve/RefactorizationSolver.cpp", "src/LinAlg/hiopLinSolverSymDenseMagma.cpp", "src/LinAlg/hiopLinSolverCholCuSparse.cpp"]}
{"id": "C69", "title": "What callbacks and getters show belongs to the user's problem", "statement": "At every iteration and at the end the callbacks receive the user's objective value, the user's constraint values in the user's order, a point in the user's variables and the multipliers in the user's order, of the same iterate; the getters for objective and multipliers, called at any time, return what the callbacks showed last; a callback with which the user may stop or change the run has the documented effect.", "quantifier": "all problems (any numbers of equalities, inequalities, variables and removed variables), all iterates, all scalings, all contents of work vectors, all histories of iterations, ends of runs and getter calls", "why_tests_cant": "Tests print iterates of unscaled problems without fixed variables and compare the objective only; stale work vectors, in-place changes by a callback and the order of several calls are not exercised.", "anchors": ["src/Optimization/hiopNlpFormulation.cpp: user_callback_iterate, user_callback_solution, user_callback_full_iterate, user_force_update, get_dual_solutions", "src/Optimization/hiopAlgFilterIPM.cpp: getObjective, getDualSolutions, run", "src/Interface/hiopInterface.hpp: iterate_callback, solution_callback, iterate_full_callback, force_update_x"]}
{"id": "C70", "title": "The formulation without equalities is a controlled relaxation", "statement": "When equalities are posed as two-sided inequalities no feasible point is lost, proper inequalities are unchanged, every point feasible for the solver violates an equality by at most the factor times max(|rhs|,1) (plus the documented relaxation of all bounds), every such constraint has an interior, and constraint values and multipliers return in the user's order.", "quantifier": "all bounds, all factors, all constraint values, any number of constraints", "why_tests_cant": "The bound on the violation must hold for every right-hand side and every feasible point; tests solve one problem and look at the objective.", "anchors": ["src/Optimization/hiopNlpFormulation.cpp: hiopNlpSparseIneq::process_constraints, finalizeInitialization", "src/Utils/hiopOptions.cpp: eq_relax_factor"]}
{"id": "C71", "title": "Vectors on CUDA and HIP devices compute what host vectors compute", "statement": "Every vector operation on a CUDA or HIP device has, for every schedule of the threads and every order of its reductions, exactly one outcome, and it is the outcome of the same operation on the host; no element is skipped, visited twice or touched outside of the vector, whatever the vector size is.", "quantifier": "all vector sizes (also empty vectors and sizes that are no multiple of the block size), all contents, all 0/1 patterns, all schedules of threads, all orders of reduction, all histories of packings of one vector", "why_tests_cant": "The unit tests compare a few operations on one size with full or constant patterns; races, empty vectors, unselected elements that are not zero and repeated calls with other patterns are not exercised, and need the hardware.", "anchors": ["src/LinAlg/hiopVectorCuda.cpp: hiopVectorCuda", "src/LinAlg/VectorCudaKernels.cu", "src/LinAlg/hiopVectorHip.cpp: hiopVectorHip", "src/LinAlg/VectorHipKernels.cpp", "src/LinAlg/hiopVectorIntCuda.cpp: set_to_zero, set_to_constant, linspace", "src/LinAlg/hiopVectorIntHip.cpp"]}
{"id": "C72", "title": "The lines of an options file mean what they say, in any order, and a printed listing can be loaded again", "statement": "A line of an options file that names a registered option and a value in its range sets the option to that value, whatever the other lines are and in whatever order they appear; the listing of the options that the solver prints can be saved as an options file and a solver constructed from it has the same options.", "quantifier": "all options files (any number, order and repetition of lines), all parsers of numbers, all stores of options reachable by construction and setters, all printed listings", "why_tests_cant": "The tests set a few options each in one order and never load a printed listing; lines that restrict one another, rounding to four digits, empty strings and options that the solver changes itself do not occur in them.", "anchors": ["src/Utils/hiopOptions.cpp: load_from_file, print, ensure_consistence, SetNumericValue, SetIntegerValue, SetStringValue"]}
{"id": "C73", "title": "Messages about options are printed as they are written", "statement": "Every message about an option (an unknown name, a value that cannot be parsed or is out of range, a value ignored because the file has precedence) is printed once, completely and unchanged, by the master rank if the verbosity asks for it, whatever characters the name and the value consist of.", "quantifier": "all lines of options files, all names and values passed to the setters, all loggers (rank, verbosity), all reachable stores", "why_tests_cant": "Whether a message is safe depends on the characters of a name or a value supplied by the user; the tests only use well-formed options.", "anchors": ["src/Utils/hiopOptions.cpp: log_printf, load_from_file", "src/Utils/hiopLogger.cpp: printf, printf_error"]}
{"id": "C74", "title": "A solver releases everything it allocates, and never touches what it released", "statement": "From construction to destruction, over any number of runs and queries in any order and however each run ends, a solver only uses objects that exist, deletes no object twice, and has deleted all its objects when its destructor returns.", "quantifier": "all histories of a solver object (any number of runs, queries, iterations, line-search trials, second-order corrections, restorations, switches of the linear system), all outcomes of all branches, quasi-Newton and Newton solvers, all linear systems", "why_tests_cant": "A leak or a use after release shows only on particular paths through about thirty branches, nested loops and a solver nested in the solver; tests take a handful of these paths, run each solver once and do not look at the heap.", "anchors": ["src/Optimization/hiopAlgFilterIPM.cpp: constructors, destructor, alloc_alg_objects, dealloc_alg_objects, reInitializeNlpObjects, run, switch_to_safer_KKT, switch_to_fast_KKT, apply_feasibility_restoration, startingProcedure"]}
{"id": "C75", "title": "A solver can be run again, and options set between runs take effect", "statement": "A problem object and its solver may be used for several runs, with options changed in between. Each run starts as the first run of a new solver for a new problem object with the options of that moment would: same bounds, same scaling, same quasi-Newton memory, same barrier parameter and starting point; the scaling by which objective values are converted exists and is the one in effect.", "quantifier": "all problems, all histories of setting options, constructing solvers, loading states and running, with arbitrary effects of each run on what it may change", "why_tests_cant": "What a run inherits depends on the whole history of the objects; tests create a new problem and solver for each run.", "anchors": ["src/Optimization/hiopNlpFormulation.cpp: finalizeInitialization, apply_scaling, get_obj_scale", "src/Optimization/hiopAlgFilterIPM.cpp: constructor, reInitializeNlpObjects, reload_options, run, load_state_from_sidre_group"]}
{"id": "C76", "title": "Refining a linear solve on the GPU never makes it worse and reports what it did", "statement": "When the linear systems are solved with the refactorization solver and iterative refinement (flexible GMRES with restarts, preconditioned by the stored factors), the residual after refinement is not larger than that of the solve with the factors alone; after each cycle the solution is the one with the smallest residual among all combinations of the preconditioned directions; the call stops because the residual is small enough, the chosen condition holds or the iterations are used up; the reported residual is the true one, the number of iterations and the initial residual are those of the call; all orthogonalization schemes give the same result; the call ends without accessing memory out of bounds or aborting.", "quantifier": "all matrices, right-hand sides, starting vectors, preconditioners (also ones that change between iterations), restart lengths, iteration limits, tolerances, conditions and orthogonalization schemes, in exact arithmetic", "why_tests_cant": "The minimum is over a continuum of vectors and the claims hold for every preconditioner; tests see a few systems on one GPU.", "anchors": ["src/LinAlg/ReSolve/IterativeRefinement.cpp: fgmres, GramSchmidt", "src/LinAlg/ReSolve/RefactorizationSolver.cpp: triangular_solve", "src/LinAlg/ReSolve/KrylovSolverKernels.cu: MassIPTwoVec_kernel"]}
{"id": "C77", "title": "The pattern handed to the GPU for refactorization is that of both factors", "statement": "When the sparse solver sets up refactorization on the GPU (GLU) from the factors of the first factorization, the matrix structure it hands over is a valid compressed-row structure: its offsets start at 0, do not decrease and end at the number of entries, the columns of every row are strictly increasing, and a position is present exactly if the lower or the upper factor has an entry there; in particular every row has its pivot. Building it accesses no memory out of bounds.", "quantifier": "all sizes and all pairs of a lower and an upper triangular factor with stored diagonals, in compressed columns with the rows of each column in any order", "why_tests_cant": "The array sizes are computed from the numbers of entries, and one entry too many corrupts memory only for some patterns; tests see a few matrices.", "anchors": ["src/LinAlg/ReSolve/RefactorizationSolver.cpp: createM, refactorizationSetupCusolverGLU"]}
{"id": "C78", "title": "Refining the search direction keeps an exact one and never spoils an inexact one", "statement": "With the outer iterative refinement switched on (the default), the direction handed to the line search (a) is the directly computed one whenever the inner linear solve is exact, and solves the Newton equations; (b) if the iterative method reports convergence, has defects in the twelve blocks of Newton equations that are together at most the tolerance times the right-hand side, whatever the inner solver did; (c) otherwise has defects at most as large as the right-hand side; (d) never has a component for a bound that does not exist; and (e) a failure of the inner solve is reported to the caller.", "quantifier": "all problem sizes, bound patterns, iterates, perturbations, Hessians, Jacobians, residuals, inner solvers (exact, inexact or failing), tolerances, iteration limits and leftovers of earlier calls", "why_tests_cant": "Whether the preconditioner and the operator agree in all twelve blocks and at missing bounds depends on the pattern of bounds and on the data; tests see a few problems, on which refinement converges in the first half step.", "anchors": ["src/Optimization/hiopKKTLinSys.cpp: hiopKKTLinSys::compute_directions_w_IR, hiopPrecondKKTOpr::times_vec, hiopMatVecKKTFullOpr::times_vec", "src/LinAlg/hiopKrylovSolver.cpp: hiopBiCGStabSolver::solve"]}
{"id": "C79", "title": "CSR matrices on the device hold what the host's hold", "statement": "With the matrices on a CUDA device: (a) adding to the diagonal, setting it and extracting it act on the diagonal entries of the matrix and on nothing else, as on the host, for every pattern; (b) scaling rows multiplies every stored value by the factor of its row; (c) forming a matrix from triplets stores the triplet matrix, in the first and in every later numeric pass, and triplets that are not ordered are refused; (d) forming a diagonal matrix stores it; (e) the upper triangle of the Hessian in the condensed system keeps its off-diagonal entries when its diagonal is set to zero.", "quantifier": "all matrix sizes, patterns (with and without diagonal entries, with empty rows), values, scalings, triplet lists, schedules of the device threads, previous contents of the object, with and without assertions", "why_tests_cant": "The binary search of each device thread depends on the sparsity pattern of its row; the unit tests use patterns in which every row has a diagonal entry, and a data race shows only under some schedules.", "anchors": ["src/LinAlg/hiopMatrixSparseCsrCuda.cpp: addDiagonal, set_diagonal, extract_diagonal, scale_rows, form_from_symbolic, form_from_numeric, form_diag_from_symbolic", "src/LinAlg/MatrixSparseCsrCudaKernels.cu", "src/Optimization/hiopKKTLinSysSparseCondensed.cpp: build_kkt_matrix"]}
{"id": "C80", "title": "The device kernels of the GMRES solver compute the sums they stand for", "statement": "With ReSolve's iterative refinement on a CUDA device: (a) the mass inner product of two vectors with the first i+1 columns of a basis returns those inner products; (b) subtracting a combination of the columns from a vector subtracts it and changes nothing else; (c) the row sums of a CSR matrix are the sums of the absolute values in each row, and the norm reported for the matrix is the largest of them.", "quantifier": "all vector lengths, numbers of columns, vectors, matrices, previous contents of the device and shared memory, schedules of the device threads, warps in lockstep and with independent thread scheduling", "why_tests_cant": "Whether the threads of a warp run in lockstep depends on the device; a test passes on every schedule it does not happen to observe.", "anchors": ["src/LinAlg/ReSolve/KrylovSolverKernels.cu: MassIPTwoVec_kernel, massAxpy3_kernel, matrixInfNormPart1, mass_inner_product_two_vectors, mass_axpy, matrix_row_sums", "src/LinAlg/ReSolve/IterativeRefinement.cpp: matrixAInfNrm"]}
{"id": "C81", "title": "Objects live in the requested memory space and copies between spaces are exact", "statement": "(a) A copy between arrays of any two memory backends HiOp supports (C++, Umpire host, device and unified memory, CUDA, HIP) reports success, gives the destination exactly the requested elements, changes nothing else and leaves no temporary behind; a copy it cannot do reports failure or stops, and changes nothing. (b) A vector's or dense matrix's host mirror and its array in the memory space agree after a copy in either direction, and deleting the object frees each of its arrays once, with the backend that allocated it. (c) An object asked for in a memory space is in that space, and its loops run where that memory can be reached; a request that cannot be met is refused, not answered with a null pointer.", "quantifier": "all pairs of memory backends, element counts (zero included), positions, contents, builds (with and without RAJA, CUDA, HIP, assertions), kinds of objects, spellings of the name of the memory space", "why_tests_cant": "A test runs on one build and one machine; wrong sizes, leaks and unreachable memory show only for particular combinations of spaces and sizes.", "anchors": ["src/ExecBackends/ExecSpace.hpp: ExecSpaceInfo, ExecSpace, TransferImpl", "src/ExecBackends/MemBackendUmpireImpl.hpp", "src/ExecBackends/MemBackendCudaImpl.hpp", "src/ExecBackends/MemBackendHipImpl.hpp", "src/ExecBackends/MemBackendCppImpl.hpp", "src/LinAlg/LinAlgFactory.cpp", "src/LinAlg/hiopVectorRajaImpl.hpp: copyToDev, copyFromDev", "src/LinAlg/hiopMatrixDenseRajaImpl.hpp"]}
{"id": "C82", "title": "The statistics reported after a run are those of the run", "statement": "After a run the report shows, whatever happened before the run: as numbers of evaluations the numbers of calls of the user's functions during the run; as total time the time the run took; as times of the evaluations the time spent in the user's functions (and the scaling of their results), together no more than the total; as internal time, time in the KKT systems and time of factorizations the time spent on these; and as standard deviation over the ranks the standard deviation of the times of the ranks.", "quantifier": "all problem formulations, sequences of evaluations, answers of the user (failures included), durations of every step, numbers of trial points, numbers of refactorizations and repeated linear solves, numbers of ranks and their times, all earlier contents of the statistics", "why_tests_cant": "Durations differ from run to run, so a test cannot compare a reported time with the right one; a timer started twice or stopped twice shows only as an implausible number for particular paths through the line search or the safe mode.", "anchors": ["src/Utils/hiopTimer.hpp: hiopTimer", "src/Utils/hiopRunStats.hpp: hiopRunStats, hiopRunKKTSolStats", "src/Optimization/hiopNlpFormulation.cpp: eval_f, eval_grad_f, eval_c, eval_d, eval_c_d, eval_Jac_c_d, eval_Hess_Lagr", "src/Optimization/hiopAlgFilterIPM.cpp: run", "src/Optimization/hiopKKTLinSys.cpp: factorize, factorize_inertia_free", "src/Optimization/hiopResidual.cpp: compute_nlp_infeasib_onenorm"]}
{"id": "C83", "title": "Feasibility restoration of a distributed dense problem is the restoration problem of the whole problem", "statement": "When a dense problem is distributed over several MPI ranks, the restoration problem HiOp solves on these ranks is the one it would solve on a single rank: the ranks together hold its bounds, gradient, Jacobian, starting point and starting multipliers, each its own part, with the auxiliary variables on the last rank; and every rank obtains the same objective and constraint values, those of the point the ranks hold together.", "quantifier": "all numbers of ranks, distributions of the variables (ranks without variables included), numbers of equalities and inequalities, problem functions, points, bounds, reference points, barrier parameters and penalties, orders of reduction, earlier contents of the work vectors", "why_tests_cant": "The index arithmetic depends on the number of ranks and on where each rank's part begins and ends; a test exercises a few distributions on the ranks it has, and the restoration is entered only from particular iterates.", "anchors": ["src/Optimization/hiopFRProb.cpp: hiopFRProbDense", "src/LinAlg/hiopVectorPar.cpp: copyToStarting, copy_from_starting_at, sum_local", "src/LinAlg/hiopMatrixDenseRowMajor.cpp: set_Jac_FR, copyRowsFrom"]}
{"id": "C84", "title": "Removing the fixed variables of a distributed problem is removing them from the whole problem", "statement": "When a problem is distributed over several MPI ranks and fixed variables are removed (option fixed_var = remove), the ranks together solve the reduced problem of a one-rank run: the removal can be set up on all ranks if and only if it can on one; all ranks agree on the number of variables left and on their distribution, which covers them all; the points handed to the user on the ranks are the parts of the points of the one-rank run, with each removed variable at its fixed value, over any history of evaluations; and vectors and Jacobians obtained from the user are reduced to the parts of the reduced ones.", "quantifier": "all numbers of ranks, distributions of the variables (ranks without variables included), bounds, tolerances, points, Jacobians, sequences of evaluations with any new-point flags, earlier contents of the buffers, orders of reduction", "why_tests_cant": "Which variables are fixed, and on which rank they lie, changes every offset; a test fixes a few variables on the ranks it has.", "anchors": ["src/Optimization/hiopNlpFormulation.cpp: finalizeInitialization", "src/Optimization/hiopNlpTransforms.cpp: setFSVectorDistrib, allocRSVectorDistrib, setupDecisionVectorPart, apply_to_vector, apply_inv_to_vector, applyInvToMatrix", "src/Optimization/hiopNlpTransforms.hpp: hiopFixedVarsRemover"]}
{"id": "C85", "title": "The log of a run says what the run did", "statement": "The table printed during a run has exactly one line for each iteration begun, numbered without gaps (continuing the numbers of a checkpoint), with a header above every tenth; the last column of a line says how the step leading to it was found: the number of trial points and a letter for the condition that accepted it (s, h, f; capital after a second-order correction), R if the restoration phase was called, and it can be decoded; and the run ends with the message of the status it returns.", "quantifier": "all configurations, all behaviours of user functions, linear solver, line search and restoration over runs of any length, both solvers", "why_tests_cant": "A test compares the log of a few runs; which letter and count are printed depends on variables that survive from earlier iterations and attempts, so every history matters.", "anchors": ["src/Optimization/hiopAlgFilterIPM.cpp: outputIteration, displayTerminationMsg, hiopAlgFilterIPMNewton::run, hiopAlgFilterIPMQuasiNewton::run"]}
{"id": "C86", "title": "Vectors of integers hold what they are set to, on every backend", "statement": "Setting an integer vector to evenly spaced values or to a constant, or copying it from an array or another vector, makes exactly its entries those values, on the host and on RAJA and device backends for every schedule of the threads, whenever the values themselves are representable; a vector made of parts behaves like the concatenation; and the list of coupling variables that the primal decomposition hands to the recourse approximation is the user's list, or 0, 1, 2, ... if none is given.", "quantifier": "all sizes, starting values, increments, constants, earlier contents, schedules, numbers of parts", "why_tests_cant": "The overflow cases depend on size, start and increment together; schedules cannot be enumerated.", "anchors": ["src/LinAlg/hiopVectorIntSeq.cpp: linspace, set_to_constant, set_to_zero, copy_from, copy_from_vectorseq, copy_to_vectorseq", "src/LinAlg/hiopVectorIntRajaImpl.hpp: linspace, set_to_constant, set_to_zero", "src/LinAlg/VectorCudaKernels.cu: set_to_linspace_cu", "src/LinAlg/VectorHipKernels.cpp: set_to_linspace_hip", "src/LinAlg/hiopVectorIntCompoundPD.cpp: addVector, set_to_constant, set_to_zero", "src/Optimization/hiopAlgPrimalDecomp.cpp: hiopAlgPrimalDecomposition"]}
{"id": "C87", "title": "The declared type of a problem does not change what the solver computes", "statement": "Whatever type (linear, quadratic, nonlinear) the user declares, and however often the problem is initialised again, every request for a gradient, Jacobian or Hessian calls the user's function at the arguments of that request, stores its answer and reports its failure; runs that differ in the declared type only make the same calls and get the same values. The restoration problem inherits the declared type as quadratic or nonlinear.", "quantifier": "all declared types, histories of initialisations and evaluations, user functions and failures", "why_tests_cant": "Every history of evaluations counts, and a stale derivative shows only if a shortcut is taken at one point after an evaluation at another.", "anchors": ["src/Optimization/hiopNlpFormulation.cpp: finalizeInitialization, eval_grad_f, eval_Jac_c, eval_Jac_d, eval_Jac_c_d, eval_Hess_Lagr", "src/Optimization/hiopFRProb.cpp: get_prob_info", "src/Interface/hiopInterface.hpp: NonlinearityType, get_prob_info"]}
{"id": "C88", "title": "The solver starts from the point, multipliers and slacks that the user provides", "statement": "A point with multipliers and slacks that the user provides and that keeps the margins to the bounds is exactly the first iterate, and with the option warm_start so are all arrays of get_warmstart_point; a point alone is projected into the bounds and completed; no point means zero; announcements of a call that fails are ignored; if the user's bound multipliers are positive on the bounded variables and zero elsewhere, slacks and all bound multipliers of the first iterate are positive exactly where there is a bound.", "quantifier": "all bounds, points, multipliers, slacks, flags and return values of the user's methods, earlier contents of the arrays, removed variables, constraint mappings", "why_tests_cant": "There are sixteen combinations of flags and results for each point, and what is read from an array that was not filled depends on memory.", "anchors": ["src/Optimization/hiopAlgFilterIPM.cpp: startingProcedure", "src/Optimization/hiopNlpFormulation.cpp: get_starting_point, get_warmstart_point", "src/Optimization/hiopIterate.cpp: projectPrimalsXIntoBounds, projectPrimalsDIntoBounds, compute_safe_slacks, determineDualsBounds_d", "src/Interface/hiopInterface.hpp: get_starting_point, get_warmstart_point"]}
{"id": "C89", "title": "Every run of a primal decomposition solver asks the master problem the documented questions, whatever was run and set before", "statement": "Each run solves the basecase once, from zero and without recourse, and then makes between one and max_iter rounds: every recourse value and gradient once, at the coupled part of the last master solution; an approximation with their means at that point and a coefficient between alpha_min and alpha_max; a master solve from that point with exactly this approximation, whose object is valid during the solve. A run depends on the settings given last and on the user's object, not on earlier runs; reported status and iteration number are those of the run; every approximation object is released; a user can look at the approximation it was given whenever it is called; bounds that exclude each other and limits that allow no iteration are refused.", "quantifier": "all user objects (any state, any answers), numbers of variables and recourse terms, sequences of settings and runs", "why_tests_cant": "The user's object may change with every call, so no finite set of problems or of call sequences covers the histories; a dangling pointer may read the right values in a test.", "anchors": ["src/Optimization/hiopAlgPrimalDecomp.cpp: run_single, run, stopping_criteria, set_max_iteration, set_alpha_min, set_alpha_max, set_tolerance, set_acceptable_tolerance, set_acceptable_count", "src/Interface/hiopInterfacePrimalDecomp.hpp: solve_master, set_recourse_approx_evaluator, RecourseApproxEvaluator"]}
{"id": "C90", "title": "Every evaluation hands the user's function a point of the user's problem", "statement": "In every problem class, with or without removal of fixed variables, every call of a user's function (objective, gradient, constraints, Jacobians, Hessian) gets the user's number of variables and an array with one entry for each of the user's variables: the fixed variables at their values and the others, in order, at the solver's values for that evaluation.", "quantifier": "all problem classes, numbers of variables, bounds and tolerances, all sequences of evaluations with a truthful new_x, all complete runs", "why_tests_cant": "The point handed over depends on a buffer refreshed by earlier calls and on the pattern of fixed variables; a test problem without fixed variables, or with functions that ignore n, sees no difference.", "anchors": ["src/Optimization/hiopNlpFormulation.cpp: eval_f, eval_grad_f, eval_c, eval_d, eval_c_d, eval_Jac_c, eval_Jac_d, eval_Jac_c_d_interface_impl, eval_Hess_Lagr, finalizeInitialization", "src/Optimization/hiopNlpTransforms.hpp: apply_inv_to_x, n_pre"]}
{"id": "C91", "title": "A soft feasibility restoration that reports success has found a point the filter accepts", "statement": "When the line search is blocked, the soft restoration makes at most ten trial points. It reports success only with a trial point that reduces the optimality error by the factor 0.999 and that the filter accepts, the earlier ones having been rejected by the filter only; it reports failure only if a trial point does not reduce the error, or a user function fails; the user's functions are evaluated only at the trial points, at most 19 times.", "quantifier": "all trial points, errors, filters, results of the linear solves and multiplier updates, failures of the user's functions", "why_tests_cant": "The rounds depend on the filter, which depends on the whole history of the run; that all ten trial points are rejected hardly occurs in a test.", "anchors": ["src/Optimization/hiopAlgFilterIPM.cpp: solve_soft_feasibility_restoration", "src/Optimization/hiopFilter.cpp: contains"]}
{"id": "C92", "title": "A linear system saved with write_kkt can be read back", "statement": "With the option write_kkt set to yes, the file kkt_linsys_k.iajaaa holds, in the documented format, the k-th matrix of the run, the sizes of the problem, and the right-hand side and solution of each solve with that matrix, in order; a reader of the format gets the same nonzeros and numbers, whatever files were there before.", "quantifier": "all sizes, matrices, sequences of factorizations and solves, and earlier contents of the directory", "why_tests_cant": "The row pointers, column indexes and values are written by three separate loops and the vectors by later calls on a file opened again; that they fit together for each pattern of zeros and each order of calls cannot be seen from a few files.", "anchors": ["src/Utils/hiopCSR_IO.hpp: writeMatToFile, writeRhsToFile, writeSolToFile", "src/LinAlg/csr_iajaaa.md", "src/LinAlg/load_kkt_mat.m", "src/Optimization/hiopKKTLinSysDense.hpp: solveCompressed", "src/Optimization/hiopKKTLinSysMDS.cpp: solveCompressed", "src/Optimization/hiopKKTLinSysSparseNormalEqn.cpp: solveCompressed"]}
