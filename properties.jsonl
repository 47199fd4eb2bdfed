{"id": "C01", "title": "Evaluation budget is never exceeded", "statement": "At every moment of a run, the number of completed evaluations plus the number of evaluations that are proposed or running is at most max_evals (0 if max_evals is not positive).", "quantifier": "every configuration (sync/async, restarts, batch size, extra points), every order of accept/reject/complete/abort events, every crash and resume, every number of steps", "why_tests_cant": "A test drives one schedule; the worker schedule and failures are chosen by the environment.", "anchors": ["pySOT/strategy/surrogate_strategy.py:SurrogateBaseStrategy.propose_action", "pySOT/strategy/surrogate_strategy.py:check_termination", "pySOT/strategy/surrogate_strategy.py:make_proposal"]}
{"id": "C02", "title": "The pending counter is exact", "statement": "pending_evals always equals the number of proposals and records that are outstanding; it is never negative, whatever is rejected, aborted, completed or restarted.", "quantifier": "every reachable state of every schedule", "why_tests_cant": "Requires every interleaving of accept, reject, complete, abort, restart and resume.", "anchors": ["pySOT/strategy/surrogate_strategy.py:make_proposal", "pySOT/strategy/surrogate_strategy.py:on_initial_rejected", "pySOT/strategy/surrogate_strategy.py:on_adapt_aborted", "pySOT/strategy/surrogate_strategy.py:on_initial_completed"]}
{"id": "C03", "title": "The evaluation history is complete, aligned and append-only", "statement": "X and fX hold exactly the known extra points followed by the completed evaluations in completion order, with matching values; num_evals counts the completed ones; nothing is ever removed or altered, also not by a restart.", "quantifier": "every reachable state, every history", "why_tests_cant": "Restarts, rejects and aborts can be interleaved in infinitely many ways.", "anchors": ["pySOT/strategy/surrogate_strategy.py:on_initial_completed", "pySOT/strategy/surrogate_strategy.py:on_adapt_completed", "pySOT/strategy/surrogate_strategy.py:sample_restart"]}
{"id": "C04", "title": "Every finished record is logged exactly once", "statement": "fevals is exactly the list of records that completed or were aborted, each once, in the order in which they finished; accepted_count and rejected_count are the numbers of accepted and rejected proposals.", "quantifier": "every reachable state, every history", "why_tests_cant": "Needs all schedules, including aborts.", "anchors": ["pySOT/strategy/surrogate_strategy.py:on_initial_completed", "pySOT/strategy/surrogate_strategy.py:on_initial_aborted", "pySOT/strategy/surrogate_strategy.py:on_adapt_completed", "pySOT/strategy/surrogate_strategy.py:on_adapt_aborted"]}
{"id": "C05", "title": "Xpend is the list of in-flight points", "statement": "Xpend contains exactly the points that are proposed or running, each as often as it is in flight, so that candidate generation can avoid them.", "quantifier": "every reachable state, every history", "why_tests_cant": "Depends on duplicates and on all schedules.", "anchors": ["pySOT/strategy/surrogate_strategy.py:remove_pending", "pySOT/strategy/surrogate_strategy.py:make_proposal"]}
{"id": "C06", "title": "Work is conserved", "statement": "Every point that was ever put in the queue (initial designs, extra points without value, adaptive points) is at any time accounted for exactly once: still queued, in flight, completed, or deliberately dropped (an adaptive proposal that was rejected in asynchronous mode, or an adaptive evaluation that was aborted).", "quantifier": "every reachable state without crash, every history", "why_tests_cant": "A lost or duplicated point shows only under a specific interleaving of rejects, aborts and phase changes.", "anchors": ["pySOT/strategy/surrogate_strategy.py:on_initial_rejected", "pySOT/strategy/surrogate_strategy.py:on_initial_aborted", "pySOT/strategy/surrogate_strategy.py:on_adapt_reject", "pySOT/strategy/surrogate_strategy.py:on_adapt_aborted", "pySOT/strategy/surrogate_strategy.py:init_proposal", "pySOT/strategy/surrogate_strategy.py:adapt_proposal"]}
{"id": "C07", "title": "Failed initial evaluations are retried, never dropped", "statement": "As long as the strategy is in the initial phase, a point of the initial design whose proposal is rejected or whose evaluation is aborted goes back to the queue; no design point is ever dropped before it has been evaluated.", "quantifier": "every history", "why_tests_cant": "Failures can hit any evaluation at any time, also after the phase has switched.", "anchors": ["pySOT/strategy/surrogate_strategy.py:on_initial_rejected", "pySOT/strategy/surrogate_strategy.py:on_initial_aborted", "pySOT/strategy/surrogate_strategy.py:propose_action"]}
{"id": "C08", "title": "Termination protocol", "statement": "The strategy proposes to terminate only when no evaluation is outstanding and the budget was reached; once the budget is reached it never proposes another evaluation, and as soon as nothing is outstanding the next proposal is a termination.", "quantifier": "every reachable state, every history", "why_tests_cant": "Termination must be right at every interleaving of the last evaluations.", "anchors": ["pySOT/strategy/surrogate_strategy.py:propose_action", "pySOT/strategy/surrogate_strategy.py:check_termination"]}
{"id": "C09", "title": "A terminated run has used exactly its budget", "statement": "When the strategy proposes to terminate, exactly max_evals evaluations have been completed.", "quantifier": "every history that ends in a termination proposal", "why_tests_cant": "An abort of one of the last evaluations is needed to see the failure.", "anchors": ["pySOT/strategy/surrogate_strategy.py:propose_action", "pySOT/strategy/surrogate_strategy.py:check_termination", "pySOT/strategy/surrogate_strategy.py:on_adapt_aborted"]}
{"id": "C10", "title": "Synchronous mode is a batch barrier", "statement": "In synchronous mode new adaptive points are generated only when the queue is empty and no evaluation is outstanding, and then exactly batch_size of them; at most batch_size evaluations are outstanding or queued while only adaptive points exist.", "quantifier": "every synchronous history", "why_tests_cant": "The barrier must hold for all orders in which workers return.", "anchors": ["pySOT/strategy/surrogate_strategy.py:propose_action", "pySOT/strategy/surrogate_strategy.py:on_adapt_reject"]}
{"id": "C11", "title": "No deadlock", "statement": "If nothing is outstanding, propose_action returns a proposal (an evaluation or a termination), so a controller with idle workers always gets something to do.", "quantifier": "every reachable state", "why_tests_cant": "A hang appears only in specific reachable states (for example converged without restarts).", "anchors": ["pySOT/strategy/surrogate_strategy.py:propose_action", "pySOT/strategy/surrogate_strategy.py:adapt_proposal"]}
{"id": "C12", "title": "Asynchronous mode never leaves a free worker idle before the budget is reached", "statement": "In asynchronous mode, as long as completed plus outstanding evaluations have never reached the budget (and the run has not converged with restarts disabled), propose_action always returns an evaluation.", "quantifier": "every reachable state of every asynchronous run", "why_tests_cant": "All schedules.", "anchors": ["pySOT/strategy/surrogate_strategy.py:propose_action"]}
{"id": "C13", "title": "Restarts isolate the runs", "statement": "After a restart the current-run data (_X, _fX) and the surrogate contain only evaluations whose proposal was accepted after the restart; late results of the previous run are recorded in X/fX but never enter the new run's data.", "quantifier": "every history with any number of restarts", "why_tests_cant": "Late results of the old run can arrive at any time after the restart.", "anchors": ["pySOT/strategy/surrogate_strategy.py:sample_restart", "pySOT/strategy/surrogate_strategy.py:on_adapt_completed", "pySOT/strategy/surrogate_strategy.py:on_initial_completed"]}
{"id": "C14", "title": "Every result of the current run reaches the surrogate", "statement": "Every evaluation accepted after the last restart and completed since is in _X/_fX and in the surrogate, in completion order.", "quantifier": "every history", "why_tests_cant": "Only particular asynchronous schedules lose data.", "anchors": ["pySOT/strategy/surrogate_strategy.py:on_adapt_completed", "pySOT/strategy/srbf_strategy.py:adjust_step"]}
{"id": "C15", "title": "Event identifiers are unique and increasing", "statement": "Each accepted record gets an identifier larger than all earlier ones, different from every event marker; so 'newer than the last event' is decided correctly with > as with >=.", "quantifier": "every reachable state, every history", "why_tests_cant": "Quantifies over all histories.", "anchors": ["pySOT/strategy/surrogate_strategy.py:get_ev", "pySOT/strategy/surrogate_strategy.py:on_initial_accepted", "pySOT/strategy/surrogate_strategy.py:on_adapt_accept", "pySOT/strategy/sop_strategy.py:on_adapt_completed"]}
{"id": "C16", "title": "Extra points are used once", "statement": "An extra point with a known value enters X, fX and the surrogate at start without costing budget; one without value is queued once for evaluation; restarts never add extra points again.", "quantifier": "every list of extra points and values, every history", "why_tests_cant": "All histories with restarts.", "anchors": ["pySOT/strategy/surrogate_strategy.py:sample_initial"]}
{"id": "C17", "title": "Resuming a snapshot", "statement": "resume forgets every outstanding evaluation (nothing pending afterwards), keeps all completed data and the queue, and in the initial phase puts every outstanding point back in the queue.", "quantifier": "every reachable snapshot", "why_tests_cant": "The snapshot may be taken at any event of any schedule.", "anchors": ["pySOT/strategy/surrogate_strategy.py:resume"]}
{"id": "C18", "title": "Checkpoint file is atomic", "statement": "At any crash point during save the checkpoint file is absent or holds a complete snapshot: the previous one or the new one, never a partial one.", "quantifier": "every history of saves, every crash point inside each save", "why_tests_cant": "Crash points cannot be enumerated by tests.", "anchors": ["pySOT/strategy/surrogate_strategy.py:save", "pySOT/controller/controller.py:CheckpointController._save"]}
{"id": "C19", "title": "Checkpoint controller guards and recovery", "statement": "run refuses to start when the checkpoint file exists, resume refuses when it does not; after a crash the resumed strategy contains every evaluation that had been completed at the time of the last save, and the budget of the whole run (before and after the crash) still holds.", "quantifier": "every history with any number of crashes", "why_tests_cant": "All crash points and schedules.", "anchors": ["pySOT/controller/controller.py:CheckpointController.run", "pySOT/controller/controller.py:CheckpointController.resume", "pySOT/strategy/surrogate_strategy.py:resume"]}
{"id": "C20", "title": "A resumed run goes on until its budget is used", "statement": "After resuming a snapshot with unused budget, the strategy goes on proposing evaluations.", "quantifier": "every reachable snapshot", "why_tests_cant": "The snapshot must be taken in a specific state (budget fully assigned, evaluations outstanding).", "anchors": ["pySOT/strategy/surrogate_strategy.py:resume", "pySOT/strategy/surrogate_strategy.py:check_termination"]}
{"id": "C21", "title": "Sampling radius stays in its range", "statement": "The SRBF/DYCORS sampling radius is always 0.2 divided by 2, 4, 8, ..., 64 (or 0.2 itself), in particular never above 0.2 and never below the minimum radius while the run has not converged.", "quantifier": "every sequence of evaluation results, every history", "why_tests_cant": "Unbounded sequences of successes and failures.", "anchors": ["pySOT/strategy/srbf_strategy.py:adjust_step", "pySOT/strategy/srbf_strategy.py:sample_initial"]}
{"id": "C22", "title": "Convergence after repeated failure", "statement": "A run is declared converged at the latest after maxfailtol consecutive steps without significant improvement, and is never declared converged otherwise than by maxfailtol consecutive failures or by reaching the minimum radius. It is converged exactly when some step of the current run ended in one of these two ways.", "quantifier": "every sequence of evaluation results, every dimension and batch size", "why_tests_cant": "Unbounded sequences.", "anchors": ["pySOT/strategy/srbf_strategy.py:adjust_step", "pySOT/strategy/srbf_strategy.py:__init__"]}
{"id": "C23", "title": "Best value bookkeeping in SRBF", "statement": "The reference value of a run never increases, each recorded improvement is a significant one (more than 0.1 percent of the magnitude), and the status counter stays strictly between the failure and success thresholds.", "quantifier": "every sequence of evaluation results", "why_tests_cant": "Unbounded sequences.", "anchors": ["pySOT/strategy/srbf_strategy.py:adjust_step"]}
{"id": "C24", "title": "Weights are cycled in order", "statement": "The k-th adaptive point ever generated uses the weight number k modulo the number of weights, however the points are grouped in batches and across restarts.", "quantifier": "every list of weights, every sequence of batch sizes", "why_tests_cant": "Unbounded sequences of calls.", "anchors": ["pySOT/strategy/srbf_strategy.py:get_weights"]}
{"id": "C25", "title": "DYCORS perturbation probability is a probability", "statement": "The perturbation probability lies between 1/dim and 1 and never increases with the number of evaluations, for every budget of at least two adaptive evaluations.", "quantifier": "every dimension, budget and number of evaluations", "why_tests_cant": "Real-valued function over an infinite domain.", "anchors": ["pySOT/strategy/dycors_strategy.py:generate_evals", "pySOT/strategy/sop_strategy.py:generate_evals"]}
{"id": "C26", "title": "Proposed points satisfy the bounds and integrality", "statement": "Every point returned by candidate_srbf, candidate_uniform and candidate_dycors (default subset) lies in the box [lb, ub], and its integer variables are integers when the bounds of those variables are.", "quantifier": "all problems, data, surrogates, weights and all random draws", "why_tests_cant": "Random draws and surrogate values are unbounded.", "anchors": ["pySOT/auxiliary_problems/candidate_srbf.py:candidate_srbf", "pySOT/auxiliary_problems/candidate_uniform.py:candidate_uniform", "pySOT/auxiliary_problems/candidate_dycors.py:candidate_dycors", "pySOT/utils.py:round_vars"]}
{"id": "C27", "title": "Only coordinates in subset move", "statement": "With the subset argument, candidates differ from the best point only in the coordinates listed in subset, and respect the bounds.", "quantifier": "all problems, subsets and random draws", "why_tests_cant": "All subsets.", "anchors": ["pySOT/auxiliary_problems/candidate_srbf.py:candidate_srbf", "pySOT/auxiliary_problems/candidate_dycors.py:candidate_dycors", "pySOT/auxiliary_problems/candidate_uniform.py:candidate_uniform"]}
{"id": "C28", "title": "Weighted-distance selection is minimal and separated", "statement": "Each selected point is a candidate; it minimizes the weighted merit among the candidates at distance at least dtol from evaluated, pending and previously selected points, provided such a candidate exists, and then is itself at least dtol away from all of them.", "quantifier": "all candidate sets, data, weights and surrogates", "why_tests_cant": "Infinite input space.", "anchors": ["pySOT/auxiliary_problems/candidate_srbf.py:weighted_distance_merit"]}
{"id": "C29", "title": "DYCORS perturbs at least one coordinate, any coordinate", "statement": "Every DYCORS candidate has at least one coordinate selected for perturbation, and every coordinate can be the one selected when the random mask is empty.", "quantifier": "all masks and random draws", "why_tests_cant": "All random draws.", "anchors": ["pySOT/auxiliary_problems/candidate_dycors.py:candidate_dycors"]}
{"id": "C30", "title": "EI selection is separated", "statement": "The points proposed by ei_ga with positive tolerance are in the box, integer-feasible, and at distance at least dtol from all evaluated and pending points and from one another; None is returned exactly when some maximized EI is below the tolerance.", "quantifier": "all problems, surrogates and random draws", "why_tests_cant": "All random draws and data.", "anchors": ["pySOT/auxiliary_problems/ei_ga.py:ei_ga", "pySOT/auxiliary_problems/ei_merit.py:ei_merit"]}
{"id": "C31", "title": "LCB selection is separated", "statement": "The points proposed by lcb_ga have LCB at most the target, are in the box, integer-feasible, and at distance at least dtol from all evaluated and pending points and from one another.", "quantifier": "all problems, surrogates and random draws", "why_tests_cant": "All random draws and data.", "anchors": ["pySOT/auxiliary_problems/lcb_ga.py:lcb_ga", "pySOT/auxiliary_problems/lcb_merit.py:lcb_merit"]}
{"id": "C32", "title": "Expected improvement is nonnegative and dominates plain improvement", "statement": "For positive predicted standard deviation the EI merit is nonnegative and at least the predicted improvement, and zero within dtol of known points.", "quantifier": "all means, deviations and best values", "why_tests_cant": "Real-valued function over an infinite domain.", "anchors": ["pySOT/auxiliary_problems/ei_merit.py:ei_merit"]}
{"id": "C33", "title": "The genetic algorithm stays in the box", "statement": "The individual returned by the genetic algorithm, and every individual on which the objective is evaluated, is in the box and integer-feasible (for integer bounds of the integer variables).", "quantifier": "all objectives, population sizes, numbers of generations and random draws", "why_tests_cant": "All random draws.", "anchors": ["pySOT/utils.py:GeneticAlgorithm.optimize"]}
{"id": "C34", "title": "The genetic algorithm is elitist", "statement": "The returned value is the objective at the returned individual, and no individual ever evaluated in any generation had a smaller value.", "quantifier": "all objectives, population sizes, numbers of generations and random draws", "why_tests_cant": "All random draws.", "anchors": ["pySOT/utils.py:GeneticAlgorithm.optimize"]}
{"id": "C35", "title": "A user-supplied initial population inside the domain is accepted", "statement": "A start population of the right shape with all individuals inside the bounds is accepted, one outside is refused.", "quantifier": "all populations and bounds", "why_tests_cant": "All inputs.", "anchors": ["pySOT/utils.py:GeneticAlgorithm.optimize"]}
{"id": "C36", "title": "Unit-box maps are inverse", "statement": "to_unit_box and from_unit_box are inverse to each other for lb < ub, map the box onto the unit cube, and preserve coordinatewise order.", "quantifier": "all points and bounds", "why_tests_cant": "Infinite domain.", "anchors": ["pySOT/utils.py:to_unit_box", "pySOT/utils.py:from_unit_box"]}
{"id": "C37", "title": "unit_rescale", "statement": "unit_rescale maps every vector into [0,1], preserves the order of the entries, sends the minimum to 0 and the maximum to 1 unless all entries are equal, when it returns ones.", "quantifier": "all nonempty vectors", "why_tests_cant": "Infinite domain.", "anchors": ["pySOT/utils.py:unit_rescale"]}
{"id": "C38", "title": "round_vars projects to the closest feasible integer", "statement": "round_vars leaves continuous variables unchanged, maps each integer variable into its bounds and to the closest integer of the domain, and is idempotent.", "quantifier": "all problems whose integer variables have integer bounds, all points (see C65 for other bounds)", "why_tests_cant": "Infinite domain; fails for some non-integer bounds.", "anchors": ["pySOT/utils.py:round_vars"]}
{"id": "C39", "title": "check_opt_prob accepts only well-formed problems", "statement": "An accepted problem has bounds of length dim with lb < ub, and its integer and continuous variables partition the variables.", "quantifier": "all problem objects", "why_tests_cant": "All inputs.", "anchors": ["pySOT/utils.py:check_opt_prob"]}
{"id": "C40", "title": "nd_front computes the Pareto front", "statement": "nd_front splits the indices into exactly the non-dominated and the dominated ones, each index once.", "quantifier": "all objective matrices of any size", "why_tests_cant": "Infinite input space.", "anchors": ["pySOT/utils.py:nd_front", "pySOT/utils.py:nd_add", "pySOT/utils.py:domination"]}
{"id": "C41", "title": "nd_sorting computes the non-domination ranks", "statement": "The rank of a point is one plus the largest rank of a point dominating it (1 if none); sorting ranks at least min(nmax, N) points, whole fronts at a time, and leaves exactly the points of deeper fronts at infinity; it terminates.", "quantifier": "all objective matrices and nmax", "why_tests_cant": "Infinite input space.", "anchors": ["pySOT/utils.py:nd_sorting"]}
{"id": "C42", "title": "Radius rule", "statement": "check_radius_rule returns 1 exactly when the point is at distance at least sigma * 2^-nfail * d_thresh / sqrt(len) from each of the nc selected centers; it always returns 1 for d_thresh <= 0 and is monotone in d_thresh.", "quantifier": "all points, centers and parameters", "why_tests_cant": "Infinite input space.", "anchors": ["pySOT/utils.py:check_radius_rule"]}
{"id": "C43", "title": "Symmetric Latin hypercube", "statement": "For all random choices, every column of the SLHD takes each level exactly once, the design is symmetric about the center, and lies in the unit cube.", "quantifier": "all dims, num_pts >= 2, all coin flips and shuffles", "why_tests_cant": "Random choices and sizes are unbounded.", "anchors": ["pySOT/experimental_design/slhd.py:_slhd"]}
{"id": "C44", "title": "Two-factorial design", "statement": "The design has exactly 2^dim points: each corner of the box exactly once (integer bounds for integer variables), and refuses dim >= 15.", "quantifier": "all dims and bounds", "why_tests_cant": "All dims and bounds.", "anchors": ["pySOT/experimental_design/two_factorial.py:TwoFactorial"]}
{"id": "C45", "title": "Design selection", "statement": "The returned design is one of the generated ones, has pairwise distinct points, full column rank, satisfies bounds and integrality, and has the largest minimum distance among the generated designs of full rank; an error is raised exactly when none qualifies.", "quantifier": "all generators, iteration counts and bounds", "why_tests_cant": "All random designs.", "anchors": ["pySOT/experimental_design/experimental_design.py:_expdes_dist"]}
{"id": "C46", "title": "Surrogate data", "statement": "After any sequence of add_points and reset the surrogate holds exactly the points and values added since the last reset, in order, num_pts is their number and the internal points are their unit-box images; wrongly shaped input is refused and changes nothing.", "quantifier": "all sequences of operations", "why_tests_cant": "Unbounded sequences.", "anchors": ["pySOT/surrogate/surrogate.py:Surrogate.add_points", "pySOT/surrogate/surrogate.py:Surrogate.reset"]}
{"id": "C47", "title": "RBF interpolation", "statement": "If the fitting system is solved, the RBF prediction at each data point equals the (transformed) value minus eta times its coefficient, so it interpolates exactly for eta = 0, and the coefficients are orthogonal to the polynomial tail.", "quantifier": "all data sets, kernels and tails", "why_tests_cant": "Infinite input space.", "anchors": ["pySOT/surrogate/rbf.py:RBFInterpolant._fit", "pySOT/surrogate/rbf.py:RBFInterpolant.predict"]}
{"id": "C48", "title": "Incremental fitting equals fitting from scratch", "statement": "However additions of points are interleaved with predictions, the coefficients after a fit solve the full system for all current data; if that system is nonsingular the predictions are those of a fit from scratch.", "quantifier": "all sequences of add_points/predict, all groupings", "why_tests_cant": "Unbounded sequences.", "anchors": ["pySOT/surrogate/rbf.py:RBFInterpolant._fit"]}
{"id": "C49", "title": "predict_deriv is the gradient of predict", "statement": "For the cubic and TPS kernels with linear tail (and the linear kernel away from data points) predict_deriv returns the partial derivatives of predict with respect to the original coordinates.", "quantifier": "all data, coefficients, and points not within machine precision of a data point", "why_tests_cant": "Continuum of points.", "anchors": ["pySOT/surrogate/rbf.py:RBFInterpolant.predict_deriv", "pySOT/surrogate/kernels/cubic_kernel.py:CubicKernel.deriv", "pySOT/surrogate/kernels/tps_kernel.py:TPSKernel.deriv"]}
{"id": "C50", "title": "Predictions are never stale", "statement": "A prediction always uses a fit of exactly the current data, for any interleaving of add_points, reset and predict; a fit is computed only when data changed.", "quantifier": "all sequences of operations", "why_tests_cant": "Unbounded sequences.", "anchors": ["pySOT/surrogate/surrogate.py:Surrogate.add_points", "pySOT/surrogate/gp.py:GPRegressor._fit", "pySOT/surrogate/rbf.py:RBFInterpolant._fit", "pySOT/surrogate/poly.py:PolyRegressor._fit"]}
{"id": "C51", "title": "Median capping", "statement": "median_capping never raises a value, leaves values up to the median unchanged, caps the others at the median, keeps the order and the minimum, and is idempotent.", "quantifier": "all value vectors", "why_tests_cant": "Infinite domain; idempotence depends on parity.", "anchors": ["pySOT/surrogate/output_transformations/median_capping.py:median_capping"]}
{"id": "C52", "title": "SOP archive is aligned with the history", "statement": "The i-th entry of the SOP archive is the i-th completed evaluation (point and value), and the archive has num_evals entries.", "quantifier": "every SOP history", "why_tests_cant": "All schedules.", "anchors": ["pySOT/strategy/sop_strategy.py:on_initial_completed", "pySOT/strategy/sop_strategy.py:on_adapt_completed"]}
{"id": "C53", "title": "SOP centers", "statement": "After updating the center list there are exactly ncenters centers, all evaluated points, and the best point is always among the candidates put first unless it is being processed.", "quantifier": "all archives, all tabu states", "why_tests_cant": "Infinite input space.", "anchors": ["pySOT/strategy/sop_strategy.py:update_center_list"]}
{"id": "C54", "title": "SOP memory attributes", "statement": "A point's failure count stays between 0 and 4, its tabu counter between 0 and 5; a point becomes tabu when its fourth failure in a row is recorded, leaves the tabu list after five rounds, and its radius is 0.2 halved once per failure since the last reset.", "quantifier": "all sequences of memory updates", "why_tests_cant": "Unbounded sequences.", "anchors": ["pySOT/strategy/sop_strategy.py:adjust_memory", "pySOT/strategy/sop_strategy.py:_SopRecord"]}
{"id": "C55", "title": "SOP centers are selected by Pareto rank", "statement": "Centers are chosen in the order tabu status, then non-domination rank, then value, where the ranks are those of the current archive.", "quantifier": "all archives after at least one adaptive evaluation", "why_tests_cant": "Depends on the update order of the ranked archive over a history.", "anchors": ["pySOT/strategy/sop_strategy.py:adjust_memory", "pySOT/strategy/sop_strategy.py:update_F", "pySOT/strategy/sop_strategy.py:update_center_list"]}
{"id": "C56", "title": "SOP survives failed evaluations", "statement": "SOP can always generate a new point, also after evaluations were aborted or rejected.", "quantifier": "every SOP history", "why_tests_cant": "Needs ncenters failures.", "anchors": ["pySOT/strategy/sop_strategy.py:generate_evals", "pySOT/strategy/sop_strategy.py:update_center_list"]}
{"id": "C57", "title": "Test problems: stated minimum is the global minimum", "statement": "For the analytic test problems (Ackley, Exponential, Goldstein-Price, Griewank, Levy, Perm, Rastrigin, Rosenbrock, Sphere, SumOfSquares, Weierstrass, Zakharov, Himmelblau), `minimum` lies in the bounds, the value at `minimum` is `min` (Himmelblau: up to 1e-10, its constant is rounded) and no point of the box has a smaller value.", "quantifier": "all points, all dimensions", "why_tests_cant": "Continuum of points.", "anchors": ["pySOT/optimization_problems/ackley.py", "pySOT/optimization_problems/griewank.py", "pySOT/optimization_problems/rastrigin.py", "pySOT/optimization_problems/rosenbrock.py", "pySOT/optimization_problems/sphere.py", "pySOT/optimization_problems/sum_of_squares.py", "pySOT/optimization_problems/zakharov.py", "pySOT/optimization_problems/levy.py", "pySOT/optimization_problems/weierstrass.py", "pySOT/optimization_problems/perm.py", "pySOT/optimization_problems/exponential.py", "pySOT/optimization_problems/goldstein_price.py", "pySOT/optimization_problems/himmelblau.py"]}
{"id": "C58", "title": "Test problems compute the documented formula", "statement": "The value computed by eval is the formula in the docstring of the class (or on the page it cites), at every point and in every dimension.", "quantifier": "all points, all dimensions", "why_tests_cant": "Continuum of points.", "anchors": ["pySOT/optimization_problems/exponential.py", "pySOT/optimization_problems/branin.py", "pySOT/optimization_problems/zakharov.py"]}
{"id": "C59", "title": "Wrong dimension is refused", "statement": "Evaluating a problem at a vector of length other than dim raises an error, otherwise it returns a value.", "quantifier": "all vectors", "why_tests_cant": "All inputs.", "anchors": ["pySOT/optimization_problems/optimization_problem.py:__check_input__"]}
{"id": "C60", "title": "Random strategy evaluates exactly max_evals feasible points", "statement": "RandomStrategy proposes max_evals points inside the box, integer-feasible, retries failed ones, and terminates exactly when all are completed.", "quantifier": "all histories and random draws", "why_tests_cant": "All schedules.", "anchors": ["pySOT/strategy/random_strategy.py:RandomStrategy"]}
{"id": "C61", "title": "Input validation of the budget", "statement": "The constructor refuses a max_evals that is not a positive integer or is smaller than the initial design.", "quantifier": "all inputs", "why_tests_cant": "All inputs.", "anchors": ["pySOT/strategy/surrogate_strategy.py:check_input", "pySOT/strategy/random_strategy.py:RandomStrategy.__init__"]}
{"id": "C62", "title": "Only feasible points are proposed", "statement": "If the design, the extra points and the adaptive points are feasible (bounds and integrality), every point ever proposed, evaluated or recorded is feasible.", "quantifier": "every feasibility predicate, every history with restarts and resumes", "why_tests_cant": "All histories.", "anchors": ["pySOT/strategy/surrogate_strategy.py:propose_action", "pySOT/strategy/surrogate_strategy.py:resume"]}
{"id": "C63", "title": "SRBF step control follows the documented rule", "statement": "Replaying the significant improvements and failures of the history by the rule 'three successes in a row double the radius (at most 0.2), failtol failures in a row halve it' gives exactly the radius, the reference value, the status and the failure count of the strategy; in asynchronous mode every adaptive result of the current radius is one step, in synchronous mode, whenever the evaluation that completes is the last one queued or running, the smallest of the adaptive values since the last step is one step (which batches end this way: C139). The radius changes exactly at the third success in a row or the failtol-th failure in a row, and from then on results of evaluations accepted before the change (older results) no longer enter the step control, the current-run data or the surrogate.", "quantifier": "all reachable states and histories, synchronous and asynchronous, any dimension and batch size", "why_tests_cant": "the counters interact over arbitrarily long histories with restarts, failures and late results", "anchors": ["/repo/pySOT/strategy/srbf_strategy.py: SRBFStrategy.adjust_step, on_adapt_completed"]}
{"id": "C64", "title": "Saving works for every file name in an existing directory", "statement": "save (and thus the checkpoint controller) succeeds for every file name whose directory exists, and afterwards the file holds the snapshot.", "quantifier": "all file names, file systems and snapshots", "why_tests_cant": "all names and file systems; the tests use one bare name", "anchors": ["pySOT/strategy/surrogate_strategy.py:save"]}
{"id": "C65", "title": "Integer variables of accepted problems are integral after rounding", "statement": "For every problem accepted by check_opt_prob, round_vars returns points whose integer variables are integers inside the bounds.", "quantifier": "all problems accepted by check_opt_prob, all points", "why_tests_cant": "Ranges over all accepted bounds, including non-integer bounds of integer variables, and all real points.", "anchors": ["pySOT/utils.py: round_vars", "pySOT/utils.py: check_opt_prob"]}
{"id": "C66", "title": "Designs determine a linear polynomial", "statement": "A design returned for at least dim+1 points does not lie on a hyperplane, so that an RBF surrogate with linear tail can be fitted to it.", "quantifier": "all designs returned by generate_points for any dimension, number of points and random choices", "why_tests_cant": "Holds or fails for structural reasons in every dimension; a test samples a few designs.", "anchors": ["pySOT/experimental_design/experimental_design.py: _expdes_dist", "pySOT/experimental_design/slhd.py: SymmetricLatinHypercube", "pySOT/experimental_design/two_factorial.py: TwoFactorial"]}
{"id": "C67", "title": "The GP surrogate standardizes and undoes it exactly", "statement": "The values passed to the wrapped Gaussian process have mean zero and mean square at most one (exactly one unless the data are nearly constant), the scale is positive, and predict is the exact inverse of the standardization: a regressor that reproduces the standardized data gives predictions equal to the data.", "quantifier": "all value vectors, all wrapped regressors", "why_tests_cant": "Infinite domain, includes constant data where the standard deviation is zero.", "anchors": ["pySOT/surrogate/gp.py: GPRegressor._fit, GPRegressor.predict"]}
{"id": "C68", "title": "SOP keeps the contracts of the surrogate strategy", "statement": "Every observable history of SOPStrategy (proposals, records, batches, checkpoints of the evaluation bookkeeping) is a possible history of the surrogate base strategy, so budget, ordering, pending-point and restart guarantees stated for the base strategy hold for SOP.", "quantifier": "all SOP histories, all schedules", "why_tests_cant": "Overridden hooks interact with the base class on every schedule.", "anchors": ["pySOT/strategy/sop_strategy.py:SOPStrategy", "pySOT/strategy/surrogate_strategy.py:SurrogateBaseStrategy"]}
{"id": "C69", "title": "Every bundled problem is accepted", "statement": "check_opt_prob, called by every strategy constructor, accepts every bundled test problem in every dimension, with all variables continuous.", "quantifier": "all bundled problems, all dimensions", "why_tests_cant": "Continuum of points, all dimensions.", "anchors": ["pySOT/utils.py:check_opt_prob", "pySOT/optimization_problems"]}
{"id": "C70", "title": "Branin: stated minimum", "statement": "The stated minimizer of Branin is feasible, attains the stated minimum, and no feasible point is better.", "quantifier": "all points of the plane", "why_tests_cant": "Continuum of points, all dimensions.", "anchors": ["pySOT/optimization_problems/branin.py"]}
{"id": "C71", "title": "Schwefel: stated minimum", "statement": "No feasible point of the Schwefel problem has a negative value, and the stated minimizer attains the stated minimum up to 2e-5 per variable.", "quantifier": "all feasible points, all dimensions", "why_tests_cant": "Continuum of points, all dimensions.", "anchors": ["pySOT/optimization_problems/schwefel.py"]}
{"id": "C72", "title": "Six-hump camel: stated minimum", "statement": "The stated minimizer is feasible and attains the stated minimum up to 1e-4, and no point of the plane is better by more than 1e-4.", "quantifier": "all points of the plane", "why_tests_cant": "Continuum of points, all dimensions.", "anchors": ["pySOT/optimization_problems/six_hump_camel.py"]}
{"id": "C73", "title": "Extra points marked unknown are evaluated", "statement": "An extra point whose value is given as np.nan or np.inf (the documented marks for 'unknown'), or for which no values are given, is queued for evaluation; every other extra value is taken as known and stored.", "quantifier": "every extra value", "why_tests_cant": "All values, special ones included.", "anchors": ["pySOT/strategy/surrogate_strategy.py:sample_initial"]}
{"id": "C74", "title": "Every evaluated point is feasible, end to end", "statement": "For SRBF, DYCORS, EI and LCB strategies with a symmetric Latin hypercube, Latin hypercube or two-factorial design, every point that is ever queued, proposed for evaluation, running, pending or recorded satisfies the bounds of the problem and is integer in the integer variables, provided the extra points are feasible and the bounds of the integer variables are integers.", "quantifier": "every problem, budget, batch size, surrogate, all random draws, all objective values, every interleaving of proposals, answers, completions, aborted evaluations, crashes with resume, and restarts", "why_tests_cant": "Ranges over all random draws and all asynchronous histories of the whole loop.", "anchors": ["pySOT/strategy/surrogate_strategy.py:propose_action", "pySOT/strategy/srbf_strategy.py:generate_evals", "pySOT/strategy/dycors_strategy.py:generate_evals", "pySOT/strategy/ei_strategy.py:generate_evals", "pySOT/strategy/lcb_strategy.py:generate_evals", "pySOT/experimental_design/slhd.py:generate_points"]}
{"id": "C75", "title": "Validation of SOP's number of centers", "statement": "SOPStrategy refuses ncenters unless it is an integer greater than 3 and, in synchronous mode, at least the batch size.", "quantifier": "all inputs", "why_tests_cant": "All inputs.", "anchors": ["pySOT/strategy/sop_strategy.py:check_input"]}
{"id": "C76", "title": "Points with known value are not evaluated again", "statement": "EI and LCB strategies with a positive minimum distance never propose a point that has been evaluated in the current run, is running, is queued, or was supplied as an extra point with its value; the list of pending points used to keep the distance is exact.", "quantifier": "every problem, surrogate, tolerance, random draws, objective values and every asynchronous history without restarts", "why_tests_cant": "Ranges over all histories of the whole loop.", "anchors": ["pySOT/strategy/ei_strategy.py:generate_evals", "pySOT/strategy/lcb_strategy.py:generate_evals", "pySOT/auxiliary_problems/ei_ga.py:ei_ga", "pySOT/auxiliary_problems/lcb_ga.py:lcb_ga", "pySOT/strategy/surrogate_strategy.py:sample_initial"]}
{"id": "C77", "title": "When an RBF interpolant can be fitted", "statement": "With the cubic or thin plate spline kernel and linear tail, a prediction raises exactly if no points have been added or all of them lie on a common hyperplane, now or at an earlier prediction made since the last reset with more points than variables (C94); with the default eta > 0 repeated points do no harm (cubic kernel with eta = 0: points must be distinct).", "quantifier": "every dimension, bounds, output transformation, history of add_points/predict/reset calls and every query point", "why_tests_cant": "Positive definiteness must hold for every finite point set in every dimension; tests only see a few random sets.", "anchors": ["pySOT/surrogate/rbf.py:RBFInterpolant._fit", "pySOT/surrogate/kernels/cubic_kernel.py:CubicKernel", "pySOT/surrogate/kernels/tps_kernel.py:TPSKernel", "pySOT/surrogate/tails/linear_tail.py:LinearTail"]}
{"id": "C78", "title": "Linear kernel and regularization", "statement": "With the linear kernel, distinct points (not on a hyperplane when the linear tail is used, also at earlier predictions since the last reset) can always be fitted, for every accepted value of the regularization parameter eta.", "quantifier": "every dimension, bounds, history of calls and eta", "why_tests_cant": "Depends on the sign of a quadratic form over all finite point sets.", "anchors": ["pySOT/surrogate/rbf.py:RBFInterpolant._fit", "pySOT/surrogate/kernels/linear_kernel.py:LinearKernel", "pySOT/surrogate/tails/constant_tail.py:ConstantTail"]}
{"id": "C79", "title": "Operators of the genetic algorithm", "statement": "Each generation of GeneticAlgorithm is as documented: parents are best of a random tournament of five, crossover (probability 0.9) replaces a pair by two complementary convex combinations, mutation changes only coordinates whose draw is below 1/dim by 0.2*(ub-lb) times a normal draw projected to the box, the rounded individuals are evaluated with the best known one in first place; the initial population is rounded to integers inside the box also for fractional bounds that are at least 1 apart.", "quantifier": "all dimensions, bounds, objectives, random draws and numbers of generations", "why_tests_cant": "Ranges over all draws and histories; operators are only visible through random outcomes.", "anchors": ["pySOT/utils.py:GeneticAlgorithm.optimize"]}
{"id": "C80", "title": "A run does bounded work and ends", "statement": "Every proposed evaluation is completed, in flight or lost, so that at most max_evals plus the number of losses (rejections, aborts, crashes) evaluations are ever proposed; a strategy with restarts driven by a serial controller never stalls, evaluates exactly max_evals points and then proposes to terminate.", "quantifier": "every budget, configuration, objective, sequence of random outcomes, history of acceptances, failures and crashes", "why_tests_cant": "Termination and bounded work are claims about whole runs of any length under any schedule and objective.", "anchors": ["pySOT/strategy/surrogate_strategy.py:SurrogateBaseStrategy.propose_action", "pySOT/strategy/surrogate_strategy.py:SurrogateBaseStrategy.sample_restart", "pySOT/strategy/surrogate_strategy.py:SurrogateBaseStrategy.on_initial_completed"]}
{"id": "C81", "title": "Stopping rule of EI and LCB", "statement": "EIStrategy queues a point only if its expected improvement over the best value of the current run is at least ei_tol (default 1e-6 times the range of all known values); LCBStrategy only if its lower confidence bound is at most the best value ever seen minus lcb_tol (same default). A run is given up only if every point the genetic algorithm looked at, for one of the points of the batch, is within dtol of known, pending or chosen points or misses this threshold.", "quantifier": "every reachable state of the whole loop (problem, design, extra points, values, failures, crashes, restarts), every surrogate with positive deviations, all random outcomes", "why_tests_cant": "Ranges over all surrogates, histories and random populations; the threshold is not visible in the result.", "anchors": ["pySOT/strategy/ei_strategy.py:EIStrategy.generate_evals", "pySOT/strategy/lcb_strategy.py:LCBStrategy.generate_evals", "pySOT/auxiliary_problems/ei_ga.py:ei_ga", "pySOT/auxiliary_problems/lcb_ga.py:lcb_ga"]}
{"id": "C82", "title": "Restarts happen exactly when a run is over", "statement": "A strategy restarts (queues a new experimental design and forgets the current run) only if use_restarts is set and either the run has converged (SRBF/DYCORS: 4*failtol consecutive failures or minimum radius since the last restart) or, for EI and LCB, the auxiliary problem gave up; in synchronous mode only when no evaluation is outstanding. Conversely a converged run is restarted by the next call of propose_action that finds budget left and, in synchronous mode, nothing in flight; the answer is a point of the new design and the strategy is no longer converged.", "quantifier": "every reachable state and every restart of every history (any order of results, failures, rejections, crashes and resumes), synchronous and asynchronous, all designs and auxiliary problems", "why_tests_cant": "Unbounded histories; a superfluous or a missing restart depends on the interleaving.", "anchors": ["pySOT/strategy/surrogate_strategy.py:propose_action", "pySOT/strategy/surrogate_strategy.py:sample_restart", "pySOT/strategy/srbf_strategy.py:adjust_step"]}
{"id": "C83", "title": "Hartmann3 and Hartmann6: stated minimum", "statement": "The stated minimizer of Hartmann3 (Hartmann6) is feasible and attains the stated minimum up to 1e-6 (3e-6), and no point of the whole space, feasible or not, has a value below the stated minimum.", "quantifier": "all points of R^3 and R^6", "why_tests_cant": "Continuum of points; the functions have several local minima.", "anchors": ["pySOT/optimization_problems/hartmann3.py:Hartmann3", "pySOT/optimization_problems/hartmann6.py:Hartmann6"]}
{"id": "C84", "title": "The design is known when the surrogate is asked", "statement": "Whenever a strategy generates adaptive points, every point of the experimental design of the current run (and every extra point without value) has been evaluated and given to the surrogate, so that an RBF can be fitted if the design is not contained in a hyperplane.", "quantifier": "every generation of adaptive points in every history (any order of results, failures, rejections, crashes and resumes), synchronous and asynchronous", "why_tests_cant": "Depends on the interleaving of completions and requests; tests use fewer workers than design points.", "anchors": ["pySOT/strategy/surrogate_strategy.py:propose_action", "pySOT/strategy/surrogate_strategy.py:sample_initial", "pySOT/surrogate/rbf.py:RBFInterpolant._fit"]}
{"id": "C85", "title": "RBF interpolants reproduce polynomials of the tail", "statement": "If the (transformed) values added are those of an affine function of the points, an RBF interpolant with linear tail predicts this function and its gradient at every point, whatever the kernel and the regularization; with the constant tail equal values are predicted everywhere.", "quantifier": "every kernel, eta, bounds, history of add_points/predict/reset calls after which the interpolant can be fitted, and every query point", "why_tests_cant": "Tests compare a few random points with a tolerance; the claim is an identity in all points for every data set.", "anchors": ["pySOT/surrogate/rbf.py:RBFInterpolant._fit", "pySOT/surrogate/rbf.py:RBFInterpolant.predict", "pySOT/surrogate/rbf.py:RBFInterpolant.predict_deriv", "pySOT/surrogate/tails/linear_tail.py:LinearTail", "pySOT/surrogate/tails/constant_tail.py:ConstantTail"]}
{"id": "C86", "title": "RBF predictions are linear in the values", "statement": "For fixed points the predictions of an RBF interpolant are linear in the (transformed) values; in particular, without output transformation, multiplying all values by a constant and adding another does the same to every prediction.", "quantifier": "every kernel, eta, bounds, history of add_points/predict/reset calls after which a prediction does not raise, and every query point; all values", "why_tests_cant": "An identity over all data sets and points.", "anchors": ["pySOT/surrogate/rbf.py:RBFInterpolant._fit", "pySOT/surrogate/rbf.py:RBFInterpolant.predict"]}
{"id": "C87", "title": "RBF predictions do not depend on the order or the units of the data", "statement": "Adding the same data in another order (and in other batches) gives the same predictions, also with median capping, and fails for the same data, if no earlier fit failed in either order; rescaling and shifting the variables together with the bounds does not change predictions.", "quantifier": "every kernel, eta, bounds, history of add_points/predict/reset calls after which the interpolant can be fitted, and every query point; all rearrangements and all coordinatewise affine changes of the variables", "why_tests_cant": "All permutations and all groupings of the calls; the incremental factorization takes a different path for each.", "anchors": ["pySOT/surrogate/rbf.py:RBFInterpolant._fit", "pySOT/surrogate/rbf.py:RBFInterpolant.predict", "pySOT/surrogate/surrogate.py:Surrogate.add_points", "pySOT/utils.py:to_unit_box"]}
{"id": "C88", "title": "The regularized RBF fit is at least as close to the data as any affine function", "statement": "With the default cubic kernel and linear tail and eta >= 0, the sum of squared residuals of the predictions at the data points is at most that of any affine function.", "quantifier": "every dimension, bounds, eta >= 0, output transformation, history of calls (repeated points included) and affine function", "why_tests_cant": "Needs conditional positive definiteness of the kernel over all finite point sets.", "anchors": ["pySOT/surrogate/rbf.py:RBFInterpolant._fit", "pySOT/surrogate/rbf.py:RBFInterpolant.predict", "pySOT/surrogate/kernels/cubic_kernel.py:CubicKernel"]}
{"id": "C89", "title": "With one worker, asynchronous mode is synchronous mode with batch size 1", "statement": "If proposals are requested only when nothing is outstanding and no adaptive proposal is rejected, a strategy created with asynchronous=True and one created with asynchronous=False, batch_size=1 make the same proposals, raise the same exceptions and go through the same states, whatever the objective returns and whichever evaluations fail; in particular every result of the current run reaches the surrogate.", "quantifier": "every strategy of the base class (EI, LCB, SRBF, DYCORS), configuration, and every one-worker history with failures, crashes and resumes", "why_tests_cant": "A bisimulation between two modes over unbounded histories with restarts and radius changes.", "anchors": ["pySOT/strategy/surrogate_strategy.py:SurrogateBaseStrategy.propose_action", "pySOT/strategy/srbf_strategy.py:SRBFStrategy.on_adapt_completed", "pySOT/strategy/srbf_strategy.py:SRBFStrategy.__init__"]}
{"id": "C90", "title": "Every point evaluated by SOP is feasible, end to end", "statement": "For SOP with a symmetric Latin hypercube, Latin hypercube or two-factorial design, every point that is ever queued, proposed for evaluation, running, pending or recorded, and every center around which new points are sought, satisfies the bounds of the problem and is integer in the integer variables, provided the extra points are feasible and the bounds of the integer variables are integers.", "quantifier": "every problem, budget, batch size, number of centers, surrogate, all random draws, all objective values, every interleaving of proposals, answers, completions, aborted evaluations and crashes with resume", "why_tests_cant": "Ranges over all random draws and all asynchronous histories of the whole loop, in which the search centers themselves depend on the history.", "anchors": ["pySOT/strategy/sop_strategy.py:SOPStrategy.generate_evals", "pySOT/strategy/sop_strategy.py:SOPStrategy.update_center_list", "pySOT/auxiliary_problems/candidate_dycors.py:candidate_dycors", "pySOT/strategy/surrogate_strategy.py:SurrogateBaseStrategy.propose_action"]}
{"id": "C91", "title": "Adding points to a fitted RBF interpolant updates the factorization", "statement": "Once an RBFInterpolant has been fitted, adding points and predicting does not compute a new LU factorization until the next reset (the docstring promises O(k n^2) work for k new points), and no later prediction raises.", "quantifier": "every dimension, box, kernel with matching tail, regularization, output transformation, every earlier history of calls, every number and order of further add_points and predict calls with any points", "why_tests_cant": "Ranges over all histories and point sets; the fallback to a factorization from scratch is silent, the predictions are the same either way.", "anchors": ["pySOT/surrogate/rbf.py:RBFInterpolant._fit", "pySOT/surrogate/rbf.py:RBFInterpolant.predict", "pySOT/surrogate/kernels.py:CubicKernel", "pySOT/surrogate/kernels.py:TPSKernel", "pySOT/surrogate/kernels.py:LinearKernel"]}
{"id": "C92", "title": "Bound constraints in double precision", "statement": "With the arithmetic of IEEE doubles (each operation rounded to nearest), mapping a design from the unit cube to the box of the problem gives points inside the box; so do the truncated normal draws of the candidate methods up to rounding; and mapping to the unit box or rescaling a vector gives values in [0, 1] with the extremes mapped exactly to 0 and 1.", "quantifier": "every dimension, every box with double bounds, every point of the unit cube, every number of points and random choice of the design, every rounding to nearest (any rule for ties)", "why_tests_cant": "Whether a bound is exceeded depends on the last bit of the bounds; there are 2^128 pairs of bounds. The default tests use integer bounds, for which it never happens.", "anchors": ["pySOT/utils.py:from_unit_box", "pySOT/utils.py:to_unit_box", "pySOT/utils.py:unit_rescale", "pySOT/experimental_design/experimental_design.py:_expdes_dist", "pySOT/experimental_design/two_factorial.py:TwoFactorial.generate_points", "pySOT/experimental_design/slhd.py:SymmetricLatinHypercube.generate_points", "pySOT/auxiliary_problems/candidate_srbf.py:candidate_srbf", "pySOT/auxiliary_problems/candidate_dycors.py:candidate_dycors"]}
{"id": "C93", "title": "SOP gives an idle worker a point while the design is being evaluated", "statement": "In a run of SOP, whenever the budget is not used up, the queue is empty and the run is asynchronous (or nothing is running), asking the strategy for the first adaptive point succeeds; in particular any number of workers can be used.", "quantifier": "every design size, number of workers and centers, every order of proposals, answers, completions, failures and crashes before the first adaptive point, all random draws", "why_tests_cant": "Depends on the number of evaluations that have completed when a worker becomes idle, i.e. on the schedule; tests use few workers and quick objectives.", "anchors": ["pySOT/strategy/sop_strategy.py:SOPStrategy.generate_evals", "pySOT/strategy/sop_strategy.py:SOPStrategy.update_ranks", "pySOT/strategy/surrogate_strategy.py:SurrogateBaseStrategy.propose_action"]}
{"id": "C94", "title": "A failed fit does not damage the interpolant", "statement": "If a prediction raises because the interpolant cannot be fitted yet, nothing is lost: afterwards the interpolant behaves like a new one with the same data, so that adding further points makes it usable; reset makes it a new one in any case.", "quantifier": "every kernel, tail, eta, bounds, every history of add_points/predict/reset calls before and after the failure, every query point, and an output transformation that raises at any moment", "why_tests_cant": "The failure leaves intermediate results in the object that matter only for later calls; whether they do depends on the whole history and on the geometry of the data.", "anchors": ["pySOT/surrogate/rbf.py:RBFInterpolant._fit", "pySOT/surrogate/rbf.py:RBFInterpolant.reset", "pySOT/surrogate/surrogate.py:Surrogate.add_points"]}
{"id": "C95", "title": "Construction of an RBF interpolant", "statement": "RBFInterpolant uses the kernel and the tail it is given. It refuses exactly the combinations of kernel and tail that are not suitable (for which certain distinct points in general position give a singular system) and tails of another dimension; every combination it accepts can be fitted to any distinct points that are not on a hyperplane.", "quantifier": "all kernels and tails of the package, every dimension, bounds, regularization parameter in [0,1/2] (refused combinations), all sets of points", "why_tests_cant": "Solvability for all point sets is a theorem on conditionally definite functions; a test samples a few sets.", "anchors": ["pySOT/surrogate/rbf.py:RBFInterpolant.__init__", "pySOT/surrogate/kernels", "pySOT/surrogate/tails"]}
{"id": "C96", "title": "Objective values that are not finite", "statement": "An evaluation that returns inf (a failure, an infeasible point) does not make the RBF surrogate unusable: predictions go on working, and with median capping an inf is treated exactly like any penalty value at least as large as every finite value seen.", "quantifier": "all histories of add_points/predict/reset with values in the extended reals and NaN, all points, kernels, tails and penalty values", "why_tests_cant": "Which histories break the interpolant depends on the number and order of non-finite values at every earlier prediction; a test tries a few.", "anchors": ["pySOT/surrogate/rbf.py:RBFInterpolant._fit", "pySOT/surrogate/output_transformations/median_capping.py", "pySOT/surrogate/output_transformations/identity.py", "pySOT/surrogate/surrogate.py:Surrogate.add_points"]}
{"id": "C97", "title": "Batch sizes and weights accepted by the constructors", "statement": "The constructors of SRBF, DYCORS, EI and LCB refuse every batch size that is not a positive integer (synchronous mode) and every weights argument that is not a non-empty list or array of floats in [0,1], and accept all others; an accepted strategy never raises or gets stuck because of these arguments.", "quantifier": "all batch sizes (None, integers, floats including inf/NaN, other objects), all weights arguments, dimensions, budgets, designs; all later schedules", "why_tests_cant": "The set of arguments is infinite, and the damage shows only in later states of the run.", "anchors": ["pySOT/strategy/srbf_strategy.py:SRBFStrategy.__init__", "pySOT/strategy/srbf_strategy.py:SRBFStrategy.check_input", "pySOT/strategy/surrogate_strategy.py:SurrogateBaseStrategy.check_input", "pySOT/strategy/ei_strategy.py:EIStrategy.__init__"]}
{"id": "C98", "title": "Failed evaluations and the step control", "statement": "In SRBF and DYCORS an evaluation that returns inf or NaN is a failed step: it is never an improvement, never becomes the best value, and does not change how the other results are judged.", "quantifier": "all states of the step control, all batches and all sequences of batches with values in the extended reals and NaN", "why_tests_cant": "Ranges over all value sequences and their order in a batch; the damage of one NaN shows many evaluations later.", "anchors": ["pySOT/strategy/srbf_strategy.py:SRBFStrategy.adjust_step", "pySOT/strategy/srbf_strategy.py:SRBFStrategy.sample_initial"]}
{"id": "C99", "title": "Expected improvement where the predicted deviation is zero", "statement": "Every point proposed by ei_ga (positive tolerances) is separated from the known points and has an expected improvement of at least ei_tol, also when the predicted standard deviation is zero at some points; None is returned when no point has such an improvement.", "quantifier": "all problems, predicted means and nonnegative deviations, data, pending points, tolerances and random draws", "why_tests_cant": "Depends on where a regression model predicts deviation zero, and on every path of the genetic algorithm.", "anchors": ["pySOT/auxiliary_problems/ei_merit.py:ei_merit", "pySOT/auxiliary_problems/ei_ga.py:ei_ga", "pySOT/utils.py:GeneticAlgorithm.optimize"]}
{"id": "C100", "title": "The units of the objective do not matter", "statement": "If the objective is expressed in other units (f replaced by a*f+b with a > 0, and the extra values and the tolerance ei_tol/lcb_target with it), then with the same random draws and the same schedule of accepts, rejects, completions, aborts, crashes and resumptions SRBF, DYCORS, EI and LCB propose the same points in the same order, raise an exception in the same place and stop at the same time.", "quantifier": "all objectives, a > 0, b, setups, surrogates that convert (RBF: all data and parameters; GP), random draws and schedules of any length", "why_tests_cant": "Two whole runs have to agree for every history and every schedule, not two outputs for one input.", "anchors": ["pySOT/strategy/srbf_strategy.py:SRBFStrategy.adjust_step", "pySOT/strategy/srbf_strategy.py:SRBFStrategy.generate_evals", "pySOT/strategy/ei_strategy.py:EIStrategy.generate_evals", "pySOT/strategy/lcb_strategy.py:LCBStrategy.generate_evals", "pySOT/strategy/surrogate_strategy.py:SurrogateBaseStrategy", "pySOT/surrogate/rbf.py:RBFInterpolant", "pySOT/surrogate/gp.py:GPRegressor", "pySOT/utils.py:unit_rescale"]}
{"id": "C101", "title": "The units and the origin of the variables do not matter", "statement": "If all variables are expressed in other units and from another origin (x replaced by c*x+t with one c > 0 for all variables; bounds, design, extra points and the minimal distance dtol converted with them; continuous variables), then with the same random draws relative to the domain and the same schedule of accepts, rejects, completions, aborts, crashes and resumptions SRBF, DYCORS, EI and LCB propose the converted points in the same order, raise an exception in the same place and stop at the same time.", "quantifier": "all objectives, c > 0, t, setups, surrogates that convert (RBF and GP: all data and parameters), random draws and schedules of any length", "why_tests_cant": "Two whole runs have to agree for every history and every schedule, not two outputs for one input.", "anchors": ["pySOT/strategy/surrogate_strategy.py:SurrogateBaseStrategy", "pySOT/strategy/srbf_strategy.py:SRBFStrategy.generate_evals", "pySOT/strategy/dycors_strategy.py:DYCORSStrategy.generate_evals", "pySOT/strategy/ei_strategy.py:EIStrategy.generate_evals", "pySOT/strategy/lcb_strategy.py:LCBStrategy.generate_evals", "pySOT/auxiliary_problems/candidate_srbf.py:weighted_distance_merit", "pySOT/utils.py:GeneticAlgorithm", "pySOT/surrogate/rbf.py:RBFInterpolant", "pySOT/surrogate/gp.py:GPRegressor"]}
{"id": "C102", "title": "Whether a design is valid does not depend on the origin of the variables", "statement": "The experimental designs for a domain in other units and from another origin (each variable x_j replaced by u_j*x_j+v_j, continuous variables) are the converted designs, given the same draws: in particular the hypercubes raise the exception 'No valid design found' for one domain iff they do for the other.", "quantifier": "all dimensions, numbers of points, draws, iterations, bounds, units and origins", "why_tests_cant": "It relates the results on two domains for all draws and sizes; that an exception is raised for every outcome of the draws cannot be observed by sampling.", "anchors": ["pySOT/experimental_design/experimental_design.py:_expdes_dist", "pySOT/experimental_design/slhd.py:SymmetricLatinHypercube", "pySOT/experimental_design/lhd.py:LatinHypercube", "pySOT/experimental_design/two_factorial.py:TwoFactorial"]}
{"id": "C103", "title": "The result of a run is the best evaluation", "statement": "The record returned by run or resume of the checkpoint controller has the smallest value among all evaluations completed so far, in this and all earlier processes, and among the extra points that the user has registered with their known values (as in examples/example_extra_vals.py).", "quantifier": "all strategies, schedules (accept, reject, complete, kill), restarts, registered points, crashes and resumptions", "why_tests_cant": "The result depends on the whole history, including the points at which the process was killed.", "anchors": ["pySOT/controller/controller.py:CheckpointController.resume", "pySOT/controller/controller.py:CheckpointController.run", "pySOT/strategy/surrogate_strategy.py:SurrogateBaseStrategy.save", "examples/example_extra_vals.py"]}
{"id": "C104", "title": "The batch size is ignored in asynchronous mode", "statement": "In asynchronous mode the argument batch_size has no effect (documentation: \"ignored if async\"): the constructors accept the same arguments, and for two strategies that differ only in batch_size every event (proposal, accept, reject, completion, failure, resume) has the same effect, failure tolerance and restarts included, so that the same runs are possible.", "quantifier": "all strategies, batch sizes (also None), problems, event sequences, designs and candidates", "why_tests_cant": "An effect could show up only after some history, e.g. in the failure tolerance that is derived from the batch size in synchronous mode.", "anchors": ["docs/options.rst", "pySOT/strategy/surrogate_strategy.py:SurrogateBaseStrategy.propose_action", "pySOT/strategy/srbf_strategy.py:SRBFStrategy.__init__", "pySOT/strategy/sop_strategy.py:SOPStrategy.__init__", "pySOT/strategy/ei_strategy.py:EIStrategy.__init__"]}
{"id": "C105", "title": "Objective functions that modify their argument", "statement": "Every completed evaluation is recorded with the point that was proposed, and no finished point stays in Xpend, also if the objective function (eval) modifies the array it is given in place; the counters, the budget and the values stay exact.", "quantifier": "all strategies, schedules, resumptions, and all in-place modifications by the objective function at any time during its execution", "why_tests_cant": "Needs all interleavings of evaluations and modifications; the test problems do not modify their arguments.", "anchors": ["pySOT/strategy/surrogate_strategy.py:SurrogateBaseStrategy.make_proposal", "pySOT/strategy/surrogate_strategy.py:SurrogateBaseStrategy.on_initial_completed", "pySOT/strategy/surrogate_strategy.py:SurrogateBaseStrategy.on_adapt_completed", "pySOT/strategy/surrogate_strategy.py:SurrogateBaseStrategy.remove_pending", "pySOT/strategy/surrogate_strategy.py:SurrogateBaseStrategy.resume"]}
{"id": "C106", "title": "The progress plot shows the run", "statement": "progress_plot shows one point per completed evaluation, in order, and a curve whose i-th ordinate is the smallest of the first i+1 values, so that it ends at the value of the best record; all values lie inside the limits of the vertical axis. Without matplotlib it prints a message and returns (docstring), and it works at any time of a run.", "quantifier": "all lists of records of a controller (completed, killed, running), with and without matplotlib", "why_tests_cant": "progress_plot is excluded from the tests (pragma: no cover); it has to work for every list of records.", "anchors": ["pySOT/utils.py:progress_plot"]}
{"id": "C107", "title": "Polynomial regression", "statement": "A prediction of PolyRegressor is the value of the polynomial that fits the current data best (least squares with the penalty of the ridge regression): it depends only on the set of data and the point in unit coordinates, not on their order, earlier calls, units of the variables or the solver; changing the units of the objective changes the predictions accordingly; and values of a polynomial of the degree of the regressor are reproduced.", "quantifier": "all dimensions, degrees, bounds, histories of add_points/reset/predict, data and query points; every minimizer that scikit-learn may return", "why_tests_cant": "Ranges over all data sets and histories.", "anchors": ["pySOT/surrogate/poly.py:PolyRegressor._fit", "pySOT/surrogate/poly.py:PolyRegressor.predict", "pySOT/surrogate/surrogate.py:Surrogate.add_points"]}
{"id": "C108", "title": "Derivatives of the MARS interpolant", "statement": "predict_deriv of MARSInterpolant returns an array of size num_pts x dim whose k-th row is the gradient of predict at the k-th point, in the original coordinates (documentation of Surrogate.predict_deriv).", "quantifier": "all fitted models, bounds, numbers of variables and lists of points at which the model is differentiable", "why_tests_cant": "py-earth is optional and not tested; the statement ranges over all models and points.", "anchors": ["pySOT/surrogate/mars.py:MARSInterpolant.predict_deriv", "pySOT/surrogate/mars.py:MARSInterpolant.predict", "pySOT/surrogate/surrogate.py:Surrogate.predict_deriv"]}
{"id": "C109", "title": "The deviation predicted by the default Gaussian process", "statement": "With the default kernel predict_std of GPRegressor is positive everywhere, between 0.001 and 10.0005 standard deviations of the data (taken as at least 1e-6), at most 0.1415 of them at an evaluated point, and (for given hyperparameters and relative to the standard deviation of the data) never larger with more data; if all values are equal, predict returns this value everywhere; expected improvement never divides by zero.", "quantifier": "all histories of add_points, reset and predict calls, output transformations, hyperparameters within the bounds of the kernel (chosen in any way), and points", "why_tests_cant": "Bounds for all data sets, hyperparameters and points.", "anchors": ["pySOT/surrogate/gp.py:GPRegressor.__init__", "pySOT/surrogate/gp.py:GPRegressor._fit", "pySOT/surrogate/gp.py:GPRegressor.predict", "pySOT/surrogate/gp.py:GPRegressor.predict_std"]}
{"id": "C110", "title": "Predictions of the default Gaussian process in other units", "statement": "If all values are multiplied by a > 0 and shifted by b, predict of GPRegressor with the default kernel returns a times the old prediction plus b, and predict_std a times the old deviation.", "quantifier": "all histories, a > 0, b, identity and median capping, choices of the hyperparameters that depend on the standardized data, and points", "why_tests_cant": "Ranges over all data and units; tests use objectives of one scale.", "anchors": ["pySOT/surrogate/gp.py:GPRegressor._fit", "pySOT/surrogate/gp.py:GPRegressor.predict", "pySOT/surrogate/gp.py:GPRegressor.predict_std"]}
{"id": "C111", "title": "A serial run of SOP uses exactly its budget", "statement": "A serial run of SOP (propose, accept, evaluate, report) never raises an exception and never stalls; the first rounds evaluate the initial points, exactly max_evals points are evaluated in total, and then the strategy proposes to terminate.", "quantifier": "all objectives, budgets, designs, numbers of centers, all random outcomes and numbers of rounds", "why_tests_cant": "Ranges over all objectives, random outcomes and run lengths.", "anchors": ["pySOT/strategy/sop_strategy.py:SOPStrategy.generate_evals", "pySOT/strategy/sop_strategy.py:SOPStrategy.on_adapt_completed", "pySOT/strategy/surrogate_strategy.py:SurrogateBaseStrategy.propose_action"]}
{"id": "C112", "title": "SOP's bookkeeping depends only on the order of the values and on relative positions", "statement": "If every variable is given its own unit and origin (bounds, extra points and drawn points converted) and all objective values are replaced by any strictly increasing function of them, a run of SOP raises an exception at the same event or at none, proposes the same (converted) points, terminates alike, and has the same centers, failure counts, tabu counts and search radii.", "quantifier": "all settings, histories of events (proposals, acceptances, rejections, completions in any order, losses, crashes and resumes), random outcomes, units and increasing functions", "why_tests_cant": "Ranges over all histories and all unit conversions.", "anchors": ["pySOT/strategy/sop_strategy.py:SOPStrategy.generate_evals", "pySOT/strategy/sop_strategy.py:SOPStrategy.adjust_memory", "pySOT/strategy/sop_strategy.py:SOPStrategy.update_ranks", "pySOT/strategy/sop_strategy.py:SOPStrategy.update_center_list", "pySOT/utils.py:nd_sorting"]}
{"id": "C113", "title": "A whole SOP run does not depend on the unit of the objective nor on the origin of the variables", "statement": "With the same random draws and the same schedule, an SOP run for the objective a*f+b (a > 0, values of extra points converted) proposes the same points in the same order as the run for f, and raises an exception iff that run does; likewise, with continuous variables, for the problem whose origin is shifted (bounds, extra points, drawn points and design converted), whose points are the shifted ones. The surrogate is fitted to what the run has recorded and must itself convert; RBF interpolants with constant or linear tail, capped or not, do so.", "quantifier": "all settings of SOP, objectives, initial designs, schedules with losses, crashes and resumes, random draws, all a > 0, b and all shifts of the origin", "why_tests_cant": "Ranges over all runs and all conversions.", "anchors": ["pySOT/strategy/sop_strategy.py:SOPStrategy.generate_evals", "pySOT/auxiliary_problems.py:candidate_dycors", "pySOT/auxiliary_problems.py:weighted_distance_merit", "pySOT/surrogate/rbf.py:RBFInterpolant"]}
{"id": "C114", "title": "EI and LCB give up only if no suitable point was found", "statement": "If the genetic algorithm has found a feasible point at distance at least dtol from the evaluated and pending points whose expected improvement reaches ei_tol (whose lower confidence bound reaches the target), then ei_ga (lcb_ga) proposes a point instead of returning None, and the strategy does not declare convergence.", "quantifier": "all problems, data, surrogates, tolerances, batch sizes and random draws", "why_tests_cant": "Ranges over all draws of the genetic algorithm and all batch sizes; at the end of a discrete domain the failure occurs for every draw.", "anchors": ["pySOT/auxiliary_problems/ei_ga.py:ei_ga", "pySOT/auxiliary_problems/lcb_ga.py:lcb_ga", "pySOT/strategy/ei_strategy.py:EIStrategy.generate_evals", "pySOT/strategy/lcb_strategy.py:LCBStrategy.generate_evals"]}
{"id": "C115", "title": "Predictions of the default Gaussian process do not depend on the order of the data or the units of the variables", "statement": "Two GPRegressors with the default kernel that were given the same data in another order (or divided into other calls, with predictions and resets in between), or data, bounds and query points in other units and from another origin, return the same predictions and deviations, provided the choice of the hyperparameters depends only on the set of standardized data in unit coordinates. At the data points the predictions are, in the sum of squares, at least as close to the values as any constant.", "quantifier": "all histories of add_points, reset and predict calls, all rearrangements and coordinatewise affine changes of the variables, all query points, hyperparameters within their bounds", "why_tests_cant": "Ranges over all data sets, rearrangements and units.", "anchors": ["pySOT/surrogate/gp.py:GPRegressor._fit", "pySOT/surrogate/gp.py:GPRegressor.predict", "pySOT/surrogate/gp.py:GPRegressor.predict_std"]}
{"id": "C116", "title": "The points proposed by SOP", "statement": "Every point that SOP generates is the result of a search around an evaluated point with the radius recorded for it: it is one of feasible candidates that differ from the center in at least one perturbed coordinate only, and if some candidate is at least 1e-3 from all evaluated and pending points, the chosen one is too and no such candidate has a smaller predicted value. The points of one batch are kept apart from each other in the same way.", "quantifier": "all problems, surrogates, objective functions, radii, random draws, batch sizes and histories of the closed loop (with aborts, crashes and checkpoints)", "why_tests_cant": "Ranges over all histories and draws; a test sees a few.", "anchors": ["pySOT/strategy/sop_strategy.py:SOPStrategy.generate_evals", "pySOT/auxiliary_problems/candidate_dycors.py:candidate_dycors", "pySOT/utils.py:unit_rescale"]}
{"id": "C117", "title": "Number of centers and batch size accepted by SOP", "statement": "If the constructor of SOP accepts ncenters and batch_size, then the strategy works with them: a serial run with at least two different initial points evaluates max_evals points without an exception and ends.", "quantifier": "all arguments (integers, floats, NaN, None, non-numbers), both modes, all problems, objectives, designs, budgets and random outcomes", "why_tests_cant": "Ranges over all arguments and all runs with them.", "anchors": ["pySOT/strategy/sop_strategy.py:SOPStrategy.check_input", "pySOT/strategy/sop_strategy.py:SOPStrategy.update_center_list", "pySOT/strategy/sop_strategy.py:SOPStrategy.adjust_memory"]}
{"id": "C118", "title": "A whole run with its surrogate object does not raise", "statement": "The strategy and its surrogate object work together: with the calls that the strategy makes (reset, add_points, predict), the surrogate always holds the data of the current run, propose_action never raises an exception as long as the points evaluated in the run determine a linear polynomial (for a Gaussian process: as soon as there is one), and a serial run with restarts performs exactly max_evals evaluations, all feasible, and ends.", "quantifier": "all problems with continuous and integer variables, objectives, budgets, designs, random outcomes, four strategies, both modes, RBF (default) and Gaussian process; for propose_action also all schedules with any number of workers, aborted and lost evaluations", "why_tests_cant": "Ranges over all runs, and the surrogate's incremental factorisation depends on the history of the calls.", "anchors": ["pySOT/strategy/surrogate_strategy.py:SurrogateBaseStrategy.propose_action", "pySOT/strategy/surrogate_strategy.py:SurrogateBaseStrategy.sample_initial", "pySOT/strategy/surrogate_strategy.py:SurrogateBaseStrategy.on_adapt_completed", "pySOT/surrogate/rbf.py:RBFInterpolant._fit", "pySOT/surrogate/gp.py:GPRegressor._fit"]}
{"id": "C119", "title": "An accepted initial design is enough for the surrogate", "statement": "If a strategy with the default RBF surrogate accepts an experimental design with at least dim + 1 points, the run gets from the initial phase to adaptive points without an exception.", "quantifier": "all problems, designs with any number of points and random choices, strategies, objectives", "why_tests_cant": "Ranges over all designs and random choices.", "anchors": ["pySOT/strategy/surrogate_strategy.py:SurrogateBaseStrategy.check_input", "pySOT/experimental_design/slhd.py:SymmetricLatinHypercube.generate_points", "pySOT/surrogate/rbf.py:RBFInterpolant._fit"]}
{"id": "C120", "title": "A whole SOP run with its surrogate object does not raise", "statement": "SOP and its surrogate object work together: with the calls that SOP makes, the surrogate always holds the extra points with known values and all completed evaluations; if the initial design determines a linear polynomial (for a Gaussian process: has two different points), a serial run never raises or stalls, performs exactly max_evals evaluations, all feasible, and ends, in both modes.", "quantifier": "all problems with continuous and integer variables, objectives, budgets, designs, random outcomes, both modes, RBF (default) and Gaussian process; for the data and for propose_action also all schedules with any number of workers", "why_tests_cant": "Ranges over all runs; whether the points of a batch coincide depends on the problem, the surrogate and the draws.", "anchors": ["pySOT/strategy/sop_strategy.py:SOPStrategy.generate_evals", "pySOT/strategy/sop_strategy.py:SOPStrategy.on_adapt_completed", "pySOT/strategy/sop_strategy.py:SOPStrategy.update_center_list", "pySOT/strategy/surrogate_strategy.py:SurrogateBaseStrategy.propose_action", "pySOT/surrogate/rbf.py:RBFInterpolant._fit"]}
{"id": "C121", "title": "A larger budget continues the run", "statement": "max_evals only decides when to stop: with the same random draws and the same schedule, the run with a larger budget is in the same state as the run with the smaller budget until the latter has used up its budget; in particular the evaluations of a serial run with budget M are the first evaluations of the run with budget M' > M.", "quantifier": "all strategies (SRBF, DYCORS, EI, LCB), problems, surrogates, objectives, draws, schedules (any number of workers, failures, crashes and resumes), budgets M <= M'", "why_tests_cant": "Ranges over all runs and all pairs of budgets.", "anchors": ["pySOT/strategy/surrogate_strategy.py:SurrogateBaseStrategy.check_termination", "pySOT/strategy/surrogate_strategy.py:SurrogateBaseStrategy.propose_action", "pySOT/strategy/dycors_strategy.py:DYCORSStrategy.generate_evals"]}
{"id": "C122", "title": "Synchronous mode: the number of workers and the order of completions do not matter", "statement": "In synchronous mode (asynchronous=False), if no evaluation is rejected, killed or lost, the points proposed depend only on the problem, the design, the random draws and the objective: two runs with different numbers of workers, or whose evaluations finish in different orders, propose the same points in the same order, and runs that use up the budget have made the same evaluations.", "quantifier": "all strategies (SRBF, DYCORS, EI, LCB), problems, batch sizes, restarts, designs, objectives, random outcomes, and all pairs of schedules of acceptances and completions", "why_tests_cant": "Ranges over all pairs of schedules of two whole runs.", "anchors": ["pySOT/strategy/surrogate_strategy.py:SurrogateBaseStrategy.propose_action", "pySOT/strategy/surrogate_strategy.py:SurrogateBaseStrategy.on_adapt_completed", "pySOT/strategy/srbf_strategy.py:SRBFStrategy.on_adapt_completed", "pySOT/auxiliary_problems/candidate_srbf.py:candidate_srbf"]}
{"id": "C123", "title": "The numbering of the variables does not matter", "statement": "Renumbering the variables of a problem (bounds, integer variables, extra points, initial design and objective) and the random draws accordingly gives the renumbered run: the same points, renumbered, are proposed in the same order. The renumbered draws are as possible as the original ones, so that the distribution of the results does not depend on the numbering, and the surrogates' predictions do not depend on it.", "quantifier": "all permutations of the variables, all strategies (SRBF, DYCORS, EI, LCB), problems with continuous and integer variables, designs, objectives, random draws, schedules with failures, and surrogates", "why_tests_cant": "Ranges over all permutations, runs and random draws.", "anchors": ["pySOT/auxiliary_problems/candidate_dycors.py:candidate_dycors", "pySOT/auxiliary_problems/candidate_srbf.py:candidate_srbf", "pySOT/utils.py:GeneticAlgorithm.optimize", "pySOT/experimental_design/experimental_design.py:SymmetricLatinHypercube.generate_points", "pySOT/surrogate/rbf.py:RBFInterpolant.predict", "pySOT/surrogate/gp.py:GPRegressor.predict"]}
{"id": "C124", "title": "Which designs can be generated", "statement": "Up to the order of its points, the symmetric Latin hypercube generator can return every symmetric Latin hypercube with the given number of points (no symmetric Latin hypercube is missed), and nothing else; its points come sorted by the first variable. Every one of them that qualifies in the domain can be the result of generate_points. The Latin hypercube generator can return exactly the Latin hypercubes.", "quantifier": "all numbers of points (at least two) and dimensions, all symmetric Latin hypercubes, all bounds and integer variables, all numbers of iterations", "why_tests_cant": "An existence claim for every design, over all random outcomes.", "anchors": ["pySOT/experimental_design/experimental_design.py:SymmetricLatinHypercube.generate_points", "pySOT/experimental_design/experimental_design.py:LatinHypercube.generate_points"]}
{"id": "C125", "title": "The search is global", "statement": "Whatever has been evaluated, every part of the domain stays within reach: each time SRBF, DYCORS or SOP generates points, the probability that the next point is within a given distance of a given feasible point is at least a positive constant that depends only on the problem, the number of candidates and the distance. So the probability that a neighbourhood of any feasible point, e.g. of the global minimum, is never sampled tends to zero geometrically with the number of generated batches, even if an adversary chooses the objective values, the surrogate's predictions, the restarts, failures, crashes and the order of all events depending on earlier outcomes.", "quantifier": "all problems with continuous and integer variables, feasible points, distances, numbers of candidates, data, surrogates, weights, pending points, sampling radii that occur in a run, and all (adaptively chosen) schedules and histories of SRBF, DYCORS and SOP runs", "why_tests_cant": "A statement about probabilities for every target point, every history and every adversary.", "anchors": ["pySOT/auxiliary_problems/candidate_srbf.py:candidate_srbf", "pySOT/auxiliary_problems/candidate_dycors.py:candidate_dycors", "pySOT/strategy/srbf_strategy.py:SRBFStrategy.generate_evals", "pySOT/strategy/dycors_strategy.py:DYCORSStrategy.generate_evals", "pySOT/strategy/surrogate_strategy.py:SurrogateBaseStrategy.propose_action", "pySOT/strategy/sop_strategy.py:SOPStrategy.generate_evals"]}
{"id": "C126", "title": "Which variables DYCORS changes", "statement": "A DYCORS candidate equals the best point except in the selected variables; at least one variable is always selected; every variable is selected at least with the perturbation probability p, all of them equally often; the expected number of selected variables is dim*p + (1-p)^dim.", "quantifier": "all dimensions of at least two, perturbation probabilities in [0,1], best points and draws", "why_tests_cant": "A statement about exact probabilities, for every dimension and every probability; sampling can only estimate them.", "anchors": ["pySOT/auxiliary_problems/candidate_dycors.py:candidate_dycors"]}
{"id": "C127", "title": "Random search finds a box with the probability of geometric sampling", "statement": "The probability that a run of random search with n evaluations ends without having evaluated a point in a given box is exactly (1-q)^n, where q is the volume of the box relative to the domain; in particular lost and repeated evaluations do not change it.", "quantifier": "all domains, boxes in them, numbers of evaluations and all schedules, rejections and failures of the evaluations", "why_tests_cant": "An exact probability over all draws, for all boxes, budgets and schedules.", "anchors": ["pySOT/strategy/random_strategy.py:RandomStrategy", "pySOT/strategy/random_strategy.py:RandomStrategy.propose_action"]}
{"id": "C128", "title": "The genetic algorithm searches globally", "statement": "With start=\"Random\" the result is worse than t with probability at most P(f(x)>t)^N, where x is one random individual and N the population size. Whatever the start, if all feasible points near some feasible point have values of at most t, the probability that the best value is still greater than t after n generations is at most (1-k)^n with a constant k>0 that depends only on the box and the size of the neighbourhood.", "quantifier": "all boxes, integer variables, objective functions (measurable or not), levels t, population sizes, initial populations, numbers of generations, and all outcomes of tournaments and crossovers, even chosen by an adversary", "why_tests_cant": "A statement about probabilities for every objective function and every history of selections.", "anchors": ["pySOT/utils.py:GeneticAlgorithm.optimize"]}
{"id": "C129", "title": "The symmetric Latin hypercube is unbiased", "statement": "Every symmetric Latin hypercube (listed in the order of the first variable) is produced by exactly one outcome of the coins and shuffles of the generator, so with fair independent draws all (2^(n/2) (n/2)!)^(d-1) of them are equally likely; in every variable but the first, every point except the middle one of an odd number takes every level except the middle one with the same probability.", "quantifier": "all numbers of points of at least two, all dimensions of at least one, all symmetric Latin hypercubes, points, variables and levels", "why_tests_cant": "An exact law on a set of designs that grows super-exponentially; sampling can only estimate it for small sizes.", "anchors": ["pySOT/experimental_design/slhd.py:SymmetricLatinHypercube._slhd"]}
{"id": "C130", "title": "The evaluations of EI and LCB keep their distance and are bounded", "statement": "Up to the first restart of a run of EI (with a positive tolerance) or LCB whose initial points are pairwise different, no point is evaluated twice, and any two evaluations (completed, running or decided on) of which at least one was chosen by the strategy are at least dtol apart. Hence their number is at most the number of initial points plus the number of grid cells of diameter dtol that cover the box, whatever max_evals is; so without restarts a larger budget is never used up and propose_action never returns a terminate action.", "quantifier": "all problems, settings, surrogate predictions, acquisition searches, schedules of acceptance, rejection, completion and failure, crashes and resumes", "why_tests_cant": "A geometric packing bound on the length of every run, over all interleavings with points in flight.", "anchors": ["pySOT/strategy/ei_strategy.py:EIStrategy.generate_evals", "pySOT/strategy/lcb_strategy.py:LCBStrategy.generate_evals", "pySOT/strategy/surrogate_strategy.py:SurrogateBaseStrategy.propose_action"]}
{"id": "C131", "title": "The log tells the story of a run", "statement": "The log written by the strategy lists every completed evaluation exactly once, in order of completion, numbered consecutively from 1 over restarts and resumed crashes, with its point and value, so that X, fX and num_evals can be read off it; there is one header per initial design; the sampling radius of SRBF/DYCORS is the one obtained by following the lines about it; the evaluations below the last header are those of the current run; crashed evaluations are recorded.", "quantifier": "all configurations, values and schedules of acceptance, rejection, completion and failure, restarts, crashes and resumes", "why_tests_cant": "The log must agree with the state after every history, including late completions and resumed snapshots.", "anchors": ["pySOT/strategy/surrogate_strategy.py:SurrogateBaseStrategy.log_completion", "pySOT/strategy/surrogate_strategy.py:SurrogateBaseStrategy.sample_initial", "pySOT/strategy/srbf_strategy.py:SRBFStrategy.adjust_step", "docs/logging.rst"]}
{"id": "C132", "title": "Candidate searches generate new points", "statement": "SRBF and DYCORS never waste an evaluation: with probability one, a point that is generated has not been proposed, evaluated or given by the user before, is not in flight and is not generated twice in a batch.", "quantifier": "all problems with continuous variables, histories, surrogates, weights, radii, perturbation probabilities, batch sizes, numbers of candidates; whole runs with any order of events, values, failures, crashes and restarts, chosen by an adversary who sees the draws; all random draws, in probability", "why_tests_cant": "An event of probability zero (or of a tiny positive probability) cannot be told from samples, and the claim is over all histories.", "anchors": ["pySOT/auxiliary_problems/candidate_srbf.py: candidate_srbf, weighted_distance_merit", "pySOT/auxiliary_problems/candidate_dycors.py: candidate_dycors", "pySOT/strategy/srbf_strategy.py: SRBFStrategy.generate_evals", "pySOT/strategy/dycors_strategy.py: DYCORSStrategy.generate_evals"]}
{"id": "C133", "title": "The stated minimizer is the only one", "statement": "The attribute `minimum` of a bundled test problem is the only global minimizer: every other feasible point has a strictly larger value, so that the distance to `minimum` is a measure of success.", "quantifier": "all bundled problems with an exact stated minimum, all dimensions, all feasible points", "why_tests_cant": "Strict minimality is about a continuum of points in every dimension.", "anchors": ["pySOT/optimization_problems: sphere.py, sum_of_squares.py, zakharov.py, rastrigin.py, griewank.py, ackley.py, rosenbrock.py, exponential.py, goldstein_price.py, levy.py, perm.py, weierstrass.py, six_hump_camel.py, branin.py"]}
{"id": "C134", "title": "Expected improvement is one-step optimal", "statement": "The point an `EIStrategy` proposes in its adaptive phase is the one-step optimal choice among the points its genetic algorithm evaluated that keep the required distance: no such point has a smaller expectation of the best value known after evaluating it, under the model's prediction (a normal distribution with the predicted mean and deviation).", "quantifier": "all problems, configurations, histories, models, runs of the genetic algorithm, and evaluated points", "why_tests_cant": "It compares expectations over all outcomes, for every history and every prediction of the model.", "anchors": ["pySOT/strategy/ei_strategy.py: EIStrategy.generate_evals", "pySOT/auxiliary_problems/ei_merit.py: ei_merit", "pySOT/auxiliary_problems/ei_ga.py: ei_ga", "docs/options.rst: EIStrategy"]}
{"id": "C135", "title": "Enough points give a valid design", "statement": "With the recommended number of points (2*dim + 1 for SymmetricLatinHypercube, which 'makes sure the design has full rank'; at least dim for LatinHypercube) `generate_points(lb, ub, int_var)` returns a design instead of raising ValueError.", "quantifier": "all dimensions, numbers of points and iterations, boxes, and all outcomes of the random choices, with their probabilities", "why_tests_cant": "It is a statement about the probability of an event that a test run almost never sees, for all sizes.", "anchors": ["pySOT/experimental_design/slhd.py: SymmetricLatinHypercube.generate_points, _slhd", "pySOT/experimental_design/lhd.py: LatinHypercube.generate_points", "pySOT/experimental_design/experimental_design.py: _expdes_dist", "docs/options.rst: SymmetricLatinHypercube"]}
{"id": "C136", "title": "The step control in double precision", "statement": "Computed with IEEE double precision numbers, the step control of SRBF counts successes and failures, halves and doubles the sampling radius and declares convergence as specified for exact numbers: a success is a value more than 0.1 % below the best one, the radius is always the initial one divided by a power of two, and the best value never increases.", "quantifier": "all sequences of function values (double precision numbers), all tolerances, every rounding to nearest", "why_tests_cant": "Rounding errors show only for values within 2^-52 of a level; a test on a few values cannot exclude them.", "anchors": ["pySOT/strategy/srbf_strategy.py: SRBFStrategy.adjust_step, sample_initial, __init__"]}
{"id": "C137", "title": "The selection of candidates in double precision", "statement": "Computed with IEEE double precision numbers, the weighted distance criterion still selects candidates that keep the minimum distance `dtol` to the evaluated, pending and previously selected points whenever there are any, and among these one with the smallest merit.", "quantifier": "all dimensions, numbers of points and candidates, all points, predictions, weights in [0, 1] and tolerances that are doubles, every rounding to nearest", "why_tests_cant": "The distances are sums of arbitrarily many rounded terms; the worst case over all coordinates cannot be sampled.", "anchors": ["pySOT/auxiliary_problems/candidate_srbf.py: weighted_distance_merit", "pySOT/utils.py: unit_rescale"]}
{"id": "C138", "title": "A Latin hypercube is an unbiased sample", "statement": "Every point of a LatinHypercube design is uniformly distributed in the box (so that the average of a function over the design has the mean over the box as its expected value), the points are exchangeable, and a design and its mirror image are equally likely.", "quantifier": "all dimensions d, all numbers of points n, all boxes, all measurable nonnegative functions, all numbers of iterations; the numbers drawn are independent and uniform, the permutations equally likely", "why_tests_cant": "It is a statement about the distribution of the points for all functions; a sample can only estimate it.", "anchors": ["pySOT/experimental_design/lhd.py: LatinHypercube.generate_points", "pySOT/experimental_design/experimental_design.py: _expdes_dist"]}
{"id": "C139", "title": "In synchronous mode every batch is one step of the step control", "statement": "Synchronous SRBF and DYCORS: a batch of evaluations that gives at least one value is exactly one step (success or failure) of the step control, also if other evaluations of the batch fail or are lost.", "quantifier": "all histories with any failures, rejections, crashes and restarts, all batch sizes", "why_tests_cant": "Ranges over all orders in which the evaluations of a batch end, and over all numbers of batches.", "anchors": ["pySOT/strategy/srbf_strategy.py: SRBFStrategy.on_adapt_completed, adjust_step", "pySOT/strategy/surrogate_strategy.py: on_adapt_aborted, resume"]}
{"id": "C140", "title": "The genetic algorithm respects the bounds in double precision", "statement": "GeneticAlgorithm.optimize, computed in double precision, evaluates and returns only individuals inside the box given to the constructor, with integer values of the integer variables, and returns the best individual it evaluated.", "quantifier": "all boxes with double bounds, objectives, population sizes, numbers of generations, random draws and roundings to nearest", "why_tests_cant": "Ranges over all boxes and draws; a violated bound is one rounding error and depends on the digits of the bounds.", "anchors": ["pySOT/utils.py: GeneticAlgorithm.optimize, round_vars", "pySOT/experimental_design/slhd.py: SymmetricLatinHypercube"]}
{"id": "C141", "title": "EI and LCB proposals are feasible and separated in double precision", "statement": "The points returned by ei_ga and lcb_ga, computed in double precision, are inside the box, have integer values of the integer variables, an acquisition value that meets the tolerance, and are at distance at least dtol from all evaluated and pending points and from each other.", "quantifier": "all boxes with double bounds, surrogates, evaluated and pending points, tolerances, draws and roundings to nearest", "why_tests_cant": "Ranges over all surrogates, boxes and draws; the violations are single rounding errors.", "anchors": ["pySOT/auxiliary_problems/ei_ga.py: ei_ga", "pySOT/auxiliary_problems/ei_merit.py: ei_merit", "pySOT/auxiliary_problems/lcb_ga.py: lcb_ga", "pySOT/auxiliary_problems/lcb_merit.py: lcb_merit"]}
{"id": "C142", "title": "SOP in synchronous mode: the number of workers and the order of completions do not matter", "statement": "SOP with asynchronous=False, no evaluation rejected, killed or lost: the points proposed depend only on the problem, the design, the random draws and the objective. Two runs with different numbers of workers, or whose evaluations finish in different orders, propose the same points in the same order, and if both have evaluated equally many points and nothing is running they have made the same evaluations.", "quantifier": "all problems, batch sizes, numbers of centers, designs, objectives, random outcomes, and all pairs of schedules of acceptances and completions", "why_tests_cant": "Ranges over all pairs of schedules of two whole runs.", "anchors": ["pySOT/strategy/sop_strategy.py: SOPStrategy.generate_evals", "pySOT/strategy/sop_strategy.py: SOPStrategy.update_center_list", "pySOT/strategy/sop_strategy.py: SOPStrategy.update_ranks", "pySOT/strategy/sop_strategy.py: SOPStrategy.on_adapt_completed", "pySOT/strategy/sop_strategy.py: SOPStrategy.adjust_memory"]}
{"id": "C143", "title": "A run that is killed and resumed gives the same result as one that is not", "statement": "With one worker, and an experimental design and auxiliary problem that give the same answers to the same finished evaluations (fixed random numbers), a run whose processes are killed at any time and resumed from the checkpoint file evaluates the same points in the same order as the run that is never interrupted, and ends with the same result.", "quantifier": "all strategies (EI, LCB, SRBF, DYCORS), problems, objectives, designs, budgets, answers of the auxiliary problem, and all sequences of crashes and resumes", "why_tests_cant": "Ranges over all crash points and any number of crashes of a whole run, and compares two runs.", "anchors": ["pySOT/strategy/surrogate_strategy.py: SurrogateBaseStrategy.resume", "pySOT/strategy/surrogate_strategy.py: SurrogateBaseStrategy.propose_action", "pySOT/controller/controller.py: CheckpointController.resume", "pySOT/controller/controller.py: CheckpointController.on_complete", "pySOT/strategy/srbf_strategy.py: SRBFStrategy.get_weights"]}
{"id": "C144", "title": "An SOP run depends neither on the numbering nor on the orientation of the variables", "statement": "If the variables of a problem are numbered differently, or the sign of some of them is changed (bounds, extra points and objective converted accordingly), then with the converted random draws and experimental design SOP proposes the converted points in the same order and gets the same values, and raises an exception in one run iff in the other; the converted draws and designs are possible ones.", "quantifier": "all permutations of the variables and all choices of signs, all problems (also with integer variables), objectives, schedules, crashes, lost evaluations, draws, designs, surrogates that follow the conversion (RBF interpolants do)", "why_tests_cant": "Compares two whole runs for every permutation, sign change, schedule and outcome of the random draws.", "anchors": ["pySOT/strategy/sop_strategy.py: SOPStrategy", "pySOT/auxiliary_problems/candidate_dycors.py: candidate_dycors", "pySOT/utils/utils.py: round_vars", "pySOT/utils/utils.py: to_unit_box", "pySOT/experimental_design/experimental_design.py: _expdes_dist"]}
{"id": "C145", "title": "A run of SRBF, DYCORS, EI or LCB does not depend on the orientation of the variables", "statement": "If the sign of some variables is changed (bounds, extra points and objective converted accordingly, as when x is replaced by a quantity that decreases with x), then with the converted random draws and experimental design the strategy proposes the converted points in the same order and gets the same values, and raises an exception in one run iff in the other; the converted draws are possible ones.", "quantifier": "all choices of signs, all problems (also with integer variables of at least two values), the four methods, objectives, schedules, crashes, lost evaluations, restarts, draws, designs, surrogates that follow the conversion (RBF interpolants do)", "why_tests_cant": "Compares two whole runs for every sign change, schedule and outcome of the random draws.", "anchors": ["pySOT/auxiliary_problems/candidate_srbf.py: candidate_srbf", "pySOT/auxiliary_problems/candidate_dycors.py: candidate_dycors", "pySOT/auxiliary_problems/ei_ga.py: ei_ga", "pySOT/auxiliary_problems/lcb_ga.py: lcb_ga", "pySOT/utils/utils.py: GeneticAlgorithm", "pySOT/strategy/surrogate_strategy.py: SurrogateBaseStrategy"]}
{"id": "C146", "title": "A SOP run that was killed can be resumed", "statement": "When the manager process dies and the run is resumed from the checkpoint, SOP goes on: it generates new points until the budget is used, and propose_action does not raise an exception.", "quantifier": "all objectives, schedules, draws, numbers of centers, batch sizes, crash points, also several crashes, synchronous and asynchronous", "why_tests_cant": "The crash can happen at any of the unboundedly many moments of a run, and the claim is about everything that can follow.", "anchors": ["pySOT/strategy/sop_strategy.py: SOPStrategy.generate_evals", "pySOT/strategy/sop_strategy.py: SOPStrategy.update_center_list", "pySOT/strategy/surrogate_strategy.py: SurrogateBaseStrategy.resume", "pySOT/controller/controller.py: CheckpointController.resume"]}
{"id": "C147", "title": "A run of SRBF, DYCORS, EI or LCB that was killed can be resumed", "statement": "When the manager process dies at any time and the run is resumed from the checkpoint, the run goes on: propose_action does not raise because the surrogate has too few points.", "quantifier": "all problems, methods, surrogates, objectives, schedules, numbers of workers, crash points, also several crashes", "why_tests_cant": "The crash can come at any moment of a run; the claim is about everything that can follow.", "anchors": ["pySOT/strategy/surrogate_strategy.py: SurrogateBaseStrategy.resume", "pySOT/strategy/surrogate_strategy.py: SurrogateBaseStrategy.propose_action", "pySOT/surrogate/rbf.py: RBFInterpolant._fit", "pySOT/controller/controller.py: CheckpointController.resume"]}
