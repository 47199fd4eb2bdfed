{
 "C05": {
  "note": "The full statement is false of the code: remove_pending deletes every row equal to the point, so when two equal points are in flight and one finishes, the other vanishes from Xpend (C05_refuted). Proved: Xpend never over-counts, and is exact while no point is in flight twice. Exact behaviour in every history: C05_count (a point is listed as often as it was proposed since an evaluation of an equal point ended last)."
 },
 "C07": {
  "note": "The full statement is false of the code (C07_refuted): the phase becomes adaptive as soon as the queue is empty, even while initial evaluations run; if one of them is aborted it is proposed again with the adaptive callbacks and may then be dropped. Proved: rejected/aborted initial points always go back to the queue, and nothing is dropped during the initial phase of the first run."
 },
 "C09": {
  "note": "The full statement is false of the code (C09_refuted): a failure after the termination flag was set is not replaced. Proved if nothing fails after the budget was charged completely. Exact number in every terminated run: C09_count (max_evals minus the evaluations lost after the flag was set)."
 },
 "C11": {
  "note": "The full statement is false of the code (C11_refuted): with use_restarts=False a converged run answers None forever. Proved in all other cases. Complete answer table of propose_action in every reachable state: C11_answer."
 },
 "C14": {
  "note": "The full statement is false of the code for asynchronous SRBF/DYCORS (C14_refuted): results that are in flight when the radius changes never reach _X and the surrogate. Proved exactly for synchronous mode, for strategies without step control, and while the radius has not changed; always at least the results accepted since the last restart or radius change. Exact content in every history and mode: C14_exact (results of evaluations accepted after the last restart during which the radius did not change)."
 },
 "C17": {
  "note": "False in the presence of duplicate in-flight points (C17_refuted, consequence of C05). Everything else is proved; exact requeueing when no point was in flight twice. Exact requeueing in every history: C17_requeued."
 },
 "C20": {
  "note": "False when the budget had been charged by evaluations that are lost in the crash (C20_refuted): the terminate flag is part of the snapshot. Proved when the budget had never been charged completely. Exact condition: C20_iff."
 },
 "C21": {
  "note": "False for an environment that leaves proposals unanswered over many events (C21_refuted). Proved in full for controllers that answer each proposal at once (C21_radius_serial), and for all environments before convergence."
 },
 "C18": {
  "note": "Process crashes (cut off between any two file operations, or an exception in dill.dump). Power failure is not modelled: the code does not fsync."
 },
 "C19": {
  "note": "Guards, refinement and budget over all crashes proved. 'Every evaluation completed at the last save' is false (C19_refuted): POAP runs callbacks in the order they were added, so the checkpoint callback runs before the strategy's, and the evaluation that triggers the save is not in the snapshot. Proved: exactly at most one evaluation behind; the global budget exceeds max_evals by at most one per resume (parameter `first` covers both callback orders)."
 },
 "C64": {
  "note": "The full statement is false of the code (C64_refuted): 'temp_' is put in front of the directory part. Proved for names without directory part."
 },
 "C27": {
  "note": "The full statement is false of candidate_dycors (C27 refuted theorems): bounds and sigma are indexed by position in subset, not by coordinate, so subset=[1] raises IndexError and subset=[1,0] violates the bounds. Proved for prefixes of the coordinates and for candidate_srbf/candidate_uniform."
 },
 "C28": {
  "note": "Real-number model of weighted_distance_merit. If no candidate is separated the code falls back to candidate 0 (not claimed by the property)."
 },
 "C29": {
  "note": "At least one coordinate is always perturbed. 'Any coordinate' is false: randint's upper end is exclusive, so the last coordinate of subset is never the forced one (refuted); proved for all others."
 },
 "C35": {
  "note": "The check of the start population is inverted in the code: populations outside the bounds on the upper side are accepted/inside refused (refuted). Proved what does hold."
 },
 "C39": {
  "note": "Accepted problems may have duplicate indices and dim 0 (refuted); the remaining conjuncts are proved."
 },
 "C65": {
  "note": "Refuted: check_opt_prob accepts non-integer bounds of integer variables and round_vars clips to them. Proved for integer bounds."
 },
 "C30": {
  "note": "For positive ei_tol. The default tolerance is 0 when all values are equal; then no separation is claimed."
 },
 "C66": {
  "note": "False of the code: every symmetric Latin hypercube with fewer than 2*dim points lies on a hyperplane (C66_slhd_refuted), since the rank test does not include the constant column; C66_instance_refuted shows such a design is returned. No larger number of points repairs it: for every n >= 2 and every number of iterations some random choices make the symmetric Latin hypercube (C66_any_size_refuted) and the Latin hypercube (C66_lhd_refuted) in two dimensions return points on a line. Proved for the two-factorial design, the only one for which the property holds."
 },
 "C43": {
  "note": "For num_pts >= 2 (num_pts = 1 divides 0 by 0 in the code)."
 },
 "C45": {
  "note": "matrix_rank is modelled by the exact rank over the reals; pyDOE2.lhs by its contract."
 },
 "C46": {
  "note": "The statement is false for value arrays with several columns (C46_refuted): np.vstack of the values raises only after the points were stored, so the surrogate holds a point without value. Proved for all other calls, for all histories; a Python int as value is refused with an exception (AttributeError), nothing changes."
 },
 "C47": {
  "note": "Exact arithmetic. LAPACK's lu_factor and cholesky enter by their contracts LuSpec/CholSpec (proved satisfiable, Surrogate/Exist.lean); solve_triangular is modelled by substitution."
 },
 "C48": {
  "note": "C48_solves is an equivalence: a prediction raises iff the system is singular or an earlier prediction with enough points raised since the last reset, and otherwise solves the full system. C48_history_partial/C48_scratch_partial: equality with a fit from scratch for histories without such a failure. False without that condition: C48_refuted. Exact arithmetic; LAPACK by contract as in C47. The output transformation is assumed not to raise (see C94). Histories without multi-column values (C46)."
 },
 "C50": {
  "note": "The external regressors (sklearn GP/Poly, pyearth) are arbitrary functions of the fitted data (and of earlier fits)."
 },
 "C49": {
  "note": "Constant and linear tail; cubic kernel: distance 0 or at least machine eps; TPS: 0 or more than eps; linear kernel: at least eps. Exact arithmetic, LAPACK by contract (C47)."
 },
 "C51": {
  "note": "Idempotence is false for an even number of values whose two middle values differ (C51_refuted; C51_idempotent_partial is an equivalence). Everything else is proved."
 },
 "C52": {
  "note": "Proved for every SOP history (all schedules, aborts, rejections, lost evaluations) of the model in Verif/Sop."
 },
 "C53": {
  "note": "Count and freshness are proved for all histories (C53_count, C53_fresh_async, C53_fresh_calm). \"Best point first unless being processed\" is false (C53_refuted): the code reads ntabu = 2 of the best point as \"being processed\". C53_best_partial gives the exact condition under which it holds."
 },
 "C54": {
  "note": "Bounds, the per-round rule, the tabu rule and the tenure are proved for all histories, sync and async. \"Fourth failure in a row\" is false (C54_refuted): the counter is cumulative, successes in between do not reset it."
 },
 "C55": {
  "note": "Proved for the first selection, where the ranks are current (C55_first_partial), and the exact order used afterwards (C55_after_partial). The full statement is false (C55_refuted): update_F at the end of adjust_memory resets all ranks to infinity, so after the first memory update the ranks play no role."
 },
 "C56": {
  "note": "Proved when nothing is lost or rejected (C56_live_partial). The full statement is false in four ways, each with a reachable history: all centers exhausted, rejected proposal, batch_size < ncenters in synchronous mode, aborted evaluation. Exact condition for asynchronous runs with arbitrary losses and crashes: C56_async_partial (a point can be generated iff fewer than ncenters generated points are unevaluated; completions never raise)."
 },
 "C68": {
  "note": "Every SOP history projects to a history of the base strategy model, hence every base theorem quantified over Strategy.Reach applies to SOP."
 },
 "C57": {
  "note": "One theorem per problem, over exact real arithmetic; for all but Exponential and Himmelblau the bound is proved for all points, not only the box."
 },
 "C58": {
  "note": "True for Griewank, Michalewicz, Rosenbrock, Sphere, SumOfSquares, Perm, Zakharov, Weierstrass, Branin (C58_formula_partial). False for Ackley (sign of e), Rastrigin (sign), Himmelblau (sign, constant), Exponential (variable shifted by one), Levy (middle sum leaves out the first variable, so there is a second global minimizer), Schwefel (constant), Zakharov (stated optimum 1 instead of 0): one _refuted theorem each."
 },
 "C70": {
  "note": "True over the whole plane up to 1e-6 (C70_branin_partial); false for the problem as posed: the minimizer violates the bounds and every feasible value exceeds the stated minimum by at least 0.09 (C70_branin_refuted)."
 },
 "C25": {
  "note": "False as stated when the budget leaves exactly one adaptive evaluation, after a resume that lost design points, or after aborted design points (C25_refuted: the value is NaN or infinite). Proved: the formula is in [1/dim,1] and never increases for every budget of at least two adaptive evaluations whenever at least num_exp points are evaluated or pending, its end values, and that this holds in all histories without losses."
 },
 "C60": {
  "note": "RandomStrategy ignores int_var: the points need not be integer (C60_refuted). Everything else in the statement is proved for all schedules; POAP's RetryStrategy is assumed to keep its contract."
 },
 "C61": {
  "note": "The test in the code is wrong (and/or mixed up): invalid integers and small floats are accepted (C61_refuted). Proved: exactly which values are refused."
 },
 "C73": {
  "note": "np.inf is treated as a known value (C73_refuted)."
 },
 "C75": {
  "note": "Integers up to 3 are accepted (C75_refuted). Proved: exactly which integers are refused."
 },
 "C76": {
  "note": "False as stated (C76_refuted): an extra point of known value can be proposed again, because the distance is kept only to the points evaluated in the current run; and EI with its default tolerance re-proposes evaluated points when all values found so far are equal (tolerance 0). Proved for EI with a given positive tolerance and LCB, without restarts and without extra points of unknown value: no point is queued, in flight or completed twice, and Xpend is exact."
 },
 "C74": {
  "note": "Proved over the closed-loop model (strategy + design + auxiliary problem)."
 },
 "C91": {
  "note": "Proved for the cubic and thin plate kernels, with linear tail. False for the linear kernel: the Schur complement is negative definite, the Cholesky factorization fails for every added point and the interpolant is factorized from scratch (C91_linear_refuted)."
 },
 "C78": {
  "note": "The linear kernel is conditionally *negative* definite, so the `+eta` on the diagonal has the wrong sign: for every eta in (0,1], the points 0 and eta make the system exactly singular."
 },
 "C84": {
  "note": "Asynchronous mode with more workers than design points to spare: the surrogate is asked before it has enough data (the RBF then raises); synchronous mode: a design point that fails twice is dropped and the surrogate is asked without it."
 },
 "C92": {
  "note": "Proved: the lower bound holds always, the upper bound holds if ub - lb is a double (integer bounds, lb = 0, lb = -ub) and for integer variables, and is exceeded by at most 2^-52 (|ub| + ub - lb) otherwise; a unit coordinate below 1 is never mapped outside, so uniform draws are in every box and at most one point of an SLHD is outside in each coordinate; to_unit_box and unit_rescale land in [0, 1]; truncated normal draws are in the box up to a rounding error. False in general: C92_refuted gives a box for which every SLHD and the two-factorial design leave the box."
 },
 "C93": {
  "note": "C93_first_partial is an equivalence: the first generation succeeds iff two points at different places have been evaluated; C93_workers_partial: a design of n distinct points and at most n - 2 busy workers are safe. False in general: C93_refuted (2 design points, 3 workers), C93_few_refuted, C93_single_refuted (synchronous, one design point)."
 },
 "C94": {
  "note": "False: C94_refuted (default interpolant, four points), C94_stuck_refuted (every singular fit, until reset), C94_transformation_refuted (an output transformation that raises once during an extension). True parts: C94_reset, C94_few (too few points: harmless), C94_usable_partial, C94_transformation_linear (a transformation that raises during a fit from scratch is harmless)."
 },
 "C95": {
  "note": "False: C95_ignored_refuted, C95_refuted (a kernel or tail given alone is ignored). True parts: C95_given (equivalence), C95_default, C95_suitable, C95_unsuitable."
 },
 "C96": {
  "note": "False: C96_identity_refuted, C96_capped_refuted (and C96_raises for any transformation). True parts: C96_capped_partial (fewer than half inf at every prediction: equal to any large penalty), C96_usable_partial (cubic kernel, linear tail: predictions do not raise)."
 },
 "C97": {
  "note": "False: C97_array_refuted, C97_empty_refuted, C97_batch_refuted, C97_zero_refuted. True parts: C97_valid_partial (valid arguments without array are accepted and give a strategy for which C11/C12/C22 hold), C97_weights_partial and C97_srbf_partial are equivalences."
 },
 "C98": {
  "note": "False: C98_inf_refuted (never converges), C98_nan_refuted (NaN becomes the best value), C98_order_refuted, C98_neginf_refuted. True parts: C98_ignored (inf in a batch with a number), C98_inf_partial and C98_nan_partial (failed steps once there is a finite best value), C98_nan_later; C98_finite: the function equals Srbf.adjust of the main model on finite values."
 },
 "C99": {
  "note": "False where the deviation is zero (C99_refuted, C99_preferred). Proved: separation and feasibility in all cases, EI at least ei_tol at points with positive deviation (C99_separated_partial), the values of the merit (C99_merit), and that with positive deviations everywhere ei_ga is the function of C30 (C99_positive)."
 },
 "C100": {
  "note": "Multiplication by a > 0: proved for all four strategies (C100_scale_partial). a*f+b: proved for EI and LCB (C100_affine_partial), false for SRBF and DYCORS (C100_shift_refuted). Surrogates: RBF converts always (C100_rbf), GP when the deviation of the values is at least 1e-6 in both units (C100_gp_partial), not otherwise (C100_gp_refuted). loopStep_reach: the runs are runs of the closed loop of C74."
 },
 "C101": {
  "note": "EI and LCB: proved for every c > 0 and t (C101_sim_partial). SRBF and DYCORS: proved for translations (C101_translate_partial); scaling is false because of the absolute dtol (C101_scale_refuted; C101_srbf_refuted and C101_dycors_refuted for all small domains). Different factors for different variables: false (C101_anisotropic_refuted). Surrogates: C101_rbf, C101_gp. Continuous variables only (rounding half to even does not commute with c*x+t)."
 },
 "C102": {
  "note": "Proved: one factor for all variables (C102_scale_partial), the exception for any factors (C102_found_partial), two-factorial designs for any units and origin (C102_twofactorial). False for translations (C102_shift_refuted; C102_symmetric_refuted for all sizes and draws)."
 },
 "C103": {
  "note": "Uninterrupted runs: proved completely (C103_uninterrupted). After a resume: best of the strategy's history, at most one evaluation per resume missing (C103_resumed_partial). False in general: registered points (C103_known_refuted) and the evaluation that triggered the checkpoint (C103_lost_refuted) are lost. POAP's best_point is modelled by contract."
 },
 "C104": {
  "note": "Step functions and reachable systems agree for all batch sizes, for SRBF/DYCORS/EI/LCB (open and closed loop) and SOP; the constructors accept the same arguments."
 },
 "C105": {
  "note": "Without in-place modification every recorded point was proposed (C105_untouched). With it: counters, budget, values and their order are still exact (C105_counts_partial), but the recorded points and Xpend are wrong (C105_refuted) and evaluated points are queued again by resume (C105_again_refuted). Base strategies; the change of the user's extra_points array is not modelled."
 },
 "C106": {
  "note": "Proved for runs with a completed evaluation and matplotlib available (C106_shown_partial); the documented behaviour without matplotlib is false (C106_unavailable_refuted), and without completed evaluations an exception is raised (C106_empty_refuted). Finite values."
 },
 "C107": {
  "note": "Everything except reproduction is proved (C107_least, C107_determined, C107_units, C107_residuals). Reproduction of polynomials is false (C107_refuted); proved instead: the data are reproduced exactly if all values are equal (C107_reproduces_partial). scikit-learn is modelled by its contract, which is shown to be satisfiable (exists_ridge)."
 },
 "C108": {
  "note": "False: the result is always dim x dim (C108_shape_refuted), and wrong also if there are dim points (C108_value_refuted). Proved: its diagonal is the gradient at the first point (C108_diagonal_partial), so it is right for one point and one variable (C108_one_partial). Contract of py-earth: predict_deriv has shape (points, variables, outputs)."
 },
 "C109": {
  "note": "Contract of scikit-learn in Surrogate/GP.lean; real arithmetic."
 },
 "C110": {
  "note": "False for small values (C110_refuted, for every choice of the hyperparameters). Proved if the standard deviation of the values is at least 1e-6 in both units (C110_units_partial), for shifts (C110_shift_partial), and for the predicted values with given hyperparameters (C110_mean_partial)."
 },
 "C111": {
  "note": "Proved if two initial points differ, batch_size = ncenters or asynchronous, max_evals differs from the number of design points, and (synchronous only) the points of a batch are different (C111_serial_run_partial); if the budget is covered by the initial points nothing else is needed (C111_design_partial). False for designs at a single place (C111_refuted)."
 },
 "C112": {
  "note": "The points generated around the centers are taken as inputs (converted): which ones the candidate search picks depends on the surrogate, see C100, C101. C112_runs: the runs are those of the model used for the other SOP properties."
 },
 "C113": {
  "note": "sopLoopStep_reach: the runs are closed-loop runs of the SOP model (SopLoopReach). Values are rationals and arithmetic is exact: with floats, rounding may break ties differently."
 },
 "C01": {
  "note": "C01_session to C04_session state the properties in terms of the calls and answers seen by the controller, without the recorded history; session_log shows that the recorded history is what the controller saw."
 },
 "C02": {
  "note": ""
 },
 "C03": {
  "note": ""
 },
 "C04": {
  "note": ""
 },
 "C114": {
  "note": "Holds for one point per call (asynchronous mode or batch size 1: C114_ei_single). Refuted for batches: the points already found are discarded when a later search fails; if fewer than batch_size points of a discrete domain are left, nothing is proposed, for every surrogate and every draw (C114_*_short, C114_*_strategy)."
 },
 "C115": {
  "note": "scikit-learn by its contract (Surrogate/GP.lean), real arithmetic. scikit-learn maximizes the likelihood from a start value and random restarts, which in floating point may pick another local maximum after a rearrangement; this is excluded by the hypothesis OrderFreeHyp (C115_least_squares does not need it)."
 },
 "C116": {
  "note": "The last sentence is false (C116_batch_refuted): the searches of one batch do not see each other's points. Random draws are in the ranges of their distributions (SopRndOk; the forced coordinate by the range of np.random.randint)."
 },
 "C117": {
  "note": "Proved: exactly what is accepted (C117_exact_partial) and that positive integers, with batch_size = ncenters in synchronous mode, work (C117_valid_partial, points of a batch different). False for everything else that is accepted: C117_fewer_refuted (0 <= batch_size < ncenters), C117_centers_refuted (ncenters <= 0, NaN, positive floats up to 3), C117_batch_refuted (negative and fractional batch sizes). numpy integers behave as floats here (they are not instances of int)."
 },
 "C119": {
  "note": "Proved: there is an exception exactly if the design lies on a hyperplane (C119_exact_partial), which never happens for two-factorial designs (C118_twofactorial). False in general: C119_slhd_refuted (every symmetric Latin hypercube with fewer than 2*dim points, continuous variables), C119_hyperplane_refuted (any strategy)."
 },
 "C120": {
  "note": "Proved for asynchronous mode without further conditions (C120_rbf_serial, C120_gp_serial), for synchronous mode if the points of each batch are different (C120_serial_partial), and for every loss-free schedule (C120_any). False in synchronous mode without that condition: C120_few_points_refuted (fewer feasible points than centers: every run raises, whatever surrogate and draws)."
 },
 "C121": {
  "note": "Proved for SRBF, EI and LCB, and for DYCORS in dimension 1, for all schedules (C121_run_partial) and for serial runs with the surrogate object (C121_serial_partial). False for DYCORS in dimension at least 2: C121_dycors_refuted (for every problem, objective, surrogate and design)."
 },
 "C122": {
  "note": "The random draws are indexed by the number of proposals made before. Proved with the surrogate object for EI and LCB without further condition (C122_gp), and for SRBF and DYCORS if the best value of the current run is attained at one point only whenever points are generated (C122_rbf_partial, C122_order_partial, C122_results_partial, C122_end_partial). False otherwise: C122_ties_refuted."
 },
 "C123": {
  "note": "The run, with renumbered draws, is the renumbered run (C123_run_partial), and the renumbered draws are in their ranges if the renumbered design is possible (C123_draws; the forced column of DYCORS is not restricted there, see C123_dycors_*). Possible: for the Latin hypercube exactly (C123_lhd), for all designs up to the order of the points (C123_design_partial), for DYCORS with a positive perturbation probability (C123_dycors_partial). False otherwise: C123_slhd_refuted (rows sorted by the first variable), C123_dycors_last_refuted and C123_dycors_refuted (the last variable is never the forced one). Surrogates: C123_rbf (constant and linear tail), C123_gp (length scales renumbered)."
 },
 "C124": {
  "note": "pyDOE2.lhs and the random generators are modelled by their contract (see the trusted base)."
 },
 "C125": {
  "note": "SRBF: one call (C125_step, C125_any), whole runs (C125_run, C125_limit); the radius bounds come from C21. candidate_uniform: C125_uniform. DYCORS: one call around any feasible center, so also those of SOP, proved with a positive lower bound of the perturbation probability (C125_dycors_partial) and for whole runs with a budget of at least two adaptive evaluations before anything is lost or in flight twice (C125_dycors_run_partial); SOP: whole runs under the same conditions, synchronous or not (C125_sop_partial); false otherwise (C125_dycors_refuted: with one adaptive evaluation the probability is NaN and only one variable is changed). The draws are independent with the truncated normal and uniform laws; the column forced by DYCORS is chosen by the adversary."
 },
 "C126": {
  "note": "Selection of at least one variable (C126_some), the candidate (C126_candidate), the exact probabilities (C126_chance_partial) and the expected number (C126_expected) are proved. 'All equally often' is false: C126_last_refuted."
 },
 "C131": {
  "note": "Numbering, points and values (C131_evaluations_partial), radius and headers (C131_radius) are proved for all runs; 'below the last header' in synchronous mode (C131_header_partial), false in asynchronous mode (C131_refuted (1)). Crashed evaluations are not recorded (C131_refuted (2)). The formatting of numbers is not modelled: the printed value has four significant digits."
 },
 "C132": {
  "note": "Proved for SRBF if at least one variable is continuous and for DYCORS if all are (C132_srbf_partial, C132_dycors_partial for one call, C132_run_partial and C132_new_partial for whole runs). False within a batch (C132_batch_refuted), for integer problems (C132_discrete_refuted) and for DYCORS on mixed problems (C132_dycors_refuted). Real numbers instead of floating point numbers: with floats the probability is tiny instead of zero."
 },
 "C133": {
  "note": "Proved for Sphere, SumOfSquares, Zakharov, Rastrigin, Griewank, Ackley, Rosenbrock (two variables or more), Exponential, GoldsteinPrice and Levy in one variable. False for Levy from two variables on, Perm in two variables, Rosenbrock in one variable, SixHumpCamel, Branin and Weierstrass. Hartmann, Himmelblau and Schwefel state rounded minimizers and are left out; Michalewicz states none."
 },
 "C134": {
  "note": "Proved when the smallest known value (evaluations and values given with extra points) is among the values of the current run. C134_tradeoff: a smaller mean or a larger deviation, with the distance kept, is strictly preferred. False otherwise: C134_refuted has an extra point given with a better value."
 },
 "C135": {
  "note": "SymmetricLatinHypercube, continuous variables, num_pts >= 2*dim: the probability of an error is q^iterations with q < 1 given explicitly, and tends to 0; it is never 0 (three or more variables, or equal bounds); num_pts < 2*(dim-1): always an error. LatinHypercube: almost surely valid from dim points on, almost surely affinely independent from dim + 1 on, always an error below dim. Integer variables: an error always if the box has fewer points than the design."
 },
 "C136": {
  "note": "Proved for every sequence of values none of which is within 2^-52*|best| + 2^-1074 of the level 0.1 % below the best value; halving and doubling of the radius and the convergence test are exact; whatever the values, a success is a strict decrease."
 },
 "C137": {
  "note": "Distances: (1-u)^(d+5)*D^2 - d*2^-1075 <= computed^2 <= (1+u)^(d+5)*(D^2 + d*2^-1075), u = 2^-53. Separation holds up to these factors (in terms of exact distances); the merit of the selected candidate, as a function of the computed distances, is smallest up to 34 u. The exact statement is false in double precision."
 },
 "C138": {
  "note": "Exchangeability and symmetry hold for every number of iterations (symmetry for d <= n); the uniform distribution is proved for one iteration (d <= n) and is false for every larger number of iterations (n = 2, d = 1)."
 },
 "C139": {
  "note": "Exact rule in every history: C139_batch and C139_total (a batch is one step if the evaluation that ends last is an adaptive one and gives a value, and no step otherwise). So the statement holds if no evaluation fails (C139_one_partial) and is false otherwise (C139_refuted)."
 },
 "C140": {
  "note": "Everything created in a generation is in the box, for any arithmetic (C140_generations). The initial population is in the box if it is drawn uniformly (C140_random) or the widths ub - lb are doubles (C140_box_partial: integer bounds, boxes symmetric about zero, C92_widths), and above it by at most a rounding error otherwise (C140_overshoot); with the default start the returned point can be above the bound (C140_refuted). C140_generation: one generation computes the exact operators of C79 up to explicit rounding errors."
 },
 "C141": {
  "note": "Exact for the computed distances and values; the exact distances hold up to rounding errors (C141_distinct: at least 0.99e-3 for the default dtol = 1e-3), the upper bounds if the variable is an integer or the width of its range is a double, otherwise up to a rounding error (C141_ei_partial, C141_lcb_partial). The full statement is false (C141_refuted: the initial population of the genetic algorithm is not projected). Deviations of zero: C99."
 },
 "C142": {
  "note": "Proved with the surrogate object (RBF, Gaussian process) if the values of the evaluations are pairwise different whenever points are generated (C142_order_partial, C142_results_partial, C142_rbf_partial, C142_gp_partial). False otherwise: C142_ties_refuted. The random draws are indexed by the number of proposals made before."
 },
 "C143": {
  "note": "Proved for batch size 1 (or asynchronous mode) with one worker: EI and LCB (C143_plain_partial), SRBF and DYCORS with one weight (C143_weight_partial), all strategies as long as only snapshots of the initial phase are resumed (C143_history_partial, C143_result_partial), and all strategies if the strategy's callback runs before the one that saves (C143_after_partial). False for the default weights (C143_weights_refuted) and for larger batches (C143_batch_refuted). numpy's random state is not part of the snapshot; here the answers are a function of the finished evaluations. SOP is not covered."
 },
 "C144": {
  "note": "Whole runs for given draws are converted without further assumptions (C144_run_partial, C144_rbf_partial, C144_orientation_partial, C144_rbf_run_partial, C144_gp_orientation). Missing: the converted draws are possible (C144_draws_partial, C144_draws_orientation) except that DYCORS never forces the last variable (C123_dycors_last_refuted) and that the mirrored or renumbered design is a possible design only up to the order of its points (C144_slhd_partial, C144_lhd_partial, C144_two_factorial_partial; C144_design_refuted). The default Gaussian process needs hyperparameters that follow the conversion."
 },
 "C145": {
  "note": "Whole runs for given draws are converted without further assumptions (C145_run_partial, C145_rbf_partial, C145_gp_partial), the converted draws are possible (C145_draws). Missing: the mirrored design is a possible design only up to the order of its points (C144_slhd_partial, C144_lhd_partial, C144_two_factorial_partial; C144_design_refuted). Integer variables need at least two values (lb + 1 <= ub): the genetic algorithm moves an initial individual up by one before it moves it down. The default Gaussian process needs hyperparameters that follow the conversion."
 },
 "C146": {
  "note": "Holds when nothing is in flight at the crash: the resumed state is the old one (C146_idle). Refuted otherwise: C146_sync_refuted (batch_size = ncenters: one evaluation in flight is enough) and C146_async_refuted (ncenters evaluations lost). Resumed asynchronous runs with fewer lost points go on: C56_async_partial."
 },
 "C147": {
  "note": "Refuted (C147_design_refuted for every problem, method, objective and draws; C147_rbf_refuted for the default RBF interpolant; C147_dead_refuted for every state of that kind). C147_enough_partial: no exception if the surrogate can be evaluated with the points that were evaluated before the crash."
 }
}