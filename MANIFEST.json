{
 "claims": [
  {
   "property": "C01",
   "status": "proved",
   "theorems": [
    "Verif.Props.C01_budget",
    "Verif.Props.C01_session"
   ],
   "note": "C01_session to C04_session state the properties in terms of the calls and answers seen by the controller, without the recorded history; session_log shows that the recorded history is what the controller saw."
  },
  {
   "property": "C02",
   "status": "proved",
   "theorems": [
    "Verif.Props.C02_pending_exact",
    "Verif.Props.C02_session"
   ],
   "note": ""
  },
  {
   "property": "C03",
   "status": "proved",
   "theorems": [
    "Verif.Props.C03_history",
    "Verif.Props.C03_append_only",
    "Verif.Props.C03_session"
   ],
   "note": ""
  },
  {
   "property": "C04",
   "status": "proved",
   "theorems": [
    "Verif.Props.C04_record_log",
    "Verif.Props.C04_session"
   ],
   "note": ""
  },
  {
   "property": "C05",
   "status": "partial",
   "theorems": [
    "Verif.Props.C05_count",
    "Verif.Props.C05_xpend_partial",
    "Verif.Props.C05_refuted"
   ],
   "note": "The full statement is false of the code: remove_pending deletes every row equal to the point, so when two equal points are in flight and one finishes, the other vanishes from Xpend (C05_refuted). Proved: Xpend never over-counts, and is exact while no point is in flight twice. Exact behaviour in every history: C05_count (a point is listed as often as it was proposed since an evaluation of an equal point ended last)."
  },
  {
   "property": "C06",
   "status": "proved",
   "theorems": [
    "Verif.Props.C06_conservation"
   ],
   "note": ""
  },
  {
   "property": "C07",
   "status": "partial",
   "theorems": [
    "Verif.Props.C07_rejected",
    "Verif.Props.C07_aborted",
    "Verif.Props.C07_initial_partial",
    "Verif.Props.C07_refuted"
   ],
   "note": "The full statement is false of the code (C07_refuted): the phase becomes adaptive as soon as the queue is empty, even while initial evaluations run; if one of them is aborted it is proposed again with the adaptive callbacks and may then be dropped. Proved: rejected/aborted initial points always go back to the queue, and nothing is dropped during the initial phase of the first run."
  },
  {
   "property": "C08",
   "status": "proved",
   "theorems": [
    "Verif.Props.C08_terminate_only_if",
    "Verif.Props.C08_terminates"
   ],
   "note": ""
  },
  {
   "property": "C09",
   "status": "partial",
   "theorems": [
    "Verif.Props.C09_count",
    "Verif.Props.C09_exact_partial",
    "Verif.Props.C09_refuted"
   ],
   "note": "The full statement is false of the code (C09_refuted): a failure after the termination flag was set is not replaced. Proved if nothing fails after the budget was charged completely. Exact number in every terminated run: C09_count (max_evals minus the evaluations lost after the flag was set)."
  },
  {
   "property": "C10",
   "status": "proved",
   "theorems": [
    "Verif.Props.C10_barrier",
    "Verif.Props.C10_bound"
   ],
   "note": ""
  },
  {
   "property": "C11",
   "status": "partial",
   "theorems": [
    "Verif.Props.C11_answer",
    "Verif.Props.C11_progress_partial",
    "Verif.Props.C11_refuted"
   ],
   "note": "The full statement is false of the code (C11_refuted): with use_restarts=False a converged run answers None forever. Proved in all other cases. Complete answer table of propose_action in every reachable state: C11_answer."
  },
  {
   "property": "C12",
   "status": "proved",
   "theorems": [
    "Verif.Props.C12_no_idle"
   ],
   "note": ""
  },
  {
   "property": "C13",
   "status": "proved",
   "theorems": [
    "Verif.Props.C13_isolation"
   ],
   "note": ""
  },
  {
   "property": "C14",
   "status": "partial",
   "theorems": [
    "Verif.Props.C14_exact",
    "Verif.Props.C14_complete_partial",
    "Verif.Props.C14_refuted"
   ],
   "note": "The full statement is false of the code for asynchronous SRBF/DYCORS (C14_refuted): results that are in flight when the radius changes never reach _X and the surrogate. Proved exactly for synchronous mode, for strategies without step control, and while the radius has not changed; always at least the results accepted since the last restart or radius change. Exact content in every history and mode: C14_exact (results of evaluations accepted after the last restart during which the radius did not change)."
  },
  {
   "property": "C15",
   "status": "proved",
   "theorems": [
    "Verif.Props.C15_ids"
   ],
   "note": ""
  },
  {
   "property": "C16",
   "status": "proved",
   "theorems": [
    "Verif.Props.C16_start",
    "Verif.Props.C16_restart",
    "Verif.Props.C16_once"
   ],
   "note": ""
  },
  {
   "property": "C17",
   "status": "partial",
   "theorems": [
    "Verif.Props.C17_requeued",
    "Verif.Props.C17_resume_partial",
    "Verif.Props.C17_refuted"
   ],
   "note": "False in the presence of duplicate in-flight points (C17_refuted, consequence of C05). Everything else is proved; exact requeueing when no point was in flight twice. Exact requeueing in every history: C17_requeued."
  },
  {
   "property": "C18",
   "status": "proved",
   "theorems": [
    "Verif.Props.C18_atomic",
    "Verif.Props.C18_history",
    "Verif.Props.C18_complete"
   ],
   "note": "Process crashes (cut off between any two file operations, or an exception in dill.dump). Power failure is not modelled: the code does not fsync."
  },
  {
   "property": "C19",
   "status": "partial",
   "theorems": [
    "Verif.Props.C19_guards",
    "Verif.Props.C19_refines",
    "Verif.Props.C19_behind",
    "Verif.Props.C19_recent",
    "Verif.Props.C19_final",
    "Verif.Props.C19_total_budget",
    "Verif.Props.C19_refuted"
   ],
   "note": "Guards, refinement and budget over all crashes proved. 'Every evaluation completed at the last save' is false (C19_refuted): POAP runs callbacks in the order they were added, so the checkpoint callback runs before the strategy's, and the evaluation that triggers the save is not in the snapshot. Proved: exactly at most one evaluation behind; the global budget exceeds max_evals by at most one per resume (parameter `first` covers both callback orders)."
  },
  {
   "property": "C20",
   "status": "partial",
   "theorems": [
    "Verif.Props.C20_iff",
    "Verif.Props.C20_goes_on_partial",
    "Verif.Props.C20_refuted"
   ],
   "note": "False when the budget had been charged by evaluations that are lost in the crash (C20_refuted): the terminate flag is part of the snapshot. Proved when the budget had never been charged completely. Exact condition: C20_iff."
  },
  {
   "property": "C21",
   "status": "partial",
   "theorems": [
    "Verif.Props.C21_radius_partial",
    "Verif.Props.C21_radius_serial",
    "Verif.Props.C21_refuted"
   ],
   "note": "False for an environment that leaves proposals unanswered over many events (C21_refuted). Proved in full for controllers that answer each proposal at once (C21_radius_serial), and for all environments before convergence."
  },
  {
   "property": "C22",
   "status": "proved",
   "theorems": [
    "Verif.Props.C22_exact",
    "Verif.Props.C22_at_latest",
    "Verif.Props.C22_only_if"
   ],
   "note": ""
  },
  {
   "property": "C23",
   "status": "proved",
   "theorems": [
    "Verif.Props.C23_best",
    "Verif.Props.C23_monotone"
   ],
   "note": ""
  },
  {
   "property": "C24",
   "status": "proved",
   "theorems": [
    "Verif.Props.C24_weights"
   ],
   "note": ""
  },
  {
   "property": "C25",
   "status": "partial",
   "theorems": [
    "Verif.Props.C25_range_partial",
    "Verif.Props.C25_decreasing_partial",
    "Verif.Props.C25_ends_partial",
    "Verif.Props.C25_reachable_partial",
    "Verif.Props.C25_refuted"
   ],
   "note": "False as stated when the budget leaves exactly one adaptive evaluation, after a resume that lost design points, or after aborted design points (C25_refuted: the value is NaN or infinite). Proved: the formula is in [1/dim,1] and never increases for every budget of at least two adaptive evaluations whenever at least num_exp points are evaluated or pending, its end values, and that this holds in all histories without losses."
  },
  {
   "property": "C26",
   "status": "proved",
   "theorems": [
    "Verif.Props.C26_srbf",
    "Verif.Props.C26_uniform",
    "Verif.Props.C26_dycors"
   ],
   "note": ""
  },
  {
   "property": "C27",
   "status": "partial",
   "theorems": [
    "Verif.Props.C27_srbf_uniform_partial",
    "Verif.Props.C27_dycors_partial",
    "Verif.Props.C27_refuted",
    "Verif.Props.C27_bounds_refuted"
   ],
   "note": "The full statement is false of candidate_dycors (C27 refuted theorems): bounds and sigma are indexed by position in subset, not by coordinate, so subset=[1] raises IndexError and subset=[1,0] violates the bounds. Proved for prefixes of the coordinates and for candidate_srbf/candidate_uniform."
  },
  {
   "property": "C28",
   "status": "proved",
   "theorems": [
    "Verif.Props.C28_candidates",
    "Verif.Props.C28_selection",
    "Verif.Props.C28_separated",
    "Verif.Props.C28_fallback_witness"
   ],
   "note": "Real-number model of weighted_distance_merit. If no candidate is separated the code falls back to candidate 0 (not claimed by the property)."
  },
  {
   "property": "C29",
   "status": "partial",
   "theorems": [
    "Verif.Props.C29_nonempty_partial",
    "Verif.Props.C29_mask",
    "Verif.Props.C29_refuted"
   ],
   "note": "At least one coordinate is always perturbed. 'Any coordinate' is false: randint's upper end is exclusive, so the last coordinate of subset is never the forced one (refuted); proved for all others."
  },
  {
   "property": "C30",
   "status": "proved",
   "theorems": [
    "Verif.Props.C30_separated",
    "Verif.Props.C30_none",
    "Verif.Props.C30_giveup"
   ],
   "note": "For positive ei_tol. The default tolerance is 0 when all values are equal; then no separation is claimed."
  },
  {
   "property": "C31",
   "status": "proved",
   "theorems": [
    "Verif.Props.C31_separated",
    "Verif.Props.C31_giveup"
   ],
   "note": ""
  },
  {
   "property": "C32",
   "status": "proved",
   "theorems": [
    "Verif.Props.C32_expectation",
    "Verif.Props.C32_bounds",
    "Verif.Props.C32_mono"
   ],
   "note": ""
  },
  {
   "property": "C33",
   "status": "proved",
   "theorems": [
    "Verif.Props.C33_feasible"
   ],
   "note": ""
  },
  {
   "property": "C34",
   "status": "proved",
   "theorems": [
    "Verif.Props.C34_elitist",
    "Verif.Props.C34_count"
   ],
   "note": ""
  },
  {
   "property": "C35",
   "status": "partial",
   "theorems": [
    "Verif.Props.C35_refuted",
    "Verif.Props.C35_accepted"
   ],
   "note": "The check of the start population is inverted in the code: populations outside the bounds on the upper side are accepted/inside refused (refuted). Proved what does hold."
  },
  {
   "property": "C36",
   "status": "proved",
   "theorems": [
    "Verif.Props.C36_inverse",
    "Verif.Props.C36_box",
    "Verif.Props.C36_order"
   ],
   "note": ""
  },
  {
   "property": "C37",
   "status": "proved",
   "theorems": [
    "Verif.Props.C37_range",
    "Verif.Props.C37_order",
    "Verif.Props.C37_const"
   ],
   "note": ""
  },
  {
   "property": "C38",
   "status": "proved",
   "theorems": [
    "Verif.Props.C38_cont",
    "Verif.Props.C38_closest",
    "Verif.Props.C38_ties",
    "Verif.Props.C38_box_idempotent"
   ],
   "note": ""
  },
  {
   "property": "C39",
   "status": "partial",
   "theorems": [
    "Verif.Props.C39_accepts",
    "Verif.Props.C39_partition_partial",
    "Verif.Props.C39_refuted"
   ],
   "note": "Accepted problems may have duplicate indices and dim 0 (refuted); the remaining conjuncts are proved."
  },
  {
   "property": "C40",
   "status": "proved",
   "theorems": [
    "Verif.Props.C40_front"
   ],
   "note": ""
  },
  {
   "property": "C41",
   "status": "proved",
   "theorems": [
    "Verif.Props.C41_unique",
    "Verif.Props.C41_sorting",
    "Verif.Props.C41_all"
   ],
   "note": ""
  },
  {
   "property": "C42",
   "status": "proved",
   "theorems": [
    "Verif.Props.C42_rule",
    "Verif.Props.C42_monotone"
   ],
   "note": ""
  },
  {
   "property": "C43",
   "status": "proved",
   "theorems": [
    "Verif.Props.C43_latin",
    "Verif.Props.C43_symmetric",
    "Verif.Props.C43_cube"
   ],
   "note": "For num_pts >= 2 (num_pts = 1 divides 0 by 0 in the code)."
  },
  {
   "property": "C44",
   "status": "proved",
   "theorems": [
    "Verif.Props.C44_cube",
    "Verif.Props.C44_box"
   ],
   "note": ""
  },
  {
   "property": "C45",
   "status": "proved",
   "theorems": [
    "Verif.Props.C45_select",
    "Verif.Props.C45_slhd",
    "Verif.Props.C45_lhd"
   ],
   "note": "matrix_rank is modelled by the exact rank over the reals; pyDOE2.lhs by its contract."
  },
  {
   "property": "C46",
   "status": "partial",
   "theorems": [
    "Verif.Props.C46_accepted",
    "Verif.Props.C46_refused_partial",
    "Verif.Props.C46_refuted",
    "Verif.Props.C46_reset",
    "Verif.Props.C46_history"
   ],
   "note": "The statement is false for value arrays with several columns (C46_refuted): np.vstack of the values raises only after the points were stored, so the surrogate holds a point without value. Proved for all other calls, for all histories; a Python int as value is refused with an exception (AttributeError), nothing changes."
  },
  {
   "property": "C47",
   "status": "proved",
   "theorems": [
    "Verif.Props.C47_interpolation",
    "Verif.Props.C47_exact"
   ],
   "note": "Exact arithmetic. LAPACK's lu_factor and cholesky enter by their contracts LuSpec/CholSpec (proved satisfiable, Surrogate/Exist.lean); solve_triangular is modelled by substitution."
  },
  {
   "property": "C48",
   "status": "partial",
   "theorems": [
    "Verif.Props.C48_refuted",
    "Verif.Props.C48_solves",
    "Verif.Props.C48_history_partial",
    "Verif.Props.C48_scratch_partial",
    "Verif.Props.C48_incremental"
   ],
   "note": "C48_solves is an equivalence: a prediction raises iff the system is singular or an earlier prediction with enough points raised since the last reset, and otherwise solves the full system. C48_history_partial/C48_scratch_partial: equality with a fit from scratch for histories without such a failure. False without that condition: C48_refuted. Exact arithmetic; LAPACK by contract as in C47. The output transformation is assumed not to raise (see C94). Histories without multi-column values (C46)."
  },
  {
   "property": "C49",
   "status": "proved",
   "theorems": [
    "Verif.Props.C49_cubic",
    "Verif.Props.C49_tps",
    "Verif.Props.C49_linear"
   ],
   "note": "Constant and linear tail; cubic kernel: distance 0 or at least machine eps; TPS: 0 or more than eps; linear kernel: at least eps. Exact arithmetic, LAPACK by contract (C47)."
  },
  {
   "property": "C50",
   "status": "proved",
   "theorems": [
    "Verif.Props.C50_fresh",
    "Verif.Props.C50_once",
    "Verif.Props.C50_rbf_once"
   ],
   "note": "The external regressors (sklearn GP/Poly, pyearth) are arbitrary functions of the fitted data (and of earlier fits)."
  },
  {
   "property": "C51",
   "status": "partial",
   "theorems": [
    "Verif.Props.C51_median",
    "Verif.Props.C51_cap",
    "Verif.Props.C51_order",
    "Verif.Props.C51_minimum",
    "Verif.Props.C51_idempotent_partial",
    "Verif.Props.C51_refuted"
   ],
   "note": "Idempotence is false for an even number of values whose two middle values differ (C51_refuted; C51_idempotent_partial is an equivalence). Everything else is proved."
  },
  {
   "property": "C52",
   "status": "proved",
   "theorems": [
    "Verif.Props.C52_archive"
   ],
   "note": "Proved for every SOP history (all schedules, aborts, rejections, lost evaluations) of the model in Verif/Sop."
  },
  {
   "property": "C53",
   "status": "partial",
   "theorems": [
    "Verif.Props.C53_count",
    "Verif.Props.C53_best_partial",
    "Verif.Props.C53_fresh_async",
    "Verif.Props.C53_fresh_calm",
    "Verif.Props.C53_refuted"
   ],
   "note": "Count and freshness are proved for all histories (C53_count, C53_fresh_async, C53_fresh_calm). \"Best point first unless being processed\" is false (C53_refuted): the code reads ntabu = 2 of the best point as \"being processed\". C53_best_partial gives the exact condition under which it holds."
  },
  {
   "property": "C54",
   "status": "partial",
   "theorems": [
    "Verif.Props.C54_bounds",
    "Verif.Props.C54_round_async",
    "Verif.Props.C54_round_sync",
    "Verif.Props.C54_other",
    "Verif.Props.C54_tabu_rule",
    "Verif.Props.C54_tenure",
    "Verif.Props.C54_refuted"
   ],
   "note": "Bounds, the per-round rule, the tabu rule and the tenure are proved for all histories, sync and async. \"Fourth failure in a row\" is false (C54_refuted): the counter is cumulative, successes in between do not reset it."
  },
  {
   "property": "C55",
   "status": "partial",
   "theorems": [
    "Verif.Props.C55_first_partial",
    "Verif.Props.C55_after_partial",
    "Verif.Props.C55_refuted"
   ],
   "note": "Proved for the first selection, where the ranks are current (C55_first_partial), and the exact order used afterwards (C55_after_partial). The full statement is false (C55_refuted): update_F at the end of adjust_memory resets all ranks to infinity, so after the first memory update the ranks play no role."
  },
  {
   "property": "C56",
   "status": "partial",
   "theorems": [
    "Verif.Props.C56_live_partial",
    "Verif.Props.C56_exhausted_refuted",
    "Verif.Props.C56_reject_refuted",
    "Verif.Props.C56_batch_refuted",
    "Verif.Props.C56_abort_refuted",
    "Verif.Props.C56_duplicates_refuted",
    "Verif.Props.C56_integer_refuted",
    "Verif.Props.C56_async_partial"
   ],
   "note": "Proved when nothing is lost or rejected (C56_live_partial). The full statement is false in four ways, each with a reachable history: all centers exhausted, rejected proposal, batch_size < ncenters in synchronous mode, aborted evaluation. Exact condition for asynchronous runs with arbitrary losses and crashes: C56_async_partial (a point can be generated iff fewer than ncenters generated points are unevaluated; completions never raise)."
  },
  {
   "property": "C57",
   "status": "proved",
   "theorems": [
    "Verif.Props.C57_ackley",
    "Verif.Props.C57_exponential",
    "Verif.Props.C57_goldstein_price",
    "Verif.Props.C57_griewank",
    "Verif.Props.C57_levy",
    "Verif.Props.C57_perm",
    "Verif.Props.C57_rastrigin",
    "Verif.Props.C57_rosenbrock",
    "Verif.Props.C57_sphere",
    "Verif.Props.C57_sum_of_squares",
    "Verif.Props.C57_weierstrass",
    "Verif.Props.C57_zakharov",
    "Verif.Props.C57_himmelblau"
   ],
   "note": "One theorem per problem, over exact real arithmetic; for all but Exponential and Himmelblau the bound is proved for all points, not only the box."
  },
  {
   "property": "C58",
   "status": "partial",
   "theorems": [
    "Verif.Props.C58_hartmann3",
    "Verif.Props.C58_hartmann6",
    "Verif.Props.C58_formula_partial",
    "Verif.Props.C58_usual_partial",
    "Verif.Props.C58_ackley_refuted",
    "Verif.Props.C58_rastrigin_refuted",
    "Verif.Props.C58_himmelblau_refuted",
    "Verif.Props.C58_exponential_refuted",
    "Verif.Props.C58_levy_refuted",
    "Verif.Props.C58_schwefel_refuted",
    "Verif.Props.C58_zakharov_refuted"
   ],
   "note": "True for Griewank, Michalewicz, Rosenbrock, Sphere, SumOfSquares, Perm, Zakharov, Weierstrass, Branin (C58_formula_partial). False for Ackley (sign of e), Rastrigin (sign), Himmelblau (sign, constant), Exponential (variable shifted by one), Levy (middle sum leaves out the first variable, so there is a second global minimizer), Schwefel (constant), Zakharov (stated optimum 1 instead of 0): one _refuted theorem each."
  },
  {
   "property": "C59",
   "status": "proved",
   "theorems": [
    "Verif.Props.C59_dimension"
   ],
   "note": ""
  },
  {
   "property": "C60",
   "status": "partial",
   "theorems": [
    "Verif.Props.C60_terminates_exactly",
    "Verif.Props.C60_retried",
    "Verif.Props.C60_number_of_proposals",
    "Verif.Props.C60_can_finish",
    "Verif.Props.C60_box",
    "Verif.Props.C60_refuted"
   ],
   "note": "RandomStrategy ignores int_var: the points need not be integer (C60_refuted). Everything else in the statement is proved for all schedules; POAP's RetryStrategy is assumed to keep its contract."
  },
  {
   "property": "C61",
   "status": "partial",
   "theorems": [
    "Verif.Props.C61_exact_partial",
    "Verif.Props.C61_random_partial",
    "Verif.Props.C61_refuted"
   ],
   "note": "The test in the code is wrong (and/or mixed up): invalid integers and small floats are accepted (C61_refuted). Proved: exactly which values are refused."
  },
  {
   "property": "C62",
   "status": "proved",
   "theorems": [
    "Verif.Props.C62_feasible"
   ],
   "note": ""
  },
  {
   "property": "C63",
   "status": "proved",
   "theorems": [
    "Verif.Props.C63_change",
    "Verif.Props.C63_change_only",
    "Verif.Props.C63_stale",
    "Verif.Props.C63_failtol",
    "Verif.Props.C63_step_control",
    "Verif.Props.C63_async_value",
    "Verif.Props.C63_sync_value"
   ],
   "note": ""
  },
  {
   "property": "C64",
   "status": "partial",
   "theorems": [
    "Verif.Props.C64_save_partial",
    "Verif.Props.C64_refuted"
   ],
   "note": "The full statement is false of the code (C64_refuted): 'temp_' is put in front of the directory part. Proved for names without directory part."
  },
  {
   "property": "C65",
   "status": "partial",
   "theorems": [
    "Verif.Props.C65_refuted",
    "Verif.Props.C65_integral_partial"
   ],
   "note": "Refuted: check_opt_prob accepts non-integer bounds of integer variables and round_vars clips to them. Proved for integer bounds."
  },
  {
   "property": "C66",
   "status": "partial",
   "theorems": [
    "Verif.Props.C66_slhd_refuted",
    "Verif.Props.C66_instance_refuted",
    "Verif.Props.C66_any_size_refuted",
    "Verif.Props.C66_lhd_refuted",
    "Verif.Props.C66_twofactorial_partial"
   ],
   "note": "False of the code: every symmetric Latin hypercube with fewer than 2*dim points lies on a hyperplane (C66_slhd_refuted), since the rank test does not include the constant column; C66_instance_refuted shows such a design is returned. No larger number of points repairs it: for every n >= 2 and every number of iterations some random choices make the symmetric Latin hypercube (C66_any_size_refuted) and the Latin hypercube (C66_lhd_refuted) in two dimensions return points on a line. Proved for the two-factorial design, the only one for which the property holds."
  },
  {
   "property": "C67",
   "status": "proved",
   "theorems": [
    "Verif.Props.C67_unscale",
    "Verif.Props.C67_standardized"
   ],
   "note": ""
  },
  {
   "property": "C68",
   "status": "proved",
   "theorems": [
    "Verif.Props.C68_refinement"
   ],
   "note": "Every SOP history projects to a history of the base strategy model, hence every base theorem quantified over Strategy.Reach applies to SOP."
  },
  {
   "property": "C69",
   "status": "proved",
   "theorems": [
    "Verif.Props.C69_accepted"
   ],
   "note": ""
  },
  {
   "property": "C70",
   "status": "partial",
   "theorems": [
    "Verif.Props.C70_branin_partial",
    "Verif.Props.C70_branin_refuted"
   ],
   "note": "True over the whole plane up to 1e-6 (C70_branin_partial); false for the problem as posed: the minimizer violates the bounds and every feasible value exceeds the stated minimum by at least 0.09 (C70_branin_refuted)."
  },
  {
   "property": "C71",
   "status": "proved",
   "theorems": [
    "Verif.Props.C71_schwefel"
   ],
   "note": ""
  },
  {
   "property": "C72",
   "status": "proved",
   "theorems": [
    "Verif.Props.C72_camel"
   ],
   "note": ""
  },
  {
   "property": "C73",
   "status": "partial",
   "theorems": [
    "Verif.Props.C73_unknown_partial",
    "Verif.Props.C73_refuted"
   ],
   "note": "np.inf is treated as a known value (C73_refuted)."
  },
  {
   "property": "C74",
   "status": "proved",
   "theorems": [
    "Verif.Props.C74_feasible"
   ],
   "note": "Proved over the closed-loop model (strategy + design + auxiliary problem)."
  },
  {
   "property": "C75",
   "status": "partial",
   "theorems": [
    "Verif.Props.C75_exact_partial",
    "Verif.Props.C75_refuted"
   ],
   "note": "Integers up to 3 are accepted (C75_refuted). Proved: exactly which integers are refused."
  },
  {
   "property": "C76",
   "status": "partial",
   "theorems": [
    "Verif.Props.C76_once_partial",
    "Verif.Props.C76_refuted"
   ],
   "note": "False as stated (C76_refuted): an extra point of known value can be proposed again, because the distance is kept only to the points evaluated in the current run; and EI with its default tolerance re-proposes evaluated points when all values found so far are equal (tolerance 0). Proved for EI with a given positive tolerance and LCB, without restarts and without extra points of unknown value: no point is queued, in flight or completed twice, and Xpend is exact."
  },
  {
   "property": "C77",
   "status": "proved",
   "theorems": [
    "Verif.Props.C77_cubic",
    "Verif.Props.C77_tps",
    "Verif.Props.C77_tps_default"
   ],
   "note": ""
  },
  {
   "property": "C78",
   "status": "partial",
   "theorems": [
    "Verif.Props.C78_linear_partial",
    "Verif.Props.C78_refuted"
   ],
   "note": "The linear kernel is conditionally *negative* definite, so the `+eta` on the diagonal has the wrong sign: for every eta in (0,1], the points 0 and eta make the system exactly singular."
  },
  {
   "property": "C79",
   "status": "proved",
   "theorems": [
    "Verif.Props.C79_initial",
    "Verif.Props.C79_generation"
   ],
   "note": ""
  },
  {
   "property": "C80",
   "status": "proved",
   "theorems": [
    "Verif.Props.C80_bounded_work",
    "Verif.Props.C80_next",
    "Verif.Props.C80_serial_run"
   ],
   "note": ""
  },
  {
   "property": "C81",
   "status": "proved",
   "theorems": [
    "Verif.Props.C81_ei_queued",
    "Verif.Props.C81_ei_stop",
    "Verif.Props.C81_lcb_queued",
    "Verif.Props.C81_lcb_stop"
   ],
   "note": ""
  },
  {
   "property": "C82",
   "status": "proved",
   "theorems": [
    "Verif.Props.C82_history",
    "Verif.Props.C82_only",
    "Verif.Props.C82_converged",
    "Verif.Props.C82_giveup"
   ],
   "note": ""
  },
  {
   "property": "C83",
   "status": "proved",
   "theorems": [
    "Verif.Props.C83_hartmann3",
    "Verif.Props.C83_hartmann6"
   ],
   "note": ""
  },
  {
   "property": "C84",
   "status": "partial",
   "theorems": [
    "Verif.Props.C84_history_partial",
    "Verif.Props.C84_sync_partial",
    "Verif.Props.C84_async_partial",
    "Verif.Props.C84_data_partial",
    "Verif.Props.C84_rbf_partial",
    "Verif.Props.C84_async_refuted",
    "Verif.Props.C84_failed_refuted"
   ],
   "note": "Asynchronous mode with more workers than design points to spare: the surrogate is asked before it has enough data (the RBF then raises); synchronous mode: a design point that fails twice is dropped and the surrogate is asked without it."
  },
  {
   "property": "C85",
   "status": "proved",
   "theorems": [
    "Verif.Props.C85_affine",
    "Verif.Props.C85_constant",
    "Verif.Props.C85_gradient"
   ],
   "note": ""
  },
  {
   "property": "C86",
   "status": "proved",
   "theorems": [
    "Verif.Props.C86_linear",
    "Verif.Props.C86_units"
   ],
   "note": ""
  },
  {
   "property": "C87",
   "status": "proved",
   "theorems": [
    "Verif.Props.C87_order",
    "Verif.Props.C87_units"
   ],
   "note": ""
  },
  {
   "property": "C88",
   "status": "proved",
   "theorems": [
    "Verif.Props.C88_least_squares"
   ],
   "note": ""
  },
  {
   "property": "C89",
   "status": "proved",
   "theorems": [
    "Verif.Props.C89_same",
    "Verif.Props.C89_proposal",
    "Verif.Props.C89_surrogate",
    "Verif.Props.C89_reject_differs",
    "Verif.Props.C89_workers_differ"
   ],
   "note": ""
  },
  {
   "property": "C90",
   "status": "proved",
   "theorems": [
    "Verif.Props.C90_feasible"
   ],
   "note": ""
  },
  {
   "property": "C91",
   "status": "partial",
   "theorems": [
    "Verif.Props.C91_cubic",
    "Verif.Props.C91_tps",
    "Verif.Props.C91_linear_refuted"
   ],
   "note": "Proved for the cubic and thin plate kernels, with linear tail. False for the linear kernel: the Schur complement is negative definite, the Cholesky factorization fails for every added point and the interpolant is factorized from scratch (C91_linear_refuted)."
  },
  {
   "property": "C92",
   "status": "partial",
   "theorems": [
    "Verif.Props.C92_lower",
    "Verif.Props.C92_zero",
    "Verif.Props.C92_mono",
    "Verif.Props.C92_upper",
    "Verif.Props.C92_widths",
    "Verif.Props.C92_overshoot",
    "Verif.Props.C92_open",
    "Verif.Props.C92_uniform",
    "Verif.Props.C92_to_unit",
    "Verif.Props.C92_rescale",
    "Verif.Props.C92_point",
    "Verif.Props.C92_slhd_one",
    "Verif.Props.C92_designs",
    "Verif.Props.C92_trunc",
    "Verif.Props.C92_bundled",
    "Verif.Props.C92_refuted"
   ],
   "note": "Proved: the lower bound holds always, the upper bound holds if ub - lb is a double (integer bounds, lb = 0, lb = -ub) and for integer variables, and is exceeded by at most 2^-52 (|ub| + ub - lb) otherwise; a unit coordinate below 1 is never mapped outside, so uniform draws are in every box and at most one point of an SLHD is outside in each coordinate; to_unit_box and unit_rescale land in [0, 1]; truncated normal draws are in the box up to a rounding error. False in general: C92_refuted gives a box for which every SLHD and the two-factorial design leave the box."
  },
  {
   "property": "C93",
   "status": "partial",
   "theorems": [
    "Verif.Props.C93_first_partial",
    "Verif.Props.C93_workers_partial",
    "Verif.Props.C93_few_refuted",
    "Verif.Props.C93_refuted",
    "Verif.Props.C93_single_refuted"
   ],
   "note": "C93_first_partial is an equivalence: the first generation succeeds iff two points at different places have been evaluated; C93_workers_partial: a design of n distinct points and at most n - 2 busy workers are safe. False in general: C93_refuted (2 design points, 3 workers), C93_few_refuted, C93_single_refuted (synchronous, one design point)."
  },
  {
   "property": "C94",
   "status": "partial",
   "theorems": [
    "Verif.Props.C94_reset",
    "Verif.Props.C94_few",
    "Verif.Props.C94_stuck_refuted",
    "Verif.Props.C94_usable_partial",
    "Verif.Props.C94_refuted",
    "Verif.Props.C94_transformation_refuted",
    "Verif.Props.C94_transformation_linear"
   ],
   "note": "False: C94_refuted (default interpolant, four points), C94_stuck_refuted (every singular fit, until reset), C94_transformation_refuted (an output transformation that raises once during an extension). True parts: C94_reset, C94_few (too few points: harmless), C94_usable_partial, C94_transformation_linear (a transformation that raises during a fit from scratch is harmless)."
  },
  {
   "property": "C95",
   "status": "partial",
   "theorems": [
    "Verif.Props.C95_given",
    "Verif.Props.C95_default",
    "Verif.Props.C95_ignored_refuted",
    "Verif.Props.C95_refuted",
    "Verif.Props.C95_suitable",
    "Verif.Props.C95_unsuitable"
   ],
   "note": "False: C95_ignored_refuted, C95_refuted (a kernel or tail given alone is ignored). True parts: C95_given (equivalence), C95_default, C95_suitable, C95_unsuitable."
  },
  {
   "property": "C96",
   "status": "partial",
   "theorems": [
    "Verif.Props.C96_raises",
    "Verif.Props.C96_identity_refuted",
    "Verif.Props.C96_capped_refuted",
    "Verif.Props.C96_capped_partial",
    "Verif.Props.C96_usable_partial"
   ],
   "note": "False: C96_identity_refuted, C96_capped_refuted (and C96_raises for any transformation). True parts: C96_capped_partial (fewer than half inf at every prediction: equal to any large penalty), C96_usable_partial (cubic kernel, linear tail: predictions do not raise)."
  },
  {
   "property": "C97",
   "status": "partial",
   "theorems": [
    "Verif.Props.C97_weights_partial",
    "Verif.Props.C97_srbf_partial",
    "Verif.Props.C97_valid_partial",
    "Verif.Props.C97_ei_partial",
    "Verif.Props.C97_array_refuted",
    "Verif.Props.C97_empty_refuted",
    "Verif.Props.C97_batch_refuted",
    "Verif.Props.C97_zero_refuted"
   ],
   "note": "False: C97_array_refuted, C97_empty_refuted, C97_batch_refuted, C97_zero_refuted. True parts: C97_valid_partial (valid arguments without array are accepted and give a strategy for which C11/C12/C22 hold), C97_weights_partial and C97_srbf_partial are equivalences."
  },
  {
   "property": "C98",
   "status": "partial",
   "theorems": [
    "Verif.Props.C98_finite",
    "Verif.Props.C98_ignored",
    "Verif.Props.C98_inf_partial",
    "Verif.Props.C98_inf_refuted",
    "Verif.Props.C98_nan_later",
    "Verif.Props.C98_nan_partial",
    "Verif.Props.C98_order_refuted",
    "Verif.Props.C98_nan_refuted",
    "Verif.Props.C98_neginf_refuted"
   ],
   "note": "False: C98_inf_refuted (never converges), C98_nan_refuted (NaN becomes the best value), C98_order_refuted, C98_neginf_refuted. True parts: C98_ignored (inf in a batch with a number), C98_inf_partial and C98_nan_partial (failed steps once there is a finite best value), C98_nan_later; C98_finite: the function equals Srbf.adjust of the main model on finite values."
  },
  {
   "property": "C99",
   "status": "partial",
   "theorems": [
    "Verif.Props.C99_merit",
    "Verif.Props.C99_separated_partial",
    "Verif.Props.C99_positive",
    "Verif.Props.C99_preferred",
    "Verif.Props.C99_refuted"
   ],
   "note": "False where the deviation is zero (C99_refuted, C99_preferred). Proved: separation and feasibility in all cases, EI at least ei_tol at points with positive deviation (C99_separated_partial), the values of the merit (C99_merit), and that with positive deviations everywhere ei_ga is the function of C30 (C99_positive)."
  },
  {
   "property": "C100",
   "status": "partial",
   "theorems": [
    "Verif.Props.C100_scale_partial",
    "Verif.Props.C100_affine_partial",
    "Verif.Props.C100_rbf",
    "Verif.Props.C100_gp_partial",
    "Verif.Props.C100_gp_refuted",
    "Verif.Props.C100_shift_refuted"
   ],
   "note": "Multiplication by a > 0: proved for all four strategies (C100_scale_partial). a*f+b: proved for EI and LCB (C100_affine_partial), false for SRBF and DYCORS (C100_shift_refuted). Surrogates: RBF converts always (C100_rbf), GP when the deviation of the values is at least 1e-6 in both units (C100_gp_partial), not otherwise (C100_gp_refuted). loopStep_reach: the runs are runs of the closed loop of C74."
  },
  {
   "property": "C101",
   "status": "partial",
   "theorems": [
    "Verif.Props.C101_sim_partial",
    "Verif.Props.C101_translate_partial",
    "Verif.Props.C101_rbf",
    "Verif.Props.C101_gp",
    "Verif.Props.C101_srbf_refuted",
    "Verif.Props.C101_dycors_refuted",
    "Verif.Props.C101_scale_refuted",
    "Verif.Props.C101_anisotropic_refuted"
   ],
   "note": "EI and LCB: proved for every c > 0 and t (C101_sim_partial). SRBF and DYCORS: proved for translations (C101_translate_partial); scaling is false because of the absolute dtol (C101_scale_refuted; C101_srbf_refuted and C101_dycors_refuted for all small domains). Different factors for different variables: false (C101_anisotropic_refuted). Surrogates: C101_rbf, C101_gp. Continuous variables only (rounding half to even does not commute with c*x+t)."
  },
  {
   "property": "C102",
   "status": "partial",
   "theorems": [
    "Verif.Props.C102_scale_partial",
    "Verif.Props.C102_found_partial",
    "Verif.Props.C102_twofactorial",
    "Verif.Props.C102_symmetric_refuted",
    "Verif.Props.C102_minimal_refuted",
    "Verif.Props.C102_shift_refuted",
    "Verif.Props.C102_problems_refuted"
   ],
   "note": "Proved: one factor for all variables (C102_scale_partial), the exception for any factors (C102_found_partial), two-factorial designs for any units and origin (C102_twofactorial). False for translations (C102_shift_refuted; C102_symmetric_refuted for all sizes and draws)."
  },
  {
   "property": "C103",
   "status": "partial",
   "theorems": [
    "Verif.Props.C103_uninterrupted",
    "Verif.Props.C103_resumed_partial",
    "Verif.Props.C103_known_refuted",
    "Verif.Props.C103_lost_refuted"
   ],
   "note": "Uninterrupted runs: proved completely (C103_uninterrupted). After a resume: best of the strategy's history, at most one evaluation per resume missing (C103_resumed_partial). False in general: registered points (C103_known_refuted) and the evaluation that triggered the checkpoint (C103_lost_refuted) are lost. POAP's best_point is modelled by contract."
  },
  {
   "property": "C104",
   "status": "proved",
   "theorems": [
    "Verif.Props.C104_base",
    "Verif.Props.C104_loop",
    "Verif.Props.C104_sop",
    "Verif.Props.C104_constructors"
   ],
   "note": "Step functions and reachable systems agree for all batch sizes, for SRBF/DYCORS/EI/LCB (open and closed loop) and SOP; the constructors accept the same arguments."
  },
  {
   "property": "C105",
   "status": "partial",
   "theorems": [
    "Verif.Props.C105_counts_partial",
    "Verif.Props.C105_untouched",
    "Verif.Props.C105_refuted",
    "Verif.Props.C105_again_refuted"
   ],
   "note": "Without in-place modification every recorded point was proposed (C105_untouched). With it: counters, budget, values and their order are still exact (C105_counts_partial), but the recorded points and Xpend are wrong (C105_refuted) and evaluated points are queued again by resume (C105_again_refuted). Base strategies; the change of the user's extra_points array is not modelled."
  },
  {
   "property": "C106",
   "status": "partial",
   "theorems": [
    "Verif.Props.C106_shown_partial",
    "Verif.Props.C106_unavailable_refuted",
    "Verif.Props.C106_empty_refuted"
   ],
   "note": "Proved for runs with a completed evaluation and matplotlib available (C106_shown_partial); the documented behaviour without matplotlib is false (C106_unavailable_refuted), and without completed evaluations an exception is raised (C106_empty_refuted). Finite values."
  },
  {
   "property": "C107",
   "status": "partial",
   "theorems": [
    "Verif.Props.C107_least",
    "Verif.Props.C107_determined",
    "Verif.Props.C107_units",
    "Verif.Props.C107_residuals",
    "Verif.Props.C107_reproduces_partial",
    "Verif.Props.C107_refuted",
    "Verif.Props.C107_polynomial"
   ],
   "note": "Everything except reproduction is proved (C107_least, C107_determined, C107_units, C107_residuals). Reproduction of polynomials is false (C107_refuted); proved instead: the data are reproduced exactly if all values are equal (C107_reproduces_partial). scikit-learn is modelled by its contract, which is shown to be satisfiable (exists_ridge)."
  },
  {
   "property": "C108",
   "status": "partial",
   "theorems": [
    "Verif.Props.C108_diagonal_partial",
    "Verif.Props.C108_one_partial",
    "Verif.Props.C108_shape_refuted",
    "Verif.Props.C108_value_refuted"
   ],
   "note": "False: the result is always dim x dim (C108_shape_refuted), and wrong also if there are dim points (C108_value_refuted). Proved: its diagonal is the gradient at the first point (C108_diagonal_partial), so it is right for one point and one variable (C108_one_partial). Contract of py-earth: predict_deriv has shape (points, variables, outputs)."
  },
  {
   "property": "C109",
   "status": "proved",
   "theorems": [
    "Verif.Props.C109_bounds",
    "Verif.Props.C109_data",
    "Verif.Props.C109_more",
    "Verif.Props.C109_constant",
    "Verif.Props.C109_ei"
   ],
   "note": "Contract of scikit-learn in Surrogate/GP.lean; real arithmetic."
  },
  {
   "property": "C110",
   "status": "partial",
   "theorems": [
    "Verif.Props.C110_units_partial",
    "Verif.Props.C110_shift_partial",
    "Verif.Props.C110_mean_partial",
    "Verif.Props.C110_refuted"
   ],
   "note": "False for small values (C110_refuted, for every choice of the hyperparameters). Proved if the standard deviation of the values is at least 1e-6 in both units (C110_units_partial), for shifts (C110_shift_partial), and for the predicted values with given hyperparameters (C110_mean_partial)."
  },
  {
   "property": "C111",
   "status": "partial",
   "theorems": [
    "Verif.Props.C111_serial_run_partial",
    "Verif.Props.C111_design_partial",
    "Verif.Props.C111_refuted"
   ],
   "note": "Proved if two initial points differ, batch_size = ncenters or asynchronous, max_evals differs from the number of design points, and (synchronous only) the points of a batch are different (C111_serial_run_partial); if the budget is covered by the initial points nothing else is needed (C111_design_partial). False for designs at a single place (C111_refuted)."
  },
  {
   "property": "C112",
   "status": "proved",
   "theorems": [
    "Verif.Props.C112_order",
    "Verif.Props.C112_runs"
   ],
   "note": "The points generated around the centers are taken as inputs (converted): which ones the candidate search picks depends on the surrogate, see C100, C101. C112_runs: the runs are those of the model used for the other SOP properties."
  },
  {
   "property": "C113",
   "status": "proved",
   "theorems": [
    "Verif.Props.C113_objective",
    "Verif.Props.C113_origin",
    "Verif.Props.C113_rbf"
   ],
   "note": "sopLoopStep_reach: the runs are closed-loop runs of the SOP model (SopLoopReach). Values are rationals and arithmetic is exact: with floats, rounding may break ties differently."
  },
  {
   "property": "C114",
   "status": "partial",
   "theorems": [
    "Verif.Props.C114_ei_short",
    "Verif.Props.C114_lcb_short",
    "Verif.Props.C114_ei_single",
    "Verif.Props.C114_ei_strategy",
    "Verif.Props.C114_lcb_strategy",
    "Verif.Props.C114_refuted"
   ],
   "note": "Holds for one point per call (asynchronous mode or batch size 1: C114_ei_single). Refuted for batches: the points already found are discarded when a later search fails; if fewer than batch_size points of a discrete domain are left, nothing is proposed, for every surrogate and every draw (C114_*_short, C114_*_strategy)."
  },
  {
   "property": "C115",
   "status": "proved",
   "theorems": [
    "Verif.Props.C115_determined",
    "Verif.Props.C115_order",
    "Verif.Props.C115_units",
    "Verif.Props.C115_least_squares"
   ],
   "note": "scikit-learn by its contract (Surrogate/GP.lean), real arithmetic. scikit-learn maximizes the likelihood from a start value and random restarts, which in floating point may pick another local maximum after a rearrangement; this is excluded by the hypothesis OrderFreeHyp (C115_least_squares does not need it)."
  },
  {
   "property": "C116",
   "status": "partial",
   "theorems": [
    "Verif.Props.C116_search",
    "Verif.Props.C116_batch_refuted"
   ],
   "note": "The last sentence is false (C116_batch_refuted): the searches of one batch do not see each other's points. Random draws are in the ranges of their distributions (SopRndOk; the forced coordinate by the range of np.random.randint)."
  },
  {
   "property": "C117",
   "status": "partial",
   "theorems": [
    "Verif.Props.C117_exact_partial",
    "Verif.Props.C117_valid_partial",
    "Verif.Props.C117_fewer_refuted",
    "Verif.Props.C117_centers_refuted",
    "Verif.Props.C117_batch_refuted"
   ],
   "note": "Proved: exactly what is accepted (C117_exact_partial) and that positive integers, with batch_size = ncenters in synchronous mode, work (C117_valid_partial, points of a batch different). False for everything else that is accepted: C117_fewer_refuted (0 <= batch_size < ncenters), C117_centers_refuted (ncenters <= 0, NaN, positive floats up to 3), C117_batch_refuted (negative and fractional batch sizes). numpy integers behave as floats here (they are not instances of int)."
  },
  {
   "property": "C118",
   "status": "proved",
   "theorems": [
    "Verif.Props.C118_data",
    "Verif.Props.C118_any",
    "Verif.Props.C118_sync",
    "Verif.Props.C118_serial",
    "Verif.Props.C118_rbf_data",
    "Verif.Props.C118_rbf_sync",
    "Verif.Props.C118_rbf_serial",
    "Verif.Props.C118_twofactorial",
    "Verif.Props.C118_gp",
    "Verif.Props.C118_gp_serial"
   ],
   "note": ""
  },
  {
   "property": "C119",
   "status": "partial",
   "theorems": [
    "Verif.Props.C119_hyperplane_refuted",
    "Verif.Props.C119_slhd_refuted",
    "Verif.Props.C119_exact_partial"
   ],
   "note": "Proved: there is an exception exactly if the design lies on a hyperplane (C119_exact_partial), which never happens for two-factorial designs (C118_twofactorial). False in general: C119_slhd_refuted (every symmetric Latin hypercube with fewer than 2*dim points, continuous variables), C119_hyperplane_refuted (any strategy)."
  },
  {
   "property": "C120",
   "status": "partial",
   "theorems": [
    "Verif.Props.C120_data",
    "Verif.Props.C120_any",
    "Verif.Props.C120_serial_partial",
    "Verif.Props.C120_few_points_refuted",
    "Verif.Props.C120_rbf_serial",
    "Verif.Props.C120_gp_serial"
   ],
   "note": "Proved for asynchronous mode without further conditions (C120_rbf_serial, C120_gp_serial), for synchronous mode if the points of each batch are different (C120_serial_partial), and for every loss-free schedule (C120_any). False in synchronous mode without that condition: C120_few_points_refuted (fewer feasible points than centers: every run raises, whatever surrogate and draws)."
  },
  {
   "property": "C121",
   "status": "partial",
   "theorems": [
    "Verif.Props.C121_run_partial",
    "Verif.Props.C121_serial_partial",
    "Verif.Props.C121_dycors_refuted"
   ],
   "note": "Proved for SRBF, EI and LCB, and for DYCORS in dimension 1, for all schedules (C121_run_partial) and for serial runs with the surrogate object (C121_serial_partial). False for DYCORS in dimension at least 2: C121_dycors_refuted (for every problem, objective, surrogate and design)."
  },
  {
   "property": "C122",
   "status": "partial",
   "theorems": [
    "Verif.Props.C122_order_partial",
    "Verif.Props.C122_results_partial",
    "Verif.Props.C122_end_partial",
    "Verif.Props.C122_ties_refuted",
    "Verif.Props.C122_rbf_partial",
    "Verif.Props.C122_gp"
   ],
   "note": "The random draws are indexed by the number of proposals made before. Proved with the surrogate object for EI and LCB without further condition (C122_gp), and for SRBF and DYCORS if the best value of the current run is attained at one point only whenever points are generated (C122_rbf_partial, C122_order_partial, C122_results_partial, C122_end_partial). False otherwise: C122_ties_refuted."
  },
  {
   "property": "C123",
   "status": "partial",
   "theorems": [
    "Verif.Props.C123_run_partial",
    "Verif.Props.C123_draws",
    "Verif.Props.C123_lhd",
    "Verif.Props.C123_design_partial",
    "Verif.Props.C123_slhd_refuted",
    "Verif.Props.C123_dycors_partial",
    "Verif.Props.C123_dycors_last_refuted",
    "Verif.Props.C123_dycors_refuted",
    "Verif.Props.C123_rbf",
    "Verif.Props.C123_gp"
   ],
   "note": "The run, with renumbered draws, is the renumbered run (C123_run_partial), and the renumbered draws are in their ranges if the renumbered design is possible (C123_draws; the forced column of DYCORS is not restricted there, see C123_dycors_*). Possible: for the Latin hypercube exactly (C123_lhd), for all designs up to the order of the points (C123_design_partial), for DYCORS with a positive perturbation probability (C123_dycors_partial). False otherwise: C123_slhd_refuted (rows sorted by the first variable), C123_dycors_last_refuted and C123_dycors_refuted (the last variable is never the forced one). Surrogates: C123_rbf (constant and linear tail), C123_gp (length scales renumbered)."
  },
  {
   "property": "C124",
   "status": "proved",
   "theorems": [
    "Verif.Props.C124_exactly",
    "Verif.Props.C124_sorted",
    "Verif.Props.C124_result",
    "Verif.Props.C124_lhd"
   ],
   "note": "pyDOE2.lhs and the random generators are modelled by their contract (see the trusted base)."
  },
  {
   "property": "C125",
   "status": "partial",
   "theorems": [
    "Verif.Props.C125_step",
    "Verif.Props.C125_any",
    "Verif.Props.C125_dycors_partial",
    "Verif.Props.C125_run",
    "Verif.Props.C125_dycors_run_partial",
    "Verif.Props.C125_limit",
    "Verif.Props.C125_dycors_refuted",
    "Verif.Props.C125_uniform",
    "Verif.Props.C125_sop_partial"
   ],
   "note": "SRBF: one call (C125_step, C125_any), whole runs (C125_run, C125_limit); the radius bounds come from C21. candidate_uniform: C125_uniform. DYCORS: one call around any feasible center, so also those of SOP, proved with a positive lower bound of the perturbation probability (C125_dycors_partial) and for whole runs with a budget of at least two adaptive evaluations before anything is lost or in flight twice (C125_dycors_run_partial); SOP: whole runs under the same conditions, synchronous or not (C125_sop_partial); false otherwise (C125_dycors_refuted: with one adaptive evaluation the probability is NaN and only one variable is changed). The draws are independent with the truncated normal and uniform laws; the column forced by DYCORS is chosen by the adversary."
  },
  {
   "property": "C126",
   "status": "partial",
   "theorems": [
    "Verif.Props.C126_some",
    "Verif.Props.C126_candidate",
    "Verif.Props.C126_chance_partial",
    "Verif.Props.C126_last_refuted",
    "Verif.Props.C126_expected"
   ],
   "note": "Selection of at least one variable (C126_some), the candidate (C126_candidate), the exact probabilities (C126_chance_partial) and the expected number (C126_expected) are proved. 'All equally often' is false: C126_last_refuted."
  },
  {
   "property": "C127",
   "status": "proved",
   "theorems": [
    "Verif.Props.C127_exact"
   ],
   "note": ""
  },
  {
   "property": "C128",
   "status": "proved",
   "theorems": [
    "Verif.Props.C128_random",
    "Verif.Props.C128_generations",
    "Verif.Props.C128_limit"
   ],
   "note": ""
  },
  {
   "property": "C129",
   "status": "proved",
   "theorems": [
    "Verif.Props.C129_one_outcome",
    "Verif.Props.C129_count",
    "Verif.Props.C129_uniform",
    "Verif.Props.C129_levels"
   ],
   "note": ""
  },
  {
   "property": "C130",
   "status": "proved",
   "theorems": [
    "Verif.Props.C130_apart",
    "Verif.Props.C130_bound",
    "Verif.Props.C130_never_terminates"
   ],
   "note": ""
  },
  {
   "property": "C131",
   "status": "partial",
   "theorems": [
    "Verif.Props.C131_evaluations_partial",
    "Verif.Props.C131_radius",
    "Verif.Props.C131_header_partial",
    "Verif.Props.C131_refuted"
   ],
   "note": "Numbering, points and values (C131_evaluations_partial), radius and headers (C131_radius) are proved for all runs; 'below the last header' in synchronous mode (C131_header_partial), false in asynchronous mode (C131_refuted (1)). Crashed evaluations are not recorded (C131_refuted (2)). The formatting of numbers is not modelled: the printed value has four significant digits."
  },
  {
   "property": "C132",
   "status": "partial",
   "theorems": [
    "Verif.Props.C132_srbf_partial",
    "Verif.Props.C132_dycors_partial",
    "Verif.Props.C132_run_partial",
    "Verif.Props.C132_new_partial",
    "Verif.Props.C132_batch_refuted",
    "Verif.Props.C132_discrete_refuted",
    "Verif.Props.C132_dycors_refuted"
   ],
   "note": "Proved for SRBF if at least one variable is continuous and for DYCORS if all are (C132_srbf_partial, C132_dycors_partial for one call, C132_run_partial and C132_new_partial for whole runs). False within a batch (C132_batch_refuted), for integer problems (C132_discrete_refuted) and for DYCORS on mixed problems (C132_dycors_refuted). Real numbers instead of floating point numbers: with floats the probability is tiny instead of zero."
  },
  {
   "property": "C133",
   "status": "partial",
   "theorems": [
    "Verif.Props.C133_sphere_partial",
    "Verif.Props.C133_sum_of_squares_partial",
    "Verif.Props.C133_zakharov_partial",
    "Verif.Props.C133_rastrigin_partial",
    "Verif.Props.C133_griewank_partial",
    "Verif.Props.C133_ackley_partial",
    "Verif.Props.C133_rosenbrock_partial",
    "Verif.Props.C133_exponential_partial",
    "Verif.Props.C133_goldstein_price_partial",
    "Verif.Props.C133_levy_partial",
    "Verif.Props.C133_levy_refuted",
    "Verif.Props.C133_perm_refuted",
    "Verif.Props.C133_rosenbrock_refuted",
    "Verif.Props.C133_camel_refuted",
    "Verif.Props.C133_branin_refuted",
    "Verif.Props.C133_weierstrass_refuted"
   ],
   "note": "Proved for Sphere, SumOfSquares, Zakharov, Rastrigin, Griewank, Ackley, Rosenbrock (two variables or more), Exponential, GoldsteinPrice and Levy in one variable. False for Levy from two variables on, Perm in two variables, Rosenbrock in one variable, SixHumpCamel, Branin and Weierstrass. Hartmann, Himmelblau and Schwefel state rounded minimizers and are left out; Michalewicz states none."
  },
  {
   "property": "C134",
   "status": "partial",
   "theorems": [
    "Verif.Props.C134_one_step_partial",
    "Verif.Props.C134_tradeoff",
    "Verif.Props.C134_refuted"
   ],
   "note": "Proved when the smallest known value (evaluations and values given with extra points) is among the values of the current run. C134_tradeoff: a smaller mean or a larger deviation, with the distance kept, is strictly preferred. False otherwise: C134_refuted has an extra point given with a better value."
  },
  {
   "property": "C135",
   "status": "partial",
   "theorems": [
    "Verif.Props.C135_iterations",
    "Verif.Props.C135_enough_partial",
    "Verif.Props.C135_refuted",
    "Verif.Props.C135_too_few",
    "Verif.Props.C135_lhd",
    "Verif.Props.C135_grid",
    "Verif.Props.C135_binary_refuted"
   ],
   "note": "SymmetricLatinHypercube, continuous variables, num_pts >= 2*dim: the probability of an error is q^iterations with q < 1 given explicitly, and tends to 0; it is never 0 (three or more variables, or equal bounds); num_pts < 2*(dim-1): always an error. LatinHypercube: almost surely valid from dim points on, almost surely affinely independent from dim + 1 on, always an error below dim. Integer variables: an error always if the box has fewer points than the design."
  },
  {
   "property": "C136",
   "status": "partial",
   "theorems": [
    "Verif.Props.C136_agrees_partial",
    "Verif.Props.C136_decrease",
    "Verif.Props.C136_refuted"
   ],
   "note": "Proved for every sequence of values none of which is within 2^-52*|best| + 2^-1074 of the level 0.1 % below the best value; halving and doubling of the radius and the convergence test are exact; whatever the values, a success is a strict decrease."
  },
  {
   "property": "C137",
   "status": "partial",
   "theorems": [
    "Verif.Props.C137_distance",
    "Verif.Props.C137_selection",
    "Verif.Props.C137_separated_partial",
    "Verif.Props.C137_refuted"
   ],
   "note": "Distances: (1-u)^(d+5)*D^2 - d*2^-1075 <= computed^2 <= (1+u)^(d+5)*(D^2 + d*2^-1075), u = 2^-53. Separation holds up to these factors (in terms of exact distances); the merit of the selected candidate, as a function of the computed distances, is smallest up to 34 u. The exact statement is false in double precision."
  },
  {
   "property": "C138",
   "status": "partial",
   "theorems": [
    "Verif.Props.C138_unbiased_partial",
    "Verif.Props.C138_exchangeable",
    "Verif.Props.C138_mirror",
    "Verif.Props.C138_refuted"
   ],
   "note": "Exchangeability and symmetry hold for every number of iterations (symmetry for d <= n); the uniform distribution is proved for one iteration (d <= n) and is false for every larger number of iterations (n = 2, d = 1)."
  },
  {
   "property": "C139",
   "status": "partial",
   "theorems": [
    "Verif.Props.C139_total",
    "Verif.Props.C139_batch",
    "Verif.Props.C139_one_partial",
    "Verif.Props.C139_refuted"
   ],
   "note": "Exact rule in every history: C139_batch and C139_total (a batch is one step if the evaluation that ends last is an adaptive one and gives a value, and no step otherwise). So the statement holds if no evaluation fails (C139_one_partial) and is false otherwise (C139_refuted)."
  },
  {
   "property": "C140",
   "status": "partial",
   "theorems": [
    "Verif.Props.C140_generations",
    "Verif.Props.C140_box_partial",
    "Verif.Props.C140_overshoot",
    "Verif.Props.C140_random",
    "Verif.Props.C140_elitist",
    "Verif.Props.C140_refuted",
    "Verif.Props.C140_generation"
   ],
   "note": "Everything created in a generation is in the box, for any arithmetic (C140_generations). The initial population is in the box if it is drawn uniformly (C140_random) or the widths ub - lb are doubles (C140_box_partial: integer bounds, boxes symmetric about zero, C92_widths), and above it by at most a rounding error otherwise (C140_overshoot); with the default start the returned point can be above the bound (C140_refuted). C140_generation: one generation computes the exact operators of C79 up to explicit rounding errors."
  },
  {
   "property": "C141",
   "status": "partial",
   "theorems": [
    "Verif.Props.C141_ei_partial",
    "Verif.Props.C141_lcb_partial",
    "Verif.Props.C141_distinct",
    "Verif.Props.C141_refuted"
   ],
   "note": "Exact for the computed distances and values; the exact distances hold up to rounding errors (C141_distinct: at least 0.99e-3 for the default dtol = 1e-3), the upper bounds if the variable is an integer or the width of its range is a double, otherwise up to a rounding error (C141_ei_partial, C141_lcb_partial). The full statement is false (C141_refuted: the initial population of the genetic algorithm is not projected). Deviations of zero: C99."
  },
  {
   "property": "C142",
   "status": "partial",
   "theorems": [
    "Verif.Props.C142_order_partial",
    "Verif.Props.C142_results_partial",
    "Verif.Props.C142_rbf_partial",
    "Verif.Props.C142_gp_partial",
    "Verif.Props.C142_ties_refuted"
   ],
   "note": "Proved with the surrogate object (RBF, Gaussian process) if the values of the evaluations are pairwise different whenever points are generated (C142_order_partial, C142_results_partial, C142_rbf_partial, C142_gp_partial). False otherwise: C142_ties_refuted. The random draws are indexed by the number of proposals made before."
  },
  {
   "property": "C143",
   "status": "partial",
   "theorems": [
    "Verif.Props.C143_history_partial",
    "Verif.Props.C143_result_partial",
    "Verif.Props.C143_plain_partial",
    "Verif.Props.C143_weight_partial",
    "Verif.Props.C143_after_partial",
    "Verif.Props.C143_weights_refuted",
    "Verif.Props.C143_batch_refuted"
   ],
   "note": "Proved for batch size 1 (or asynchronous mode) with one worker: EI and LCB (C143_plain_partial), SRBF and DYCORS with one weight (C143_weight_partial), all strategies as long as only snapshots of the initial phase are resumed (C143_history_partial, C143_result_partial), and all strategies if the strategy's callback runs before the one that saves (C143_after_partial). False for the default weights (C143_weights_refuted) and for larger batches (C143_batch_refuted). numpy's random state is not part of the snapshot; here the answers are a function of the finished evaluations. SOP is not covered."
  },
  {
   "property": "C144",
   "status": "partial",
   "theorems": [
    "Verif.Props.C144_rbf_orientation",
    "Verif.Props.C144_rbf_run_partial",
    "Verif.Props.C144_gp_orientation",
    "Verif.Props.C144_slhd_partial",
    "Verif.Props.C144_lhd_partial",
    "Verif.Props.C144_two_factorial_partial",
    "Verif.Props.C144_design_refuted",
    "Verif.Props.C144_run_partial",
    "Verif.Props.C144_rbf_partial",
    "Verif.Props.C144_orientation_partial",
    "Verif.Props.C144_draws_partial",
    "Verif.Props.C144_draws_orientation"
   ],
   "note": "Whole runs for given draws are converted without further assumptions (C144_run_partial, C144_rbf_partial, C144_orientation_partial, C144_rbf_run_partial, C144_gp_orientation). Missing: the converted draws are possible (C144_draws_partial, C144_draws_orientation) except that DYCORS never forces the last variable (C123_dycors_last_refuted) and that the mirrored or renumbered design is a possible design only up to the order of its points (C144_slhd_partial, C144_lhd_partial, C144_two_factorial_partial; C144_design_refuted). The default Gaussian process needs hyperparameters that follow the conversion."
  },
  {
   "property": "C145",
   "status": "partial",
   "theorems": [
    "Verif.Props.C145_run_partial",
    "Verif.Props.C145_rbf_partial",
    "Verif.Props.C145_gp_partial",
    "Verif.Props.C145_draws"
   ],
   "note": "Whole runs for given draws are converted without further assumptions (C145_run_partial, C145_rbf_partial, C145_gp_partial), the converted draws are possible (C145_draws). Missing: the mirrored design is a possible design only up to the order of its points (C144_slhd_partial, C144_lhd_partial, C144_two_factorial_partial; C144_design_refuted). Integer variables need at least two values (lb + 1 <= ub): the genetic algorithm moves an initial individual up by one before it moves it down. The default Gaussian process needs hyperparameters that follow the conversion."
  },
  {
   "property": "C146",
   "status": "partial",
   "theorems": [
    "Verif.Props.C146_sync_refuted",
    "Verif.Props.C146_async_refuted",
    "Verif.Props.C146_idle"
   ],
   "note": "Holds when nothing is in flight at the crash: the resumed state is the old one (C146_idle). Refuted otherwise: C146_sync_refuted (batch_size = ncenters: one evaluation in flight is enough) and C146_async_refuted (ncenters evaluations lost). Resumed asynchronous runs with fewer lost points go on: C56_async_partial."
  },
  {
   "property": "C147",
   "status": "partial",
   "theorems": [
    "Verif.Props.C147_dead_refuted",
    "Verif.Props.C147_design_refuted",
    "Verif.Props.C147_rbf_refuted",
    "Verif.Props.C147_enough_partial"
   ],
   "note": "Refuted (C147_design_refuted for every problem, method, objective and draws; C147_rbf_refuted for the default RBF interpolant; C147_dead_refuted for every state of that kind). C147_enough_partial: no exception if the surrogate can be evaluated with the points that were evaluated before the crash."
  }
 ]
}