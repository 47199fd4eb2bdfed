{
 "C05": "Two equal points in flight: `remove_pending` deletes all equal rows, so one of them disappears from `Xpend` (and is lost by `resume`, C17).",
 "C07": "A design point whose evaluation fails after the queue ran empty is proposed again as an *adaptive* point; if that fails too it is dropped.",
 "C09": "An evaluation that fails after the termination flag was set is not replaced: the run stops short of `max_evals`.",
 "C11": "With `use_restarts=False` a converged run answers `None` forever: the controller never terminates.",
 "C14": "Asynchronous SRBF/DYCORS: results in flight when the radius changes never reach the surrogate (`ev_last` is moved).",
 "C17": "Consequence of C05 for `resume`.",
 "C19": "If the controller's callback is registered before the strategy's, the saved snapshot is one evaluation behind.",
 "C20": "The termination flag is saved: a run that is resumed after its last evaluations were lost terminates at once, short of the budget.",
 "C21": "Evaluations accepted after convergence go on shrinking the radius below its minimum (controllers that leave proposals unanswered).",
 "C25": "The perturbation probability is NaN or infinite if the budget leaves one adaptive evaluation, and above 1 or NaN after lost or aborted design points.",
 "C27": "`candidate_dycors` indexes mask and columns by coordinate instead of position in `subset`: `IndexError` or wrong column for a proper subset.",
 "C29": "`np.random.randint(0, len(subset) - 1)` excludes the last coordinate: it is never the forced one.",
 "C35": "The validation of a user-supplied GA population is inverted.",
 "C39": "`check_opt_prob` accepts duplicate indices and `dim = 0`.",
 "C46": "Value arrays with several columns raise after the points have been stored; `X` and `fX` then differ in length.  Integer values raise `AttributeError`.",
 "C51": "Median capping is not idempotent for an even number of values.",
 "C53": "SOP takes the best point for one that is being processed when its tabu tenure is 2.",
 "C54": "SOP counts failures cumulatively, not in a row.",
 "C55": "After the first memory update `F_ranked` is rebuilt without ranks: centers are selected by value, not by Pareto rank.",
 "C56": "SOP raises or stalls: all centers exhausted, rejected or aborted proposals in synchronous mode, batch size below the number of centers, a lost evaluation in asynchronous mode.  Synchronous mode also raises, without any loss, whenever two points of a batch are equal, which happens on problems with integer variables (shown in the closed loop).",
 "C58": "Documented and computed formulas differ: Ackley, Rastrigin, Himmelblau, Exponential (index shift), Levy (first variable missing in the sum), Schwefel (constant).",
 "C60": "`RandomStrategy` ignores `int_var`.",
 "C61": "The test of `max_evals` uses `and` where `or` is needed: negative and too small integers are accepted.",
 "C64": "`save(\"dir/file\")` writes to `temp_dir/file`: fails unless that directory exists.",
 "C65": "Integer variables with fractional bounds are accepted and rounded to non-integers.",
 "C66": "A symmetric Latin hypercube with fewer than `2*dim` points always lies in a hyperplane, so the linear tail is not determined.",
 "C70": "Branin's stated minimizer violates the stated bounds.",
 "C73": "An extra point with value `inf` is treated as evaluated.",
 "C75": "`ncenters <= 3` is accepted.",
 "C76": "Extra points of known value, and with EI and equal values also evaluated points, may be proposed again.",
 "C78": "The linear kernel is conditionally *negative* definite, so the `+eta` on the diagonal has the wrong sign: for every eta in (0,1], the points 0 and eta make the system exactly singular.",
 "C84": "Asynchronous mode with more workers than design points to spare: the surrogate is asked before it has enough data (the RBF then raises); synchronous mode: a design point that fails twice is dropped and the surrogate is asked without it.",
 "C91": "The linear kernel is conditionally negative definite, so the Cholesky factorization of the Schur complement always fails (eta = 0, distinct points): every fit is silently computed from scratch, O(n^3) instead of the documented O(k n^2).",
 "C92": "`from_unit_box` computes `lb + (ub - lb) * x`, which at x = 1 may round to a value above `ub`, e.g. for lb = -5, ub = 1.7 (about one in ten boxes with one-decimal bounds). Only integer variables are clipped afterwards, and every symmetric Latin hypercube and the two-factorial design contain points with coordinate exactly 1: the initial design proposed to the workers violates the bounds by one unit in the last place. It cannot happen if ub - lb is a double (integer bounds, lb = 0, lb = -ub), hence not for the bundled problems.",
 "C93": "Asynchronous SOP raises ValueError (np.min of an empty array) when a worker becomes idle before two points at different places have been evaluated, e.g. with more workers than initial points; the first generation succeeds exactly if two such evaluations have completed. The exception ends the controller's run.",
 "C94": "If the linear system is singular (e.g. a prediction is asked for while all points lie on a hyperplane), `_fit` has already stored the singular factors and the half-solved coefficients `c` when `solve_triangular` raises. From then on `_fit` tries to extend that factorization, so every later prediction raises, whatever points are added, until `reset` is called. Likewise an output transformation that raises once during an extension leaves factors and coefficients of different sizes, and every later prediction raises.",
 "C48": "After a prediction that raised because the system was singular (C94), adding points that make it nonsingular does not help: incremental fitting still raises where a fit from scratch succeeds.",
 "C95": "If only one of `kernel` and `tail` is passed it is silently ignored: `RBFInterpolant(kernel=LinearKernel())` is the cubic interpolant with linear tail, and `tail=ConstantTail(dim)` alone (even of a wrong dimension) has no effect.",
 "C96": "Without an output transformation (the default) a single `inf` or NaN value makes every later `predict` raise `ValueError` until `reset`. With `median_capping` this happens as soon as half of the values are `inf`, or one is NaN or `-inf`.",
 "C97": "`isinstance(self.weights, np.array)` raises `TypeError` (np.array is a function), so weights given as an array are always refused; an empty list is accepted and the first adaptive request raises `IndexError`. Synchronous batch sizes: SRBF/DYCORS accept floats, inf and negative integers (the first adaptive batch then raises; 0 is a `ZeroDivisionError`), EI/LCB accept everything but `None`; with `batch_size=0` they stop proposing after the design without terminating.",
 "C98": "`adjust_step`: while no finite value has been seen, inf counts as an improvement, so a run in which all adaptive evaluations return inf never converges (no restart). If the first adaptive value is NaN it becomes `_fbest` and every later value is a failure until the run is declared converged. `min` of a batch that starts with NaN is NaN, so improvements in the same batch are ignored (order-dependent). `-inf` as best value is replaced by any later value.",
 "C99": "`ei_merit` divides by the predicted deviation; where it is 0 the result is NaN (not the improvement `max(fbest - mu, 0)`), `np.argmin` in the genetic algorithm prefers NaN to every number, and the test `ei_max < ei_tol` is false for NaN: a point with deviation 0 is proposed in preference to all others and EI never gives up, even where no improvement is possible.",
 "C100": "Adding a constant to the objective changes runs of SRBF and DYCORS: `adjust_step` counts an improvement only if it is at least 0.1 % of `|fbest|`, so that a run far from 0 is declared converged while the same run shifted to values near 0 goes on. The Gaussian process floors the standard deviation of the values at 1e-6: in units in which the values vary less than that, its predicted deviation is too large by an arbitrary factor.",
 "C101": "SRBF and DYCORS keep new points `1e-3` apart whatever the units: `self.dtol = 1e-3*sqrt(dim)` is set in the constructor but never passed on, and the default `dtol=1e-3` of the candidate functions is absolute. On a domain with diameter below 1e-3 every candidate gets merit `inf`, so that the surrogate is ignored, the first random candidate is taken, and all points of a batch are the same. Distances are measured in the variables as given, so that the unit of a single variable also changes the choice.",
 "C102": "`_expdes_dist` tests the rank of the points themselves, not of their differences (no constant column), so that validity depends on where the origin lies: on a domain symmetric about 0 (Sphere, Levy, Rastrigin, Rosenbrock, Griewank, ... of the library) a symmetric Latin hypercube with fewer than 2*dim points, for instance dim+1, always raises `ValueError: No valid design found`, while the same design is accepted on the shifted domain (where it is just as degenerate, C66).",
 "C103": "`CheckpointController.resume` replaces `controller.fevals` by `strategy.fevals`, which holds only the records of evaluations made by the strategy: extra points with known values that the user appended to `controller.fevals` (examples/example_extra_vals.py) are forgotten, so a resumed run can return a record that is worse than a known point. In addition the evaluation whose completion triggers the checkpoint is not in it (C19): if the process dies then, the best evaluation ever made may be missing in the result.",
 "C105": "The strategy keeps a copy of a proposed point only in `Xpend`; the array that is handed to the objective function is the one that is read again on completion. If the objective function works in place (x *= 2), `X` and the surrogate get the modified point with the value of the original one, the original stays in `Xpend` for ever (later candidates avoid it), and a resume in the initial phase evaluates it again. `make_proposal` should hand out `np.copy(x)` and read the stored copy.",
 "C106": "`progress_plot` imports matplotlib in a `try ... finally` without `except`: without matplotlib the ImportError is raised again after the `finally` block, the message \"Failed to import\" can never be printed. Called before the first completed evaluation it raises ValueError (`np.min` of an empty array).",
 "C107": "`PolyRegressor` uses `Ridge()` with its default penalty alpha = 1: the data are reproduced only if all values are equal; even values of a linear function are not (C107_refuted). `LinearRegression` or a small alpha would be needed for \"polynomial regression\" in the usual sense.",
 "C108": "`MARSInterpolant.predict_deriv` takes only the first entry of the array returned by py-earth (`dfx[0]`, an array dim x 1) and divides it by the vector `ub - lb`; broadcasting gives a dim x dim array, whatever the number of points. Only its diagonal is meaningful (the gradient at the first point); the other points are ignored. The correct expression is `dfx[:, :, 0] / (ub - lb)`.",
 "C110": "`GPRegressor._fit` divides by `max([np.std(fX), 1e-6])`: an objective whose values vary by less than about 1e-6 (for example because it is measured in large units) is treated as nearly constant. The predicted deviation is never below 1e-9, whatever the scale of the objective, so that expected improvement sees large uncertainty at points that have been evaluated. A relative threshold, or 1 if the deviation is 0, would avoid this.",
 "C111": "A serial run of SOP raises an exception after the initial points if these all lie at the same place of the box (C111_refuted: for every objective, budget and random outcome), e.g. for a design of one point or one that is rounded to a single integer point; see C93. In synchronous mode a batch with equal points also ends the run (C56_duplicates_refuted).",
 "C114": "ei_ga and lcb_ga return None if the search for any point of the batch fails, and discard the points found before it: in synchronous mode EIStrategy and LCBStrategy declare convergence although points of sufficient expected improvement were found (C114_refuted). On an integer problem with fewer than batch_size unevaluated points left this happens for every draw, so the last points are never evaluated.",
 "C116": "SOP calls candidate_dycors once per center with the same evaluated and pending points, so the points of one batch are not kept apart: a batch may consist of copies of one point although each search has candidates far from it (C116_batch_refuted). The attribute dtol computed in the constructor is never used (the absolute default 1e-3 is).",
 "C117": "The documentation asks for batch_size <= ncenters in synchronous mode and check_input tests just that, but with batch_size < ncenters every serial run raises before its first batch is completed: adjust_memory goes through all ncenters centers and compares F_ranked[new_index, dim + 3] with 1, also for centers without a new point (new_index = None selects a whole row as a 2-d array, whose truth value raises, or an index out of range) (C117_fewer_refuted). Also zero, negative, NaN and small fractional numbers of centers are accepted and fail at the first adaptive point (C117_centers_refuted).",
 "C119": "SymmetricLatinHypercube(dim, n) with dim + 1 <= n < 2*dim points is accepted together with the default RBFInterpolant, but then every run raises LinAlgError after the initial evaluations, when the first adaptive point is sought (C119_slhd_refuted).",
 "C120": "Synchronous SOP on a problem with integer variables only and fewer feasible points than ncenters (for example two binary variables and five centers): every run raises when the first batch is completed, since the batch must contain a point twice and both results are attributed to the same center (C120_few_points_refuted).",
 "C121": "A DYCORS run with a larger max_evals is a different run from its second adaptive proposal on: prob_perturb depends on max_evals, so the same random numbers give other points (C121_dycors_refuted, every problem with at least two variables). Runs can therefore not be extended by raising the budget.",
 "C122": "With ties of the best value a synchronous SRBF run is not reproducible with several workers, even with fixed random numbers: np.argmin takes the evaluation that was completed first, so the order in which the workers finish decides where the next candidates are drawn (C122_ties_refuted).",
 "C123": "The numbering of the variables matters in two places: the symmetric Latin hypercube returns its points sorted by the first variable (C123_slhd_refuted), which is the order in which they are evaluated; and candidate_dycors draws the column that is perturbed when none was selected with randint(0, dim - 1), so never the last one: with perturbation probability 0 or NaN (which happens, C25_refuted) the last variable is never changed (C123_dycors_last_refuted).",
 "C125": "DYCORS is not always global: when its perturbation probability is NaN or zero (e.g. with a budget of num_pts + 1, C25), every candidate differs from the best point in one variable only, so that most of the domain has probability zero of being sampled next (C125_dycors_refuted).",
 "C126": "DYCORS changes the last variable less often than the others: when no variable has been selected, the one to be changed is drawn by np.random.randint(0, num_subset - 1), which excludes the last one. So the last variable is changed with probability p, the others with p + (1-p)^dim/(dim-1) (C126_last_refuted); with p close to 0 (end of a run) the last variable is hardly ever changed.",
 "C131": "docs/logging.rst says that crashed evaluations are recorded on the warning level, but no strategy ever logs a failed evaluation (random search logs nothing at all). In asynchronous mode an evaluation of the previous run that finishes after a restart is printed below the new header without any mark (C131_refuted).",
 "C132": "If all candidates are closer than dtol to an evaluated point, all merits are inf and np.argmin selects candidate 0 for every weight: the batch consists of copies of one point, with positive probability for every problem (C132_batch_refuted). DYCORS on mixed-integer problems re-evaluates the best point with positive probability, because a perturbation of an integer variable alone can be rounded back (C132_dycors_refuted).",
 "C133": "Several bundled problems have further global minimizers than the stated one: Levy from two variables on (because w[1:d-1] leaves out the first variable; the documented function has one), Perm (at (11/23, 45/46) in two variables), Weierstrass (every integer point), SixHumpCamel; Rosenbrock accepts dim = 1 where it is constant.",
 "C134": "EIStrategy takes the best value of self._fX, which leaves out the values given with extra points (and those from before a restart). The proposed point then does not have the smallest expected best value: in the counterexample a point with expected improvement over an irrelevant level is preferred.",
 "C135": "docs/options.rst: 'Use 2*dim + 1 to make sure the design has full rank' does not hold: all iterations may generate the diagonal design, with positive probability for every number of points and iterations, and then ValueError is raised; with two binary variables it is raised always.",
 "C136": "The test for a significant improvement is affected by rounding: after the best value 3 the value 2.99699999999999988631 (more than 0.1 % better) is counted as a failure.",
 "C137": "In double precision a candidate closer than dtol to an evaluated point may be selected although another one is far enough (distance 1 - 2^-55, rounded to 1; dtol = 1): the minimum distance holds only up to rounding.",
 "C138": "With more than one iteration (the default is 1000) LatinHypercube keeps the design with the largest minimum distance, and its points are no longer uniformly distributed: for two points in one dimension the expected distance to the centre is larger than the mean over the box, for every number of iterations >= 2.",
 "C139": "Synchronous SRBF/DYCORS: if the evaluation of a batch that ends last fails, the batch is no step of the step control (on_adapt_aborted does not call adjust_step) and its values are merged with those of the next batch. With batches of two of which the slower evaluation always fails, the radius never changes and the run never converges, for any number of batches and any values.",
 "C140": "GeneticAlgorithm does not project its initial population to the box and keeps the best individual as it is. With the default start \"SLHD\", the box [-5, 1.7]^d and an objective decreasing in the first variable, every run returns a point above the upper bound (1.7000000000000002), whatever is drawn and however many generations are made. ei_ga and lcb_ga propose such points for evaluation.",
 "C141": "lcb_ga (and so LCBStrategy) can propose a point outside the box: with the box [-5, 1.7] and a surrogate that decreases linearly every run returns 1.7000000000000002, because the initial population of the genetic algorithm is not projected to the box (C140).",
 "C142": "With equal objective values a synchronous SOP run is not reproducible with several workers, even with fixed random numbers: np.argmin and np.lexsort break ties by the position in the archive, so the order in which the workers finish decides which center is chosen (C142_ties_refuted).",
 "C143": "Resuming is not transparent for SRBF and DYCORS: the snapshot is written before the strategy has handled the completed evaluation, resume drops that point but not the step in the list of weights, so a serial resumed run uses other weights and evaluates other points than the uninterrupted one (C143_weights_refuted). With batches the dropped point is never evaluated again (C143_batch_refuted).",
 "C144": "The initial design is sorted by its first variable (symmetric Latin hypercube, two-factorial design), so with synchronous evaluations or a small budget the order in which the design is evaluated depends on the numbering and on the orientation of the variables (C144_design_refuted; C123_slhd_refuted).",
 "C146": "SOP: resume() clears the pending points but not the centers that wait for them. A center whose evaluation was lost in the crash stays busy for ever. In a synchronous run with batch_size = ncenters a crash while at least one evaluation of an adaptive batch runs makes the checkpoint useless: after the rest of the queue is evaluated, propose_action raises IndexError at the next generation, no new point is ever generated and the run never ends. In an asynchronous run the same happens once ncenters evaluations are lost, for instance when ncenters workers are busy at the crash.",
 "C147": "propose_action sets phase = 2 as soon as it finds the queue of the initial design empty, while the last design points may still be running; resume() puts pending points back only in phase 1. If the manager is killed then, these design points are lost. When at most dim points were evaluated (as many workers as initial points, say) the RBF interpolant cannot be fitted and every resumed run raises at its first call of propose_action: the checkpoint is useless."
}