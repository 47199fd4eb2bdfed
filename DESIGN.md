# Formal model of pySOT in Lean 4 — design

The model lives in `lean/Verif/`.  Model files contain the definitions, each with the file and lines of /repo it
mirrors; specification definitions (`namespace Verif.Spec`, files `*/Spec.lean`) are small and do not use model helpers;
property theorems `Cnn_*` are in `lean/Verif/Props/*.lean`, next to `example`s which show that their hypotheses are met
by concrete runs.  Everything else is helper lemmas.

## 1. Modelling conventions

* **Numbers.** Python floats are exact numbers: `ℚ` where the model must be computable (bookkeeping of the strategies),
  `ℝ` elsewhere.  IEEE rounding is modelled only in `Float/*.lean` (C92, C136, C137, C140, C141); overflow is not modelled.  `inf` and NaN are modelled explicitly where the code
  creates or tests them (merit of the candidates `Fl`, perturbation probability `NF`, validation `PyFloat`, ranks
  `WithTop`, `fbest = inf` as `none`).
* **Randomness.** Every draw is an argument, constrained only by the documented range of the distribution; the theorems
  quantify over all draws.  Only C125-C129, C132, C134, C135 and C138 use distributions: the draws of `candidate_srbf`, `candidate_dycors`,
  `candidate_uniform`, random search and the mutations of the genetic algorithm are independent and have the truncated normal,
  uniform and normal laws (`Loop/Chance.lean`); C129, C135 and C138 also give the shuffles, coins and jitters of the designs their uniform laws, C134 the objective at a point the normal law predicted by the Gaussian process; all other draws are chosen by an adversary (`Loop/Play.lean`, `Loop/SopPlay.lean`, `Loop/GAPlay.lean`).
* **Exceptions** are values (`Option`, or a Boolean next to the state where the code leaves a partial update behind).
* **NumPy arrays** are lists or functions on `Fin n`.
* **Schedules and crashes.** The strategies are transition systems: `Op` (propose, accept, reject, complete, abort, update
  of an arbitrary outstanding proposal or record) plus crash/resume at any point; `Reach` is the set of all states of all
  finite histories.  A ghost log records what the environment can observe, and properties are stated as functions of it.
* **POAP** (the controller framework, not in /repo) is modelled by its documented contract (docs/poap.rst): a proposal is
  accepted or rejected at most once; an accepted one owns a record; a record finishes at most once (completed / killed /
  cancelled); callbacks run one at a time, in the order in which they were added.

* **Citations.** Every definition of the files in the table below cites the lines it models (`ss.py` is
  surrogate_strategy.py, `sop.py` is sop_strategy.py, `srbf.py` is srbf_strategy.py, in `Cand` candidate_srbf.py).  Definitions without a citation model no code: they
  are specifications (`*Spec.lean`, `Props/*`), invariants and proof notions (`Inv*.lean`, `*Proofs.lean`, ...),
  conversions between units (`Units/*`) or concrete examples.

## 2. Modelled code

| module of /repo/pySOT | model | what is modelled |
|---|---|---|
| strategy/surrogate_strategy.py | `Strategy/Model.lean` | constructor, `sample_initial`, `sample_restart`, `propose_action` and all branches, all eight callbacks, `resume`, `check_termination`; `save` in `Checkpoint/Model.lean`, `check_input` in `Validate/Model.lean` |
| strategy/srbf_strategy.py, dycors_strategy.py | `Strategy/Model.lean`, `Strategy/Perturb.lean`, `Strategy/StepPF.lean`, `Validate/Args.lean` | step control (also with inf and NaN), weights, record queue, perturbation probability, constructor arguments |
| strategy/ei_strategy.py, lcb_strategy.py | `Strategy/Model.lean`, `Loop/Model.lean` | tolerances, giving up, convergence |
| strategy/sop_strategy.py | `Sop/Model.lean` | whole class: records, centers, ranks, tabu list, memory update |
| strategy/random_strategy.py | `Random/Model.lean` | whole class (POAP's `RetryStrategy` by contract) |
| controller/controller.py | `Checkpoint/Model.lean`, `Checkpoint/Result.lean` | `run`, `resume`, `on_update`, `on_terminate`, over a file system with crashes; the returned record |
| auxiliary_problems/candidate_*.py | `Cand/Candidates.lean` | all three generators and `weighted_distance_merit` |
| auxiliary_problems/{ei,lcb}_{merit,ga}.py | `Cand/Acq.lean`, `Cand/EINaN.lean` | whole functions; EI also with predicted deviation zero |
| utils.py | `Utils/*.lean` | unit box maps, `unit_rescale`, `round_vars`, `check_opt_prob`, `GeneticAlgorithm`, `domination`, `nd_add`, `nd_front`, `nd_sorting`, `check_radius_rule` |
| experimental_design/*.py | `Design/Model.lean` | SLHD, LHD (pyDOE2 by contract), two-factorial, selection of the best design |
| surrogate/surrogate.py, rbf.py, kernels, tails, output_transformations | `Surrogate/*.lean` | `add_points`, `reset`, `_fit` (first fit, incremental fit, fall-back), `predict`, `predict_deriv`, all kernels and tails, median capping (also of values that are not finite, `Surrogate/NonFinite.lean`), the constructor (`Surrogate/Create.lean`) |
| surrogate/{gp,poly,mars}.py | `Surrogate/Generic.lean`, `Surrogate/GP.lean`, `Surrogate/Poly.lean`, `Surrogate/Mars.lean` | caching and refitting; standardization of the GP; the external regressors are arbitrary functions, except for the posterior of the default GP (C109, C110) and ridge regression on monomials (C107); `predict_deriv` of MARS (C108) |
| utils.progress_plot | `Checkpoint/Plot.lean` | what is plotted, and the exceptions |
| utils.py, experimental_design/*.py, truncated normal draws, step control of srbf_strategy.py, weighted_distance_merit, GeneticAlgorithm, in double precision | `Float/*.lean` | unit box maps, `unit_rescale`, design mapping, `adjust_step`, the whole selection of candidates, the genetic algorithm, `ei_ga` and `lcb_ga` |
| optimization_problems/*.py | `Problems/Model.lean` | all 19 problems: attributes and `eval` |
| strategy + design + auxiliary problem together | `Loop/Model.lean` | closed loop: the oracles of the strategy model are the modelled functions |
| the same as a function of objective, surrogate, draws and schedule | `Loop/Run.lean`, `Units/*` | two runs with the same draws can be compared |

**Not modelled:** labels and window of utils.progress_plot, the formatting of log lines, `SOPStrategy.record_queue` and the other attributes that are
written and never read, `__init__` argument plumbing of surrogates other than `RBFInterpolant`, thread scheduling inside POAP (its callbacks
are serialized), performance, memory, IEEE rounding outside `Float/*.lean` (so: no claim about conditioning or about ties created by rounding).

## 3. Trusted base

* Lean 4.33.0 kernel.  Axioms: every property theorem depends on at most `propext`, `Classical.choice`, `Quot.sound`
  (`#print axioms`; no axioms of our own, no compiled evaluation).
* The Mathlib definitions that occur in statements (ℚ, ℝ, `Real.exp`, `Real.cos`, matrices and rank, derivatives, Gaussian
  measures, integrals).
* Faithfulness of the definitions to the Python source, read by hand and cited line by line.
* Contracts of external libraries: POAP (section 1); `scipy.linalg.lu_factor`, `cholesky` (`LuSpec`, `CholSpec`, `CholComplete`,
  proved satisfiable in `Surrogate/Exist.lean` and `Surrogate/Extend.lean`); `solve_triangular` is modelled by substitution; `scipy.stats.truncnorm` (range of
  draws), `norm.cdf/pdf`; `numpy.argmin` (first minimal index, NaN first), `lexsort` (stable), `median`, `round` (half to
  even), `matrix_rank` (exact rank); `scipy.spatial.distance.cdist` (squares of differences added in the order of the coordinates, square root; each operation rounded, C137); `pyDOE2.lhs`; scikit-learn's `GaussianProcessRegressor` (C109, C110: posterior mean and variance as formulas, hyperparameters within the bounds), `PolynomialFeatures` and `Ridge` (`RidgeSpec`, proved satisfiable); py-earth's `predict_deriv` (shape and meaning); `os.rename` (atomic), `open`, `dill.dump` (writes a prefix if it fails).
* `/verif/tools/*.py` only generate the manifest and this file; they are not trusted for any proof.

## 4. Findings (statements that are false of the code, each with a machine-checked counterexample)

* **C05** Two equal points in flight: `remove_pending` deletes all equal rows, so one of them disappears from `Xpend` (and is lost by `resume`, C17).
* **C07** A design point whose evaluation fails after the queue ran empty is proposed again as an *adaptive* point; if that fails too it is dropped.
* **C09** An evaluation that fails after the termination flag was set is not replaced: the run stops short of `max_evals`.
* **C100** Adding a constant to the objective changes runs of SRBF and DYCORS: `adjust_step` counts an improvement only if it is at least 0.1 % of `|fbest|`, so that a run far from 0 is declared converged while the same run shifted to values near 0 goes on. The Gaussian process floors the standard deviation of the values at 1e-6: in units in which the values vary less than that, its predicted deviation is too large by an arbitrary factor.
* **C101** SRBF and DYCORS keep new points `1e-3` apart whatever the units: `self.dtol = 1e-3*sqrt(dim)` is set in the constructor but never passed on, and the default `dtol=1e-3` of the candidate functions is absolute. On a domain with diameter below 1e-3 every candidate gets merit `inf`, so that the surrogate is ignored, the first random candidate is taken, and all points of a batch are the same. Distances are measured in the variables as given, so that the unit of a single variable also changes the choice.
* **C102** `_expdes_dist` tests the rank of the points themselves, not of their differences (no constant column), so that validity depends on where the origin lies: on a domain symmetric about 0 (Sphere, Levy, Rastrigin, Rosenbrock, Griewank, ... of the library) a symmetric Latin hypercube with fewer than 2*dim points, for instance dim+1, always raises `ValueError: No valid design found`, while the same design is accepted on the shifted domain (where it is just as degenerate, C66).
* **C103** `CheckpointController.resume` replaces `controller.fevals` by `strategy.fevals`, which holds only the records of evaluations made by the strategy: extra points with known values that the user appended to `controller.fevals` (examples/example_extra_vals.py) are forgotten, so a resumed run can return a record that is worse than a known point. In addition the evaluation whose completion triggers the checkpoint is not in it (C19): if the process dies then, the best evaluation ever made may be missing in the result.
* **C105** The strategy keeps a copy of a proposed point only in `Xpend`; the array that is handed to the objective function is the one that is read again on completion. If the objective function works in place (x *= 2), `X` and the surrogate get the modified point with the value of the original one, the original stays in `Xpend` for ever (later candidates avoid it), and a resume in the initial phase evaluates it again. `make_proposal` should hand out `np.copy(x)` and read the stored copy.
* **C106** `progress_plot` imports matplotlib in a `try ... finally` without `except`: without matplotlib the ImportError is raised again after the `finally` block, the message "Failed to import" can never be printed. Called before the first completed evaluation it raises ValueError (`np.min` of an empty array).
* **C107** `PolyRegressor` uses `Ridge()` with its default penalty alpha = 1: the data are reproduced only if all values are equal; even values of a linear function are not (C107_refuted). `LinearRegression` or a small alpha would be needed for "polynomial regression" in the usual sense.
* **C108** `MARSInterpolant.predict_deriv` takes only the first entry of the array returned by py-earth (`dfx[0]`, an array dim x 1) and divides it by the vector `ub - lb`; broadcasting gives a dim x dim array, whatever the number of points. Only its diagonal is meaningful (the gradient at the first point); the other points are ignored. The correct expression is `dfx[:, :, 0] / (ub - lb)`.
* **C11** With `use_restarts=False` a converged run answers `None` forever: the controller never terminates.
* **C110** `GPRegressor._fit` divides by `max([np.std(fX), 1e-6])`: an objective whose values vary by less than about 1e-6 (for example because it is measured in large units) is treated as nearly constant. The predicted deviation is never below 1e-9, whatever the scale of the objective, so that expected improvement sees large uncertainty at points that have been evaluated. A relative threshold, or 1 if the deviation is 0, would avoid this.
* **C111** A serial run of SOP raises an exception after the initial points if these all lie at the same place of the box (C111_refuted: for every objective, budget and random outcome), e.g. for a design of one point or one that is rounded to a single integer point; see C93. In synchronous mode a batch with equal points also ends the run (C56_duplicates_refuted).
* **C114** ei_ga and lcb_ga return None if the search for any point of the batch fails, and discard the points found before it: in synchronous mode EIStrategy and LCBStrategy declare convergence although points of sufficient expected improvement were found (C114_refuted). On an integer problem with fewer than batch_size unevaluated points left this happens for every draw, so the last points are never evaluated.
* **C116** SOP calls candidate_dycors once per center with the same evaluated and pending points, so the points of one batch are not kept apart: a batch may consist of copies of one point although each search has candidates far from it (C116_batch_refuted). The attribute dtol computed in the constructor is never used (the absolute default 1e-3 is).
* **C117** The documentation asks for batch_size <= ncenters in synchronous mode and check_input tests just that, but with batch_size < ncenters every serial run raises before its first batch is completed: adjust_memory goes through all ncenters centers and compares F_ranked[new_index, dim + 3] with 1, also for centers without a new point (new_index = None selects a whole row as a 2-d array, whose truth value raises, or an index out of range) (C117_fewer_refuted). Also zero, negative, NaN and small fractional numbers of centers are accepted and fail at the first adaptive point (C117_centers_refuted).
* **C119** SymmetricLatinHypercube(dim, n) with dim + 1 <= n < 2*dim points is accepted together with the default RBFInterpolant, but then every run raises LinAlgError after the initial evaluations, when the first adaptive point is sought (C119_slhd_refuted).
* **C120** Synchronous SOP on a problem with integer variables only and fewer feasible points than ncenters (for example two binary variables and five centers): every run raises when the first batch is completed, since the batch must contain a point twice and both results are attributed to the same center (C120_few_points_refuted).
* **C121** A DYCORS run with a larger max_evals is a different run from its second adaptive proposal on: prob_perturb depends on max_evals, so the same random numbers give other points (C121_dycors_refuted, every problem with at least two variables). Runs can therefore not be extended by raising the budget.
* **C122** With ties of the best value a synchronous SRBF run is not reproducible with several workers, even with fixed random numbers: np.argmin takes the evaluation that was completed first, so the order in which the workers finish decides where the next candidates are drawn (C122_ties_refuted).
* **C123** The numbering of the variables matters in two places: the symmetric Latin hypercube returns its points sorted by the first variable (C123_slhd_refuted), which is the order in which they are evaluated; and candidate_dycors draws the column that is perturbed when none was selected with randint(0, dim - 1), so never the last one: with perturbation probability 0 or NaN (which happens, C25_refuted) the last variable is never changed (C123_dycors_last_refuted).
* **C125** DYCORS is not always global: when its perturbation probability is NaN or zero (e.g. with a budget of num_pts + 1, C25), every candidate differs from the best point in one variable only, so that most of the domain has probability zero of being sampled next (C125_dycors_refuted).
* **C126** DYCORS changes the last variable less often than the others: when no variable has been selected, the one to be changed is drawn by np.random.randint(0, num_subset - 1), which excludes the last one. So the last variable is changed with probability p, the others with p + (1-p)^dim/(dim-1) (C126_last_refuted); with p close to 0 (end of a run) the last variable is hardly ever changed.
* **C131** docs/logging.rst says that crashed evaluations are recorded on the warning level, but no strategy ever logs a failed evaluation (random search logs nothing at all). In asynchronous mode an evaluation of the previous run that finishes after a restart is printed below the new header without any mark (C131_refuted).
* **C132** If all candidates are closer than dtol to an evaluated point, all merits are inf and np.argmin selects candidate 0 for every weight: the batch consists of copies of one point, with positive probability for every problem (C132_batch_refuted). DYCORS on mixed-integer problems re-evaluates the best point with positive probability, because a perturbation of an integer variable alone can be rounded back (C132_dycors_refuted).
* **C133** Several bundled problems have further global minimizers than the stated one: Levy from two variables on (because w[1:d-1] leaves out the first variable; the documented function has one), Perm (at (11/23, 45/46) in two variables), Weierstrass (every integer point), SixHumpCamel; Rosenbrock accepts dim = 1 where it is constant.
* **C134** EIStrategy takes the best value of self._fX, which leaves out the values given with extra points (and those from before a restart). The proposed point then does not have the smallest expected best value: in the counterexample a point with expected improvement over an irrelevant level is preferred.
* **C135** docs/options.rst: 'Use 2*dim + 1 to make sure the design has full rank' does not hold: all iterations may generate the diagonal design, with positive probability for every number of points and iterations, and then ValueError is raised; with two binary variables it is raised always.
* **C136** The test for a significant improvement is affected by rounding: after the best value 3 the value 2.99699999999999988631 (more than 0.1 % better) is counted as a failure.
* **C137** In double precision a candidate closer than dtol to an evaluated point may be selected although another one is far enough (distance 1 - 2^-55, rounded to 1; dtol = 1): the minimum distance holds only up to rounding.
* **C138** With more than one iteration (the default is 1000) LatinHypercube keeps the design with the largest minimum distance, and its points are no longer uniformly distributed: for two points in one dimension the expected distance to the centre is larger than the mean over the box, for every number of iterations >= 2.
* **C139** Synchronous SRBF/DYCORS: if the evaluation of a batch that ends last fails, the batch is no step of the step control (on_adapt_aborted does not call adjust_step) and its values are merged with those of the next batch. With batches of two of which the slower evaluation always fails, the radius never changes and the run never converges, for any number of batches and any values.
* **C14** Asynchronous SRBF/DYCORS: results in flight when the radius changes never reach the surrogate (`ev_last` is moved).
* **C140** GeneticAlgorithm does not project its initial population to the box and keeps the best individual as it is. With the default start "SLHD", the box [-5, 1.7]^d and an objective decreasing in the first variable, every run returns a point above the upper bound (1.7000000000000002), whatever is drawn and however many generations are made. ei_ga and lcb_ga propose such points for evaluation.
* **C141** lcb_ga (and so LCBStrategy) can propose a point outside the box: with the box [-5, 1.7] and a surrogate that decreases linearly every run returns 1.7000000000000002, because the initial population of the genetic algorithm is not projected to the box (C140).
* **C142** With equal objective values a synchronous SOP run is not reproducible with several workers, even with fixed random numbers: np.argmin and np.lexsort break ties by the position in the archive, so the order in which the workers finish decides which center is chosen (C142_ties_refuted).
* **C143** Resuming is not transparent for SRBF and DYCORS: the snapshot is written before the strategy has handled the completed evaluation, resume drops that point but not the step in the list of weights, so a serial resumed run uses other weights and evaluates other points than the uninterrupted one (C143_weights_refuted). With batches the dropped point is never evaluated again (C143_batch_refuted).
* **C144** The initial design is sorted by its first variable (symmetric Latin hypercube, two-factorial design), so with synchronous evaluations or a small budget the order in which the design is evaluated depends on the numbering and on the orientation of the variables (C144_design_refuted; C123_slhd_refuted).
* **C146** SOP: resume() clears the pending points but not the centers that wait for them. A center whose evaluation was lost in the crash stays busy for ever. In a synchronous run with batch_size = ncenters a crash while at least one evaluation of an adaptive batch runs makes the checkpoint useless: after the rest of the queue is evaluated, propose_action raises IndexError at the next generation, no new point is ever generated and the run never ends. In an asynchronous run the same happens once ncenters evaluations are lost, for instance when ncenters workers are busy at the crash.
* **C147** propose_action sets phase = 2 as soon as it finds the queue of the initial design empty, while the last design points may still be running; resume() puts pending points back only in phase 1. If the manager is killed then, these design points are lost. When at most dim points were evaluated (as many workers as initial points, say) the RBF interpolant cannot be fitted and every resumed run raises at its first call of propose_action: the checkpoint is useless.
* **C17** Consequence of C05 for `resume`.
* **C19** If the controller's callback is registered before the strategy's, the saved snapshot is one evaluation behind.
* **C20** The termination flag is saved: a run that is resumed after its last evaluations were lost terminates at once, short of the budget.
* **C21** Evaluations accepted after convergence go on shrinking the radius below its minimum (controllers that leave proposals unanswered).
* **C25** The perturbation probability is NaN or infinite if the budget leaves one adaptive evaluation, and above 1 or NaN after lost or aborted design points.
* **C27** `candidate_dycors` indexes mask and columns by coordinate instead of position in `subset`: `IndexError` or wrong column for a proper subset.
* **C29** `np.random.randint(0, len(subset) - 1)` excludes the last coordinate: it is never the forced one.
* **C35** The validation of a user-supplied GA population is inverted.
* **C39** `check_opt_prob` accepts duplicate indices and `dim = 0`.
* **C46** Value arrays with several columns raise after the points have been stored; `X` and `fX` then differ in length.  Integer values raise `AttributeError`.
* **C48** After a prediction that raised because the system was singular (C94), adding points that make it nonsingular does not help: incremental fitting still raises where a fit from scratch succeeds.
* **C51** Median capping is not idempotent for an even number of values.
* **C53** SOP takes the best point for one that is being processed when its tabu tenure is 2.
* **C54** SOP counts failures cumulatively, not in a row.
* **C55** After the first memory update `F_ranked` is rebuilt without ranks: centers are selected by value, not by Pareto rank.
* **C56** SOP raises or stalls: all centers exhausted, rejected or aborted proposals in synchronous mode, batch size below the number of centers, a lost evaluation in asynchronous mode.  Synchronous mode also raises, without any loss, whenever two points of a batch are equal, which happens on problems with integer variables (shown in the closed loop).
* **C58** Documented and computed formulas differ: Ackley, Rastrigin, Himmelblau, Exponential (index shift), Levy (first variable missing in the sum), Schwefel (constant).
* **C60** `RandomStrategy` ignores `int_var`.
* **C61** The test of `max_evals` uses `and` where `or` is needed: negative and too small integers are accepted.
* **C64** `save("dir/file")` writes to `temp_dir/file`: fails unless that directory exists.
* **C65** Integer variables with fractional bounds are accepted and rounded to non-integers.
* **C66** A symmetric Latin hypercube with fewer than `2*dim` points always lies in a hyperplane, so the linear tail is not determined.
* **C70** Branin's stated minimizer violates the stated bounds.
* **C73** An extra point with value `inf` is treated as evaluated.
* **C75** `ncenters <= 3` is accepted.
* **C76** Extra points of known value, and with EI and equal values also evaluated points, may be proposed again.
* **C78** The linear kernel is conditionally *negative* definite, so the `+eta` on the diagonal has the wrong sign: for every eta in (0,1], the points 0 and eta make the system exactly singular.
* **C84** Asynchronous mode with more workers than design points to spare: the surrogate is asked before it has enough data (the RBF then raises); synchronous mode: a design point that fails twice is dropped and the surrogate is asked without it.
* **C91** The linear kernel is conditionally negative definite, so the Cholesky factorization of the Schur complement always fails (eta = 0, distinct points): every fit is silently computed from scratch, O(n^3) instead of the documented O(k n^2).
* **C92** `from_unit_box` computes `lb + (ub - lb) * x`, which at x = 1 may round to a value above `ub`, e.g. for lb = -5, ub = 1.7 (about one in ten boxes with one-decimal bounds). Only integer variables are clipped afterwards, and every symmetric Latin hypercube and the two-factorial design contain points with coordinate exactly 1: the initial design proposed to the workers violates the bounds by one unit in the last place. It cannot happen if ub - lb is a double (integer bounds, lb = 0, lb = -ub), hence not for the bundled problems.
* **C93** Asynchronous SOP raises ValueError (np.min of an empty array) when a worker becomes idle before two points at different places have been evaluated, e.g. with more workers than initial points; the first generation succeeds exactly if two such evaluations have completed. The exception ends the controller's run.
* **C94** If the linear system is singular (e.g. a prediction is asked for while all points lie on a hyperplane), `_fit` has already stored the singular factors and the half-solved coefficients `c` when `solve_triangular` raises. From then on `_fit` tries to extend that factorization, so every later prediction raises, whatever points are added, until `reset` is called. Likewise an output transformation that raises once during an extension leaves factors and coefficients of different sizes, and every later prediction raises.
* **C95** If only one of `kernel` and `tail` is passed it is silently ignored: `RBFInterpolant(kernel=LinearKernel())` is the cubic interpolant with linear tail, and `tail=ConstantTail(dim)` alone (even of a wrong dimension) has no effect.
* **C96** Without an output transformation (the default) a single `inf` or NaN value makes every later `predict` raise `ValueError` until `reset`. With `median_capping` this happens as soon as half of the values are `inf`, or one is NaN or `-inf`.
* **C97** `isinstance(self.weights, np.array)` raises `TypeError` (np.array is a function), so weights given as an array are always refused; an empty list is accepted and the first adaptive request raises `IndexError`. Synchronous batch sizes: SRBF/DYCORS accept floats, inf and negative integers (the first adaptive batch then raises; 0 is a `ZeroDivisionError`), EI/LCB accept everything but `None`; with `batch_size=0` they stop proposing after the design without terminating.
* **C98** `adjust_step`: while no finite value has been seen, inf counts as an improvement, so a run in which all adaptive evaluations return inf never converges (no restart). If the first adaptive value is NaN it becomes `_fbest` and every later value is a failure until the run is declared converged. `min` of a batch that starts with NaN is NaN, so improvements in the same batch are ignored (order-dependent). `-inf` as best value is replaced by any later value.
* **C99** `ei_merit` divides by the predicted deviation; where it is 0 the result is NaN (not the improvement `max(fbest - mu, 0)`), `np.argmin` in the genetic algorithm prefers NaN to every number, and the test `ei_max < ei_tol` is false for NaN: a point with deviation 0 is proposed in preference to all others and EI never gives up, even where no improvement is possible.

## 5. Status per property

"partial" means: the full statement (properties.jsonl) is false of the code, or holds only under the stated hypotheses; the
theorem with suffix `_refuted` is a concrete history or input for which it fails, the one with `_partial` what remains.

| id | property | model | proof method | status | theorems |
|---|---|---|---|---|---|
| C01 | Evaluation budget is never exceeded | Strategy/Model | inductive invariant over all histories (`Preserved`), refinement to functions of the log | proved | `C01_budget`, `C01_session` |
| C02 | The pending counter is exact | Strategy/Model | inductive invariant over all histories (`Preserved`), refinement to functions of the log | proved | `C02_pending_exact`, `C02_session` |
| C03 | The evaluation history is complete, aligned and append-only | Strategy/Model | inductive invariant over all histories (`Preserved`), refinement to functions of the log | proved | `C03_history`, `C03_append_only`, `C03_session` |
| C04 | Every finished record is logged exactly once | Strategy/Model | inductive invariant over all histories (`Preserved`), refinement to functions of the log | proved | `C04_record_log`, `C04_session` |
| C05 | Xpend is the list of in-flight points | Strategy/Model | inductive invariant; counterexample run evaluated by the kernel | partial | `C05_count`, `C05_xpend_partial`, `C05_refuted` |
| C06 | Work is conserved | Strategy/Model | inductive invariant over all histories (`Preserved`), refinement to functions of the log | proved | `C06_conservation` |
| C07 | Failed initial evaluations are retried, never dropped | Strategy/Model | inductive invariant; counterexample run evaluated by the kernel | partial | `C07_rejected`, `C07_aborted`, `C07_initial_partial`, `C07_refuted` |
| C08 | Termination protocol | Strategy/Model | inductive invariant and case analysis of one step | proved | `C08_terminate_only_if`, `C08_terminates` |
| C09 | A terminated run has used exactly its budget | Strategy/Model | inductive invariant; counterexample run evaluated by the kernel | partial | `C09_count`, `C09_exact_partial`, `C09_refuted` |
| C10 | Synchronous mode is a batch barrier | Strategy/Model | inductive invariant and case analysis of one step | proved | `C10_barrier`, `C10_bound` |
| C11 | No deadlock | Strategy/Model | inductive invariant; counterexample run evaluated by the kernel | partial | `C11_answer`, `C11_progress_partial`, `C11_refuted` |
| C12 | Asynchronous mode never leaves a free worker idle before the budget is reached | Strategy/Model | inductive invariant and case analysis of one step | proved | `C12_no_idle` |
| C13 | Restarts isolate the runs | Strategy/Model | inductive invariant and case analysis of one step | proved | `C13_isolation` |
| C14 | Every result of the current run reaches the surrogate | Strategy/Model | inductive invariant; counterexample run evaluated by the kernel | partial | `C14_exact`, `C14_complete_partial`, `C14_refuted` |
| C15 | Event identifiers are unique and increasing | Strategy/Model | inductive invariant and case analysis of one step | proved | `C15_ids` |
| C16 | Extra points are used once | Strategy/Model | inductive invariant and case analysis of one step | proved | `C16_start`, `C16_restart`, `C16_once` |
| C17 | Resuming a snapshot | Strategy/Model | inductive invariant; counterexample run evaluated by the kernel | partial | `C17_requeued`, `C17_resume_partial`, `C17_refuted` |
| C18 | Checkpoint file is atomic | Checkpoint/Model (file system) | induction over file operations, all crash points | proved | `C18_atomic`, `C18_history`, `C18_complete` |
| C19 | Checkpoint controller guards and recovery | Checkpoint/Model (world of processes and disk), Strategy/Model | refinement to `Strategy.Reach`, induction over histories; witness run | partial | `C19_guards`, `C19_refines`, `C19_behind`, `C19_recent`, `C19_final`, `C19_total_budget`, `C19_refuted` |
| C20 | A resumed run goes on until its budget is used | Checkpoint/Model (world of processes and disk), Strategy/Model | refinement to `Strategy.Reach`, induction over histories; witness run | partial | `C20_iff`, `C20_goes_on_partial`, `C20_refuted` |
| C21 | Sampling radius stays in its range | Strategy/Model (SRBF attributes) | invariant relating attributes to a replay of the documented rule on the log | partial | `C21_radius_partial`, `C21_radius_serial`, `C21_refuted` |
| C22 | Convergence after repeated failure | Strategy/Model (SRBF attributes) | invariant relating attributes to a replay of the documented rule on the log | proved | `C22_exact`, `C22_at_latest`, `C22_only_if` |
| C23 | Best value bookkeeping in SRBF | Strategy/Model (SRBF attributes) | invariant relating attributes to a replay of the documented rule on the log | proved | `C23_best`, `C23_monotone` |
| C24 | Weights are cycled in order | Strategy/Model (SRBF attributes) | invariant relating attributes to a replay of the documented rule on the log | proved | `C24_weights` |
| C25 | DYCORS perturbation probability is a probability | Strategy/Perturb | real analysis with extended floats; invariant for reachable arguments | partial | `C25_range_partial`, `C25_decreasing_partial`, `C25_ends_partial`, `C25_reachable_partial`, `C25_refuted` |
| C26 | Proposed points satisfy the bounds and integrality | Cand/Candidates | for all draws and surrogates; loop invariant of the selection | proved | `C26_srbf`, `C26_uniform`, `C26_dycors` |
| C27 | Only coordinates in subset move | Cand/Candidates | for all draws and surrogates; loop invariant of the selection | partial | `C27_srbf_uniform_partial`, `C27_dycors_partial`, `C27_refuted`, `C27_bounds_refuted` |
| C28 | Weighted-distance selection is minimal and separated | Cand/Candidates | for all draws and surrogates; loop invariant of the selection | proved | `C28_candidates`, `C28_selection`, `C28_separated`, `C28_fallback_witness` |
| C29 | DYCORS perturbs at least one coordinate, any coordinate | Cand/Candidates | for all draws and surrogates; loop invariant of the selection | partial | `C29_nonempty_partial`, `C29_mask`, `C29_refuted` |
| C30 | EI selection is separated | Cand/Acq | from the GA theorems; Gaussian integrals | proved | `C30_separated`, `C30_none`, `C30_giveup` |
| C31 | LCB selection is separated | Cand/Acq | from the GA theorems; Gaussian integrals | proved | `C31_separated`, `C31_giveup` |
| C32 | Expected improvement is nonnegative and dominates plain improvement | Cand/Acq | from the GA theorems; Gaussian integrals | proved | `C32_expectation`, `C32_bounds`, `C32_mono` |
| C33 | The genetic algorithm stays in the box | Utils/GA | induction over generations | proved | `C33_feasible` |
| C34 | The genetic algorithm is elitist | Utils/GA | induction over generations | proved | `C34_elitist`, `C34_count` |
| C35 | A user-supplied initial population inside the domain is accepted | Utils/GA | induction over generations | partial | `C35_refuted`, `C35_accepted` |
| C36 | Unit-box maps are inverse | Utils/Box | algebra, order arguments, witnesses | proved | `C36_inverse`, `C36_box`, `C36_order` |
| C37 | unit_rescale | Utils/Box | algebra, order arguments, witnesses | proved | `C37_range`, `C37_order`, `C37_const` |
| C38 | round_vars projects to the closest feasible integer | Utils/Box | algebra, order arguments, witnesses | proved | `C38_cont`, `C38_closest`, `C38_ties`, `C38_box_idempotent` |
| C39 | check_opt_prob accepts only well-formed problems | Utils/Box | algebra, order arguments, witnesses | partial | `C39_accepts`, `C39_partition_partial`, `C39_refuted` |
| C40 | nd_front computes the Pareto front | Utils/Pareto, Utils/NdSort | loop invariants; termination proved | proved | `C40_front` |
| C41 | nd_sorting computes the non-domination ranks | Utils/Pareto, Utils/NdSort | loop invariants; termination proved | proved | `C41_unique`, `C41_sorting`, `C41_all` |
| C42 | Radius rule | Utils/Pareto, Utils/NdSort | loop invariants; termination proved | proved | `C42_rule`, `C42_monotone` |
| C43 | Symmetric Latin hypercube | Design/Model | permutation lemmas, fold invariant, rank argument | proved | `C43_latin`, `C43_symmetric`, `C43_cube` |
| C44 | Two-factorial design | Design/Model | permutation lemmas, fold invariant, rank argument | proved | `C44_cube`, `C44_box` |
| C45 | Design selection | Design/Model | permutation lemmas, fold invariant, rank argument | proved | `C45_select`, `C45_slhd`, `C45_lhd` |
| C46 | Surrogate data | Surrogate/Base, Surrogate/Generic | induction over call histories | partial | `C46_accepted`, `C46_refused_partial`, `C46_refuted`, `C46_reset`, `C46_history` |
| C47 | RBF interpolation | Surrogate/Rbf | block LU/Cholesky algebra, induction over call histories | proved | `C47_interpolation`, `C47_exact` |
| C48 | Incremental fitting equals fitting from scratch | Surrogate/Rbf | block LU/Cholesky algebra, induction over call histories | partial | `C48_refuted`, `C48_solves`, `C48_history_partial`, `C48_scratch_partial`, `C48_incremental` |
| C49 | predict_deriv is the gradient of predict | Surrogate/Rbf | calculus (HasDerivAt) | proved | `C49_cubic`, `C49_tps`, `C49_linear` |
| C50 | Predictions are never stale | Surrogate/Base, Surrogate/Generic | induction over call histories | proved | `C50_fresh`, `C50_once`, `C50_rbf_once` |
| C51 | Median capping | Surrogate/Generic | sorted lists, sums | partial | `C51_median`, `C51_cap`, `C51_order`, `C51_minimum`, `C51_idempotent_partial`, `C51_refuted` |
| C52 | SOP archive is aligned with the history | Sop/Model | invariants over all SOP histories, simulation of the base strategy, witness runs | proved | `C52_archive` |
| C53 | SOP centers | Sop/Model | invariants over all SOP histories, simulation of the base strategy, witness runs | partial | `C53_count`, `C53_best_partial`, `C53_fresh_async`, `C53_fresh_calm`, `C53_refuted` |
| C54 | SOP memory attributes | Sop/Model | invariants over all SOP histories, simulation of the base strategy, witness runs | partial | `C54_bounds`, `C54_round_async`, `C54_round_sync`, `C54_other`, `C54_tabu_rule`, `C54_tenure`, `C54_refuted` |
| C55 | SOP centers are selected by Pareto rank | Sop/Model | invariants over all SOP histories, simulation of the base strategy, witness runs | partial | `C55_first_partial`, `C55_after_partial`, `C55_refuted` |
| C56 | SOP survives failed evaluations | Sop/Model | invariants over all SOP histories, simulation of the base strategy, witness runs | partial | `C56_live_partial`, `C56_exhausted_refuted`, `C56_reject_refuted`, `C56_batch_refuted`, `C56_abort_refuted`, `C56_duplicates_refuted`, `C56_integer_refuted`, `C56_async_partial` |
| C57 | Test problems: stated minimum is the global minimum | Problems/Model | real analysis | proved | `C57_ackley`, `C57_exponential`, `C57_goldstein_price`, `C57_griewank`, `C57_levy`, `C57_perm`, `C57_rastrigin`, `C57_rosenbrock`, `C57_sphere`, `C57_sum_of_squares`, `C57_weierstrass`, `C57_zakharov`, `C57_himmelblau` |
| C58 | Test problems compute the documented formula | Problems/Model | equality with documented formulas; witnesses | partial | `C58_hartmann3`, `C58_hartmann6`, `C58_formula_partial`, `C58_usual_partial`, `C58_ackley_refuted`, `C58_rastrigin_refuted`, `C58_himmelblau_refuted`, `C58_exponential_refuted`, `C58_levy_refuted`, `C58_schwefel_refuted`, `C58_zakharov_refuted` |
| C59 | Wrong dimension is refused | Problems/Model | equality with documented formulas; witnesses | proved | `C59_dimension` |
| C60 | Random strategy evaluates exactly max_evals feasible points | Random/Model | inductive invariant over all schedules | partial | `C60_terminates_exactly`, `C60_retried`, `C60_number_of_proposals`, `C60_can_finish`, `C60_box`, `C60_refuted` |
| C61 | Input validation of the budget | Validate/Model | exact characterization; witnesses | partial | `C61_exact_partial`, `C61_random_partial`, `C61_refuted` |
| C62 | Only feasible points are proposed | Strategy/Model | inductive invariant | proved | `C62_feasible` |
| C63 | SRBF step control follows the documented rule | Strategy/Model (SRBF attributes) | invariant relating attributes to a replay of the documented rule on the log | proved | `C63_change`, `C63_change_only`, `C63_stale`, `C63_failtol`, `C63_step_control`, `C63_async_value`, `C63_sync_value` |
| C64 | Saving works for every file name in an existing directory | Checkpoint/Model (file system) | induction over file operations, all crash points | partial | `C64_save_partial`, `C64_refuted` |
| C65 | Integer variables of accepted problems are integral after rounding | Utils/Box | algebra, order arguments, witnesses | partial | `C65_refuted`, `C65_integral_partial` |
| C66 | Designs determine a linear polynomial | Design/Model | permutation lemmas, fold invariant, rank argument | partial | `C66_slhd_refuted`, `C66_instance_refuted`, `C66_any_size_refuted`, `C66_lhd_refuted`, `C66_twofactorial_partial` |
| C67 | The GP surrogate standardizes and undoes it exactly | Surrogate/Generic | sorted lists, sums | proved | `C67_unscale`, `C67_standardized` |
| C68 | SOP keeps the contracts of the surrogate strategy | Sop/Model | invariants over all SOP histories, simulation of the base strategy, witness runs | proved | `C68_refinement` |
| C69 | Every bundled problem is accepted | Problems/Model | equality with documented formulas; witnesses | proved | `C69_accepted` |
| C70 | Branin: stated minimum | Problems/Model | real analysis | partial | `C70_branin_partial`, `C70_branin_refuted` |
| C71 | Schwefel: stated minimum | Problems/Model | real analysis | proved | `C71_schwefel` |
| C72 | Six-hump camel: stated minimum | Problems/Model | real analysis | proved | `C72_camel` |
| C73 | Extra points marked unknown are evaluated | Validate/Model | exact characterization; witnesses | partial | `C73_unknown_partial`, `C73_refuted` |
| C74 | Every evaluated point is feasible, end to end | Loop/Model | invariant over closed-loop histories, from the theorems on designs and auxiliary problems | proved | `C74_feasible` |
| C75 | Validation of SOP's number of centers | Validate/Model | exact characterization; witnesses | partial | `C75_exact_partial`, `C75_refuted` |
| C76 | Points with known value are not evaluated again | Loop/Model | invariant over closed-loop histories, from the theorems on designs and auxiliary problems | partial | `C76_once_partial`, `C76_refuted` |
| C77 | When an RBF interpolant can be fitted | Surrogate/Rbf, Surrogate/Cpd, Surrogate/Gauss, Surrogate/Regular | conditional positive definiteness by integral representation of powers of the distance through Gaussian kernels; then the saddle point system is regular iff the tail is unisolvent | proved | `C77_cubic`, `C77_tps`, `C77_tps_default` |
| C78 | Linear kernel and regularization | Surrogate/Rbf, Surrogate/Cpd, Surrogate/Regular | conditional negative definiteness of the distance; explicit singular 3x3 system | partial | `C78_linear_partial`, `C78_refuted` |
| C79 | Operators of the genetic algorithm | Utils/GA | unfolding one generation from any reachable state; case analysis of rounding | proved | `C79_initial`, `C79_generation` |
| C80 | A run does bounded work and ends | Strategy/Model, Strategy/Tally | inductive invariant (tally of proposals, completions and losses); induction on the rounds of the serial controller | proved | `C80_bounded_work`, `C80_next`, `C80_serial_run` |
| C81 | Stopping rule of EI and LCB | Loop/Model, Cand/Acq, Utils/GA | the loops of the auxiliary problems with elitism of the genetic algorithm (C34); range and minimum of the values from C03 | proved | `C81_ei_queued`, `C81_ei_stop`, `C81_lcb_queued`, `C81_lcb_stop` |
| C82 | Restarts happen exactly when a run is over | Strategy/Model, Strategy/Restarts | invariants: converged as a fold of the history; what holds when a restart is made holds before every restart of the log; case analysis of propose_action | proved | `C82_history`, `C82_only`, `C82_converged`, `C82_giveup` |
| C83 | Hartmann3 and Hartmann6: stated minimum | Problems/Model, Problems/Hartmann, Problems/HartmannCert | branch and bound over the values of the four quadratic forms: chords of exp and the closed-form maximum of a concave quadratic; the tree of splits (found by tools/hartmann_cert.py) is checked in the kernel with natural numbers by a checker proved sound | proved | `C83_hartmann3`, `C83_hartmann6` |
| C84 | The design is known when the surrogate is asked | Strategy/Ready | ledger of the current run as an invariant (counts of every point); what holds when points are generated holds before every such event of the log; C77 for the fit | partial | `C84_history_partial`, `C84_sync_partial`, `C84_async_partial`, `C84_data_partial`, `C84_rbf_partial`, `C84_async_refuted`, `C84_failed_refuted` |
| C85 | RBF interpolants reproduce polynomials of the tail | Surrogate/FitForm, Props/Reproduce | the fitting equations restated for the data; zero kernel coefficients solve them; uniqueness from C48 | proved | `C85_affine`, `C85_constant`, `C85_gradient` |
| C86 | RBF predictions are linear in the values | Surrogate/FitForm, Props/Reproduce | linear combinations of solutions of the fitting equations, uniqueness | proved | `C86_linear`, `C86_units` |
| C87 | RBF predictions do not depend on the order or the units of the data | Surrogate/FitForm, Props/Reproduce | a rearrangement comes from a bijection of positions that carries solutions to solutions, nonzero kernel vectors included | proved | `C87_order`, `C87_units` |
| C88 | The regularized RBF fit is at least as close to the data as any affine function | Surrogate/FitForm, Props/Reproduce | residual = eta times the kernel coefficients, orthogonal to the tail; conditional positive definiteness (C77) | proved | `C88_least_squares` |
| C89 | With one worker, asynchronous mode is synchronous mode with batch size 1 | Strategy/OneWorker, Props/OneWorker | invariant of one-worker histories (at most one point in flight, queue empty in the adaptive phase), then equality of the step functions; sync theorems (C14) transfer | proved | `C89_same`, `C89_proposal`, `C89_surrogate`, `C89_reject_differs`, `C89_workers_differ` |
| C90 | Every point evaluated by SOP is feasible, end to end | Loop/SopModel, Loop/SopFeasible | invariant over closed-loop histories of SOP: archive and centers feasible, candidate search around a feasible center gives a feasible point | proved | `C90_feasible` |
| C91 | Adding points to a fitted RBF interpolant updates the factorization | Surrogate/Extend | the form of the Schur complement is a value of the kernel form on vectors orthogonal to the tail, so it is positive definite for the cubic and thin plate kernels (Cholesky succeeds) and negative definite for the linear kernel (always fails); independence of the behaviour of lu_factor, induction over the history | partial | `C91_cubic`, `C91_tps`, `C91_linear_refuted` |
| C92 | Bound constraints in double precision | Float/Basic, Float/Model | doubles as integers of 53 bits times a power of two, any rounding to nearest (monotone, exact on doubles, relative error 2^-53, none below the bounds); the overshoot is computed exactly with the uniqueness of the nearest double | partial | `C92_lower`, `C92_zero`, `C92_mono`, `C92_upper`, `C92_widths`, `C92_overshoot`, `C92_open`, `C92_uniform`, `C92_to_unit`, `C92_rescale`, `C92_point`, `C92_slhd_one`, `C92_designs`, `C92_trunc`, `C92_bundled`, `C92_refuted` |
| C93 | SOP gives an idle worker a point while the design is being evaluated | Sop/Early | invariant: no ranks and no centers before the first generation; the distance column exists iff two archive points differ in the unit box; ledger of C06 for the number of completed points | partial | `C93_first_partial`, `C93_workers_partial`, `C93_few_refuted`, `C93_refuted`, `C93_single_refuted` |
| C94 | A failed fit does not damage the interpolant | Surrogate/Rbf (stored L, U, piv, c after an exception) | C48_solves: exact characterization of histories that raise; invariant that a mismatched factorization persists; explicit four-point history | partial | `C94_reset`, `C94_few`, `C94_stuck_refuted`, `C94_usable_partial`, `C94_refuted`, `C94_transformation_refuted`, `C94_transformation_linear` |
| C95 | Construction of an RBF interpolant | Surrogate/Create | case analysis; C77/C78 for solvability; explicit singular triangles (cube root, intermediate value theorem) for the refused combinations | partial | `C95_given`, `C95_default`, `C95_ignored_refuted`, `C95_refuted`, `C95_suitable`, `C95_unsuitable` |
| C96 | Objective values that are not finite | Surrogate/NonFinite | simulation between the interpolant with extended values and the one of Surrogate/Rbf with a penalty; order statistics of the median over EReal | partial | `C96_raises`, `C96_identity_refuted`, `C96_capped_refuted`, `C96_capped_partial`, `C96_usable_partial` |
| C97 | Batch sizes and weights accepted by the constructors | Validate/Args | case analysis on Python values; reachable states of Strategy/Model for the consequences | partial | `C97_weights_partial`, `C97_srbf_partial`, `C97_valid_partial`, `C97_ei_partial`, `C97_array_refuted`, `C97_empty_refuted`, `C97_batch_refuted`, `C97_zero_refuted` |
| C98 | Failed evaluations and the step control | Strategy/StepPF | fold over Python's min; invariants over sequences of batches; equality with Strategy/Model on finite values | partial | `C98_finite`, `C98_ignored`, `C98_inf_partial`, `C98_inf_refuted`, `C98_nan_later`, `C98_nan_partial`, `C98_order_refuted`, `C98_nan_refuted`, `C98_neginf_refuted` |
| C99 | Expected improvement where the predicted deviation is zero | Cand/EINaN | extended floats through the EI formula; NaN as least element of argmin; the genetic algorithm commutes with strictly monotone maps of the values | partial | `C99_merit`, `C99_separated_partial`, `C99_positive`, `C99_preferred`, `C99_refuted` |
| C100 | The units of the objective do not matter | Loop/Run, Units/Strategy, Units/Cand, Units/Surr | the closed loop as a function of objective, surrogate, draws and schedule; a simulation: every event commutes with the conversion of all stored values; each merit function is converted by a strictly monotone map; the RBF and GP predictions convert | partial | `C100_scale_partial`, `C100_affine_partial`, `C100_rbf`, `C100_gp_partial`, `C100_gp_refuted`, `C100_shift_refuted` |
| C101 | The units and the origin of the variables do not matter | Loop/Run, Units/Points, Units/Sim, Units/SimLoop | a simulation: every event commutes with the map x -> c*x+t applied to all stored points; distances scale by c, the merit functions, truncated normal draws, genetic algorithm and surrogates commute | partial | `C101_sim_partial`, `C101_translate_partial`, `C101_rbf`, `C101_gp`, `C101_srbf_refuted`, `C101_dycors_refuted`, `C101_scale_refuted`, `C101_anisotropic_refuted` |
| C102 | Whether a design is valid does not depend on the origin of the variables | Design/Model | the rank is invariant under column scaling, the score is multiplied by c; a symmetric hypercube of fewer than 2*dim points lies on a hyperplane through its center, so that its rank is deficient iff the center is the origin | partial | `C102_scale_partial`, `C102_found_partial`, `C102_twofactorial`, `C102_symmetric_refuted`, `C102_minimal_refuted`, `C102_shift_refuted`, `C102_problems_refuted` |
| C103 | The result of a run is the best evaluation | Checkpoint/Result | invariant: completed records of the controller = history of the strategy (plus registered points before the first resume); running records correspond by identifier; the history is a sublist of all evaluations ever completed, of the same length if nothing was resumed | partial | `C103_uninterrupted`, `C103_resumed_partial`, `C103_known_refuted`, `C103_lost_refuted` |
| C104 | The batch size is ignored in asynchronous mode | Strategy, Loop, Sop, Validate/Args | equality of the step functions for two batch sizes, then induction over the runs (both directions); case distinction in the constructors | proved | `C104_base`, `C104_loop`, `C104_sop`, `C104_constructors` |
| C105 | Objective functions that modify their argument | Strategy/Overwrite | runs with an additional event that overwrites the argument of a running record; invariant for the counters; concrete runs as counterexamples | partial | `C105_counts_partial`, `C105_untouched`, `C105_refuted`, `C105_again_refuted` |
| C106 | The progress plot shows the run | Checkpoint/Plot | the running minimum by induction over the list; the import block and the empty list by evaluation of the model | partial | `C106_shown_partial`, `C106_unavailable_refuted`, `C106_empty_refuted` |
| C107 | Polynomial regression | Surrogate/Poly | scikit-learn by contract (a minimizer of the ridge loss on the monomials); minimizers = solutions of the normal equations, existence and uniqueness (strict convexity); C50 for the histories | partial | `C107_least`, `C107_determined`, `C107_units`, `C107_residuals`, `C107_reproduces_partial`, `C107_refuted`, `C107_polynomial` |
| C108 | Derivatives of the MARS interpolant | Surrogate/Mars | py-earth by contract (array points x variables x outputs); NumPy broadcasting modelled; chain rule | partial | `C108_diagonal_partial`, `C108_one_partial`, `C108_shape_refuted`, `C108_value_refuted` |
| C109 | The deviation predicted by the default Gaussian process | Surrogate/GP | scikit-learn by contract (posterior mean and variance, hyperparameters within bounds); the variance is the least squared error of a linear estimator; positive semidefiniteness of the Gaussian kernel | proved | `C109_bounds`, `C109_data`, `C109_more`, `C109_constant`, `C109_ei` |
| C110 | Predictions of the default Gaussian process in other units | Surrogate/GP | linearity of the posterior mean; standardization | partial | `C110_units_partial`, `C110_shift_partial`, `C110_mean_partial`, `C110_refuted` |
| C111 | A serial run of SOP uses exactly its budget | Sop/Calm | POAP's serial loop as a function; invariant of a round over loss-free runs (C56_live_partial), conservation of queued points (C06) | partial | `C111_serial_run_partial`, `C111_design_partial`, `C111_refuted` |
| C112 | SOP's bookkeeping depends only on the order of the values and on relative positions | Sop/Equivar | every step commutes with the conversion: ranks by uniqueness of the non-domination rank (C41), orders and distances in the unit box; induction over the history | proved | `C112_order`, `C112_runs` |
| C113 | A whole SOP run does not depend on the unit of the objective nor on the origin of the variables | Loop/SopRun, Units/SopLoop | the loop (SOP, candidate search, fitted surrogate) commutes with the conversion, by induction over the schedule; ties in the candidate search resolved alike | proved | `C113_objective`, `C113_origin`, `C113_rbf` |
| C114 | EI and LCB give up only if no suitable point was found | Cand/Acq, Props/Stop | exact condition for None from elitism of the genetic algorithm; pigeonhole for batches larger than what is left of the domain | partial | `C114_ei_short`, `C114_lcb_short`, `C114_ei_single`, `C114_ei_strategy`, `C114_lcb_strategy`, `C114_refuted` |
| C115 | Predictions of the default Gaussian process do not depend on the order of the data or the units of the variables | Surrogate/GP | mean and variance of the posterior are invariant under bijections of the index set; residuals are nugget times the coefficients and the kernel matrix is positive semidefinite | proved | `C115_determined`, `C115_order`, `C115_units`, `C115_least_squares` |
| C116 | The points proposed by SOP | Loop/SopRun | unfolding of the candidate search, C28_selection with weight one, order of unit_rescale; invariants of the archive; explicit run for the refutation | partial | `C116_search`, `C116_batch_refuted` |
| C117 | Number of centers and batch size accepted by SOP | Validate/Args, Sop/Fewer | case analysis of the tests; for the refutation an invariant: evaluated new points of the centers, pending evaluations and queue are together at most one batch | partial | `C117_exact_partial`, `C117_valid_partial`, `C117_fewer_refuted`, `C117_centers_refuted`, `C117_batch_refuted` |
| C118 | A whole run with its surrogate object does not raise | Loop/Object, Loop/Data, Strategy/Keep | invariant: the data of the object are those of the strategy, the design of the run is queued, running or evaluated; exact conditions of C77; induction over the rounds | proved | `C118_data`, `C118_any`, `C118_sync`, `C118_serial`, `C118_rbf_data`, `C118_rbf_sync`, `C118_rbf_serial`, `C118_twofactorial`, `C118_gp`, `C118_gp_serial` |
| C119 | An accepted initial design is enough for the surrogate | Loop/Object, Design | the initial phase round by round; C66 and C77 | partial | `C119_hyperplane_refuted`, `C119_slhd_refuted`, `C119_exact_partial` |
| C120 | A whole SOP run with its surrogate object does not raise | Loop/SopObject, Loop/SopRun, Sop/Calm | invariant: the data of the object are known values and completions; free centers for all searches; the rounds of C111; refutation by the pigeonhole principle and C56 | partial | `C120_data`, `C120_any`, `C120_serial_partial`, `C120_few_points_refuted`, `C120_rbf_serial`, `C120_gp_serial` |
| C121 | A larger budget continues the run | Loop/Run, Loop/Object, Strategy/Perturb | induction over the schedule; for DYCORS: the perturbation probability grows with the budget, explicit draws between the two probabilities | partial | `C121_run_partial`, `C121_serial_partial`, `C121_dycors_refuted` |
| C122 | Synchronous mode: the number of workers and the order of completions do not matter | Loop/Order, Loop/Sync, Loop/Object | a run is a chain of batches; each batch is a function of the set of data of the earlier ones (invariant within a batch, order independence of the auxiliary problems and of the surrogates) | partial | `C122_order_partial`, `C122_results_partial`, `C122_end_partial`, `C122_ties_refuted`, `C122_rbf_partial`, `C122_gp` |
| C123 | The numbering of the variables does not matter | Units/Renum, Units/RenumLoop, Design/Complete, Surrogate | equivariance of each function under a permutation of the coordinates, lifted to runs by induction on the schedule; completeness of the SLHD generator (C124) | partial | `C123_run_partial`, `C123_draws`, `C123_lhd`, `C123_design_partial`, `C123_slhd_refuted`, `C123_dycors_partial`, `C123_dycors_last_refuted`, `C123_dycors_refuted`, `C123_rbf`, `C123_gp` |
| C124 | Which designs can be generated | Design/Complete | construction of the coin flips and permutations from the levels of a symmetric Latin hypercube, converse by C43 | proved | `C124_exactly`, `C124_sorted`, `C124_result`, `C124_lhd` |
| C125 | The search is global | Loop/Chance, Loop/Play, Cand, Strategy | lower bound of the truncated normal density for one call, then induction on the adversary's plan with upper integrals (no measurability is assumed of the adversary) | partial | `C125_step`, `C125_any`, `C125_dycors_partial`, `C125_run`, `C125_dycors_run_partial`, `C125_limit`, `C125_dycors_refuted`, `C125_uniform`, `C125_sop_partial` |
| C126 | Which variables DYCORS changes | Cand/Candidates, Loop/Chance | exact computation in the product of the uniform laws | partial | `C126_some`, `C126_candidate`, `C126_chance_partial`, `C126_last_refuted`, `C126_expected` |
| C127 | Random search finds a box with the probability of geometric sampling | Random/Model, Loop/Chance | the points completed by a terminated run are determined by the draws (C60); product measure | proved | `C127_exact` |
| C128 | The genetic algorithm searches globally | Utils/GA, Loop/GAPlay | elitism and box invariants (C34), lower bound of the normal density for the mutations of one individual, induction on the adversary's plan with upper integrals | proved | `C128_random`, `C128_generations`, `C128_limit` |
| C129 | The symmetric Latin hypercube is unbiased | Design/Model, Design/Complete | the outcomes can be read off the design (injective), every design is reached (C124); level law by a symmetry of the outcomes | proved | `C129_one_outcome`, `C129_count`, `C129_uniform`, `C129_levels` |
| C130 | The evaluations of EI and LCB keep their distance and are bounded | Loop/Apart, Loop/Fresh, Strategy/* | invariants on the history (distance of each batch from everything alive), pigeonhole on a grid, the moment the termination flag is set | proved | `C130_apart`, `C130_bound`, `C130_never_terminates` |
| C131 | The log tells the story of a run | Strategy/Logging | lines emitted by each event; invariant linking log and state by induction over runs; concrete runs for the refutation | partial | `C131_evaluations_partial`, `C131_radius`, `C131_header_partial`, `C131_refuted` |
| C132 | Candidate searches generate new points | Loop/Repeat, Props/Repeat | the truncated normal law has no atoms; induction over the plan of the adversary with upper integrals; product sets of positive measure for the refutations | partial | `C132_srbf_partial`, `C132_dycors_partial`, `C132_run_partial`, `C132_new_partial`, `C132_batch_refuted`, `C132_discrete_refuted`, `C132_dycors_refuted` |
| C133 | The stated minimizer is the only one | Props/Unique | equality cases of the lower bounds of C57; explicit second minimizers for the refutations | partial | `C133_sphere_partial`, `C133_sum_of_squares_partial`, `C133_zakharov_partial`, `C133_rastrigin_partial`, `C133_griewank_partial`, `C133_ackley_partial`, `C133_rosenbrock_partial`, `C133_exponential_partial`, `C133_goldstein_price_partial`, `C133_levy_partial`, `C133_levy_refuted`, `C133_perm_refuted`, `C133_rosenbrock_refuted`, `C133_camel_refuted`, `C133_branin_refuted`, `C133_weierstrass_refuted` |
| C134 | Expected improvement is one-step optimal | Props/OneStep | expectedBest = b - expImprovement by integral_sub; the genetic algorithm's result has the largest merit of the evaluated points (C33, C34); the closed formula is the integral (C32) | partial | `C134_one_step_partial`, `C134_tradeoff`, `C134_refuted` |
| C135 | Enough points give a valid design | Props/Enough | explicit regular symmetric design (existence) and counting of outcomes; diagonal design for the refutation; for the Latin hypercube the determinant along a line is a polynomial with finitely many zeros, disintegration of Lebesgue measure | partial | `C135_iterations`, `C135_enough_partial`, `C135_refuted`, `C135_too_few`, `C135_lhd`, `C135_grid`, `C135_binary_refuted` |
| C136 | The step control in double precision | Float/Step, Props/StepFloat | simulation relation between the exact and the rounded step control, preserved by every call; rounding error bounds for the level | partial | `C136_agrees_partial`, `C136_decrease`, `C136_refuted` |
| C137 | The selection of candidates in double precision | Float/Merit, Props/MeritFloat | error analysis of the distance by induction on the dimension, of the merit by chaining rounding errors; induction on the selected points | partial | `C137_distance`, `C137_selection`, `C137_separated_partial`, `C137_refuted` |
| C138 | A Latin hypercube is an unbiased sample | Props/Uniform | product measures, cells of the subdivision, measure preserving symmetries of the draws | partial | `C138_unbiased_partial`, `C138_exchangeable`, `C138_mirror`, `C138_refuted` |
| C139 | In synchronous mode every batch is one step of the step control | Props/Batches | invariant over all histories; induction on the number of batches | partial | `C139_total`, `C139_batch`, `C139_one_partial`, `C139_refuted` |
| C140 | The genetic algorithm respects the bounds in double precision | Float/GA, Props/GAFloat | invariant over the generations with a rounding after every operation; explicit counterexample box | partial | `C140_generations`, `C140_box_partial`, `C140_overshoot`, `C140_random`, `C140_elitist`, `C140_refuted`, `C140_generation` |
| C141 | EI and LCB proposals are feasible and separated in double precision | Float/Acq, Props/AcqFloat | C140 and induction on the points chosen, with the error bound of cdist (C137_distance) | partial | `C141_ei_partial`, `C141_lcb_partial`, `C141_distinct`, `C141_refuted` |
| C142 | SOP in synchronous mode: the number of workers and the order of completions do not matter | Sop/Perm, Loop/SopSync, Loop/SopSyncRun, Props/SopSync, Props/SopTies | the records of two runs are permutations of each other; ranks, crowding, centers and memory commute with renumbering when the values are different (ranks are unique: C20), and induction on batches; the refutation is a concrete pair of runs | partial | `C142_order_partial`, `C142_results_partial`, `C142_rbf_partial`, `C142_gp_partial`, `C142_ties_refuted` |
| C143 | A run that is killed and resumed gives the same result as one that is not | Checkpoint/Bare, Checkpoint/Again, Checkpoint/Interrupted, Props/Interrupted | simulation: the killed process is at a state of the uninterrupted run up to event numbers and counters, or has lost its running evaluation, which the next call of propose_action proposes again; the refutations are concrete runs | partial | `C143_history_partial`, `C143_result_partial`, `C143_plain_partial`, `C143_weight_partial`, `C143_after_partial`, `C143_weights_refuted`, `C143_batch_refuted` |
| C144 | An SOP run depends neither on the numbering nor on the orientation of the variables | Sop/Equivar, Units/SopLoop, Units/SopRenum, Props/SopRenumber, Props/SopMirror, Props/SopMirrorDesign, Props/SopRenumberDemo | equivariance of every step of SOP under an injective map of the points which is an isometry of the unit box, by induction on the run; the reflection is half-even rounding's symmetry | partial | `C144_rbf_orientation`, `C144_rbf_run_partial`, `C144_gp_orientation`, `C144_slhd_partial`, `C144_lhd_partial`, `C144_two_factorial_partial`, `C144_design_refuted`, `C144_run_partial`, `C144_rbf_partial`, `C144_orientation_partial`, `C144_draws_partial`, `C144_draws_orientation` |
| C145 | A run of SRBF, DYCORS, EI or LCB does not depend on the orientation of the variables | Units/Mirror, Units/MirrorLoop, Props/Orientation | equivariance of the candidate searches and of every generation of the genetic algorithm under reflections (half-even rounding is odd), then induction on the run | partial | `C145_run_partial`, `C145_rbf_partial`, `C145_gp_partial`, `C145_draws` |
| C146 | A SOP run that was killed can be resumed | Sop/Stuck, Props/SopResume | invariant: a lost evaluation keeps its center busy for ever; counting free centers | partial | `C146_sync_refuted`, `C146_async_refuted`, `C146_idle` |
| C147 | A run of SRBF, DYCORS, EI or LCB that was killed can be resumed | Props/Killed | the phase changes when the queue is found empty, not when the design is evaluated; the dead state is invariant; induction over the schedule that leads there | partial | `C147_dead_refuted`, `C147_design_refuted`, `C147_rbf_refuted`, `C147_enough_partial` |
