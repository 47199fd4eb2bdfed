# Formal model of pySOT in Lean 4 — design

The model lives in `lean/Verif/`.  Model files contain the definitions, each with the file and lines of /repo it
mirrors; specification definitions (`namespace Verif.Spec`, files `*/Spec.lean`) are small and do not use model helpers;
property theorems `Cnn_*` are in `lean/Verif/Props/*.lean`, next to `example`s which show that their hypotheses are met
by concrete runs.  Everything else is helper lemmas.

## 1. Modelling conventions

* **Numbers.** Python floats are exact numbers: `ℚ` where the model must be computable (bookkeeping of the strategies),
  `ℝ` elsewhere.  IEEE rounding is modelled only in `Float/*.lean` (C92, C136, C137, C140, C141); overflow is not modelled.  `inf` and NaN are modelled explicitly where the code
  creates or tests them (merit of the candidates `Fl`, perturbation probability `NF`, validation `PyFloat`, ranks
  `WithTop`, `fbest = inf` as `none`).
* **Randomness.** Every draw is an argument, constrained only by the documented range of the distribution; the theorems
  quantify over all draws.  Only C125-C129, C132, C134, C135 and C138 use distributions: the draws of `candidate_srbf`, `candidate_dycors`,
  `candidate_uniform`, random search and the mutations of the genetic algorithm are independent and have the truncated normal,
  uniform and normal laws (`Loop/Chance.lean`); C129, C135 and C138 also give the shuffles, coins and jitters of the designs their uniform laws, C134 the objective at a point the normal law predicted by the Gaussian process; all other draws are chosen by an adversary (`Loop/Play.lean`, `Loop/SopPlay.lean`, `Loop/GAPlay.lean`).
* **Exceptions** are values (`Option`, or a Boolean next to the state where the code leaves a partial update behind).
* **NumPy arrays** are lists or functions on `Fin n`.
* **Schedules and crashes.** The strategies are transition systems: `Op` (propose, accept, reject, complete, abort, update
  of an arbitrary outstanding proposal or record) plus crash/resume at any point; `Reach` is the set of all states of all
  finite histories.  A ghost log records what the environment can observe, and properties are stated as functions of it.
* **POAP** (the controller framework, not in /repo) is modelled by its documented contract (docs/poap.rst): a proposal is
  accepted or rejected at most once; an accepted one owns a record; a record finishes at most once (completed / killed /
  cancelled); callbacks run one at a time, in the order in which they were added.

* **Citations.** Every definition of the files in the table below cites the lines it models (`ss.py` is
  surrogate_strategy.py, `sop.py` is sop_strategy.py, `srbf.py` is srbf_strategy.py, in `Cand` candidate_srbf.py).  Definitions without a citation model no code: they
  are specifications (`*Spec.lean`, `Props/*`), invariants and proof notions (`Inv*.lean`, `*Proofs.lean`, ...),
  conversions between units (`Units/*`) or concrete examples.

## 2. Modelled code

| module of /repo/pySOT | model | what is modelled |
|---|---|---|
| strategy/surrogate_strategy.py | `Strategy/Model.lean` | constructor, `sample_initial`, `sample_restart`, `propose_action` and all branches, all eight callbacks, `resume`, `check_termination`; `save` in `Checkpoint/Model.lean`, `check_input` in `Validate/Model.lean` |
| strategy/srbf_strategy.py, dycors_strategy.py | `Strategy/Model.lean`, `Strategy/Perturb.lean`, `Strategy/StepPF.lean`, `Validate/Args.lean` | step control (also with inf and NaN), weights, record queue, perturbation probability, constructor arguments |
| strategy/ei_strategy.py, lcb_strategy.py | `Strategy/Model.lean`, `Loop/Model.lean` | tolerances, giving up, convergence |
| strategy/sop_strategy.py | `Sop/Model.lean` | whole class: records, centers, ranks, tabu list, memory update |
| strategy/random_strategy.py | `Random/Model.lean` | whole class (POAP's `RetryStrategy` by contract) |
| controller/controller.py | `Checkpoint/Model.lean`, `Checkpoint/Result.lean` | `run`, `resume`, `on_update`, `on_terminate`, over a file system with crashes; the returned record |
| auxiliary_problems/candidate_*.py | `Cand/Candidates.lean` | all three generators and `weighted_distance_merit` |
| auxiliary_problems/{ei,lcb}_{merit,ga}.py | `Cand/Acq.lean`, `Cand/EINaN.lean` | whole functions; EI also with predicted deviation zero |
| utils.py | `Utils/*.lean` | unit box maps, `unit_rescale`, `round_vars`, `check_opt_prob`, `GeneticAlgorithm`, `domination`, `nd_add`, `nd_front`, `nd_sorting`, `check_radius_rule` |
| experimental_design/*.py | `Design/Model.lean` | SLHD, LHD (pyDOE2 by contract), two-factorial, selection of the best design |
| surrogate/surrogate.py, rbf.py, kernels, tails, output_transformations | `Surrogate/*.lean` | `add_points`, `reset`, `_fit` (first fit, incremental fit, fall-back), `predict`, `predict_deriv`, all kernels and tails, median capping (also of values that are not finite, `Surrogate/NonFinite.lean`), the constructor (`Surrogate/Create.lean`) |
| surrogate/{gp,poly,mars}.py | `Surrogate/Generic.lean`, `Surrogate/GP.lean`, `Surrogate/Poly.lean`, `Surrogate/Mars.lean` | caching and refitting; standardization of the GP; the external regressors are arbitrary functions, except for the posterior of the default GP (C109, C110) and ridge regression on monomials (C107); `predict_deriv` of MARS (C108) |
| utils.progress_plot | `Checkpoint/Plot.lean` | what is plotted, and the exceptions |
| utils.py, experimental_design/*.py, truncated normal draws, step control of srbf_strategy.py, weighted_distance_merit, GeneticAlgorithm, in double precision | `Float/*.lean` | unit box maps, `unit_rescale`, design mapping, `adjust_step`, the whole selection of candidates, the genetic algorithm, `ei_ga` and `lcb_ga` |
| optimization_problems/*.py | `Problems/Model.lean` | all 19 problems: attributes and `eval` |
| strategy + design + auxiliary problem together | `Loop/Model.lean` | closed loop: the oracles of the strategy model are the modelled functions |
| the same as a function of objective, surrogate, draws and schedule | `Loop/Run.lean`, `Units/*` | two runs with the same draws can be compared |

**Not modelled:** labels and window of utils.progress_plot, the formatting of log lines, `SOPStrategy.record_queue` and the other attributes that are
written and never read, `__init__` argument plumbing of surrogates other than `RBFInterpolant`, thread scheduling inside POAP (its callbacks
are serialized), performance, memory, IEEE rounding outside `Float/*.lean` (so: no claim about conditioning or about ties created by rounding).

## 3. Trusted base

* Lean 4.33.0 kernel.  Axioms: every property theorem depends on at most `propext`, `Classical.choice`, `Quot.sound`
  (`#print axioms`; no axioms of our own, no compiled evaluation).
* The Mathlib definitions that occur in statements (ℚ, ℝ, `Real.exp`, `Real.cos`, matrices and rank, derivatives, Gaussian
  measures, integrals).
* Faithfulness of the definitions to the Python source, read by hand and cited line by line.
* Contracts of external libraries: POAP (section 1); `scipy.linalg.lu_factor`, `cholesky` (`LuSpec`, `CholSpec`, `CholComplete`,
  proved satisfiable in `Surrogate/Exist.lean` and `Surrogate/Extend.lean`); `solve_triangular` is modelled by substitution; `scipy.stats.truncnorm` (range of
  draws), `norm.cdf/pdf`; `numpy.argmin` (first minimal index, NaN first), `lexsort` (stable), `median`, `round` (half to
  even), `matrix_rank` (exact rank); `scipy.spatial.distance.cdist` (squares of differences added in the order of the coordinates, square root; each operation rounded, C137); `pyDOE2.lhs`; scikit-learn's `GaussianProcessRegressor` (C109, C110: posterior mean and variance as formulas, hyperparameters within the bounds), `PolynomialFeatures` and `Ridge` (`RidgeSpec`, proved satisfiable); py-earth's `predict_deriv` (shape and meaning); `os.rename` (atomic), `open`, `dill.dump` (writes a prefix if it fails).
* `/verif/tools/*.py` only generate the manifest and this file; they are not trusted for any proof.

## 4. Findings (statements that are false of the code, each with a machine-checked counterexample)

@@FINDINGS@@

## 5. Status per property

"partial" means: the full statement (properties.jsonl) is false of the code, or holds only under the stated hypotheses; the
theorem with suffix `_refuted` is a concrete history or input for which it fails, the one with `_partial` what remains.

@@TABLE@@
