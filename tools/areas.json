{
 "C01": [
  "Strategy/Model",
  "inductive invariant over all histories (`Preserved`), refinement to functions of the log"
 ],
 "C02": [
  "Strategy/Model",
  "inductive invariant over all histories (`Preserved`), refinement to functions of the log"
 ],
 "C03": [
  "Strategy/Model",
  "inductive invariant over all histories (`Preserved`), refinement to functions of the log"
 ],
 "C04": [
  "Strategy/Model",
  "inductive invariant over all histories (`Preserved`), refinement to functions of the log"
 ],
 "C05": [
  "Strategy/Model",
  "inductive invariant; counterexample run evaluated by the kernel"
 ],
 "C06": [
  "Strategy/Model",
  "inductive invariant over all histories (`Preserved`), refinement to functions of the log"
 ],
 "C07": [
  "Strategy/Model",
  "inductive invariant; counterexample run evaluated by the kernel"
 ],
 "C08": [
  "Strategy/Model",
  "inductive invariant and case analysis of one step"
 ],
 "C09": [
  "Strategy/Model",
  "inductive invariant; counterexample run evaluated by the kernel"
 ],
 "C10": [
  "Strategy/Model",
  "inductive invariant and case analysis of one step"
 ],
 "C11": [
  "Strategy/Model",
  "inductive invariant; counterexample run evaluated by the kernel"
 ],
 "C12": [
  "Strategy/Model",
  "inductive invariant and case analysis of one step"
 ],
 "C13": [
  "Strategy/Model",
  "inductive invariant and case analysis of one step"
 ],
 "C14": [
  "Strategy/Model",
  "inductive invariant; counterexample run evaluated by the kernel"
 ],
 "C15": [
  "Strategy/Model",
  "inductive invariant and case analysis of one step"
 ],
 "C16": [
  "Strategy/Model",
  "inductive invariant and case analysis of one step"
 ],
 "C17": [
  "Strategy/Model",
  "inductive invariant; counterexample run evaluated by the kernel"
 ],
 "C18": [
  "Checkpoint/Model (file system)",
  "induction over file operations, all crash points"
 ],
 "C19": [
  "Checkpoint/Model (world of processes and disk), Strategy/Model",
  "refinement to `Strategy.Reach`, induction over histories; witness run"
 ],
 "C20": [
  "Checkpoint/Model (world of processes and disk), Strategy/Model",
  "refinement to `Strategy.Reach`, induction over histories; witness run"
 ],
 "C21": [
  "Strategy/Model (SRBF attributes)",
  "invariant relating attributes to a replay of the documented rule on the log"
 ],
 "C22": [
  "Strategy/Model (SRBF attributes)",
  "invariant relating attributes to a replay of the documented rule on the log"
 ],
 "C23": [
  "Strategy/Model (SRBF attributes)",
  "invariant relating attributes to a replay of the documented rule on the log"
 ],
 "C24": [
  "Strategy/Model (SRBF attributes)",
  "invariant relating attributes to a replay of the documented rule on the log"
 ],
 "C25": [
  "Strategy/Perturb",
  "real analysis with extended floats; invariant for reachable arguments"
 ],
 "C26": [
  "Cand/Candidates",
  "for all draws and surrogates; loop invariant of the selection"
 ],
 "C27": [
  "Cand/Candidates",
  "for all draws and surrogates; loop invariant of the selection"
 ],
 "C28": [
  "Cand/Candidates",
  "for all draws and surrogates; loop invariant of the selection"
 ],
 "C29": [
  "Cand/Candidates",
  "for all draws and surrogates; loop invariant of the selection"
 ],
 "C30": [
  "Cand/Acq",
  "from the GA theorems; Gaussian integrals"
 ],
 "C31": [
  "Cand/Acq",
  "from the GA theorems; Gaussian integrals"
 ],
 "C32": [
  "Cand/Acq",
  "from the GA theorems; Gaussian integrals"
 ],
 "C33": [
  "Utils/GA",
  "induction over generations"
 ],
 "C34": [
  "Utils/GA",
  "induction over generations"
 ],
 "C35": [
  "Utils/GA",
  "induction over generations"
 ],
 "C36": [
  "Utils/Box",
  "algebra, order arguments, witnesses"
 ],
 "C37": [
  "Utils/Box",
  "algebra, order arguments, witnesses"
 ],
 "C38": [
  "Utils/Box",
  "algebra, order arguments, witnesses"
 ],
 "C39": [
  "Utils/Box",
  "algebra, order arguments, witnesses"
 ],
 "C40": [
  "Utils/Pareto, Utils/NdSort",
  "loop invariants; termination proved"
 ],
 "C41": [
  "Utils/Pareto, Utils/NdSort",
  "loop invariants; termination proved"
 ],
 "C42": [
  "Utils/Pareto, Utils/NdSort",
  "loop invariants; termination proved"
 ],
 "C43": [
  "Design/Model",
  "permutation lemmas, fold invariant, rank argument"
 ],
 "C44": [
  "Design/Model",
  "permutation lemmas, fold invariant, rank argument"
 ],
 "C45": [
  "Design/Model",
  "permutation lemmas, fold invariant, rank argument"
 ],
 "C46": [
  "Surrogate/Base, Surrogate/Generic",
  "induction over call histories"
 ],
 "C47": [
  "Surrogate/Rbf",
  "block LU/Cholesky algebra, induction over call histories"
 ],
 "C48": [
  "Surrogate/Rbf",
  "block LU/Cholesky algebra, induction over call histories"
 ],
 "C49": [
  "Surrogate/Rbf",
  "calculus (HasDerivAt)"
 ],
 "C50": [
  "Surrogate/Base, Surrogate/Generic",
  "induction over call histories"
 ],
 "C51": [
  "Surrogate/Generic",
  "sorted lists, sums"
 ],
 "C52": [
  "Sop/Model",
  "invariants over all SOP histories, simulation of the base strategy, witness runs"
 ],
 "C53": [
  "Sop/Model",
  "invariants over all SOP histories, simulation of the base strategy, witness runs"
 ],
 "C54": [
  "Sop/Model",
  "invariants over all SOP histories, simulation of the base strategy, witness runs"
 ],
 "C55": [
  "Sop/Model",
  "invariants over all SOP histories, simulation of the base strategy, witness runs"
 ],
 "C56": [
  "Sop/Model",
  "invariants over all SOP histories, simulation of the base strategy, witness runs"
 ],
 "C57": [
  "Problems/Model",
  "real analysis"
 ],
 "C58": [
  "Problems/Model",
  "equality with documented formulas; witnesses"
 ],
 "C59": [
  "Problems/Model",
  "equality with documented formulas; witnesses"
 ],
 "C60": [
  "Random/Model",
  "inductive invariant over all schedules"
 ],
 "C61": [
  "Validate/Model",
  "exact characterization; witnesses"
 ],
 "C62": [
  "Strategy/Model",
  "inductive invariant"
 ],
 "C63": [
  "Strategy/Model (SRBF attributes)",
  "invariant relating attributes to a replay of the documented rule on the log"
 ],
 "C64": [
  "Checkpoint/Model (file system)",
  "induction over file operations, all crash points"
 ],
 "C65": [
  "Utils/Box",
  "algebra, order arguments, witnesses"
 ],
 "C66": [
  "Design/Model",
  "permutation lemmas, fold invariant, rank argument"
 ],
 "C67": [
  "Surrogate/Generic",
  "sorted lists, sums"
 ],
 "C68": [
  "Sop/Model",
  "invariants over all SOP histories, simulation of the base strategy, witness runs"
 ],
 "C69": [
  "Problems/Model",
  "equality with documented formulas; witnesses"
 ],
 "C70": [
  "Problems/Model",
  "real analysis"
 ],
 "C71": [
  "Problems/Model",
  "real analysis"
 ],
 "C72": [
  "Problems/Model",
  "real analysis"
 ],
 "C73": [
  "Validate/Model",
  "exact characterization; witnesses"
 ],
 "C74": [
  "Loop/Model",
  "invariant over closed-loop histories, from the theorems on designs and auxiliary problems"
 ],
 "C75": [
  "Validate/Model",
  "exact characterization; witnesses"
 ],
 "C76": [
  "Loop/Model",
  "invariant over closed-loop histories, from the theorems on designs and auxiliary problems"
 ],
 "C77": [
  "Surrogate/Rbf, Surrogate/Cpd, Surrogate/Gauss, Surrogate/Regular",
  "conditional positive definiteness by integral representation of powers of the distance through Gaussian kernels; then the saddle point system is regular iff the tail is unisolvent"
 ],
 "C78": [
  "Surrogate/Rbf, Surrogate/Cpd, Surrogate/Regular",
  "conditional negative definiteness of the distance; explicit singular 3x3 system"
 ],
 "C79": [
  "Utils/GA",
  "unfolding one generation from any reachable state; case analysis of rounding"
 ],
 "C80": [
  "Strategy/Model, Strategy/Tally",
  "inductive invariant (tally of proposals, completions and losses); induction on the rounds of the serial controller"
 ],
 "C81": [
  "Loop/Model, Cand/Acq, Utils/GA",
  "the loops of the auxiliary problems with elitism of the genetic algorithm (C34); range and minimum of the values from C03"
 ],
 "C82": [
  "Strategy/Model, Strategy/Restarts",
  "invariants: converged as a fold of the history; what holds when a restart is made holds before every restart of the log; case analysis of propose_action"
 ],
 "C83": [
  "Problems/Model, Problems/Hartmann, Problems/HartmannCert",
  "branch and bound over the values of the four quadratic forms: chords of exp and the closed-form maximum of a concave quadratic; the tree of splits (found by tools/hartmann_cert.py) is checked in the kernel with natural numbers by a checker proved sound"
 ],
 "C84": [
  "Strategy/Ready",
  "ledger of the current run as an invariant (counts of every point); what holds when points are generated holds before every such event of the log; C77 for the fit"
 ],
 "C85": [
  "Surrogate/FitForm, Props/Reproduce",
  "the fitting equations restated for the data; zero kernel coefficients solve them; uniqueness from C48"
 ],
 "C86": [
  "Surrogate/FitForm, Props/Reproduce",
  "linear combinations of solutions of the fitting equations, uniqueness"
 ],
 "C87": [
  "Surrogate/FitForm, Props/Reproduce",
  "a rearrangement comes from a bijection of positions that carries solutions to solutions, nonzero kernel vectors included"
 ],
 "C88": [
  "Surrogate/FitForm, Props/Reproduce",
  "residual = eta times the kernel coefficients, orthogonal to the tail; conditional positive definiteness (C77)"
 ],
 "C89": [
  "Strategy/OneWorker, Props/OneWorker",
  "invariant of one-worker histories (at most one point in flight, queue empty in the adaptive phase), then equality of the step functions; sync theorems (C14) transfer"
 ],
 "C90": [
  "Loop/SopModel, Loop/SopFeasible",
  "invariant over closed-loop histories of SOP: archive and centers feasible, candidate search around a feasible center gives a feasible point"
 ],
 "C91": [
  "Surrogate/Extend",
  "the form of the Schur complement is a value of the kernel form on vectors orthogonal to the tail, so it is positive definite for the cubic and thin plate kernels (Cholesky succeeds) and negative definite for the linear kernel (always fails); independence of the behaviour of lu_factor, induction over the history"
 ],
 "C92": [
  "Float/Basic, Float/Model",
  "doubles as integers of 53 bits times a power of two, any rounding to nearest (monotone, exact on doubles, relative error 2^-53, none below the bounds); the overshoot is computed exactly with the uniqueness of the nearest double"
 ],
 "C93": [
  "Sop/Early",
  "invariant: no ranks and no centers before the first generation; the distance column exists iff two archive points differ in the unit box; ledger of C06 for the number of completed points"
 ],
 "C94": [
  "Surrogate/Rbf (stored L, U, piv, c after an exception)",
  "C48_solves: exact characterization of histories that raise; invariant that a mismatched factorization persists; explicit four-point history"
 ],
 "C95": [
  "Surrogate/Create",
  "case analysis; C77/C78 for solvability; explicit singular triangles (cube root, intermediate value theorem) for the refused combinations"
 ],
 "C96": [
  "Surrogate/NonFinite",
  "simulation between the interpolant with extended values and the one of Surrogate/Rbf with a penalty; order statistics of the median over EReal"
 ],
 "C97": [
  "Validate/Args",
  "case analysis on Python values; reachable states of Strategy/Model for the consequences"
 ],
 "C98": [
  "Strategy/StepPF",
  "fold over Python's min; invariants over sequences of batches; equality with Strategy/Model on finite values"
 ],
 "C99": [
  "Cand/EINaN",
  "extended floats through the EI formula; NaN as least element of argmin; the genetic algorithm commutes with strictly monotone maps of the values"
 ],
 "C100": [
  "Loop/Run, Units/Strategy, Units/Cand, Units/Surr",
  "the closed loop as a function of objective, surrogate, draws and schedule; a simulation: every event commutes with the conversion of all stored values; each merit function is converted by a strictly monotone map; the RBF and GP predictions convert"
 ],
 "C101": [
  "Loop/Run, Units/Points, Units/Sim, Units/SimLoop",
  "a simulation: every event commutes with the map x -> c*x+t applied to all stored points; distances scale by c, the merit functions, truncated normal draws, genetic algorithm and surrogates commute"
 ],
 "C102": [
  "Design/Model",
  "the rank is invariant under column scaling, the score is multiplied by c; a symmetric hypercube of fewer than 2*dim points lies on a hyperplane through its center, so that its rank is deficient iff the center is the origin"
 ],
 "C103": [
  "Checkpoint/Result",
  "invariant: completed records of the controller = history of the strategy (plus registered points before the first resume); running records correspond by identifier; the history is a sublist of all evaluations ever completed, of the same length if nothing was resumed"
 ],
 "C104": [
  "Strategy, Loop, Sop, Validate/Args",
  "equality of the step functions for two batch sizes, then induction over the runs (both directions); case distinction in the constructors"
 ],
 "C105": [
  "Strategy/Overwrite",
  "runs with an additional event that overwrites the argument of a running record; invariant for the counters; concrete runs as counterexamples"
 ],
 "C106": [
  "Checkpoint/Plot",
  "the running minimum by induction over the list; the import block and the empty list by evaluation of the model"
 ],
 "C107": [
  "Surrogate/Poly",
  "scikit-learn by contract (a minimizer of the ridge loss on the monomials); minimizers = solutions of the normal equations, existence and uniqueness (strict convexity); C50 for the histories"
 ],
 "C108": [
  "Surrogate/Mars",
  "py-earth by contract (array points x variables x outputs); NumPy broadcasting modelled; chain rule"
 ],
 "C109": [
  "Surrogate/GP",
  "scikit-learn by contract (posterior mean and variance, hyperparameters within bounds); the variance is the least squared error of a linear estimator; positive semidefiniteness of the Gaussian kernel"
 ],
 "C110": [
  "Surrogate/GP",
  "linearity of the posterior mean; standardization"
 ],
 "C111": [
  "Sop/Calm",
  "POAP's serial loop as a function; invariant of a round over loss-free runs (C56_live_partial), conservation of queued points (C06)"
 ],
 "C112": [
  "Sop/Equivar",
  "every step commutes with the conversion: ranks by uniqueness of the non-domination rank (C41), orders and distances in the unit box; induction over the history"
 ],
 "C113": [
  "Loop/SopRun, Units/SopLoop",
  "the loop (SOP, candidate search, fitted surrogate) commutes with the conversion, by induction over the schedule; ties in the candidate search resolved alike"
 ],
 "C114": [
  "Cand/Acq, Props/Stop",
  "exact condition for None from elitism of the genetic algorithm; pigeonhole for batches larger than what is left of the domain"
 ],
 "C115": [
  "Surrogate/GP",
  "mean and variance of the posterior are invariant under bijections of the index set; residuals are nugget times the coefficients and the kernel matrix is positive semidefinite"
 ],
 "C116": [
  "Loop/SopRun",
  "unfolding of the candidate search, C28_selection with weight one, order of unit_rescale; invariants of the archive; explicit run for the refutation"
 ],
 "C117": [
  "Validate/Args, Sop/Fewer",
  "case analysis of the tests; for the refutation an invariant: evaluated new points of the centers, pending evaluations and queue are together at most one batch"
 ],
 "C118": [
  "Loop/Object, Loop/Data, Strategy/Keep",
  "invariant: the data of the object are those of the strategy, the design of the run is queued, running or evaluated; exact conditions of C77; induction over the rounds"
 ],
 "C119": [
  "Loop/Object, Design",
  "the initial phase round by round; C66 and C77"
 ],
 "C120": [
  "Loop/SopObject, Loop/SopRun, Sop/Calm",
  "invariant: the data of the object are known values and completions; free centers for all searches; the rounds of C111; refutation by the pigeonhole principle and C56"
 ],
 "C121": [
  "Loop/Run, Loop/Object, Strategy/Perturb",
  "induction over the schedule; for DYCORS: the perturbation probability grows with the budget, explicit draws between the two probabilities"
 ],
 "C122": [
  "Loop/Order, Loop/Sync, Loop/Object",
  "a run is a chain of batches; each batch is a function of the set of data of the earlier ones (invariant within a batch, order independence of the auxiliary problems and of the surrogates)"
 ],
 "C123": [
  "Units/Renum, Units/RenumLoop, Design/Complete, Surrogate",
  "equivariance of each function under a permutation of the coordinates, lifted to runs by induction on the schedule; completeness of the SLHD generator (C124)"
 ],
 "C124": [
  "Design/Complete",
  "construction of the coin flips and permutations from the levels of a symmetric Latin hypercube, converse by C43"
 ],
 "C125": [
  "Loop/Chance, Loop/Play, Cand, Strategy",
  "lower bound of the truncated normal density for one call, then induction on the adversary's plan with upper integrals (no measurability is assumed of the adversary)"
 ],
 "C126": [
  "Cand/Candidates, Loop/Chance",
  "exact computation in the product of the uniform laws"
 ],
 "C127": [
  "Random/Model, Loop/Chance",
  "the points completed by a terminated run are determined by the draws (C60); product measure"
 ],
 "C128": [
  "Utils/GA, Loop/GAPlay",
  "elitism and box invariants (C34), lower bound of the normal density for the mutations of one individual, induction on the adversary's plan with upper integrals"
 ],
 "C129": [
  "Design/Model, Design/Complete",
  "the outcomes can be read off the design (injective), every design is reached (C124); level law by a symmetry of the outcomes"
 ],
 "C130": [
  "Loop/Apart, Loop/Fresh, Strategy/*",
  "invariants on the history (distance of each batch from everything alive), pigeonhole on a grid, the moment the termination flag is set"
 ],
 "C131": [
  "Strategy/Logging",
  "lines emitted by each event; invariant linking log and state by induction over runs; concrete runs for the refutation"
 ],
 "C132": [
  "Loop/Repeat, Props/Repeat",
  "the truncated normal law has no atoms; induction over the plan of the adversary with upper integrals; product sets of positive measure for the refutations"
 ],
 "C133": [
  "Props/Unique",
  "equality cases of the lower bounds of C57; explicit second minimizers for the refutations"
 ],
 "C134": [
  "Props/OneStep",
  "expectedBest = b - expImprovement by integral_sub; the genetic algorithm's result has the largest merit of the evaluated points (C33, C34); the closed formula is the integral (C32)"
 ],
 "C135": [
  "Props/Enough",
  "explicit regular symmetric design (existence) and counting of outcomes; diagonal design for the refutation; for the Latin hypercube the determinant along a line is a polynomial with finitely many zeros, disintegration of Lebesgue measure"
 ],
 "C136": [
  "Float/Step, Props/StepFloat",
  "simulation relation between the exact and the rounded step control, preserved by every call; rounding error bounds for the level"
 ],
 "C137": [
  "Float/Merit, Props/MeritFloat",
  "error analysis of the distance by induction on the dimension, of the merit by chaining rounding errors; induction on the selected points"
 ],
 "C138": [
  "Props/Uniform",
  "product measures, cells of the subdivision, measure preserving symmetries of the draws"
 ],
 "C139": [
  "Props/Batches",
  "invariant over all histories; induction on the number of batches"
 ],
 "C140": [
  "Float/GA, Props/GAFloat",
  "invariant over the generations with a rounding after every operation; explicit counterexample box"
 ],
 "C141": [
  "Float/Acq, Props/AcqFloat",
  "C140 and induction on the points chosen, with the error bound of cdist (C137_distance)"
 ],
 "C142": [
  "Sop/Perm, Loop/SopSync, Loop/SopSyncRun, Props/SopSync, Props/SopTies",
  "the records of two runs are permutations of each other; ranks, crowding, centers and memory commute with renumbering when the values are different (ranks are unique: C20), and induction on batches; the refutation is a concrete pair of runs"
 ],
 "C143": [
  "Checkpoint/Bare, Checkpoint/Again, Checkpoint/Interrupted, Props/Interrupted",
  "simulation: the killed process is at a state of the uninterrupted run up to event numbers and counters, or has lost its running evaluation, which the next call of propose_action proposes again; the refutations are concrete runs"
 ],
 "C144": [
  "Sop/Equivar, Units/SopLoop, Units/SopRenum, Props/SopRenumber, Props/SopMirror, Props/SopMirrorDesign, Props/SopRenumberDemo",
  "equivariance of every step of SOP under an injective map of the points which is an isometry of the unit box, by induction on the run; the reflection is half-even rounding's symmetry"
 ],
 "C145": [
  "Units/Mirror, Units/MirrorLoop, Props/Orientation",
  "equivariance of the candidate searches and of every generation of the genetic algorithm under reflections (half-even rounding is odd), then induction on the run"
 ],
 "C146": [
  "Sop/Stuck, Props/SopResume",
  "invariant: a lost evaluation keeps its center busy for ever; counting free centers"
 ],
 "C147": [
  "Props/Killed",
  "the phase changes when the queue is found empty, not when the design is evaluated; the dead state is invariant; induction over the schedule that leads there"
 ]
}