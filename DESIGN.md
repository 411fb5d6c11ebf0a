# Formal model of auto-soh (`moirae`): design

The code under study is the Python package in `/repo/moirae`. This directory holds a Lean 4 model of it
(`lean/Verif/**`), the properties (`properties.jsonl`), which theorem settles which property
(`MANIFEST.json`), and the log of deliberately wrong models (`seeded/LOG.jsonl`).

## 1. How the code is modelled

* **Shallow embedding, function by function.** Every Lean definition cites the Python lines it follows and
  says what it leaves out. Python exceptions are values: functions that can raise return `Except Err α`
  (`Verif/Py.lean`) or, where state survives an exception, a pair of state and outcome.
* **Numbers** are mathematical reals (ℝ). Floating-point rounding and overflow are *not* modelled. NaN and the
  infinities are modelled where the code looks at them (`Num` in `Verif/Model/Hdf5.lean`: times and cycle numbers
  in HDF5 files, rows of datasets, cycle capacities). Division by zero never hides behind Lean's `x / 0 = 0`: theorems that
  need a divisor to be non-zero say so.
* **Arrays.** Three representations, each as rich as the code above it needs.
  `NDArray` (`NumPy/NDArray.lean`): shape and row-major entries, for `enforce_dimensions` on any rank.
  `Arr2` (`NumPy/Arr2.lean`): `(batch, width)` arrays as stored in HealthVariables and containers.
  `Nd` (`NumPy/Nd.lean`): shape and indexing function, with NumPy's broadcasting, `reshape`, `swapaxes`,
  `diagonal`, `tile`, `stack`, `squeeze`, and in-place operations, raising when shapes do not fit; for the cell models.
  `Vec`/`Mat` (`NumPy/Linear.lean`): 1D and 2D arrays of the filters, which carry their lengths so that misfits raise.
* **Sharing of Python objects** matters for C36, C41 and C143 only, which have heap models of their own
  (`Model/Heap.lean`, `Model/SimulatorHeap.lean`, `Model/EstimatorHeap.lean`), and for C31 (`Model/InterpCache.lean`). Everywhere else objects are values.

| Model file | Code | Simplifications |
|---|---|---|
| `Health`, `Expand`, `Dimensions` | `models/base.py` `HealthVariable` | tree of named fields; names are character lists, with the real `.`-splitting and decimal printing |
| `Container` | `models/base.py` `GeneralContainer` | field list; `None` fields included |
| `Interp`, `InterpCache` | `models/ecm/utils.py` | linear `interp1d` spelled out; other kinds any function of points and query |
| `Ecm`, `EcmTemplate`, `EcmEnergy`, `Heap` | `models/ecm/*.py` | every broadcast of the code; `reference_temperature=None` of a resistance left out |
| `EcmCell` | `models/ecm/*.py` on the objects of the estimators | attributes are read before the computation, not as it goes along; pinpoints and reference temperatures of resistances are kept beside the tree |
| `Thevenin` | `models/thevenin/*.py` | the solver of the `thevenin` package is any function of parameters, start values, current and duration |
| `Simulator`, `SimulatorHeap`, `SimulatorFrame` | `simulator.py` | any cell model and degradation model |
| `Distributions` | `filters/distributions.py`, `filters/conversions.py` | `pinv` a parameter with `M P M = M`; `block_diag` spelled out |
| `DistributionChecks` | the validators of both | arrays of any number of dimensions |
| `Ukf` | `filters/kalman/*.py` | Cholesky factor by choice (unique, proved); `svd` a parameter; no extra keyword arguments (with any, `step` raises TypeError) |
| `Wrappers`, `Estimators` | `online/utils/model.py`, `online/{__init__,joint,dual}.py` | any cell model; an estimator whose step raised is not used further |
| `EstimatorHeap` | which objects `online/{__init__,joint,dual}.py`, `online/utils/model.py` and the filters keep, copy and return | an operation of the caller replaces the value of one of their objects or calls the estimator; the cell model and the converters are not changed |
| `Hdf5` | `interface/hdf5.py` | files as finite maps; chunk size any function ≥ 1; broadcasting of size-1 axes on assignment left out (the writer never does it) |
| `Interface` | `interface/__init__.py` | any estimator; non-finite currents and voltages are not followed into the estimator |
| `Offline` | `estimators/offline/*.py` | `scipy.optimize.minimize` a parameter; finite data |
| `Extractors` | `extractors/*.py` | battdat's integration, pandas' sort and scipy's spline parameters |

* **External libraries** are parameters with the assumption written next to them, each shown satisfiable by an instance:
  `numpy.linalg.pinv` (`exists_pinv`), `svd`, non-linear `interp1d`, the `thevenin` solver, `minimize`, h5py's chunk guess,
  battdat's `CapacityPerCycle`, `sort_values` (a sorted permutation), `LSQUnivariateSpline` (anything; for C148 a cubic spline that fits best).
  For C151–C159 the `thevenin` solver is assumed exact on the equations in `Spec/TheveninOde.lean` (`ExactSolver`, satisfiable by `C151_solver_possible`).
  The package is not part of `/repo` and not installed here: these equations, and that `thevenin.Model` starts at the ambient temperature, are taken from
  general knowledge of its published model description and could not be compared with its source. Tolerances of its integrator are not modelled.
* **Specifications** (`Verif/Spec/*`) are separate, small, and do not mention the model's helpers: for instance `Spec/Cell.lean` is the
  circuit of one cell in plain formulas, `Spec/Loss.lean` the mean squared error of a simulated run.

## 2. Trusted base

* Lean's kernel (4.33.0), and Mathlib's definitions as used in statements.
* Axioms: at most `propext`, `Classical.choice`, `Quot.sound` (checked with `#print axioms`; see §6).
  No own axioms, no `sorry`, no `native_decide`/`bv_decide`.
* The faithfulness of the definitions in `Verif/Model` and `Verif/NumPy` to the cited Python lines (by reading;
  the code could not be executed here), and the external-library assumptions above.

## 3. Not modelled

Plotting, pydantic validation other than `enforce_dimensions` and the validators of distributions, JSON beyond the rules stated in
`Model/Json.lean`, logging and warnings, floating point, `battdat` file formats (only the row and column views used). Also outside: extra keyword arguments passed
through `step`, `Resistance.reference_temperature=None`, non-finite measurements inside filters and losses, threads (there are none).
A check of the line citations (every executable line of `/repo/moirae` against the ranges cited in `Verif/Model`) leaves only imports,
class headers, abstract methods and field declarations uncited.

Smaller differences found when reading every file beside its model:
- Attributes of a health variable that are no parameters (`soc_pinpoints`, `interpolation_style`, `reference_temperature`) are
  `Field.other` in the tree. In Python `mark_all_updatable` adds the names of those holding arrays too, and names can reach them. The
  field `updatable` itself is not among the fields of the tree.
- `HysteresisParameters.gamma` has the constraint `ge=0`. Pydantic raises for a negative or a batched `gamma` at construction; in the model
  such objects exist.
- `get_parameters` with a batch size of at most 1 raises for a value that is no array only after all names are resolved, the model at
  once. The exception that comes first can differ if there are two.

## 4. Plan per property

| Property | What is modelled | How it is proved |
|---|---|---|
| C01 | `iter_parameters`, `_get_model_chain`, `get_parameters` on the tree | induction over the tree; needs: segments without `.` (dict keys) – disagreement recorded otherwise |
| C02 | `iter_parameters` | induction; injectivity of segment concatenation and of decimal printing |
| C03 | `update_parameters`, `get_parameters` | lens laws for path get/set, induction over the list of names |
| C04 | same | theorem for unbatched parameters; negation with witness for batched |
| C05 | same | frame lemma for path set, induction over names |
| C06 | same | case analysis on first failing condition, induction |
| C07 | same, partial-state-on-error semantics | invariant over call sequences |
| C08 | same | negation with witness + exact description of what has been written |
| C09 | `mark_*` | induction over the tree |
| C10 | `iter_parameters` | induction over the tree; sub-list statement |
| C11 | `expand_names` | induction; digits injective |
| C12 | `batch_size`, `get_parameters` | induction over the parameter list |
| C13 | `set_value`, `enforce_dimensions` | direct from lens laws |
| C14–C16 | `GeneralContainer` | induction over field list; C16 negation + partial |
| C17 | `enforce_dimensions` on `NDArray` of any rank | list lemmas on shapes |
| C18–C20 | ECM update, per-row real model; iterate over input lists | induction over list |
| C21–C22 | RC update | `HasDerivAt` and ODE uniqueness/closed form; C22 negation + exact discrepancy + partial |
| C23–C24 | hysteresis solver and zero-crossing split | real analysis; C24 negation (ramp + → 0 / −) + partial |
| C25–C26 | whole update | exp laws |
| C27 | voltage | unfolding to a sum over the list of RC elements |
| C28–C29 | the array-level update/voltage with NumPy broadcasting | NDArray refinement to the per-row model |
| C30–C31 | linear `interp1d` (argsort, searchsorted, slope), `soc_pinpoints` caching | sorted-list lemmas; C31 negation + partial |
| C32–C34 | `Resistance.get_value`, OCV, energy (trapezoid), capacity | real arithmetic |
| C35 | `provide_template`, `from_asoh` | direct |
| C36 | heap model of pydantic copies | negation for `rc_elements=None` construction, positive for distinct objects |
| C37–C38 | `_make_models`, loops; polynomials | list lemmas, Horner = sum |
| C39–C40, C43 | Simulator over abstract models | induction over the input list |
| C41 | heap model of the copies made by Simulator | non-interference proof; negation for returned objects |
| C42 | `to_dataframe`, `to_batdata` layout | index arithmetic; negation + partial |
| C44–C47 | distributions and operators over `Matrix` | block/matrix algebra |
| C48–C54 | UKF over `Matrix` | matrix algebra, Schur complement; C52 negation + partial |
| C55–C61 | wrappers, joint and dual estimators | lens laws, conjugation; C57–C59 negation + partial |
| C62–C65 | `row_to_inputs`, `run_online_estimate` | induction; negations |
| C66–C69 | HDF5 writer/reader state machine | invariants over operation sequences; C67/C68 negation + partial |
| C70–C72 | loss and optimiser glue | sums over lists; C71 negation + partial |
| C73–C74, C81–C83 | extractors | list max; sums of positive reals; permutations; C81 negation + partial |
| C75 | `update_parameters` with names that are no parameters | case analysis on the chain; negation for names of sub-models |
| C76, C78–C80 | dual and joint estimators over histories, runs over datasets | invariants over histories: covariances stay positive definite; C80 negation + partial |
| C84–C86 | validators of distributions and operators, Taylor operators | case analysis on shapes; matrix algebra; negations + partial |
| C87–C89 | construction of joint and dual estimators | there and back through the converters, lens laws; C88/C89 negation + partial |
| C90–C91 | whole update | independence from `update_rows`; uniqueness of the solution by an integrating factor; C91 negations + partial |
| C92–C93 | filter wrappers and `Simulator.step` | simulation relation between hidden states and objects, induction over controls; C92 negation + partial |
| C95 | `tolist`, `np.array`, the annotations of all classes, writing and reading by annotation (pydantic's rules) | mutual induction over annotations and classes; `enforce_dimensions` is the identity on what it made |
| C94 | `TheveninASOH` validator, `from_asoh`, `update_transient_state` | cases on the lists; induction over the inputs with the fitting of the state as invariant |
| C96 | sequences of `update_transient_state`, terminal voltage | cell-by-cell reading of a run; induction over the steps of the rest; limit of the exponentials |
| C97 | both cell models | differences of shifted arrays are equal; induction over the history |
| C98 | `update_transient_state` | two successful runs compared part by part |
| C99 | RC branch of `update_transient_state` | convex combination, bounds of the ramp's weight; induction over the history; negation under linear behaviour |
| C100 | `step`, `correction_update` | the covariance is computed before the measurement enters; histories of affine models through C101 |
| C101 | `step` on affine models | equality with the Kalman filter (C50), optimality of its gain (Joseph form), induction over the history |
| C102 | joint wrapper around `EquivalentCircuitModel` (`Model/EcmCell.lean`) | rows of copies of templates, the row-by-row theorems of C28/C29 and their exact conditions translated into names of parameters |
| C103 | `initialize_ukf_from_wrapper`, `JointEstimator.step` on a circuit | C102 gives a model acting on rows; change of units (C56); runs of healthy estimators (C78); under linear behaviour for pairs of controls at different times, the model pinned to each pair |
| C104 | `CellModelWrapper.update_hidden_states`, `.predict_measurement` on a circuit | hidden states and containers read as batches; rows of the circuit's batches (C28, C29) |
| C105 | `DegradationModelWrapper.update_hidden_states`, `.predict_measurement` on a circuit | copies of the state of health read as batches; rows and number of rows of the circuit's voltages |
| C106 | `DualEstimator.initialize_ukf_from_wrappers`, `.step` on a circuit | the rows of C104 and C105 carried to any units and put into C76, under linear behaviour pinned to pairs of controls as for C103; the negation by counting rows of points and predictions |
| C107 | `JointEstimator.initialize_unscented_kalman_filter`, `DualEstimator.initialize_unscented_kalman_filter`, `run_online_estimate` on a circuit | the wrappers built from the given values meet the conditions of C103 and C106; three controls of a row where a template without temperature has two; then C79.  Under linearly changing currents: the rows after the first one by one, each step as in C103 and C106 |
| C108 | `run_online_estimate`, `row_to_inputs`, the wrappers' `make_copy` of the inputs | the negation by a relation kept by all steps: two estimators that differ only in controls that are the same inputs; the partial theorem by filling the template |
| C109 | `OnlineEstimator.__init__`, `output_names`, `num_output_dimensions`, `control_names`, the controls of the filters | output names through C15 on the example output; controls by induction over the history, from the values at construction (C87) and from each step; the negation with readings of `row_to_inputs`, which always have a temperature |
| C110 | `expand_names`, `get_parameters`, `_get_model_chain` on arbitrary names | a relation “leads to” by attributes, positions and keys; both functions commute with following it, and by induction over the name fail exactly where it ends; the negation for names going on behind a parameter |
| C111 | `HDF5Writer` (all operations), `read_state_estimates` of a path | induction over the operations: each changes at most the group under the writer's own key; then C66 on the group found there |
| C112 | `CellModelWrapper` of an equivalent circuit, `UnscentedKalmanFilter.step`, `DualEstimator.step` | the single-cell equations of C104 are affine in the state when the curves are straight (closure of affine functions under the formulas); then the affine step of C50, by induction over the history; dual: C61 gives the state of health the cell model holds |
| C113 | `mark_updatable`, `set_value`, `_get_model_chain` on arbitrary names | writing along a name fails exactly where reading the chain fails (induction over the name), and the chain fails exactly where the relation of C110 is cut off; the negation for last segments that are no attributes |
| C114 | the filter of the transient states over noise-free voltages of a cell with straight curves | C112 gives the Kalman filter; the error after a step is a matrix depending on covariances and inputs only, times the error before; induction over the history |
| C115 | `Simulator.evolve` with `EquivalentCircuitModel`; the filter of the transient states on simulated data | the simulator's step is the batched update and voltage, which act row by row (C28, C29), stored and read back without loss; induction over the inputs; C114 for the estimates |
| C116 | `UnscentedKalmanFilter.step` for affine models and circuits with straight curves, any disturbances | the steps are those of the Kalman filter (C50, C112); the corrected covariance in Joseph form; sizes in units of a covariance as bounds in every direction (discriminant), which add up under linear maps |
| C117 | `Simulator.to_batdata(extra_columns=True)`: the dictionary of descriptions over a regular history | assignments to distinct keys append; the containers of a history have the same columns (C15, C42). False for the renamed columns: proved as negation |
| C118 | `ECMASOH.provide_template`, `realistic_fake_ocv` | the parameters of the one cell by evaluation; logarithms for the built-in curve; C30 for given voltages |
| C119 | runs of `EquivalentCircuitModel` with the template's circuit | charge of the series capacitor against the state of charge (C18, C20). False for efficiencies below 1: proved as negation by cycling |
| C120 | two runs of `UnscentedKalmanFilter.step` for affine models and circuits with straight curves | the steps are those of the Kalman filter (C50, C112); the difference goes through the corrected transition, bounds in every direction as in C116; for observable states the filter's gain is no worse than the observer's (C101) |
| C121 | two runs of `update_transient_state` and `calculate_terminal_voltage` | closed form of the difference of two steps of one cell, induction over the history, `run_rows` to go from batches to cells; counterexample for ramps from charging to rest (the wrong sign of the exponent found in C24) |
| C122 | `update_transient_state` and `calculate_terminal_voltage` of a pack and of its cells | scaling of one step, induction over the history; counterexample for currents below the threshold of 1e-8 A under which the asymptote of the hysteresis is not normalised |
| C123 | `Simulator.__init__`, `evolve`, `to_batdata` with the equivalent circuit | the run of the simulator (C115) gives a history of one layout, to which the theorem on datasets (C42) applies; names of columns and fields as literals in the specification |
| C124 | `UnscentedKalmanFilter.step` for affine models and circuits with straight curves, against the least squares over all paths of states | the steps are those of the Kalman filter (C50, C112); completing the square for prediction and correction, induction over the history |
| C125 | `UnscentedKalmanFilter.step` for affine models and circuits with straight curves | the steps are those of the Kalman filter; matrix identities for residual and covariance of the output of the new estimate |
| C126 | `run_online_estimate` with `JointEstimator`/`DualEstimator` made by `initialize_unscented_kalman_filter`, `EquivalentCircuitModel` | two runs in step: a relation between the estimators by both clocks, kept by every step, errors included; the circuit by `C97` |
| C127 | `EquivalentCircuitModel.update_transient_state`, `calculate_terminal_voltage` over whole histories | by the equations of one cell (`run_rows`): reordering commutes with a step, the voltage is a sum; elements with equal time constants take the same step |
| C128 | `run_online_estimate` with `JointEstimator`/`DualEstimator`, two runs of one estimator | the loop over a concatenation is two loops; a step changes no names or sizes |
| C129 | `run_online_estimate` with any estimator and writer, `row_to_inputs` | the same lookups in every row, by induction over the rows; errors included |
| C130 | `initialize_unscented_kalman_filter` with and without `normalize_asoh`, joint and dual, `DualEstimator.step`, `run_online_estimate` | the two filters hold the same beliefs in different units, which a step of the filter keeps (C56); the default process noise is in the units of the filter (C89), so it has to be given |
| C131 | `DegradationModelWrapper` of an equivalent circuit, `UnscentedKalmanFilter.step`, `DualEstimator.step`, `initialize_ukf_from_wrappers` | interpolation is a weighted sum of the values; a copy with new values holds every value where `make_copy` writes it, so the voltage is affine in them; then the affine step of C50 with the identity as transition, by induction over the history; in the units of the model for the parameters (C130 for others) |
| C132 | both wrappers of an equivalent circuit, `DualEstimator.step`, `initialize_ukf_from_wrappers` | curves with one value, or two interpolated linearly, are straight whatever values are written; so the filter of the transient states makes a Kalman step (C112) with the parameters estimated before, and that of the parameters one of least squares (C131) at the states estimated before; induction over the history with both filters' beliefs and `getEstimatedState` as the link |
| C133 | joint wrapper of an equivalent circuit, `JointEstimator.step`, `initialize_ukf_from_wrapper` | a copy with new values holds every value where `make_copy` writes it; a curve with one value is that value and the others are straight, and the time constant of the hysteresis does not depend on any of them, so next state and voltage are jointly affine; then the affine step of C50, induction over the history, C56 for other units |
| C134 | `JointEstimator.step` on the records of `CellSimulator.step` | the estimator is a Kalman filter (C133); the simulated cell with other values follows the same affine system from its own state and values, so the weighted error does not grow (C116); each entry by Cauchy-Schwarz |
| C135 | `JointEstimator.step` | the estimator is a Kalman filter (C133), and the mean of the Kalman filter is the end of the cheapest way (C124) |
| C136 | `HealthVariable.update_parameters` | an object is determined by its skeleton and its values; a successful update replaces the values of the named parameters by blocks of columns (C04/C05), so two updates compose as the lookups in their blocks do |
| C137 | `JointCellModelWrapper`, `JointEstimator.initialize_ukf_from_wrapper`, `JointEstimator.step` | copies of the templates override their values (C136), so the filter sees the same model; on circuits the Kalman filter of C133 from two first estimates, as in C120 |
| C138 | `MeanSquaredLoss.__call__` on circuits | C70 with the runs of the circuit model (C115): the copies hold a circuit again, every row reads as an input at a temperature, and the predicted voltages are those of the equations by induction over the rows |
| C139 | `MeanSquaredLoss.__call__`, `CellSimulator.to_batdata` | the exported table (C123) read row by row gives the inputs and voltages of the run, so C138 compares the run with itself; without temperatures the rows count as 25 °C, which refutes the full claim (§5) |
| C140 | `ScipyMinimizer.estimate` on circuits | state, parameters and voltage are jointly affine (C133), so the voltages of all rows are affine in the starting point; sums of squares of affine functions are convex, and attain the distance to a closed subspace; a local minimum of a convex function is one |
| C141 | `run_online_estimate` with and without `hdf5_output`, `output_states`; `HDF5Writer`; `read_state_estimates` | the loop over the rows with a writer determines the one without; observed histories split at any row, so the rows read back (C77) do; a used writer meets its own group (C69) |
| C142 | `run_online_estimate` with `hdf5_output` when it raises (`runFile`, returning the writer as well as the exception) | `runFile` is `runOnline` with the file kept (C142_same_run); per-timestep rows can always be written (their number is declared), so the log of the rows observed so far is an invariant of the loop in every branch |
| C143 | objects of the caller and of the estimators on a heap (`startJoint`, `startDual`, `exec`) | simulation: every run of a program of the caller returns what the estimator of C28/C29 returns whose wrappers are given the caller's templates anew before every call (C143_joint_follows, C143_dual_follows); templates that differ in estimated values only give the same wrapper (C137); a cell whose output contains a fixed parameter refutes the rest |
| C144 | noise as square-integrable random vectors on any probability space (`Spec.White`), runs of the filter on the measurements in every case | orthogonality: by induction over the steps the error of every estimate has the reported covariance and is uncorrelated with all measurements so far, so every other affine function of them has its mean squared error plus the mean square of the difference (`best_of`, `Before.step`); the runs are those of C50, C112 and C133; such noise exists for all covariances (C144_possible: one of finitely many equally likely cases) |
| C145 | Bayes' rule for densities (`Spec.learn`: integrate over the last state, multiply by the density of the measurement), no reference to a filter | product of normal densities under affine maps (exponents: `misfit_correct` of C124; determinants: Weinstein–Aronszajn), integral of a normal density by its Cholesky factor and Mathlib's Gaussian integral; induction over the history; the runs are those of C50, C112 and C133; the conditional density determines estimate and covariance (C145_unique) |
| C146 | jointly normal random numbers on any probability space (`Spec.JointlyNormal`: every linear combination is normal), truths as in C144, `Spec.NormalAround` | states, measurements and estimates are affine in the random numbers, so errors and measurements are jointly normal; errors of best estimates (C144) are uncorrelated with the measurements, hence independent (Mathlib's theorem on jointly Gaussian vectors); probabilities within c standard deviations by rescaling (C146_within); such noise exists (C146_possible) |
| C147 | `Spec.Quadratic`, `Spec.ExpectedOutput` (integral over any probability space with given mean and covariances), circuits of `Spec.JointlyCurved` | sigma points and random states have the same first two moments, and quadratic functions depend on these only; bilinear form of two-point curves from the values of the copied state of health |
| C148 | `Spec/OcvFit`: cubic splines (twice differentiable, cubic between knots), weighted sum of squares, what scipy promises of `LSQUnivariateSpline` (`FitsBest`: the spline returned has the least sum of squares; an assumption, shown satisfiable), four SOCs between neighbouring points, charge and discharge alike. | The sum of squares of any spline is that of the curve plus the weighted squares of the difference: the cross terms cancel because weights are even and overpotentials odd in the current. Four roots of a cubic between neighbouring points give equality at the points. `C148_balanced_cycle`, `_one_current`, `_order_irrelevant`, `_extracted_object`, `_possible`. |
| C149 | Comparison of two runs of `Simulator.evolve` (C115) of cells with the same parameters, as a state order preserved by every branch of `update_transient_state` | Each of SOC, series charge, RC currents and hysteresis is monotone in state and current (the hysteresis needs its own argument: rate and target both depend on the current); voltage is monotone in all of them; induction over the run. Under linear behaviour the RC formula is decreasing in the previous current: negations for RC currents and voltages |
| C150 | Two runs of `Simulator.evolve` (C115) of cells that differ by the factor in resistances, times and currents | Every formula of the step is homogeneous: durations k, slopes 1/k², charges and exponents 1; zero crossings of ramps move with the clock; induction over the run |
| C151 | The Thevenin step of C37 iterated; the package's equations (`Spec/TheveninOde`) and a solver that is exact on them as a parameter, whose existence is proved | A step from the state ends at any course through it; for held temperature the equations are linear along the SOC, so courses exist and are unique (integrating factor); courses are glued over the run. Negated with a cell without RC elements if the temperature is free |
| C152 | The runs of C151 followed by the terminal voltage of C38 | Courses of C151; with an integrating factor a quantity that is only pushed down stays below 0; at rest the SOC is constant and the equation is solved in closed form; induction over the run |
| C153 | Two runs of C151 from different states with the same inputs, and their voltages (C38) | Differences of overpotentials obey w' = -w / (R C) along the common SOC, which lies between its values at the inputs; comparison with the slowest exponential (C152's sign lemma); induction over the run. SOC from the charge balance of C151 |
| C154 | Two runs of C151, of a cell and of a pack of such cells (`Spec/TheveninPack`: parameters, currents and overpotentials multiplied), and their voltages | A course of the cell with its overpotentials multiplied obeys the equations of the pack; both runs end at their courses (C151), voltages by C38 |
| C155 | A run of the equivalent circuit under constant behaviour and one of the Thevenin model (C151) with the same constant parameters, inputs and state (`Spec/TwoModels`), and their voltages | With constant parameters the equation of an overpotential has an explicit solution, which is the equivalent circuit's update of the RC current; the SOCs are the sums of charge of both models, which differ by the changes of current. Negation by a cell whose current sets in at the second input |
| C156 | Two runs of C151, of a cell and of one with `k` times the resistances, on clocks that differ by a factor and an offset (`Spec/TheveninClock`), and their voltages | The course of the cell, read on the other clock, obeys the equations of the slow cell; both runs end at their courses (C151), voltages by C38 |
| C157 | Two runs of C151 of the same cells, from states and with inputs that are above one another (`Spec/TheveninOrder`), and their voltages | Explicit solution for overpotentials whose parameters do not depend on the SOC (from C155), which is monotone in state and current, and charge for the SOC; induction over the run, voltages by C38 |
| C158 | Steps without duration and single pulses in both models, and their voltages; the formula of pulse tests (`Spec/Pulse`) | Circuit: a step without duration keeps the state (C26), explicit RC currents and charge, voltage as sum (C27, C29). Thevenin: courses without duration, explicit overpotentials (from C155), voltages by C38 |
| C159 | Three runs of either model whose currents are a linear combination (`Spec/Superpose`) | Circuit: one step of the explicit RC currents and of the charge is linear in current and RC current for both behaviours, then induction, rows by C29, voltage as sum. Thevenin: explicit overpotentials (from C155) and SOC (C151) along the three courses, same induction, voltages by C38 |
| C77 | run with a writer, then the reader | simulation between the run and the file, induction over rows |

## 5. Where the code disagrees with the property

Every entry is a property the code does not satisfy in full. Theorems ending in `_partial` prove what does hold; the others named
here are proved negations with concrete witnesses or exact descriptions (regenerate with `python3 tools/disagreements.py`).

* **C04 Writing back what was read changes nothing.** Holds for unbatched objects (identity of the whole object). False for batched parameters: np.size counts rows times columns (C04_batched_round_trip_raises for every batched parameter).  
  Theorems: `C04_get_then_update_partial`, `C04_batched_round_trip_raises`, `C04_fails_on_batched_object`.
* **C08 A rejected update leaves the object unchanged.** False: a rejected call can leave a prefix of the blocks written (two witnesses). The partial theorem says a prefix of the blocks is written and nothing else, and nothing at all if the first name is refused.  
  Theorems: `C08_rejected_update_changes_object`, `C08_too_many_columns_changes_object`, `C08_rejected_writes_prefix_partial`.
* **C16 from_numpy rejects vectors of the wrong width.** False: no width is ever rejected. The partial theorem says exactly what happens to surplus and missing columns.  
  Theorems: `C16_wrong_widths_accepted`, `C16_wrong_width_effect_partial`.
* **C19 Coulombic efficiency applies only while charging.** One-step rule and 'never gains' proved for constant behaviour over any history; under linear behaviour the second part is false (C19_linear_gains) and proved when no step starting with a non-negative current has a negative net charge.  
  Theorems: `C19_efficiency_rule`, `C19_never_gains_constant`, `C19_charge_then_discharge`, `C19_never_gains_linear_partial`, `C19_linear_gains`.
* **C22 RC currents solve their ODE exactly under linear current.** False: the excess over the exact solution is exactly (1-exp(-dt/tau))(I_new-I_prev); never exact when the current changes (C22_not_exact).  
  Theorems: `C22_rc_linear_excess_partial`, `C22_rc_linear_flat_partial`, `C22_not_exact`, `C22_counterexample`.
* **C23 Hysteresis stays in its envelope under constant current.** Envelope for all currents; convexity and monotone approach for I=0 or |I|>1e-8 A; below 1e-8 A the code uses M*I as target and convexity fails (C23_tiny_current_moves_away).  
  Theorems: `C23_convex_partial`, `C23_envelope_constant`, `C23_monotone_approach`, `C23_tiny_current_moves_away`.
* **C24 Hysteresis stays in its envelope when the current ramps linearly.** False for ramps from a positive current to zero or below (C24_envelope_violated); proved for all other ramps, including negative through zero to positive.  
  Theorems: `C24_envelope_linear_partial`, `C24_envelope_violated`.
* **C28 Batched transient update equals row-by-row updates.** For every batching pattern with sizes 1 or B: whenever the batched update returns it equals the row-by-row updates (which then return too), and it returns exactly when CanUpdate holds (times and currents unbatched, usable curves, time constants of one shape). The excluded patterns raise instead of working row by row: batched times or currents, RC elements batched differently, batched temperature factors (negations proved).  
  Theorems: `C28_update_row_by_row_partial`, `C28_history_row_by_row_partial`, `C28_update_returns_partial`, `C28_batched_current_raises`, `C28_mixed_rc_raises`, `C28_batched_temperature_factor_raises`, `C28_update_returns_iff_partial`.
* **C29 Batched voltage equals row-by-row voltages.** For every batching pattern: whenever the batched voltage returns it equals the row-by-row voltages, and it returns exactly when CanVoltage holds. The excluded patterns raise instead of working row by row: batched entropic curve with unbatched reference curve, batched temperature with an unbatched SOC, batched temperature factor (negations proved).  
  Theorems: `C29_voltage_row_by_row_partial`, `C29_voltage_returns_partial`, `C29_batched_entropy_raises`, `C29_batched_temperature_factor_raises`, `C29_voltage_returns_iff_partial`.
* **C31 Evaluating a parameter has no lasting effect.** False as stated: missing pinpoints are cached on first evaluation, after which a different number of values cannot be evaluated (C31_evaluation_breaks_later_assignment). Holds while the number of values does not change, or when pinpoints are given.  
  Theorems: `C31_evaluation_breaks_later_assignment`, `C31_no_lasting_effect_partial`, `C31_no_lasting_effect_with_pinpoints_partial`.
* **C35 Templates fit the circuits they are made for.** from_asoh, acceptance of the pair by both model functions and the circuit template hold. The raises-iff part holds for lists of currents; batched currents are counted by rows (C35_batched_currents_miscounted).  
  Theorems: `C35_state_fits_circuit`, `C35_pair_accepted`, `C35_raises_iff_count_differs_partial`, `C35_batched_currents_miscounted`, `C35_circuit_template`, `C35_template_evaluable`.
* **C36 RC elements of a template are independent parameters.** False for the default template at every size (C36_default_elements_shared); holds when RC information is given.  
  Theorems: `C36_default_elements_shared`, `C36_given_elements_independent_partial`.
* **C37 Thevenin batch members are simulated with their own parameters.** Every member is run with its own rows (any batching pattern, any solver), but the temperature of the transient state is never handed to the solver (C37_state_temperature_ignored); row counts that contradict each other are wrapped around instead of refused (C37_conflicting_sizes_accepted).  
  Theorems: `C37_member_runs_alone_partial`, `C37_single_cell`, `C37_state_temperature_ignored`, `C37_conflicting_sizes_accepted`.
* **C41 The simulator is isolated from its caller's objects.** Holds for the objects passed in and for every returned object the simulator does not keep; false for the returned transient state (it is the simulator's own object) and for the returned measurement (it is the history entry): negations C41_returned_transient_is_live, C41_returned_transient_changes_behaviour, C41_returned_measurement_changes_history.  
  Theorems: `C41_isolated_partial`, `C41_returned_transient_is_live`, `C41_returned_transient_changes_behaviour`, `C41_returned_measurement_changes_history`.
* **C42 Dataframe rows carry the batch label of the cell they describe.** Rows hold the right values step by step, and the batch labels are right exactly for one cell or one step (C42_labels_right_iff); the labels repeat each cell instead of cycling through cells, so datasets mix cells (C42_labels_name_wrong_cells, C42_batdata_mixes_cells).  
  Theorems: `C42_rows_partial`, `C42_labels_right_iff`, `C42_batdata_contents_partial`, `C42_batdata_single_cell_partial`, `C42_labels_name_wrong_cells`, `C42_batdata_mixes_cells`, `C42_rectangular`, `C42_needs_history`.
* **C48 Sigma points carry exactly the prior's mean and covariance.** Exact for positive definite P, Q, R, every legal tuning and every dimension; C48_exact_iff shows that with a singular covariance the points are never exact (the repair adds a vector to every row).  
  Theorems: `C48_points_exact_partial`, `C48_exact_iff`.
* **C51 Filter covariances are valid and never grow at correction.** Predicted covariances: any model and points. Correction and whole histories: positive definite covariances and models acting on each state by itself. For a singular corrected covariance the repair makes it non-symmetric (C51_singular_correction_invalid).  
  Theorems: `C51_predictions_valid`, `C51_step_partial`, `C51_history_partial`, `C51_singular_correction_invalid`.
* **C52 Covariance repair returns a positive semi-definite matrix.** Positive definite input is returned unchanged and single numbers are repaired correctly; the repair of larger matrices is not symmetric (C52_repair_not_symmetric): the code multiplies by the 1D array of singular values.  
  Theorems: `C52_positive_definite_kept_partial`, `C52_scalar_repaired`, `C52_repair_not_symmetric`.
* **C55 Hidden vectors and model objects round-trip in the joint wrapper.** Both round trips are proved for every tree, selection, batch size and converter with a two-sided inverse. Missing: a batch of more than one hidden row when no A-SOH parameter is selected. There the code raises, proved as C55_batch_without_parameters_raises.  
  Theorems: `C55_objects_to_hidden_and_back`, `C55_hidden_to_objects_and_back_partial`, `C55_batch_without_parameters_raises`.
* **C57 estimator.state agrees with the last estimate returned by step.** After any history the state converted to model coordinates is the estimate last returned by step (equal to it without conversion), and get_estimated_state holds its mean. state itself is in filter coordinates: C57_state_not_converted.  
  Theorems: `C57_state_converted_partial`, `C57_state_without_conversion_partial`, `C57_objects_hold_the_estimate_partial`, `C57_state_not_converted`.
* **C58 The dual estimator exposes its combined state.** state raises for every dual estimator (C58_state_always_raises); the combination described is what step returns (C58_returned_estimate_partial).  
  Theorems: `C58_state_always_raises`, `C58_returned_estimate_partial`.
* **C59 The dual estimator works for any chosen subset of updatable parameters.** False in the code: estimating a strict subset makes every step raise (C59_strict_subset_raises) and another order exchanges values (C59_reordered_parameters_misplaced). Proved when all updatable parameters are estimated in their own order.  
  Theorems: `C59_reordered_parameters_misplaced`, `C59_strict_subset_raises`, `C59_all_parameters_partial`.
* **C60 State names label the state vector.** Names, number and order proved for all models and selections. Distinctness needs that no selected parameter has the name of a transient field, which the package does not check (C60_names_can_clash).  
  Theorems: `C60_names_label_the_state`, `C60_names_distinct_partial`, `C60_chosen_parameters`, `C60_names_can_clash`.
* **C63 Row i of the estimates describes row i of the dataset.** The code violates it: every row of the table holds the estimate of the next reading and the last row is zeros (C63_rows_shifted). Proved: one row per reading, row i is the estimate after reading i+1, for any estimator and data.  
  Theorems: `C63_rows_partial`, `C63_rows_shifted`.
* **C64 Columns ending in _std hold standard deviations.** The code violates it: the _std columns hold variances (C64_variance_in_std_column). Proved: the layout of the columns and that they hold means and variances.  
  Theorems: `C64_columns_partial`, `C64_variance_in_std_column`.
* **C65 The estimator starts from the dataset's first inputs.** The code violates it: the attribute that is set is not the one the estimators use, so that the first row changes nothing (C65_first_row_ignored). Proved: the attribute is set from the first row.  
  Theorems: `C65_attribute_set_partial`, `C65_first_row_ignored`.
* **C67 Per-cycle output stores the first step of every cycle and is read back.** The first step of each cycle is stored (C67_first_steps_stored), but reading stops unless cycle 0 is present: C67_nothing_read_without_cycle_zero; C67_read_back_partial covers consecutive cycles. Cycle numbers that are not whole count as the whole number towards zero (C67_fractions_cut_off), and rows without a finite cycle number are refused (C67_no_cycle_refused).  
  Theorems: `C67_first_steps_stored`, `C67_fractions_cut_off`, `C67_no_cycle_refused`, `C67_read_back_partial`, `C67_nothing_read_without_cycle_zero`.
* **C68 A resizable file never runs out of space.** Appends succeed as long as cycle numbers grow gradually (C68_appends_succeed_partial); a cycle number that jumps beyond one chunk raises (C68_far_cycle_raises).  
  Theorems: `C68_appends_succeed_partial`, `C68_far_cycle_raises`.
* **C69 Writer life-cycle.** Life cycle proved; preparing again hides timesteps and a reopened writer replaces rows (C69_prepare_hides_timesteps, C69_reopened_append_replaces).  
  Theorems: `C69_closed_raises`, `C69_closed_until_opened`, `C69_ready_until_closed`, `C69_sizes_needed`, `C69_refused_if_present`, `C69_prepare_keeps_data_partial`, `C69_appended_rows_stay_partial`, `C69_prepare_hides_timesteps`, `C69_reopened_append_replaces`.
* **C71 The loss accepts a batch of parameter vectors.** The code holds one row of predictions, so any batch of two or more rows raises (C71_batch_raises); proved for the one-row batch.  
  Theorems: `C71_batch_raises`, `C71_batch_partial`, `C71_concrete_batch_raises`.
* **C75 update_parameters refuses names that are not parameters.** False for every marked attribute that is not a parameter: it is overwritten by an array (C75_marked_attributes_overwritten, C75_submodel_name_destroys_parameters). Proved for names that lead nowhere or through an unmarked attribute, at any position in the list, with the structure of the object intact.  
  Theorems: `C75_submodel_name_destroys_parameters`, `C75_marked_attributes_overwritten`, `C75_inaccessible_name_refused_partial`.
* **C80 The estimates of every estimator can be stored.** The code violates it: dual estimators have no state and can never be stored (C80_dual_never_stored); files need a resizable writer (C80_file_needs_resizable). Proved for joint estimators, from memory and from files.  
  Theorems: `C80_dual_never_stored`, `C80_joint_stored_partial`, `C80_joint_stored_from_file_partial`, `C80_file_needs_resizable`.
* **C81 Datasets without any cycle capacity are refused.** The code accepts such datasets, NaN < x being False (C81_no_capacity_accepted); an accepted dataset with some capacity does reach the requirement.  
  Theorems: `C81_no_capacity_accepted`, `C81_no_capacity_extracts_nan`, `C81_accepted_reaches_partial`.
* **C84 Distributions keep their moments in the documented shapes.** The code refuses means given as a row or a column, which the documentation admits (C84_rows_and_columns_refused). Proved exactly: what is accepted and what is stored.  
  Theorems: `C84_delta_partial`, `C84_gaussian_partial`, `C84_same_check_partial`, `C84_rows_and_columns_refused`.
* **C85 Covariances follow the Jacobian.** The code computes J^T S J (C85_not_the_documented_rule; a non-square J raises, C85_other_dimension_raises). Proved for symmetric Jacobians, among them that of the only operator of the package that has one (AbsoluteValueConversionOperator).  
  Theorems: `C85_symmetric_jacobian_partial`, `C85_absolute_value_partial`, `C85_not_the_documented_rule`, `C85_other_dimension_raises`.
* **C86 A linear conversion can be made from any documented arguments.** Leaving out the additive array raises AttributeError when it is given as None, which its annotation admits (C86_no_offset_raises). Proved for vectors given as offset.  
  Theorems: `C86_linear_operator_partial`, `C86_offset_matrix_refused_partial`, `C86_no_offset_raises`.
* **C88 Process noises given to a joint estimator are used.** When only one of the two parts is given it is silently ignored (C88_lone_part_ignored). Proved for the joint covariance, and for both parts given.  
  Theorems: `C88_process_noise_partial`, `C88_lone_part_ignored`.
* **C89 The default process noise does not depend on the units.** The default 1e-8 I is taken in the coordinates of the filter, so that it changes with normalize_asoh (C89_default_noise_depends_on_units). Proved: the exact noise in model units.  
  Theorems: `C89_default_process_noise_partial`, `C89_default_noise_depends_on_units`.
* **C91 The hysteresis follows its differential equation.** Every ramp from a charging current to rest or below, and every ramp starting at rest, gives another value than the solution (C91_ramp_down_not_exact, C91_ramp_from_rest_not_exact): the exponent has the wrong sign when a falling ramp ends at zero, and the target is zero when the ramp starts at zero. Proved: exact under constant behavior for rest and currents above 1e-8 A, and for all other ramps, zero crossings from below included.  
  Theorems: `C91_constant_exact_partial`, `C91_linear_exact_partial`, `C91_ramp_down_not_exact`, `C91_ramp_from_rest_not_exact`, `C91_solution_exists`.
* **C92 A joint filter's model is the simulator.** With a degradation model the wrapper degrades the health with the previous inputs, the transient states before the update and the measurement belonging to them (model.py:375-383), one step behind Simulator.step: C92_degradation_lags. Proved: the whole simulation for histories of any length when nothing degrades, and exactly what is degraded with what otherwise.  
  Theorems: `C92_step_partial`, `C92_history_partial`, `C92_degrades_before_the_step_partial`, `C92_degradation_lags`.
* **C95 Objects written as JSON are read back.** The code violates it: pinpoints of interpolated parameters are written as a list but cannot be read (no validator), and they are filled in by every evaluation (C95_evaluation_makes_unreadable); the polynomials of Thevenin circuits are not written at all (C95_thevenin_coefficients_lost). Proved exactly: objects of their annotated classes are read back if and only if no pinpoints are set; transient states always are.  
  Theorems: `C95_read_back_partial`, `C95_transients_read_back`, `C95_evaluation_makes_unreadable`, `C95_thevenin_coefficients_lost`.
* **C99 RC currents stay within the range of the applied current.** Proved under constant behaviour over any history. Under linear behaviour the code violates it: a ramp from rest over more than one time constant ends with more RC current than was ever applied (C99_ramp_overshoots); the range widened by its width on both sides is kept (C99_linear_range_partial).  
  Theorems: `C99_constant_range_partial`, `C99_linear_range_partial`, `C99_ramp_overshoots`.
* **C106 Dual estimation of a circuit never fails.** C106_dual_circuit_runs_partial (constant currents) and C106_ramped_dual_circuit_runs_partial (linearly changing ones, at changing times): holds if all updatable parameters are estimated and one of them takes part in the voltage after all inputs. Otherwise not: where no estimated parameter takes part in the voltage – the Coulombic efficiency alone while discharging, temperature factors without a temperature, for instance – the predictions are a single row, adding the sensor noise of all points to it in place raises, and so does the first step of every such estimator (C106_unreached_raises, under both behaviours).  
  Theorems: `C106_dual_circuit_runs_partial`, `C106_unreached_raises`, `C106_ramped_dual_circuit_runs_partial`.
* **C107 A circuit can be estimated from any dataset with the given initial values.** C107_joint_from_data: joint estimation, for every choice of parameters that batches can be computed for. C107_dual_from_data_partial: dual estimation, if one of the updatable parameters takes part in the voltage after all inputs; otherwise every step raises (C106_unreached_raises). C107_joint_stored_partial, C107_joint_stored_from_file_partial: with a writer, as far as C80 holds. C107_ramped_joint_from_data, C107_ramped_dual_from_data_partial, C107_ramped_joint_stored_partial, C107_ramped_joint_stored_from_file_partial: the same under linearly changing currents, if no two consecutive rows (the template of the inputs in place of the first row) have the same time; at equal times the code divides by zero.  
  Theorems: `C107_joint_from_data`, `C107_joint_stored_partial`, `C107_joint_stored_from_file_partial`, `C107_dual_from_data_partial`, `C107_ramped_joint_from_data`, `C107_ramped_joint_stored_partial`, `C107_ramped_joint_stored_from_file_partial`, `C107_ramped_dual_from_data_partial`.
* **C108 Temperatures in the data take part in the estimates.** Holds if the inputs given at initialization have a temperature: C108_joint_temperature_used_partial, C108_dual_temperature_used_partial. Otherwise not: without one – the default of ECMInput – the template of the inputs drops the third value, and two datasets that differ in their temperatures only give the same table and stored estimates, or the same exception, for every cell model (C108_joint_temperature_ignored, C108_dual_temperature_ignored).  
  Theorems: `C108_joint_temperature_ignored`, `C108_dual_temperature_ignored`, `C108_joint_temperature_used_partial`, `C108_dual_temperature_used_partial`.
* **C109 Names of outputs and controls label the vectors of the filter.** Proved for outputs: C109_output_names, C109_joint_outputs, C109_dual_outputs. For controls it holds as long as all inputs have as many values as the initial ones: C109_control_names_partial, C109_dual_control_names_partial. Otherwise not: rows of data always give a temperature (25 where there is none), so after one of them the filters of an estimator whose initial inputs have no temperature hold three controls, while control_names has two names: C109_joint_controls_outnumber_names, C109_dual_controls_outnumber_names.  
  Theorems: `C109_output_names`, `C109_joint_outputs`, `C109_dual_outputs`, `C109_control_names_partial`, `C109_dual_control_names_partial`, `C109_joint_controls_outnumber_names`, `C109_dual_controls_outnumber_names`.
* **C110 Names that address nothing are refused.** Proved for get_parameters, with the exceptions: C110_get_parameters_refuses, C110_get_parameters_raises. expand_names raises exactly for names that cannot be followed, with the exception told by the reason (C110_expand_names_refuses_partial), but what follows the name of a parameter is not looked at: for 'r0.anything' it returns labels, though get_parameters raises for that name (C110_surplus_segments_accepted). C110_labels_as_given: names with positions counted from the end are labelled as given.  
  Theorems: `C110_get_parameters_raises`, `C110_get_parameters_refuses`, `C110_surplus_segments_accepted`, `C110_expand_names_refuses_partial`, `C110_labels_as_given`.
* **C113 Marking and setting refuse names that address nothing.** Proved for set_value, with the exceptions: C113_set_value_raises. mark_updatable raises exactly for names that are lost before their last segment (C113_mark_raises_partial), but the last segment is not looked at: marking a misspelt parameter raises nothing (C113_mark_unknown_accepted) and, for the attributes of the object itself, leaves the updatable parameters as they were (C113_misspelt_without_effect).  
  Theorems: `C113_set_value_raises`, `C113_mark_unknown_accepted`, `C113_misspelt_without_effect`, `C113_mark_raises_partial`.
* **C117 Descriptions of the columns of simulated datasets.** The tables are the same (C117_same_tables). The code violates the rest: the names described are those before renaming, so that time and terminal_voltage are described, which are no columns, and test_time and voltage are not (C117_renamed_columns_not_described); and transient states and measurements are called inputs (the variable tag is not used). Proved: all other columns are described, and the exact descriptions (C117_descriptions_partial).  
  Theorems: `C117_same_tables`, `C117_names_described`, `C117_descriptions_partial`, `C117_other_columns_described_partial`, `C117_renamed_columns_not_described`.
* **C119 The default series capacitor changes the voltage by at most 10 mV.** The bound of 10 mV holds for a Coulombic efficiency of 1, exactly 10 mV per full charge (C119_capacitor_impact_partial); for any efficiency below 1 cycling within SOC 0 to 1 charges the capacitor beyond every voltage (C119_capacitor_exceeds_any_bound).  
  Theorems: `C119_capacitor_impact_partial`, `C119_capacitor_exceeds_any_bound`.
* **C121 A circuit forgets the currents and the hysteresis it started with.** All of it holds for RC currents, series capacitors and SOC. The hysteresis difference has the closed form under the constant behaviour and under linear currents, except for ramps from charging down to zero or below, where it can grow (C121_hysteresis_violated).  
  Theorems: `C121_states_partial`, `C121_voltage_partial`, `C121_currents`, `C121_hysteresis_partial`, `C121_hysteresis_violated`.
* **C122 Cells in parallel and in series.** Series connection holds fully. Parallel connection holds unless a step starts with a current of at most 1e-8 A that is not zero, where the asymptote of the hysteresis is not normalised (C122_parallel_violated).  
  Theorems: `C122_parallel_partial`, `C122_series`, `C122_parallel_violated`.
* **C139 Simulated datasets are fitted exactly by the truth.** Holds if the inputs have temperatures, or if the circuit is at 25 degrees what it is without a temperature (C139_simulated_fit_partial). Without temperatures the loss evaluates the circuit at 25 degrees although it was simulated without temperature correction; with another reference temperature the truth has a positive loss, for datasets of every length (C139_not_without_temperature).  
  Theorems: `C139_simulated_fit_partial`, `C139_not_without_temperature`.
* **C143 Estimators are isolated from the objects of their caller.** Holds for everything but the parameters that are not estimated: the caller may change the covariances, returned objects, arguments of earlier calls, and the estimated values in the state of health, transient state and inputs they built the estimator from (C143_joint_isolated_partial, C143_dual_isolated_partial). False for fixed parameters: the wrappers keep the caller's own objects (utils/model.py:68-71) although the estimator and the filter copy theirs, so changing a fixed parameter of that state of health changes later estimates (C143_fixed_parameter_is_live). What is returned in general: the templates are read anew at every call (C143_joint_follows, C143_dual_follows).  
  Theorems: `C143_joint_follows`, `C143_dual_follows`, `C143_joint_isolated_partial`, `C143_dual_isolated_partial`, `C143_fixed_parameter_is_live`.
* **C149 More current never means less voltage.** Proved for constant behaviour (C149_more_current_partial), and for both behaviours if the inputs are the same (C149_same_inputs_partial). Violated under linear behaviour: the code's formula for the RC currents takes the current at the end of the ramp where the one at its start belongs (see C22), so the cell that had more current before always has less RC current afterwards (C149_linear_reversed), and shows the lower voltage if its open-circuit voltage is flat and it has no hysteresis (C149_linear_voltage_falls). Currents of at most 1e-8 A other than 0 are left out, as the hysteresis target is not normalised there.  
  Theorems: `C149_more_current_partial`, `C149_same_inputs_partial`, `C149_linear_reversed`, `C149_linear_voltage_falls`.
* **C151 Simulations with the Thevenin model follow its differential equations.** Isothermal cells: simulations of any length end at the solution of the equations (C151_follows_equations_partial; solutions exist by C151_course_exists), count the charge (C151_charge) and do not depend on how a step is split (C151_split). A single step with free temperature, from a state at ambient temperature and with resistances and capacitances that depend on the SOC only, is exact too (C151_warm_step_partial). Violated if the temperature is free: the temperature of the state is never handed to the solver (see C37), so the heat of a step is lost at the next and two steps of 1 s end at another temperature than one of 2 s (C151_heat_lost). The solver is a parameter assumed exact on the package's equations; such a solver exists (C151_solver_possible). The equations and the initial temperature (ambient) are assumptions about the package, whose source is not available here.  
  Theorems: `C151_follows_equations_partial`, `C151_solver_possible`, `C151_course_exists`, `C151_charge`, `C151_split`, `C151_heat_lost`, `C151_warm_step_partial`.
* **C155 Both cell models simulate the same cell alike.** Overpotentials always agree, and the differences of SOC and voltage are given exactly (C155_gap); if every change of the current has an input of its own, at the time of the input before, both models agree in everything (C155_agree_partial). In general they do not (C155_disagree): during a step the equivalent circuit charges the cell with the current of the previous input, and moves its RC currents towards that of the new input, while the Thevenin model uses the new input's current for both. A cell of 1 Ah at rest for which 1 A is reported 36 s later has gained 1 % SOC in one model and nothing in the other.  
  Theorems: `C155_gap`, `C155_agree_partial`, `C155_disagree`.

Restrictions of properties that are proved, with the theorem that shows why the restriction is there:

* **C01** Objects with dictionary keys without dots and collections held in tuples/dicts; the two C01_*_unreachable theorems show the restriction is needed.
* **C02** Same class of objects; C02_dotted_key_collision shows keys with dots must be excluded.
* **C03** C03_update_then_get: whenever the object still has a batch size; C03_update_then_get_exact: when the other parameters have one row. C03_conflicting_batch_accepted shows what happens otherwise.
* **C06** Also the exact condition on batched objects (C06_batched_requirement).
* **C12** For arrays with at least one row; C12_zero_rows_order_dependent shows zero-row arrays must be excluded.
* **C32** Law, reference temperature, no temperature, sign and antitonicity for every curve and cell of a batch; batched temperature factors raise (C32_batched_factor_raises); OCV is linear in temperature.
* **C33** All circuits with broadcastable batches; with a temperature the reference temperature must be unbatched and the entropic term not batched alone (otherwise the code raises, C33_batched_reference_temperature_raises).
* **C34** Over the reals, for every shape; setting a Python number stores it without dimensions (C34_number_loses_dimensions).
* **C40** Also shows what a failing step does: histories stay as they were, while the current transient state and inputs may already have advanced (C40_failed_step_may_advance_state).
* **C44** Gaussians of any number and dimensions (C44_combine_gaussians, C44_combine_associative) and delta distributions (C44_combine_deltas).
* **C47** Index lists in range, negative ones included; out-of-range lists raise (C47_unknown_index).
* **C66** C66_timesteps_read_back and C66_file_read_back: what is appended per timestep is read back, for any writer options and history. Times are not NaN; C66_reading_ends_at_nan shows that reading ends at a step without a time.
* **C102** For one hidden state the update can return for other choices too. That some choices are ruled out is a limitation of the code: C102_not_estimable shows one, R0's temperature factor with measured temperatures, for which every update raises.
* **C103** C103_circuit_estimator_runs: constant currents. C103_ramped_circuit_estimator_runs: linearly changing currents, if the time differs between any two consecutive inputs (at equal times the code divides by zero). Non-vanishing divisors are a hypothesis, which excludes estimating the capacity, the RC values or the series capacitance as unrestricted numbers.
* **C111** C111_other_keys_untouched, C111_read_back_after_another_writer, C111_path_of_default_key, C111_path_of_other_key. Keys are names of groups directly below the root.
* **C112** C112_straight, C112_cell_affine, C112_step, C112_history, C112_dual_step. The wrapper works in the coordinates of the model (identity converters).
* **C116** Disturbances are any vectors, entering after the model's own update and output. The size of an error e in units of a covariance P is e·P⁻¹e (spec `misfit`); C116_directions says that a bound on it is the same as one on every direction, C116_each what it says about each number. Exact arithmetic.
* **C120** C120_affine and C120_circuit: same covariances, and differences bounded by the product of the fractions carried over; C120_never_apart: the fractions may be taken to be 1; C120_affine_geometric and C120_circuit_geometric: geometric decay under the observability condition, shown satisfiable for a model with growing modes and for the concrete circuit.
* **C127** Any number of RC elements; batches of any size (member by member, runs of both circuits that succeed). C127_merge is stated for the first two elements; with C127_order these can be any two.
* **C128** Both estimators in any state, dataset in memory or in a file, any cut. C128_without_overlap says what happens if the parts do not share a row.
* **C130** C130_dual_in_any_units is about the dual estimator in any units (its joint counterpart is C56_joint_estimates_in_any_units); C130_joint_normalization and C130_dual_normalization are about circuits and datasets. Without a given process noise the estimates do depend on normalize_asoh, see C89.
* **C134** The prediction of the estimator is compared with the reported variance of the voltage; disturbed cells with drifting parameters in C134_bounded.
* **C136** last update counts, several calls or one, any order; one row is needed for the first claim (witness C136_not_after_two_rows)
* **C138** C138_loss: existence and value of the loss for all states and parameter values; temperatures of the rows, or 25 degrees. Times of the rows change under linear behaviour.
* **C140** C140_least_squares, C140_convex; C140_estimate_best and C140_simulated assume that SciPy returns a point that is no worse than its neighbours (LocalSearch; an optimiser that satisfies it is given). For the last claim without temperatures, the restriction of C139.
* **C141** For every estimator of the interface: the run without a file or without a table is determined by the one with it (C141_file_is_a_spectator, C141_table_is_a_spectator). C141_files_of_parts is about what read_state_estimates yields from three files. C141_same_file_refused: the writer returned by a run ends the next one in an error, whatever its estimator and data.
* **C142** runFile follows the same code as runOnline and also returns the writer if it raises (C142_same_run). C142_interrupted: a failure at a given row. C142_any_end: every way of ending; if the cycle of a row is refused (C68) after its estimate was stored, that estimate is in the file, too.
* **C144** For the unscented filter with any affine model (C144_affine), circuits with known parameters (C144_circuit), the filter of joint estimators (C144_joint) and joint estimators as built by initialize_ukf_from_wrapper, in native and in any other units (C144_estimator, C144_any_units; the latter for constant behaviour). C144_predictions: errors of predictions in different steps are uncorrelated. C144_misfit: the mean squared error in units of the reported covariance is the number of estimated numbers. C144_possible: such noise exists for all covariances.
* **C145** Densities are combined by Bayes' rule step by step (Spec.bayes, cellBayes, jointBayes); the corresponding statement on probability spaces is C146. C145_any_units is for constant behaviour. C145_unique: no other estimate and covariance are those of the conditional distribution.
* **C146** For the unscented filter with any affine model (C146_affine), circuits with known parameters (C146_circuit), the filter of joint estimators (C146_joint) and joint estimators as built by initialize_ukf_from_wrapper, in native and in any other units (C146_estimator, C146_any_units; the latter for constant behaviour). C146_within: probabilities of being within c standard deviations, given any set of measurements. C146_possible: such noise exists for all covariances.
* **C147** For any model of this kind (C147_predicts: the prediction and what a step returns), circuits (C147_quadratic: states affine, voltages quadratic), any history (C147_history) and joint estimators as built by initialize_ukf_from_wrapper, in native and in any other units (C147_runs, C147_any_units; the latter for constant behaviour). C147_possible: such random states exist for all covariances.
* **C159** C159_superposition for the equivalent circuit (both behaviours of the current, steps without duration excluded for the linear one) and C159_thevenin_superposition for isothermal Thevenin cells, both for any batch, number of RC elements and number of inputs. A Coulombic efficiency below 1, hysteresis and parameters that depend on the SOC are left out because they make a cell nonlinear.

## 6. Axioms per theorem

All 551 theorems of the manifest, as printed by `#print axioms` (regenerate with `python3 tools/axioms.py`).

**propext, Classical.choice, Quot.sound** (518): `C01_name_addresses_its_parameter`, `C02_names_distinct`, `C03_update_then_get`, `C03_update_then_get_exact`, `C03_make_copy_then_get`, `C04_get_then_update_partial`, `C04_batched_round_trip_raises`, `C05_untouched`, `C06_accepts_exactly_legal`, `C06_batched_requirement`, `C07_fixed_never_change`, `C08_rejected_writes_prefix_partial`, `C09_fixed_then_marked`, `C09_mark_updatable`, `C10_updatable_names_are_marked_names_in_order`, `C10_layout_independent_of_marking_history`, `C11_one_label_per_column`, `C11_whole_submodel`, `C12_batch_size`, `C12_vector_has_batch_rows`, `C13_set_value_scalar`, `C13_set_value_list`, `C14_from_numpy_then_to_numpy`, `C14_to_numpy_then_from_numpy`, `C15_length_width_names`, `C16_wrong_width_effect_partial`, `C17_circuit_scalar`, `C18_coulomb_counting_constant`, `C18_coulomb_counting_linear`, `C19_efficiency_rule`, `C19_never_gains_constant`, `C19_charge_then_discharge`, `C19_never_gains_linear_partial`, `C19_linear_gains`, `C20_series_capacitor_charge`, `C21_rc_exact_constant`, `C21_solution_exists`, `C21_rc_between`, `C22_rc_linear_excess_partial`, `C22_rc_linear_flat_partial`, `C22_not_exact`, `C22_counterexample`, `C23_convex_partial`, `C23_envelope_constant`, `C23_monotone_approach`, `C23_tiny_current_moves_away`, `C24_envelope_linear_partial`, `C24_envelope_violated`, `C25_split_step`, `C26_zero_step`, `C27_voltage_sum`, `C27_rest_is_ocv`, `C27_absent_terms`, `C28_update_row_by_row_partial`, `C28_history_row_by_row_partial`, `C28_update_returns_partial`, `C28_batched_current_raises`, `C28_mixed_rc_raises`, `C28_batched_temperature_factor_raises`, `C28_update_returns_iff_partial`, `C29_voltage_row_by_row_partial`, `C29_voltage_returns_partial`, `C29_batched_entropy_raises`, `C29_batched_temperature_factor_raises`, `C29_voltage_returns_iff_partial`, `C30_value_at_pinpoint`, `C30_linear_between_pinpoints`, `C30_between_neighbouring_values`, `C30_continues_below`, `C30_continues_above`, `C30_order_of_pinpoints_irrelevant`, `C30_single_value_everywhere`, `C30_evaluates`, `C31_evaluation_breaks_later_assignment`, `C31_no_lasting_effect_partial`, `C31_no_lasting_effect_with_pinpoints_partial`, `C32_no_temperature`, `C32_exponential_law`, `C32_batched_factor_raises`, `C32_at_reference_temperature`, `C32_keeps_sign`, `C32_antitone`, `C32_ocv_linear_law`, `C33_order_of_limits_irrelevant`, `C33_between_extreme_voltages`, `C33_exact_for_affine_voltage`, `C33_linear_in_capacity`, `C33_one_energy_per_cell`, `C33_succeeds`, `C33_batched_reference_temperature_raises`, `C34_value_round_trip`, `C34_amp_hour`, `C34_number_loses_dimensions`, `C35_state_fits_circuit`, `C35_pair_accepted`, `C35_raises_iff_count_differs_partial`, `C35_batched_currents_miscounted`, `C35_circuit_template`, `C35_template_evaluable`, `C36_default_elements_shared`, `C36_given_elements_independent_partial`, `C37_member_runs_alone_partial`, `C37_single_cell`, `C37_state_temperature_ignored`, `C37_conflicting_sizes_accepted`, `C38_soc_polynomial`, `C38_soc_temp_polynomial`, `C38_soc_whole_batch`, `C38_soc_temp_whole_batch`, `C38_voltage`, `C41_isolated_partial`, `C42_rows_partial`, `C42_batdata_contents_partial`, `C42_batdata_single_cell_partial`, `C42_labels_name_wrong_cells`, `C42_batdata_mixes_cells`, `C42_rectangular`, `C42_needs_history`, `C44_combine_gaussians`, `C44_combine_associative`, `C44_combine_deltas`, `C45_identity_round_trip`, `C45_scalar_round_trip`, `C45_injective_there_and_back`, `C45_surjective_back_and_there`, `C45_matrix_round_trip`, `C45_factors_round_trip`, `C45_samples_round_trip`, `C46_covariances_stay_valid`, `C46_moments_of_converted_samples`, `C46_moments_of_unconverted_samples`, `C46_moments_of_scaled_samples`, `C47_absolute_value`, `C47_identity_on_admissible`, `C47_variances_preserved`, `C47_unknown_index`, `C48_points_exact_partial`, `C48_exact_iff`, `C49_weights`, `C50_prediction_and_gain`, `C50_step`, `C50_history`, `C51_predictions_valid`, `C51_step_partial`, `C51_history_partial`, `C51_singular_correction_invalid`, `C52_positive_definite_kept_partial`, `C52_scalar_repaired`, `C52_repair_not_symmetric`, `C53_constructible_iff`, `C53_constructed`, `C54_stored`, `C54_inputs_used`, `C54_perfect_measurement`, `C55_objects_to_hidden_and_back`, `C55_hidden_to_objects_and_back_partial`, `C55_batch_without_parameters_raises`, `C56_filter_in_other_units`, `C56_joint_estimates_in_any_units`, `C56_joint`, `C56_cell`, `C56_degradation`, `C56_made`, `C56_joint_correspondence`, `C57_state_converted_partial`, `C57_state_without_conversion_partial`, `C57_objects_hold_the_estimate_partial`, `C57_state_not_converted`, `C58_state_always_raises`, `C58_returned_estimate_partial`, `C59_reordered_parameters_misplaced`, `C59_strict_subset_raises`, `C59_all_parameters_partial`, `C60_names_label_the_state`, `C60_names_distinct_partial`, `C60_chosen_parameters`, `C60_names_can_clash`, `C61_order_irrelevant`, `C61_order_irrelevant_history`, `C61_previous_posteriors`, `C61_combines_new_posteriors`, `C62_row_to_inputs`, `C62_what_estimators_receive`, `C62_missing_columns`, `C63_rows_partial`, `C63_rows_shifted`, `C64_columns_partial`, `C64_variance_in_std_column`, `C65_attribute_set_partial`, `C65_first_row_ignored`, `C66_timesteps_read_back`, `C66_reading_ends_at_nan`, `C66_file_read_back`, `C67_first_steps_stored`, `C67_fractions_cut_off`, `C67_no_cycle_refused`, `C67_read_back_partial`, `C67_nothing_read_without_cycle_zero`, `C68_appends_succeed_partial`, `C68_far_cycle_raises`, `C69_closed_raises`, `C69_closed_until_opened`, `C69_ready_until_closed`, `C69_sizes_needed`, `C69_refused_if_present`, `C69_prepare_keeps_data_partial`, `C69_appended_rows_stay_partial`, `C69_prepare_hides_timesteps`, `C69_reopened_append_replaces`, `C70_mean_squared_error`, `C70_zero_iff_exact`, `C71_batch_raises`, `C71_batch_partial`, `C71_concrete_batch_raises`, `C72_starting_point`, `C72_estimate_splits`, `C72_scaling_keeps_order`, `C72_estimate_no_worse`, `C73_largest_listed`, `C73_largest_computed`, `C73_check_needs_raw_data`, `C73_check_listed`, `C73_check_computed`, `C74_one_weight_each`, `C74_probability_vector`, `C74_low_current_favoured`, `C75_inaccessible_name_refused_partial`, `C76_dual_runs`, `C77_file_holds_the_run`, `C78_joint_runs`, `C79_run_succeeds`, `C79_nothing_to_run_over`, `C79_joint_run_succeeds`, `C79_dual_run_succeeds`, `C80_dual_never_stored`, `C80_joint_stored_partial`, `C80_joint_stored_from_file_partial`, `C80_file_needs_resizable`, `C81_no_capacity_accepted`, `C81_no_capacity_extracts_nan`, `C81_accepted_reaches_partial`, `C82_fit_uses_every_measurement`, `C82_extract_fails`, `C82_extracted_value_at_point`, `C82_temperature_irrelevant`, `C83_own_capacity_suffices`, `C84_delta_partial`, `C84_gaussian_partial`, `C84_same_check_partial`, `C84_rows_and_columns_refused`, `C85_symmetric_jacobian_partial`, `C85_absolute_value_partial`, `C85_not_the_documented_rule`, `C85_other_dimension_raises`, `C86_linear_operator_partial`, `C86_offset_matrix_refused_partial`, `C86_no_offset_raises`, `C87_new_joint_controls`, `C87_new_dual_controls`, `C87_new_joint_estimator`, `C87_new_dual_estimator`, `C87_initialized_joint_estimator`, `C87_initialized_dual_estimator`, `C88_process_noise_partial`, `C88_lone_part_ignored`, `C89_default_process_noise_partial`, `C89_default_noise_depends_on_units`, `C90_parameters_at_start`, `C91_constant_exact_partial`, `C91_linear_exact_partial`, `C91_ramp_down_not_exact`, `C91_ramp_from_rest_not_exact`, `C91_solution_exists`, `C92_step_partial`, `C92_history_partial`, `C92_degrades_before_the_step_partial`, `C92_degradation_lags`, `C93_transients_step`, `C93_health_prediction`, `C93_health_update`, `C94_made_iff`, `C94_made_of`, `C94_fresh_state`, `C94_fresh_voltage`, `C94_runs`, `C95_read_back_partial`, `C95_transients_read_back`, `C95_evaluation_makes_unreadable`, `C95_thevenin_coefficients_lost`, `C96_rest_decay`, `C96_rest_voltage`, `C96_relaxes`, `C97_update_shift`, `C97_run_shift`, `C97_voltage_shift`, `C97_thevenin_shift`, `C98_soc_depends`, `C98_q0_depends`, `C98_irc_depends`, `C98_hyst_depends`, `C98_run_depends`, `C99_constant_range_partial`, `C99_linear_range_partial`, `C99_ramp_overshoots`, `C100_covariance_ignores_measurement`, `C100_mean_moves_by_gain`, `C100_no_surprise`, `C100_history_covariances`, `C101_more_noise_never_helps`, `C102_update`, `C102_predict`, `C102_returns_iff`, `C102_not_estimable`, `C103_circuit_estimator_runs`, `C103_ramped_circuit_estimator_runs`, `C104_update`, `C104_predict`, `C104_returns_iff`, `C105_update`, `C105_predict`, `C105_returns_iff`, `C106_dual_circuit_runs_partial`, `C106_unreached_raises`, `C106_ramped_dual_circuit_runs_partial`, `C107_joint_from_data`, `C107_joint_stored_partial`, `C107_joint_stored_from_file_partial`, `C107_dual_from_data_partial`, `C107_ramped_joint_from_data`, `C107_ramped_joint_stored_partial`, `C107_ramped_joint_stored_from_file_partial`, `C107_ramped_dual_from_data_partial`, `C108_joint_temperature_ignored`, `C108_dual_temperature_ignored`, `C108_joint_temperature_used_partial`, `C108_dual_temperature_used_partial`, `C109_output_names`, `C109_joint_outputs`, `C109_dual_outputs`, `C109_control_names_partial`, `C109_dual_control_names_partial`, `C109_joint_controls_outnumber_names`, `C109_dual_controls_outnumber_names`, `C110_get_parameters_raises`, `C110_get_parameters_refuses`, `C110_surplus_segments_accepted`, `C110_expand_names_refuses_partial`, `C110_labels_as_given`, `C111_other_keys_untouched`, `C111_read_back_after_another_writer`, `C111_path_of_default_key`, `C111_path_of_other_key`, `C112_straight`, `C112_cell_affine`, `C112_step`, `C112_history`, `C112_dual_step`, `C113_set_value_raises`, `C113_mark_unknown_accepted`, `C113_mark_raises_partial`, `C114_stays_at_truth`, `C114_errors_without_truth`, `C115_evolve`, `C115_returns`, `C115_single`, `C115_recovers`, `C116_affine`, `C116_circuit`, `C116_directions`, `C116_each`, `C117_same_tables`, `C117_names_described`, `C117_descriptions_partial`, `C117_other_columns_described_partial`, `C117_renamed_columns_not_described`, `C118_cell`, `C118_given_voltages`, `C118_built_in_curve`, `C119_capacitor_impact_partial`, `C119_capacitor_exceeds_any_bound`, `C120_affine`, `C120_circuit`, `C120_never_apart`, `C120_affine_geometric`, `C120_circuit_geometric`, `C121_states_partial`, `C121_voltage_partial`, `C121_currents`, `C121_hysteresis_partial`, `C121_hysteresis_violated`, `C122_parallel_partial`, `C122_series`, `C122_parallel_violated`, `C123_dataset`, `C124_affine`, `C124_circuit`, `C124_estimate_is_best`, `C125_affine`, `C125_circuit`, `C126_circuit`, `C126_joint`, `C126_dual`, `C127_order`, `C127_merge`, `C128_joint`, `C128_dual`, `C128_without_overlap`, `C129_only_used_columns`, `C130_dual_in_any_units`, `C130_joint_normalization`, `C130_dual_normalization`, `C131_linear_weighs`, `C131_voltage_affine`, `C131_step`, `C131_rest`, `C131_dual_step`, `C131_dual_history`, `C131_dual_runs`, `C132_stays_straight`, `C132_step`, `C132_history`, `C132_runs`, `C133_affine`, `C133_step`, `C133_history`, `C133_runs`, `C133_any_units`, `C134_bounded`, `C134_simulated`, `C134_each`, `C134_exact`, `C135_least_squares`, `C136_last_counts`, `C136_in_parts`, `C136_order`, `C137_model`, `C137_first_estimate_only`, `C137_circuit`, `C137_closer`, `C138_loss`, `C139_simulated_fit_partial`, `C139_not_without_temperature`, `C140_least_squares`, `C140_convex`, `C140_estimate_best`, `C140_simulated`, `C141_file_is_a_spectator`, `C141_table_is_a_spectator`, `C141_files_of_parts`, `C141_same_file_refused`, `C142_same_run`, `C142_interrupted`, `C142_any_end`, `C143_joint_follows`, `C143_dual_follows`, `C143_joint_isolated_partial`, `C143_dual_isolated_partial`, `C143_fixed_parameter_is_live`, `C144_affine`, `C144_circuit`, `C144_joint`, `C144_estimator`, `C144_any_units`, `C144_misfit`, `C144_predictions`, `C144_possible`, `C145_affine`, `C145_circuit`, `C145_estimator`, `C145_any_units`, `C145_unique`, `C146_affine`, `C146_circuit`, `C146_joint`, `C146_estimator`, `C146_any_units`, `C146_within`, `C146_possible`, `C147_possible`, `C147_predicts`, `C147_quadratic`, `C147_history`, `C147_runs`, `C147_any_units`, `C148_balanced_cycle`, `C148_one_current`, `C148_order_irrelevant`, `C148_extracted_object`, `C148_possible`, `C149_more_current_partial`, `C149_same_inputs_partial`, `C149_linear_reversed`, `C149_linear_voltage_falls`, `C150_slower_cell`, `C151_follows_equations_partial`, `C151_solver_possible`, `C151_course_exists`, `C151_charge`, `C151_split`, `C151_heat_lost`, `C151_warm_step_partial`, `C152_sides`, `C152_rest`, `C152_relaxes`, `C153_forgets`, `C153_soc_kept`, `C154_pack`, `C155_gap`, `C155_agree_partial`, `C155_disagree`, `C156_clock`, `C157_order`, `C158_circuit_jump`, `C158_thevenin_jump`, `C158_circuit_pulse`, `C158_thevenin_pulse`, `C159_superposition`, `C159_thevenin_superposition`

**propext, Quot.sound** (24): `C01_iteration_yields_parameters`, `C01_dotted_key_unreachable`, `C01_list_member_unreachable`, `C02_dotted_key_collision`, `C03_conflicting_batch_accepted`, `C04_fails_on_batched_object`, `C08_rejected_update_changes_object`, `C08_too_many_columns_changes_object`, `C09_without_recursion`, `C09_mark_all_updatable`, `C09_mark_all_fixed`, `C09_mark_updatable_may_expose_others`, `C12_zero_rows_order_dependent`, `C16_wrong_widths_accepted`, `C17_scalar`, `C17_list`, `C17_other`, `C17_idempotent`, `C39_history_faithful`, `C42_labels_right_iff`, `C43_no_degradation`, `C75_submodel_name_destroys_parameters`, `C75_marked_attributes_overwritten`, `C136_not_after_two_rows`

**propext** (8): `C40_history_invisible`, `C40_failed_step_keeps_history`, `C40_failed_evolve_keeps_history`, `C40_failed_step_may_advance_state`, `C41_returned_transient_is_live`, `C41_returned_transient_changes_behaviour`, `C41_returned_measurement_changes_history`, `C113_misspelt_without_effect`

**none** (1): `C40_evolve_append`
