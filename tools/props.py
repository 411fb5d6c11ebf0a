"""Source of /verif/properties.jsonl (run: python3 tools/props.py)."""
import json, os
P = []
def p(title, statement, quantifier, why, anchors):
    P.append(dict(id=f"C{len(P)+1:02d}", title=title, statement=statement, quantifier=quantifier,
                  why_tests_cant=why, anchors=anchors))
B = "moirae/models/base.py"
# ---------------------------------------------------------------- HealthVariable
p("Every reported parameter name addresses its own parameter",
  "For every name reported by `all_names`/`updatable_names`, `get_parameters([name])` returns exactly the values of the parameter that was iterated under that name (repeated along the batch axis when the object is batched).",
  "every tree of HealthVariables of any depth built from arrays, sub-models, tuples and dicts of sub-models (dictionary keys without '.'); every name it reports",
  "nesting depth, tuple length and dict keys are unbounded; name printing and name parsing are two separate recursive functions",
  [f"{B}:HealthVariable.iter_parameters", f"{B}:HealthVariable._get_model_chain", f"{B}:HealthVariable.get_parameters"])
p("Reported parameter names are pairwise distinct",
  "`all_names` never contains the same name twice, so a name identifies one parameter.",
  "every HealthVariable tree (dictionary keys without '.')", "needs every pair of paths in trees of any size",
  [f"{B}:HealthVariable.all_names", f"{B}:HealthVariable.iter_parameters"])
p("What update_parameters writes is what get_parameters reads",
  "After a successful `update_parameters(values, names)` with distinct parameter names, `get_parameters(names)` returns `values` (for any number of batch rows).",
  "every tree, every list of distinct updatable parameter names, every 2D (or 1D) values array whose row count does not contradict the batch size of the parameters that are not written",
  "any combination of widths/batch sizes/nesting", [f"{B}:HealthVariable.update_parameters", f"{B}:HealthVariable.get_parameters"])
p("Writing back what was read changes nothing",
  "`update_parameters(get_parameters(names), names)` succeeds and leaves the object unchanged.",
  "every tree and list of updatable names, batched or not", "the batched case is never exercised by tests and the size computation differs there",
  [f"{B}:HealthVariable.update_parameters", f"{B}:HealthVariable.get_parameters"])
p("update_parameters touches nothing but the named parameters",
  "After `update_parameters(values, names)`, every parameter whose name is not in `names` has its old value, and the updatable markings are unchanged.",
  "every tree, values and list of parameter names, whether the call succeeds or raises", "frame condition over all other parameters",
  [f"{B}:HealthVariable.update_parameters"])
p("update_parameters accepts exactly the legal requests",
  "On an unbatched object `update_parameters(values, names)` succeeds iff every name's whole path is marked updatable and the number of columns equals the total width of the named parameters; otherwise it raises ValueError.",
  "every tree, values and list of distinct parameter names", "iff over all error combinations",
  [f"{B}:HealthVariable.update_parameters"])
p("Fixed parameters never change through updates",
  "A parameter that is not updatable (some segment of its path is unmarked) keeps its value through any sequence of `update_parameters` calls, successful or failing.",
  "every tree, every sequence of any length of update calls naming parameters", "unbounded histories including failing calls",
  [f"{B}:HealthVariable.update_parameters", "docs/system-models.rst: 'no estimation scheme will alter their values'"])
p("A rejected update leaves the object unchanged",
  "When `update_parameters` raises, no parameter has been modified.",
  "every tree and every rejected call", "requires checking every failure point in the loop",
  [f"{B}:HealthVariable.update_parameters"])
p("Marking operations do what they say",
  "After `mark_all_updatable()`, `updatable_names == all_names`; after `mark_all_fixed()`, `updatable_names` is empty; after `mark_updatable(n)` for a parameter n, n is in `updatable_names`, and no name that was updatable stops being so; after `mark_all_fixed()` followed by `mark_updatable(n)` for any parameters n in any order, exactly these are in `updatable_names`, whatever was marked before; markings never alter values.",
  "every tree, every parameter name", "all trees and starting markings",
  [f"{B}:HealthVariable.mark_all_updatable", f"{B}:HealthVariable.mark_all_fixed", f"{B}:HealthVariable.mark_updatable"])
p("Updatable names are a sub-sequence of all names in declaration order",
  "`updatable_names` lists, in the order of `all_names`, exactly the names whose whole path is marked; hence the vector layout does not depend on the order in which parameters were marked.",
  "every tree and marking", "set iteration order must not leak for any marking history",
  [f"{B}:HealthVariable.iter_parameters", f"{B}:HealthVariable.updatable_names"])
p("expand_names gives one distinct label per vector column",
  "`expand_names(names)` for parameter names has exactly as many entries as `get_parameters(names)` has columns, in the same order, pairwise distinct for distinct names; expanding a whole sub-model equals expanding all its parameters.",
  "every tree, every list of parameter names, every width", "three separate recursive name walkers must agree",
  [f"{B}:HealthVariable.expand_names", f"{B}:HealthVariable.get_parameters"])
p("Batch size is well defined",
  "`batch_size` returns B iff every parameter has 1 or B rows (B attained or 1) and raises ValueError iff two parameters have different non-unit row counts; `get_parameters` then has exactly B rows, row b of a broadcast parameter being its single row.",
  "every collection of parameters with at least one row", "all shape combinations and orders",
  [f"{B}:HealthVariable.batch_size", f"{B}:GeneralContainer.batch_size"])
p("set_value replaces one parameter by the given value in 2D form",
  "`set_value(name, v)` makes the parameter hold v's entries in order as (batch,1) for parameters that currently have one column and as (1,n)/(batch,n) for the others, changes no other parameter and ignores markings; it raises iff the parameter has one column and v has more than one axis of size other than 1.",
  "every tree, every parameter name; array values of any rank for one-column parameters, of rank at most 2 for the others", "all ranks and shapes", [f"{B}:HealthVariable.set_value", f"{B}:enforce_dimensions"])
# ---------------------------------------------------------------- GeneralContainer
p("Container vector form round-trips",
  "`from_numpy(x); to_numpy()` returns x for every x with the right width and any batch size; `from_numpy(to_numpy())` keeps every value (broadcasting single rows to the batch).",
  "every container (fields of any widths, some None) and every 2D/1D array", "all layouts and batch sizes",
  [f"{B}:GeneralContainer.to_numpy", f"{B}:GeneralContainer.from_numpy"])
p("Container length, width and names agree",
  "`len(c)`, `to_numpy().shape[1]` and `len(all_names)` are equal and the i-th name labels the i-th column; names are pairwise distinct.",
  "every container", "all layouts", [f"{B}:GeneralContainer.__len__", f"{B}:GeneralContainer.all_names", f"{B}:GeneralContainer.to_numpy"])
p("from_numpy rejects vectors of the wrong width",
  "`from_numpy(x)` must not silently accept an array whose number of columns differs from `len(c)`.",
  "every container and array", "all widths", [f"{B}:GeneralContainer.from_numpy"])
p("enforce_dimensions normalises shapes without touching data",
  "For dim=0 the result has shape (n,1), for dim=1 rank >= 2; entries and their order are preserved; applying it twice equals applying it once; it raises exactly when dim=0 and more than one axis has size != 1, or dim is not 0/1.",
  "every array of every rank", "unbounded rank/shape", [f"{B}:enforce_dimensions"])
# ---------------------------------------------------------------- ECM
E = "moirae/models/ecm/__init__.py"
p("SOC is exact Coulomb counting over any history",
  "Under 'constant' current behaviour, after any sequence of inputs the SOC equals the initial SOC plus the sum over steps of eff_k * I_k * dt_k / (3600*Qt), where I_k is the previous input's current; under 'linear' the trapezoid (I_k+I_{k+1})/2 replaces I_k.",
  "all input sequences of any length, all parameter values", "unbounded histories", [f"{E}:EquivalentCircuitModel.update_transient_state"])
p("Coulombic efficiency applies only while charging",
  "The SOC change per step uses efficiency 1 when the previous current is negative and the configured efficiency otherwise; hence a charge followed by an equal discharge never gains SOC when 0<=CE<=1.",
  "all currents, step lengths and efficiencies", "sign boundary for all reals", [f"{E}:EquivalentCircuitModel.update_transient_state"])
p("Series-capacitor charge is the time integral of current",
  "q0 after any history equals initial q0 plus total cycled charge, with no efficiency factor; it stays absent when the circuit has no series capacitor.",
  "all input sequences", "unbounded histories", [f"{E}:EquivalentCircuitModel.update_transient_state"])
p("RC currents solve their ODE exactly under constant current",
  "Under 'constant' behaviour each RC current after dt is the exact solution at dt of tau*di/dt = I - i with i(0) the old value and I the new current; it lies between the old value and I and the distance to I shrinks by exp(-dt/tau).",
  "all currents, time steps > 0, RC values > 0, number of RC elements", "all reals", [f"{E}:EquivalentCircuitModel.update_transient_state"])
p("RC currents solve their ODE exactly under linear current",
  "Under 'linear' behaviour each RC current is the exact solution of tau*di/dt = I(t) - i for the linear ramp I(t) from the previous to the new current.",
  "all ramps, dt>0, tau>0", "all reals", [f"{E}:EquivalentCircuitModel.update_transient_state"])
p("Hysteresis stays in its envelope under constant current",
  "With constant current behaviour the new hysteresis is a convex combination of the old one and +-M (sign of the current), so |h'| <= max(|h|,|M|) and it approaches +-M monotonically for any sequence of steps of the same sign.",
  "all currents, dt >= 0, gamma >= 0, histories", "unbounded histories, all reals", [f"{E}:EquivalentCircuitModel.update_transient_state", "moirae/models/ecm/utils.py:hysteresis_solver_const_sign"])
p("Hysteresis stays in its envelope when the current ramps linearly",
  "With linear current behaviour, including ramps through zero, |h'| <= max(|h|,|M|).",
  "all ramps and parameters", "needs exact treatment of the zero crossing", [f"{E}:EquivalentCircuitModel.update_transient_state", "moirae/models/ecm/utils.py:hysteresis_solver_const_sign"])
p("Splitting a constant-current step changes nothing",
  "Two consecutive steps dt1, dt2 at the same current and constant parameters give the same SOC, q0, RC currents and hysteresis as one step dt1+dt2.",
  "all states, currents, dt1, dt2 >= 0", "semigroup law over all reals", [f"{E}:EquivalentCircuitModel.update_transient_state"])
p("A zero-length step keeps the state",
  "A step whose new time equals the previous time leaves SOC, q0, RC currents and hysteresis unchanged under constant behaviour.",
  "all states and inputs", "all reals", [f"{E}:EquivalentCircuitModel.update_transient_state"])
p("Terminal voltage is the sum of the circuit's drops",
  "V = OCV(SOC,T) + I*R0(SOC,T) + q0/C0(SOC) + sum_j i_j*R_j(SOC,T) + hyst; the terms absent from the circuit contribute nothing; at rest with zero transients V equals the OCV.",
  "all states, inputs, circuits with any number of RC elements", "any number of RC pairs, all reals", [f"{E}:EquivalentCircuitModel.calculate_terminal_voltage"])
p("Batched transient update equals row-by-row updates",
  "When transient, A-SOH parameters are batched with sizes 1 or B, row b of the updated state equals the update of the unbatched row-b state with row-b parameters.",
  "every B, every assignment of which quantities are batched, every number of RC elements", "the numpy broadcasting/diagonal/reshape logic must be right for every combination of shapes",
  [f"{E}:EquivalentCircuitModel.update_transient_state", "moirae/models/ecm/utils.py:SOCInterpolatedHealth.get_value"])
p("Batched voltage equals row-by-row voltages",
  "Row b of the batched terminal voltage equals the terminal voltage of the row-b state and parameters.",
  "every B and batching pattern", "as above", [f"{E}:EquivalentCircuitModel.calculate_terminal_voltage"])
U = "moirae/models/ecm/utils.py"
p("Interpolated parameters pass through their pinpoints and stay between them",
  "With linear interpolation the value at each SOC pinpoint is the stored base value, between adjacent pinpoints it lies between their values and is linear, beyond the ends it continues the end segments, and the result does not depend on the order in which pinpoints are listed.",
  "all pinpoint sets with distinct SOCs, all base values, all SOC queries", "all reals and sizes", [f"{U}:SOCInterpolatedHealth.get_value", f"{U}:SOCInterpolatedHealth._interp_func"])
p("Evaluating a parameter has no lasting effect",
  "Calling get_value never changes what later calls return nor which later assignments of base_values are usable.",
  "every health parameter and call sequence", "hidden state survives between calls", [f"{U}:SOCInterpolatedHealth._interp_func"])
p("Resistance temperature law",
  "R(SOC,T) = R_ref(SOC)*exp(-g*(T-Tref)); it equals R_ref at Tref or with no temperature, keeps the sign of R_ref, is antitone in T for g>0, R_ref>0.",
  "all SOC, T, parameters", "all reals", ["moirae/models/ecm/components.py:Resistance.get_value", "moirae/models/ecm/components.py:OpenCircuitVoltage.get_value"])
p("Theoretical energy is a sound quadrature",
  "get_theoretical_energy is independent of the order of the SOC limits, lies between min and max OCV times the SOC span times capacity, is exact for an OCV affine in SOC, and scales linearly with capacity.",
  "all OCV curves, limits, capacities", "all reals", ["moirae/models/ecm/advancedSOH.py:ECMASOH.get_theoretical_energy"])
p("Capacity units round-trip",
  "Setting `value` in A-s and reading it back gives the same number; `amp_hour` is value/3600.",
  "all capacities", "all reals", ["moirae/models/ecm/components.py:MaxTheoreticalCapacity"])
p("Templates fit the circuits they are made for",
  "ECMTransientVector.from_asoh(a) has exactly one RC current per RC element of a and a q0 iff a has a series capacitor, so both model functions accept the pair; provide_template raises iff the number of currents given differs from num_RC.",
  "all circuits", "any number of RC elements", ["moirae/models/ecm/transient.py:ECMTransientVector", "moirae/models/ecm/advancedSOH.py:ECMASOH.provide_template"])
p("RC elements of a template are independent parameters",
  "After ECMASOH.provide_template(num_RC=n), writing a parameter of one RC element does not change another RC element.",
  "all n >= 2, all writes", "object identity, not values, decides it", ["moirae/models/ecm/advancedSOH.py:ECMASOH.provide_template"])
# ---------------------------------------------------------------- Thevenin
T = "moirae/models/thevenin"
p("Thevenin batch members are simulated with their own parameters",
  "Member b of a batched update runs with row b of every batched quantity and the single row of every unbatched one, and result row b depends on nothing else.",
  "every batch size and batching pattern, every ODE solver behaviour", "all shapes; solver is external", [f"{T}/__init__.py:TheveninModel._make_models", f"{T}/__init__.py:TheveninModel.update_transient_state"])
p("Thevenin polynomial parameters and voltage",
  "SOC/temperature polynomials evaluate sum_i c_i x^i; the terminal voltage is OCV(soc)+I*R0(soc,T)-sum(eta); evaluating the whole batch equals evaluating each member by batch_id.",
  "all coefficient vectors of any degree, all batches", "all degrees", [f"{T}/components.py:SOCPolynomialVariable.__call__", f"{T}/components.py:SOCTempPolynomialVariable.__call__", f"{T}/__init__.py:TheveninModel.calculate_terminal_voltage"])
# ---------------------------------------------------------------- Simulator
S = "moirae/simulator.py:Simulator"
p("Simulator history is faithful",
  "With keep_history, after n steps all histories have n+1 entries; entry k+1's transient is the model update of entry k under inputs k,k+1 and A-SOH k; entry k+1's measurement is the model output for its own transient and input and A-SOH k; the last entries equal the current state.",
  "every cell model, degradation model, input sequence", "unbounded histories, arbitrary models", [f"{S}.step", f"{S}.__init__"])
p("Evolving in pieces equals evolving at once; history keeping is invisible",
  "evolve(a+b) gives the measurements of evolve(a) followed by evolve(b) and the same final state; results do not depend on keep_history; a failing step leaves the earlier history intact.",
  "all input lists and models", "unbounded lists", [f"{S}.evolve"])
p("The simulator is isolated from its caller's objects",
  "Mutating the objects passed to the constructor or step, or the objects returned by step, after the call does not change the simulator's later behaviour.",
  "every interleaving of steps and caller mutations", "aliasing under arbitrary mutation schedules", [f"{S}.__init__", f"{S}.step"])
p("Dataframe rows carry the batch label of the cell they describe",
  "In to_dataframe, each row labelled batch b holds the inputs, transient and measurement of cell b at some step; to_batdata dataset b holds cell b's series in time order.",
  "every batch size and number of steps", "layout law for all sizes", [f"{S}.to_dataframe", f"{S}.to_batdata"])
p("Without a degradation model the state of health never changes",
  "With the default degradation model the A-SOH after any history equals the initial one.",
  "every input sequence", "unbounded histories", ["moirae/models/utils.py:NoDegradation.update_asoh", f"{S}.step"])
# ---------------------------------------------------------------- distributions / conversions
D = "moirae/estimators/online/filters/distributions.py"
V = "moirae/estimators/online/filters/conversions.py"
p("Combining independent distributions",
  "combine_with concatenates means in order and places covariances as diagonal blocks with zero cross-covariance; dimensions add, operands are unchanged, and combining is associative.",
  "any number of distributions of any dimensions", "any arity", [f"{D}:MultivariateGaussian.combine_with", f"{D}:DeltaDistribution.combine_with"])
p("Coordinate conversions round-trip",
  "Converting a distribution with an invertible linear (or identity) operator and back returns the original mean and covariance, in both directions.",
  "all dimensions, all invertible matrices / non-zero scalars, all distributions", "all matrices", [f"{V}:LinearConversionOperator", f"{D}:MultivariateGaussian.convert"])
p("Conversions keep covariances symmetric positive semi-definite and moments consistent",
  "For every operator, converted covariances of PSD matrices are PSD; for linear operators the converted mean and covariance of any weighted sample are the mean and covariance of the converted sample.",
  "all operators and covariances", "all matrices", [f"{V}:LinearConversionOperator.transform_covariance", f"{V}:FirstOrderTaylorConversionOperator.transform_covariance"])
p("Absolute-value conversion yields admissible parameters",
  "Converted samples are non-negative at the selected indices and untouched elsewhere; conversion is idempotent, the identity on admissible samples, and variances are preserved.",
  "all samples, index lists", "all sizes", [f"{V}:AbsoluteValueConversionOperator"])
# ---------------------------------------------------------------- UKF
K = "moirae/estimators/online/filters/kalman/unscented.py"
p("Sigma points carry exactly the prior's mean and covariance",
  "The weighted mean of the sigma points is the augmented mean and their weighted covariance is the augmented covariance blockdiag(P, Q, R), for every legal tuning.",
  "all dimensions, means, covariances, legal alpha/beta/kappa", "all dimensions and reals", [f"{K}:UnscentedKalmanFilter.build_sigma_points"])
p("UKF weights are normalised for every legal tuning",
  "Mean weights sum to 1; there are 2L+1 of them; covariance weights differ only in the first by 1-alpha^2+beta; with default tuning all are non-negative.",
  "all legal alpha, beta, kappa and dimensions", "all reals", [f"{K}:UnscentedKalmanFilter.mean_weights", f"{K}:UnscentedKalmanFilter.cov_weights"])
p("On affine models the UKF is the Kalman filter",
  "If the wrapped model is affine, one filter step yields exactly the Kalman filter's predicted mean/covariance, predicted output mean/covariance, gain and posterior.",
  "all affine models, dimensions, priors, noises, legal tunings", "all matrices", [f"{K}:UnscentedKalmanFilter.step"])
p("Filter covariances are valid and never grow at correction",
  "With non-negative covariance weights (e.g. defaults), for every (non-linear) model the predicted covariances are symmetric PSD, and when the predicted output covariance is positive definite the corrected covariance is PSD and not larger than the predicted one.",
  "all models, dimensions, priors", "arbitrary non-linear models", [f"{K}:UnscentedKalmanFilter.estimation_update", f"{K}:UnscentedKalmanFilter.correction_update"])
p("Covariance repair returns a positive semi-definite matrix",
  "ensure_positive_semi_definite returns its input when it is positive definite, and otherwise a symmetric positive semi-definite matrix.",
  "all square matrices", "all matrices", ["moirae/estimators/online/filters/kalman/utils.py:ensure_positive_semi_definite", "moirae/estimators/online/filters/kalman/utils.py:enforce_positive_semi_defiteness"])
p("Illegal tuning is refused",
  "The filter can be constructed iff alpha in [0.001,1], beta>=0, kappa>-L (or 'automatic') and all noise/hidden dimensions match; every constructed filter has positive spread and finite weights.",
  "all parameters and shapes", "all reals/shapes", [f"{K}:UnscentedKalmanFilter.__init__"])
p("Filter bookkeeping over histories",
  "After any sequence of steps the stored controls are the last inputs given, the model is evolved at step k from inputs k-1 to inputs k, and the returned estimate equals the stored one; a perfectly predicted measurement leaves the predicted mean.",
  "all step sequences and models", "unbounded histories", [f"{K}:UnscentedKalmanFilter.step"])
# ---------------------------------------------------------------- estimators
M = "moirae/estimators/online/utils/model.py"
p("Hidden vectors and model objects round-trip in the joint wrapper",
  "create_cell_model_inputs(create_hidden_state(asoh, transients)) gives back the transients and the selected A-SOH parameters, with all other parameters taken from the wrapper's template; and conversely.",
  "all trees, parameter selections, batch sizes, invertible converters", "all layouts", [f"{M}:JointCellModelWrapper.create_hidden_state", f"{M}:JointCellModelWrapper.create_cell_model_inputs"])
p("Normalising coordinates does not change the physics",
  "With an invertible hidden-state converter the wrapper's update and prediction are the unconverted ones conjugated by the converter, so a filter in normalised coordinates sees the same model.",
  "all cell models, converters, hidden states", "all models", [f"{M}:JointCellModelWrapper.update_hidden_states", f"{M}:JointCellModelWrapper.predict_measurement", f"{M}:CellModelWrapper"])
p("estimator.state agrees with the last estimate returned by step",
  "After step, estimator.state is the distribution that step returned, in model coordinates, whatever conversion is configured.",
  "all estimators, converters, histories", "all histories/converters", ["moirae/estimators/online/joint.py:JointEstimator.state", "moirae/estimators/online/joint.py:JointEstimator.step"])
p("The dual estimator exposes its combined state",
  "DualEstimator.state is the transient estimate followed by the A-SOH estimate, in model coordinates.",
  "all dual estimators and histories", "all histories", ["moirae/estimators/online/dual.py:DualEstimator.state"])
p("The dual estimator works for any chosen subset of updatable parameters",
  "If the A-SOH wrapper estimates a subset of the updatable parameters, get_estimated_state and step place the estimates in exactly those parameters.",
  "all subsets of updatable parameters", "all subsets", ["moirae/estimators/online/dual.py:DualEstimator.get_estimated_state", "moirae/estimators/online/dual.py:DualEstimator.step"])
p("State names label the state vector",
  "state_names has one distinct name per state dimension: transient values first, then the estimated A-SOH values, in vector order.",
  "all models and selections", "all layouts", ["moirae/estimators/online/__init__.py:OnlineEstimator.state_names"])
p("Dual estimation exchanges only the previous posteriors",
  "At each step the transient filter uses the A-SOH posterior of the previous step and the A-SOH filter uses the transient posterior of the previous step, so the order of stepping the two filters is irrelevant; the returned state combines both posteriors.",
  "all histories and models", "unbounded histories", ["moirae/estimators/online/dual.py:DualEstimator.step"])
# ---------------------------------------------------------------- interface
I = "moirae/interface/__init__.py"
H = "moirae/interface/hdf5.py"
p("Rows become the inputs they describe",
  "row_to_inputs passes time, current, voltage through and uses the row's temperature iff present and finite, else the default; the estimators take their step with exactly these values.",
  "all rows incl. NaN/inf temperatures", "all values", [f"{I}:row_to_inputs"])
p("Row i of the estimates describes row i of the dataset",
  "run_online_estimate returns one row per dataset row, row i being the estimate after observing dataset row i.",
  "all datasets and estimators", "all lengths", [f"{I}:run_online_estimate"])
p("Columns ending in _std hold standard deviations",
  "The `<name>_std` columns are the square roots of the diagonal of the covariance.",
  "all datasets", "all values", [f"{I}:run_online_estimate"])
p("The estimator starts from the dataset's first inputs",
  "Before the first update the estimator's previous inputs are those of the first row of the dataset.",
  "all datasets and estimators", "all values", [f"{I}:run_online_estimate"])
p("Per-timestep estimates written to HDF5 are read back exactly",
  "With per_timestep in full/mean_cov/mean_var/mean, reading the file yields one entry per appended step, in order, with its time, mean and (co)variance as stored by the chosen mode.",
  "every sequence of steps of any length (finite times) fitting the declared size", "unbounded sequences, growth by chunks", [f"{H}:HDF5Writer.append_step", f"{H}:read_state_estimates"])
p("Per-cycle output stores the first step of every cycle and is read back",
  "The per-cycle group holds, for every cycle seen, the first step of that cycle, and reading yields them all.",
  "every sequence of (cycle, step) incl. gaps in cycle numbers", "all orders and gaps", [f"{H}:HDF5Writer.append_step", f"{H}:read_state_estimates"])
p("A resizable file never runs out of space",
  "With resizable output and no expected size, append_step succeeds for any number of steps and any cycle number.",
  "all sequences", "unbounded; needs growth argument", [f"{H}:HDF5Writer.append_step", f"{H}:HDF5Writer.prepare"])
p("Writer life-cycle",
  "prepare/append_step raise ValueError unless inside `with`; after exit the writer is not ready; preparing a file that already holds estimates is refused, never overwritten; a non-resizable writer needs both sizes.",
  "every sequence of open/prepare/append/close operations", "all operation sequences", [f"{H}:HDF5Writer"])
# ---------------------------------------------------------------- offline / extractors
O = "moirae/estimators/offline"
p("The loss is the mean squared voltage error of the simulated run",
  "MeanSquaredLoss(x) is the average over all rows of (predicted - observed)^2 for a simulation started from x; it is >= 0 and zero iff every prediction matches.",
  "all datasets, models, parameter vectors", "all lengths", [f"{O}/loss.py:MeanSquaredLoss.__call__"])
p("The loss accepts a batch of parameter vectors",
  "For a batch of B parameter rows the loss returns B values, the b-th being the loss of row b.",
  "every batch size", "all B", [f"{O}/loss.py:MeanSquaredLoss.__call__"])
p("The optimiser's vector and the objects agree",
  "get_x0 is the initial state followed by the updatable parameters; the estimate returned splits the optimum the same way; scaling by the initial error keeps the ordering of candidates.",
  "all states, trees, optima", "all layouts", [f"{O}/loss.py:BaseLoss.get_x0", f"{O}/scipy.py:ScipyMinimizer.estimate"])
X = "moirae/extractors/ecm.py"
p("Extracted capacity is the largest observed cycle capacity",
  "The extracted capacity is attained by some cycle and no cycle exceeds it; check_data rejects exactly the datasets without raw data or whose largest capacity is below the required fraction.",
  "all cycle tables in which some cycle has a capacity, all non-negative capacities required", "all tables", [f"{X}:MaxCapacityExtractor.extract", f"{X}:OCVExtractor.check_data"])
p("OCV fit weights are a probability vector favouring low current",
  "Weights are positive, sum to 1, and a smaller |current| never gets a smaller weight; currents below 1e-6 are all weighted alike.",
  "all current series", "all lengths", [f"{X}:OCVExtractor.interpolate_ocv"])
exec(open(os.path.join(os.path.dirname(__file__), "props_extra.py")).read()) if os.path.exists(os.path.join(os.path.dirname(__file__), "props_extra.py")) else None
with open(os.path.join(os.path.dirname(__file__), "..", "properties.jsonl"), "w") as f:
    for q in P: f.write(json.dumps(q, ensure_ascii=False) + "\n")
print(len(P))
