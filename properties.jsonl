{"id": "C01", "title": "Every reported parameter name addresses its own parameter", "statement": "For every name reported by `all_names`/`updatable_names`, `get_parameters([name])` returns exactly the values of the parameter that was iterated under that name (repeated along the batch axis when the object is batched).", "quantifier": "every tree of HealthVariables of any depth built from arrays, sub-models, tuples and dicts of sub-models (dictionary keys without '.'); every name it reports", "why_tests_cant": "nesting depth, tuple length and dict keys are unbounded; name printing and name parsing are two separate recursive functions", "anchors": ["moirae/models/base.py:HealthVariable.iter_parameters", "moirae/models/base.py:HealthVariable._get_model_chain", "moirae/models/base.py:HealthVariable.get_parameters"]}
{"id": "C02", "title": "Reported parameter names are pairwise distinct", "statement": "`all_names` never contains the same name twice, so a name identifies one parameter.", "quantifier": "every HealthVariable tree (dictionary keys without '.')", "why_tests_cant": "needs every pair of paths in trees of any size", "anchors": ["moirae/models/base.py:HealthVariable.all_names", "moirae/models/base.py:HealthVariable.iter_parameters"]}
{"id": "C03", "title": "What update_parameters writes is what get_parameters reads", "statement": "After a successful `update_parameters(values, names)` with distinct parameter names, `get_parameters(names)` returns `values` (for any number of batch rows).", "quantifier": "every tree, every list of distinct updatable parameter names, every 2D (or 1D) values array whose row count does not contradict the batch size of the parameters that are not written", "why_tests_cant": "any combination of widths/batch sizes/nesting", "anchors": ["moirae/models/base.py:HealthVariable.update_parameters", "moirae/models/base.py:HealthVariable.get_parameters"]}
{"id": "C04", "title": "Writing back what was read changes nothing", "statement": "`update_parameters(get_parameters(names), names)` succeeds and leaves the object unchanged.", "quantifier": "every tree and list of updatable names, batched or not", "why_tests_cant": "the batched case is never exercised by tests and the size computation differs there", "anchors": ["moirae/models/base.py:HealthVariable.update_parameters", "moirae/models/base.py:HealthVariable.get_parameters"]}
{"id": "C05", "title": "update_parameters touches nothing but the named parameters", "statement": "After `update_parameters(values, names)`, every parameter whose name is not in `names` has its old value, and the updatable markings are unchanged.", "quantifier": "every tree, values and list of parameter names, whether the call succeeds or raises", "why_tests_cant": "frame condition over all other parameters", "anchors": ["moirae/models/base.py:HealthVariable.update_parameters"]}
{"id": "C06", "title": "update_parameters accepts exactly the legal requests", "statement": "On an unbatched object `update_parameters(values, names)` succeeds iff every name's whole path is marked updatable and the number of columns equals the total width of the named parameters; otherwise it raises ValueError.", "quantifier": "every tree, values and list of distinct parameter names", "why_tests_cant": "iff over all error combinations", "anchors": ["moirae/models/base.py:HealthVariable.update_parameters"]}
{"id": "C07", "title": "Fixed parameters never change through updates", "statement": "A parameter that is not updatable (some segment of its path is unmarked) keeps its value through any sequence of `update_parameters` calls, successful or failing.", "quantifier": "every tree, every sequence of any length of update calls naming parameters", "why_tests_cant": "unbounded histories including failing calls", "anchors": ["moirae/models/base.py:HealthVariable.update_parameters", "docs/system-models.rst: 'no estimation scheme will alter their values'"]}
{"id": "C08", "title": "A rejected update leaves the object unchanged", "statement": "When `update_parameters` raises, no parameter has been modified.", "quantifier": "every tree and every rejected call", "why_tests_cant": "requires checking every failure point in the loop", "anchors": ["moirae/models/base.py:HealthVariable.update_parameters"]}
{"id": "C09", "title": "Marking operations do what they say", "statement": "After `mark_all_updatable()`, `updatable_names == all_names`; after `mark_all_fixed()`, `updatable_names` is empty; after `mark_updatable(n)` for a parameter n, n is in `updatable_names`, and no name that was updatable stops being so; after `mark_all_fixed()` followed by `mark_updatable(n)` for any parameters n in any order, exactly these are in `updatable_names`, whatever was marked before; markings never alter values.", "quantifier": "every tree, every parameter name", "why_tests_cant": "all trees and starting markings", "anchors": ["moirae/models/base.py:HealthVariable.mark_all_updatable", "moirae/models/base.py:HealthVariable.mark_all_fixed", "moirae/models/base.py:HealthVariable.mark_updatable"]}
{"id": "C10", "title": "Updatable names are a sub-sequence of all names in declaration order", "statement": "`updatable_names` lists, in the order of `all_names`, exactly the names whose whole path is marked; hence the vector layout does not depend on the order in which parameters were marked.", "quantifier": "every tree and marking", "why_tests_cant": "set iteration order must not leak for any marking history", "anchors": ["moirae/models/base.py:HealthVariable.iter_parameters", "moirae/models/base.py:HealthVariable.updatable_names"]}
{"id": "C11", "title": "expand_names gives one distinct label per vector column", "statement": "`expand_names(names)` for parameter names has exactly as many entries as `get_parameters(names)` has columns, in the same order, pairwise distinct for distinct names; expanding a whole sub-model equals expanding all its parameters.", "quantifier": "every tree, every list of parameter names, every width", "why_tests_cant": "three separate recursive name walkers must agree", "anchors": ["moirae/models/base.py:HealthVariable.expand_names", "moirae/models/base.py:HealthVariable.get_parameters"]}
{"id": "C12", "title": "Batch size is well defined", "statement": "`batch_size` returns B iff every parameter has 1 or B rows (B attained or 1) and raises ValueError iff two parameters have different non-unit row counts; `get_parameters` then has exactly B rows, row b of a broadcast parameter being its single row.", "quantifier": "every collection of parameters with at least one row", "why_tests_cant": "all shape combinations and orders", "anchors": ["moirae/models/base.py:HealthVariable.batch_size", "moirae/models/base.py:GeneralContainer.batch_size"]}
{"id": "C13", "title": "set_value replaces one parameter by the given value in 2D form", "statement": "`set_value(name, v)` makes the parameter hold v's entries in order as (batch,1) for parameters that currently have one column and as (1,n)/(batch,n) for the others, changes no other parameter and ignores markings; it raises iff the parameter has one column and v has more than one axis of size other than 1.", "quantifier": "every tree, every parameter name; array values of any rank for one-column parameters, of rank at most 2 for the others", "why_tests_cant": "all ranks and shapes", "anchors": ["moirae/models/base.py:HealthVariable.set_value", "moirae/models/base.py:enforce_dimensions"]}
{"id": "C14", "title": "Container vector form round-trips", "statement": "`from_numpy(x); to_numpy()` returns x for every x with the right width and any batch size; `from_numpy(to_numpy())` keeps every value (broadcasting single rows to the batch).", "quantifier": "every container (fields of any widths, some None) and every 2D/1D array", "why_tests_cant": "all layouts and batch sizes", "anchors": ["moirae/models/base.py:GeneralContainer.to_numpy", "moirae/models/base.py:GeneralContainer.from_numpy"]}
{"id": "C15", "title": "Container length, width and names agree", "statement": "`len(c)`, `to_numpy().shape[1]` and `len(all_names)` are equal and the i-th name labels the i-th column; names are pairwise distinct.", "quantifier": "every container", "why_tests_cant": "all layouts", "anchors": ["moirae/models/base.py:GeneralContainer.__len__", "moirae/models/base.py:GeneralContainer.all_names", "moirae/models/base.py:GeneralContainer.to_numpy"]}
{"id": "C16", "title": "from_numpy rejects vectors of the wrong width", "statement": "`from_numpy(x)` must not silently accept an array whose number of columns differs from `len(c)`.", "quantifier": "every container and array", "why_tests_cant": "all widths", "anchors": ["moirae/models/base.py:GeneralContainer.from_numpy"]}
{"id": "C17", "title": "enforce_dimensions normalises shapes without touching data", "statement": "For dim=0 the result has shape (n,1), for dim=1 rank >= 2; entries and their order are preserved; applying it twice equals applying it once; it raises exactly when dim=0 and more than one axis has size != 1, or dim is not 0/1.", "quantifier": "every array of every rank", "why_tests_cant": "unbounded rank/shape", "anchors": ["moirae/models/base.py:enforce_dimensions"]}
{"id": "C18", "title": "SOC is exact Coulomb counting over any history", "statement": "Under 'constant' current behaviour, after any sequence of inputs the SOC equals the initial SOC plus the sum over steps of eff_k * I_k * dt_k / (3600*Qt), where I_k is the previous input's current; under 'linear' the trapezoid (I_k+I_{k+1})/2 replaces I_k.", "quantifier": "all input sequences of any length, all parameter values", "why_tests_cant": "unbounded histories", "anchors": ["moirae/models/ecm/__init__.py:EquivalentCircuitModel.update_transient_state"]}
{"id": "C19", "title": "Coulombic efficiency applies only while charging", "statement": "The SOC change per step uses efficiency 1 when the previous current is negative and the configured efficiency otherwise; hence a charge followed by an equal discharge never gains SOC when 0<=CE<=1.", "quantifier": "all currents, step lengths and efficiencies", "why_tests_cant": "sign boundary for all reals", "anchors": ["moirae/models/ecm/__init__.py:EquivalentCircuitModel.update_transient_state"]}
{"id": "C20", "title": "Series-capacitor charge is the time integral of current", "statement": "q0 after any history equals initial q0 plus total cycled charge, with no efficiency factor; it stays absent when the circuit has no series capacitor.", "quantifier": "all input sequences", "why_tests_cant": "unbounded histories", "anchors": ["moirae/models/ecm/__init__.py:EquivalentCircuitModel.update_transient_state"]}
{"id": "C21", "title": "RC currents solve their ODE exactly under constant current", "statement": "Under 'constant' behaviour each RC current after dt is the exact solution at dt of tau*di/dt = I - i with i(0) the old value and I the new current; it lies between the old value and I and the distance to I shrinks by exp(-dt/tau).", "quantifier": "all currents, time steps > 0, RC values > 0, number of RC elements", "why_tests_cant": "all reals", "anchors": ["moirae/models/ecm/__init__.py:EquivalentCircuitModel.update_transient_state"]}
{"id": "C22", "title": "RC currents solve their ODE exactly under linear current", "statement": "Under 'linear' behaviour each RC current is the exact solution of tau*di/dt = I(t) - i for the linear ramp I(t) from the previous to the new current.", "quantifier": "all ramps, dt>0, tau>0", "why_tests_cant": "all reals", "anchors": ["moirae/models/ecm/__init__.py:EquivalentCircuitModel.update_transient_state"]}
{"id": "C23", "title": "Hysteresis stays in its envelope under constant current", "statement": "With constant current behaviour the new hysteresis is a convex combination of the old one and +-M (sign of the current), so |h'| <= max(|h|,|M|) and it approaches +-M monotonically for any sequence of steps of the same sign.", "quantifier": "all currents, dt >= 0, gamma >= 0, histories", "why_tests_cant": "unbounded histories, all reals", "anchors": ["moirae/models/ecm/__init__.py:EquivalentCircuitModel.update_transient_state", "moirae/models/ecm/utils.py:hysteresis_solver_const_sign"]}
{"id": "C24", "title": "Hysteresis stays in its envelope when the current ramps linearly", "statement": "With linear current behaviour, including ramps through zero, |h'| <= max(|h|,|M|).", "quantifier": "all ramps and parameters", "why_tests_cant": "needs exact treatment of the zero crossing", "anchors": ["moirae/models/ecm/__init__.py:EquivalentCircuitModel.update_transient_state", "moirae/models/ecm/utils.py:hysteresis_solver_const_sign"]}
{"id": "C25", "title": "Splitting a constant-current step changes nothing", "statement": "Two consecutive steps dt1, dt2 at the same current and constant parameters give the same SOC, q0, RC currents and hysteresis as one step dt1+dt2.", "quantifier": "all states, currents, dt1, dt2 >= 0", "why_tests_cant": "semigroup law over all reals", "anchors": ["moirae/models/ecm/__init__.py:EquivalentCircuitModel.update_transient_state"]}
{"id": "C26", "title": "A zero-length step keeps the state", "statement": "A step whose new time equals the previous time leaves SOC, q0, RC currents and hysteresis unchanged under constant behaviour.", "quantifier": "all states and inputs", "why_tests_cant": "all reals", "anchors": ["moirae/models/ecm/__init__.py:EquivalentCircuitModel.update_transient_state"]}
{"id": "C27", "title": "Terminal voltage is the sum of the circuit's drops", "statement": "V = OCV(SOC,T) + I*R0(SOC,T) + q0/C0(SOC) + sum_j i_j*R_j(SOC,T) + hyst; the terms absent from the circuit contribute nothing; at rest with zero transients V equals the OCV.", "quantifier": "all states, inputs, circuits with any number of RC elements", "why_tests_cant": "any number of RC pairs, all reals", "anchors": ["moirae/models/ecm/__init__.py:EquivalentCircuitModel.calculate_terminal_voltage"]}
{"id": "C28", "title": "Batched transient update equals row-by-row updates", "statement": "When transient, A-SOH parameters are batched with sizes 1 or B, row b of the updated state equals the update of the unbatched row-b state with row-b parameters.", "quantifier": "every B, every assignment of which quantities are batched, every number of RC elements", "why_tests_cant": "the numpy broadcasting/diagonal/reshape logic must be right for every combination of shapes", "anchors": ["moirae/models/ecm/__init__.py:EquivalentCircuitModel.update_transient_state", "moirae/models/ecm/utils.py:SOCInterpolatedHealth.get_value"]}
{"id": "C29", "title": "Batched voltage equals row-by-row voltages", "statement": "Row b of the batched terminal voltage equals the terminal voltage of the row-b state and parameters.", "quantifier": "every B and batching pattern", "why_tests_cant": "as above", "anchors": ["moirae/models/ecm/__init__.py:EquivalentCircuitModel.calculate_terminal_voltage"]}
{"id": "C30", "title": "Interpolated parameters pass through their pinpoints and stay between them", "statement": "With linear interpolation the value at each SOC pinpoint is the stored base value, between adjacent pinpoints it lies between their values and is linear, beyond the ends it continues the end segments, and the result does not depend on the order in which pinpoints are listed.", "quantifier": "all pinpoint sets with distinct SOCs, all base values, all SOC queries", "why_tests_cant": "all reals and sizes", "anchors": ["moirae/models/ecm/utils.py:SOCInterpolatedHealth.get_value", "moirae/models/ecm/utils.py:SOCInterpolatedHealth._interp_func"]}
{"id": "C31", "title": "Evaluating a parameter has no lasting effect", "statement": "Calling get_value never changes what later calls return nor which later assignments of base_values are usable.", "quantifier": "every health parameter and call sequence", "why_tests_cant": "hidden state survives between calls", "anchors": ["moirae/models/ecm/utils.py:SOCInterpolatedHealth._interp_func"]}
{"id": "C32", "title": "Resistance temperature law", "statement": "R(SOC,T) = R_ref(SOC)*exp(-g*(T-Tref)); it equals R_ref at Tref or with no temperature, keeps the sign of R_ref, is antitone in T for g>0, R_ref>0.", "quantifier": "all SOC, T, parameters", "why_tests_cant": "all reals", "anchors": ["moirae/models/ecm/components.py:Resistance.get_value", "moirae/models/ecm/components.py:OpenCircuitVoltage.get_value"]}
{"id": "C33", "title": "Theoretical energy is a sound quadrature", "statement": "get_theoretical_energy is independent of the order of the SOC limits, lies between min and max OCV times the SOC span times capacity, is exact for an OCV affine in SOC, and scales linearly with capacity.", "quantifier": "all OCV curves, limits, capacities", "why_tests_cant": "all reals", "anchors": ["moirae/models/ecm/advancedSOH.py:ECMASOH.get_theoretical_energy"]}
{"id": "C34", "title": "Capacity units round-trip", "statement": "Setting `value` in A-s and reading it back gives the same number; `amp_hour` is value/3600.", "quantifier": "all capacities", "why_tests_cant": "all reals", "anchors": ["moirae/models/ecm/components.py:MaxTheoreticalCapacity"]}
{"id": "C35", "title": "Templates fit the circuits they are made for", "statement": "ECMTransientVector.from_asoh(a) has exactly one RC current per RC element of a and a q0 iff a has a series capacitor, so both model functions accept the pair; provide_template raises iff the number of currents given differs from num_RC.", "quantifier": "all circuits", "why_tests_cant": "any number of RC elements", "anchors": ["moirae/models/ecm/transient.py:ECMTransientVector", "moirae/models/ecm/advancedSOH.py:ECMASOH.provide_template"]}
{"id": "C36", "title": "RC elements of a template are independent parameters", "statement": "After ECMASOH.provide_template(num_RC=n), writing a parameter of one RC element does not change another RC element.", "quantifier": "all n >= 2, all writes", "why_tests_cant": "object identity, not values, decides it", "anchors": ["moirae/models/ecm/advancedSOH.py:ECMASOH.provide_template"]}
{"id": "C37", "title": "Thevenin batch members are simulated with their own parameters", "statement": "Member b of a batched update runs with row b of every batched quantity and the single row of every unbatched one, and result row b depends on nothing else.", "quantifier": "every batch size and batching pattern, every ODE solver behaviour", "why_tests_cant": "all shapes; solver is external", "anchors": ["moirae/models/thevenin/__init__.py:TheveninModel._make_models", "moirae/models/thevenin/__init__.py:TheveninModel.update_transient_state"]}
{"id": "C38", "title": "Thevenin polynomial parameters and voltage", "statement": "SOC/temperature polynomials evaluate sum_i c_i x^i; the terminal voltage is OCV(soc)+I*R0(soc,T)-sum(eta); evaluating the whole batch equals evaluating each member by batch_id.", "quantifier": "all coefficient vectors of any degree, all batches", "why_tests_cant": "all degrees", "anchors": ["moirae/models/thevenin/components.py:SOCPolynomialVariable.__call__", "moirae/models/thevenin/components.py:SOCTempPolynomialVariable.__call__", "moirae/models/thevenin/__init__.py:TheveninModel.calculate_terminal_voltage"]}
{"id": "C39", "title": "Simulator history is faithful", "statement": "With keep_history, after n steps all histories have n+1 entries; entry k+1's transient is the model update of entry k under inputs k,k+1 and A-SOH k; entry k+1's measurement is the model output for its own transient and input and A-SOH k; the last entries equal the current state.", "quantifier": "every cell model, degradation model, input sequence", "why_tests_cant": "unbounded histories, arbitrary models", "anchors": ["moirae/simulator.py:Simulator.step", "moirae/simulator.py:Simulator.__init__"]}
{"id": "C40", "title": "Evolving in pieces equals evolving at once; history keeping is invisible", "statement": "evolve(a+b) gives the measurements of evolve(a) followed by evolve(b) and the same final state; results do not depend on keep_history; a failing step leaves the earlier history intact.", "quantifier": "all input lists and models", "why_tests_cant": "unbounded lists", "anchors": ["moirae/simulator.py:Simulator.evolve"]}
{"id": "C41", "title": "The simulator is isolated from its caller's objects", "statement": "Mutating the objects passed to the constructor or step, or the objects returned by step, after the call does not change the simulator's later behaviour.", "quantifier": "every interleaving of steps and caller mutations", "why_tests_cant": "aliasing under arbitrary mutation schedules", "anchors": ["moirae/simulator.py:Simulator.__init__", "moirae/simulator.py:Simulator.step"]}
{"id": "C42", "title": "Dataframe rows carry the batch label of the cell they describe", "statement": "In to_dataframe, each row labelled batch b holds the inputs, transient and measurement of cell b at some step; to_batdata dataset b holds cell b's series in time order.", "quantifier": "every batch size and number of steps", "why_tests_cant": "layout law for all sizes", "anchors": ["moirae/simulator.py:Simulator.to_dataframe", "moirae/simulator.py:Simulator.to_batdata"]}
{"id": "C43", "title": "Without a degradation model the state of health never changes", "statement": "With the default degradation model the A-SOH after any history equals the initial one.", "quantifier": "every input sequence", "why_tests_cant": "unbounded histories", "anchors": ["moirae/models/utils.py:NoDegradation.update_asoh", "moirae/simulator.py:Simulator.step"]}
{"id": "C44", "title": "Combining independent distributions", "statement": "combine_with concatenates means in order and places covariances as diagonal blocks with zero cross-covariance; dimensions add, operands are unchanged, and combining is associative.", "quantifier": "any number of distributions of any dimensions", "why_tests_cant": "any arity", "anchors": ["moirae/estimators/online/filters/distributions.py:MultivariateGaussian.combine_with", "moirae/estimators/online/filters/distributions.py:DeltaDistribution.combine_with"]}
{"id": "C45", "title": "Coordinate conversions round-trip", "statement": "Converting a distribution with an invertible linear (or identity) operator and back returns the original mean and covariance, in both directions.", "quantifier": "all dimensions, all invertible matrices / non-zero scalars, all distributions", "why_tests_cant": "all matrices", "anchors": ["moirae/estimators/online/filters/conversions.py:LinearConversionOperator", "moirae/estimators/online/filters/distributions.py:MultivariateGaussian.convert"]}
{"id": "C46", "title": "Conversions keep covariances symmetric positive semi-definite and moments consistent", "statement": "For every operator, converted covariances of PSD matrices are PSD; for linear operators the converted mean and covariance of any weighted sample are the mean and covariance of the converted sample.", "quantifier": "all operators and covariances", "why_tests_cant": "all matrices", "anchors": ["moirae/estimators/online/filters/conversions.py:LinearConversionOperator.transform_covariance", "moirae/estimators/online/filters/conversions.py:FirstOrderTaylorConversionOperator.transform_covariance"]}
{"id": "C47", "title": "Absolute-value conversion yields admissible parameters", "statement": "Converted samples are non-negative at the selected indices and untouched elsewhere; conversion is idempotent, the identity on admissible samples, and variances are preserved.", "quantifier": "all samples, index lists", "why_tests_cant": "all sizes", "anchors": ["moirae/estimators/online/filters/conversions.py:AbsoluteValueConversionOperator"]}
{"id": "C48", "title": "Sigma points carry exactly the prior's mean and covariance", "statement": "The weighted mean of the sigma points is the augmented mean and their weighted covariance is the augmented covariance blockdiag(P, Q, R), for every legal tuning.", "quantifier": "all dimensions, means, covariances, legal alpha/beta/kappa", "why_tests_cant": "all dimensions and reals", "anchors": ["moirae/estimators/online/filters/kalman/unscented.py:UnscentedKalmanFilter.build_sigma_points"]}
{"id": "C49", "title": "UKF weights are normalised for every legal tuning", "statement": "Mean weights sum to 1; there are 2L+1 of them; covariance weights differ only in the first by 1-alpha^2+beta; with default tuning all are non-negative.", "quantifier": "all legal alpha, beta, kappa and dimensions", "why_tests_cant": "all reals", "anchors": ["moirae/estimators/online/filters/kalman/unscented.py:UnscentedKalmanFilter.mean_weights", "moirae/estimators/online/filters/kalman/unscented.py:UnscentedKalmanFilter.cov_weights"]}
{"id": "C50", "title": "On affine models the UKF is the Kalman filter", "statement": "If the wrapped model is affine, one filter step yields exactly the Kalman filter's predicted mean/covariance, predicted output mean/covariance, gain and posterior.", "quantifier": "all affine models, dimensions, priors, noises, legal tunings", "why_tests_cant": "all matrices", "anchors": ["moirae/estimators/online/filters/kalman/unscented.py:UnscentedKalmanFilter.step"]}
{"id": "C51", "title": "Filter covariances are valid and never grow at correction", "statement": "With non-negative covariance weights (e.g. defaults), for every (non-linear) model the predicted covariances are symmetric PSD, and when the predicted output covariance is positive definite the corrected covariance is PSD and not larger than the predicted one.", "quantifier": "all models, dimensions, priors", "why_tests_cant": "arbitrary non-linear models", "anchors": ["moirae/estimators/online/filters/kalman/unscented.py:UnscentedKalmanFilter.estimation_update", "moirae/estimators/online/filters/kalman/unscented.py:UnscentedKalmanFilter.correction_update"]}
{"id": "C52", "title": "Covariance repair returns a positive semi-definite matrix", "statement": "ensure_positive_semi_definite returns its input when it is positive definite, and otherwise a symmetric positive semi-definite matrix.", "quantifier": "all square matrices", "why_tests_cant": "all matrices", "anchors": ["moirae/estimators/online/filters/kalman/utils.py:ensure_positive_semi_definite", "moirae/estimators/online/filters/kalman/utils.py:enforce_positive_semi_defiteness"]}
{"id": "C53", "title": "Illegal tuning is refused", "statement": "The filter can be constructed iff alpha in [0.001,1], beta>=0, kappa>-L (or 'automatic') and all noise/hidden dimensions match; every constructed filter has positive spread and finite weights.", "quantifier": "all parameters and shapes", "why_tests_cant": "all reals/shapes", "anchors": ["moirae/estimators/online/filters/kalman/unscented.py:UnscentedKalmanFilter.__init__"]}
{"id": "C54", "title": "Filter bookkeeping over histories", "statement": "After any sequence of steps the stored controls are the last inputs given, the model is evolved at step k from inputs k-1 to inputs k, and the returned estimate equals the stored one; a perfectly predicted measurement leaves the predicted mean.", "quantifier": "all step sequences and models", "why_tests_cant": "unbounded histories", "anchors": ["moirae/estimators/online/filters/kalman/unscented.py:UnscentedKalmanFilter.step"]}
{"id": "C55", "title": "Hidden vectors and model objects round-trip in the joint wrapper", "statement": "create_cell_model_inputs(create_hidden_state(asoh, transients)) gives back the transients and the selected A-SOH parameters, with all other parameters taken from the wrapper's template; and conversely.", "quantifier": "all trees, parameter selections, batch sizes, invertible converters", "why_tests_cant": "all layouts", "anchors": ["moirae/estimators/online/utils/model.py:JointCellModelWrapper.create_hidden_state", "moirae/estimators/online/utils/model.py:JointCellModelWrapper.create_cell_model_inputs"]}
{"id": "C56", "title": "Normalising coordinates does not change the physics", "statement": "With an invertible hidden-state converter the wrapper's update and prediction are the unconverted ones conjugated by the converter, so a filter in normalised coordinates sees the same model.", "quantifier": "all cell models, converters, hidden states", "why_tests_cant": "all models", "anchors": ["moirae/estimators/online/utils/model.py:JointCellModelWrapper.update_hidden_states", "moirae/estimators/online/utils/model.py:JointCellModelWrapper.predict_measurement", "moirae/estimators/online/utils/model.py:CellModelWrapper"]}
{"id": "C57", "title": "estimator.state agrees with the last estimate returned by step", "statement": "After step, estimator.state is the distribution that step returned, in model coordinates, whatever conversion is configured.", "quantifier": "all estimators, converters, histories", "why_tests_cant": "all histories/converters", "anchors": ["moirae/estimators/online/joint.py:JointEstimator.state", "moirae/estimators/online/joint.py:JointEstimator.step"]}
{"id": "C58", "title": "The dual estimator exposes its combined state", "statement": "DualEstimator.state is the transient estimate followed by the A-SOH estimate, in model coordinates.", "quantifier": "all dual estimators and histories", "why_tests_cant": "all histories", "anchors": ["moirae/estimators/online/dual.py:DualEstimator.state"]}
{"id": "C59", "title": "The dual estimator works for any chosen subset of updatable parameters", "statement": "If the A-SOH wrapper estimates a subset of the updatable parameters, get_estimated_state and step place the estimates in exactly those parameters.", "quantifier": "all subsets of updatable parameters", "why_tests_cant": "all subsets", "anchors": ["moirae/estimators/online/dual.py:DualEstimator.get_estimated_state", "moirae/estimators/online/dual.py:DualEstimator.step"]}
{"id": "C60", "title": "State names label the state vector", "statement": "state_names has one distinct name per state dimension: transient values first, then the estimated A-SOH values, in vector order.", "quantifier": "all models and selections", "why_tests_cant": "all layouts", "anchors": ["moirae/estimators/online/__init__.py:OnlineEstimator.state_names"]}
{"id": "C61", "title": "Dual estimation exchanges only the previous posteriors", "statement": "At each step the transient filter uses the A-SOH posterior of the previous step and the A-SOH filter uses the transient posterior of the previous step, so the order of stepping the two filters is irrelevant; the returned state combines both posteriors.", "quantifier": "all histories and models", "why_tests_cant": "unbounded histories", "anchors": ["moirae/estimators/online/dual.py:DualEstimator.step"]}
{"id": "C62", "title": "Rows become the inputs they describe", "statement": "row_to_inputs passes time, current, voltage through and uses the row's temperature iff present and finite, else the default; the estimators take their step with exactly these values.", "quantifier": "all rows incl. NaN/inf temperatures", "why_tests_cant": "all values", "anchors": ["moirae/interface/__init__.py:row_to_inputs"]}
{"id": "C63", "title": "Row i of the estimates describes row i of the dataset", "statement": "run_online_estimate returns one row per dataset row, row i being the estimate after observing dataset row i.", "quantifier": "all datasets and estimators", "why_tests_cant": "all lengths", "anchors": ["moirae/interface/__init__.py:run_online_estimate"]}
{"id": "C64", "title": "Columns ending in _std hold standard deviations", "statement": "The `<name>_std` columns are the square roots of the diagonal of the covariance.", "quantifier": "all datasets", "why_tests_cant": "all values", "anchors": ["moirae/interface/__init__.py:run_online_estimate"]}
{"id": "C65", "title": "The estimator starts from the dataset's first inputs", "statement": "Before the first update the estimator's previous inputs are those of the first row of the dataset.", "quantifier": "all datasets and estimators", "why_tests_cant": "all values", "anchors": ["moirae/interface/__init__.py:run_online_estimate"]}
{"id": "C66", "title": "Per-timestep estimates written to HDF5 are read back exactly", "statement": "With per_timestep in full/mean_cov/mean_var/mean, reading the file yields one entry per appended step, in order, with its time, mean and (co)variance as stored by the chosen mode.", "quantifier": "every sequence of steps of any length (finite times) fitting the declared size", "why_tests_cant": "unbounded sequences, growth by chunks", "anchors": ["moirae/interface/hdf5.py:HDF5Writer.append_step", "moirae/interface/hdf5.py:read_state_estimates"]}
{"id": "C67", "title": "Per-cycle output stores the first step of every cycle and is read back", "statement": "The per-cycle group holds, for every cycle seen, the first step of that cycle, and reading yields them all.", "quantifier": "every sequence of (cycle, step) incl. gaps in cycle numbers", "why_tests_cant": "all orders and gaps", "anchors": ["moirae/interface/hdf5.py:HDF5Writer.append_step", "moirae/interface/hdf5.py:read_state_estimates"]}
{"id": "C68", "title": "A resizable file never runs out of space", "statement": "With resizable output and no expected size, append_step succeeds for any number of steps and any cycle number.", "quantifier": "all sequences", "why_tests_cant": "unbounded; needs growth argument", "anchors": ["moirae/interface/hdf5.py:HDF5Writer.append_step", "moirae/interface/hdf5.py:HDF5Writer.prepare"]}
{"id": "C69", "title": "Writer life-cycle", "statement": "prepare/append_step raise ValueError unless inside `with`; after exit the writer is not ready; preparing a file that already holds estimates is refused, never overwritten; a non-resizable writer needs both sizes.", "quantifier": "every sequence of open/prepare/append/close operations", "why_tests_cant": "all operation sequences", "anchors": ["moirae/interface/hdf5.py:HDF5Writer"]}
{"id": "C70", "title": "The loss is the mean squared voltage error of the simulated run", "statement": "MeanSquaredLoss(x) is the average over all rows of (predicted - observed)^2 for a simulation started from x; it is >= 0 and zero iff every prediction matches.", "quantifier": "all datasets, models, parameter vectors", "why_tests_cant": "all lengths", "anchors": ["moirae/estimators/offline/loss.py:MeanSquaredLoss.__call__"]}
{"id": "C71", "title": "The loss accepts a batch of parameter vectors", "statement": "For a batch of B parameter rows the loss returns B values, the b-th being the loss of row b.", "quantifier": "every batch size", "why_tests_cant": "all B", "anchors": ["moirae/estimators/offline/loss.py:MeanSquaredLoss.__call__"]}
{"id": "C72", "title": "The optimiser's vector and the objects agree", "statement": "get_x0 is the initial state followed by the updatable parameters; the estimate returned splits the optimum the same way; scaling by the initial error keeps the ordering of candidates.", "quantifier": "all states, trees, optima", "why_tests_cant": "all layouts", "anchors": ["moirae/estimators/offline/loss.py:BaseLoss.get_x0", "moirae/estimators/offline/scipy.py:ScipyMinimizer.estimate"]}
{"id": "C73", "title": "Extracted capacity is the largest observed cycle capacity", "statement": "The extracted capacity is attained by some cycle and no cycle exceeds it; check_data rejects exactly the datasets without raw data or whose largest capacity is below the required fraction.", "quantifier": "all cycle tables in which some cycle has a capacity, all non-negative capacities required", "why_tests_cant": "all tables", "anchors": ["moirae/extractors/ecm.py:MaxCapacityExtractor.extract", "moirae/extractors/ecm.py:OCVExtractor.check_data"]}
{"id": "C74", "title": "OCV fit weights are a probability vector favouring low current", "statement": "Weights are positive, sum to 1, and a smaller |current| never gets a smaller weight; currents below 1e-6 are all weighted alike.", "quantifier": "all current series", "why_tests_cant": "all lengths", "anchors": ["moirae/extractors/ecm.py:OCVExtractor.interpolate_ocv"]}
{"id": "C75", "title": "update_parameters refuses names that are not parameters", "statement": "`update_parameters(values, names)` must raise when a name is not the name of a parameter, leaving the object's structure intact.", "quantifier": "every tree, every name list", "why_tests_cant": "all non-parameter names, including names of sub-models", "anchors": ["moirae/models/base.py:HealthVariable.update_parameters", "moirae/models/base.py:HealthVariable._get_model_chain"]}
{"id": "C76", "title": "Dual estimation runs through any history", "statement": "When each filter's model treats every hidden state by itself and accepts whatever the other filter estimates, no step fails and every returned covariance is positive definite.", "quantifier": "all histories of well-formed inputs and measurements, all such models, sizes and changes of units", "why_tests_cant": "unbounded histories", "anchors": ["moirae/estimators/online/dual.py:DualEstimator.step"]}
{"id": "C77", "title": "The file written by a run holds the estimates of the run", "statement": "Reading the HDF5 file that run_online_estimate wrote gives, for every observed row in order, the time of the row and the estimate and prediction returned by the step for that row (reduced to what the writer was told to keep).", "quantifier": "all datasets, estimators and writer options that store timesteps", "why_tests_cant": "unbounded datasets", "anchors": ["moirae/interface/__init__.py:run_online_estimate", "moirae/interface/hdf5.py:HDF5Writer.append_step", "moirae/interface/hdf5.py:read_state_estimates"]}
{"id": "C78", "title": "Joint estimation runs through any history", "statement": "When the model treats every hidden state by itself, no step of a JointEstimator fails and every returned covariance is positive definite.", "quantifier": "all histories of well-formed inputs and measurements, all such models, sizes and changes of units", "why_tests_cant": "unbounded histories", "anchors": ["moirae/estimators/online/joint.py:JointEstimator.step"]}
{"id": "C79", "title": "Runs over finite data succeed", "statement": "run_online_estimate over any non-empty dataset whose times, currents and voltages are finite succeeds with a working estimator and returns one row per row of the dataset; without anything to run over it raises before the estimator takes a step (ValueError without time series, StopIteration without rows, KeyError if the first row lacks a time, current or voltage).", "quantifier": "all datasets, all working joint and dual estimators", "why_tests_cant": "unbounded datasets", "anchors": ["moirae/interface/__init__.py:run_online_estimate"]}
{"id": "C80", "title": "The estimates of every estimator can be stored", "statement": "run_online_estimate with hdf5_output stores the estimates of any online estimator that runs without it.", "quantifier": "all datasets, all working joint and dual estimators", "why_tests_cant": "all kinds of estimators", "anchors": ["moirae/interface/__init__.py:run_online_estimate", "moirae/interface/hdf5.py:HDF5Writer.prepare", "moirae/estimators/online/dual.py:DualEstimator.state"]}
{"id": "C81", "title": "Datasets without any cycle capacity are refused", "statement": "OCVExtractor.check_data raises when no cycle of the dataset has a capacity (an empty cycle table, or NaN throughout), since such a dataset does not sample the required SOC range.", "quantifier": "all cycle tables", "why_tests_cant": "NaN and empty tables behave unlike any sampled table", "anchors": ["moirae/extractors/ecm.py:OCVExtractor.check_data", "moirae/extractors/ecm.py:MaxCapacityExtractor.extract"]}
{"id": "C82", "title": "The OCV fit uses every measurement as it is", "statement": "The spline is fitted to all measurements, sorted by SOC, each with its own voltage and a weight inversely proportional to its own (clipped) current, with the inner SOC points as knots; the extracted OCV takes the fitted values at the SOC points and does not depend on temperature.", "quantifier": "all datasets, SOC points, spline fits and sorting algorithms", "why_tests_cant": "unbounded data; ties in the sort", "anchors": ["moirae/extractors/ecm.py:OCVExtractor.interpolate_ocv", "moirae/extractors/ecm.py:OCVExtractor.extract"]}
{"id": "C83", "title": "A dataset samples the capacity extracted from it", "statement": "check_data of an OCVExtractor built with the capacity extracted from a dataset accepts that dataset exactly when the requirement is at most 100%.", "quantifier": "all datasets with a positive largest capacity, all SOC points and requirements", "why_tests_cant": "all datasets", "anchors": ["moirae/extractors/ecm.py:OCVExtractor.check_data", "moirae/extractors/ecm.py:OCVExtractor.__init__"]}
{"id": "C84", "title": "Distributions keep their moments in the documented shapes", "statement": "DeltaDistribution and MultivariateGaussian accept a mean given as a vector of any dimension or as one row or one column of values, store it as a one-dimensional vector with the same values, and keep a square covariance unchanged.", "quantifier": "all arrays of any shape and size", "why_tests_cant": "all shapes", "anchors": ["moirae/estimators/online/filters/distributions.py:DeltaDistribution", "moirae/estimators/online/filters/distributions.py:MultivariateGaussian"]}
{"id": "C85", "title": "Covariances follow the Jacobian", "statement": "A conversion operator with Jacobian J turns a covariance S into J S J^T.", "quantifier": "all operators with a Jacobian, all covariances", "why_tests_cant": "all Jacobians, symmetric or not", "anchors": ["moirae/estimators/online/filters/conversions.py:FirstOrderTaylorConversionOperator.transform_covariance"]}
{"id": "C86", "title": "A linear conversion can be made from any documented arguments", "statement": "LinearConversionOperator takes a multiplicative array and an optional additive vector, and computes M x + a (M x when the additive vector is left out).", "quantifier": "all arrays of any shape", "why_tests_cant": "all shapes, with and without an offset", "anchors": ["moirae/estimators/online/filters/conversions.py:LinearConversionOperator"]}
{"id": "C87", "title": "A new estimator holds the initial values", "statement": "Before its first step an estimator gives back exactly the initial transient state and health parameters it was built from, and its filter holds, in the units of the model, the given initial mean and covariance.", "quantifier": "all models, healths, units, noises and tuning parameters with which an estimator can be built", "why_tests_cant": "all layouts and units", "anchors": ["moirae/estimators/online/joint.py:JointEstimator.__init__", "moirae/estimators/online/joint.py:JointEstimator.initialize_unscented_kalman_filter", "moirae/estimators/online/dual.py:DualEstimator.__init__"]}
{"id": "C88", "title": "Process noises given to a joint estimator are used", "statement": "Every process noise covariance given to JointEstimator.initialize_unscented_kalman_filter ends up in the filter: the joint one as it is, otherwise those of the transients and of the health on their own blocks.", "quantifier": "all combinations of given and missing noises, all sizes and values", "why_tests_cant": "all sizes", "anchors": ["moirae/estimators/online/joint.py:JointEstimator.initialize_unscented_kalman_filter"]}
{"id": "C89", "title": "The default process noise does not depend on the units", "statement": "An estimator given no process noise adds the same default noise, seen in the units of the model, whether or not the health parameters are normalized.", "quantifier": "all models, healths and units", "why_tests_cant": "all units", "anchors": ["moirae/estimators/online/joint.py:JointEstimator.initialize_unscented_kalman_filter", "moirae/estimators/online/filters/kalman/unscented.py:UnscentedKalmanFilter.__init__"]}
{"id": "C90", "title": "Parameters are those at the start of a step", "statement": "The new transient state of a circuit depends on the health parameters only through their values at the previous SOC and temperature (capacity, efficiency, maximum hysteresis and its rate, RC time constants), and on the new inputs only through time and current.", "quantifier": "all pairs of circuits and inputs agreeing in these values, all batches, both current behaviors", "why_tests_cant": "all curves that agree at one point and differ elsewhere", "anchors": ["moirae/models/ecm/__init__.py:EquivalentCircuitModel.update_transient_state"]}
{"id": "C91", "title": "The hysteresis follows its differential equation", "statement": "The new hysteresis is the value at the end of the step of the solution of dh/dt = kappa |I| (sign(I) M - h) that starts at the old hysteresis, for the assumed course of the current (constant, or a ramp between the two currents, with or without change of sign).", "quantifier": "all circuits, states, batches and pairs of inputs, both current behaviors", "why_tests_cant": "exact for all real currents, durations and parameters", "anchors": ["moirae/models/ecm/__init__.py:EquivalentCircuitModel.update_transient_state", "moirae/models/ecm/utils.py:hysteresis_solver_const_sign"]}
{"id": "C92", "title": "A joint filter's model is the simulator", "statement": "Hidden states standing for transient states and a state of health are evolved and measured by JointCellModelWrapper as a Simulator of the same cell and degradation model evolves and measures those objects.", "quantifier": "all cells, degradation models, units, numbers of hidden states and lists of controls of any length", "why_tests_cant": "any cell model and any history", "anchors": ["moirae/estimators/online/utils/model.py:JointCellModelWrapper.update_hidden_states", "moirae/estimators/online/utils/model.py:JointCellModelWrapper.predict_measurement", "moirae/simulator.py:Simulator.step"]}
{"id": "C93", "title": "The models of a dual estimator are the simulator", "statement": "The transient filter of a dual estimator evolves and measures hidden states as a Simulator with the current state of health does; the health filter predicts the measurement a Simulator with the hypothetical state of health makes after one step from the known transient states, and without degradation keeps its hidden states.", "quantifier": "all cells, units, degradation models of the simulator and numbers of hidden states", "why_tests_cant": "any cell model", "anchors": ["moirae/estimators/online/utils/model.py:CellModelWrapper.update_hidden_states", "moirae/estimators/online/utils/model.py:CellModelWrapper.predict_measurement", "moirae/estimators/online/utils/model.py:DegradationModelWrapper.update_hidden_states", "moirae/estimators/online/utils/model.py:DegradationModelWrapper.predict_measurement", "moirae/simulator.py:Simulator.step"]}
{"id": "C94", "title": "A fresh Thevenin state fits its circuit", "statement": "A TheveninASOH can be made exactly when there is one resistor more than there are capacitors, and ValueError is raised otherwise; TheveninTransient.from_asoh makes a state with the given SOC and temperature and one discharged overpotential per RC element, from which the model gives the open-circuit voltage at rest and runs of any length never fail for mismatched sizes.", "quantifier": "all circuits with any number of RC elements, all SOCs and temperatures, all lists of inputs, any solver", "why_tests_cant": "any number of RC elements and steps", "anchors": ["moirae/models/thevenin/state.py:TheveninASOH", "moirae/models/thevenin/state.py:TheveninTransient.from_asoh", "moirae/models/thevenin/__init__.py:TheveninModel"]}
{"id": "C95", "title": "Objects written as JSON are read back", "statement": "The JSON form of a state of health or of a transient state (model_dump_json, also stored in HDF5 files) is read back by the same class as the same object.", "quantifier": "all objects of the ECM and Thevenin classes with parameters of any shape, any number of RC elements", "why_tests_cant": "any shapes, any tree of parameters, before and after use", "anchors": ["moirae/models/base.py:_encode_ndarray", "moirae/models/base.py:ScalarParameter", "moirae/models/base.py:ListParameter", "moirae/models/ecm/utils.py:SOCInterpolatedHealth._serialize_numpy", "moirae/models/thevenin/state.py:TheveninASOH", "moirae/interface/hdf5.py:HDF5Writer.prepare"]}
{"id": "C96", "title": "A cell at rest relaxes to its open-circuit voltage", "statement": "While no current flows and the temperature stays the same, SOC, series-capacitor charge and hysteresis of an equivalent circuit stay as they are, every RC current falls by exp(-duration/tau), and the terminal voltage tends to OCV + q0/C0 + hysteresis as the rest goes on.", "quantifier": "all circuits, states, batch sizes, both current behaviours, rests of any number of steps of any lengths", "why_tests_cant": "limit over rests of any length, divided in any way", "anchors": ["moirae/models/ecm/__init__.py:EquivalentCircuitModel.update_transient_state", "moirae/models/ecm/__init__.py:EquivalentCircuitModel.calculate_terminal_voltage"]}
{"id": "C97", "title": "Only differences of times matter", "statement": "Moving all times of the inputs by the same amount changes neither the transient states nor the voltages of either cell model.", "quantifier": "all inputs, states, health parameters, batch sizes, shifts and lengths of history", "why_tests_cant": "every shift and every history", "anchors": ["moirae/models/ecm/__init__.py:EquivalentCircuitModel.update_transient_state", "moirae/models/ecm/__init__.py:EquivalentCircuitModel.calculate_terminal_voltage", "moirae/models/thevenin/__init__.py:TheveninModel.update_transient_state"]}
{"id": "C98", "title": "Every transient state depends on its own parameters only", "statement": "In a step of the equivalent circuit the new SOC depends only on the old SOC, the capacity and the Coulombic efficiency; the new q0 only on the old q0; the RC currents only on themselves, the SOC, the temperature and the RC elements; the hysteresis only on itself, the SOC, the capacity, the efficiency and its own two parameters. OCV, R0 and C0 never influence the states.", "quantifier": "all pairs of inputs, states and circuits that agree in the named quantities", "why_tests_cant": "non-interference between any two circuits", "anchors": ["moirae/models/ecm/__init__.py:EquivalentCircuitModel.update_transient_state"]}
{"id": "C99", "title": "RC currents stay within the range of the applied current", "statement": "Over any history, RC currents that start within a range containing every applied current stay within that range.", "quantifier": "all circuits, batch sizes, current behaviours, ranges and histories of any length with positive time constants", "why_tests_cant": "invariant over histories of any length", "anchors": ["moirae/models/ecm/__init__.py:EquivalentCircuitModel.update_transient_state"]}
{"id": "C100", "title": "The measured value moves the mean, never the uncertainty", "statement": "In a step of the unscented filter the corrected covariance, the predicted output and the model's memory do not depend on the measured value; the mean moves by the gain times the difference of measured and predicted output, so that a measurement equal to the prediction leaves it; for affine models no later covariance depends on what was measured.", "quantifier": "all filters, models and measurements; for histories all affine models, dimensions and lengths", "why_tests_cant": "relation between any two measurements or histories", "anchors": ["moirae/estimators/online/filters/kalman/unscented.py:UnscentedKalmanFilter.correction_update", "moirae/estimators/online/filters/kalman/unscented.py:UnscentedKalmanFilter.step"]}
{"id": "C101", "title": "More noise never gives a smaller covariance", "statement": "For a model affine in the state, a filter whose prior covariance, process noise and sensor noise are at least as large as those of another (in the order of symmetric matrices) has at every step a covariance at least as large, of the estimate and of the predicted output.", "quantifier": "all affine models, dimensions, tunings, positive definite covariances and histories of any length", "why_tests_cant": "matrix order over any dimension and any history", "anchors": ["moirae/estimators/online/filters/kalman/unscented.py:UnscentedKalmanFilter.step", "moirae/estimators/online/filters/kalman/unscented.py:UnscentedKalmanFilter.estimation_update", "moirae/estimators/online/filters/kalman/unscented.py:UnscentedKalmanFilter.correction_update"]}
{"id": "C102", "title": "Every hidden state of a circuit's joint estimator is a cell of its own", "statement": "Whenever the joint model wrapper updates or predicts a batch of hidden states of an equivalent circuit, every row of the result is that of the single cell with the transient states and parameters in that row, and the estimated parameters stay as they are. Which choices of parameters can be handled does not depend on any values: for two or more hidden states the update returns exactly if constants stored with a curve of several values are estimated only together with the curve, no temperature factor is estimated while temperatures are measured, the entropic curve then only together with the reference curve, and RC resistances and RC time constants all or none; in these cases predictions return too.", "quantifier": "all circuits with any number of RC elements and values per curve, all choices of parameters, any number of hidden states, all converters, inputs and values", "why_tests_cant": "every choice of parameters and every batch size", "anchors": ["moirae/estimators/online/utils/model.py:JointCellModelWrapper.update_hidden_states", "moirae/estimators/online/utils/model.py:JointCellModelWrapper.predict_measurement", "moirae/models/ecm/__init__.py:EquivalentCircuitModel.update_transient_state", "moirae/models/ecm/__init__.py:EquivalentCircuitModel.calculate_terminal_voltage", "moirae/models/ecm/components.py:Resistance.get_value"]}
{"id": "C103", "title": "Joint estimation of a circuit never fails", "statement": "For an equivalent circuit under constant or linearly changing currents and a choice of parameters that batches can be computed for, initialize_ukf_from_wrapper builds a joint estimator from positive definite covariances, in any units; if its weights are not negative, it runs through every history of inputs and voltages without raising, and all covariances it returns are positive definite.", "quantifier": "all circuits with any number of RC elements, parameters to estimate, units, covariances, tunings and histories of any length for which no divisor vanishes (under linearly changing currents the time steps are divisors, too)", "why_tests_cant": "histories of any length, any circuit", "anchors": ["moirae/estimators/online/joint.py:JointEstimator.initialize_ukf_from_wrapper", "moirae/estimators/online/joint.py:JointEstimator.step", "moirae/estimators/online/utils/model.py:JointCellModelWrapper", "moirae/models/ecm/__init__.py:EquivalentCircuitModel"]}
{"id": "C104", "title": "Every hidden state of a circuit's transient filter is a cell of its own", "statement": "Whenever CellModelWrapper updates or predicts a batch of transient states of an equivalent circuit, every row of the result is the step or the voltage of the single cell in that state. Whether it returns does not depend on the states: update and prediction both return exactly if every curve of the circuit can be evaluated.", "quantifier": "all circuits with any number of RC elements and values per curve, any number of hidden states, all converters, inputs and values", "why_tests_cant": "every circuit and every batch size", "anchors": ["moirae/estimators/online/utils/model.py:CellModelWrapper.update_hidden_states", "moirae/estimators/online/utils/model.py:CellModelWrapper.predict_measurement", "moirae/models/ecm/__init__.py:EquivalentCircuitModel.update_transient_state", "moirae/models/ecm/__init__.py:EquivalentCircuitModel.calculate_terminal_voltage"]}
{"id": "C105", "title": "Every hidden state of a circuit's health filter is a cell of its own", "statement": "DegradationModelWrapper without degradation leaves a batch of parameters of an equivalent circuit as it is and predicts from them the voltages that the cells with these parameters show one step after the remembered transient state. There is one prediction per hidden state exactly if one of the parameters takes part in the voltage; otherwise a single row serves all of them, which all have the same voltage. For two or more hidden states update and prediction return exactly if the choice of parameters is one that batches can be computed for from a single transient state, whatever the values.", "quantifier": "all circuits with any number of RC elements and values per curve, all choices of parameters, any number of hidden states, all converters, transient states, inputs and values", "why_tests_cant": "every choice of parameters and every batch size", "anchors": ["moirae/estimators/online/utils/model.py:DegradationModelWrapper.update_hidden_states", "moirae/estimators/online/utils/model.py:DegradationModelWrapper.predict_measurement", "moirae/models/ecm/__init__.py:EquivalentCircuitModel.update_transient_state", "moirae/models/ecm/__init__.py:EquivalentCircuitModel.calculate_terminal_voltage"]}
{"id": "C106", "title": "Dual estimation of a circuit never fails", "statement": "For an equivalent circuit under constant or linearly changing currents and a choice of parameters that batches can be computed for, initialize_ukf_from_wrappers builds a dual estimator from positive definite covariances, in any units; if the weights of its two filters are not negative, it runs through every history of inputs and voltages without raising, and all covariances it returns are positive definite.", "quantifier": "all circuits with any number of RC elements, choices of parameters, units, covariances, tunings and histories of any length for which no divisor vanishes (under linearly changing currents the time steps are divisors, too)", "why_tests_cant": "histories of any length, any circuit and choice of parameters", "anchors": ["moirae/estimators/online/dual.py:DualEstimator.initialize_ukf_from_wrappers", "moirae/estimators/online/dual.py:DualEstimator.step", "moirae/estimators/online/dual.py:DualEstimator.get_estimated_state", "moirae/estimators/online/utils/model.py:CellModelWrapper", "moirae/estimators/online/utils/model.py:DegradationModelWrapper", "moirae/models/ecm/__init__.py:EquivalentCircuitModel"]}
{"id": "C107", "title": "A circuit can be estimated from any dataset with the given initial values", "statement": "For an equivalent circuit under constant currents, or under linearly changing ones if the time differs between consecutive rows, single transient states and inputs with or without a temperature, positive definite covariances and a choice of parameters that batches can be computed for, JointEstimator.initialize_unscented_kalman_filter and DualEstimator.initialize_unscented_kalman_filter return an estimator, with or without normalized parameters, and run_online_estimate runs it over every non-empty dataset of finite readings, returning one line per row, also if the estimates are stored.", "quantifier": "all circuits with any number of RC elements, parameters to estimate, covariances, noises and tunings with non-negative weights, and datasets of any length", "why_tests_cant": "datasets of any length, any circuit and choice of parameters", "anchors": ["moirae/estimators/online/joint.py:JointEstimator.initialize_unscented_kalman_filter", "moirae/estimators/online/dual.py:DualEstimator.initialize_unscented_kalman_filter", "moirae/interface/__init__.py:run_online_estimate", "moirae/models/ecm/__init__.py:EquivalentCircuitModel"]}
{"id": "C108", "title": "Temperatures in the data take part in the estimates", "statement": "The inputs that the cell model gets for a row of data during run_online_estimate are the time, the current and the temperature of that row, so that the temperatures of a dataset can influence its estimates, whatever the inputs the estimator was initialized with.", "quantifier": "all cell models, estimators made by initialize_unscented_kalman_filter, and datasets of any length", "why_tests_cant": "relation between any two datasets", "anchors": ["moirae/interface/__init__.py:run_online_estimate", "moirae/interface/__init__.py:row_to_inputs", "moirae/estimators/online/utils/model.py:BaseCellWrapper", "moirae/models/base.py:GeneralContainer.make_copy", "moirae/models/ecm/ins_outs.py:ECMInput"]}
{"id": "C109", "title": "Names of outputs and controls label the vectors of the filter", "statement": "The output names of an estimator are those of the columns of the cell model's output, and its control names those of the values of its inputs: pairwise distinct, and exactly as many as the outputs that the filter predicts and the controls that it holds, when the estimator is new and after any number of steps.", "quantifier": "all cell models, estimators made by the initialization functions, and histories of inputs and measurements of any length", "why_tests_cant": "all containers and histories", "anchors": ["moirae/estimators/online/__init__.py:OnlineEstimator", "moirae/estimators/online/joint.py:JointEstimator.step", "moirae/estimators/online/dual.py:DualEstimator.step", "moirae/models/base.py:GeneralContainer.all_names", "moirae/interface/__init__.py:run_online_estimate"]}
{"id": "C110", "title": "Names that address nothing are refused", "statement": "get_parameters and expand_names accept a name exactly if it can be followed: get_parameters if the attributes, positions and keys in it lead to a parameter, expand_names if they lead to a parameter or to a group of parameters. For any other name they raise, with the exception that tells why: AttributeError for an attribute that does not exist, NotImplementedError (expand_names) for one that holds no parameters, ValueError for text where a position is expected, IndexError for a position outside the tuple, KeyError for a missing key, the first such name deciding.", "quantifier": "all objects of any depth, all lists of names, positions counted from either end", "why_tests_cant": "objects of any depth and arbitrary names", "anchors": ["moirae/models/base.py:HealthVariable.expand_names", "moirae/models/base.py:HealthVariable.get_parameters", "moirae/models/base.py:HealthVariable._get_model_chain"]}
{"id": "C111", "title": "Several writers can share a file", "statement": "Whatever an HDF5Writer is asked to do, in any order and whether or not it raises, what is stored in the file under other storage keys stays as it is; so the estimates of one writer are read back after any use of writers with other keys. read_state_estimates of a path reads the group state_estimates, per timestep and per cycle: estimates under that key are found whatever other writers did, and a file that has none raises KeyError.", "quantifier": "all files, all writers, all sequences of operations of any length (keys that name nested groups, with slashes, not considered)", "why_tests_cant": "arbitrary interleaved use of writers", "anchors": ["moirae/interface/hdf5.py:HDF5Writer", "moirae/interface/hdf5.py:read_state_estimates"]}
{"id": "C112", "title": "On circuits with straight curves the transient filter is the Kalman filter", "statement": "For a circuit whose open-circuit voltage, R0 and maximum hysteresis depend on the SOC at most along straight lines and whose other elements do not depend on it, the state one step later and the voltage are affine functions of the transient state, and the unscented Kalman filter of the transient states estimates, over any history of inputs and voltages, exactly what the Kalman filter for this circuit does. In dual estimation every step estimates the transient states by the Kalman filter for the circuit with the state of health estimated before.", "quantifier": "all circuits with straight curves and any number of RC elements, with or without series capacitor and temperature, both behaviours, all positive definite covariances, tunings and histories of any length", "why_tests_cant": "equality with the closed form over all circuits and histories", "anchors": ["moirae/estimators/online/filters/kalman/unscented.py:UnscentedKalmanFilter.step", "moirae/estimators/online/utils/model.py:CellModelWrapper", "moirae/estimators/online/dual.py:DualEstimator.step", "moirae/models/ecm/__init__.py:EquivalentCircuitModel.update_transient_state", "moirae/models/ecm/__init__.py:EquivalentCircuitModel.calculate_terminal_voltage"]}
{"id": "C113", "title": "Marking and setting refuse names that address nothing", "statement": "mark_updatable and set_value raise for every name whose attributes, positions and keys do not lead to a parameter, with the exception that tells why (AttributeError, ValueError, IndexError, KeyError as for get_parameters), and set_value for no other name, except that a parameter of width 1 refuses values that are no batch of scalars.", "quantifier": "all objects of any depth, all names and values, positions counted from either end", "why_tests_cant": "objects of any depth and arbitrary names", "anchors": ["moirae/models/base.py:HealthVariable.mark_updatable", "moirae/models/base.py:HealthVariable.set_value", "moirae/models/base.py:HealthVariable._get_model_chain"]}
{"id": "C114", "title": "A filter of the transient states that starts at the truth stays there", "statement": "If a circuit has straight curves, the measured voltages are those of the circuit itself and the filter of the transient states starts at the true state, then over any history of inputs its estimates and predicted voltages are exactly the true states and voltages, whatever the covariances. If it starts off the truth, its later errors and covariances depend on the first error, the inputs and the covariances only, not on where the cell started.", "quantifier": "all circuits with straight curves and any number of RC elements, with or without series capacitor and temperature, both behaviours, all positive definite covariances, tunings and histories of any length", "why_tests_cant": "invariant along all histories; relation between any two runs", "anchors": ["moirae/estimators/online/filters/kalman/unscented.py:UnscentedKalmanFilter.step", "moirae/estimators/online/utils/model.py:CellModelWrapper", "moirae/models/ecm/__init__.py:EquivalentCircuitModel.update_transient_state", "moirae/models/ecm/__init__.py:EquivalentCircuitModel.calculate_terminal_voltage"]}
{"id": "C115", "title": "Simulations follow the circuit equations, and are estimated back", "statement": "Simulator.evolve with an equivalent circuit takes every member of a batch through the circuit equations of this cell by itself: whenever it returns, the transient states are those of the single cells and the measurements their voltages. For any number of transient states of one circuit and inputs of the right form it returns. The filter of the transient states of a circuit with straight curves, started at the state of the simulator and observing its inputs and measurements, estimates exactly the simulated transient states.", "quantifier": "all circuits without degradation and with any number of RC elements, batches of any size, both behaviours (linear: changing times), sequences of inputs of any length; estimates for single cells with straight curves", "why_tests_cant": "arbitrary batches and sequences; composition of simulator and estimator", "anchors": ["moirae/simulator.py:Simulator.step", "moirae/simulator.py:Simulator.evolve", "moirae/models/ecm/__init__.py:EquivalentCircuitModel", "moirae/estimators/online/filters/kalman/unscented.py:UnscentedKalmanFilter.step"]}
{"id": "C116", "title": "Errors of the filter are bounded by its covariances and the disturbances", "statement": "Let a system follow an affine model up to arbitrary disturbances of its states and measurements. Then after every step of the unscented Kalman filter the squared error of its estimate in units of the reported covariance (the squared Mahalanobis distance), and that of the predicted output in units of its covariance, is at most the one of the first estimate plus the squares of all disturbances so far in units of the process and sensor noise. So without disturbances an estimate that is within k standard deviations of the truth, in every direction, stays so. The same for the transient states of every circuit with straight curves.", "quantifier": "all affine models and all circuits with straight curves, all dimensions, disturbances (of any size, not random), positive definite covariances, tunings and histories of any length", "why_tests_cant": "a bound along all histories and for all disturbances", "anchors": ["moirae/estimators/online/filters/kalman/unscented.py:UnscentedKalmanFilter.step", "moirae/estimators/online/filters/kalman/unscented.py:UnscentedKalmanFilter.correction_update", "moirae/estimators/online/utils/model.py:CellModelWrapper"]}
{"id": "C117", "title": "Descriptions of the columns of simulated datasets", "statement": "to_batdata(extra_columns=True) returns the same tables as without extra columns. Each dataset describes every one of its columns, and nothing else, by telling which kind of object of the simulator it comes from.", "quantifier": "all simulators, histories of any length, containers with any fields, batches of any size", "why_tests_cant": "arbitrary histories and containers", "anchors": ["moirae/simulator.py:Simulator.to_batdata"]}
{"id": "C118", "title": "The template makes the documented circuit", "statement": "ECMASOH.provide_template with single numbers gives exactly the cell described by its arguments, at reference temperature 25 degC, with the documented defaults where nothing is given. Open-circuit voltages given for equally spaced SOCs are met there. The built-in open-circuit voltage rises strictly with SOC, lies between 3.2 V and 3.8 V and is symmetric around 3.5 V at half charge.", "quantifier": "all capacities, efficiencies, resistances, capacitances, numbers of RC elements, and lists of voltages of any length", "why_tests_cant": "all parameter values", "anchors": ["moirae/models/ecm/advancedSOH.py:ECMASOH.provide_template", "moirae/models/ecm/utils.py:realistic_fake_ocv"]}
{"id": "C119", "title": "The default series capacitor changes the voltage by at most 10 mV", "statement": "In a circuit made by ECMASOH.provide_template with a series capacitor of default size, the voltage over the capacitor changes by at most 10 mV while the SOC stays within [0, 1].", "quantifier": "all capacities, efficiencies and other values of the template, both behaviours, batches of any size, all histories of inputs of any length", "why_tests_cant": "unbounded histories; all parameter values", "anchors": ["moirae/models/ecm/advancedSOH.py:ECMASOH.provide_template", "moirae/models/ecm/__init__.py:EquivalentCircuitModel.update_transient_state"]}
{"id": "C120", "title": "The filter forgets where it started", "statement": "Two unscented Kalman filters of the same affine model (or of the transient states of the same circuit with straight curves) that differ in their first estimates only and get the same history report the same covariances, and the difference of their estimates and of their predicted outputs, in units of these covariances, never grows. It shrinks in every step by the largest fraction of the predicted variance that was carried over from the step before. As long as the states can be observed (some linear correction would keep their covariance bounded) it dies out geometrically.", "quantifier": "all affine models of any dimensions, all circuits with straight curves, all first estimates, covariances, tunings, inputs and measurements, histories of any length", "why_tests_cant": "unbounded histories; all measurements and estimates", "anchors": ["moirae/estimators/online/filters/kalman/unscented.py:UnscentedKalmanFilter.step", "moirae/estimators/online/filters/kalman/unscented.py:UnscentedKalmanFilter.correction_update"]}
{"id": "C121", "title": "A circuit forgets the currents and the hysteresis it started with", "statement": "Two runs of the same circuit through the same inputs from states with the same SOC: the SOC stays the same, the charges of the series capacitors keep their difference, the difference of the currents of an RC element falls by e with every time constant that passes, and the difference of the hystereses falls by e with every 1/gamma capacities of charge that go in or out (so it never grows). The terminal voltages differ by exactly what is left of these differences.", "quantifier": "all circuits with any number of RC elements, batches of any size, both behaviours, all inputs and states, histories of any length", "why_tests_cant": "unbounded histories; relation between any two runs", "anchors": ["moirae/models/ecm/__init__.py:EquivalentCircuitModel.update_transient_state", "moirae/models/ecm/__init__.py:EquivalentCircuitModel.calculate_terminal_voltage", "moirae/models/ecm/utils.py:hysteresis_solver_const_sign"]}
{"id": "C122", "title": "Cells in parallel and in series", "statement": "The circuit with k times the capacity and the capacitances and the k-th part of the resistances does with k times the current what k equal cells in parallel do: the same SOC, hysteresis and voltage, k times the RC currents and the charge. The circuit with k times the voltages and resistances and the k-th part of the capacitances does with the same current what k equal cells in series do: the same SOC and currents, k times the hysteresis and the voltage.", "quantifier": "all circuits with any number of RC elements, batches of any size, both behaviours, all k > 0, inputs and states, histories of any length", "why_tests_cant": "unbounded histories; scaling relation between two runs", "anchors": ["moirae/models/ecm/__init__.py:EquivalentCircuitModel.update_transient_state", "moirae/models/ecm/__init__.py:EquivalentCircuitModel.calculate_terminal_voltage", "moirae/models/ecm/utils.py:hysteresis_solver_const_sign"]}
{"id": "C123", "title": "Datasets of simulated circuits", "statement": "A simulator of one equivalent circuit, built from an initial state and input, and evolved over a list of inputs, exports a dataset whose columns are test_time, current, temperature (if given), soc, q0 (if there is a series capacitor), i_rc (numbered if there is not exactly one RC element), hyst and voltage, and whose rows are, for the initial input and every later one in order, the input, the state that the circuit equations give for the cell, and its terminal voltage.", "quantifier": "all circuits with any number of RC elements, with or without series capacitor and measured temperatures, both behaviours (under linear behaviour, times that change from one input to the next), all initial states, lists of inputs of any length", "why_tests_cant": "arbitrary circuits and unbounded histories, through the simulator, the circuit model and the export together", "anchors": ["moirae/simulator.py:Simulator", "moirae/simulator.py:Simulator.to_batdata", "moirae/models/ecm/__init__.py:EquivalentCircuitModel", "moirae/models/ecm/transient.py:ECMTransientVector", "moirae/models/ecm/ins_outs.py:ECMInput"]}
{"id": "C124", "title": "Estimates of the filter are those of least squares", "statement": "For affine models and for the transient states of circuits with straight curves: over any history the estimate of the unscented Kalman filter is the end of the path of states that minimises the sum of the squared deviations from the first estimate, from the model and from the measurements, in units of the given covariances. Every path that reaches the minimum ends there, the minimum is what all measurements missed their predictions by in units of the reported output covariances, and the best path to any other state costs more by exactly the squared Mahalanobis distance of that state from the estimate in the reported covariance.", "quantifier": "all affine models of any dimensions, all circuits with straight curves, all first estimates, positive definite covariances, tunings, inputs and measurements, histories of any length", "why_tests_cant": "optimality among all paths, for unbounded histories", "anchors": ["moirae/estimators/online/filters/kalman/unscented.py:UnscentedKalmanFilter.step", "moirae/estimators/online/filters/kalman/unscented.py:UnscentedKalmanFilter.correction_update"]}
{"id": "C125", "title": "A step takes the estimate towards the measurement", "statement": "For affine models and for the transient states of circuits with straight curves: after every step the output of the new estimate misses the measurement by R S^-1 times what the prediction missed it by (R the sensor noise, S the reported output covariance); so the voltage of the estimated state of a cell lies between the predicted and the measured voltage, dividing their distance in the ratio of the variances. The covariance of the output of the new estimate is at most the sensor noise, and the predicted output is at least as uncertain as the sensor.", "quantifier": "all affine models of any dimensions, all circuits with straight curves, all estimates, positive definite covariances, tunings, inputs and measurements, histories of any length", "why_tests_cant": "all measurements and covariances; every step of unbounded histories", "anchors": ["moirae/estimators/online/filters/kalman/unscented.py:UnscentedKalmanFilter.step", "moirae/estimators/online/filters/kalman/unscented.py:UnscentedKalmanFilter.correction_update"]}
{"id": "C126", "title": "Estimates do not depend on the origin of time", "statement": "Making a joint or a dual estimator of a cell model that only uses differences of times, and running it on a dataset: if all times (in the initial input and in every row of the dataset) are read from another clock that is ahead by any amount, the table and the final estimates are the same, or the same error is raised. The equivalent circuit is such a model, whatever its parameters and curves.", "quantifier": "all cell models that only use differences of times, all circuits with any curves and interpolations, both behaviours, all states of health, initial inputs of one row, covariances, tunings, datasets with any columns and any number of rows, all shifts; no writer attached", "why_tests_cant": "relation between two runs on unbounded datasets, including all failing runs", "anchors": ["moirae/interface/__init__.py:run_online_estimate", "moirae/estimators/online/joint.py:JointEstimator", "moirae/estimators/online/dual.py:DualEstimator", "moirae/models/ecm/__init__.py:EquivalentCircuitModel"]}
{"id": "C127", "title": "The order of the RC elements does not matter, and equal ones act as one", "statement": "A circuit with the RC elements of another in a different order, started with the RC currents in that order, goes through any inputs to the same state with the RC currents in that order, and has the same terminal voltage. Two RC elements with equal time constants and equal currents act as one element with the sum of their resistances: their currents stay equal and are the current of that one, the rest of the state and the voltage are the same.", "quantifier": "all circuits with any number of RC elements, batches of any size, both behaviours, all orders, inputs and states, histories of any length", "why_tests_cant": "unbounded histories and numbers of elements; relation between two runs of different circuits", "anchors": ["moirae/models/ecm/__init__.py:EquivalentCircuitModel.update_transient_state", "moirae/models/ecm/__init__.py:EquivalentCircuitModel.calculate_terminal_voltage"]}
{"id": "C128", "title": "A run can be interrupted and continued", "statement": "Cut a dataset into two parts that share one row (the last of the first part is the first of the second). run_online_estimate on the whole succeeds exactly if it succeeds on the first part and then, with the estimator it returned, on the second. Both ways end with the same estimator, and the table of the whole is the table of the first part without its last row followed by the table of the second. (The first row of a dataset is not observed: if the parts follow each other without sharing a row, the result is that of the dataset without the first row of the second part.)", "quantifier": "all joint and dual estimators in any state, all datasets in memory or in files, cut anywhere; no writer attached", "why_tests_cant": "unbounded datasets, every place of the cut, equality of whole estimators", "anchors": ["moirae/interface/__init__.py:run_online_estimate", "moirae/estimators/online/joint.py:JointEstimator.step", "moirae/estimators/online/dual.py:DualEstimator.step"]}
{"id": "C129", "title": "Only the columns that are used matter", "statement": "What run_online_estimate does (the table, the estimator it returns, what it writes to the file, or the error it raises) depends on the rows of the dataset only through the columns test_time, current, voltage, cycle_number and the finite values of temperature: other columns, the order of the columns and the way a missing temperature is represented (no column, NaN, infinity) make no difference.", "quantifier": "all estimators, datasets with any columns and any number of rows, in memory or in files, with or without a writer, succeeding or failing runs", "why_tests_cant": "all pairs of datasets with equal readings", "anchors": ["moirae/interface/__init__.py:run_online_estimate", "moirae/interface/__init__.py:row_to_inputs"]}
{"id": "C130", "title": "Normalization does not change the estimates", "statement": "With the process noise of the parameters given, normalize_asoh changes only the numbers a filter works with: for an equivalent circuit under constant currents, run_online_estimate with the joint or dual estimator built with normalize_asoh=True returns exactly the table it returns with normalize_asoh=False. More generally, two dual estimators built from the same prior and noises, one in the units of the model and one with any invertible rescaling of transient states, parameters and outputs, return the same estimates and predictions in every step.", "quantifier": "all circuits with any number of RC elements, choices of parameters that batches can be computed for (and that reach the voltage, for dual estimation), positive definite covariances and noises, tunings without negative weights, non-empty datasets of any length; for the general statement all models that treat every hidden state by itself and all units", "why_tests_cant": "unbounded histories; exact equality of two runs in different coordinates", "anchors": ["moirae/estimators/online/joint.py:JointEstimator.initialize_unscented_kalman_filter", "moirae/estimators/online/dual.py:DualEstimator.initialize_unscented_kalman_filter", "moirae/estimators/online/dual.py:DualEstimator.step", "moirae/interface/__init__.py:run_online_estimate"]}
{"id": "C131", "title": "Estimating resistances and voltages is recursive least squares", "statement": "One step after any state, the terminal voltage of a circuit is an affine function of the values of the open-circuit voltage (reference and entropic), of R0 and of the maximum hysteresis. So if the dual estimator estimates only such parameters, then over any history its belief about them is exactly that of recursive least squares (the Kalman filter for constant parameters), with the voltages that follow from the transient state estimated in the step before; it starts from the given values and covariance. While no current flows, an estimator of R0 alone learns nothing: the estimate stays as it is and the process noise is added to its covariance.", "quantifier": "all circuits with any number of RC elements, with or without series capacitor and measured temperatures, interpolants that are weighted sums of the values (proved for the linear one), any choice of these parameters with any numbers of values, transient states in any units, positive definite covariances, tunings without negative weights, both behaviours for a step and constant currents for histories of any length", "why_tests_cant": "exact coincidence with least squares for all inputs, states and covariances, over unbounded histories", "anchors": ["moirae/estimators/online/dual.py:DualEstimator.step", "moirae/estimators/online/dual.py:DualEstimator.initialize_ukf_from_wrappers", "moirae/estimators/online/utils/model.py:DegradationModelWrapper", "moirae/models/ecm/__init__.py:EquivalentCircuitModel", "moirae/models/ecm/utils.py:SOCInterpolatedHealth"]}
{"id": "C132", "title": "With straight curves the dual estimator is a pair of Kalman filters", "statement": "If the curves of a circuit stay straight lines and only values of the open-circuit voltage, of R0 and of the maximum hysteresis are estimated, the dual estimator runs through every history without failing, for every admissible tuning (also with negative weights), and what it returns are the beliefs of two Kalman filters side by side and uncorrelated: that of the transient states of the circuit with the parameter values estimated in the step before, and that of the parameter values at the transient states estimated in the step before. It starts from the given values and covariances; the predicted voltages and their variances are those of the first.", "quantifier": "all circuits with any number of RC elements, with or without series capacitor and measured temperatures, of which each curve is straight and not estimated, or has one value, or two values interpolated linearly; all estimated parameters among these values, with one that reaches the voltage; the coordinates of the model, all positive definite covariances and noises, admissible tunings, both behaviours, histories of any length (under linear behaviour at changing times)", "why_tests_cant": "exact coincidence for all inputs, measurements and tunings, over unbounded histories", "anchors": ["moirae/estimators/online/dual.py:DualEstimator.step", "moirae/estimators/online/dual.py:DualEstimator.initialize_ukf_from_wrappers", "moirae/estimators/online/utils/model.py:CellModelWrapper", "moirae/estimators/online/utils/model.py:DegradationModelWrapper", "moirae/models/ecm/__init__.py:EquivalentCircuitModel"]}
{"id": "C133", "title": "Joint estimation of resistances and voltages is the Kalman filter", "statement": "If the curves of a circuit are straight lines and the estimated parameters are single values of the open-circuit voltage (reference and entropic), of R0 or of the maximum hysteresis, then the transient state and the parameters one step later, and the voltage, are together affine functions of the transient state and the parameters. The joint estimator starts from the values of the templates and the given covariance, runs through every history without failing, and returns exactly the beliefs of the Kalman filter for states and parameters together, including their correlations, and its predictions; for every admissible tuning in the coordinates of the model, and in any other units if no weight is negative.", "quantifier": "all circuits with any number of RC elements, with or without series capacitor and measured temperatures, whose estimated curves have one value and whose other curves are straight, nothing divided by zero; all positive definite covariances and noises, both behaviours (under linear behaviour at changing times; in other units constant currents), histories of any length", "why_tests_cant": "exact coincidence for all inputs, measurements and tunings, over unbounded histories", "anchors": ["moirae/estimators/online/joint.py:JointEstimator.step", "moirae/estimators/online/joint.py:JointEstimator.initialize_ukf_from_wrapper", "moirae/estimators/online/utils/model.py:JointCellModelWrapper", "moirae/models/ecm/__init__.py:EquivalentCircuitModel"]}
{"id": "C134", "title": "Jointly estimated errors stay within the reported covariance", "statement": "If the voltages come from a simulated cell (CellSimulator) whose estimated parameters have other values than the templates', started in any state, then in every step of the history the error of the joint estimate of states and parameters, weighted with the reported covariance, is at most what it was at the start; so every estimated number is off by at most sqrt(E) of its reported standard deviations. If the estimator starts at the true state and parameters, it reports them exactly, and predicts every voltage exactly. If the cell is disturbed, its parameters drift or the measurements have errors, the weighted error is at most its initial value plus the sum of the weighted disturbances.", "quantifier": "all circuits of C133 (any number of RC elements, single values of voltages, R0 and maximum hysteresis estimated), all true values and states, positive definite covariances and noises, admissible tunings, histories of any length", "why_tests_cant": "unbounded histories, all errors and disturbances", "anchors": ["moirae/estimators/online/joint.py:JointEstimator.step", "moirae/estimators/online/joint.py:JointEstimator.initialize_ukf_from_wrapper", "moirae/simulator.py:CellSimulator.step", "moirae/models/ecm/__init__.py:EquivalentCircuitModel"]}
{"id": "C135", "title": "Joint estimates are those of least squares", "statement": "For the circuits of C133 the estimate of states and parameters that the joint estimator returns after a history is the end of the cheapest way through it: among all sequences of states and parameters, the one for which the squared deviations from the initial guess, of every step from what the model would do, and of every voltage from the measured one, weighted with the given covariances, add up to the least. No other way that is as cheap ends elsewhere.", "quantifier": "all circuits, covariances, noises and tunings of C133, all inputs and measurements, histories of any length", "why_tests_cant": "optimality among all ways, unbounded histories", "anchors": ["moirae/estimators/online/joint.py:JointEstimator.step", "moirae/estimators/online/joint.py:JointEstimator.initialize_ukf_from_wrapper", "moirae/models/ecm/__init__.py:EquivalentCircuitModel"]}
{"id": "C136", "title": "Updates of parameters compose", "statement": "Updating health parameters twice: after one row of values has been written to some parameters, writing values to the same parameters has the same effect as without the first update, the same object or the same error (not so once two rows have been written, for then a single row is refused). Writing values to some parameters and then values to further ones is the same as writing them all in one call, with the columns side by side, also in what fails. Listing the names in another order, with the columns in that order, gives the same object.", "quantifier": "all health variables nested to any depth, all lists of names (distinct and existing ones for the first and last claim), all arrays of values", "why_tests_cant": "all nestings, names, widths and batches at once", "anchors": ["moirae/models/base.py:HealthVariable.update_parameters", "moirae/models/base.py:HealthVariable.make_copy", "moirae/models/base.py:HealthVariable.iter_parameters"]}
{"id": "C137", "title": "The joint estimator forgets the values in its templates", "statement": "Two joint estimators built alike, from templates that differ in nothing but the values of the estimated parameters and of the transient state, see the same model whatever the cell: they differ in their first estimate only, and set to the same estimate they report the same. On the circuits of C133 both run through every common history, report the same covariances, and their estimates and predicted voltages, measured in units of these covariances, come closer with every step.", "quantifier": "all cells, wrappers and arguments for the first claim; all circuits, covariances, noises and tunings of C133 for the second, all values in the templates, histories of any length", "why_tests_cant": "all values of templates, unbounded histories", "anchors": ["moirae/estimators/online/joint.py:JointEstimator.step", "moirae/estimators/online/joint.py:JointEstimator.initialize_ukf_from_wrapper", "moirae/estimators/online/utils/model.py:JointCellModelWrapper.create_cell_model_inputs"]}
{"id": "C138", "title": "The offline loss of a circuit is what the circuit equations give", "statement": "The mean squared loss of an equivalent circuit exists for every state and every values of the updatable parameters, and is the average over the rows of the dataset of the squared difference between the observed voltage and the one that the circuit equations give for the cell with these parameters, started in this state at the first row and following the currents and temperatures of the rows. A row without a temperature counts as one at 25 degrees.", "quantifier": "all circuits with any number of RC elements, with or without series capacitor, all choices of updatable parameters, states and values, datasets of any length with at least one row (under linear behaviour at changing times)", "why_tests_cant": "all states, parameter values and datasets; unbounded lengths", "anchors": ["moirae/estimators/offline/loss.py:MeanSquaredLoss.__call__", "moirae/interface/__init__.py:row_to_inputs", "moirae/models/ecm/__init__.py:EquivalentCircuitModel", "moirae/models/base.py:HealthVariable.make_copy"]}
{"id": "C139", "title": "Simulated datasets are fitted exactly by the truth", "statement": "If a dataset was exported from a simulator (CellSimulator.to_batdata) of an equivalent circuit, then the mean squared loss of the state and the parameter values that it was simulated with is zero, and no loss is smaller. Whether the simulated inputs have temperatures does not matter.", "quantifier": "all circuits with any number of RC elements, with or without series capacitor and temperatures, all states and values of the updatable parameters, inputs of any length (under linear behaviour at changing times)", "why_tests_cant": "all parameter values and runs of any length", "anchors": ["moirae/estimators/offline/loss.py:MeanSquaredLoss.__call__", "moirae/simulator.py:CellSimulator.to_batdata", "moirae/simulator.py:CellSimulator.evolve", "moirae/interface/__init__.py:row_to_inputs"]}
{"id": "C140", "title": "Offline fits of resistances and voltages have no false optima", "statement": "If the curves of a circuit are straight lines and the updatable parameters are single values of the open-circuit voltage, of R0 or of the maximum hysteresis, then the mean squared loss is the average of the squares of affine functions of the initial state and the parameters. It is convex, has a minimum, and all its local minima are minima. So if SciPy stops at a point that is no worse than its neighbours, the estimate of ScipyMinimizer explains the data at least as well as every other state and parameters; on simulated data it reproduces the voltages exactly, whatever the initial guess.", "quantifier": "all circuits with any number of RC elements, with or without series capacitor, whose updatable curves have one value and whose other curves are straight, nothing divided by zero; all datasets with at least one row (under linear behaviour at changing times), all initial guesses, all optimisers that return local minima", "why_tests_cant": "optimality among all states and parameters, unbounded datasets", "anchors": ["moirae/estimators/offline/scipy.py:ScipyMinimizer.estimate", "moirae/estimators/offline/loss.py:MeanSquaredLoss.__call__", "moirae/models/ecm/__init__.py:EquivalentCircuitModel"]}
{"id": "C141", "title": "Files and tables are spectators, and files of parts make up the file of the whole", "statement": "Asking run_online_estimate for a file, or for a table, changes nothing else: with a file the run returns the table and the estimator it would have returned without one, and with a table it leaves the estimator and the file it would have left without one. If a dataset is given in two parts of which the second begins with the last row of the first, the per-timestep estimates read from the file of the whole are those read from the file of the first part followed by those from the file of the second, and the estimators at the end are the same. The second part cannot go into the file of the first: a writer that has been used is always refused.", "quantifier": "all estimators whose estimates have fixed sizes (all estimators for the claims on spectators and refusals), all datasets in memory or in files, rows of any number split anywhere, times not NaN, all writers that store something at every step, wherever and however", "why_tests_cant": "all datasets, splits and writer options; unbounded runs", "anchors": ["moirae/interface/__init__.py:run_online_estimate", "moirae/interface/hdf5.py:HDF5Writer.prepare", "moirae/interface/hdf5.py:HDF5Writer.append_step", "moirae/interface/hdf5.py:read_state_estimates"]}
{"id": "C142", "title": "An interrupted run keeps what it has estimated", "statement": "If run_online_estimate raises while it writes a file, because a row cannot be read, the estimator raises on it, or it has no cycle number, the file is closed and holds the estimates for all rows before that one, as if the dataset had ended there. Whatever else goes wrong, the per-timestep estimates read from the file are those of the first rows without a gap, and none is missing but those from the row on at which the run raised.", "quantifier": "all estimators whose estimates have fixed sizes and whose state can be had, datasets of any length whose first row is complete and whose times are not NaN, every row at which it may fail, all writers into a file without estimates under their key that store something at every step", "why_tests_cant": "all ways of failing at all rows of runs of any length", "anchors": ["moirae/interface/__init__.py:run_online_estimate", "moirae/interface/hdf5.py:HDF5Writer.__exit__", "moirae/interface/hdf5.py:HDF5Writer.append_step", "moirae/interface/hdf5.py:read_state_estimates"]}
{"id": "C143", "title": "Estimators are isolated from the objects of their caller", "statement": "What a joint or dual estimator returns depends on the values that its arguments had when it was built and on the arguments of the calls at the time of the calls. A caller may go on to change the state of health, the transient state, the inputs and the covariances that they built the estimator from, the inputs and measurements of earlier calls, and the estimates that were returned, without any effect on later estimates.", "quantifier": "all cells, converters, covariances and tunings, all programs of a caller that interleave changes of any of these objects with step, get_estimated_state and state in any order, of any length", "why_tests_cant": "all interleavings of changes and calls; sharing of objects shows only in some of them", "anchors": ["moirae/estimators/online/utils/model.py:BaseCellWrapper.__init__", "moirae/estimators/online/__init__.py:OnlineEstimator.__init__", "moirae/estimators/online/joint.py:JointEstimator.step", "moirae/estimators/online/dual.py:DualEstimator.step", "moirae/estimators/online/filters/kalman/unscented.py:UnscentedKalmanFilter.step"]}
{"id": "C144", "title": "Reported covariances are those of the errors, and no linear estimate is better", "statement": "If the covariances given to an unscented Kalman filter describe the randomness of a system with affine dynamics and outputs (that of the first state, of what disturbs the states and of what disturbs the measurements, all without correlations between them or between times), then in every step the estimate is right on average, the covariance reported with it is the covariance of its error, and no other function of the measurements so far that is linear has a smaller mean squared error, in any component or combination of components. The same holds of the predicted outputs and the measurements before, and the errors of predictions are uncorrelated, over time and with all earlier measurements. This holds in particular of equivalent circuits with straight curves, and of joint estimators that estimate resistances and voltages of such circuits, as built by initialize_ukf_from_wrapper.", "quantifier": "all affine models, and all circuits of C112 and C133 with any number of RC elements; all positive definite covariances, all distributions with these covariances on all probability spaces, inputs and runs of any length (under linear behaviour at changing times), all tunings", "why_tests_cant": "statements about averages over all random disturbances, optimality among all linear estimators, unbounded runs", "anchors": ["moirae/estimators/online/filters/kalman/unscented.py:UnscentedKalmanFilter.step", "moirae/estimators/online/filters/kalman/unscented.py:UnscentedKalmanFilter.estimation_update", "moirae/estimators/online/filters/kalman/unscented.py:UnscentedKalmanFilter.correction_update", "moirae/estimators/online/joint.py:JointEstimator.initialize_ukf_from_wrapper", "moirae/estimators/online/joint.py:JointEstimator.step", "moirae/models/ecm/__init__.py:EquivalentCircuitModel"]}
{"id": "C145", "title": "With normal noise the estimates are the conditional distributions", "statement": "If the first state of a system with affine dynamics and outputs is normal with the mean and covariance given to an unscented Kalman filter, and it is disturbed by normal noises with the covariances given to it, then by Bayes' rule the conditional distribution of the state given all measurements so far is the normal one with the estimate of the filter as mean and the reported covariance, after every history and whatever was measured, and the density of the measurements is the product of the densities of the predicted outputs at them. This holds in particular of equivalent circuits with straight curves, and of joint estimators of resistances and voltages of such circuits, as built by initialize_ukf_from_wrapper: what they report about the parameters is exactly what the data say.", "quantifier": "all affine models, and all circuits of C112 and C133 with any number of RC elements; all positive definite covariances, all measurements, inputs and runs of any length (under linear behaviour at changing times), all tunings", "why_tests_cant": "integrals over all states and all measurements; unbounded runs", "anchors": ["moirae/estimators/online/filters/kalman/unscented.py:UnscentedKalmanFilter.step", "moirae/estimators/online/filters/kalman/unscented.py:UnscentedKalmanFilter.estimation_update", "moirae/estimators/online/filters/kalman/unscented.py:UnscentedKalmanFilter.correction_update", "moirae/estimators/online/joint.py:JointEstimator.initialize_ukf_from_wrapper", "moirae/estimators/online/joint.py:JointEstimator.step", "moirae/models/ecm/__init__.py:EquivalentCircuitModel"]}
{"id": "C146", "title": "Reported standard deviations are calibrated when the noise is normal", "statement": "If the covariances given to an unscented Kalman filter describe the randomness of a system with affine dynamics and outputs, and the first state and all disturbances are jointly normal, then in every step the difference between the truth and the estimate is normal around 0 with the reported covariance, and independent of everything measured so far; the same holds of the predicted outputs and the measurements before. So whatever has been measured, the truth is within c reported standard deviations of the estimate as often as a standard normal number is between -c and c, for every c and for every number or combination of numbers. This holds in particular of equivalent circuits with straight curves, and of joint estimators of resistances and voltages of such circuits, as built by initialize_ukf_from_wrapper.", "quantifier": "all affine models, and all circuits of C112 and C133 with any number of RC elements; all positive definite covariances, all probability spaces with such noise, inputs and runs of any length (under linear behaviour at changing times), all tunings", "why_tests_cant": "probabilities over all random disturbances, conditional on all sets of measurements; unbounded runs", "anchors": ["moirae/estimators/online/filters/kalman/unscented.py:UnscentedKalmanFilter.step", "moirae/estimators/online/filters/kalman/unscented.py:UnscentedKalmanFilter.estimation_update", "moirae/estimators/online/filters/kalman/unscented.py:UnscentedKalmanFilter.correction_update", "moirae/estimators/online/joint.py:JointEstimator.initialize_ukf_from_wrapper", "moirae/estimators/online/joint.py:JointEstimator.step", "moirae/models/ecm/__init__.py:EquivalentCircuitModel"]}
{"id": "C147", "title": "Predicted outputs are the ones to be expected, also where they are quadratic", "statement": "If the states of a system one step later are affine functions of the states and the outputs are quadratic ones, or the other way round, then the output that an unscented Kalman filter predicts is the mean output of a random state with the mean and the covariance of the estimate, disturbed by noise with the covariance given to the filter, whatever the distributions are otherwise. (The output at the estimate, as in an extended Kalman filter, would be biased.) This holds in particular of joint estimators, as built by initialize_ukf_from_wrapper, of circuits of which one or two values of the open-circuit voltage and of R0 are estimated, so that the voltage contains products of the SOC and of estimated values: in every step of every run the predicted voltage is the one to be expected from the estimate before.", "quantifier": "all models of this kind, and all circuits with any number of RC elements whose curves of open-circuit voltage and R0 are known quadratic ones, or have one value or two (with linear interpolation) that may be estimated, and whose other curves have one value (known hysteresis may be straight); all positive definite covariances, all probability spaces, inputs and runs of any length (under linear behaviour at changing times), all tunings (for whole runs: without negative weights)", "why_tests_cant": "averages over all distributions with given moments; unbounded runs", "anchors": ["moirae/estimators/online/filters/kalman/unscented.py:UnscentedKalmanFilter.step", "moirae/estimators/online/filters/kalman/unscented.py:UnscentedKalmanFilter.build_sigma_points", "moirae/estimators/online/filters/kalman/unscented.py:UnscentedKalmanFilter.estimation_update", "moirae/estimators/online/joint.py:JointEstimator.initialize_ukf_from_wrapper", "moirae/estimators/online/joint.py:JointEstimator.step", "moirae/models/ecm/__init__.py:EquivalentCircuitModel", "moirae/models/ecm/utils.py:SOCInterpolatedHealth.get_value"]}
{"id": "C148", "title": "The OCV extractor finds the open circuit voltage from charge and discharge together", "statement": "If the voltages in the data are those of an open circuit voltage curve (a cubic spline over the SOC points) plus an overpotential that changes sign with the current (a resistance that may depend on the SOC, a hysteresis), and every charge is measured with opposite currents alike, then OCVExtractor returns the open circuit voltage exactly: the overpotential leaves no trace. If all data are taken with one current I through a series resistance R, then every value is too high by exactly I R. The result does not depend on the order of the rows or on how rows of equal SOC are sorted.", "quantifier": "all curves, overpotentials, currents, numbers of measurements (at least four SOCs between neighbouring SOC points), SOC points, sorting algorithms and least squares fits", "why_tests_cant": "exact identities over all data sets; the result of a fit for all curves and all ways of breaking ties", "anchors": ["moirae/extractors/ecm.py:OCVExtractor.interpolate_ocv", "moirae/extractors/ecm.py:OCVExtractor.extract"]}
{"id": "C149", "title": "More current never means less voltage", "statement": "Take two cells with the same parameters whose open-circuit voltage does not fall with the SOC and whose other curves have one value. If the second starts above the first (in SOC, charge of the series capacitor, RC currents and hysteresis) and at no time gets less current, then it stays above, and at no time does it show a lower voltage. In particular a cell that is charged never shows less than one at rest, and one that is discharged never more, whatever was done with them before.", "quantifier": "all parameters, numbers of RC elements, states, sequences of currents and temperatures of any length, members of batches; both behaviours of the current between inputs; currents that are 0 or exceed 1e-8 A", "why_tests_cant": "an order preserved over unbounded runs, for all parameters and all pairs of histories", "anchors": ["moirae/models/ecm/__init__.py:EquivalentCircuitModel.update_transient_state", "moirae/models/ecm/__init__.py:EquivalentCircuitModel.calculate_terminal_voltage", "moirae/models/ecm/utils.py:hysteresis_solver_const_sign", "moirae/simulator.py:Simulator.evolve"]}
{"id": "C150", "title": "A slower cell is the same cell on another clock", "statement": "A cell with k times the resistances (R0 and those of the RC elements) and otherwise the same parameters that gets the same charge in k times the time, so times multiplied and currents divided by k, shows the same voltages one after the other and goes through the same SOCs, charges and hystereses, with the k-th part of the RC currents. No time is built into the model: no step length, no duration and no rate other than those in the parameters.", "quantifier": "all k > 0, circuits with any number of RC elements, batches, runs of any length, both behaviours of the current between inputs (at changing times if linear); currents that are 0 or exceed 1e-8 A on both clocks", "why_tests_cant": "an identity between two runs of unbounded length for all factors and parameters", "anchors": ["moirae/models/ecm/__init__.py:EquivalentCircuitModel.update_transient_state", "moirae/models/ecm/__init__.py:EquivalentCircuitModel.calculate_terminal_voltage", "moirae/models/ecm/utils.py:hysteresis_solver_const_sign", "moirae/simulator.py:Simulator.evolve"]}
{"id": "C151", "title": "Simulations with the Thevenin model follow its differential equations", "statement": "If the solver of the thevenin package solves the equations it is given, then a simulation of any number of steps ends at the solution of the differential equations of the cell for the whole history of currents: the SOC changes by the charge that has flowed over the capacity (current taken positive on charge, the package counts it positive on discharge), each overpotential relaxes with its resistance and capacitance at the SOC and temperature of the moment, and the temperature follows from the heat produced and lost. A step with constant current can therefore be split at any moment without changing the outcome.", "quantifier": "all cells with any number of RC elements and polynomial parameters, batches, states, and sequences of inputs of any length at non-decreasing times; all solvers exact on the equations", "why_tests_cant": "a statement about solutions of differential equations over unbounded histories, for all cells and solvers", "anchors": ["moirae/models/thevenin/__init__.py:TheveninModel.update_transient_state", "moirae/models/thevenin/__init__.py:TheveninModel._make_models", "moirae/models/thevenin/components.py:SOCTempPolynomialVariable.__call__"]}
{"id": "C152", "title": "A Thevenin cell is above its open-circuit voltage on charge, below it on discharge, and relaxes to it at rest", "statement": "A Thevenin cell that starts without overpotentials and is never discharged shows at every time at least the open-circuit voltage of its SOC; one that is never charged shows at most that. A cell at rest keeps its SOC, its overpotentials decay exponentially with R C at that SOC and temperature, however the rest is divided into steps, and after a long enough rest the voltage is as close to the open-circuit voltage as wanted.", "quantifier": "all isothermal cells with any number of RC elements with positive polynomial parameters that may depend on SOC and temperature, batches, states, sequences of inputs of any length at non-decreasing times, solvers exact on the equations", "why_tests_cant": "signs and limits of solutions of differential equations for all parameters and unbounded histories", "anchors": ["moirae/models/thevenin/__init__.py:TheveninModel.update_transient_state", "moirae/models/thevenin/__init__.py:TheveninModel.calculate_terminal_voltage"]}
{"id": "C153", "title": "A Thevenin cell forgets its overpotentials, but never its SOC", "statement": "Two Thevenin cells with the same parameters and SOC but different overpotentials that get the same inputs, whatever these are, come together: after a time T the overpotentials differ by at most exp(-T / tau) times what they did, where tau bounds R C at the SOCs and temperatures passed, and the voltages differ by at most the sum of these. A difference of the SOCs, on the other hand, stays exactly as it is for ever.", "quantifier": "all isothermal cells with any number of RC elements with positive polynomial parameters that may depend on SOC and temperature, batches, pairs of states, sequences of inputs of any length at non-decreasing times, solvers exact on the equations", "why_tests_cant": "an exponential bound between two runs of unbounded length for all inputs and parameters", "anchors": ["moirae/models/thevenin/__init__.py:TheveninModel.update_transient_state", "moirae/models/thevenin/__init__.py:TheveninModel.calculate_terminal_voltage"]}
{"id": "C154", "title": "A pack of Thevenin cells is one Thevenin cell", "statement": "p strings in parallel of s equal Thevenin cells each behave as one Thevenin cell with p times the capacity, s times the open-circuit voltage, s/p times the resistances and p/s times the capacitances: with p times the current it goes through the same SOCs, with s times the overpotentials and s times the voltage.", "quantifier": "all p, s > 0, isothermal cells with any number of RC elements with positive polynomial parameters that may depend on SOC and temperature, batches, states, sequences of inputs of any length at non-decreasing times, solvers exact on the equations", "why_tests_cant": "an identity between two runs of unbounded length for all factors and parameters", "anchors": ["moirae/models/thevenin/__init__.py:TheveninModel.update_transient_state", "moirae/models/thevenin/__init__.py:TheveninModel.calculate_terminal_voltage"]}
{"id": "C155", "title": "Both cell models simulate the same cell alike", "statement": "A cell that consists of a resistor and RC elements of constant values, without hysteresis or series capacitor and with a Coulombic efficiency of 1, can be described to the equivalent circuit model (whose default is a constant current between inputs) and to the Thevenin model. From the same state and with the same inputs both arrive at the same SOC, overpotentials (the Thevenin model counts them with the opposite sign) and voltage. Where the SOCs differ, they do so by the charge that the changes of current between inputs make, and the voltages by what the open-circuit voltage makes of that.", "quantifier": "all such cells with any number of RC elements, open-circuit voltages that both models can express, batches, states, sequences of inputs of any length at non-decreasing times; isothermal Thevenin models, solvers exact on the equations", "why_tests_cant": "an identity between two different models over unbounded runs for all parameters; the tests of each model never compare it with the other", "anchors": ["moirae/models/thevenin/__init__.py:TheveninModel.update_transient_state", "moirae/models/thevenin/__init__.py:TheveninModel.calculate_terminal_voltage", "moirae/models/ecm/__init__.py:EquivalentCircuitModel.update_transient_state", "moirae/models/ecm/__init__.py:EquivalentCircuitModel.calculate_terminal_voltage"]}
{"id": "C156", "title": "A slower Thevenin cell is the same cell on another clock", "statement": "A Thevenin cell with k times the resistances and otherwise the same parameters that gets the same charge in k times the time, so durations multiplied and currents divided by k, goes through the same SOCs, overpotentials and voltages. It does not matter at which time the clock starts either.", "quantifier": "all k > 0, starting times, isothermal cells with any number of RC elements with positive polynomial parameters that may depend on SOC and temperature, batches, states, sequences of inputs of any length at non-decreasing times, solvers exact on the equations", "why_tests_cant": "an identity between two runs of unbounded length for all factors, offsets and parameters", "anchors": ["moirae/models/thevenin/__init__.py:TheveninModel.update_transient_state", "moirae/models/thevenin/__init__.py:TheveninModel.calculate_terminal_voltage"]}
{"id": "C157", "title": "More current never means less voltage in the Thevenin model", "statement": "Take two Thevenin cells with the same parameters whose open-circuit voltage does not fall with the SOC and whose resistances and capacitances do not depend on the SOC. If the second starts above the first (in SOC, and in overpotentials with their sign reversed) and at no time gets less current, then it stays above and shows no lower voltage. Unlike in the equivalent circuit with linear currents (C149) there is no exception.", "quantifier": "all isothermal cells of this kind with any number of RC elements, whose resistances and capacitances may depend on temperature, batches, pairs of states, pairs of sequences of inputs of any length at the same non-decreasing times and ambient temperatures, solvers exact on the equations", "why_tests_cant": "an order preserved over unbounded runs, for all parameters and all pairs of histories", "anchors": ["moirae/models/thevenin/__init__.py:TheveninModel.update_transient_state", "moirae/models/thevenin/__init__.py:TheveninModel.calculate_terminal_voltage"]}
{"id": "C158", "title": "A pulse of current shows the resistances of the cell", "statement": "When the current jumps, the voltage changes at once by the jump times the series resistance at the present SOC and temperature, whatever the cell and its state. If a relaxed cell of constant resistances gets the current I for d seconds, its voltage changes by I (R0 + sum of R_j (1 - exp(-d / (R_j C_j)))) and by what the open-circuit voltage makes of the charge. Both models of a cell show this.", "quantifier": "jumps: all circuits and isothermal Thevenin cells, batches, states; pulses: all such cells with any number of RC elements (circuits without series capacitor and hysteresis), charging and discharging currents, durations; constant current between inputs of the circuit, solvers exact on the equations", "why_tests_cant": "a formula over the reals for all parameters, currents and durations, in two models", "anchors": ["moirae/models/thevenin/__init__.py:TheveninModel.update_transient_state", "moirae/models/thevenin/__init__.py:TheveninModel.calculate_terminal_voltage", "moirae/models/ecm/__init__.py:EquivalentCircuitModel.update_transient_state", "moirae/models/ecm/__init__.py:EquivalentCircuitModel.calculate_terminal_voltage"]}
{"id": "C159", "title": "The answers of a cell to currents add up", "statement": "Take three simulations of a cell of constant resistances and capacitances at the same times. If in the third the currents, and the RC currents at the start, are alpha times those of the first plus beta times those of the second, then so are its RC currents, its change of SOC and its overpotential (voltage above the open-circuit voltage of its SOC) at the end. Both models of a cell have this property, the equivalent circuit for constant and for linear currents between inputs, if it has no hysteresis, no series capacitor and a Coulombic efficiency of 1.", "quantifier": "all such circuits and isothermal Thevenin cells with any number of RC elements, batches, open-circuit voltages, real alpha and beta, triples of states and of sequences of inputs of any length; for linear currents the times of consecutive inputs differ, for Thevenin cells they do not go back; solvers exact on the equations", "why_tests_cant": "an identity between three runs of unbounded length, for all parameters, factors and histories", "anchors": ["moirae/models/ecm/__init__.py:EquivalentCircuitModel.update_transient_state", "moirae/models/ecm/__init__.py:EquivalentCircuitModel.calculate_terminal_voltage", "moirae/models/thevenin/__init__.py:TheveninModel.update_transient_state", "moirae/models/thevenin/__init__.py:TheveninModel.calculate_terminal_voltage"]}
