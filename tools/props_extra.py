# appended properties (executed inside tools/props.py)
p("update_parameters refuses names that are not parameters",
  "`update_parameters(values, names)` must raise when a name is not the name of a parameter, leaving the object's structure intact.",
  "every tree, every name list", "all non-parameter names, including names of sub-models",
  [f"{B}:HealthVariable.update_parameters", f"{B}:HealthVariable._get_model_chain"])
p("Dual estimation runs through any history",
  "When each filter's model treats every hidden state by itself and accepts whatever the other filter estimates, no step fails and every returned covariance is positive definite.",
  "all histories of well-formed inputs and measurements, all such models, sizes and changes of units", "unbounded histories",
  ["moirae/estimators/online/dual.py:DualEstimator.step"])
p("The file written by a run holds the estimates of the run",
  "Reading the HDF5 file that run_online_estimate wrote gives, for every observed row in order, the time of the row and the estimate and prediction returned by the step for that row (reduced to what the writer was told to keep).",
  "all datasets, estimators and writer options that store timesteps", "unbounded datasets",
  ["moirae/interface/__init__.py:run_online_estimate", "moirae/interface/hdf5.py:HDF5Writer.append_step", "moirae/interface/hdf5.py:read_state_estimates"])
p("Joint estimation runs through any history",
  "When the model treats every hidden state by itself, no step of a JointEstimator fails and every returned covariance is positive definite.",
  "all histories of well-formed inputs and measurements, all such models, sizes and changes of units", "unbounded histories",
  ["moirae/estimators/online/joint.py:JointEstimator.step"])
p("Runs over finite data succeed",
  "run_online_estimate over any non-empty dataset whose times, currents and voltages are finite succeeds with a working estimator and returns one row per row of the dataset; without anything to run over it raises before the estimator takes a step (ValueError without time series, StopIteration without rows, KeyError if the first row lacks a time, current or voltage).",
  "all datasets, all working joint and dual estimators", "unbounded datasets",
  ["moirae/interface/__init__.py:run_online_estimate"])
p("The estimates of every estimator can be stored",
  "run_online_estimate with hdf5_output stores the estimates of any online estimator that runs without it.",
  "all datasets, all working joint and dual estimators", "all kinds of estimators",
  ["moirae/interface/__init__.py:run_online_estimate", "moirae/interface/hdf5.py:HDF5Writer.prepare", "moirae/estimators/online/dual.py:DualEstimator.state"])

p("Datasets without any cycle capacity are refused",
  "OCVExtractor.check_data raises when no cycle of the dataset has a capacity (an empty cycle table, or NaN throughout), since such a dataset does not sample the required SOC range.",
  "all cycle tables", "NaN and empty tables behave unlike any sampled table",
  ["moirae/extractors/ecm.py:OCVExtractor.check_data", "moirae/extractors/ecm.py:MaxCapacityExtractor.extract"])
p("The OCV fit uses every measurement as it is",
  "The spline is fitted to all measurements, sorted by SOC, each with its own voltage and a weight inversely proportional to its own (clipped) current, with the inner SOC points as knots; the extracted OCV takes the fitted values at the SOC points and does not depend on temperature.",
  "all datasets, SOC points, spline fits and sorting algorithms", "unbounded data; ties in the sort",
  ["moirae/extractors/ecm.py:OCVExtractor.interpolate_ocv", "moirae/extractors/ecm.py:OCVExtractor.extract"])
p("A dataset samples the capacity extracted from it",
  "check_data of an OCVExtractor built with the capacity extracted from a dataset accepts that dataset exactly when the requirement is at most 100%.",
  "all datasets with a positive largest capacity, all SOC points and requirements", "all datasets",
  ["moirae/extractors/ecm.py:OCVExtractor.check_data", "moirae/extractors/ecm.py:OCVExtractor.__init__"])

p("Distributions keep their moments in the documented shapes",
  "DeltaDistribution and MultivariateGaussian accept a mean given as a vector of any dimension or as one row or one column of values, store it as a one-dimensional vector with the same values, and keep a square covariance unchanged.",
  "all arrays of any shape and size", "all shapes",
  ["moirae/estimators/online/filters/distributions.py:DeltaDistribution", "moirae/estimators/online/filters/distributions.py:MultivariateGaussian"])
p("Covariances follow the Jacobian",
  "A conversion operator with Jacobian J turns a covariance S into J S J^T.",
  "all operators with a Jacobian, all covariances", "all Jacobians, symmetric or not",
  ["moirae/estimators/online/filters/conversions.py:FirstOrderTaylorConversionOperator.transform_covariance"])
p("A linear conversion can be made from any documented arguments",
  "LinearConversionOperator takes a multiplicative array and an optional additive vector, and computes M x + a (M x when the additive vector is left out).",
  "all arrays of any shape", "all shapes, with and without an offset",
  ["moirae/estimators/online/filters/conversions.py:LinearConversionOperator"])
p("A new estimator holds the initial values",
  "Before its first step an estimator gives back exactly the initial transient state and health parameters it was built from, and its filter holds, in the units of the model, the given initial mean and covariance.",
  "all models, healths, units, noises and tuning parameters with which an estimator can be built", "all layouts and units",
  ["moirae/estimators/online/joint.py:JointEstimator.__init__", "moirae/estimators/online/joint.py:JointEstimator.initialize_unscented_kalman_filter", "moirae/estimators/online/dual.py:DualEstimator.__init__"])
p("Process noises given to a joint estimator are used",
  "Every process noise covariance given to JointEstimator.initialize_unscented_kalman_filter ends up in the filter: the joint one as it is, otherwise those of the transients and of the health on their own blocks.",
  "all combinations of given and missing noises, all sizes and values", "all sizes",
  ["moirae/estimators/online/joint.py:JointEstimator.initialize_unscented_kalman_filter"])
p("The default process noise does not depend on the units",
  "An estimator given no process noise adds the same default noise, seen in the units of the model, whether or not the health parameters are normalized.",
  "all models, healths and units", "all units",
  ["moirae/estimators/online/joint.py:JointEstimator.initialize_unscented_kalman_filter", "moirae/estimators/online/filters/kalman/unscented.py:UnscentedKalmanFilter.__init__"])

p("Parameters are those at the start of a step",
  "The new transient state of a circuit depends on the health parameters only through their values at the previous SOC and temperature (capacity, efficiency, maximum hysteresis and its rate, RC time constants), and on the new inputs only through time and current.",
  "all pairs of circuits and inputs agreeing in these values, all batches, both current behaviors", "all curves that agree at one point and differ elsewhere",
  ["moirae/models/ecm/__init__.py:EquivalentCircuitModel.update_transient_state"])
p("The hysteresis follows its differential equation",
  "The new hysteresis is the value at the end of the step of the solution of dh/dt = kappa |I| (sign(I) M - h) that starts at the old hysteresis, for the assumed course of the current (constant, or a ramp between the two currents, with or without change of sign).",
  "all circuits, states, batches and pairs of inputs, both current behaviors", "exact for all real currents, durations and parameters",
  ["moirae/models/ecm/__init__.py:EquivalentCircuitModel.update_transient_state", "moirae/models/ecm/utils.py:hysteresis_solver_const_sign"])

p("A joint filter's model is the simulator",
  "Hidden states standing for transient states and a state of health are evolved and measured by JointCellModelWrapper as a Simulator of the same cell and degradation model evolves and measures those objects.",
  "all cells, degradation models, units, numbers of hidden states and lists of controls of any length", "any cell model and any history",
  ["moirae/estimators/online/utils/model.py:JointCellModelWrapper.update_hidden_states", "moirae/estimators/online/utils/model.py:JointCellModelWrapper.predict_measurement", "moirae/simulator.py:Simulator.step"])
p("The models of a dual estimator are the simulator",
  "The transient filter of a dual estimator evolves and measures hidden states as a Simulator with the current state of health does; the health filter predicts the measurement a Simulator with the hypothetical state of health makes after one step from the known transient states, and without degradation keeps its hidden states.",
  "all cells, units, degradation models of the simulator and numbers of hidden states", "any cell model",
  ["moirae/estimators/online/utils/model.py:CellModelWrapper.update_hidden_states", "moirae/estimators/online/utils/model.py:CellModelWrapper.predict_measurement", "moirae/estimators/online/utils/model.py:DegradationModelWrapper.update_hidden_states", "moirae/estimators/online/utils/model.py:DegradationModelWrapper.predict_measurement", "moirae/simulator.py:Simulator.step"])
p("A fresh Thevenin state fits its circuit",
  "A TheveninASOH can be made exactly when there is one resistor more than there are capacitors, and ValueError is raised otherwise; TheveninTransient.from_asoh makes a state with the given SOC and temperature and one discharged overpotential per RC element, from which the model gives the open-circuit voltage at rest and runs of any length never fail for mismatched sizes.",
  "all circuits with any number of RC elements, all SOCs and temperatures, all lists of inputs, any solver", "any number of RC elements and steps",
  ["moirae/models/thevenin/state.py:TheveninASOH", "moirae/models/thevenin/state.py:TheveninTransient.from_asoh", "moirae/models/thevenin/__init__.py:TheveninModel"])
p("Objects written as JSON are read back",
  "The JSON form of a state of health or of a transient state (model_dump_json, also stored in HDF5 files) is read back by the same class as the same object.",
  "all objects of the ECM and Thevenin classes with parameters of any shape, any number of RC elements", "any shapes, any tree of parameters, before and after use",
  ["moirae/models/base.py:_encode_ndarray", "moirae/models/base.py:ScalarParameter", "moirae/models/base.py:ListParameter", "moirae/models/ecm/utils.py:SOCInterpolatedHealth._serialize_numpy", "moirae/models/thevenin/state.py:TheveninASOH", "moirae/interface/hdf5.py:HDF5Writer.prepare"])
p("A cell at rest relaxes to its open-circuit voltage",
  "While no current flows and the temperature stays the same, SOC, series-capacitor charge and hysteresis of an equivalent circuit stay as they are, every RC current falls by exp(-duration/tau), and the terminal voltage tends to OCV + q0/C0 + hysteresis as the rest goes on.",
  "all circuits, states, batch sizes, both current behaviours, rests of any number of steps of any lengths", "limit over rests of any length, divided in any way",
  ["moirae/models/ecm/__init__.py:EquivalentCircuitModel.update_transient_state", "moirae/models/ecm/__init__.py:EquivalentCircuitModel.calculate_terminal_voltage"])
p("Only differences of times matter",
  "Moving all times of the inputs by the same amount changes neither the transient states nor the voltages of either cell model.",
  "all inputs, states, health parameters, batch sizes, shifts and lengths of history", "every shift and every history",
  ["moirae/models/ecm/__init__.py:EquivalentCircuitModel.update_transient_state", "moirae/models/ecm/__init__.py:EquivalentCircuitModel.calculate_terminal_voltage", "moirae/models/thevenin/__init__.py:TheveninModel.update_transient_state"])
p("Every transient state depends on its own parameters only",
  "In a step of the equivalent circuit the new SOC depends only on the old SOC, the capacity and the Coulombic efficiency; the new q0 only on the old q0; the RC currents only on themselves, the SOC, the temperature and the RC elements; the hysteresis only on itself, the SOC, the capacity, the efficiency and its own two parameters. OCV, R0 and C0 never influence the states.",
  "all pairs of inputs, states and circuits that agree in the named quantities", "non-interference between any two circuits",
  ["moirae/models/ecm/__init__.py:EquivalentCircuitModel.update_transient_state"])
p("RC currents stay within the range of the applied current",
  "Over any history, RC currents that start within a range containing every applied current stay within that range.",
  "all circuits, batch sizes, current behaviours, ranges and histories of any length with positive time constants", "invariant over histories of any length",
  ["moirae/models/ecm/__init__.py:EquivalentCircuitModel.update_transient_state"])
p("The measured value moves the mean, never the uncertainty",
  "In a step of the unscented filter the corrected covariance, the predicted output and the model's memory do not depend on the measured value; the mean moves by the gain times the difference of measured and predicted output, so that a measurement equal to the prediction leaves it; for affine models no later covariance depends on what was measured.",
  "all filters, models and measurements; for histories all affine models, dimensions and lengths", "relation between any two measurements or histories",
  ["moirae/estimators/online/filters/kalman/unscented.py:UnscentedKalmanFilter.correction_update", "moirae/estimators/online/filters/kalman/unscented.py:UnscentedKalmanFilter.step"])
p("More noise never gives a smaller covariance",
  "For a model affine in the state, a filter whose prior covariance, process noise and sensor noise are at least as large as those of another (in the order of symmetric matrices) has at every step a covariance at least as large, of the estimate and of the predicted output.",
  "all affine models, dimensions, tunings, positive definite covariances and histories of any length", "matrix order over any dimension and any history",
  ["moirae/estimators/online/filters/kalman/unscented.py:UnscentedKalmanFilter.step", "moirae/estimators/online/filters/kalman/unscented.py:UnscentedKalmanFilter.estimation_update", "moirae/estimators/online/filters/kalman/unscented.py:UnscentedKalmanFilter.correction_update"])
p("Every hidden state of a circuit's joint estimator is a cell of its own",
  "Whenever the joint model wrapper updates or predicts a batch of hidden states of an equivalent circuit, every row of the result is that of the single cell with the transient states and parameters in that row, and the estimated parameters stay as they are. Which choices of parameters can be handled does not depend on any values: for two or more hidden states the update returns exactly if constants stored with a curve of several values are estimated only together with the curve, no temperature factor is estimated while temperatures are measured, the entropic curve then only together with the reference curve, and RC resistances and RC time constants all or none; in these cases predictions return too.",
  "all circuits with any number of RC elements and values per curve, all choices of parameters, any number of hidden states, all converters, inputs and values", "every choice of parameters and every batch size",
  ["moirae/estimators/online/utils/model.py:JointCellModelWrapper.update_hidden_states", "moirae/estimators/online/utils/model.py:JointCellModelWrapper.predict_measurement", "moirae/models/ecm/__init__.py:EquivalentCircuitModel.update_transient_state", "moirae/models/ecm/__init__.py:EquivalentCircuitModel.calculate_terminal_voltage", "moirae/models/ecm/components.py:Resistance.get_value"])
p("Joint estimation of a circuit never fails",
  "For an equivalent circuit under constant or linearly changing currents and a choice of parameters that batches can be computed for, initialize_ukf_from_wrapper builds a joint estimator from positive definite covariances, in any units; if its weights are not negative, it runs through every history of inputs and voltages without raising, and all covariances it returns are positive definite.",
  "all circuits with any number of RC elements, parameters to estimate, units, covariances, tunings and histories of any length for which no divisor vanishes (under linearly changing currents the time steps are divisors, too)", "histories of any length, any circuit",
  ["moirae/estimators/online/joint.py:JointEstimator.initialize_ukf_from_wrapper", "moirae/estimators/online/joint.py:JointEstimator.step", "moirae/estimators/online/utils/model.py:JointCellModelWrapper", "moirae/models/ecm/__init__.py:EquivalentCircuitModel"])
p("Every hidden state of a circuit's transient filter is a cell of its own",
  "Whenever CellModelWrapper updates or predicts a batch of transient states of an equivalent circuit, every row of the result is the step or the voltage of the single cell in that state. Whether it returns does not depend on the states: update and prediction both return exactly if every curve of the circuit can be evaluated.",
  "all circuits with any number of RC elements and values per curve, any number of hidden states, all converters, inputs and values", "every circuit and every batch size",
  ["moirae/estimators/online/utils/model.py:CellModelWrapper.update_hidden_states", "moirae/estimators/online/utils/model.py:CellModelWrapper.predict_measurement", "moirae/models/ecm/__init__.py:EquivalentCircuitModel.update_transient_state", "moirae/models/ecm/__init__.py:EquivalentCircuitModel.calculate_terminal_voltage"])
p("Every hidden state of a circuit's health filter is a cell of its own",
  "DegradationModelWrapper without degradation leaves a batch of parameters of an equivalent circuit as it is and predicts from them the voltages that the cells with these parameters show one step after the remembered transient state. There is one prediction per hidden state exactly if one of the parameters takes part in the voltage; otherwise a single row serves all of them, which all have the same voltage. For two or more hidden states update and prediction return exactly if the choice of parameters is one that batches can be computed for from a single transient state, whatever the values.",
  "all circuits with any number of RC elements and values per curve, all choices of parameters, any number of hidden states, all converters, transient states, inputs and values", "every choice of parameters and every batch size",
  ["moirae/estimators/online/utils/model.py:DegradationModelWrapper.update_hidden_states", "moirae/estimators/online/utils/model.py:DegradationModelWrapper.predict_measurement", "moirae/models/ecm/__init__.py:EquivalentCircuitModel.update_transient_state", "moirae/models/ecm/__init__.py:EquivalentCircuitModel.calculate_terminal_voltage"])
p("Dual estimation of a circuit never fails",
  "For an equivalent circuit under constant or linearly changing currents and a choice of parameters that batches can be computed for, initialize_ukf_from_wrappers builds a dual estimator from positive definite covariances, in any units; if the weights of its two filters are not negative, it runs through every history of inputs and voltages without raising, and all covariances it returns are positive definite.",
  "all circuits with any number of RC elements, choices of parameters, units, covariances, tunings and histories of any length for which no divisor vanishes (under linearly changing currents the time steps are divisors, too)", "histories of any length, any circuit and choice of parameters",
  ["moirae/estimators/online/dual.py:DualEstimator.initialize_ukf_from_wrappers", "moirae/estimators/online/dual.py:DualEstimator.step", "moirae/estimators/online/dual.py:DualEstimator.get_estimated_state", "moirae/estimators/online/utils/model.py:CellModelWrapper", "moirae/estimators/online/utils/model.py:DegradationModelWrapper", "moirae/models/ecm/__init__.py:EquivalentCircuitModel"])
p("A circuit can be estimated from any dataset with the given initial values",
  "For an equivalent circuit under constant currents, or under linearly changing ones if the time differs between consecutive rows, single transient states and inputs with or without a temperature, positive definite covariances and a choice of parameters that batches can be computed for, JointEstimator.initialize_unscented_kalman_filter and DualEstimator.initialize_unscented_kalman_filter return an estimator, with or without normalized parameters, and run_online_estimate runs it over every non-empty dataset of finite readings, returning one line per row, also if the estimates are stored.",
  "all circuits with any number of RC elements, parameters to estimate, covariances, noises and tunings with non-negative weights, and datasets of any length", "datasets of any length, any circuit and choice of parameters",
  ["moirae/estimators/online/joint.py:JointEstimator.initialize_unscented_kalman_filter", "moirae/estimators/online/dual.py:DualEstimator.initialize_unscented_kalman_filter", "moirae/interface/__init__.py:run_online_estimate", "moirae/models/ecm/__init__.py:EquivalentCircuitModel"])
p("Temperatures in the data take part in the estimates",
  "The inputs that the cell model gets for a row of data during run_online_estimate are the time, the current and the temperature of that row, so that the temperatures of a dataset can influence its estimates, whatever the inputs the estimator was initialized with.",
  "all cell models, estimators made by initialize_unscented_kalman_filter, and datasets of any length", "relation between any two datasets",
  ["moirae/interface/__init__.py:run_online_estimate", "moirae/interface/__init__.py:row_to_inputs", "moirae/estimators/online/utils/model.py:BaseCellWrapper", "moirae/models/base.py:GeneralContainer.make_copy", "moirae/models/ecm/ins_outs.py:ECMInput"])
p("Names of outputs and controls label the vectors of the filter",
  "The output names of an estimator are those of the columns of the cell model's output, and its control names those of the values of its inputs: pairwise distinct, and exactly as many as the outputs that the filter predicts and the controls that it holds, when the estimator is new and after any number of steps.",
  "all cell models, estimators made by the initialization functions, and histories of inputs and measurements of any length", "all containers and histories",
  ["moirae/estimators/online/__init__.py:OnlineEstimator", "moirae/estimators/online/joint.py:JointEstimator.step", "moirae/estimators/online/dual.py:DualEstimator.step", "moirae/models/base.py:GeneralContainer.all_names", "moirae/interface/__init__.py:run_online_estimate"])
p("Names that address nothing are refused",
  "get_parameters and expand_names accept a name exactly if it can be followed: get_parameters if the attributes, positions and keys in it lead to a parameter, expand_names if they lead to a parameter or to a group of parameters. For any other name they raise, with the exception that tells why: AttributeError for an attribute that does not exist, NotImplementedError (expand_names) for one that holds no parameters, ValueError for text where a position is expected, IndexError for a position outside the tuple, KeyError for a missing key, the first such name deciding.",
  "all objects of any depth, all lists of names, positions counted from either end", "objects of any depth and arbitrary names",
  ["moirae/models/base.py:HealthVariable.expand_names", "moirae/models/base.py:HealthVariable.get_parameters", "moirae/models/base.py:HealthVariable._get_model_chain"])
p("Several writers can share a file",
  "Whatever an HDF5Writer is asked to do, in any order and whether or not it raises, what is stored in the file under other storage keys stays as it is; so the estimates of one writer are read back after any use of writers with other keys. read_state_estimates of a path reads the group state_estimates, per timestep and per cycle: estimates under that key are found whatever other writers did, and a file that has none raises KeyError.",
  "all files, all writers, all sequences of operations of any length (keys that name nested groups, with slashes, not considered)", "arbitrary interleaved use of writers",
  ["moirae/interface/hdf5.py:HDF5Writer", "moirae/interface/hdf5.py:read_state_estimates"])
p("On circuits with straight curves the transient filter is the Kalman filter",
  "For a circuit whose open-circuit voltage, R0 and maximum hysteresis depend on the SOC at most along straight lines and whose other elements do not depend on it, the state one step later and the voltage are affine functions of the transient state, and the unscented Kalman filter of the transient states estimates, over any history of inputs and voltages, exactly what the Kalman filter for this circuit does. In dual estimation every step estimates the transient states by the Kalman filter for the circuit with the state of health estimated before.",
  "all circuits with straight curves and any number of RC elements, with or without series capacitor and temperature, both behaviours, all positive definite covariances, tunings and histories of any length", "equality with the closed form over all circuits and histories",
  ["moirae/estimators/online/filters/kalman/unscented.py:UnscentedKalmanFilter.step", "moirae/estimators/online/utils/model.py:CellModelWrapper", "moirae/estimators/online/dual.py:DualEstimator.step", "moirae/models/ecm/__init__.py:EquivalentCircuitModel.update_transient_state", "moirae/models/ecm/__init__.py:EquivalentCircuitModel.calculate_terminal_voltage"])
p("Marking and setting refuse names that address nothing",
  "mark_updatable and set_value raise for every name whose attributes, positions and keys do not lead to a parameter, with the exception that tells why (AttributeError, ValueError, IndexError, KeyError as for get_parameters), and set_value for no other name, except that a parameter of width 1 refuses values that are no batch of scalars.",
  "all objects of any depth, all names and values, positions counted from either end", "objects of any depth and arbitrary names",
  ["moirae/models/base.py:HealthVariable.mark_updatable", "moirae/models/base.py:HealthVariable.set_value", "moirae/models/base.py:HealthVariable._get_model_chain"])
p("A filter of the transient states that starts at the truth stays there",
  "If a circuit has straight curves, the measured voltages are those of the circuit itself and the filter of the transient states starts at the true state, then over any history of inputs its estimates and predicted voltages are exactly the true states and voltages, whatever the covariances. If it starts off the truth, its later errors and covariances depend on the first error, the inputs and the covariances only, not on where the cell started.",
  "all circuits with straight curves and any number of RC elements, with or without series capacitor and temperature, both behaviours, all positive definite covariances, tunings and histories of any length", "invariant along all histories; relation between any two runs",
  ["moirae/estimators/online/filters/kalman/unscented.py:UnscentedKalmanFilter.step", "moirae/estimators/online/utils/model.py:CellModelWrapper", "moirae/models/ecm/__init__.py:EquivalentCircuitModel.update_transient_state", "moirae/models/ecm/__init__.py:EquivalentCircuitModel.calculate_terminal_voltage"])
p("Simulations follow the circuit equations, and are estimated back",
  "Simulator.evolve with an equivalent circuit takes every member of a batch through the circuit equations of this cell by itself: whenever it returns, the transient states are those of the single cells and the measurements their voltages. For any number of transient states of one circuit and inputs of the right form it returns. The filter of the transient states of a circuit with straight curves, started at the state of the simulator and observing its inputs and measurements, estimates exactly the simulated transient states.",
  "all circuits without degradation and with any number of RC elements, batches of any size, both behaviours (linear: changing times), sequences of inputs of any length; estimates for single cells with straight curves", "arbitrary batches and sequences; composition of simulator and estimator",
  ["moirae/simulator.py:Simulator.step", "moirae/simulator.py:Simulator.evolve", "moirae/models/ecm/__init__.py:EquivalentCircuitModel", "moirae/estimators/online/filters/kalman/unscented.py:UnscentedKalmanFilter.step"])
p("Errors of the filter are bounded by its covariances and the disturbances",
  "Let a system follow an affine model up to arbitrary disturbances of its states and measurements. Then after every step of the unscented Kalman filter the squared error of its estimate in units of the reported covariance (the squared Mahalanobis distance), and that of the predicted output in units of its covariance, is at most the one of the first estimate plus the squares of all disturbances so far in units of the process and sensor noise. So without disturbances an estimate that is within k standard deviations of the truth, in every direction, stays so. The same for the transient states of every circuit with straight curves.",
  "all affine models and all circuits with straight curves, all dimensions, disturbances (of any size, not random), positive definite covariances, tunings and histories of any length", "a bound along all histories and for all disturbances",
  ["moirae/estimators/online/filters/kalman/unscented.py:UnscentedKalmanFilter.step", "moirae/estimators/online/filters/kalman/unscented.py:UnscentedKalmanFilter.correction_update", "moirae/estimators/online/utils/model.py:CellModelWrapper"])
p("Descriptions of the columns of simulated datasets",
  "to_batdata(extra_columns=True) returns the same tables as without extra columns. Each dataset describes every one of its columns, and nothing else, by telling which kind of object of the simulator it comes from.",
  "all simulators, histories of any length, containers with any fields, batches of any size", "arbitrary histories and containers",
  ["moirae/simulator.py:Simulator.to_batdata"])

p("The template makes the documented circuit",
  "ECMASOH.provide_template with single numbers gives exactly the cell described by its arguments, at reference temperature 25 degC, with the documented defaults where nothing is given. Open-circuit voltages given for equally spaced SOCs are met there. The built-in open-circuit voltage rises strictly with SOC, lies between 3.2 V and 3.8 V and is symmetric around 3.5 V at half charge.",
  "all capacities, efficiencies, resistances, capacitances, numbers of RC elements, and lists of voltages of any length", "all parameter values",
  ["moirae/models/ecm/advancedSOH.py:ECMASOH.provide_template", "moirae/models/ecm/utils.py:realistic_fake_ocv"])
p("The default series capacitor changes the voltage by at most 10 mV",
  "In a circuit made by ECMASOH.provide_template with a series capacitor of default size, the voltage over the capacitor changes by at most 10 mV while the SOC stays within [0, 1].",
  "all capacities, efficiencies and other values of the template, both behaviours, batches of any size, all histories of inputs of any length", "unbounded histories; all parameter values",
  ["moirae/models/ecm/advancedSOH.py:ECMASOH.provide_template", "moirae/models/ecm/__init__.py:EquivalentCircuitModel.update_transient_state"])
p("The filter forgets where it started",
  "Two unscented Kalman filters of the same affine model (or of the transient states of the same circuit with straight curves) that differ in their first estimates only and get the same history report the same covariances, and the difference of their estimates and of their predicted outputs, in units of these covariances, never grows. It shrinks in every step by the largest fraction of the predicted variance that was carried over from the step before. As long as the states can be observed (some linear correction would keep their covariance bounded) it dies out geometrically.",
  "all affine models of any dimensions, all circuits with straight curves, all first estimates, covariances, tunings, inputs and measurements, histories of any length", "unbounded histories; all measurements and estimates",
  ["moirae/estimators/online/filters/kalman/unscented.py:UnscentedKalmanFilter.step", "moirae/estimators/online/filters/kalman/unscented.py:UnscentedKalmanFilter.correction_update"])
p("A circuit forgets the currents and the hysteresis it started with",
  "Two runs of the same circuit through the same inputs from states with the same SOC: the SOC stays the same, the charges of the series capacitors keep their difference, the difference of the currents of an RC element falls by e with every time constant that passes, and the difference of the hystereses falls by e with every 1/gamma capacities of charge that go in or out (so it never grows). The terminal voltages differ by exactly what is left of these differences.",
  "all circuits with any number of RC elements, batches of any size, both behaviours, all inputs and states, histories of any length", "unbounded histories; relation between any two runs",
  ["moirae/models/ecm/__init__.py:EquivalentCircuitModel.update_transient_state", "moirae/models/ecm/__init__.py:EquivalentCircuitModel.calculate_terminal_voltage", "moirae/models/ecm/utils.py:hysteresis_solver_const_sign"])
p("Cells in parallel and in series",
  "The circuit with k times the capacity and the capacitances and the k-th part of the resistances does with k times the current what k equal cells in parallel do: the same SOC, hysteresis and voltage, k times the RC currents and the charge. The circuit with k times the voltages and resistances and the k-th part of the capacitances does with the same current what k equal cells in series do: the same SOC and currents, k times the hysteresis and the voltage.",
  "all circuits with any number of RC elements, batches of any size, both behaviours, all k > 0, inputs and states, histories of any length", "unbounded histories; scaling relation between two runs",
  ["moirae/models/ecm/__init__.py:EquivalentCircuitModel.update_transient_state", "moirae/models/ecm/__init__.py:EquivalentCircuitModel.calculate_terminal_voltage", "moirae/models/ecm/utils.py:hysteresis_solver_const_sign"])
p("Datasets of simulated circuits",
  "A simulator of one equivalent circuit, built from an initial state and input, and evolved over a list of inputs, exports a dataset whose columns are test_time, current, temperature (if given), soc, q0 (if there is a series capacitor), i_rc (numbered if there is not exactly one RC element), hyst and voltage, and whose rows are, for the initial input and every later one in order, the input, the state that the circuit equations give for the cell, and its terminal voltage.",
  "all circuits with any number of RC elements, with or without series capacitor and measured temperatures, both behaviours (under linear behaviour, times that change from one input to the next), all initial states, lists of inputs of any length", "arbitrary circuits and unbounded histories, through the simulator, the circuit model and the export together",
  ["moirae/simulator.py:Simulator", "moirae/simulator.py:Simulator.to_batdata", "moirae/models/ecm/__init__.py:EquivalentCircuitModel", "moirae/models/ecm/transient.py:ECMTransientVector", "moirae/models/ecm/ins_outs.py:ECMInput"])
p("Estimates of the filter are those of least squares",
  "For affine models and for the transient states of circuits with straight curves: over any history the estimate of the unscented Kalman filter is the end of the path of states that minimises the sum of the squared deviations from the first estimate, from the model and from the measurements, in units of the given covariances. Every path that reaches the minimum ends there, the minimum is what all measurements missed their predictions by in units of the reported output covariances, and the best path to any other state costs more by exactly the squared Mahalanobis distance of that state from the estimate in the reported covariance.",
  "all affine models of any dimensions, all circuits with straight curves, all first estimates, positive definite covariances, tunings, inputs and measurements, histories of any length", "optimality among all paths, for unbounded histories",
  ["moirae/estimators/online/filters/kalman/unscented.py:UnscentedKalmanFilter.step", "moirae/estimators/online/filters/kalman/unscented.py:UnscentedKalmanFilter.correction_update"])
p("A step takes the estimate towards the measurement",
  "For affine models and for the transient states of circuits with straight curves: after every step the output of the new estimate misses the measurement by R S^-1 times what the prediction missed it by (R the sensor noise, S the reported output covariance); so the voltage of the estimated state of a cell lies between the predicted and the measured voltage, dividing their distance in the ratio of the variances. The covariance of the output of the new estimate is at most the sensor noise, and the predicted output is at least as uncertain as the sensor.",
  "all affine models of any dimensions, all circuits with straight curves, all estimates, positive definite covariances, tunings, inputs and measurements, histories of any length", "all measurements and covariances; every step of unbounded histories",
  ["moirae/estimators/online/filters/kalman/unscented.py:UnscentedKalmanFilter.step", "moirae/estimators/online/filters/kalman/unscented.py:UnscentedKalmanFilter.correction_update"])
p("Estimates do not depend on the origin of time",
  "Making a joint or a dual estimator of a cell model that only uses differences of times, and running it on a dataset: if all times (in the initial input and in every row of the dataset) are read from another clock that is ahead by any amount, the table and the final estimates are the same, or the same error is raised. The equivalent circuit is such a model, whatever its parameters and curves.",
  "all cell models that only use differences of times, all circuits with any curves and interpolations, both behaviours, all states of health, initial inputs of one row, covariances, tunings, datasets with any columns and any number of rows, all shifts; no writer attached", "relation between two runs on unbounded datasets, including all failing runs",
  ["moirae/interface/__init__.py:run_online_estimate", "moirae/estimators/online/joint.py:JointEstimator", "moirae/estimators/online/dual.py:DualEstimator", "moirae/models/ecm/__init__.py:EquivalentCircuitModel"])
p("The order of the RC elements does not matter, and equal ones act as one",
  "A circuit with the RC elements of another in a different order, started with the RC currents in that order, goes through any inputs to the same state with the RC currents in that order, and has the same terminal voltage. Two RC elements with equal time constants and equal currents act as one element with the sum of their resistances: their currents stay equal and are the current of that one, the rest of the state and the voltage are the same.",
  "all circuits with any number of RC elements, batches of any size, both behaviours, all orders, inputs and states, histories of any length", "unbounded histories and numbers of elements; relation between two runs of different circuits",
  ["moirae/models/ecm/__init__.py:EquivalentCircuitModel.update_transient_state", "moirae/models/ecm/__init__.py:EquivalentCircuitModel.calculate_terminal_voltage"])
p("A run can be interrupted and continued",
  "Cut a dataset into two parts that share one row (the last of the first part is the first of the second). run_online_estimate on the whole succeeds exactly if it succeeds on the first part and then, with the estimator it returned, on the second. Both ways end with the same estimator, and the table of the whole is the table of the first part without its last row followed by the table of the second. (The first row of a dataset is not observed: if the parts follow each other without sharing a row, the result is that of the dataset without the first row of the second part.)",
  "all joint and dual estimators in any state, all datasets in memory or in files, cut anywhere; no writer attached", "unbounded datasets, every place of the cut, equality of whole estimators",
  ["moirae/interface/__init__.py:run_online_estimate", "moirae/estimators/online/joint.py:JointEstimator.step", "moirae/estimators/online/dual.py:DualEstimator.step"])
p("Only the columns that are used matter",
  "What run_online_estimate does (the table, the estimator it returns, what it writes to the file, or the error it raises) depends on the rows of the dataset only through the columns test_time, current, voltage, cycle_number and the finite values of temperature: other columns, the order of the columns and the way a missing temperature is represented (no column, NaN, infinity) make no difference.",
  "all estimators, datasets with any columns and any number of rows, in memory or in files, with or without a writer, succeeding or failing runs", "all pairs of datasets with equal readings",
  ["moirae/interface/__init__.py:run_online_estimate", "moirae/interface/__init__.py:row_to_inputs"])
p("Normalization does not change the estimates",
  "With the process noise of the parameters given, normalize_asoh changes only the numbers a filter works with: for an equivalent circuit under constant currents, run_online_estimate with the joint or dual estimator built with normalize_asoh=True returns exactly the table it returns with normalize_asoh=False. More generally, two dual estimators built from the same prior and noises, one in the units of the model and one with any invertible rescaling of transient states, parameters and outputs, return the same estimates and predictions in every step.",
  "all circuits with any number of RC elements, choices of parameters that batches can be computed for (and that reach the voltage, for dual estimation), positive definite covariances and noises, tunings without negative weights, non-empty datasets of any length; for the general statement all models that treat every hidden state by itself and all units", "unbounded histories; exact equality of two runs in different coordinates",
  ["moirae/estimators/online/joint.py:JointEstimator.initialize_unscented_kalman_filter", "moirae/estimators/online/dual.py:DualEstimator.initialize_unscented_kalman_filter", "moirae/estimators/online/dual.py:DualEstimator.step", "moirae/interface/__init__.py:run_online_estimate"])
p("Estimating resistances and voltages is recursive least squares",
  "One step after any state, the terminal voltage of a circuit is an affine function of the values of the open-circuit voltage (reference and entropic), of R0 and of the maximum hysteresis. So if the dual estimator estimates only such parameters, then over any history its belief about them is exactly that of recursive least squares (the Kalman filter for constant parameters), with the voltages that follow from the transient state estimated in the step before; it starts from the given values and covariance. While no current flows, an estimator of R0 alone learns nothing: the estimate stays as it is and the process noise is added to its covariance.",
  "all circuits with any number of RC elements, with or without series capacitor and measured temperatures, interpolants that are weighted sums of the values (proved for the linear one), any choice of these parameters with any numbers of values, transient states in any units, positive definite covariances, tunings without negative weights, both behaviours for a step and constant currents for histories of any length", "exact coincidence with least squares for all inputs, states and covariances, over unbounded histories",
  ["moirae/estimators/online/dual.py:DualEstimator.step", "moirae/estimators/online/dual.py:DualEstimator.initialize_ukf_from_wrappers", "moirae/estimators/online/utils/model.py:DegradationModelWrapper", "moirae/models/ecm/__init__.py:EquivalentCircuitModel", "moirae/models/ecm/utils.py:SOCInterpolatedHealth"])
p("With straight curves the dual estimator is a pair of Kalman filters",
  "If the curves of a circuit stay straight lines and only values of the open-circuit voltage, of R0 and of the maximum hysteresis are estimated, the dual estimator runs through every history without failing, for every admissible tuning (also with negative weights), and what it returns are the beliefs of two Kalman filters side by side and uncorrelated: that of the transient states of the circuit with the parameter values estimated in the step before, and that of the parameter values at the transient states estimated in the step before. It starts from the given values and covariances; the predicted voltages and their variances are those of the first.",
  "all circuits with any number of RC elements, with or without series capacitor and measured temperatures, of which each curve is straight and not estimated, or has one value, or two values interpolated linearly; all estimated parameters among these values, with one that reaches the voltage; the coordinates of the model, all positive definite covariances and noises, admissible tunings, both behaviours, histories of any length (under linear behaviour at changing times)", "exact coincidence for all inputs, measurements and tunings, over unbounded histories",
  ["moirae/estimators/online/dual.py:DualEstimator.step", "moirae/estimators/online/dual.py:DualEstimator.initialize_ukf_from_wrappers", "moirae/estimators/online/utils/model.py:CellModelWrapper", "moirae/estimators/online/utils/model.py:DegradationModelWrapper", "moirae/models/ecm/__init__.py:EquivalentCircuitModel"])
p("Joint estimation of resistances and voltages is the Kalman filter",
  "If the curves of a circuit are straight lines and the estimated parameters are single values of the open-circuit voltage (reference and entropic), of R0 or of the maximum hysteresis, then the transient state and the parameters one step later, and the voltage, are together affine functions of the transient state and the parameters. The joint estimator starts from the values of the templates and the given covariance, runs through every history without failing, and returns exactly the beliefs of the Kalman filter for states and parameters together, including their correlations, and its predictions; for every admissible tuning in the coordinates of the model, and in any other units if no weight is negative.",
  "all circuits with any number of RC elements, with or without series capacitor and measured temperatures, whose estimated curves have one value and whose other curves are straight, nothing divided by zero; all positive definite covariances and noises, both behaviours (under linear behaviour at changing times; in other units constant currents), histories of any length", "exact coincidence for all inputs, measurements and tunings, over unbounded histories",
  ["moirae/estimators/online/joint.py:JointEstimator.step", "moirae/estimators/online/joint.py:JointEstimator.initialize_ukf_from_wrapper", "moirae/estimators/online/utils/model.py:JointCellModelWrapper", "moirae/models/ecm/__init__.py:EquivalentCircuitModel"])
p("Jointly estimated errors stay within the reported covariance",
  "If the voltages come from a simulated cell (CellSimulator) whose estimated parameters have other values than the templates', started in any state, then in every step of the history the error of the joint estimate of states and parameters, weighted with the reported covariance, is at most what it was at the start; so every estimated number is off by at most sqrt(E) of its reported standard deviations. If the estimator starts at the true state and parameters, it reports them exactly, and predicts every voltage exactly. If the cell is disturbed, its parameters drift or the measurements have errors, the weighted error is at most its initial value plus the sum of the weighted disturbances.",
  "all circuits of C133 (any number of RC elements, single values of voltages, R0 and maximum hysteresis estimated), all true values and states, positive definite covariances and noises, admissible tunings, histories of any length", "unbounded histories, all errors and disturbances",
  ["moirae/estimators/online/joint.py:JointEstimator.step", "moirae/estimators/online/joint.py:JointEstimator.initialize_ukf_from_wrapper", "moirae/simulator.py:CellSimulator.step", "moirae/models/ecm/__init__.py:EquivalentCircuitModel"])
p("Joint estimates are those of least squares",
  "For the circuits of C133 the estimate of states and parameters that the joint estimator returns after a history is the end of the cheapest way through it: among all sequences of states and parameters, the one for which the squared deviations from the initial guess, of every step from what the model would do, and of every voltage from the measured one, weighted with the given covariances, add up to the least. No other way that is as cheap ends elsewhere.",
  "all circuits, covariances, noises and tunings of C133, all inputs and measurements, histories of any length", "optimality among all ways, unbounded histories",
  ["moirae/estimators/online/joint.py:JointEstimator.step", "moirae/estimators/online/joint.py:JointEstimator.initialize_ukf_from_wrapper", "moirae/models/ecm/__init__.py:EquivalentCircuitModel"])
p("Updates of parameters compose",
  "Updating health parameters twice: after one row of values has been written to some parameters, writing values to the same parameters has the same effect as without the first update, the same object or the same error (not so once two rows have been written, for then a single row is refused). Writing values to some parameters and then values to further ones is the same as writing them all in one call, with the columns side by side, also in what fails. Listing the names in another order, with the columns in that order, gives the same object.",
  "all health variables nested to any depth, all lists of names (distinct and existing ones for the first and last claim), all arrays of values", "all nestings, names, widths and batches at once",
  ["moirae/models/base.py:HealthVariable.update_parameters", "moirae/models/base.py:HealthVariable.make_copy", "moirae/models/base.py:HealthVariable.iter_parameters"])
p("The joint estimator forgets the values in its templates",
  "Two joint estimators built alike, from templates that differ in nothing but the values of the estimated parameters and of the transient state, see the same model whatever the cell: they differ in their first estimate only, and set to the same estimate they report the same. On the circuits of C133 both run through every common history, report the same covariances, and their estimates and predicted voltages, measured in units of these covariances, come closer with every step.",
  "all cells, wrappers and arguments for the first claim; all circuits, covariances, noises and tunings of C133 for the second, all values in the templates, histories of any length", "all values of templates, unbounded histories",
  ["moirae/estimators/online/joint.py:JointEstimator.step", "moirae/estimators/online/joint.py:JointEstimator.initialize_ukf_from_wrapper", "moirae/estimators/online/utils/model.py:JointCellModelWrapper.create_cell_model_inputs"])
p("The offline loss of a circuit is what the circuit equations give",
  "The mean squared loss of an equivalent circuit exists for every state and every values of the updatable parameters, and is the average over the rows of the dataset of the squared difference between the observed voltage and the one that the circuit equations give for the cell with these parameters, started in this state at the first row and following the currents and temperatures of the rows. A row without a temperature counts as one at 25 degrees.",
  "all circuits with any number of RC elements, with or without series capacitor, all choices of updatable parameters, states and values, datasets of any length with at least one row (under linear behaviour at changing times)", "all states, parameter values and datasets; unbounded lengths",
  ["moirae/estimators/offline/loss.py:MeanSquaredLoss.__call__", "moirae/interface/__init__.py:row_to_inputs", "moirae/models/ecm/__init__.py:EquivalentCircuitModel", "moirae/models/base.py:HealthVariable.make_copy"])
p("Simulated datasets are fitted exactly by the truth",
  "If a dataset was exported from a simulator (CellSimulator.to_batdata) of an equivalent circuit, then the mean squared loss of the state and the parameter values that it was simulated with is zero, and no loss is smaller. Whether the simulated inputs have temperatures does not matter.",
  "all circuits with any number of RC elements, with or without series capacitor and temperatures, all states and values of the updatable parameters, inputs of any length (under linear behaviour at changing times)", "all parameter values and runs of any length",
  ["moirae/estimators/offline/loss.py:MeanSquaredLoss.__call__", "moirae/simulator.py:CellSimulator.to_batdata", "moirae/simulator.py:CellSimulator.evolve", "moirae/interface/__init__.py:row_to_inputs"])
p("Offline fits of resistances and voltages have no false optima",
  "If the curves of a circuit are straight lines and the updatable parameters are single values of the open-circuit voltage, of R0 or of the maximum hysteresis, then the mean squared loss is the average of the squares of affine functions of the initial state and the parameters. It is convex, has a minimum, and all its local minima are minima. So if SciPy stops at a point that is no worse than its neighbours, the estimate of ScipyMinimizer explains the data at least as well as every other state and parameters; on simulated data it reproduces the voltages exactly, whatever the initial guess.",
  "all circuits with any number of RC elements, with or without series capacitor, whose updatable curves have one value and whose other curves are straight, nothing divided by zero; all datasets with at least one row (under linear behaviour at changing times), all initial guesses, all optimisers that return local minima", "optimality among all states and parameters, unbounded datasets",
  ["moirae/estimators/offline/scipy.py:ScipyMinimizer.estimate", "moirae/estimators/offline/loss.py:MeanSquaredLoss.__call__", "moirae/models/ecm/__init__.py:EquivalentCircuitModel"])
p("Files and tables are spectators, and files of parts make up the file of the whole",
  "Asking run_online_estimate for a file, or for a table, changes nothing else: with a file the run returns the table and the estimator it would have returned without one, and with a table it leaves the estimator and the file it would have left without one. If a dataset is given in two parts of which the second begins with the last row of the first, the per-timestep estimates read from the file of the whole are those read from the file of the first part followed by those from the file of the second, and the estimators at the end are the same. The second part cannot go into the file of the first: a writer that has been used is always refused.",
  "all estimators whose estimates have fixed sizes (all estimators for the claims on spectators and refusals), all datasets in memory or in files, rows of any number split anywhere, times not NaN, all writers that store something at every step, wherever and however", "all datasets, splits and writer options; unbounded runs",
  ["moirae/interface/__init__.py:run_online_estimate", "moirae/interface/hdf5.py:HDF5Writer.prepare", "moirae/interface/hdf5.py:HDF5Writer.append_step", "moirae/interface/hdf5.py:read_state_estimates"])
p("An interrupted run keeps what it has estimated",
  "If run_online_estimate raises while it writes a file, because a row cannot be read, the estimator raises on it, or it has no cycle number, the file is closed and holds the estimates for all rows before that one, as if the dataset had ended there. Whatever else goes wrong, the per-timestep estimates read from the file are those of the first rows without a gap, and none is missing but those from the row on at which the run raised.",
  "all estimators whose estimates have fixed sizes and whose state can be had, datasets of any length whose first row is complete and whose times are not NaN, every row at which it may fail, all writers into a file without estimates under their key that store something at every step", "all ways of failing at all rows of runs of any length",
  ["moirae/interface/__init__.py:run_online_estimate", "moirae/interface/hdf5.py:HDF5Writer.__exit__", "moirae/interface/hdf5.py:HDF5Writer.append_step", "moirae/interface/hdf5.py:read_state_estimates"])
p("Estimators are isolated from the objects of their caller",
  "What a joint or dual estimator returns depends on the values that its arguments had when it was built and on the arguments of the calls at the time of the calls. A caller may go on to change the state of health, the transient state, the inputs and the covariances that they built the estimator from, the inputs and measurements of earlier calls, and the estimates that were returned, without any effect on later estimates.",
  "all cells, converters, covariances and tunings, all programs of a caller that interleave changes of any of these objects with step, get_estimated_state and state in any order, of any length", "all interleavings of changes and calls; sharing of objects shows only in some of them",
  ["moirae/estimators/online/utils/model.py:BaseCellWrapper.__init__", "moirae/estimators/online/__init__.py:OnlineEstimator.__init__", "moirae/estimators/online/joint.py:JointEstimator.step", "moirae/estimators/online/dual.py:DualEstimator.step", "moirae/estimators/online/filters/kalman/unscented.py:UnscentedKalmanFilter.step"])
p("Reported covariances are those of the errors, and no linear estimate is better",
  "If the covariances given to an unscented Kalman filter describe the randomness of a system with affine dynamics and outputs (that of the first state, of what disturbs the states and of what disturbs the measurements, all without correlations between them or between times), then in every step the estimate is right on average, the covariance reported with it is the covariance of its error, and no other function of the measurements so far that is linear has a smaller mean squared error, in any component or combination of components. The same holds of the predicted outputs and the measurements before, and the errors of predictions are uncorrelated, over time and with all earlier measurements. This holds in particular of equivalent circuits with straight curves, and of joint estimators that estimate resistances and voltages of such circuits, as built by initialize_ukf_from_wrapper.",
  "all affine models, and all circuits of C112 and C133 with any number of RC elements; all positive definite covariances, all distributions with these covariances on all probability spaces, inputs and runs of any length (under linear behaviour at changing times), all tunings", "statements about averages over all random disturbances, optimality among all linear estimators, unbounded runs",
  ["moirae/estimators/online/filters/kalman/unscented.py:UnscentedKalmanFilter.step", "moirae/estimators/online/filters/kalman/unscented.py:UnscentedKalmanFilter.estimation_update", "moirae/estimators/online/filters/kalman/unscented.py:UnscentedKalmanFilter.correction_update", "moirae/estimators/online/joint.py:JointEstimator.initialize_ukf_from_wrapper", "moirae/estimators/online/joint.py:JointEstimator.step", "moirae/models/ecm/__init__.py:EquivalentCircuitModel"])
p("With normal noise the estimates are the conditional distributions",
  "If the first state of a system with affine dynamics and outputs is normal with the mean and covariance given to an unscented Kalman filter, and it is disturbed by normal noises with the covariances given to it, then by Bayes' rule the conditional distribution of the state given all measurements so far is the normal one with the estimate of the filter as mean and the reported covariance, after every history and whatever was measured, and the density of the measurements is the product of the densities of the predicted outputs at them. This holds in particular of equivalent circuits with straight curves, and of joint estimators of resistances and voltages of such circuits, as built by initialize_ukf_from_wrapper: what they report about the parameters is exactly what the data say.",
  "all affine models, and all circuits of C112 and C133 with any number of RC elements; all positive definite covariances, all measurements, inputs and runs of any length (under linear behaviour at changing times), all tunings", "integrals over all states and all measurements; unbounded runs",
  ["moirae/estimators/online/filters/kalman/unscented.py:UnscentedKalmanFilter.step", "moirae/estimators/online/filters/kalman/unscented.py:UnscentedKalmanFilter.estimation_update", "moirae/estimators/online/filters/kalman/unscented.py:UnscentedKalmanFilter.correction_update", "moirae/estimators/online/joint.py:JointEstimator.initialize_ukf_from_wrapper", "moirae/estimators/online/joint.py:JointEstimator.step", "moirae/models/ecm/__init__.py:EquivalentCircuitModel"])
p("Reported standard deviations are calibrated when the noise is normal",
  "If the covariances given to an unscented Kalman filter describe the randomness of a system with affine dynamics and outputs, and the first state and all disturbances are jointly normal, then in every step the difference between the truth and the estimate is normal around 0 with the reported covariance, and independent of everything measured so far; the same holds of the predicted outputs and the measurements before. So whatever has been measured, the truth is within c reported standard deviations of the estimate as often as a standard normal number is between -c and c, for every c and for every number or combination of numbers. This holds in particular of equivalent circuits with straight curves, and of joint estimators of resistances and voltages of such circuits, as built by initialize_ukf_from_wrapper.",
  "all affine models, and all circuits of C112 and C133 with any number of RC elements; all positive definite covariances, all probability spaces with such noise, inputs and runs of any length (under linear behaviour at changing times), all tunings", "probabilities over all random disturbances, conditional on all sets of measurements; unbounded runs",
  ["moirae/estimators/online/filters/kalman/unscented.py:UnscentedKalmanFilter.step", "moirae/estimators/online/filters/kalman/unscented.py:UnscentedKalmanFilter.estimation_update", "moirae/estimators/online/filters/kalman/unscented.py:UnscentedKalmanFilter.correction_update", "moirae/estimators/online/joint.py:JointEstimator.initialize_ukf_from_wrapper", "moirae/estimators/online/joint.py:JointEstimator.step", "moirae/models/ecm/__init__.py:EquivalentCircuitModel"])
p("Predicted outputs are the ones to be expected, also where they are quadratic",
  "If the states of a system one step later are affine functions of the states and the outputs are quadratic ones, or the other way round, then the output that an unscented Kalman filter predicts is the mean output of a random state with the mean and the covariance of the estimate, disturbed by noise with the covariance given to the filter, whatever the distributions are otherwise. (The output at the estimate, as in an extended Kalman filter, would be biased.) This holds in particular of joint estimators, as built by initialize_ukf_from_wrapper, of circuits of which one or two values of the open-circuit voltage and of R0 are estimated, so that the voltage contains products of the SOC and of estimated values: in every step of every run the predicted voltage is the one to be expected from the estimate before.",
  "all models of this kind, and all circuits with any number of RC elements whose curves of open-circuit voltage and R0 are known quadratic ones, or have one value or two (with linear interpolation) that may be estimated, and whose other curves have one value (known hysteresis may be straight); all positive definite covariances, all probability spaces, inputs and runs of any length (under linear behaviour at changing times), all tunings (for whole runs: without negative weights)", "averages over all distributions with given moments; unbounded runs",
  ["moirae/estimators/online/filters/kalman/unscented.py:UnscentedKalmanFilter.step", "moirae/estimators/online/filters/kalman/unscented.py:UnscentedKalmanFilter.build_sigma_points", "moirae/estimators/online/filters/kalman/unscented.py:UnscentedKalmanFilter.estimation_update", "moirae/estimators/online/joint.py:JointEstimator.initialize_ukf_from_wrapper", "moirae/estimators/online/joint.py:JointEstimator.step", "moirae/models/ecm/__init__.py:EquivalentCircuitModel", "moirae/models/ecm/utils.py:SOCInterpolatedHealth.get_value"])
p("The OCV extractor finds the open circuit voltage from charge and discharge together",
  "If the voltages in the data are those of an open circuit voltage curve (a cubic spline over the SOC points) plus an overpotential that changes sign with the current (a resistance that may depend on the SOC, a hysteresis), and every charge is measured with opposite currents alike, then OCVExtractor returns the open circuit voltage exactly: the overpotential leaves no trace. If all data are taken with one current I through a series resistance R, then every value is too high by exactly I R. The result does not depend on the order of the rows or on how rows of equal SOC are sorted.",
  "all curves, overpotentials, currents, numbers of measurements (at least four SOCs between neighbouring SOC points), SOC points, sorting algorithms and least squares fits", "exact identities over all data sets; the result of a fit for all curves and all ways of breaking ties",
  ["moirae/extractors/ecm.py:OCVExtractor.interpolate_ocv", "moirae/extractors/ecm.py:OCVExtractor.extract"])
p("More current never means less voltage",
  "Take two cells with the same parameters whose open-circuit voltage does not fall with the SOC and whose other curves have one value. If the second starts above the first (in SOC, charge of the series capacitor, RC currents and hysteresis) and at no time gets less current, then it stays above, and at no time does it show a lower voltage. In particular a cell that is charged never shows less than one at rest, and one that is discharged never more, whatever was done with them before.",
  "all parameters, numbers of RC elements, states, sequences of currents and temperatures of any length, members of batches; both behaviours of the current between inputs; currents that are 0 or exceed 1e-8 A", "an order preserved over unbounded runs, for all parameters and all pairs of histories",
  ["moirae/models/ecm/__init__.py:EquivalentCircuitModel.update_transient_state", "moirae/models/ecm/__init__.py:EquivalentCircuitModel.calculate_terminal_voltage", "moirae/models/ecm/utils.py:hysteresis_solver_const_sign", "moirae/simulator.py:Simulator.evolve"])
p("A slower cell is the same cell on another clock",
  "A cell with k times the resistances (R0 and those of the RC elements) and otherwise the same parameters that gets the same charge in k times the time, so times multiplied and currents divided by k, shows the same voltages one after the other and goes through the same SOCs, charges and hystereses, with the k-th part of the RC currents. No time is built into the model: no step length, no duration and no rate other than those in the parameters.",
  "all k > 0, circuits with any number of RC elements, batches, runs of any length, both behaviours of the current between inputs (at changing times if linear); currents that are 0 or exceed 1e-8 A on both clocks", "an identity between two runs of unbounded length for all factors and parameters",
  ["moirae/models/ecm/__init__.py:EquivalentCircuitModel.update_transient_state", "moirae/models/ecm/__init__.py:EquivalentCircuitModel.calculate_terminal_voltage", "moirae/models/ecm/utils.py:hysteresis_solver_const_sign", "moirae/simulator.py:Simulator.evolve"])
p("Simulations with the Thevenin model follow its differential equations",
  "If the solver of the thevenin package solves the equations it is given, then a simulation of any number of steps ends at the solution of the differential equations of the cell for the whole history of currents: the SOC changes by the charge that has flowed over the capacity (current taken positive on charge, the package counts it positive on discharge), each overpotential relaxes with its resistance and capacitance at the SOC and temperature of the moment, and the temperature follows from the heat produced and lost. A step with constant current can therefore be split at any moment without changing the outcome.",
  "all cells with any number of RC elements and polynomial parameters, batches, states, and sequences of inputs of any length at non-decreasing times; all solvers exact on the equations", "a statement about solutions of differential equations over unbounded histories, for all cells and solvers",
  ["moirae/models/thevenin/__init__.py:TheveninModel.update_transient_state", "moirae/models/thevenin/__init__.py:TheveninModel._make_models", "moirae/models/thevenin/components.py:SOCTempPolynomialVariable.__call__"])
p("A Thevenin cell is above its open-circuit voltage on charge, below it on discharge, and relaxes to it at rest",
  "A Thevenin cell that starts without overpotentials and is never discharged shows at every time at least the open-circuit voltage of its SOC; one that is never charged shows at most that. A cell at rest keeps its SOC, its overpotentials decay exponentially with R C at that SOC and temperature, however the rest is divided into steps, and after a long enough rest the voltage is as close to the open-circuit voltage as wanted.",
  "all isothermal cells with any number of RC elements with positive polynomial parameters that may depend on SOC and temperature, batches, states, sequences of inputs of any length at non-decreasing times, solvers exact on the equations", "signs and limits of solutions of differential equations for all parameters and unbounded histories",
  ["moirae/models/thevenin/__init__.py:TheveninModel.update_transient_state", "moirae/models/thevenin/__init__.py:TheveninModel.calculate_terminal_voltage"])
p("A Thevenin cell forgets its overpotentials, but never its SOC",
  "Two Thevenin cells with the same parameters and SOC but different overpotentials that get the same inputs, whatever these are, come together: after a time T the overpotentials differ by at most exp(-T / tau) times what they did, where tau bounds R C at the SOCs and temperatures passed, and the voltages differ by at most the sum of these. A difference of the SOCs, on the other hand, stays exactly as it is for ever.",
  "all isothermal cells with any number of RC elements with positive polynomial parameters that may depend on SOC and temperature, batches, pairs of states, sequences of inputs of any length at non-decreasing times, solvers exact on the equations", "an exponential bound between two runs of unbounded length for all inputs and parameters",
  ["moirae/models/thevenin/__init__.py:TheveninModel.update_transient_state", "moirae/models/thevenin/__init__.py:TheveninModel.calculate_terminal_voltage"])
p("A pack of Thevenin cells is one Thevenin cell",
  "p strings in parallel of s equal Thevenin cells each behave as one Thevenin cell with p times the capacity, s times the open-circuit voltage, s/p times the resistances and p/s times the capacitances: with p times the current it goes through the same SOCs, with s times the overpotentials and s times the voltage.",
  "all p, s > 0, isothermal cells with any number of RC elements with positive polynomial parameters that may depend on SOC and temperature, batches, states, sequences of inputs of any length at non-decreasing times, solvers exact on the equations", "an identity between two runs of unbounded length for all factors and parameters",
  ["moirae/models/thevenin/__init__.py:TheveninModel.update_transient_state", "moirae/models/thevenin/__init__.py:TheveninModel.calculate_terminal_voltage"])
p("Both cell models simulate the same cell alike",
  "A cell that consists of a resistor and RC elements of constant values, without hysteresis or series capacitor and with a Coulombic efficiency of 1, can be described to the equivalent circuit model (whose default is a constant current between inputs) and to the Thevenin model. From the same state and with the same inputs both arrive at the same SOC, overpotentials (the Thevenin model counts them with the opposite sign) and voltage. Where the SOCs differ, they do so by the charge that the changes of current between inputs make, and the voltages by what the open-circuit voltage makes of that.",
  "all such cells with any number of RC elements, open-circuit voltages that both models can express, batches, states, sequences of inputs of any length at non-decreasing times; isothermal Thevenin models, solvers exact on the equations", "an identity between two different models over unbounded runs for all parameters; the tests of each model never compare it with the other",
  ["moirae/models/thevenin/__init__.py:TheveninModel.update_transient_state", "moirae/models/thevenin/__init__.py:TheveninModel.calculate_terminal_voltage", "moirae/models/ecm/__init__.py:EquivalentCircuitModel.update_transient_state", "moirae/models/ecm/__init__.py:EquivalentCircuitModel.calculate_terminal_voltage"])
p("A slower Thevenin cell is the same cell on another clock",
  "A Thevenin cell with k times the resistances and otherwise the same parameters that gets the same charge in k times the time, so durations multiplied and currents divided by k, goes through the same SOCs, overpotentials and voltages. It does not matter at which time the clock starts either.",
  "all k > 0, starting times, isothermal cells with any number of RC elements with positive polynomial parameters that may depend on SOC and temperature, batches, states, sequences of inputs of any length at non-decreasing times, solvers exact on the equations", "an identity between two runs of unbounded length for all factors, offsets and parameters",
  ["moirae/models/thevenin/__init__.py:TheveninModel.update_transient_state", "moirae/models/thevenin/__init__.py:TheveninModel.calculate_terminal_voltage"])
p("More current never means less voltage in the Thevenin model",
  "Take two Thevenin cells with the same parameters whose open-circuit voltage does not fall with the SOC and whose resistances and capacitances do not depend on the SOC. If the second starts above the first (in SOC, and in overpotentials with their sign reversed) and at no time gets less current, then it stays above and shows no lower voltage. Unlike in the equivalent circuit with linear currents (C149) there is no exception.",
  "all isothermal cells of this kind with any number of RC elements, whose resistances and capacitances may depend on temperature, batches, pairs of states, pairs of sequences of inputs of any length at the same non-decreasing times and ambient temperatures, solvers exact on the equations", "an order preserved over unbounded runs, for all parameters and all pairs of histories",
  ["moirae/models/thevenin/__init__.py:TheveninModel.update_transient_state", "moirae/models/thevenin/__init__.py:TheveninModel.calculate_terminal_voltage"])
p("A pulse of current shows the resistances of the cell",
  "When the current jumps, the voltage changes at once by the jump times the series resistance at the present SOC and temperature, whatever the cell and its state. If a relaxed cell of constant resistances gets the current I for d seconds, its voltage changes by I (R0 + sum of R_j (1 - exp(-d / (R_j C_j)))) and by what the open-circuit voltage makes of the charge. Both models of a cell show this.",
  "jumps: all circuits and isothermal Thevenin cells, batches, states; pulses: all such cells with any number of RC elements (circuits without series capacitor and hysteresis), charging and discharging currents, durations; constant current between inputs of the circuit, solvers exact on the equations", "a formula over the reals for all parameters, currents and durations, in two models",
  ["moirae/models/thevenin/__init__.py:TheveninModel.update_transient_state", "moirae/models/thevenin/__init__.py:TheveninModel.calculate_terminal_voltage", "moirae/models/ecm/__init__.py:EquivalentCircuitModel.update_transient_state", "moirae/models/ecm/__init__.py:EquivalentCircuitModel.calculate_terminal_voltage"])
p("The answers of a cell to currents add up",
  "Take three simulations of a cell of constant resistances and capacitances at the same times. If in the third the currents, and the RC currents at the start, are alpha times those of the first plus beta times those of the second, then so are its RC currents, its change of SOC and its overpotential (voltage above the open-circuit voltage of its SOC) at the end. Both models of a cell have this property, the equivalent circuit for constant and for linear currents between inputs, if it has no hysteresis, no series capacitor and a Coulombic efficiency of 1.",
  "all such circuits and isothermal Thevenin cells with any number of RC elements, batches, open-circuit voltages, real alpha and beta, triples of states and of sequences of inputs of any length; for linear currents the times of consecutive inputs differ, for Thevenin cells they do not go back; solvers exact on the equations", "an identity between three runs of unbounded length, for all parameters, factors and histories",
  ["moirae/models/ecm/__init__.py:EquivalentCircuitModel.update_transient_state", "moirae/models/ecm/__init__.py:EquivalentCircuitModel.calculate_terminal_voltage", "moirae/models/thevenin/__init__.py:TheveninModel.update_transient_state", "moirae/models/thevenin/__init__.py:TheveninModel.calculate_terminal_voltage"])
