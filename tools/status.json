{
 "C01": {
  "status": "proved",
  "note": "Objects with dictionary keys without dots and collections held in tuples/dicts; the two C01_*_unreachable theorems show the restriction is needed."
 },
 "C02": {
  "status": "proved",
  "note": "Same class of objects; C02_dotted_key_collision shows keys with dots must be excluded."
 },
 "C03": {
  "status": "proved",
  "note": "C03_update_then_get: whenever the object still has a batch size; C03_update_then_get_exact: when the other parameters have one row. C03_conflicting_batch_accepted shows what happens otherwise."
 },
 "C04": {
  "status": "partial",
  "note": "Holds for unbatched objects (identity of the whole object). False for batched parameters: np.size counts rows times columns (C04_batched_round_trip_raises for every batched parameter)."
 },
 "C05": {
  "status": "proved",
  "note": "Names of parameters, any outcome, repeated names allowed."
 },
 "C06": {
  "status": "proved",
  "note": "Also the exact condition on batched objects (C06_batched_requirement)."
 },
 "C07": {
  "status": "proved",
  "note": "Sequences of calls naming parameters. Naming a sub-model destroys fixed parameters: see C75."
 },
 "C08": {
  "status": "partial",
  "note": "False: a rejected call can leave a prefix of the blocks written (two witnesses). The partial theorem says a prefix of the blocks is written and nothing else, and nothing at all if the first name is refused."
 },
 "C09": {
  "status": "proved",
  "note": "Including the recursive and non-recursive versions of mark_all_fixed and mark_all_updatable, and the choice of parameters by fixing all and marking some."
 },
 "C10": {
  "status": "proved",
  "note": "Order of all_names; layout depends on the marked set only."
 },
 "C12": {
  "status": "proved",
  "note": "For arrays with at least one row; C12_zero_rows_order_dependent shows zero-row arrays must be excluded."
 },
 "C75": {
  "status": "partial",
  "note": "False for every marked attribute that is not a parameter: it is overwritten by an array (C75_marked_attributes_overwritten, C75_submodel_name_destroys_parameters). Proved for names that lead nowhere or through an unmarked attribute, at any position in the list, with the structure of the object intact."
 },
 "C11": {
  "status": "proved",
  "note": "Any list of parameter names (one label per column, in column order, distinct) and the names of sub-models and collections at any depth."
 },
 "C13": {
  "status": "proved",
  "note": "set_value decides between scalar and list form by the current width, so a list parameter holding one number is treated as a scalar; values of rank above 2 for wider parameters are outside the model."
 },
 "C14": {
  "status": "proved",
  "note": "Containers with at least one value present (to_numpy raises otherwise)."
 },
 "C15": {
  "status": "proved",
  "note": ""
 },
 "C16": {
  "status": "partial",
  "note": "False: no width is ever rejected. The partial theorem says exactly what happens to surplus and missing columns."
 },
 "C17": {
  "status": "proved",
  "note": "Any rank and shape."
 },
 "C18": {
  "status": "proved",
  "note": "Array-level update, any batch size, any input sequence; linear behaviour needs distinct consecutive times."
 },
 "C19": {
  "status": "partial",
  "note": "One-step rule and 'never gains' proved for constant behaviour over any history; under linear behaviour the second part is false (C19_linear_gains) and proved when no step starting with a non-negative current has a negative net charge."
 },
 "C20": {
  "status": "proved",
  "note": "Any behaviour, any history, any batch size."
 },
 "C21": {
  "status": "proved",
  "note": "Unique solution of the ODE (existence shown), betweenness and contraction factor; any number of RC elements, any batch."
 },
 "C22": {
  "status": "partial",
  "note": "False: the excess over the exact solution is exactly (1-exp(-dt/tau))(I_new-I_prev); never exact when the current changes (C22_not_exact)."
 },
 "C23": {
  "status": "partial",
  "note": "Envelope for all currents; convexity and monotone approach for I=0 or |I|>1e-8 A; below 1e-8 A the code uses M*I as target and convexity fails (C23_tiny_current_moves_away)."
 },
 "C24": {
  "status": "partial",
  "note": "False for ramps from a positive current to zero or below (C24_envelope_violated); proved for all other ramps, including negative through zero to positive."
 },
 "C25": {
  "status": "proved",
  "note": "Both behaviours; constant parameters means SOC-independent RC and hysteresis values and an unchanged temperature."
 },
 "C26": {
  "status": "proved",
  "note": ""
 },
 "C27": {
  "status": "proved",
  "note": ""
 },
 "C28": {
  "status": "partial",
  "note": "For every batching pattern with sizes 1 or B: whenever the batched update returns it equals the row-by-row updates (which then return too), and it returns exactly when CanUpdate holds (times and currents unbatched, usable curves, time constants of one shape). The excluded patterns raise instead of working row by row: batched times or currents, RC elements batched differently, batched temperature factors (negations proved)."
 },
 "C29": {
  "status": "partial",
  "note": "For every batching pattern: whenever the batched voltage returns it equals the row-by-row voltages, and it returns exactly when CanVoltage holds. The excluded patterns raise instead of working row by row: batched entropic curve with unbatched reference curve, batched temperature with an unbatched SOC, batched temperature factor (negations proved)."
 },
 "C30": {
  "status": "proved",
  "note": "For every batch of linearly interpolated curves through at least two distinct pinpoints, in any order, and every column of SOC queries; a single stored value is constant."
 },
 "C31": {
  "status": "partial",
  "note": "False as stated: missing pinpoints are cached on first evaluation, after which a different number of values cannot be evaluated (C31_evaluation_breaks_later_assignment). Holds while the number of values does not change, or when pinpoints are given."
 },
 "C32": {
  "status": "proved",
  "note": "Law, reference temperature, no temperature, sign and antitonicity for every curve and cell of a batch; batched temperature factors raise (C32_batched_factor_raises); OCV is linear in temperature."
 },
 "C33": {
  "status": "proved",
  "note": "All circuits with broadcastable batches; with a temperature the reference temperature must be unbatched and the entropic term not batched alone (otherwise the code raises, C33_batched_reference_temperature_raises)."
 },
 "C34": {
  "status": "proved",
  "note": "Over the reals, for every shape; setting a Python number stores it without dimensions (C34_number_loses_dimensions)."
 },
 "C35": {
  "status": "partial",
  "note": "from_asoh, acceptance of the pair by both model functions and the circuit template hold. The raises-iff part holds for lists of currents; batched currents are counted by rows (C35_batched_currents_miscounted)."
 },
 "C36": {
  "status": "partial",
  "note": "False for the default template at every size (C36_default_elements_shared); holds when RC information is given."
 },
 "C39": {
  "status": "proved",
  "note": "For every cell model, degradation model and input list; a step that raises is covered by C40."
 },
 "C40": {
  "status": "proved",
  "note": "Also shows what a failing step does: histories stay as they were, while the current transient state and inputs may already have advanced (C40_failed_step_may_advance_state)."
 },
 "C43": {
  "status": "proved",
  "note": "For every cell model and input list."
 },
 "C41": {
  "status": "partial",
  "note": "Holds for the objects passed in and for every returned object the simulator does not keep; false for the returned transient state (it is the simulator's own object) and for the returned measurement (it is the history entry): negations C41_returned_transient_is_live, C41_returned_transient_changes_behaviour, C41_returned_measurement_changes_history."
 },
 "C42": {
  "status": "partial",
  "note": "Rows hold the right values step by step, and the batch labels are right exactly for one cell or one step (C42_labels_right_iff); the labels repeat each cell instead of cycling through cells, so datasets mix cells (C42_labels_name_wrong_cells, C42_batdata_mixes_cells)."
 },
 "C37": {
  "status": "partial",
  "note": "Every member is run with its own rows (any batching pattern, any solver), but the temperature of the transient state is never handed to the solver (C37_state_temperature_ignored); row counts that contradict each other are wrapped around instead of refused (C37_conflicting_sizes_accepted)."
 },
 "C38": {
  "status": "proved",
  "note": "For the polynomial classes of components.py; coefficient vectors must be non-empty (polyval raises otherwise)."
 },
 "C44": {
  "status": "proved",
  "note": "Gaussians of any number and dimensions (C44_combine_gaussians, C44_combine_associative) and delta distributions (C44_combine_deltas)."
 },
 "C45": {
  "status": "proved",
  "note": "Identity, scalar, one factor per coordinate and matrix operators; np.linalg.pinv is a parameter assumed to give M P M = M (satisfiable: exists_pinv)."
 },
 "C46": {
  "status": "proved",
  "note": "Every shipped operator and every first-order operator with any Jacobian, in both directions; weighted moments for scalar and matrix operators, in both directions."
 },
 "C47": {
  "status": "proved",
  "note": "Index lists in range, negative ones included; out-of-range lists raise (C47_unknown_index)."
 },
 "C48": {
  "status": "partial",
  "note": "Exact for positive definite P, Q, R, every legal tuning and every dimension; C48_exact_iff shows that with a singular covariance the points are never exact (the repair adds a vector to every row)."
 },
 "C49": {
  "status": "proved",
  "note": "For every constructed filter."
 },
 "C50": {
  "status": "proved",
  "note": "Prediction, output, gain and posterior of one step, and over every history, for positive definite covariances (singular ones: see C48)."
 },
 "C51": {
  "status": "partial",
  "note": "Predicted covariances: any model and points. Correction and whole histories: positive definite covariances and models acting on each state by itself. For a singular corrected covariance the repair makes it non-symmetric (C51_singular_correction_invalid)."
 },
 "C52": {
  "status": "partial",
  "note": "Positive definite input is returned unchanged and single numbers are repaired correctly; the repair of larger matrices is not symmetric (C52_repair_not_symmetric): the code multiplies by the 1D array of singular values."
 },
 "C53": {
  "status": "proved",
  "note": "Also AssertionError is the only error, and the constructed filter's parts."
 },
 "C54": {
  "status": "proved",
  "note": "Without extra keyword arguments (with any, step raises TypeError)."
 },
 "C55": {
  "status": "partial",
  "note": "Both round trips are proved for every tree, selection, batch size and converter with a two-sided inverse. Missing: a batch of more than one hidden row when no A-SOH parameter is selected. There the code raises, proved as C55_batch_without_parameters_raises."
 },
 "C56": {
  "status": "proved",
  "note": "For the joint, transient and A-SOH wrappers, update and prediction with converters equal the unconverted ones conjugated by the converters, for every cell model and hidden state. Unscented filters in different units (a factor and an offset per coordinate) give the same estimates over every history, and joint estimators built with and without converters from the same prior and noises return identical estimates; the latter two need models that treat every row by itself, positive definite covariances and non-negative weights."
 },
 "C57": {
  "status": "partial",
  "note": "After any history the state converted to model coordinates is the estimate last returned by step (equal to it without conversion), and get_estimated_state holds its mean. state itself is in filter coordinates: C57_state_not_converted."
 },
 "C58": {
  "status": "partial",
  "note": "state raises for every dual estimator (C58_state_always_raises); the combination described is what step returns (C58_returned_estimate_partial)."
 },
 "C59": {
  "status": "partial",
  "note": "False in the code: estimating a strict subset makes every step raise (C59_strict_subset_raises) and another order exchanges values (C59_reordered_parameters_misplaced). Proved when all updatable parameters are estimated in their own order."
 },
 "C60": {
  "status": "partial",
  "note": "Names, number and order proved for all models and selections. Distinctness needs that no selected parameter has the name of a transient field, which the package does not check (C60_names_can_clash)."
 },
 "C61": {
  "status": "proved",
  "note": ""
 },
 "C76": {
  "status": "proved",
  "note": ""
 },
 "C66": {
  "status": "proved",
  "note": "C66_timesteps_read_back and C66_file_read_back: what is appended per timestep is read back, for any writer options and history. Times are not NaN; C66_reading_ends_at_nan shows that reading ends at a step without a time."
 },
 "C67": {
  "status": "partial",
  "note": "The first step of each cycle is stored (C67_first_steps_stored), but reading stops unless cycle 0 is present: C67_nothing_read_without_cycle_zero; C67_read_back_partial covers consecutive cycles. Cycle numbers that are not whole count as the whole number towards zero (C67_fractions_cut_off), and rows without a finite cycle number are refused (C67_no_cycle_refused)."
 },
 "C68": {
  "status": "partial",
  "note": "Appends succeed as long as cycle numbers grow gradually (C68_appends_succeed_partial); a cycle number that jumps beyond one chunk raises (C68_far_cycle_raises)."
 },
 "C69": {
  "status": "partial",
  "note": "Life cycle proved; preparing again hides timesteps and a reopened writer replaces rows (C69_prepare_hides_timesteps, C69_reopened_append_replaces)."
 },
 "C62": {
  "status": "proved",
  "note": "Exact: which rows give which inputs and measurements, which raise, and the containers the estimators receive."
 },
 "C63": {
  "status": "partial",
  "note": "The code violates it: every row of the table holds the estimate of the next reading and the last row is zeros (C63_rows_shifted). Proved: one row per reading, row i is the estimate after reading i+1, for any estimator and data."
 },
 "C64": {
  "status": "partial",
  "note": "The code violates it: the _std columns hold variances (C64_variance_in_std_column). Proved: the layout of the columns and that they hold means and variances."
 },
 "C65": {
  "status": "partial",
  "note": "The code violates it: the attribute that is set is not the one the estimators use, so that the first row changes nothing (C65_first_row_ignored). Proved: the attribute is set from the first row."
 },
 "C77": {
  "status": "proved",
  "note": "For any estimator, dataset and file."
 },
 "C78": {
  "status": "proved",
  "note": "For any history."
 },
 "C79": {
  "status": "proved",
  "note": "For any estimator that works on finite data, and for all healthy joint and dual estimators."
 },
 "C80": {
  "status": "partial",
  "note": "The code violates it: dual estimators have no state and can never be stored (C80_dual_never_stored); files need a resizable writer (C80_file_needs_resizable). Proved for joint estimators, from memory and from files."
 },
 "C70": {
  "status": "proved",
  "note": "Loss of any one parameter vector over any dataset; minimize and non-finite values are outside the model."
 },
 "C71": {
  "status": "partial",
  "note": "The code holds one row of predictions, so any batch of two or more rows raises (C71_batch_raises); proved for the one-row batch."
 },
 "C72": {
  "status": "proved",
  "note": "For any minimiser (a parameter of the model)."
 },
 "C73": {
  "status": "proved",
  "note": "battdat's per-cycle integration is a parameter; NaN and infinite capacities included."
 },
 "C74": {
  "status": "proved",
  "note": ""
 },
 "C81": {
  "status": "partial",
  "note": "The code accepts such datasets, NaN < x being False (C81_no_capacity_accepted); an accepted dataset with some capacity does reach the requirement."
 },
 "C82": {
  "status": "proved",
  "note": "sort_values and LSQUnivariateSpline are parameters; finite measurements."
 },
 "C83": {
  "status": "proved",
  "note": ""
 },
 "C84": {
  "status": "partial",
  "note": "The code refuses means given as a row or a column, which the documentation admits (C84_rows_and_columns_refused). Proved exactly: what is accepted and what is stored."
 },
 "C85": {
  "status": "partial",
  "note": "The code computes J^T S J (C85_not_the_documented_rule; a non-square J raises, C85_other_dimension_raises). Proved for symmetric Jacobians, among them that of the only operator of the package that has one (AbsoluteValueConversionOperator)."
 },
 "C86": {
  "status": "partial",
  "note": "Leaving out the additive array raises AttributeError when it is given as None, which its annotation admits (C86_no_offset_raises). Proved for vectors given as offset."
 },
 "C87": {
  "status": "proved",
  "note": "Estimators whose health and transients hold one cell; joint and dual, made from wrappers or through initialize_unscented_kalman_filter; the initial covariance given whole or in two parts."
 },
 "C88": {
  "status": "partial",
  "note": "When only one of the two parts is given it is silently ignored (C88_lone_part_ignored). Proved for the joint covariance, and for both parts given."
 },
 "C89": {
  "status": "partial",
  "note": "The default 1e-8 I is taken in the coordinates of the filter, so that it changes with normalize_asoh (C89_default_noise_depends_on_units). Proved: the exact noise in model units."
 },
 "C90": {
  "status": "proved",
  "note": "Row by row for all batches; of the new inputs the temperature never matters."
 },
 "C91": {
  "status": "partial",
  "note": "Every ramp from a charging current to rest or below, and every ramp starting at rest, gives another value than the solution (C91_ramp_down_not_exact, C91_ramp_from_rest_not_exact): the exponent has the wrong sign when a falling ramp ends at zero, and the target is zero when the ramp starts at zero. Proved: exact under constant behavior for rest and currents above 1e-8 A, and for all other ramps, zero crossings from below included."
 },
 "C92": {
  "status": "partial",
  "note": "With a degradation model the wrapper degrades the health with the previous inputs, the transient states before the update and the measurement belonging to them (model.py:375-383), one step behind Simulator.step: C92_degradation_lags. Proved: the whole simulation for histories of any length when nothing degrades, and exactly what is degraded with what otherwise."
 },
 "C93": {
  "status": "proved",
  "note": "Transient filter for any degradation model of the simulator; health filter's prediction for any hidden health; its update without degradation."
 },
 "C94": {
  "status": "proved",
  "note": "Exact condition for making a circuit, contents of the fresh state, its voltage, and runs of any length with any solver."
 },
 "C95": {
  "status": "partial",
  "note": "The code violates it: pinpoints of interpolated parameters are written as a list but cannot be read (no validator), and they are filled in by every evaluation (C95_evaluation_makes_unreadable); the polynomials of Thevenin circuits are not written at all (C95_thevenin_coefficients_lost). Proved exactly: objects of their annotated classes are read back if and only if no pinpoints are set; transient states always are."
 },
 "C96": {
  "status": "proved",
  "note": "For every cell of a batch, every division of the rest into steps and both current behaviours: decay law, voltage formula and limit. Reals; positive time constants for the limit."
 },
 "C97": {
  "status": "proved",
  "note": "Equality of the returned arrays or errors, for the equivalent circuit (one step, any history, voltage) and the Thevenin model (any solver)."
 },
 "C98": {
  "status": "proved",
  "note": "Equality of the returned arrays of any two steps that succeed and agree in the named quantities; for whole histories, circuits differing in OCV, R0 and C0 give the same states (or errors)."
 },
 "C99": {
  "status": "partial",
  "note": "Proved under constant behaviour over any history. Under linear behaviour the code violates it: a ramp from rest over more than one time constant ends with more RC current than was ever applied (C99_ramp_overshoots); the range widened by its width on both sides is kept (C99_linear_range_partial)."
 },
 "C100": {
  "status": "proved",
  "note": ""
 },
 "C101": {
  "status": "proved",
  "note": ""
 },
 "C102": {
  "status": "proved",
  "note": "For one hidden state the update can return for other choices too. That some choices are ruled out is a limitation of the code: C102_not_estimable shows one, R0's temperature factor with measured temperatures, for which every update raises."
 },
 "C103": {
  "status": "proved",
  "note": "C103_circuit_estimator_runs: constant currents. C103_ramped_circuit_estimator_runs: linearly changing currents, if the time differs between any two consecutive inputs (at equal times the code divides by zero). Non-vanishing divisors are a hypothesis, which excludes estimating the capacity, the RC values or the series capacitance as unrestricted numbers."
 },
 "C104": {
  "status": "proved",
  "note": "Any circuit, batch size and units; the templates hold one cell."
 },
 "C105": {
  "status": "proved",
  "note": "Any circuit, choice of parameters, batch size and units; the template holds one cell and no degradation model is used."
 },
 "C106": {
  "status": "partial",
  "note": "C106_dual_circuit_runs_partial (constant currents) and C106_ramped_dual_circuit_runs_partial (linearly changing ones, at changing times): holds if all updatable parameters are estimated and one of them takes part in the voltage after all inputs. Otherwise not: where no estimated parameter takes part in the voltage – the Coulombic efficiency alone while discharging, temperature factors without a temperature, for instance – the predictions are a single row, adding the sensor noise of all points to it in place raises, and so does the first step of every such estimator (C106_unreached_raises, under both behaviours)."
 },
 "C107": {
  "status": "partial",
  "note": "C107_joint_from_data: joint estimation, for every choice of parameters that batches can be computed for. C107_dual_from_data_partial: dual estimation, if one of the updatable parameters takes part in the voltage after all inputs; otherwise every step raises (C106_unreached_raises). C107_joint_stored_partial, C107_joint_stored_from_file_partial: with a writer, as far as C80 holds. C107_ramped_joint_from_data, C107_ramped_dual_from_data_partial, C107_ramped_joint_stored_partial, C107_ramped_joint_stored_from_file_partial: the same under linearly changing currents, if no two consecutive rows (the template of the inputs in place of the first row) have the same time; at equal times the code divides by zero."
 },
 "C108": {
  "status": "partial",
  "note": "Holds if the inputs given at initialization have a temperature: C108_joint_temperature_used_partial, C108_dual_temperature_used_partial. Otherwise not: without one – the default of ECMInput – the template of the inputs drops the third value, and two datasets that differ in their temperatures only give the same table and stored estimates, or the same exception, for every cell model (C108_joint_temperature_ignored, C108_dual_temperature_ignored)."
 },
 "C109": {
  "status": "partial",
  "note": "Proved for outputs: C109_output_names, C109_joint_outputs, C109_dual_outputs. For controls it holds as long as all inputs have as many values as the initial ones: C109_control_names_partial, C109_dual_control_names_partial. Otherwise not: rows of data always give a temperature (25 where there is none), so after one of them the filters of an estimator whose initial inputs have no temperature hold three controls, while control_names has two names: C109_joint_controls_outnumber_names, C109_dual_controls_outnumber_names."
 },
 "C110": {
  "status": "partial",
  "note": "Proved for get_parameters, with the exceptions: C110_get_parameters_refuses, C110_get_parameters_raises. expand_names raises exactly for names that cannot be followed, with the exception told by the reason (C110_expand_names_refuses_partial), but what follows the name of a parameter is not looked at: for 'r0.anything' it returns labels, though get_parameters raises for that name (C110_surplus_segments_accepted). C110_labels_as_given: names with positions counted from the end are labelled as given."
 },
 "C111": {
  "status": "proved",
  "note": "C111_other_keys_untouched, C111_read_back_after_another_writer, C111_path_of_default_key, C111_path_of_other_key. Keys are names of groups directly below the root."
 },
 "C112": {
  "status": "proved",
  "note": "C112_straight, C112_cell_affine, C112_step, C112_history, C112_dual_step. The wrapper works in the coordinates of the model (identity converters)."
 },
 "C113": {
  "status": "partial",
  "note": "Proved for set_value, with the exceptions: C113_set_value_raises. mark_updatable raises exactly for names that are lost before their last segment (C113_mark_raises_partial), but the last segment is not looked at: marking a misspelt parameter raises nothing (C113_mark_unknown_accepted) and, for the attributes of the object itself, leaves the updatable parameters as they were (C113_misspelt_without_effect)."
 },
 "C114": {
  "status": "proved",
  "note": "noise-free voltages; Spec.cellRun iterates the cell of Spec.EcmCell, which the filter's model computes by C104 and C112"
 },
 "C115": {
  "status": "proved",
  "note": "batches: whenever evolve returns; when it does for batched parameters is the subject of C28 and C29"
 },
 "C116": {
  "status": "proved",
  "note": "Disturbances are any vectors, entering after the model's own update and output. The size of an error e in units of a covariance P is e·P⁻¹e (spec `misfit`); C116_directions says that a bound on it is the same as one on every direction, C116_each what it says about each number. Exact arithmetic."
 },
 "C117": {
  "status": "partial",
  "note": "The tables are the same (C117_same_tables). The code violates the rest: the names described are those before renaming, so that time and terminal_voltage are described, which are no columns, and test_time and voltage are not (C117_renamed_columns_not_described); and transient states and measurements are called inputs (the variable tag is not used). Proved: all other columns are described, and the exact descriptions (C117_descriptions_partial)."
 },
 "C118": {
  "status": "proved",
  "note": ""
 },
 "C119": {
  "status": "partial",
  "note": "The bound of 10 mV holds for a Coulombic efficiency of 1, exactly 10 mV per full charge (C119_capacitor_impact_partial); for any efficiency below 1 cycling within SOC 0 to 1 charges the capacitor beyond every voltage (C119_capacitor_exceeds_any_bound)."
 },
 "C120": {
  "status": "proved",
  "note": "C120_affine and C120_circuit: same covariances, and differences bounded by the product of the fractions carried over; C120_never_apart: the fractions may be taken to be 1; C120_affine_geometric and C120_circuit_geometric: geometric decay under the observability condition, shown satisfiable for a model with growing modes and for the concrete circuit."
 },
 "C121": {
  "status": "partial",
  "note": "All of it holds for RC currents, series capacitors and SOC. The hysteresis difference has the closed form under the constant behaviour and under linear currents, except for ramps from charging down to zero or below, where it can grow (C121_hysteresis_violated)."
 },
 "C122": {
  "status": "partial",
  "note": "Series connection holds fully. Parallel connection holds unless a step starts with a current of at most 1e-8 A that is not zero, where the asymptote of the hysteresis is not normalised (C122_parallel_violated)."
 },
 "C123": {
  "status": "proved",
  "note": "Circuits whose parameters can be evaluated (one value, or one per pinpoint), single cells; columns and rows as literal lists. Batches of cells: C42 and C115."
 },
 "C124": {
  "status": "proved",
  "note": "Affine models and circuits with straight curves (see C112)."
 },
 "C125": {
  "status": "proved",
  "note": "Affine models (one step) and circuits with straight curves (every step of a history)."
 },
 "C126": {
  "status": "proved",
  "note": "For estimators made by initialize_unscented_kalman_filter, without a writer."
 },
 "C127": {
  "status": "proved",
  "note": "Any number of RC elements; batches of any size (member by member, runs of both circuits that succeed). C127_merge is stated for the first two elements; with C127_order these can be any two."
 },
 "C128": {
  "status": "proved",
  "note": "Both estimators in any state, dataset in memory or in a file, any cut. C128_without_overlap says what happens if the parts do not share a row."
 },
 "C129": {
  "status": "proved",
  "note": "Every estimator, with or without a writer, errors included."
 },
 "C130": {
  "status": "proved",
  "note": "C130_dual_in_any_units is about the dual estimator in any units (its joint counterpart is C56_joint_estimates_in_any_units); C130_joint_normalization and C130_dual_normalization are about circuits and datasets. Without a given process noise the estimates do depend on normalize_asoh, see C89."
 },
 "C131": {
  "status": "proved",
  "note": "Interpolants other than the linear one only if they are weighted sums of the values (SciPy's are external). Parameters in the units of the model; C130 relates other units. Histories under constant currents."
 },
 "C132": {
  "status": "proved",
  "note": "In the coordinates of the model; C130 relates other units. All updatable parameters are estimated and one of them reaches the voltage after every input (otherwise the step raises, C106)."
 },
 "C133": {
  "status": "proved",
  "note": "Curves with more values make the system bilinear; then the filter is not a Kalman filter. In other units than the model's for constant currents and tunings without negative weights (C56)."
 },
 "C134": {
  "status": "proved",
  "note": "The prediction of the estimator is compared with the reported variance of the voltage; disturbed cells with drifting parameters in C134_bounded."
 },
 "C135": {
  "status": "proved",
  "note": "Ways of states and parameters, where parameters may drift at the cost of the process noise."
 },
 "C136": {
  "status": "proved",
  "note": "last update counts, several calls or one, any order; one row is needed for the first claim (witness C136_not_after_two_rows)"
 },
 "C137": {
  "status": "proved",
  "note": "the model does not depend on the values (any cell); merging of the estimates on circuits of C133, each step by a factor less than one"
 },
 "C138": {
  "status": "proved",
  "note": "C138_loss: existence and value of the loss for all states and parameter values; temperatures of the rows, or 25 degrees. Times of the rows change under linear behaviour."
 },
 "C139": {
  "status": "partial",
  "note": "Holds if the inputs have temperatures, or if the circuit is at 25 degrees what it is without a temperature (C139_simulated_fit_partial). Without temperatures the loss evaluates the circuit at 25 degrees although it was simulated without temperature correction; with another reference temperature the truth has a positive loss, for datasets of every length (C139_not_without_temperature)."
 },
 "C140": {
  "status": "proved",
  "note": "C140_least_squares, C140_convex; C140_estimate_best and C140_simulated assume that SciPy returns a point that is no worse than its neighbours (LocalSearch; an optimiser that satisfies it is given). For the last claim without temperatures, the restriction of C139."
 },
 "C141": {
  "status": "proved",
  "note": "For every estimator of the interface: the run without a file or without a table is determined by the one with it (C141_file_is_a_spectator, C141_table_is_a_spectator). C141_files_of_parts is about what read_state_estimates yields from three files. C141_same_file_refused: the writer returned by a run ends the next one in an error, whatever its estimator and data."
 },
 "C142": {
  "status": "proved",
  "note": "runFile follows the same code as runOnline and also returns the writer if it raises (C142_same_run). C142_interrupted: a failure at a given row. C142_any_end: every way of ending; if the cycle of a row is refused (C68) after its estimate was stored, that estimate is in the file, too."
 },
 "C143": {
  "status": "partial",
  "note": "Holds for everything but the parameters that are not estimated: the caller may change the covariances, returned objects, arguments of earlier calls, and the estimated values in the state of health, transient state and inputs they built the estimator from (C143_joint_isolated_partial, C143_dual_isolated_partial). False for fixed parameters: the wrappers keep the caller's own objects (utils/model.py:68-71) although the estimator and the filter copy theirs, so changing a fixed parameter of that state of health changes later estimates (C143_fixed_parameter_is_live). What is returned in general: the templates are read anew at every call (C143_joint_follows, C143_dual_follows)."
 },
 "C144": {
  "status": "proved",
  "note": "For the unscented filter with any affine model (C144_affine), circuits with known parameters (C144_circuit), the filter of joint estimators (C144_joint) and joint estimators as built by initialize_ukf_from_wrapper, in native and in any other units (C144_estimator, C144_any_units; the latter for constant behaviour). C144_predictions: errors of predictions in different steps are uncorrelated. C144_misfit: the mean squared error in units of the reported covariance is the number of estimated numbers. C144_possible: such noise exists for all covariances."
 },
 "C145": {
  "status": "proved",
  "note": "Densities are combined by Bayes' rule step by step (Spec.bayes, cellBayes, jointBayes); the corresponding statement on probability spaces is C146. C145_any_units is for constant behaviour. C145_unique: no other estimate and covariance are those of the conditional distribution."
 },
 "C146": {
  "status": "proved",
  "note": "For the unscented filter with any affine model (C146_affine), circuits with known parameters (C146_circuit), the filter of joint estimators (C146_joint) and joint estimators as built by initialize_ukf_from_wrapper, in native and in any other units (C146_estimator, C146_any_units; the latter for constant behaviour). C146_within: probabilities of being within c standard deviations, given any set of measurements. C146_possible: such noise exists for all covariances."
 },
 "C147": {
  "status": "proved",
  "note": "For any model of this kind (C147_predicts: the prediction and what a step returns), circuits (C147_quadratic: states affine, voltages quadratic), any history (C147_history) and joint estimators as built by initialize_ukf_from_wrapper, in native and in any other units (C147_runs, C147_any_units; the latter for constant behaviour). C147_possible: such random states exist for all covariances."
 },
 "C148": {
  "status": "proved",
  "note": "LSQUnivariateSpline is a parameter that returns a best fitting cubic spline or raises; shown satisfiable. Values at SOC points for linear interpolation; any least squares fit and sorting."
 },
 "C149": {
  "status": "partial",
  "note": "Proved for constant behaviour (C149_more_current_partial), and for both behaviours if the inputs are the same (C149_same_inputs_partial). Violated under linear behaviour: the code's formula for the RC currents takes the current at the end of the ramp where the one at its start belongs (see C22), so the cell that had more current before always has less RC current afterwards (C149_linear_reversed), and shows the lower voltage if its open-circuit voltage is flat and it has no hysteresis (C149_linear_voltage_falls). Currents of at most 1e-8 A other than 0 are left out, as the hysteresis target is not normalised there."
 },
 "C150": {
  "status": "proved",
  "note": "Currents of at most 1e-8 A other than 0 are left out on both clocks, as the hysteresis target is not normalised there (see C122)."
 },
 "C151": {
  "status": "partial",
  "note": "Isothermal cells: simulations of any length end at the solution of the equations (C151_follows_equations_partial; solutions exist by C151_course_exists), count the charge (C151_charge) and do not depend on how a step is split (C151_split). A single step with free temperature, from a state at ambient temperature and with resistances and capacitances that depend on the SOC only, is exact too (C151_warm_step_partial). Violated if the temperature is free: the temperature of the state is never handed to the solver (see C37), so the heat of a step is lost at the next and two steps of 1 s end at another temperature than one of 2 s (C151_heat_lost). The solver is a parameter assumed exact on the package's equations; such a solver exists (C151_solver_possible). The equations and the initial temperature (ambient) are assumptions about the package, whose source is not available here."
 },
 "C152": {
  "status": "proved",
  "note": "Isothermal cells; the solver is a parameter assumed exact on the package's equations, as in C151, where such a solver is shown to exist."
 },
 "C153": {
  "status": "proved",
  "note": "Isothermal cells; the solver is a parameter assumed exact on the package's equations, as in C151, where such a solver is shown to exist."
 },
 "C154": {
  "status": "proved",
  "note": "Isothermal cells; the solver is a parameter assumed exact on the package's equations, as in C151, where such a solver is shown to exist."
 },
 "C155": {
  "status": "partial",
  "note": "Overpotentials always agree, and the differences of SOC and voltage are given exactly (C155_gap); if every change of the current has an input of its own, at the time of the input before, both models agree in everything (C155_agree_partial). In general they do not (C155_disagree): during a step the equivalent circuit charges the cell with the current of the previous input, and moves its RC currents towards that of the new input, while the Thevenin model uses the new input's current for both. A cell of 1 Ah at rest for which 1 A is reported 36 s later has gained 1 % SOC in one model and nothing in the other."
 },
 "C156": {
  "status": "proved",
  "note": "For isothermal models, and exact solvers (assumption ExactSolver, satisfiable by C151_solver_possible). k = 1 gives that only durations count, not the times at which they begin."
 },
 "C157": {
  "status": "proved",
  "note": "For isothermal models, and exact solvers (assumption ExactSolver, satisfiable by C151_solver_possible). The end of a run is any moment of a longer one."
 },
 "C158": {
  "status": "proved",
  "note": "The circuit needs an input for either side of the jump, as it charges the cell with the previous input's current; the Thevenin model needs only the one at the end of the pulse. Under linear behaviour a jump cannot be expressed: the slope would be divided by a duration of zero."
 },
 "C159": {
  "status": "proved",
  "note": "C159_superposition for the equivalent circuit (both behaviours of the current, steps without duration excluded for the linear one) and C159_thevenin_superposition for isothermal Thevenin cells, both for any batch, number of RC elements and number of inputs. A Coulombic efficiency below 1, hysteresis and parameters that depend on the SOC are left out because they make a cell nonlinear."
 }
}