{
 "claims": [
  {
   "property": "C01",
   "status": "proved",
   "theorems": [
    "Verif.C01_name_addresses_its_parameter",
    "Verif.C01_iteration_yields_parameters",
    "Verif.C01_dotted_key_unreachable",
    "Verif.C01_list_member_unreachable"
   ],
   "note": "Objects with dictionary keys without dots and collections held in tuples/dicts; the two C01_*_unreachable theorems show the restriction is needed."
  },
  {
   "property": "C02",
   "status": "proved",
   "theorems": [
    "Verif.C02_names_distinct",
    "Verif.C02_dotted_key_collision"
   ],
   "note": "Same class of objects; C02_dotted_key_collision shows keys with dots must be excluded."
  },
  {
   "property": "C03",
   "status": "proved",
   "theorems": [
    "Verif.C03_update_then_get",
    "Verif.C03_update_then_get_exact",
    "Verif.C03_make_copy_then_get",
    "Verif.C03_conflicting_batch_accepted"
   ],
   "note": "C03_update_then_get: whenever the object still has a batch size; C03_update_then_get_exact: when the other parameters have one row. C03_conflicting_batch_accepted shows what happens otherwise."
  },
  {
   "property": "C04",
   "status": "partial",
   "theorems": [
    "Verif.C04_get_then_update_partial",
    "Verif.C04_batched_round_trip_raises",
    "Verif.C04_fails_on_batched_object"
   ],
   "note": "Holds for unbatched objects (identity of the whole object). False for batched parameters: np.size counts rows times columns (C04_batched_round_trip_raises for every batched parameter)."
  },
  {
   "property": "C05",
   "status": "proved",
   "theorems": [
    "Verif.C05_untouched"
   ],
   "note": "Names of parameters, any outcome, repeated names allowed."
  },
  {
   "property": "C06",
   "status": "proved",
   "theorems": [
    "Verif.C06_accepts_exactly_legal",
    "Verif.C06_batched_requirement"
   ],
   "note": "Also the exact condition on batched objects (C06_batched_requirement)."
  },
  {
   "property": "C07",
   "status": "proved",
   "theorems": [
    "Verif.C07_fixed_never_change"
   ],
   "note": "Sequences of calls naming parameters. Naming a sub-model destroys fixed parameters: see C75."
  },
  {
   "property": "C08",
   "status": "partial",
   "theorems": [
    "Verif.C08_rejected_update_changes_object",
    "Verif.C08_too_many_columns_changes_object",
    "Verif.C08_rejected_writes_prefix_partial"
   ],
   "note": "False: a rejected call can leave a prefix of the blocks written (two witnesses). The partial theorem says a prefix of the blocks is written and nothing else, and nothing at all if the first name is refused."
  },
  {
   "property": "C09",
   "status": "proved",
   "theorems": [
    "Verif.C09_fixed_then_marked",
    "Verif.C09_without_recursion",
    "Verif.C09_mark_all_updatable",
    "Verif.C09_mark_all_fixed",
    "Verif.C09_mark_updatable",
    "Verif.C09_mark_updatable_may_expose_others"
   ],
   "note": "Including the recursive and non-recursive versions of mark_all_fixed and mark_all_updatable, and the choice of parameters by fixing all and marking some."
  },
  {
   "property": "C10",
   "status": "proved",
   "theorems": [
    "Verif.C10_updatable_names_are_marked_names_in_order",
    "Verif.C10_layout_independent_of_marking_history"
   ],
   "note": "Order of all_names; layout depends on the marked set only."
  },
  {
   "property": "C11",
   "status": "proved",
   "theorems": [
    "Verif.C11_one_label_per_column",
    "Verif.C11_whole_submodel"
   ],
   "note": "Any list of parameter names (one label per column, in column order, distinct) and the names of sub-models and collections at any depth."
  },
  {
   "property": "C12",
   "status": "proved",
   "theorems": [
    "Verif.C12_batch_size",
    "Verif.C12_vector_has_batch_rows",
    "Verif.C12_zero_rows_order_dependent"
   ],
   "note": "For arrays with at least one row; C12_zero_rows_order_dependent shows zero-row arrays must be excluded."
  },
  {
   "property": "C13",
   "status": "proved",
   "theorems": [
    "Verif.C13_set_value_scalar",
    "Verif.C13_set_value_list"
   ],
   "note": "set_value decides between scalar and list form by the current width, so a list parameter holding one number is treated as a scalar; values of rank above 2 for wider parameters are outside the model."
  },
  {
   "property": "C14",
   "status": "proved",
   "theorems": [
    "Verif.C14_from_numpy_then_to_numpy",
    "Verif.C14_to_numpy_then_from_numpy"
   ],
   "note": "Containers with at least one value present (to_numpy raises otherwise)."
  },
  {
   "property": "C15",
   "status": "proved",
   "theorems": [
    "Verif.C15_length_width_names"
   ],
   "note": ""
  },
  {
   "property": "C16",
   "status": "partial",
   "theorems": [
    "Verif.C16_wrong_widths_accepted",
    "Verif.C16_wrong_width_effect_partial"
   ],
   "note": "False: no width is ever rejected. The partial theorem says exactly what happens to surplus and missing columns."
  },
  {
   "property": "C17",
   "status": "proved",
   "theorems": [
    "Verif.C17_circuit_scalar",
    "Verif.C17_scalar",
    "Verif.C17_list",
    "Verif.C17_other",
    "Verif.C17_idempotent"
   ],
   "note": "Any rank and shape."
  },
  {
   "property": "C18",
   "status": "proved",
   "theorems": [
    "Verif.Cell.C18_coulomb_counting_constant",
    "Verif.Cell.C18_coulomb_counting_linear"
   ],
   "note": "Array-level update, any batch size, any input sequence; linear behaviour needs distinct consecutive times."
  },
  {
   "property": "C19",
   "status": "partial",
   "theorems": [
    "Verif.Cell.C19_efficiency_rule",
    "Verif.Cell.C19_never_gains_constant",
    "Verif.Cell.C19_charge_then_discharge",
    "Verif.Cell.C19_never_gains_linear_partial",
    "Verif.Cell.C19_linear_gains"
   ],
   "note": "One-step rule and 'never gains' proved for constant behaviour over any history; under linear behaviour the second part is false (C19_linear_gains) and proved when no step starting with a non-negative current has a negative net charge."
  },
  {
   "property": "C20",
   "status": "proved",
   "theorems": [
    "Verif.Cell.C20_series_capacitor_charge"
   ],
   "note": "Any behaviour, any history, any batch size."
  },
  {
   "property": "C21",
   "status": "proved",
   "theorems": [
    "Verif.Cell.C21_rc_exact_constant",
    "Verif.Cell.C21_solution_exists",
    "Verif.Cell.C21_rc_between"
   ],
   "note": "Unique solution of the ODE (existence shown), betweenness and contraction factor; any number of RC elements, any batch."
  },
  {
   "property": "C22",
   "status": "partial",
   "theorems": [
    "Verif.Cell.C22_rc_linear_excess_partial",
    "Verif.Cell.C22_rc_linear_flat_partial",
    "Verif.Cell.C22_not_exact",
    "Verif.Cell.C22_counterexample"
   ],
   "note": "False: the excess over the exact solution is exactly (1-exp(-dt/tau))(I_new-I_prev); never exact when the current changes (C22_not_exact)."
  },
  {
   "property": "C23",
   "status": "partial",
   "theorems": [
    "Verif.Cell.C23_convex_partial",
    "Verif.Cell.C23_envelope_constant",
    "Verif.Cell.C23_monotone_approach",
    "Verif.Cell.C23_tiny_current_moves_away"
   ],
   "note": "Envelope for all currents; convexity and monotone approach for I=0 or |I|>1e-8 A; below 1e-8 A the code uses M*I as target and convexity fails (C23_tiny_current_moves_away)."
  },
  {
   "property": "C24",
   "status": "partial",
   "theorems": [
    "Verif.Cell.C24_envelope_linear_partial",
    "Verif.Cell.C24_envelope_violated"
   ],
   "note": "False for ramps from a positive current to zero or below (C24_envelope_violated); proved for all other ramps, including negative through zero to positive."
  },
  {
   "property": "C25",
   "status": "proved",
   "theorems": [
    "Verif.Cell.C25_split_step"
   ],
   "note": "Both behaviours; constant parameters means SOC-independent RC and hysteresis values and an unchanged temperature."
  },
  {
   "property": "C26",
   "status": "proved",
   "theorems": [
    "Verif.Cell.C26_zero_step"
   ],
   "note": ""
  },
  {
   "property": "C27",
   "status": "proved",
   "theorems": [
    "Verif.Cell.C27_voltage_sum",
    "Verif.Cell.C27_rest_is_ocv",
    "Verif.Cell.C27_absent_terms"
   ],
   "note": ""
  },
  {
   "property": "C28",
   "status": "partial",
   "theorems": [
    "Verif.Cell.C28_update_row_by_row_partial",
    "Verif.Cell.C28_history_row_by_row_partial",
    "Verif.Cell.C28_update_returns_partial",
    "Verif.Cell.C28_batched_current_raises",
    "Verif.Cell.C28_mixed_rc_raises",
    "Verif.Cell.C28_batched_temperature_factor_raises",
    "Verif.Cell.C28_update_returns_iff_partial"
   ],
   "note": "For every batching pattern with sizes 1 or B: whenever the batched update returns it equals the row-by-row updates (which then return too), and it returns exactly when CanUpdate holds (times and currents unbatched, usable curves, time constants of one shape). The excluded patterns raise instead of working row by row: batched times or currents, RC elements batched differently, batched temperature factors (negations proved)."
  },
  {
   "property": "C29",
   "status": "partial",
   "theorems": [
    "Verif.Cell.C29_voltage_row_by_row_partial",
    "Verif.Cell.C29_voltage_returns_partial",
    "Verif.Cell.C29_batched_entropy_raises",
    "Verif.Cell.C29_batched_temperature_factor_raises",
    "Verif.Cell.C29_voltage_returns_iff_partial"
   ],
   "note": "For every batching pattern: whenever the batched voltage returns it equals the row-by-row voltages, and it returns exactly when CanVoltage holds. The excluded patterns raise instead of working row by row: batched entropic curve with unbatched reference curve, batched temperature with an unbatched SOC, batched temperature factor (negations proved)."
  },
  {
   "property": "C30",
   "status": "proved",
   "theorems": [
    "Verif.C30_value_at_pinpoint",
    "Verif.C30_linear_between_pinpoints",
    "Verif.C30_between_neighbouring_values",
    "Verif.C30_continues_below",
    "Verif.C30_continues_above",
    "Verif.C30_order_of_pinpoints_irrelevant",
    "Verif.C30_single_value_everywhere",
    "Verif.C30_evaluates"
   ],
   "note": "For every batch of linearly interpolated curves through at least two distinct pinpoints, in any order, and every column of SOC queries; a single stored value is constant."
  },
  {
   "property": "C31",
   "status": "partial",
   "theorems": [
    "Verif.Interp.C31_evaluation_breaks_later_assignment",
    "Verif.Interp.C31_no_lasting_effect_partial",
    "Verif.Interp.C31_no_lasting_effect_with_pinpoints_partial"
   ],
   "note": "False as stated: missing pinpoints are cached on first evaluation, after which a different number of values cannot be evaluated (C31_evaluation_breaks_later_assignment). Holds while the number of values does not change, or when pinpoints are given."
  },
  {
   "property": "C32",
   "status": "proved",
   "theorems": [
    "Verif.Ecm.C32_no_temperature",
    "Verif.Ecm.C32_exponential_law",
    "Verif.Ecm.C32_batched_factor_raises",
    "Verif.Ecm.C32_at_reference_temperature",
    "Verif.Ecm.C32_keeps_sign",
    "Verif.Ecm.C32_antitone",
    "Verif.Ecm.C32_ocv_linear_law"
   ],
   "note": "Law, reference temperature, no temperature, sign and antitonicity for every curve and cell of a batch; batched temperature factors raise (C32_batched_factor_raises); OCV is linear in temperature."
  },
  {
   "property": "C33",
   "status": "proved",
   "theorems": [
    "Verif.Cell.C33_order_of_limits_irrelevant",
    "Verif.Cell.C33_between_extreme_voltages",
    "Verif.Cell.C33_exact_for_affine_voltage",
    "Verif.Cell.C33_linear_in_capacity",
    "Verif.Cell.C33_one_energy_per_cell",
    "Verif.Cell.C33_succeeds",
    "Verif.Cell.C33_batched_reference_temperature_raises"
   ],
   "note": "All circuits with broadcastable batches; with a temperature the reference temperature must be unbatched and the entropic term not batched alone (otherwise the code raises, C33_batched_reference_temperature_raises)."
  },
  {
   "property": "C34",
   "status": "proved",
   "theorems": [
    "Verif.Cell.C34_value_round_trip",
    "Verif.Cell.C34_amp_hour",
    "Verif.Cell.C34_number_loses_dimensions"
   ],
   "note": "Over the reals, for every shape; setting a Python number stores it without dimensions (C34_number_loses_dimensions)."
  },
  {
   "property": "C35",
   "status": "partial",
   "theorems": [
    "Verif.Cell.C35_state_fits_circuit",
    "Verif.Cell.C35_pair_accepted",
    "Verif.Cell.C35_raises_iff_count_differs_partial",
    "Verif.Cell.C35_batched_currents_miscounted",
    "Verif.Cell.C35_circuit_template",
    "Verif.Cell.C35_template_evaluable"
   ],
   "note": "from_asoh, acceptance of the pair by both model functions and the circuit template hold. The raises-iff part holds for lists of currents; batched currents are counted by rows (C35_batched_currents_miscounted)."
  },
  {
   "property": "C36",
   "status": "partial",
   "theorems": [
    "Verif.Ecm.Objects.C36_default_elements_shared",
    "Verif.Ecm.Objects.C36_given_elements_independent_partial"
   ],
   "note": "False for the default template at every size (C36_default_elements_shared); holds when RC information is given."
  },
  {
   "property": "C37",
   "status": "partial",
   "theorems": [
    "Verif.Thevenin.C37_member_runs_alone_partial",
    "Verif.Thevenin.C37_single_cell",
    "Verif.Thevenin.C37_state_temperature_ignored",
    "Verif.Thevenin.C37_conflicting_sizes_accepted"
   ],
   "note": "Every member is run with its own rows (any batching pattern, any solver), but the temperature of the transient state is never handed to the solver (C37_state_temperature_ignored); row counts that contradict each other are wrapped around instead of refused (C37_conflicting_sizes_accepted)."
  },
  {
   "property": "C38",
   "status": "proved",
   "theorems": [
    "Verif.Thevenin.C38_soc_polynomial",
    "Verif.Thevenin.C38_soc_temp_polynomial",
    "Verif.Thevenin.C38_soc_whole_batch",
    "Verif.Thevenin.C38_soc_temp_whole_batch",
    "Verif.Thevenin.C38_voltage"
   ],
   "note": "For the polynomial classes of components.py; coefficient vectors must be non-empty (polyval raises otherwise)."
  },
  {
   "property": "C39",
   "status": "proved",
   "theorems": [
    "Verif.C39_history_faithful"
   ],
   "note": "For every cell model, degradation model and input list; a step that raises is covered by C40."
  },
  {
   "property": "C40",
   "status": "proved",
   "theorems": [
    "Verif.C40_evolve_append",
    "Verif.C40_history_invisible",
    "Verif.C40_failed_step_keeps_history",
    "Verif.C40_failed_evolve_keeps_history",
    "Verif.C40_failed_step_may_advance_state"
   ],
   "note": "Also shows what a failing step does: histories stay as they were, while the current transient state and inputs may already have advanced (C40_failed_step_may_advance_state)."
  },
  {
   "property": "C41",
   "status": "partial",
   "theorems": [
    "Verif.SimObjects.C41_isolated_partial",
    "Verif.SimObjects.C41_returned_transient_is_live",
    "Verif.SimObjects.C41_returned_transient_changes_behaviour",
    "Verif.SimObjects.C41_returned_measurement_changes_history"
   ],
   "note": "Holds for the objects passed in and for every returned object the simulator does not keep; false for the returned transient state (it is the simulator's own object) and for the returned measurement (it is the history entry): negations C41_returned_transient_is_live, C41_returned_transient_changes_behaviour, C41_returned_measurement_changes_history."
  },
  {
   "property": "C42",
   "status": "partial",
   "theorems": [
    "Verif.C42_rows_partial",
    "Verif.C42_labels_right_iff",
    "Verif.C42_batdata_contents_partial",
    "Verif.C42_batdata_single_cell_partial",
    "Verif.C42_labels_name_wrong_cells",
    "Verif.C42_batdata_mixes_cells",
    "Verif.C42_rectangular",
    "Verif.C42_needs_history"
   ],
   "note": "Rows hold the right values step by step, and the batch labels are right exactly for one cell or one step (C42_labels_right_iff); the labels repeat each cell instead of cycling through cells, so datasets mix cells (C42_labels_name_wrong_cells, C42_batdata_mixes_cells)."
  },
  {
   "property": "C43",
   "status": "proved",
   "theorems": [
    "Verif.C43_no_degradation"
   ],
   "note": "For every cell model and input list."
  },
  {
   "property": "C44",
   "status": "proved",
   "theorems": [
    "Verif.C44_combine_gaussians",
    "Verif.C44_combine_associative",
    "Verif.C44_combine_deltas"
   ],
   "note": "Gaussians of any number and dimensions (C44_combine_gaussians, C44_combine_associative) and delta distributions (C44_combine_deltas)."
  },
  {
   "property": "C45",
   "status": "proved",
   "theorems": [
    "Verif.C45_identity_round_trip",
    "Verif.C45_scalar_round_trip",
    "Verif.C45_injective_there_and_back",
    "Verif.C45_surjective_back_and_there",
    "Verif.C45_matrix_round_trip",
    "Verif.C45_factors_round_trip",
    "Verif.C45_samples_round_trip"
   ],
   "note": "Identity, scalar, one factor per coordinate and matrix operators; np.linalg.pinv is a parameter assumed to give M P M = M (satisfiable: exists_pinv)."
  },
  {
   "property": "C46",
   "status": "proved",
   "theorems": [
    "Verif.C46_covariances_stay_valid",
    "Verif.C46_moments_of_converted_samples",
    "Verif.C46_moments_of_unconverted_samples",
    "Verif.C46_moments_of_scaled_samples"
   ],
   "note": "Every shipped operator and every first-order operator with any Jacobian, in both directions; weighted moments for scalar and matrix operators, in both directions."
  },
  {
   "property": "C47",
   "status": "proved",
   "theorems": [
    "Verif.C47_absolute_value",
    "Verif.C47_identity_on_admissible",
    "Verif.C47_variances_preserved",
    "Verif.C47_unknown_index"
   ],
   "note": "Index lists in range, negative ones included; out-of-range lists raise (C47_unknown_index)."
  },
  {
   "property": "C48",
   "status": "partial",
   "theorems": [
    "Verif.Ukf.C48_points_exact_partial",
    "Verif.Ukf.C48_exact_iff"
   ],
   "note": "Exact for positive definite P, Q, R, every legal tuning and every dimension; C48_exact_iff shows that with a singular covariance the points are never exact (the repair adds a vector to every row)."
  },
  {
   "property": "C49",
   "status": "proved",
   "theorems": [
    "Verif.Ukf.C49_weights"
   ],
   "note": "For every constructed filter."
  },
  {
   "property": "C50",
   "status": "proved",
   "theorems": [
    "Verif.Ukf.C50_prediction_and_gain",
    "Verif.Ukf.C50_step",
    "Verif.Ukf.C50_history"
   ],
   "note": "Prediction, output, gain and posterior of one step, and over every history, for positive definite covariances (singular ones: see C48)."
  },
  {
   "property": "C51",
   "status": "partial",
   "theorems": [
    "Verif.Ukf.C51_predictions_valid",
    "Verif.Ukf.C51_step_partial",
    "Verif.Ukf.C51_history_partial",
    "Verif.C51_singular_correction_invalid"
   ],
   "note": "Predicted covariances: any model and points. Correction and whole histories: positive definite covariances and models acting on each state by itself. For a singular corrected covariance the repair makes it non-symmetric (C51_singular_correction_invalid)."
  },
  {
   "property": "C52",
   "status": "partial",
   "theorems": [
    "Verif.C52_positive_definite_kept_partial",
    "Verif.C52_scalar_repaired",
    "Verif.C52_repair_not_symmetric"
   ],
   "note": "Positive definite input is returned unchanged and single numbers are repaired correctly; the repair of larger matrices is not symmetric (C52_repair_not_symmetric): the code multiplies by the 1D array of singular values."
  },
  {
   "property": "C53",
   "status": "proved",
   "theorems": [
    "Verif.Ukf.C53_constructible_iff",
    "Verif.Ukf.C53_constructed"
   ],
   "note": "Also AssertionError is the only error, and the constructed filter's parts."
  },
  {
   "property": "C54",
   "status": "proved",
   "theorems": [
    "Verif.Ukf.C54_stored",
    "Verif.Ukf.C54_inputs_used",
    "Verif.Ukf.C54_perfect_measurement"
   ],
   "note": "Without extra keyword arguments (with any, step raises TypeError)."
  },
  {
   "property": "C55",
   "status": "partial",
   "theorems": [
    "Verif.C55_objects_to_hidden_and_back",
    "Verif.C55_hidden_to_objects_and_back_partial",
    "Verif.C55_batch_without_parameters_raises"
   ],
   "note": "Both round trips are proved for every tree, selection, batch size and converter with a two-sided inverse. Missing: a batch of more than one hidden row when no A-SOH parameter is selected. There the code raises, proved as C55_batch_without_parameters_raises."
  },
  {
   "property": "C56",
   "status": "proved",
   "theorems": [
    "Verif.Ukf.C56_filter_in_other_units",
    "Verif.C56_joint_estimates_in_any_units",
    "Verif.C56_joint",
    "Verif.C56_cell",
    "Verif.C56_degradation",
    "Verif.C56_made",
    "Verif.C56_joint_correspondence"
   ],
   "note": "For the joint, transient and A-SOH wrappers, update and prediction with converters equal the unconverted ones conjugated by the converters, for every cell model and hidden state. Unscented filters in different units (a factor and an offset per coordinate) give the same estimates over every history, and joint estimators built with and without converters from the same prior and noises return identical estimates; the latter two need models that treat every row by itself, positive definite covariances and non-negative weights."
  },
  {
   "property": "C57",
   "status": "partial",
   "theorems": [
    "Verif.C57_state_converted_partial",
    "Verif.C57_state_without_conversion_partial",
    "Verif.C57_objects_hold_the_estimate_partial",
    "Verif.C57_state_not_converted"
   ],
   "note": "After any history the state converted to model coordinates is the estimate last returned by step (equal to it without conversion), and get_estimated_state holds its mean. state itself is in filter coordinates: C57_state_not_converted."
  },
  {
   "property": "C58",
   "status": "partial",
   "theorems": [
    "Verif.C58_state_always_raises",
    "Verif.C58_returned_estimate_partial"
   ],
   "note": "state raises for every dual estimator (C58_state_always_raises); the combination described is what step returns (C58_returned_estimate_partial)."
  },
  {
   "property": "C59",
   "status": "partial",
   "theorems": [
    "Verif.C59_reordered_parameters_misplaced",
    "Verif.C59_strict_subset_raises",
    "Verif.C59_all_parameters_partial"
   ],
   "note": "False in the code: estimating a strict subset makes every step raise (C59_strict_subset_raises) and another order exchanges values (C59_reordered_parameters_misplaced). Proved when all updatable parameters are estimated in their own order."
  },
  {
   "property": "C60",
   "status": "partial",
   "theorems": [
    "Verif.C60_names_label_the_state",
    "Verif.C60_names_distinct_partial",
    "Verif.C60_chosen_parameters",
    "Verif.C60_names_can_clash"
   ],
   "note": "Names, number and order proved for all models and selections. Distinctness needs that no selected parameter has the name of a transient field, which the package does not check (C60_names_can_clash)."
  },
  {
   "property": "C61",
   "status": "proved",
   "theorems": [
    "Verif.C61_order_irrelevant",
    "Verif.C61_order_irrelevant_history",
    "Verif.C61_previous_posteriors",
    "Verif.C61_combines_new_posteriors"
   ],
   "note": ""
  },
  {
   "property": "C62",
   "status": "proved",
   "theorems": [
    "Verif.C62_row_to_inputs",
    "Verif.C62_what_estimators_receive",
    "Verif.C62_missing_columns"
   ],
   "note": "Exact: which rows give which inputs and measurements, which raise, and the containers the estimators receive."
  },
  {
   "property": "C63",
   "status": "partial",
   "theorems": [
    "Verif.C63_rows_partial",
    "Verif.C63_rows_shifted"
   ],
   "note": "The code violates it: every row of the table holds the estimate of the next reading and the last row is zeros (C63_rows_shifted). Proved: one row per reading, row i is the estimate after reading i+1, for any estimator and data."
  },
  {
   "property": "C64",
   "status": "partial",
   "theorems": [
    "Verif.C64_columns_partial",
    "Verif.C64_variance_in_std_column"
   ],
   "note": "The code violates it: the _std columns hold variances (C64_variance_in_std_column). Proved: the layout of the columns and that they hold means and variances."
  },
  {
   "property": "C65",
   "status": "partial",
   "theorems": [
    "Verif.C65_attribute_set_partial",
    "Verif.C65_first_row_ignored"
   ],
   "note": "The code violates it: the attribute that is set is not the one the estimators use, so that the first row changes nothing (C65_first_row_ignored). Proved: the attribute is set from the first row."
  },
  {
   "property": "C66",
   "status": "proved",
   "theorems": [
    "Verif.C66_timesteps_read_back",
    "Verif.C66_reading_ends_at_nan",
    "Verif.C66_file_read_back"
   ],
   "note": "C66_timesteps_read_back and C66_file_read_back: what is appended per timestep is read back, for any writer options and history. Times are not NaN; C66_reading_ends_at_nan shows that reading ends at a step without a time."
  },
  {
   "property": "C67",
   "status": "partial",
   "theorems": [
    "Verif.C67_first_steps_stored",
    "Verif.C67_fractions_cut_off",
    "Verif.C67_no_cycle_refused",
    "Verif.C67_read_back_partial",
    "Verif.C67_nothing_read_without_cycle_zero"
   ],
   "note": "The first step of each cycle is stored (C67_first_steps_stored), but reading stops unless cycle 0 is present: C67_nothing_read_without_cycle_zero; C67_read_back_partial covers consecutive cycles. Cycle numbers that are not whole count as the whole number towards zero (C67_fractions_cut_off), and rows without a finite cycle number are refused (C67_no_cycle_refused)."
  },
  {
   "property": "C68",
   "status": "partial",
   "theorems": [
    "Verif.C68_appends_succeed_partial",
    "Verif.C68_far_cycle_raises"
   ],
   "note": "Appends succeed as long as cycle numbers grow gradually (C68_appends_succeed_partial); a cycle number that jumps beyond one chunk raises (C68_far_cycle_raises)."
  },
  {
   "property": "C69",
   "status": "partial",
   "theorems": [
    "Verif.C69_closed_raises",
    "Verif.C69_closed_until_opened",
    "Verif.C69_ready_until_closed",
    "Verif.C69_sizes_needed",
    "Verif.C69_refused_if_present",
    "Verif.C69_prepare_keeps_data_partial",
    "Verif.C69_appended_rows_stay_partial",
    "Verif.C69_prepare_hides_timesteps",
    "Verif.C69_reopened_append_replaces"
   ],
   "note": "Life cycle proved; preparing again hides timesteps and a reopened writer replaces rows (C69_prepare_hides_timesteps, C69_reopened_append_replaces)."
  },
  {
   "property": "C70",
   "status": "proved",
   "theorems": [
    "Verif.C70_mean_squared_error",
    "Verif.C70_zero_iff_exact"
   ],
   "note": "Loss of any one parameter vector over any dataset; minimize and non-finite values are outside the model."
  },
  {
   "property": "C71",
   "status": "partial",
   "theorems": [
    "Verif.C71_batch_raises",
    "Verif.C71_batch_partial",
    "Verif.C71_concrete_batch_raises"
   ],
   "note": "The code holds one row of predictions, so any batch of two or more rows raises (C71_batch_raises); proved for the one-row batch."
  },
  {
   "property": "C72",
   "status": "proved",
   "theorems": [
    "Verif.C72_starting_point",
    "Verif.C72_estimate_splits",
    "Verif.C72_scaling_keeps_order",
    "Verif.C72_estimate_no_worse"
   ],
   "note": "For any minimiser (a parameter of the model)."
  },
  {
   "property": "C73",
   "status": "proved",
   "theorems": [
    "Verif.C73_largest_listed",
    "Verif.C73_largest_computed",
    "Verif.C73_check_needs_raw_data",
    "Verif.C73_check_listed",
    "Verif.C73_check_computed"
   ],
   "note": "battdat's per-cycle integration is a parameter; NaN and infinite capacities included."
  },
  {
   "property": "C74",
   "status": "proved",
   "theorems": [
    "Verif.C74_one_weight_each",
    "Verif.C74_probability_vector",
    "Verif.C74_low_current_favoured"
   ],
   "note": ""
  },
  {
   "property": "C75",
   "status": "partial",
   "theorems": [
    "Verif.C75_submodel_name_destroys_parameters",
    "Verif.C75_marked_attributes_overwritten",
    "Verif.C75_inaccessible_name_refused_partial"
   ],
   "note": "False for every marked attribute that is not a parameter: it is overwritten by an array (C75_marked_attributes_overwritten, C75_submodel_name_destroys_parameters). Proved for names that lead nowhere or through an unmarked attribute, at any position in the list, with the structure of the object intact."
  },
  {
   "property": "C76",
   "status": "proved",
   "theorems": [
    "Verif.C76_dual_runs"
   ],
   "note": ""
  },
  {
   "property": "C77",
   "status": "proved",
   "theorems": [
    "Verif.C77_file_holds_the_run"
   ],
   "note": "For any estimator, dataset and file."
  },
  {
   "property": "C78",
   "status": "proved",
   "theorems": [
    "Verif.C78_joint_runs"
   ],
   "note": "For any history."
  },
  {
   "property": "C79",
   "status": "proved",
   "theorems": [
    "Verif.C79_run_succeeds",
    "Verif.C79_nothing_to_run_over",
    "Verif.C79_joint_run_succeeds",
    "Verif.C79_dual_run_succeeds"
   ],
   "note": "For any estimator that works on finite data, and for all healthy joint and dual estimators."
  },
  {
   "property": "C80",
   "status": "partial",
   "theorems": [
    "Verif.C80_dual_never_stored",
    "Verif.C80_joint_stored_partial",
    "Verif.C80_joint_stored_from_file_partial",
    "Verif.C80_file_needs_resizable"
   ],
   "note": "The code violates it: dual estimators have no state and can never be stored (C80_dual_never_stored); files need a resizable writer (C80_file_needs_resizable). Proved for joint estimators, from memory and from files."
  },
  {
   "property": "C81",
   "status": "partial",
   "theorems": [
    "Verif.C81_no_capacity_accepted",
    "Verif.C81_no_capacity_extracts_nan",
    "Verif.C81_accepted_reaches_partial"
   ],
   "note": "The code accepts such datasets, NaN < x being False (C81_no_capacity_accepted); an accepted dataset with some capacity does reach the requirement."
  },
  {
   "property": "C82",
   "status": "proved",
   "theorems": [
    "Verif.C82_fit_uses_every_measurement",
    "Verif.C82_extract_fails",
    "Verif.C82_extracted_value_at_point",
    "Verif.C82_temperature_irrelevant"
   ],
   "note": "sort_values and LSQUnivariateSpline are parameters; finite measurements."
  },
  {
   "property": "C83",
   "status": "proved",
   "theorems": [
    "Verif.C83_own_capacity_suffices"
   ],
   "note": ""
  },
  {
   "property": "C84",
   "status": "partial",
   "theorems": [
    "Verif.C84_delta_partial",
    "Verif.C84_gaussian_partial",
    "Verif.C84_same_check_partial",
    "Verif.C84_rows_and_columns_refused"
   ],
   "note": "The code refuses means given as a row or a column, which the documentation admits (C84_rows_and_columns_refused). Proved exactly: what is accepted and what is stored."
  },
  {
   "property": "C85",
   "status": "partial",
   "theorems": [
    "Verif.C85_symmetric_jacobian_partial",
    "Verif.C85_absolute_value_partial",
    "Verif.C85_not_the_documented_rule",
    "Verif.C85_other_dimension_raises"
   ],
   "note": "The code computes J^T S J (C85_not_the_documented_rule; a non-square J raises, C85_other_dimension_raises). Proved for symmetric Jacobians, among them that of the only operator of the package that has one (AbsoluteValueConversionOperator)."
  },
  {
   "property": "C86",
   "status": "partial",
   "theorems": [
    "Verif.C86_linear_operator_partial",
    "Verif.C86_offset_matrix_refused_partial",
    "Verif.C86_no_offset_raises"
   ],
   "note": "Leaving out the additive array raises AttributeError when it is given as None, which its annotation admits (C86_no_offset_raises). Proved for vectors given as offset."
  },
  {
   "property": "C87",
   "status": "proved",
   "theorems": [
    "Verif.C87_new_joint_controls",
    "Verif.C87_new_dual_controls",
    "Verif.C87_new_joint_estimator",
    "Verif.C87_new_dual_estimator",
    "Verif.C87_initialized_joint_estimator",
    "Verif.C87_initialized_dual_estimator"
   ],
   "note": "Estimators whose health and transients hold one cell; joint and dual, made from wrappers or through initialize_unscented_kalman_filter; the initial covariance given whole or in two parts."
  },
  {
   "property": "C88",
   "status": "partial",
   "theorems": [
    "Verif.C88_process_noise_partial",
    "Verif.C88_lone_part_ignored"
   ],
   "note": "When only one of the two parts is given it is silently ignored (C88_lone_part_ignored). Proved for the joint covariance, and for both parts given."
  },
  {
   "property": "C89",
   "status": "partial",
   "theorems": [
    "Verif.C89_default_process_noise_partial",
    "Verif.C89_default_noise_depends_on_units"
   ],
   "note": "The default 1e-8 I is taken in the coordinates of the filter, so that it changes with normalize_asoh (C89_default_noise_depends_on_units). Proved: the exact noise in model units."
  },
  {
   "property": "C90",
   "status": "proved",
   "theorems": [
    "Verif.Cell.C90_parameters_at_start"
   ],
   "note": "Row by row for all batches; of the new inputs the temperature never matters."
  },
  {
   "property": "C91",
   "status": "partial",
   "theorems": [
    "Verif.Cell.C91_constant_exact_partial",
    "Verif.Cell.C91_linear_exact_partial",
    "Verif.Cell.C91_ramp_down_not_exact",
    "Verif.Cell.C91_ramp_from_rest_not_exact",
    "Verif.Cell.C91_solution_exists"
   ],
   "note": "Every ramp from a charging current to rest or below, and every ramp starting at rest, gives another value than the solution (C91_ramp_down_not_exact, C91_ramp_from_rest_not_exact): the exponent has the wrong sign when a falling ramp ends at zero, and the target is zero when the ramp starts at zero. Proved: exact under constant behavior for rest and currents above 1e-8 A, and for all other ramps, zero crossings from below included."
  },
  {
   "property": "C92",
   "status": "partial",
   "theorems": [
    "Verif.C92_step_partial",
    "Verif.C92_history_partial",
    "Verif.C92_degrades_before_the_step_partial",
    "Verif.C92_degradation_lags"
   ],
   "note": "With a degradation model the wrapper degrades the health with the previous inputs, the transient states before the update and the measurement belonging to them (model.py:375-383), one step behind Simulator.step: C92_degradation_lags. Proved: the whole simulation for histories of any length when nothing degrades, and exactly what is degraded with what otherwise."
  },
  {
   "property": "C93",
   "status": "proved",
   "theorems": [
    "Verif.C93_transients_step",
    "Verif.C93_health_prediction",
    "Verif.C93_health_update"
   ],
   "note": "Transient filter for any degradation model of the simulator; health filter's prediction for any hidden health; its update without degradation."
  },
  {
   "property": "C94",
   "status": "proved",
   "theorems": [
    "Verif.Thevenin.C94_made_iff",
    "Verif.Thevenin.C94_made_of",
    "Verif.Thevenin.C94_fresh_state",
    "Verif.Thevenin.C94_fresh_voltage",
    "Verif.Thevenin.C94_runs"
   ],
   "note": "Exact condition for making a circuit, contents of the fresh state, its voltage, and runs of any length with any solver."
  },
  {
   "property": "C95",
   "status": "partial",
   "theorems": [
    "Verif.Json.C95_read_back_partial",
    "Verif.Json.C95_transients_read_back",
    "Verif.Json.C95_evaluation_makes_unreadable",
    "Verif.Json.C95_thevenin_coefficients_lost"
   ],
   "note": "The code violates it: pinpoints of interpolated parameters are written as a list but cannot be read (no validator), and they are filled in by every evaluation (C95_evaluation_makes_unreadable); the polynomials of Thevenin circuits are not written at all (C95_thevenin_coefficients_lost). Proved exactly: objects of their annotated classes are read back if and only if no pinpoints are set; transient states always are."
  },
  {
   "property": "C96",
   "status": "proved",
   "theorems": [
    "Verif.Cell.C96_rest_decay",
    "Verif.Cell.C96_rest_voltage",
    "Verif.Cell.C96_relaxes"
   ],
   "note": "For every cell of a batch, every division of the rest into steps and both current behaviours: decay law, voltage formula and limit. Reals; positive time constants for the limit."
  },
  {
   "property": "C97",
   "status": "proved",
   "theorems": [
    "Verif.Ecm.C97_update_shift",
    "Verif.Ecm.C97_run_shift",
    "Verif.Ecm.C97_voltage_shift",
    "Verif.Thevenin.C97_thevenin_shift"
   ],
   "note": "Equality of the returned arrays or errors, for the equivalent circuit (one step, any history, voltage) and the Thevenin model (any solver)."
  },
  {
   "property": "C98",
   "status": "proved",
   "theorems": [
    "Verif.Ecm.C98_soc_depends",
    "Verif.Ecm.C98_q0_depends",
    "Verif.Ecm.C98_irc_depends",
    "Verif.Ecm.C98_hyst_depends",
    "Verif.Ecm.C98_run_depends"
   ],
   "note": "Equality of the returned arrays of any two steps that succeed and agree in the named quantities; for whole histories, circuits differing in OCV, R0 and C0 give the same states (or errors)."
  },
  {
   "property": "C99",
   "status": "partial",
   "theorems": [
    "Verif.Cell.C99_constant_range_partial",
    "Verif.Cell.C99_linear_range_partial",
    "Verif.Cell.C99_ramp_overshoots"
   ],
   "note": "Proved under constant behaviour over any history. Under linear behaviour the code violates it: a ramp from rest over more than one time constant ends with more RC current than was ever applied (C99_ramp_overshoots); the range widened by its width on both sides is kept (C99_linear_range_partial)."
  },
  {
   "property": "C100",
   "status": "proved",
   "theorems": [
    "Verif.Ukf.C100_covariance_ignores_measurement",
    "Verif.Ukf.C100_mean_moves_by_gain",
    "Verif.Ukf.C100_no_surprise",
    "Verif.Ukf.C100_history_covariances"
   ],
   "note": ""
  },
  {
   "property": "C101",
   "status": "proved",
   "theorems": [
    "Verif.Ukf.C101_more_noise_never_helps"
   ],
   "note": ""
  },
  {
   "property": "C102",
   "status": "proved",
   "theorems": [
    "Verif.C102_update",
    "Verif.C102_predict",
    "Verif.C102_returns_iff",
    "Verif.C102_not_estimable"
   ],
   "note": "For one hidden state the update can return for other choices too. That some choices are ruled out is a limitation of the code: C102_not_estimable shows one, R0's temperature factor with measured temperatures, for which every update raises."
  },
  {
   "property": "C103",
   "status": "proved",
   "theorems": [
    "Verif.C103_circuit_estimator_runs",
    "Verif.C103_ramped_circuit_estimator_runs"
   ],
   "note": "C103_circuit_estimator_runs: constant currents. C103_ramped_circuit_estimator_runs: linearly changing currents, if the time differs between any two consecutive inputs (at equal times the code divides by zero). Non-vanishing divisors are a hypothesis, which excludes estimating the capacity, the RC values or the series capacitance as unrestricted numbers."
  },
  {
   "property": "C104",
   "status": "proved",
   "theorems": [
    "Verif.C104_update",
    "Verif.C104_predict",
    "Verif.C104_returns_iff"
   ],
   "note": "Any circuit, batch size and units; the templates hold one cell."
  },
  {
   "property": "C105",
   "status": "proved",
   "theorems": [
    "Verif.C105_update",
    "Verif.C105_predict",
    "Verif.C105_returns_iff"
   ],
   "note": "Any circuit, choice of parameters, batch size and units; the template holds one cell and no degradation model is used."
  },
  {
   "property": "C106",
   "status": "partial",
   "theorems": [
    "Verif.C106_dual_circuit_runs_partial",
    "Verif.C106_unreached_raises",
    "Verif.C106_ramped_dual_circuit_runs_partial"
   ],
   "note": "C106_dual_circuit_runs_partial (constant currents) and C106_ramped_dual_circuit_runs_partial (linearly changing ones, at changing times): holds if all updatable parameters are estimated and one of them takes part in the voltage after all inputs. Otherwise not: where no estimated parameter takes part in the voltage – the Coulombic efficiency alone while discharging, temperature factors without a temperature, for instance – the predictions are a single row, adding the sensor noise of all points to it in place raises, and so does the first step of every such estimator (C106_unreached_raises, under both behaviours)."
  },
  {
   "property": "C107",
   "status": "partial",
   "theorems": [
    "Verif.C107_joint_from_data",
    "Verif.C107_joint_stored_partial",
    "Verif.C107_joint_stored_from_file_partial",
    "Verif.C107_dual_from_data_partial",
    "Verif.C107_ramped_joint_from_data",
    "Verif.C107_ramped_joint_stored_partial",
    "Verif.C107_ramped_joint_stored_from_file_partial",
    "Verif.C107_ramped_dual_from_data_partial"
   ],
   "note": "C107_joint_from_data: joint estimation, for every choice of parameters that batches can be computed for. C107_dual_from_data_partial: dual estimation, if one of the updatable parameters takes part in the voltage after all inputs; otherwise every step raises (C106_unreached_raises). C107_joint_stored_partial, C107_joint_stored_from_file_partial: with a writer, as far as C80 holds. C107_ramped_joint_from_data, C107_ramped_dual_from_data_partial, C107_ramped_joint_stored_partial, C107_ramped_joint_stored_from_file_partial: the same under linearly changing currents, if no two consecutive rows (the template of the inputs in place of the first row) have the same time; at equal times the code divides by zero."
  },
  {
   "property": "C108",
   "status": "partial",
   "theorems": [
    "Verif.C108_joint_temperature_ignored",
    "Verif.C108_dual_temperature_ignored",
    "Verif.C108_joint_temperature_used_partial",
    "Verif.C108_dual_temperature_used_partial"
   ],
   "note": "Holds if the inputs given at initialization have a temperature: C108_joint_temperature_used_partial, C108_dual_temperature_used_partial. Otherwise not: without one – the default of ECMInput – the template of the inputs drops the third value, and two datasets that differ in their temperatures only give the same table and stored estimates, or the same exception, for every cell model (C108_joint_temperature_ignored, C108_dual_temperature_ignored)."
  },
  {
   "property": "C109",
   "status": "partial",
   "theorems": [
    "Verif.C109_output_names",
    "Verif.C109_joint_outputs",
    "Verif.C109_dual_outputs",
    "Verif.C109_control_names_partial",
    "Verif.C109_dual_control_names_partial",
    "Verif.C109_joint_controls_outnumber_names",
    "Verif.C109_dual_controls_outnumber_names"
   ],
   "note": "Proved for outputs: C109_output_names, C109_joint_outputs, C109_dual_outputs. For controls it holds as long as all inputs have as many values as the initial ones: C109_control_names_partial, C109_dual_control_names_partial. Otherwise not: rows of data always give a temperature (25 where there is none), so after one of them the filters of an estimator whose initial inputs have no temperature hold three controls, while control_names has two names: C109_joint_controls_outnumber_names, C109_dual_controls_outnumber_names."
  },
  {
   "property": "C110",
   "status": "partial",
   "theorems": [
    "Verif.C110_get_parameters_raises",
    "Verif.C110_get_parameters_refuses",
    "Verif.C110_surplus_segments_accepted",
    "Verif.C110_expand_names_refuses_partial",
    "Verif.C110_labels_as_given"
   ],
   "note": "Proved for get_parameters, with the exceptions: C110_get_parameters_refuses, C110_get_parameters_raises. expand_names raises exactly for names that cannot be followed, with the exception told by the reason (C110_expand_names_refuses_partial), but what follows the name of a parameter is not looked at: for 'r0.anything' it returns labels, though get_parameters raises for that name (C110_surplus_segments_accepted). C110_labels_as_given: names with positions counted from the end are labelled as given."
  },
  {
   "property": "C111",
   "status": "proved",
   "theorems": [
    "Verif.C111_other_keys_untouched",
    "Verif.C111_read_back_after_another_writer",
    "Verif.C111_path_of_default_key",
    "Verif.C111_path_of_other_key"
   ],
   "note": "C111_other_keys_untouched, C111_read_back_after_another_writer, C111_path_of_default_key, C111_path_of_other_key. Keys are names of groups directly below the root."
  },
  {
   "property": "C112",
   "status": "proved",
   "theorems": [
    "Verif.C112_straight",
    "Verif.C112_cell_affine",
    "Verif.C112_step",
    "Verif.C112_history",
    "Verif.C112_dual_step"
   ],
   "note": "C112_straight, C112_cell_affine, C112_step, C112_history, C112_dual_step. The wrapper works in the coordinates of the model (identity converters)."
  },
  {
   "property": "C113",
   "status": "partial",
   "theorems": [
    "Verif.C113_set_value_raises",
    "Verif.C113_mark_unknown_accepted",
    "Verif.C113_misspelt_without_effect",
    "Verif.C113_mark_raises_partial"
   ],
   "note": "Proved for set_value, with the exceptions: C113_set_value_raises. mark_updatable raises exactly for names that are lost before their last segment (C113_mark_raises_partial), but the last segment is not looked at: marking a misspelt parameter raises nothing (C113_mark_unknown_accepted) and, for the attributes of the object itself, leaves the updatable parameters as they were (C113_misspelt_without_effect)."
  },
  {
   "property": "C114",
   "status": "proved",
   "theorems": [
    "Verif.C114_stays_at_truth",
    "Verif.C114_errors_without_truth"
   ],
   "note": "noise-free voltages; Spec.cellRun iterates the cell of Spec.EcmCell, which the filter's model computes by C104 and C112"
  },
  {
   "property": "C115",
   "status": "proved",
   "theorems": [
    "Verif.C115_evolve",
    "Verif.C115_returns",
    "Verif.C115_single",
    "Verif.C115_recovers"
   ],
   "note": "batches: whenever evolve returns; when it does for batched parameters is the subject of C28 and C29"
  },
  {
   "property": "C116",
   "status": "proved",
   "theorems": [
    "Verif.C116_affine",
    "Verif.C116_circuit",
    "Verif.C116_directions",
    "Verif.C116_each"
   ],
   "note": "Disturbances are any vectors, entering after the model's own update and output. The size of an error e in units of a covariance P is e·P⁻¹e (spec `misfit`); C116_directions says that a bound on it is the same as one on every direction, C116_each what it says about each number. Exact arithmetic."
  },
  {
   "property": "C117",
   "status": "partial",
   "theorems": [
    "Verif.C117_same_tables",
    "Verif.C117_names_described",
    "Verif.C117_descriptions_partial",
    "Verif.C117_other_columns_described_partial",
    "Verif.C117_renamed_columns_not_described"
   ],
   "note": "The tables are the same (C117_same_tables). The code violates the rest: the names described are those before renaming, so that time and terminal_voltage are described, which are no columns, and test_time and voltage are not (C117_renamed_columns_not_described); and transient states and measurements are called inputs (the variable tag is not used). Proved: all other columns are described, and the exact descriptions (C117_descriptions_partial)."
  },
  {
   "property": "C118",
   "status": "proved",
   "theorems": [
    "Verif.Cell.C118_cell",
    "Verif.Cell.C118_given_voltages",
    "Verif.Cell.C118_built_in_curve"
   ],
   "note": ""
  },
  {
   "property": "C119",
   "status": "partial",
   "theorems": [
    "Verif.Cell.C119_capacitor_impact_partial",
    "Verif.Cell.C119_capacitor_exceeds_any_bound"
   ],
   "note": "The bound of 10 mV holds for a Coulombic efficiency of 1, exactly 10 mV per full charge (C119_capacitor_impact_partial); for any efficiency below 1 cycling within SOC 0 to 1 charges the capacitor beyond every voltage (C119_capacitor_exceeds_any_bound)."
  },
  {
   "property": "C120",
   "status": "proved",
   "theorems": [
    "Verif.C120_affine",
    "Verif.C120_circuit",
    "Verif.C120_never_apart",
    "Verif.C120_affine_geometric",
    "Verif.C120_circuit_geometric"
   ],
   "note": "C120_affine and C120_circuit: same covariances, and differences bounded by the product of the fractions carried over; C120_never_apart: the fractions may be taken to be 1; C120_affine_geometric and C120_circuit_geometric: geometric decay under the observability condition, shown satisfiable for a model with growing modes and for the concrete circuit."
  },
  {
   "property": "C121",
   "status": "partial",
   "theorems": [
    "Verif.C121_states_partial",
    "Verif.C121_voltage_partial",
    "Verif.C121_currents",
    "Verif.C121_hysteresis_partial",
    "Verif.C121_hysteresis_violated"
   ],
   "note": "All of it holds for RC currents, series capacitors and SOC. The hysteresis difference has the closed form under the constant behaviour and under linear currents, except for ramps from charging down to zero or below, where it can grow (C121_hysteresis_violated)."
  },
  {
   "property": "C122",
   "status": "partial",
   "theorems": [
    "Verif.C122_parallel_partial",
    "Verif.C122_series",
    "Verif.C122_parallel_violated"
   ],
   "note": "Series connection holds fully. Parallel connection holds unless a step starts with a current of at most 1e-8 A that is not zero, where the asymptote of the hysteresis is not normalised (C122_parallel_violated)."
  },
  {
   "property": "C123",
   "status": "proved",
   "theorems": [
    "Verif.C123_dataset"
   ],
   "note": "Circuits whose parameters can be evaluated (one value, or one per pinpoint), single cells; columns and rows as literal lists. Batches of cells: C42 and C115."
  },
  {
   "property": "C124",
   "status": "proved",
   "theorems": [
    "Verif.C124_affine",
    "Verif.C124_circuit",
    "Verif.C124_estimate_is_best"
   ],
   "note": "Affine models and circuits with straight curves (see C112)."
  },
  {
   "property": "C125",
   "status": "proved",
   "theorems": [
    "Verif.C125_affine",
    "Verif.C125_circuit"
   ],
   "note": "Affine models (one step) and circuits with straight curves (every step of a history)."
  },
  {
   "property": "C126",
   "status": "proved",
   "theorems": [
    "Verif.C126_circuit",
    "Verif.C126_joint",
    "Verif.C126_dual"
   ],
   "note": "For estimators made by initialize_unscented_kalman_filter, without a writer."
  },
  {
   "property": "C127",
   "status": "proved",
   "theorems": [
    "Verif.C127_order",
    "Verif.C127_merge"
   ],
   "note": "Any number of RC elements; batches of any size (member by member, runs of both circuits that succeed). C127_merge is stated for the first two elements; with C127_order these can be any two."
  },
  {
   "property": "C128",
   "status": "proved",
   "theorems": [
    "Verif.C128_joint",
    "Verif.C128_dual",
    "Verif.C128_without_overlap"
   ],
   "note": "Both estimators in any state, dataset in memory or in a file, any cut. C128_without_overlap says what happens if the parts do not share a row."
  },
  {
   "property": "C129",
   "status": "proved",
   "theorems": [
    "Verif.C129_only_used_columns"
   ],
   "note": "Every estimator, with or without a writer, errors included."
  },
  {
   "property": "C130",
   "status": "proved",
   "theorems": [
    "Verif.C130_dual_in_any_units",
    "Verif.C130_joint_normalization",
    "Verif.C130_dual_normalization"
   ],
   "note": "C130_dual_in_any_units is about the dual estimator in any units (its joint counterpart is C56_joint_estimates_in_any_units); C130_joint_normalization and C130_dual_normalization are about circuits and datasets. Without a given process noise the estimates do depend on normalize_asoh, see C89."
  },
  {
   "property": "C131",
   "status": "proved",
   "theorems": [
    "Verif.C131_linear_weighs",
    "Verif.C131_voltage_affine",
    "Verif.C131_step",
    "Verif.C131_rest",
    "Verif.C131_dual_step",
    "Verif.C131_dual_history",
    "Verif.C131_dual_runs"
   ],
   "note": "Interpolants other than the linear one only if they are weighted sums of the values (SciPy's are external). Parameters in the units of the model; C130 relates other units. Histories under constant currents."
  },
  {
   "property": "C132",
   "status": "proved",
   "theorems": [
    "Verif.C132_stays_straight",
    "Verif.C132_step",
    "Verif.C132_history",
    "Verif.C132_runs"
   ],
   "note": "In the coordinates of the model; C130 relates other units. All updatable parameters are estimated and one of them reaches the voltage after every input (otherwise the step raises, C106)."
  },
  {
   "property": "C133",
   "status": "proved",
   "theorems": [
    "Verif.C133_affine",
    "Verif.C133_step",
    "Verif.C133_history",
    "Verif.C133_runs",
    "Verif.C133_any_units"
   ],
   "note": "Curves with more values make the system bilinear; then the filter is not a Kalman filter. In other units than the model's for constant currents and tunings without negative weights (C56)."
  },
  {
   "property": "C134",
   "status": "proved",
   "theorems": [
    "Verif.C134_bounded",
    "Verif.C134_simulated",
    "Verif.C134_each",
    "Verif.C134_exact"
   ],
   "note": "The prediction of the estimator is compared with the reported variance of the voltage; disturbed cells with drifting parameters in C134_bounded."
  },
  {
   "property": "C135",
   "status": "proved",
   "theorems": [
    "Verif.C135_least_squares"
   ],
   "note": "Ways of states and parameters, where parameters may drift at the cost of the process noise."
  },
  {
   "property": "C136",
   "status": "proved",
   "theorems": [
    "Verif.C136_last_counts",
    "Verif.C136_not_after_two_rows",
    "Verif.C136_in_parts",
    "Verif.C136_order"
   ],
   "note": "last update counts, several calls or one, any order; one row is needed for the first claim (witness C136_not_after_two_rows)"
  },
  {
   "property": "C137",
   "status": "proved",
   "theorems": [
    "Verif.C137_model",
    "Verif.C137_first_estimate_only",
    "Verif.C137_circuit",
    "Verif.C137_closer"
   ],
   "note": "the model does not depend on the values (any cell); merging of the estimates on circuits of C133, each step by a factor less than one"
  },
  {
   "property": "C138",
   "status": "proved",
   "theorems": [
    "Verif.C138_loss"
   ],
   "note": "C138_loss: existence and value of the loss for all states and parameter values; temperatures of the rows, or 25 degrees. Times of the rows change under linear behaviour."
  },
  {
   "property": "C139",
   "status": "partial",
   "theorems": [
    "Verif.C139_simulated_fit_partial",
    "Verif.C139_not_without_temperature"
   ],
   "note": "Holds if the inputs have temperatures, or if the circuit is at 25 degrees what it is without a temperature (C139_simulated_fit_partial). Without temperatures the loss evaluates the circuit at 25 degrees although it was simulated without temperature correction; with another reference temperature the truth has a positive loss, for datasets of every length (C139_not_without_temperature)."
  },
  {
   "property": "C140",
   "status": "proved",
   "theorems": [
    "Verif.C140_least_squares",
    "Verif.C140_convex",
    "Verif.C140_estimate_best",
    "Verif.C140_simulated"
   ],
   "note": "C140_least_squares, C140_convex; C140_estimate_best and C140_simulated assume that SciPy returns a point that is no worse than its neighbours (LocalSearch; an optimiser that satisfies it is given). For the last claim without temperatures, the restriction of C139."
  },
  {
   "property": "C141",
   "status": "proved",
   "theorems": [
    "Verif.C141_file_is_a_spectator",
    "Verif.C141_table_is_a_spectator",
    "Verif.C141_files_of_parts",
    "Verif.C141_same_file_refused"
   ],
   "note": "For every estimator of the interface: the run without a file or without a table is determined by the one with it (C141_file_is_a_spectator, C141_table_is_a_spectator). C141_files_of_parts is about what read_state_estimates yields from three files. C141_same_file_refused: the writer returned by a run ends the next one in an error, whatever its estimator and data."
  },
  {
   "property": "C142",
   "status": "proved",
   "theorems": [
    "Verif.C142_same_run",
    "Verif.C142_interrupted",
    "Verif.C142_any_end"
   ],
   "note": "runFile follows the same code as runOnline and also returns the writer if it raises (C142_same_run). C142_interrupted: a failure at a given row. C142_any_end: every way of ending; if the cycle of a row is refused (C68) after its estimate was stored, that estimate is in the file, too."
  },
  {
   "property": "C143",
   "status": "partial",
   "theorems": [
    "Verif.EstObjects.C143_joint_follows",
    "Verif.EstObjects.C143_dual_follows",
    "Verif.EstObjects.C143_joint_isolated_partial",
    "Verif.EstObjects.C143_dual_isolated_partial",
    "Verif.EstObjects.C143_fixed_parameter_is_live"
   ],
   "note": "Holds for everything but the parameters that are not estimated: the caller may change the covariances, returned objects, arguments of earlier calls, and the estimated values in the state of health, transient state and inputs they built the estimator from (C143_joint_isolated_partial, C143_dual_isolated_partial). False for fixed parameters: the wrappers keep the caller's own objects (utils/model.py:68-71) although the estimator and the filter copy theirs, so changing a fixed parameter of that state of health changes later estimates (C143_fixed_parameter_is_live). What is returned in general: the templates are read anew at every call (C143_joint_follows, C143_dual_follows)."
  },
  {
   "property": "C144",
   "status": "proved",
   "theorems": [
    "Verif.C144_affine",
    "Verif.C144_circuit",
    "Verif.C144_joint",
    "Verif.C144_estimator",
    "Verif.C144_any_units",
    "Verif.C144_misfit",
    "Verif.C144_predictions",
    "Verif.C144_possible"
   ],
   "note": "For the unscented filter with any affine model (C144_affine), circuits with known parameters (C144_circuit), the filter of joint estimators (C144_joint) and joint estimators as built by initialize_ukf_from_wrapper, in native and in any other units (C144_estimator, C144_any_units; the latter for constant behaviour). C144_predictions: errors of predictions in different steps are uncorrelated. C144_misfit: the mean squared error in units of the reported covariance is the number of estimated numbers. C144_possible: such noise exists for all covariances."
  },
  {
   "property": "C145",
   "status": "proved",
   "theorems": [
    "Verif.C145_affine",
    "Verif.C145_circuit",
    "Verif.C145_estimator",
    "Verif.C145_any_units",
    "Verif.C145_unique"
   ],
   "note": "Densities are combined by Bayes' rule step by step (Spec.bayes, cellBayes, jointBayes); the corresponding statement on probability spaces is C146. C145_any_units is for constant behaviour. C145_unique: no other estimate and covariance are those of the conditional distribution."
  },
  {
   "property": "C146",
   "status": "proved",
   "theorems": [
    "Verif.C146_affine",
    "Verif.C146_circuit",
    "Verif.C146_joint",
    "Verif.C146_estimator",
    "Verif.C146_any_units",
    "Verif.C146_within",
    "Verif.C146_possible"
   ],
   "note": "For the unscented filter with any affine model (C146_affine), circuits with known parameters (C146_circuit), the filter of joint estimators (C146_joint) and joint estimators as built by initialize_ukf_from_wrapper, in native and in any other units (C146_estimator, C146_any_units; the latter for constant behaviour). C146_within: probabilities of being within c standard deviations, given any set of measurements. C146_possible: such noise exists for all covariances."
  },
  {
   "property": "C147",
   "status": "proved",
   "theorems": [
    "Verif.C147_possible",
    "Verif.C147_predicts",
    "Verif.C147_quadratic",
    "Verif.C147_history",
    "Verif.C147_runs",
    "Verif.C147_any_units"
   ],
   "note": "For any model of this kind (C147_predicts: the prediction and what a step returns), circuits (C147_quadratic: states affine, voltages quadratic), any history (C147_history) and joint estimators as built by initialize_ukf_from_wrapper, in native and in any other units (C147_runs, C147_any_units; the latter for constant behaviour). C147_possible: such random states exist for all covariances."
  },
  {
   "property": "C148",
   "status": "proved",
   "theorems": [
    "Verif.C148_balanced_cycle",
    "Verif.C148_one_current",
    "Verif.C148_order_irrelevant",
    "Verif.C148_extracted_object",
    "Verif.C148_possible"
   ],
   "note": "LSQUnivariateSpline is a parameter that returns a best fitting cubic spline or raises; shown satisfiable. Values at SOC points for linear interpolation; any least squares fit and sorting."
  },
  {
   "property": "C149",
   "status": "partial",
   "theorems": [
    "Verif.C149_more_current_partial",
    "Verif.C149_same_inputs_partial",
    "Verif.C149_linear_reversed",
    "Verif.C149_linear_voltage_falls"
   ],
   "note": "Proved for constant behaviour (C149_more_current_partial), and for both behaviours if the inputs are the same (C149_same_inputs_partial). Violated under linear behaviour: the code's formula for the RC currents takes the current at the end of the ramp where the one at its start belongs (see C22), so the cell that had more current before always has less RC current afterwards (C149_linear_reversed), and shows the lower voltage if its open-circuit voltage is flat and it has no hysteresis (C149_linear_voltage_falls). Currents of at most 1e-8 A other than 0 are left out, as the hysteresis target is not normalised there."
  },
  {
   "property": "C150",
   "status": "proved",
   "theorems": [
    "Verif.C150_slower_cell"
   ],
   "note": "Currents of at most 1e-8 A other than 0 are left out on both clocks, as the hysteresis target is not normalised there (see C122)."
  },
  {
   "property": "C151",
   "status": "partial",
   "theorems": [
    "Verif.Thevenin.C151_follows_equations_partial",
    "Verif.Thevenin.C151_solver_possible",
    "Verif.Thevenin.C151_course_exists",
    "Verif.Thevenin.C151_charge",
    "Verif.Thevenin.C151_split",
    "Verif.Thevenin.C151_heat_lost",
    "Verif.Thevenin.C151_warm_step_partial"
   ],
   "note": "Isothermal cells: simulations of any length end at the solution of the equations (C151_follows_equations_partial; solutions exist by C151_course_exists), count the charge (C151_charge) and do not depend on how a step is split (C151_split). A single step with free temperature, from a state at ambient temperature and with resistances and capacitances that depend on the SOC only, is exact too (C151_warm_step_partial). Violated if the temperature is free: the temperature of the state is never handed to the solver (see C37), so the heat of a step is lost at the next and two steps of 1 s end at another temperature than one of 2 s (C151_heat_lost). The solver is a parameter assumed exact on the package's equations; such a solver exists (C151_solver_possible). The equations and the initial temperature (ambient) are assumptions about the package, whose source is not available here."
  },
  {
   "property": "C152",
   "status": "proved",
   "theorems": [
    "Verif.Thevenin.C152_sides",
    "Verif.Thevenin.C152_rest",
    "Verif.Thevenin.C152_relaxes"
   ],
   "note": "Isothermal cells; the solver is a parameter assumed exact on the package's equations, as in C151, where such a solver is shown to exist."
  },
  {
   "property": "C153",
   "status": "proved",
   "theorems": [
    "Verif.Thevenin.C153_forgets",
    "Verif.Thevenin.C153_soc_kept"
   ],
   "note": "Isothermal cells; the solver is a parameter assumed exact on the package's equations, as in C151, where such a solver is shown to exist."
  },
  {
   "property": "C154",
   "status": "proved",
   "theorems": [
    "Verif.Thevenin.C154_pack"
   ],
   "note": "Isothermal cells; the solver is a parameter assumed exact on the package's equations, as in C151, where such a solver is shown to exist."
  },
  {
   "property": "C155",
   "status": "partial",
   "theorems": [
    "Verif.C155_gap",
    "Verif.C155_agree_partial",
    "Verif.C155_disagree"
   ],
   "note": "Overpotentials always agree, and the differences of SOC and voltage are given exactly (C155_gap); if every change of the current has an input of its own, at the time of the input before, both models agree in everything (C155_agree_partial). In general they do not (C155_disagree): during a step the equivalent circuit charges the cell with the current of the previous input, and moves its RC currents towards that of the new input, while the Thevenin model uses the new input's current for both. A cell of 1 Ah at rest for which 1 A is reported 36 s later has gained 1 % SOC in one model and nothing in the other."
  },
  {
   "property": "C156",
   "status": "proved",
   "theorems": [
    "Verif.Thevenin.C156_clock"
   ],
   "note": "For isothermal models, and exact solvers (assumption ExactSolver, satisfiable by C151_solver_possible). k = 1 gives that only durations count, not the times at which they begin."
  },
  {
   "property": "C157",
   "status": "proved",
   "theorems": [
    "Verif.Thevenin.C157_order"
   ],
   "note": "For isothermal models, and exact solvers (assumption ExactSolver, satisfiable by C151_solver_possible). The end of a run is any moment of a longer one."
  },
  {
   "property": "C158",
   "status": "proved",
   "theorems": [
    "Verif.C158_circuit_jump",
    "Verif.C158_thevenin_jump",
    "Verif.C158_circuit_pulse",
    "Verif.C158_thevenin_pulse"
   ],
   "note": "The circuit needs an input for either side of the jump, as it charges the cell with the previous input's current; the Thevenin model needs only the one at the end of the pulse. Under linear behaviour a jump cannot be expressed: the slope would be divided by a duration of zero."
  },
  {
   "property": "C159",
   "status": "proved",
   "theorems": [
    "Verif.C159_superposition",
    "Verif.C159_thevenin_superposition"
   ],
   "note": "C159_superposition for the equivalent circuit (both behaviours of the current, steps without duration excluded for the linear one) and C159_thevenin_superposition for isothermal Thevenin cells, both for any batch, number of RC elements and number of inputs. A Coulombic efficiency below 1, hysteresis and parameters that depend on the SOC are left out because they make a cell nonlinear."
  }
 ]
}