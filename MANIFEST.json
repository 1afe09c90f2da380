{
 "claims": [
  {
   "property": "C01",
   "status": "proved",
   "theorems": [
    "Chimp.C01_first_definition_once",
    "Chimp.C01_names",
    "Chimp.C01_add_by_name"
   ],
   "note": ""
  },
  {
   "property": "C02",
   "status": "proved",
   "theorems": [
    "Chimp.C02_index_iff",
    "Chimp.C02_index_absent",
    "Chimp.C02_lookup",
    "Chimp.C02_lookup_pair",
    "Chimp.C02_lookup_symmetric"
   ],
   "note": ""
  },
  {
   "property": "C03",
   "status": "proved",
   "theorems": [
    "Chimp.C03_sorted",
    "Chimp.C03_sort_unique",
    "Chimp.C03_order_independent",
    "Chimp.C03_mass_monotone"
   ],
   "note": ""
  },
  {
   "property": "C04",
   "status": "proved",
   "theorems": [
    "Chimp.C04_comparator",
    "Chimp.C04_comparator_meaning"
   ],
   "note": ""
  },
  {
   "property": "C05",
   "status": "proved",
   "theorems": [
    "Chimp.C05_products_loaded",
    "Chimp.C05_never_too_strict",
    "Chimp.C05_provisos_needed"
   ],
   "note": "Names and products without colons, products not empty; both provisos are shown to be needed."
  },
  {
   "property": "C06",
   "status": "proved",
   "theorems": [
    "Chimp.C06_reactants_iff",
    "Chimp.C06_at_most_one_pair",
    "Chimp.C06_symmetric",
    "Chimp.C06_repeated_species_never_found"
   ],
   "note": "Includes the proved finding that two T elements of the same species are never found."
  },
  {
   "property": "C07",
   "status": "proved",
   "theorems": [
    "Chimp.C07_complete_and_symmetric"
   ],
   "note": ""
  },
  {
   "property": "C08",
   "status": "proved",
   "theorems": [
    "Chimp.C08_sound_and_complete",
    "Chimp.C08_succeeds_iff",
    "Chimp.C08_second_init_duplicates"
   ],
   "note": "Includes the proved finding that a second initialisation appends everything again."
  },
  {
   "property": "C09",
   "status": "proved",
   "theorems": [
    "Chimp.C09_default_filter"
   ],
   "note": ""
  },
  {
   "property": "C10",
   "status": "proved",
   "theorems": [
    "Chimp.C10_loads_iff",
    "Chimp.C10_side_contents",
    "Chimp.C10_omitted_is_one"
   ],
   "note": ""
  },
  {
   "property": "C11",
   "status": "proved",
   "theorems": [
    "Chimp.C11_side_order_irrelevant",
    "Chimp.C11_equation_order_irrelevant"
   ],
   "note": ""
  },
  {
   "property": "C12",
   "status": "proved",
   "theorems": [
    "Chimp.C12_reactants",
    "Chimp.C12_index_order",
    "Chimp.C12_binary_iff",
    "Chimp.C12_zero_multiplicity"
   ],
   "note": "Includes the proved finding on multiplicity zero."
  },
  {
   "property": "C13",
   "status": "proved",
   "theorems": [
    "Chimp.C13_model_choice",
    "Chimp.C13_unregistered"
   ],
   "note": ""
  },
  {
   "property": "C14",
   "status": "proved",
   "theorems": [
    "Chimp.C14_isElastic_iff"
   ],
   "note": ""
  },
  {
   "property": "C15",
   "status": "proved",
   "theorems": [
    "Chimp.C15_product_indexing",
    "Chimp.C15_number_of_products",
    "Chimp.C15_loaded_products"
   ],
   "note": ""
  },
  {
   "property": "C16",
   "status": "proved",
   "theorems": [
    "Chimp.C16_reduced_mass"
   ],
   "note": ""
  },
  {
   "property": "C17",
   "status": "proved",
   "theorems": [
    "Chimp.C17_filters_only_remove"
   ],
   "note": ""
  },
  {
   "property": "C18",
   "status": "proved",
   "theorems": [
    "Chimp.C18_boolean",
    "Chimp.C18_tree"
   ],
   "note": ""
  },
  {
   "property": "C19",
   "status": "proved",
   "theorems": [
    "Chimp.C19_eqio_iff",
    "Chimp.C19_empty_keeps_nothing",
    "Chimp.C19_exact_side"
   ],
   "note": ""
  },
  {
   "property": "C20",
   "status": "proved",
   "theorems": [
    "Chimp.C20_required"
   ],
   "note": ""
  },
  {
   "property": "C21",
   "status": "proved",
   "theorems": [
    "Chimp.C21_one_per_equation",
    "Chimp.C21_best_class"
   ],
   "note": ""
  },
  {
   "property": "C22",
   "status": "proved",
   "theorems": [
    "Chimp.C22_empty_name",
    "Chimp.C22_subfilter_skipped"
   ],
   "note": "The natural form is violated for the empty name; the violation and the valid part are proved."
  },
  {
   "property": "C23",
   "status": "proved",
   "theorems": [
    "Chimp.C23_load_iff",
    "Chimp.C23_roundtrip",
    "Chimp.C23_errors_at_any_depth",
    "Chimp.C23_only_errors",
    "Chimp.C23_equation_filter"
   ],
   "note": ""
  },
  {
   "property": "C24",
   "status": "proved",
   "theorems": [
    "Chimp.C24_first_entry_wins",
    "Chimp.C24_later_ignored",
    "Chimp.C24_three_terms"
   ],
   "note": "The code keeps the first entry, against its documentation; proved as it is."
  },
  {
   "property": "C25",
   "status": "proved",
   "theorems": [
    "Chimp.C25_text_identifies",
    "Chimp.C25_provisos_needed"
   ],
   "note": "Provisos on names are shown to be needed."
  },
  {
   "property": "C26",
   "status": "proved",
   "theorems": [
    "Chimp.C26_adds_exactly_missing",
    "Chimp.C26_only_averaging_fails",
    "Chimp.C26_invariant"
   ],
   "note": ""
  },
  {
   "property": "C27",
   "status": "proved",
   "theorems": [
    "Chimp.C27_idempotent"
   ],
   "note": ""
  },
  {
   "property": "C28",
   "status": "proved",
   "theorems": [
    "Chimp.C28_complete",
    "Chimp.C28_new_equation"
   ],
   "note": ""
  },
  {
   "property": "C29",
   "status": "proved",
   "theorems": [
    "Chimp.C29_indices",
    "Chimp.C29_loaded_names",
    "Chimp.C29_unknown_name"
   ],
   "note": "Includes the proved finding on unknown names."
  },
  {
   "property": "C30",
   "status": "proved",
   "theorems": [
    "Chimp.C30_valid_open_channel"
   ],
   "note": ""
  },
  {
   "property": "C31",
   "status": "proved",
   "theorems": [
    "Chimp.C31_selected_iff",
    "Chimp.C31_measure"
   ],
   "note": ""
  },
  {
   "property": "C32",
   "status": "proved",
   "theorems": [
    "Chimp.C32_reject_iff",
    "Chimp.C32_accept_measure",
    "Chimp.C32_joint_measure"
   ],
   "note": ""
  },
  {
   "property": "C33",
   "status": "proved",
   "theorems": [
    "Chimp.C33_severe_iff",
    "Chimp.C33_accepted_selects"
   ],
   "note": ""
  },
  {
   "property": "C34",
   "status": "proved",
   "theorems": [
    "Chimp.C34_bound",
    "Chimp.C34_ratio_le_one"
   ],
   "note": ""
  },
  {
   "property": "C35",
   "status": "proved",
   "theorems": [
    "Chimp.C35_pair_in_ranges_and_distinct",
    "Chimp.C35_self_allowed",
    "Chimp.C35_single_particle_never_returns",
    "Chimp.C35_disjoint_ranges_return",
    "Chimp.C35_some_draw_ends_loop",
    "Chimp.C35_can_return"
   ],
   "note": ""
  },
  {
   "property": "C36",
   "status": "proved",
   "theorems": [
    "Chimp.C36_picked_iff",
    "Chimp.C36_single_pick",
    "Chimp.C36_same_species_uniform",
    "Chimp.C36_two_species_uniform"
   ],
   "note": ""
  },
  {
   "property": "C37",
   "status": "proved",
   "theorems": [
    "Chimp.C37_number_of_tests",
    "Chimp.C37_mean_noninteger",
    "Chimp.C37_integer_estimate_loses_one"
   ],
   "note": "Includes the proved finding that an integer estimate N gives N - 1 tests."
  },
  {
   "property": "C38",
   "status": "proved",
   "theorems": [
    "Chimp.C38_driver_finishes",
    "Chimp.C38_tests_at_most",
    "Chimp.C38_result_unique"
   ],
   "note": ""
  },
  {
   "property": "C39",
   "status": "proved",
   "theorems": [
    "Chimp.C39_survivors_plus_consumed",
    "Chimp.C39_erasure_queue"
   ],
   "note": ""
  },
  {
   "property": "C40",
   "status": "proved",
   "theorems": [
    "Chimp.C40_pairs_are_live",
    "Chimp.C40_consumed_never_again"
   ],
   "note": ""
  },
  {
   "property": "C41",
   "status": "proved",
   "theorems": [
    "Chimp.C41_homogeneous"
   ],
   "note": ""
  },
  {
   "property": "C42",
   "status": "proved",
   "theorems": [
    "Chimp.C42_out_of_place",
    "Chimp.C42_pairs"
   ],
   "note": ""
  },
  {
   "property": "C43",
   "status": "proved",
   "theorems": [
    "Chimp.C43_results_grow"
   ],
   "note": ""
  },
  {
   "property": "C44",
   "status": "proved",
   "theorems": [
    "Chimp.C44_empty_species_ub_iff"
   ],
   "note": "The driver's undefined behaviour on empty ranges is characterised exactly."
  },
  {
   "property": "C45",
   "status": "proved",
   "theorems": [
    "Chimp.C45_elastic",
    "Chimp.C45_direction"
   ],
   "note": ""
  },
  {
   "property": "C46",
   "status": "proved",
   "theorems": [
    "Chimp.C46_vss",
    "Chimp.C46_deflection",
    "Chimp.C46_exact_power",
    "Chimp.C46_energy_lost"
   ],
   "note": "Exact energy balance, including the proved loss near the x axis; fast_pow is any function with values in [0,1] there."
  },
  {
   "property": "C47",
   "status": "proved",
   "theorems": [
    "Chimp.C47_two_products",
    "Chimp.C47_defined_iff"
   ],
   "note": ""
  },
  {
   "property": "C48",
   "status": "proved",
   "theorems": [
    "Chimp.C48_three_products",
    "Chimp.C48_defined_iff"
   ],
   "note": ""
  },
  {
   "property": "C49",
   "status": "proved",
   "theorems": [
    "Chimp.C49_species_in_order",
    "Chimp.C49_copies_and_placement"
   ],
   "note": ""
  },
  {
   "property": "C50",
   "status": "proved",
   "theorems": [
    "Chimp.C50_least_score",
    "Chimp.C50_massless_products"
   ],
   "note": ""
  },
  {
   "property": "C51",
   "status": "proved",
   "theorems": [
    "Chimp.C51_complete"
   ],
   "note": ""
  },
  {
   "property": "C52",
   "status": "proved",
   "theorems": [
    "Chimp.C52_totals"
   ],
   "note": ""
  },
  {
   "property": "C53",
   "status": "proved",
   "theorems": [
    "Chimp.C53_reads_past",
    "Chimp.C53_two_products_safe"
   ],
   "note": "The out-of-range read is characterised exactly."
  },
  {
   "property": "C54",
   "status": "proved",
   "theorems": [
    "Chimp.C54_constant",
    "Chimp.C54_vhs",
    "Chimp.C54_inverse",
    "Chimp.C54_log",
    "Chimp.C54_energy",
    "Chimp.C54_document"
   ],
   "note": ""
  },
  {
   "property": "C55",
   "status": "proved",
   "theorems": [
    "Chimp.C55_constant",
    "Chimp.C55_inverse",
    "Chimp.C55_vhs"
   ],
   "note": ""
  },
  {
   "property": "C56",
   "status": "proved",
   "theorems": [
    "Chimp.C56_vhs",
    "Chimp.C56_log"
   ],
   "note": "States where findMaxSigmaV is not a bound."
  },
  {
   "property": "C57",
   "status": "proved",
   "theorems": [
    "Chimp.C57_linear",
    "Chimp.C57_points",
    "Chimp.C57_below",
    "Chimp.C57_between",
    "Chimp.C57_nonneg",
    "Chimp.C57_loaded"
   ],
   "note": ""
  },
  {
   "property": "C58",
   "status": "proved",
   "theorems": [
    "Chimp.C58_points",
    "Chimp.C58_attained",
    "Chimp.C58_bound",
    "Chimp.C58_rising",
    "Chimp.C58_exceeded"
   ],
   "note": "Bound for rising tables, exact excess shown for falling segments."
  },
  {
   "property": "C59",
   "status": "proved",
   "theorems": [
    "Chimp.C59_extrapolates",
    "Chimp.C59_best_fit",
    "Chimp.C59_unavailable",
    "Chimp.C59_zero"
   ],
   "note": "Last but one value positive, speeds nonnegative."
  },
  {
   "property": "C60",
   "status": "proved",
   "theorems": [
    "Chimp.C60_trimmed",
    "Chimp.C60_empty",
    "Chimp.C60_zeros"
   ],
   "note": ""
  },
  {
   "property": "C61",
   "status": "proved",
   "theorems": [
    "Chimp.C61_average",
    "Chimp.C61_threshold",
    "Chimp.C61_threshold_mixed",
    "Chimp.C61_threshold_fails"
   ],
   "note": "Includes the finding that a created average can be positive below its threshold energy."
  },
  {
   "property": "C62",
   "status": "proved",
   "theorems": [
    "Chimp.C62_bound"
   ],
   "note": ""
  },
  {
   "property": "C63",
   "status": "proved",
   "theorems": [
    "Chimp.C63_samples",
    "Chimp.C63_failure",
    "Chimp.C63_needs_positive_step"
   ],
   "note": ""
  },
  {
   "property": "C64",
   "status": "proved",
   "theorems": [
    "Chimp.C64_derivative",
    "Chimp.C64_crossSection"
   ],
   "note": "Exact arithmetic; the exponential correction is included."
  },
  {
   "property": "C65",
   "status": "proved",
   "theorems": [
    "Chimp.C65_threshold",
    "Chimp.C65_selected_energy",
    "Chimp.C65_interaction_defined"
   ],
   "note": "Nonnegative cross section values; nonzero total charge for products at the centre of charge; components of averages have thresholds for the reduced mass of the pair."
  },
  {
   "property": "C66",
   "status": "proved",
   "theorems": [
    "Chimp.C66_run_balance",
    "Chimp.C66_run_conserves",
    "Chimp.C66_out_of_place_balance",
    "Chimp.C66_out_of_place",
    "Chimp.C66_mass_and_charge",
    "Chimp.C66_momentum",
    "Chimp.C66_energy",
    "Chimp.C66_energy_elastic",
    "Chimp.C66_products"
   ],
   "note": "Concrete form: cross sections consulted have values, expressions keep velocities, inelastic equations conserve mass (charge); energy without VSS equations."
  },
  {
   "property": "C67",
   "status": "proved",
   "theorems": [
    "Chimp.C67_species_order"
   ],
   "note": ""
  },
  {
   "property": "C68",
   "status": "proved",
   "theorems": [
    "Chimp.C68_factor",
    "Chimp.C68_same_species",
    "Chimp.C68_symmetric",
    "Chimp.C68_not_a_bound"
   ],
   "note": "The natural bound is violated; violation and the factor sqrt 2 are proved."
  },
  {
   "property": "C69",
   "status": "proved",
   "theorems": [
    "Chimp.C69_placement"
   ],
   "note": ""
  },
  {
   "property": "C70",
   "status": "proved",
   "theorems": [
    "Chimp.C70_loaded_wellFormed",
    "Chimp.C70_two_products",
    "Chimp.C70_three_products",
    "Chimp.C70_other_counts"
   ],
   "note": ""
  },
  {
   "property": "C71",
   "status": "proved",
   "theorems": [
    "Chimp.C71_bound",
    "Chimp.C71_plain",
    "Chimp.C71_single",
    "Chimp.C71_succeeds"
   ],
   "note": "The root search is idealised as exact."
  },
  {
   "property": "C72",
   "status": "proved",
   "theorems": [
    "Chimp.C72_interactions_possible"
   ],
   "note": "Sane documents, runnable equations, cross sections consulted have values."
  },
  {
   "property": "C73",
   "status": "proved",
   "theorems": [
    "Chimp.C73_evaluates",
    "Chimp.C73_run"
   ],
   "note": ""
  },
  {
   "property": "C74",
   "status": "proved",
   "theorems": [
    "Chimp.C74_known_models",
    "Chimp.C74_cross_section",
    "Chimp.C74_elastic",
    "Chimp.C74_vss",
    "Chimp.C74_inelastic"
   ],
   "note": "VSS deflection for relative velocities off the x axis by more than 1e-6."
  },
  {
   "property": "C75",
   "status": "proved",
   "theorems": [
    "Chimp.C75_null_collision_rule",
    "Chimp.C75_ratio_le_one",
    "Chimp.C75_announced_speeds",
    "Chimp.C75_library"
   ],
   "note": "In place the speed of each tested pair is a hypothesis; out of place it follows from the cell at the start."
  },
  {
   "property": "C76",
   "status": "proved",
   "theorems": [
    "Chimp.C76_finishes",
    "Chimp.C76_two_species_tests",
    "Chimp.C76_two_species",
    "Chimp.C76_one_species",
    "Chimp.C76_integer_estimate",
    "Chimp.C76_library",
    "Chimp.C76_library_one"
   ],
   "note": "Out of place. Independence and uniformity of the random numbers is the hypothesis RNG.IID; the library models meet the other hypothesis (library_acts)."
  },
  {
   "property": "C77",
   "status": "proved",
   "theorems": [
    "Chimp.C77_isotropic",
    "Chimp.C77_mean"
   ],
   "note": "Exact real arithmetic; independence and uniformity of the random numbers is the hypothesis RNG.IID. An undefined interaction (square root of a negative number) counts as no outgoing particle."
  },
  {
   "property": "C78",
   "status": "proved",
   "theorems": [
    "Chimp.C78_turns",
    "Chimp.C78_parameter_one",
    "Chimp.C78_mean"
   ],
   "note": "Off the x axis only: on it the code loses energy (C46_energy_lost). The power function is assumed exact in C78_mean and C78_parameter_one and measurable in C78_turns."
  },
  {
   "property": "C79",
   "status": "proved",
   "theorems": [
    "Chimp.C79_every_state",
    "Chimp.C79_init_returns",
    "Chimp.C79_exceptions",
    "Chimp.C79_species_after_init_fails"
   ],
   "note": "Without the order of calls the claim is false (C79_species_after_init_fails). Writing through references and user-registered models are not calls of the model."
  },
  {
   "property": "C80",
   "status": "proved",
   "theorems": [
    "Chimp.C80_mean_of_diameters",
    "Chimp.C80_create",
    "Chimp.C80_sampling",
    "Chimp.C80_none_lacking"
   ],
   "note": "At sampled speeds for tabulated averages; between samples the table interpolates (C57)."
  },
  {
   "property": "C81",
   "status": "proved",
   "theorems": [
    "Chimp.C81_database",
    "Chimp.C81_runs"
   ],
   "note": "Runs in place; every cross section consulted must have a value (TestsEvaluate)."
  },
  {
   "property": "C82",
   "status": "proved",
   "theorems": [
    "Chimp.C82_add_names",
    "Chimp.C82_add_model",
    "Chimp.C82_default_filter",
    "Chimp.C82_create_names",
    "Chimp.C82_lookup"
   ],
   "note": "XPath queries and parsing by contract, as in DESIGN.md."
  },
  {
   "property": "C83",
   "status": "proved",
   "theorems": [
    "Chimp.C83_order",
    "Chimp.C83_grouping",
    "Chimp.C83_accepted",
    "Chimp.C83_load",
    "Chimp.C83_print",
    "Chimp.C83_set",
    "Chimp.C83_make",
    "Chimp.C83_list_argument"
   ],
   "note": "What the compiler accepts is modelled by counting base class subobjects; the limits of 12 and 25 arguments are not modelled. Includes the finding on sets as arguments."
  },
  {
   "property": "C84",
   "status": "proved",
   "theorems": [
    "Chimp.C84_loads",
    "Chimp.C84_throws",
    "Chimp.C84_missing_mass"
   ],
   "note": "XPath queries and the parsing of quantities by contract. Includes the finding on a missing mass."
  },
  {
   "property": "C85",
   "status": "proved",
   "theorems": [
    "Chimp.C85_particles",
    "Chimp.C85_no_species",
    "Chimp.C85_sorted",
    "Chimp.C85_setup",
    "Chimp.C85_outcomes",
    "Chimp.C85_returns",
    "Chimp.C85_almost_surely",
    "Chimp.C85_rate_one_species",
    "Chimp.C85_rate_two_species"
   ],
   "note": "NSort and the Inverter distributions by contract. Includes the findings on a species that gets no particle and on a database without species."
  },
  {
   "property": "C86",
   "status": "proved",
   "theorems": [
    "Chimp.C86_average",
    "Chimp.C86_average_low",
    "Chimp.C86_mean_square",
    "Chimp.C86_not_a_deviation",
    "Chimp.C86_fraction"
   ],
   "note": "Exact real arithmetic; Maxwell's distribution is the specification. The finding is that the documented meaning of avg_v_rel and calcStdVFromT does not hold."
  },
  {
   "property": "C87",
   "status": "proved",
   "theorems": [
    "Chimp.C87_print",
    "Chimp.C87_print_zero",
    "Chimp.C87_data",
    "Chimp.C87_values",
    "Chimp.C87_read",
    "Chimp.C87_text",
    "Chimp.C87_loads",
    "Chimp.C87_text_identifies",
    "Chimp.C87_found",
    "Chimp.C87_missing",
    "Chimp.C87_ambiguous",
    "Chimp.C87_elastic_filter",
    "Chimp.C87_counts_below_one"
   ],
   "note": "Writing XML to a file and parsing it is taken to give the same tree; XPath queries by contract; exact masses. The Lotz cross section writer of the Python module is not modelled. Includes the findings on numbers below one."
  },
  {
   "property": "C88",
   "status": "proved",
   "theorems": [
    "Chimp.C88_rows",
    "Chimp.C88_rows_unique",
    "Chimp.C88_rows_none",
    "Chimp.C88_rows_forever",
    "Chimp.C88_single_arguments",
    "Chimp.C88_all_arguments",
    "Chimp.C88_products",
    "Chimp.C88_single_succeeds",
    "Chimp.C88_single",
    "Chimp.C88_single_file",
    "Chimp.C88_single_empty",
    "Chimp.C88_multiplicity",
    "Chimp.C88_all_succeeds",
    "Chimp.C88_all",
    "Chimp.C88_all_file",
    "Chimp.C88_direct"
   ],
   "note": "The order in which the program for all interactions visits pairs is left open. Decimal text of the numbers and the text on the standard output are not modelled; the functions that read numbers from arguments are arbitrary. Particle and product names without colons and non-empty product names are assumed for the program for all interactions. Includes the findings on arguments, endless listings and numbers of reactants."
  },
  {
   "property": "C89",
   "status": "proved",
   "theorems": [
    "Chimp.C89_last",
    "Chimp.C89_defaults",
    "Chimp.C89_order",
    "Chimp.C89_extrapolation",
    "Chimp.C89_auto",
    "Chimp.C89_inplace"
   ],
   "note": "Types given as options are elements of an arbitrary type. The environment variable is read whenever a table is constructed; the theorem is about its value then."
  },
  {
   "property": "C90",
   "status": "proved",
   "theorems": [
    "Chimp.C90_fresh",
    "Chimp.C90_throws",
    "Chimp.C90_own",
    "Chimp.C90_own_ops",
    "Chimp.C90_not_own",
    "Chimp.C90_added_for_all",
    "Chimp.C90_first_database",
    "Chimp.C90_second_database",
    "Chimp.C90_section"
   ],
   "note": "Of the calculator library only the symbol table is explicit; commands, values and compilation are arbitrary functions of it, and reading a value is assumed not to change the table. The theorem on one database with ops loaded in between is for commands and texts that do not depend on the names of the helpers. Includes the findings on several databases."
  },
  {
   "property": "C91",
   "status": "proved",
   "theorems": [
    "Chimp.C91_meaning",
    "Chimp.C91_update",
    "Chimp.C91_products",
    "Chimp.C91_reading",
    "Chimp.C91_centres",
    "Chimp.C91_last",
    "Chimp.C91_safe",
    "Chimp.C91_interaction",
    "Chimp.C91_texts",
    "Chimp.C91_centre_unseen",
    "Chimp.C91_keeps_velocity",
    "Chimp.C91_conserves"
   ],
   "note": "Expressions are trees; what the calculator does apart from the helpers is an arbitrary partial function of the values of the arguments, which are evaluated from left to right. How it parses and prints is arbitrary; the theorem on interactions assumes that calls of CM and CQ are printed as CM() and CQ(), and C91_centre_unseen says what happens otherwise. What an exception leaves behind is not modelled."
  },
  {
   "property": "C92",
   "status": "proved",
   "theorems": [
    "Chimp.C92_formula",
    "Chimp.C92_between",
    "Chimp.C92_threshold",
    "Chimp.C92_one_shell",
    "Chimp.C92_document",
    "Chimp.C92_understated",
    "Chimp.C92_full_correction"
   ],
   "note": "The root search is idealised as exact, with its result in the interval searched. The bound of findMaxSigmaV for several subshells with correction is not covered (several without correction: C71_plain)."
  },
  {
   "property": "C93",
   "status": "proved",
   "theorems": [
    "Chimp.C93_hard_spheres",
    "Chimp.C93_created"
   ],
   "note": "The area is the Lebesgue measure of a set of displacements in the plane."
  },
  {
   "property": "C94",
   "status": "proved",
   "theorems": [
    "Chimp.C94_registered",
    "Chimp.C94_load",
    "Chimp.C94_call",
    "Chimp.C94_history",
    "Chimp.C94_library",
    "Chimp.C94_unused_names",
    "Chimp.C94_registering_only",
    "Chimp.C94_replacing_elastic",
    "Chimp.C94_label_misleads",
    "Chimp.C94_reading_an_entry"
   ],
   "note": "A prototype is an arbitrary function of the element, the equation so far, the reduced mass and the species; one that changes the database or the registries while loading is not modelled. Which of several faults of one Interaction is reported is not claimed."
  },
  {
   "property": "C95",
   "status": "proved",
   "theorems": [
    "Chimp.C95_pair",
    "Chimp.C95_every_position",
    "Chimp.C95_frequency",
    "Chimp.C95_open_channel",
    "Chimp.C95_severe_iff",
    "Chimp.C95_acceptance",
    "Chimp.C95_selected"
   ],
   "note": "Rounding is to the nearest number with p binary digits and any exponent, ties in any direction: overflow and underflow are not modelled. Cross sections and their values are arbitrary numbers; how they are computed is not part of this property."
  },
  {
   "property": "C96",
   "status": "proved",
   "theorems": [
    "Chimp.C96_survivors_plus_consumed",
    "Chimp.C96_erasure_queue",
    "Chimp.C96_pairs_are_live",
    "Chimp.C96_homogeneous",
    "Chimp.C96_out_of_place",
    "Chimp.C96_results_grow",
    "Chimp.C96_open_channels",
    "Chimp.C96_number_of_tests",
    "Chimp.C96_stuck",
    "Chimp.C96_endless",
    "Chimp.C96_driver_finishes"
   ],
   "note": "As C95. Weights and masses are arbitrary real numbers; particles, relative speeds and interactions are arbitrary functions, so what is rounded in them does not matter. The bound on the number of tests needs an estimate of at most 2^p - 2. Includes the finding on estimates above 2^(p+1)."
  },
  {
   "property": "C97",
   "status": "proved",
   "theorems": [
    "Chimp.C97_elastic",
    "Chimp.C97_no_energy_change",
    "Chimp.C97_exothermic",
    "Chimp.C97_constant_far",
    "Chimp.C97_constant_double",
    "Chimp.C97_constant_above",
    "Chimp.C97_constant_nan",
    "Chimp.C97_constant_finding",
    "Chimp.C97_data_above",
    "Chimp.C97_data",
    "Chimp.C97_data_zero_start",
    "Chimp.C97_data_finding"
   ],
   "note": "As C95: rounding to nearest with p digits and unbounded exponent. Cosine, sine and pi are arbitrary functions and an arbitrary number. Where the code rounds -E and E/m the rounding is assumed symmetric, as ties to even is. NaN is the outcome none of a root of a negative number. Extrapolation beyond a table is an arbitrary function."
  },
  {
   "property": "C98",
   "status": "proved",
   "theorems": [
    "Chimp.C98_exact_operations",
    "Chimp.C98_elastic",
    "Chimp.C98_two_products",
    "Chimp.C98_three_products",
    "Chimp.C98_elastic_double",
    "Chimp.C98_direction",
    "Chimp.C98_elastic_follows",
    "Chimp.C98_direction_half"
   ],
   "note": "As C95: rounding to nearest with p digits and unbounded exponent, no overflow or underflow. The library is any pair of functions bounded by one and within kappa of cosine and sine; that a given libm is such a library is not proved. The bounds are worst case and not sharp. The reduced masses and scales are those computed from the given masses, which need not be p digit numbers. ops expressions are left out. The directions and the comparison with exact velocities are for the elastic model."
  },
  {
   "property": "C99",
   "status": "proved",
   "theorems": [
    "Chimp.C99_drift",
    "Chimp.C99_drift_signed",
    "Chimp.C99_elastic_run"
   ],
   "note": "As C96 and C98: unbounded exponent, a library within kappa of cosine and sine. Interactions in place; all cross sections nonnegative; the cell starts with an empty log and homogeneous ranges. The bound for a gas is for elastic collisions; other models enter through the hypotheses on single interactions (C98_two_products, C98_three_products)."
  },
  {
   "property": "C100",
   "status": "proved",
   "theorems": [
    "Chimp.C100_exact_operations",
    "Chimp.C100_constant",
    "Chimp.C100_inverse",
    "Chimp.C100_inverse_exceeds",
    "Chimp.C100_vhs",
    "Chimp.C100_table",
    "Chimp.C100_table_bound",
    "Chimp.C100_table_point_off",
    "Chimp.C100_table_overshoots",
    "Chimp.C100_table_exceeds",
    "Chimp.C100_average",
    "Chimp.C100_average_bound"
   ],
   "note": "As C95: rounding to nearest with p digits and unbounded exponent, so the smallest positive double added in the VHS formula is an arbitrary positive number. The power function of the library has a relative error kappa; the viscosity exponent is a p digit number from 1/2 to 1. Tables have increasing speeds and nonnegative entries, and speeds are not beyond the last one. Logarithmic and Lotz cross sections are not covered; sampled averages are in C101."
  },
  {
   "property": "C101",
   "status": "proved",
   "theorems": [
    "Chimp.C101_exact_operations",
    "Chimp.C101_samples",
    "Chimp.C101_endless",
    "Chimp.C101_failure"
   ],
   "note": "As C100. Between the two limits, for vmax/dv from 2^(p-2) to 2^(p+1), nothing is claimed. An endless loop is the outcome none for every number of rounds."
  },
  {
   "property": "C102",
   "status": "proved",
   "theorems": [
    "Chimp.C102_species",
    "Chimp.C102_species_named",
    "Chimp.C102_set",
    "Chimp.C102_set_named",
    "Chimp.C102_lookups_kept",
    "Chimp.C102_rename",
    "Chimp.C102_equation_masses",
    "Chimp.C102_written_first",
    "Chimp.C102_names_distinct",
    "Chimp.C102_stale_masses",
    "Chimp.C102_created",
    "Chimp.C102_reversed"
   ],
   "note": "Real arithmetic. A write is any function of the value referred to; references kept across a reallocation are not modelled. Equations written by the program itself are not restricted."
  },
  {
   "property": "C103",
   "status": "proved",
   "theorems": [
    "Chimp.C103_policy_as_database",
    "Chimp.C103_same_run",
    "Chimp.C103_default",
    "Chimp.C103_told",
    "Chimp.C103_mean_told",
    "Chimp.C103_rate"
   ],
   "note": "A monitor reads and keeps a state of its own; a monitor that writes to the particles through the iterators it is handed is not modelled. The class for the maximum may depend on the interactions, the particles and the ranges of the cell. C103_rate: real arithmetic, out of place, random numbers in [0, 1)."
  },
  {
   "property": "C104",
   "status": "proved",
   "theorems": [
    "Chimp.C104_erase",
    "Chimp.C104_balance",
    "Chimp.C104_number",
    "Chimp.C104_cells",
    "Chimp.C104_steps",
    "Chimp.C104_returns",
    "Chimp.C104_library",
    "Chimp.C104_out_of_place"
   ],
   "note": "the program around the driver is a model of a user's program: grouping is that of examples/simtest/sortSpecies.h, erasing and inserting follow DriverRetval's contract; motion and placement are arbitrary. In exact arithmetic."
  },
  {
   "property": "C105",
   "status": "proved",
   "theorems": [
    "Chimp.C105_exact_operations",
    "Chimp.C105_log_value",
    "Chimp.C105_log_sign",
    "Chimp.C105_lotz_value",
    "Chimp.C105_lotz_nonneg",
    "Chimp.C105_lotz_threshold",
    "Chimp.C105_lotz_max",
    "Chimp.C105_lotz_peak",
    "Chimp.C105_lotz_negative"
   ],
   "note": "Overflow and underflow are idealised as in C95 to C101. The accuracy of log10, log and exp, and what the root search returns, are hypotheses about the C and Boost libraries. The bound on findMaxSigmaV is for one shell without exponential correction."
  },
  {
   "property": "C106",
   "status": "proved",
   "theorems": [
    "Chimp.C106_pair",
    "Chimp.C106_finishes",
    "Chimp.C106_stationary",
    "Chimp.C106_many_runs",
    "Chimp.C106_temperature",
    "Chimp.C106_vss_cools"
   ],
   "note": "Exact arithmetic. The maxima announced by the cell (maxRelativeVelocity) are constants of a run, not computed from the sampled velocities; weights do not depend on the velocity. Particles do not move between the runs. Cross sections made by averaging are assumed measurable; those loaded are proved measurable."
  },
  {
   "property": "C107",
   "status": "proved",
   "theorems": [
    "Chimp.C107_constant",
    "Chimp.C107_inverse",
    "Chimp.C107_vhs",
    "Chimp.C107_vhs_negative"
   ],
   "note": "Exact arithmetic; tgamma and the power function are exact. VHS is without a threshold; at 3/2 <= visc_T_law the guard bound is not finite and nothing is claimed."
  },
  {
   "property": "C108",
   "status": "proved",
   "theorems": [
    "Chimp.C108_elastic",
    "Chimp.C108_vss",
    "Chimp.C108_elastic_means",
    "Chimp.C108_vss_means",
    "Chimp.C108_viscosity"
   ],
   "note": "Exact arithmetic. The formula that gives the viscosity from the viscosity cross section (first Chapman-Enskog approximation) is part of the specification. It is evaluated for the elastic model only: with VSS all pairs slower than 1e-6 take the branch near the x axis, where the law of the angle is another."
  },
  {
   "property": "C109",
   "status": "proved",
   "theorems": [
    "Chimp.C109_exchange",
    "Chimp.C109_heat",
    "Chimp.C109_hot_to_cold",
    "Chimp.C109_means_exist",
    "Chimp.C109_inverse"
   ],
   "note": "Exact arithmetic. C109_heat and C109_hot_to_cold assume that the means exist; C109_means_exist shows that they do when |sigma(v)| v is at most A (1 + v^2)."
  },
  {
   "property": "C110",
   "status": "proved",
   "theorems": [
    "Chimp.C110_read",
    "Chimp.C110_rejected",
    "Chimp.C110_energy_or_speed",
    "Chimp.C110_threshold_sign",
    "Chimp.C110_declared",
    "Chimp.C110_python_vhs",
    "Chimp.C110_python_lotz",
    "Chimp.C110_python_shell",
    "Chimp.C110_python_lotz_named",
    "Chimp.C110_vss"
   ],
   "note": "The calculator, the parser for sets of pairs and the choice of children by the parser for vectors belong to other libraries and are arbitrary functions. C110_python_lotz covers two rules for that choice."
  },
  {
   "property": "C111",
   "status": "proved",
   "theorems": [
    "Chimp.C111_pairs",
    "Chimp.C111_pairs_one",
    "Chimp.C111_mass_action",
    "Chimp.C111_mass_action_one",
    "Chimp.C111_thermal",
    "Chimp.C111_thermal_one",
    "Chimp.C111_arrhenius"
   ],
   "note": "C111_pairs and C111_pairs_one count the interactions of a cell with given velocities (C76 for one pair); C111_mass_action and C111_mass_action_one take the mean over random velocities; C111_thermal, C111_thermal_one and C111_arrhenius insert the rate coefficients of C107. Out of place; the estimate must almost surely not be an integer (C76_integer_estimate)."
  },
  {
   "property": "C112",
   "status": "proved",
   "theorems": [
    "Chimp.C112_written",
    "Chimp.C112_content",
    "Chimp.C112_cross_section_content",
    "Chimp.C112_python_elastic",
    "Chimp.C112_python_vss",
    "Chimp.C112_python_no_energy"
   ],
   "note": "The calculator for texts with units and the conversion of text to integers are arbitrary functions (ReadsNumbers for the latter). Which of several faults of an element is reported is not claimed."
  },
  {
   "property": "C113",
   "status": "proved",
   "theorems": [
    "Chimp.C113_push",
    "Chimp.C113_push_vss",
    "Chimp.C113_drag",
    "Chimp.C113_inverse",
    "Chimp.C113_means_exist",
    "Chimp.C113_opposes"
   ],
   "note": "Exact arithmetic; for VSS the power function is exact and the relative velocity is off the x axis. C113_drag and C113_opposes assume that the means exist; C113_means_exist shows that they do when |sigma(v)| v^2 is at most A (1 + v^2)."
  },
  {
   "property": "C114",
   "status": "proved",
   "theorems": [
    "Chimp.C114_text",
    "Chimp.C114_side",
    "Chimp.C114_elastic_label",
    "Chimp.C114_reactants",
    "Chimp.C114_read",
    "Chimp.C114_document",
    "Chimp.C114_loads",
    "Chimp.C114_two_equations"
   ],
   "note": "The syntax and rules of the part of XPath 1.0 that the library uses are modelled; the parser of libxml2 is not. Names are taken not to contain a quote. C114_read and C114_document assume one equation with one In and one Out per interaction, product names that are plain text, and that integers read the same in both libraries."
  },
  {
   "property": "C115",
   "status": "proved",
   "theorems": [
    "Chimp.C115_add_name",
    "Chimp.C115_names",
    "Chimp.C115_table",
    "Chimp.C115_session"
   ],
   "note": "Assumes one equation with one In and one Out per interaction, species names without a colon, a root element other than Eq, and that integers read the same in both libraries. Taken of the XML library: a query with a default throws if several elements match. Creation of missing cross sections is not part of this property (C81)."
  },
  {
   "property": "C116",
   "status": "proved",
   "theorems": [
    "Chimp.C116_filter",
    "Chimp.C116_written",
    "Chimp.C116_model",
    "Chimp.C116_model_throws",
    "Chimp.C116_database"
   ],
   "note": "Which of several faults of one element is reported is not claimed. C116_written is for terms with numbers of at least zero. C116_database has the assumptions of C115 on the document. The parsing of a vector by the XML library is taken to go through all child elements."
  },
  {
   "property": "C117",
   "status": "proved",
   "theorems": [
    "Chimp.C117_translation",
    "Chimp.C117_agrees",
    "Chimp.C117_twice",
    "Chimp.C117_differs",
    "Chimp.C117_written"
   ],
   "note": "Assumes that Python's eval of a translated text gives the coefficient that the calculator of the library gives for the text. C117_twice, C117_differs: where the two differ."
  },
  {
   "property": "C118",
   "status": "proved",
   "theorems": [
    "Chimp.C118_history",
    "Chimp.C118_equations",
    "Chimp.C118_default",
    "Chimp.C118_runs"
   ],
   "note": "For a new database with one addModel and one initBinaryInteractions, without creation of missing elastic equations, and in-place collisions. The hypotheses on the document are those of C116."
  },
  {
   "property": "C119",
   "status": "proved",
   "theorems": [
    "Chimp.C119_finishes",
    "Chimp.C119_simulation",
    "Chimp.C119_no_exceptions",
    "Chimp.C119_any_model",
    "Chimp.C119_spheres",
    "Chimp.C119_formulas",
    "Chimp.C119_tables"
   ],
   "note": "In-place collisions and exact arithmetic. The hypotheses on the document are those of C116. Covers (Props/Whole) lists for every kind of cross section when its value is finite."
  }
 ]
}