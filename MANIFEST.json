{
 "claims": [
  {
   "property": "C01",
   "status": "proved",
   "theorems": [
    "Smol.C01_trace_matches",
    "Smol.C01_ensemble_trace_matches",
    "Smol.C01_kept_traces_fail"
   ],
   "note": "Proved for what save_sampled_trace records. A caller who keeps the yielded objects sees only the last state (C01_kept_traces_fail)."
  },
  {
   "property": "C02",
   "status": "proved",
   "theorems": [
    "Smol.C02_change_is_difference",
    "Smol.C02_change_error_iff",
    "Smol.C02_feature_vector_value"
   ],
   "note": ""
  },
  {
   "property": "C03",
   "status": "proved",
   "theorems": [
    "Smol.C03_change_is_difference",
    "Smol.C03_change_error_iff",
    "Smol.C03_feature_vector_value"
   ],
   "note": ""
  },
  {
   "property": "C04",
   "status": "proved",
   "theorems": [
    "Smol.C04_change_is_difference",
    "Smol.C04_energy_value",
    "Smol.C04_index_array_well_formed",
    "Smol.C04_index_array_species"
   ],
   "note": ""
  },
  {
   "property": "C05",
   "status": "partial",
   "theorems": [
    "Smol.C05_property_is_sum_partial",
    "Smol.C05_change_is_difference_partial",
    "Smol.C05_feature_error_iff",
    "Smol.C05_mixed_shapes_fail"
   ],
   "note": "Holds whenever the code returns a feature vector; the composite raises when its second, third, ... parts differ in shape (C05_mixed_shapes_fail, C05_feature_error_iff)."
  },
  {
   "property": "C06",
   "status": "proved",
   "theorems": [
    "Smol.C06_change_is_difference",
    "Smol.C06_last_entry_is_work",
    "Smol.C06_repeated_site_fails",
    "Smol.C06_processors_exact"
   ],
   "note": "Proved for distinct sites; for a repeated site the negation is proved (C06_repeated_site_fails)."
  },
  {
   "property": "C07",
   "status": "proved",
   "theorems": [
    "Smol.C07_acceptance_probability",
    "Smol.C07_draws_iff_negative",
    "Smol.C07_exponent"
   ],
   "note": ""
  },
  {
   "property": "C08",
   "status": "proved",
   "theorems": [
    "Smol.C08_flip_detailed_balance"
   ],
   "note": ""
  },
  {
   "property": "C09",
   "status": "proved",
   "theorems": [
    "Smol.C09_swap_detailed_balance"
   ],
   "note": ""
  },
  {
   "property": "C10",
   "status": "proved",
   "theorems": [
    "Smol.C10_table_detailed_balance",
    "Smol.C10_factor_is_ratio"
   ],
   "note": ""
  },
  {
   "property": "C11",
   "status": "proved",
   "theorems": [
    "Smol.C11_compound_detailed_balance",
    "Smol.C11_multi_of_mixed_fails",
    "Smol.C11_table_inside_fails"
   ],
   "note": "Proved for MultiStep of flips or of swaps and composites of these. Fails for MultiStep of a mixed Composite (C11_multi_of_mixed_fails) and with TableFlip inside a compound usher (C11_table_inside_fails)."
  },
  {
   "property": "C12",
   "status": "proved",
   "theorems": [
    "Smol.C12_steps_legal",
    "Smol.C12_flip_changes",
    "Smol.C12_swap_exchanges",
    "Smol.C12_never_raises",
    "Smol.C12_default_probabilities"
   ],
   "note": ""
  },
  {
   "property": "C13",
   "status": "proved",
   "theorems": [
    "Smol.C13_inactive_sites_fixed",
    "Smol.C13_restricted_sites_fixed",
    "Smol.C13_restrict_after_table_fails"
   ],
   "note": "Proved for restrictions made before the ushers are built. Fails for sites restricted after a TableFlip was built (C13_restrict_after_table_fails)."
  },
  {
   "property": "C14",
   "status": "proved",
   "theorems": [
    "Smol.C14_swaps_conserve"
   ],
   "note": ""
  },
  {
   "property": "C15",
   "status": "proved",
   "theorems": [
    "Smol.C15_constraints_kept"
   ],
   "note": ""
  },
  {
   "property": "C16",
   "status": "proved",
   "theorems": [
    "Smol.C16_active_after_history",
    "Smol.C16_restricted_complement",
    "Smol.C16_restrict_idem_comm",
    "Smol.C16_split_parts",
    "Smol.C16_split_partitions_sites",
    "Smol.C16_split_succeeds_iff",
    "Smol.C16_split_after_full_restriction_fails",
    "Smol.C16_split_by_names"
   ],
   "note": "Also proved: splitting a fully restricted sublattice raises (C16_split_after_full_restriction_fails)."
  },
  {
   "property": "C17",
   "status": "proved",
   "theorems": [
    "Smol.C17_parameters_in_step",
    "Smol.C17_set_succeeds_iff",
    "Smol.C17_table_prices_active",
    "Smol.C17_split_replaces",
    "Smol.C17_enthalpy",
    "Smol.C17_reset_leaves_unpriced"
   ],
   "note": "Table correctness fails after unfreezing a sublattice that was frozen when the potentials were set (C17_reset_leaves_unpriced); an ensemble on a bare Ewald processor cannot be built."
  },
  {
   "property": "C18",
   "status": "proved",
   "theorems": [
    "Smol.C18_table_correct",
    "Smol.C18_counts_and_species_list",
    "Smol.C18_delta_counts",
    "Smol.C18_delta_error_iff"
   ],
   "note": ""
  },
  {
   "property": "C19",
   "status": "proved",
   "theorems": [
    "Smol.C19_fugacity_change",
    "Smol.C19_fugacity_value",
    "Smol.C19_fugacity_refused",
    "Smol.C19_charge_change",
    "Smol.C19_charge_value",
    "Smol.C19_hyperplane_change",
    "Smol.C19_hyperplane_value"
   ],
   "note": "Bias changes are exact differences for steps with distinct sites; construction of FugacityBias refuses what cannot be a distribution."
  },
  {
   "property": "C20",
   "status": "proved",
   "theorems": [
    "Smol.C20_holds_saved",
    "Smol.C20_total_steps",
    "Smol.C20_save_error_iff",
    "Smol.C20_getter",
    "Smol.C20_unused_rows_returned",
    "Smol.C20_energies",
    "Smol.C20_live_parameters_fail"
   ],
   "note": "Getters also return rows that were allocated but never filled (C20_unused_rows_returned). C20_energies takes the natural parameters of the time of sampling; the container reads those of the ensemble when asked, so removing chemical potentials afterwards changes get_energies (C20_live_parameters_fail)."
  },
  {
   "property": "C21",
   "status": "proved",
   "theorems": [
    "Smol.C21_stream_appends",
    "Smol.C21_file_size",
    "Smol.C21_repeated_runs",
    "Smol.C21_same_as_memory",
    "Smol.C21_tail_lost",
    "Smol.C21_keep_remainder_raises",
    "Smol.C21_stream_after_memory_raises"
   ],
   "note": "Streamed data equal in-memory data when the chunk divides the run; otherwise the tail is lost (C21_tail_lost), and mixing with earlier in-memory samples raises."
  },
  {
   "property": "C22",
   "status": "proved",
   "theorems": [
    "Smol.C22_split_run",
    "Smol.C22_container"
   ],
   "note": ""
  },
  {
   "property": "C23",
   "status": "partial",
   "theorems": [
    "Smol.C23_flat_minimum",
    "Smol.C23_single_sample_fails",
    "Smol.C23_one_walker_partial",
    "Smol.C23_walkers_fail"
   ],
   "note": "Proved for flat=True with two or more selected samples and for one walker. Fails for one selected sample (C23_single_sample_fails) and for several walkers (C23_walkers_fail)."
  },
  {
   "property": "C24",
   "status": "proved",
   "theorems": [
    "Smol.C24_stays_in_window",
    "Smol.C24_resume",
    "Smol.C24_started_outside"
   ],
   "note": "Exact arithmetic; np.arange and // are taken as ceiling and floor. Starts outside the window are accepted by the code and go wrong (C24_started_outside)."
  },
  {
   "property": "C25",
   "status": "proved",
   "theorems": [
    "Smol.C25_accept_rule",
    "Smol.C25_bookkeeping",
    "Smol.C25_histogram_total",
    "Smol.C25_entropy_monotone",
    "Smol.C25_mod_factor"
   ],
   "note": ""
  },
  {
   "property": "C26",
   "status": "partial",
   "theorems": [
    "Smol.C26_mean_features_partial",
    "Smol.C26_update_period_fails"
   ],
   "note": "Proved for update_period = 1; the negation is proved for update_period = 2 (C26_update_period_fails)."
  },
  {
   "property": "C27",
   "status": "proved",
   "theorems": [
    "Smol.C27_rows_match_cell",
    "Smol.C27_rows_match_cell_resumed",
    "Smol.C27_hop_period"
   ],
   "note": "One walker, kernels without bias."
  },
  {
   "property": "C28",
   "status": "partial",
   "theorems": [
    "Smol.C28_memory_overwritten",
    "Smol.C28_memory_kept_partial",
    "Smol.C28_resumes_elsewhere"
   ],
   "note": "The code violates the claim (C28_memory_overwritten, C28_resumes_elsewhere); proved only for cells whose array is not shared."
  },
  {
   "property": "C29",
   "status": "partial",
   "theorems": [
    "Smol.C29_seed_determines_run_partial",
    "Smol.C29_only_seeded_generator",
    "Smol.C29_table_flip_fails",
    "Smol.C29_named_inner_ushers_fail"
   ],
   "note": "Proved for ushers that draw only from the kernel's generator. Fails for TableFlip (C29_table_flip_fails) and for named ushers inside MultiStep or Composite (C29_named_inner_ushers_fail)."
  },
  {
   "property": "C30",
   "status": "proved",
   "theorems": [
    "Smol.C30_gcdex",
    "Smol.C30_recursion",
    "Smol.C30_sign"
   ],
   "note": "gcdex satisfies the Bezout identity; the sign of g can be negative (C30_sign)."
  },
  {
   "property": "C31",
   "status": "partial",
   "theorems": [
    "Smol.C31_smith_partial",
    "Smol.C31_chain_of_two",
    "Smol.C31_not_a_chain"
   ],
   "note": "Termination, m = s a t, unimodularity and diagonal form proved for all shapes. The divisor chain is false for three or more diagonal entries (C31_not_a_chain: diag(2,4,3) gives diag(2,1,12)); true for at most two."
  },
  {
   "property": "C32",
   "status": "partial",
   "theorems": [
    "Smol.C32_raises_only_if_unsolvable",
    "Smol.C32_generated_solve",
    "Smol.C32_solutions_partial",
    "Smol.C32_full_row_rank",
    "Smol.C32_inconsistent_accepted",
    "Smol.C32_redundant_loses_solutions",
    "Smol.C32_default_raises"
   ],
   "note": "General solution proved when at most one rank is lost and the system is solvable; raising implies unsolvable; generated vectors always solve. The code violates the rest: inconsistent redundant systems are accepted and two redundant equations lose basis vectors."
  },
  {
   "property": "C33",
   "status": "proved",
   "theorems": [
    "Smol.C33_natural_solutions",
    "Smol.C33_all_solutions",
    "Smol.C33_empty_one_dim",
    "Smol.C33_grid",
    "Smol.C33_grid_enumerates_compositions"
   ],
   "note": "Completeness and soundness of get_natural_solutions for every dimension and step, given a linear programming solver accurate to within the code's tolerance on the polytope and its integer slices (Spec.AccurateLp), and entries of the basis below 1/tol. Composition grids: one-to-one with the natural compositions satisfying the constraints."
  },
  {
   "property": "C34",
   "status": "proved",
   "theorems": [
    "Smol.C34_cache_invisible",
    "Smol.C34_scaled_grid_sound",
    "Smol.C34_gcd_reduction_raises"
   ],
   "note": "Proved: the result never depends on the call history. Violation found and proved (C34_gcd_reduction_raises): a call with non-coprime size and step is reduced to a smaller supercell that may have no integer composition, and then raises."
  },
  {
   "property": "C35",
   "status": "proved",
   "theorems": [
    "Smol.C35_determinant",
    "Smol.C35_exactly_one",
    "Smol.C35_each_once"
   ],
   "note": ""
  },
  {
   "property": "C36",
   "status": "proved",
   "theorems": [
    "Smol.C36_representatives"
   ],
   "note": "Symmetry operations are integer rotation matrices closed under inverses (HasInverses) and size times tolerance at most 1; beyond that the tolerance can identify inequivalent supercells."
  },
  {
   "property": "C37",
   "status": "proved",
   "theorems": [
    "Smol.C37_mask_feasible",
    "Smol.C37_direction_probability",
    "Smol.C37_direction_chosen"
   ],
   "note": ""
  },
  {
   "property": "C38",
   "status": "partial",
   "theorems": [
    "Smol.C38_translate",
    "Smol.C38_representation_unique",
    "Smol.C38_round_trip",
    "Smol.C38_rounding",
    "Smol.C38_refusals",
    "Smol.C38_base_solution_partial",
    "Smol.C38_base_solution_missing",
    "Smol.C38_rank_condition"
   ],
   "note": "Conversions between all formats round-trip, unconstrained coordinates represent every composition exactly once, refusals are exact. Partial because the claim that a base solution is always found is false: _get_base_solution is only searched at the smallest size with integer right-hand sides (C38_base_solution_missing is the witness; C38_base_solution_partial the true part). numpy pinv and min_supercell_size are inputs characterised by hypotheses, optimize_basis=False, exact rational arithmetic."
  },
  {
   "property": "C39",
   "status": "proved",
   "theorems": [
    "Smol.C39_side",
    "Smol.C39_two_numbers_refused",
    "Smol.C39_leading_number_ignored",
    "Smol.C39_text",
    "Smol.C39_unknown_name",
    "Smol.C39_relation_required",
    "Smol.C39_line_break_refused",
    "Smol.C39_numbers",
    "Smol.C39_large_fractions_lost",
    "Smol.C39_trailing_sign",
    "Smol.C39_words",
    "Smol.C39_stored_means_entries"
   ],
   "note": "Stated on the text: sides as typed (signs, numbers, names, sublattice indices), spaced in any way on one line. Names are looked up by a parameter (pymatgen's species parser is not modelled). Findings, proved: a number that is not directly before a species nor last in its side is silently dropped, a sign at the end of a side reads as plus or minus one, numbers within numpy.isclose of an integer are rounded, so that from 50001 on every fraction is lost."
  },
  {
   "property": "C40",
   "status": "partial",
   "theorems": [
    "Smol.C40_second_assignment_ignored",
    "Smol.C40_unknown_relation_dropped",
    "Smol.C40_after_delete_partial"
   ],
   "note": "The property is violated by the code: C40_second_assignment_ignored and C40_unknown_relation_dropped prove it for every state; C40_after_delete_partial is what holds."
  },
  {
   "property": "C41",
   "status": "proved",
   "theorems": [
    "Smol.C41_decode_encode",
    "Smol.C41_encode_decode",
    "Smol.C41_encode_rejects",
    "Smol.C41_decode_rejects",
    "Smol.C41_short_occupancy_accepted",
    "Smol.C41_site_space",
    "Smol.C41_allowed_species",
    "Smol.C41_sublattices",
    "Smol.C41_double_claim",
    "Smol.C41_double_claim_vacancy"
   ],
   "note": "Species are compared as the code does; the theorems include the cases where two sublattices claim one site and where encode accepts a short occupancy."
  },
  {
   "property": "C42",
   "status": "proved",
   "theorems": [
    "Smol.C42_correlations",
    "Smol.C42_interactions",
    "Smol.C42_delta_correlations",
    "Smol.C42_delta_interactions",
    "Smol.C42_terminates",
    "Smol.C42_num_threads",
    "Smol.C42_shared_slot_fails"
   ],
   "note": "Parallel loops modelled at the level of single statements with arbitrary interleaving of threads; float addition within an iteration is sequential so no reassociation arises."
  },
  {
   "property": "C43",
   "status": "proved",
   "theorems": [
    "Smol.C43_ids",
    "Smol.C43_function_orbit_ids",
    "Smol.C43_remove_functions",
    "Smol.C43_remove_orbits"
   ],
   "note": "Orbit contents are abstract (tag, multiplicity, bit combos); the numbering and all removals are modelled exactly."
  },
  {
   "property": "C44",
   "status": "proved",
   "theorems": [
    "Smol.C44_prune",
    "Smol.C44_prune_misaligned",
    "Smol.C44_prune_raises",
    "Smol.C44_feature_matrix"
   ],
   "note": "Exact arithmetic over an ordered field; statement records the cases where pruning misaligns or raises."
  },
  {
   "property": "C45",
   "status": "proved",
   "theorems": [
    "Smol.C45_partition",
    "Smol.C45_not_group_fails",
    "Smol.C45_symmetric"
   ],
   "note": "Cluster permutations are an input; group and compatibility with the site spaces are hypotheses (they come from space-group symmetry, computed with coordinates outside the model)."
  },
  {
   "property": "C46",
   "status": "proved",
   "theorems": [
    "Smol.C46_lookup",
    "Smol.C46_injective",
    "Smol.C46_correlation_vector"
   ],
   "note": "Array memory layout in C order is modelled; float arithmetic is exact field arithmetic."
  },
  {
   "property": "C47",
   "status": "proved",
   "theorems": [
    "Smol.C47_expansion_energy",
    "Smol.C47_orbit_share",
    "Smol.C47_decomposition_energy",
    "Smol.C47_energy_change"
   ],
   "note": "Exact field arithmetic of characteristic zero."
  },
  {
   "property": "C48",
   "status": "partial",
   "theorems": [
    "Smol.C48_invert_raises",
    "Smol.C48_invert",
    "Smol.C48_invert_twice",
    "Smol.C48_complete",
    "Smol.C48_complete_diverges",
    "Smol.C48_complete_outside",
    "Smol.C48_sub_orbits_partial",
    "Smol.C48_min_size_ignored",
    "Smol.C48_orbit_hierarchy",
    "Smol.C48_missing_size_raises",
    "Smol.C48_sub_functions"
   ],
   "note": "invert_mapping, get_complete_mapping (termination exactly for acyclic tables), get_sub_orbits, orbit_hierarchy modelled. C48_sub_orbits_partial covers min_size <= 1 or 0 <= level < size; otherwise min_size is ignored by the code (C48_min_size_ignored). A size without orbits raises KeyError (C48_missing_size_raises). Geometric is_sub_orbit and the site mappings are inputs."
  },
  {
   "property": "C49",
   "status": "proved",
   "theorems": [
    "Smol.C49_groups",
    "Smol.C49_disjoint"
   ],
   "note": "Cluster indices of the orbits in the supercell are inputs."
  },
  {
   "property": "C50",
   "status": "proved",
   "theorems": [
    "Smol.C50_auxiliary_products",
    "Smol.C50_auxiliary_values",
    "Smol.C50_objective_terms",
    "Smol.C50_cutoff_error",
    "Smol.C50_no_variables",
    "Smol.C50_objective_is_energy",
    "Smol.C50_other_raises"
   ],
   "note": "Feasible auxiliary values are exactly the products; without a cutoff the objective of every feasible assignment is the sum of all terms, and for the terms of expansion, decomposition and Ewald processors this is the processors' energy of the decoded occupancy minus the chemical work. With a cutoff the error is at most cutoff per term. Numbers are an ordered field."
  },
  {
   "property": "C51",
   "status": "proved",
   "theorems": [
    "Smol.C51_variables",
    "Smol.C51_variables_raise",
    "Smol.C51_decode",
    "Smol.C51_encode",
    "Smol.C51_decode_raises",
    "Smol.C51_components",
    "Smol.C51_fixed_composition",
    "Smol.C51_fixed_composition_raises",
    "Smol.C51_space_constraints",
    "Smol.C51_space_constraints_raise",
    "Smol.C51_original_fits",
    "Smol.C51_split_fits"
   ],
   "note": "Variables, decoding, encoding, component sums and composition / composition-space constraints of the ground-state solver for any sublattices; hypotheses (partition of sites, matching site spaces, initial occupancy legal where restricted) discharged for sublattices built by the code and after splits (C51_original_fits, C51_split_fits). The cvxpy objects are represented by index lists and linear rows."
  },
  {
   "property": "C52",
   "status": "partial",
   "theorems": [
    "Smol.C52_solution",
    "Smol.C52_results_partial",
    "Smol.C52_reset_clears",
    "Smol.C52_stale_occupancy",
    "Smol.C52_truncated_solution"
   ],
   "note": "Positive part needs that no solve follows a look at earlier results without reset; the full claim is false (C52_stale_occupancy), and values are truncated instead of rounded (C52_truncated_solution). The MILP solver itself is an arbitrary input."
  },
  {
   "property": "C53",
   "status": "partial",
   "theorems": [
    "Smol.C53_unconstrained",
    "Smol.C53_neutral",
    "Smol.C53_neutral_inactive_raises",
    "Smol.C53_composition_partial",
    "Smol.C53_all_arrangements",
    "Smol.C53_remaining_sublattices_zero",
    "Smol.C53_missing_species_raises",
    "Smol.C53_leftover_gets_code_zero",
    "Smol.C53_seeded",
    "Smol.C53_neutral_not_seeded"
   ],
   "note": "Unconstrained results are exactly the allowed occupancies; neutral results have allowed codes and zero charge; with compositions that fill the sublattice every species is held as often as requested, and all arrangements can occur. Proved failures: left-over sites get code 0, sublattices without a composition get code 0, unnamed species raise, neutral results ignore the seed. Numbers are exact; Prog draws."
  },
  {
   "property": "C54",
   "status": "partial",
   "theorems": [
    "Smol.C54_cleared",
    "Smol.C54_best_since_clear",
    "Smol.C54_continue_raises_iff",
    "Smol.C54_continue_new_raises",
    "Smol.C54_lost_after_exception",
    "Smol.C54_get_best",
    "Smol.C54_best_returned",
    "Smol.C54_no_duplicates_partial",
    "Smol.C54_duplicates_kept"
   ],
   "note": "Bookkeeping of generate/get_best_sqs over arbitrary sequences of calls and score sequences; the annealing run is the list of traces it yields. C54_no_duplicates_partial needs distinct structures in the queue; C54_duplicates_kept, C54_continue_raises_iff, C54_continue_new_raises, C54_lost_after_exception prove where the code falls short."
  },
  {
   "property": "C55",
   "status": "partial",
   "theorems": [
    "Smol.C55_unique",
    "Smol.C55_filter_error",
    "Smol.C55_cutoff_columns",
    "Smol.C55_external_terms_raise",
    "Smol.C55_matching_partial",
    "Smol.C55_matching_compares_too_little",
    "Smol.C55_ewald_split",
    "Smol.C55_ewald_threshold"
   ],
   "note": "Rounding, the structure matcher and reduced compositions are arbitrary functions/values. C55_matching_partial: components of matches, over the columns the code actually compares; C55_matching_compares_too_little and C55_external_terms_raise prove the defects."
  },
  {
   "property": "C56",
   "status": "partial",
   "theorems": [
    "Smol.C56_indices_checked",
    "Smol.C56_stable_without_removal_partial",
    "Smol.C56_removal_shifts",
    "Smol.C56_removal_breaks",
    "Smol.C56_not_updated"
   ],
   "note": "Index sets through arbitrary sequences of wrangler operations; partial because removals are not followed (C56_removal_breaks characterises exactly which indices go wrong)."
  },
  {
   "property": "C57",
   "status": "proved",
   "theorems": [
    "Smol.C57_sublattice",
    "Smol.C57_sublattice_behaves",
    "Smol.C57_sublattice_differs",
    "Smol.C57_ensemble_loads_iff",
    "Smol.C57_ensemble_kept",
    "Smol.C57_ensemble_same_change",
    "Smol.C57_ensemble_work",
    "Smol.C57_ensemble_unloadable",
    "Smol.C57_ensemble_work_differs",
    "Smol.C57_ensemble_change_differs",
    "Smol.C57_container",
    "Smol.C57_container_differs",
    "Smol.C57_container_hdf5",
    "Smol.C57_subspace",
    "Smol.C57_potts",
    "Smol.C57_potts_differs",
    "Smol.C57_expansion",
    "Smol.C57_expansion_pruned",
    "Smol.C57_decomposition",
    "Smol.C57_decomposition_differs"
   ],
   "note": "Sublattices, containers without unused rows, subspaces, unpruned expansions and decomposition processors with default coefficients come back as they were; ensembles when the potentials on record cover the active sublattices and the table is current. Negative theorems (_differs, _unloadable, _pruned, C57_potts) give the states for which loading fails or changes behaviour. Not modelled: serialization of pymatgen objects, metadata and external terms."
  },
  {
   "property": "C58",
   "status": "proved",
   "theorems": [
    "Smol.C58_beta_consistent",
    "Smol.C58_refused_assignment_inconsistent",
    "Smol.C58_anneal",
    "Smol.C58_anneal_refused_iff",
    "Smol.C58_anneal_streaming"
   ],
   "note": "Temperature and beta agree except after a refused assignment (C58_refused_assignment_inconsistent)."
  },
  {
   "property": "C59",
   "status": "proved",
   "theorems": [
    "Smol.C59_key_sound",
    "Smol.C59_cache_transparent"
   ],
   "note": "All matrices, tolerances, orbits and request sequences. lattice_points_in_supercell, make_supercell and coord_list_mapping_pbc are pymatgen functions outside the repository; they are modelled after that library (exact arithmetic, tolerances kept). For determinant 0 the library raises; the model computes with 1/0 = 0, which leaves the theorem true."
  },
  {
   "property": "C60",
   "status": "proved",
   "theorems": [
    "Smol.C60_returns_iff",
    "Smol.C60_never_returns",
    "Smol.C60_selected",
    "Smol.C60_zero_probability",
    "Smol.C60_mode_suffices",
    "Smol.C60_gaussian_raises_iff",
    "Smol.C60_gaussian_greedy"
   ],
   "note": "Draws and probabilities are arbitrary rationals. scipy's squeezing of axes of length 1 in rvs and orth are modelled from that library. The model takes max_probs as given: the code computes them from np.unique(composition_vector, axis=1), which takes distinct columns (sorted), not distinct compositions; this is recorded in DESIGN.md and not part of the theorems."
  },
  {
   "property": "C61",
   "status": "proved",
   "theorems": [
    "Smol.C61_occupancy_from_structure",
    "Smol.C61_round_trip",
    "Smol.C61_refine_round_trip",
    "Smol.C61_other_vacancy"
   ],
   "note": "Geometric site matching (pymatgen StructureMatcher) is outside the model: the mapping of structure sites to supercell sites is an input."
  },
  {
   "property": "C62",
   "status": "proved",
   "theorems": [
    "Smol.C62_energies_above_composition",
    "Smol.C62_weights"
   ],
   "note": "Energies idealised as an ordered field, weights over the reals; k_B T as one positive number; pymatgen's tolerance in comparing compositions not modelled."
  },
  {
   "property": "C63",
   "status": "partial",
   "theorems": [
    "Smol.C63_uniform_partial",
    "Smol.C63_property_vector",
    "Smol.C63_add_properties",
    "Smol.C63_remove_properties",
    "Smol.C63_missing_property_accepted",
    "Smol.C63_weight_vector",
    "Smol.C63_weights_unchecked"
   ],
   "note": "Dictionaries as association lists; entries are separate objects. Partial: uniformity needs entries added with a comparable dictionary; C63_missing_property_accepted and C63_weights_unchecked prove the gaps."
  },
  {
   "property": "C64",
   "status": "proved",
   "theorems": [
    "Smol.C64_independent",
    "Smol.C64_not_maximal",
    "Smol.C64_zero_first_selected"
   ],
   "note": "Exact arithmetic; the LU factorisation is an oracle characterised by transpose = Q U with Q injective. The negative theorems use factorisations LAPACK's getrf produces for these matrices."
  },
  {
   "property": "C65",
   "status": "proved",
   "theorems": [
    "Smol.C65_function_array",
    "Smol.C65_independent",
    "Smol.C65_is_orthogonal",
    "Smol.C65_sinusoid_orthogonal",
    "Smol.C65_orthonormalize",
    "Smol.C65_rotate",
    "Smol.C65_rotate_preserves",
    "Smol.C65_rotate_additive",
    "Smol.C65_rotation_array",
    "Smol.C65_rotation_array_binary",
    "Smol.C65_rotation_array_binary_fails",
    "Smol.C65_rotate_same_function",
    "Smol.C65_rotate_same_function_destroys",
    "Smol.C65_each_basis_once"
   ],
   "note": "Exact real arithmetic: allclose is equality, rounding of tiny entries absent. QR factors are any pair with the defining properties. Rotation under unequal concentrations (which only warns) is not claimed. Failures stated as C65_rotation_array_binary(_fails) and C65_rotate_same_function(_destroys)."
  },
  {
   "property": "C66",
   "status": "proved",
   "theorems": [
    "Smol.C66_orthogonal",
    "Smol.C66_mean_zero",
    "Smol.C66_rotation_array",
    "Smol.C66_rotation_unitary",
    "Smol.C66_rotation_array_fails",
    "Smol.C66_needs_orthonormal"
   ],
   "note": "Proved for all cluster sizes and permutation groups in exact arithmetic. C66_rotation_array_fails and C66_needs_orthonormal are witnesses that the stated exclusions are needed (rotation_array is wrong there). _bit_combos being unset before bit_combos is first read is not modelled."
  },
  {
   "property": "C67",
   "status": "partial",
   "theorems": [
    "Smol.C67_max_diameter",
    "Smol.C67_max_diameter_interactions",
    "Smol.C67_change_is_difference",
    "Smol.C67_change_is_difference_interactions",
    "Smol.C67_exact",
    "Smol.C67_trace",
    "Smol.C67_score",
    "Smol.C67_score_interactions",
    "Smol.C67_init_error_iff",
    "Smol.C67_perfect_match_is_lowest",
    "Smol.C67_reload_iff",
    "Smol.C67_reload_changes_ranking"
   ],
   "note": "Proved except for the last sentence: as_dict stores neither target_weights nor match_tol, so a loaded processor uses ones and the default; C67_reload_iff says exactly when nothing is lost, C67_reload_changes_ranking shows two occupancies whose order changes. Diameters are taken as already rounded to six decimals. Threads of the orbit loop are not modelled here (see C42)."
  },
  {
   "property": "C68",
   "status": "partial",
   "theorems": [
    "Smol.C68_optimal_in_lattice",
    "Smol.C68_optimal_keeps_constraints",
    "Smol.C68_optimal_independent",
    "Smol.C68_optimal_smaller",
    "Smol.C68_optimal_error_iff",
    "Smol.C68_optimal_generates_partial",
    "Smol.C68_optimal_loses_compositions",
    "Smol.C68_ergodic_in_lattice",
    "Smol.C68_no_isolated_composition_partial",
    "Smol.C68_ergodic_error_iff",
    "Smol.C68_not_ergodic",
    "Smol.C68_single_composition_raises"
   ],
   "note": "Constraints, independence, sizes, error conditions and, for at most two flips, generation of all flips are proved for all inputs. With three flips the optimised basis may generate too few flips (C68_optimal_loses_compositions); the ergodic table only guarantees that no composition is isolated (C68_no_isolated_composition_partial, C68_not_ergodic); it raises for an isolated composition among fewer than three (C68_ergodic_error_iff)."
  },
  {
   "property": "C69",
   "status": "proved",
   "theorems": [
    "Smol.C69_prediction",
    "Smol.C69_energy",
    "Smol.C69_energy_change",
    "Smol.C69_type_refused",
    "Smol.C69_second_term_refused",
    "Smol.C69_structure",
    "Smol.C69_trace"
   ],
   "note": "All expansions of reachable subspaces with coefficients of the right length and at most one Ewald term (subspaces refuse a second one of the same class; with two the type expansion raises, C69_second_term_refused). The site mapping found by the structure matcher and the Ewald matrix are inputs."
  },
  {
   "property": "C70",
   "status": "proved",
   "theorems": [
    "Smol.C70_converged_iff",
    "Smol.C70_empty_raises",
    "Smol.C70_short_series",
    "Smol.C70_last_mean_trivial",
    "Smol.C70_affine",
    "Smol.C70_units_matter",
    "Smol.C70_two_values_never",
    "Smol.C70_discard",
    "Smol.C70_discard_raises_iff",
    "Smol.C70_zero_means_not_found",
    "Smol.C70_zero_ambiguous",
    "Smol.C70_single_increment"
   ],
   "note": "Exact arithmetic; standard deviation compared through its square in the model and as a real square root in the statements. Rounding in np.arange may add one candidate."
  },
  {
   "property": "C71",
   "status": "proved",
   "theorems": [
    "Smol.C71_classes",
    "Smol.C71_multiplicity",
    "Smol.C71_multiplicity_class",
    "Smol.C71_listed",
    "Smol.C71_permutations",
    "Smol.C71_respects"
   ],
   "note": "Exact coordinates (SITE_TOL = 0); symmetry operations are an input satisfying the hypotheses of a group modulo lattice vectors."
  },
  {
   "property": "C72",
   "status": "partial",
   "theorems": [
    "Smol.C72_sound",
    "Smol.C72_complete_partial",
    "Smol.C72_cubic_incomplete",
    "Smol.C72_size_below",
    "Smol.C72_gap_raises",
    "Smol.C72_no_clusters_raises",
    "Smol.C72_point_entry_ignored",
    "Smol.C72_points",
    "Smol.C72_points_excluded"
   ],
   "note": "Partial: completeness needs a neighbour search whose margin covers the cell (C72_complete_partial); the code's margin (farthest site) need not, and C72_cubic_incomplete proves that a tetrahedron is missed in a cubic crystal for every symmetry group and every order of neighbours. Soundness, non-redundancy and the errors are proved in full."
  },
  {
   "property": "C73",
   "status": "proved",
   "theorems": [
    "Smol.C73_is_sub_orbit",
    "Smol.C73_class",
    "Smol.C73_order",
    "Smol.C73_mappings",
    "Smol.C73_mappings_nonempty",
    "Smol.C73_factor_class",
    "Smol.C73_sub_functions",
    "Smol.C73_mappings_left_out"
   ],
   "note": "The mappings returned are not all (C73_mappings_left_out, witness), but sufficient: C73_mappings, C73_sub_functions. Exact coordinates; comparison of site spaces is an arbitrary reflexive relation."
  },
  {
   "property": "C74",
   "status": "proved",
   "theorems": [
    "Smol.C74_lattice_points",
    "Smol.C74_sites",
    "Smol.C74_index_arrays",
    "Smol.C74_site_permutation",
    "Smol.C74_correlations",
    "Smol.C74_translation"
   ],
   "note": "Proved for exact arithmetic with the tolerances of the lattice points and of the site search kept; the supercell must not be flat, the tolerance of the lattice points times the determinant below one and sites farther apart than the tolerance. The library functions lattice_points_in_supercell, make_supercell and coord_list_mapping_pbc are modelled as implemented in pymatgen."
  },
  {
   "property": "C75",
   "status": "partial",
   "theorems": [
    "Smol.C75_decorations",
    "Smol.C75_indices",
    "Smol.C75_removal",
    "Smol.C75_concentration",
    "Smol.C75_sum_partial",
    "Smol.C75_sum_fails",
    "Smol.C75_removal_fails",
    "Smol.C75_constant_fails"
   ],
   "note": "The documented rule that the correlations of all decorations of an orbit sum to 1 is false (C75_sum_fails); C75_sum_partial proves it with weights and states what a removed class contributes. C75_removal_fails and C75_constant_fails are further deviations. Orbit search and permutations: C72, C71."
  },
  {
   "property": "C76",
   "status": "partial",
   "theorems": [
    "Smol.C76_stationary",
    "Smol.C76_average",
    "Smol.C76_probability",
    "Smol.C76_thinned_partial",
    "Smol.C76_converges",
    "Smol.C76_flip_states",
    "Smol.C76_swap_states",
    "Smol.C76_flip_average",
    "Smol.C76_swap_average",
    "Smol.C76_table_average",
    "Smol.C76_thinned_fails"
   ],
   "note": "Averages converge (C76_average, C76_probability, C76_flip_average, C76_swap_average, C76_table_average), also with thinning unless all weights are equal (C76_thinned_partial); for equal weights thinned samples can miss half of the states (C76_thinned_fails). Sampling is read as a random process with exact real probabilities; pseudo random numbers are not modelled here."
  },
  {
   "property": "C77",
   "status": "partial",
   "theorems": [
    "Smol.C77_features",
    "Smol.C77_property_partial",
    "Smol.C77_weights_partial",
    "Smol.C77_weight_mean_square",
    "Smol.C77_aliased_fails",
    "Smol.C77_indicator_fails"
   ],
   "note": "Feature vectors are uncorrelated with variance size/multiplicity, the printed mean and variance and the effective cluster weights are those of random occupancies, for all supercells without coinciding clusters and orthonormal bases (C77_features, C77_property_partial, C77_weights_partial, C77_weight_mean_square). The code prints the numbers without these conditions; counterexamples C77_aliased_fails, C77_indicator_fails."
  },
  {
   "property": "C78",
   "status": "partial",
   "theorems": [
    "Smol.C78_sublattice_counts",
    "Smol.C78_unrecognised_iff",
    "Smol.C78_count_error_iff",
    "Smol.C78_foreign_code_ignored",
    "Smol.C78_species_counts",
    "Smol.C78_single_occupancy_raises",
    "Smol.C78_compositions_sum_to_one",
    "Smol.C78_mean_composition",
    "Smol.C78_species_counts_walkers",
    "Smol.C78_mean_over_walkers",
    "Smol.C78_sublattice_mean_walkers",
    "Smol.C78_sublattice_mean_flat_partial",
    "Smol.C78_single_occupancy_mean_fails",
    "Smol.C78_mean_over_walkers_fails"
   ],
   "note": "Counts are proved for all legal occupancies, any encoding and any order of the python set of missing codes; sums to one, means and variances (flat=True) follow. Partial because the code violates the rest: C78_mean_over_walkers_fails (flat=False averages over walkers), C78_single_occupancy_raises and C78_single_occupancy_mean_fails (squeeze of a single selected occupancy). C78_foreign_code_ignored shows that illegal codes are not always noticed."
  },
  {
   "property": "C79",
   "status": "partial",
   "theorems": [
    "Smol.C79_samples",
    "Smol.C79_efficiency",
    "Smol.C79_efficiency_unthinned",
    "Smol.C79_all_discarded",
    "Smol.C79_orbit_factors_partial",
    "Smol.C79_orbit_factors_raise",
    "Smol.C79_orbit_factors_fail"
   ],
   "note": "Samples and efficiency proved for all runs in memory (C79_samples, C79_efficiency, C79_efficiency_unthinned, C79_all_discarded for the boundary). Partial because get_orbit_factors masks the sample axis: C79_orbit_factors_partial (single occupancy), C79_orbit_factors_raise and C79_orbit_factors_fail."
  },
  {
   "property": "C80",
   "status": "partial",
   "theorems": [
    "Smol.C80_rationalize",
    "Smol.C80_rationalize_recovers",
    "Smol.C80_integerize_vector",
    "Smol.C80_integerize_near",
    "Smol.C80_min_supercell_size",
    "Smol.C80_integerize_multiple",
    "Smol.C80_equations_partial",
    "Smol.C80_inequalities",
    "Smol.C80_refusals",
    "Smol.C80_fractional_charge_fails",
    "Smol.C80_small_coefficient_fails"
   ],
   "note": "Partial because the code violates the claim: get_oxi_state cuts fractional oxidation states to integers (C80_fractional_charge_fails) and rationalize_number accepts a wrong fraction within 1e-6 (C80_small_coefficient_fails). limit_denominator is any function meeting its documentation."
  },
  {
   "property": "C81",
   "status": "proved",
   "theorems": [
    "Smol.C81_round_trip",
    "Smol.C81_keys"
   ],
   "note": "Any environment whose limit_denominator meets its documentation; species are saved by pymatgen."
  },
  {
   "property": "C82",
   "status": "proved",
   "theorems": [
    "Smol.C82_acceptance",
    "Smol.C82_detailed_balance",
    "Smol.C82_frozen",
    "Smol.C82_reports",
    "Smol.C82_average",
    "Smol.C82_bin_share",
    "Smol.C82_flat_iff",
    "Smol.C82_flat_share",
    "Smol.C82_dos",
    "Smol.C82_fixed_point"
   ],
   "note": "Detailed balance, convergence of bin shares, flatness iff S = log g + const, dos at the fixed point, existence of the fixed point; entropies held fixed between updates (C82_frozen says when they are)."
  },
  {
   "property": "C83",
   "status": "proved",
   "theorems": [
    "Smol.C83_spelling",
    "Smol.C83_idempotent",
    "Smol.C83_subclasses",
    "Smol.C83_factory",
    "Smol.C83_key_error_masked",
    "Smol.C83_listed_names",
    "Smol.C83_bias",
    "Smol.C83_bias_factory",
    "Smol.C83_listed_biases",
    "Smol.C83_case_not_ignored"
   ],
   "note": "Proved for every spelling (Spec.Spelled) of every list of camel case words and every class tree with different names. Findings: capitalisation is not ignored as documented (C83_case_not_ignored); a KeyError of a constructor is reported as NotImplementedError (C83_key_error_masked). Upper and lower case are ASCII."
  },
  {
   "property": "C84",
   "status": "partial",
   "theorems": [
    "Smol.C84_objects",
    "Smol.C84_made",
    "Smol.C84_steps_follow_partial",
    "Smol.C84_restricted_keep",
    "Smol.C84_raises_iff",
    "Smol.C84_potentials_follow",
    "Smol.C84_setup",
    "Smol.C84_reset_not_followed",
    "Smol.C84_split_not_followed",
    "Smol.C84_metadata_stale"
   ],
   "note": "Violated in two ways: a sublattice frozen when the sampler was made is never proposed after a reset (C84_reset_not_followed); after a split the sampler keeps the old sublattice, changes restricted sites and uses species no longer allowed (C84_split_not_followed). Proved: everything for histories without a split after the sampler was made (C84_steps_follow_partial, C84_restricted_keep), exceptions (C84_raises_iff), chemical potentials (C84_potentials_follow) and the setup."
  },
  {
   "property": "C85",
   "status": "proved",
   "theorems": [
    "Smol.C85_change",
    "Smol.C85_canonical",
    "Smol.C85_semigrand"
   ],
   "note": "Composes C69 (prediction), C06/C17 (changes and enthalpy), C84 (sampler made from the ensemble) and C76 (convergence). Flip and Swap with default probabilities; one-step thinning, no bias; the potentials are set after restrictions and splits (see C17_reset_leaves_unpriced for the other order). Real arithmetic; random numbers as in C76."
  },
  {
   "property": "C86",
   "status": "partial",
   "theorems": [
    "Smol.C86_add",
    "Smol.C86_add_values",
    "Smol.C86_process_again",
    "Smol.C86_remove",
    "Smol.C86_update",
    "Smol.C86_change",
    "Smol.C86_update_raises_partial",
    "Smol.C86_step_partial",
    "Smol.C86_rows_right_partial",
    "Smol.C86_dictionaries_partial",
    "Smol.C86_add_properties",
    "Smol.C86_add_weights",
    "Smol.C86_reload",
    "Smol.C86_shared_entry",
    "Smol.C86_stale_rows",
    "Smol.C86_mixed_rows",
    "Smol.C86_shared_dictionary",
    "Smol.C86_raises_after_adding"
   ],
   "note": "Proved: add_entry, update_features, change_subspace, add_properties, add_weights and save/load, each for every state. Partial: rows stay right only along histories without edits of the subspace, appended foreign rows or use of the same entries with another subspace (C86_rows_right_partial); dictionaries stay separate only if the caller passes separate ones; a raising update leaves new and old rows. The missing parts are false, see the C86 findings."
  },
  {
   "property": "C87",
   "status": "proved",
   "theorems": [
    "Smol.C87_history",
    "Smol.C87_raises",
    "Smol.C87_correlations",
    "Smol.C87_counts",
    "Smol.C87_remove_functions",
    "Smol.C87_remove_orbits"
   ],
   "note": "Assumed: sites with the same site space start with the same basis (from_cutoffs uses one kind), a rotation or new basis keeps the site space, a basis name is known for all site spaces or none, basis objects are compared by identity. External terms and the PottsSubspace are left out."
  },
  {
   "property": "C88",
   "status": "partial",
   "theorems": [
    "Smol.C88_selection",
    "Smol.C88_columns",
    "Smol.C88_defined",
    "Smol.C88_gram_plain",
    "Smol.C88_gram",
    "Smol.C88_gram_bounds_partial",
    "Smol.C88_gram_nan_witness",
    "Smol.C88_rank",
    "Smol.C88_rank_span",
    "Smol.C88_orbit_rank",
    "Smol.C88_constant",
    "Smol.C88_constant_deficient",
    "Smol.C88_similarity",
    "Smol.C88_similarity_order_witness"
   ],
   "note": "Gram entries, ranks, constant features and similarities are proved for all matrices over the reals. Violated as documented: a feature that is zero on all selected structures gives NaN in the normalized Gram matrix (C88_gram_nan_witness); np.isclose is relative to its second argument, so a similarity depends on the order of the columns asked for (C88_similarity_order_witness). numpy's matrix_rank is taken to be the rank; similarities of no structures (NaN) are excluded."
  },
  {
   "property": "C89",
   "status": "partial",
   "theorems": [
    "Smol.C89_new",
    "Smol.C89_history_partial",
    "Smol.C89_orbits",
    "Smol.C89_prune_matching",
    "Smol.C89_eci_meaning",
    "Smol.C89_total",
    "Smol.C89_refresh",
    "Smol.C89_stale_coefs_witness",
    "Smol.C89_stale_bases_witness",
    "Smol.C89_stale_functions_witness",
    "Smol.C89_prune_constant_witness",
    "Smol.C89_prune_silent_witness",
    "Smol.C89_eci_out_of_step"
   ],
   "note": "Histories of the expansion's own operations: nothing is out of date as long as prune does not remove the constant or an external term (C89_prune_matching says when). Partial because the code lets coefs and cluster_subspace be changed without resetting eci, interaction tensors and evaluator (C89_stale_*_witness), and prune of the constant raises half-way, or not at all if one function is left (C89_prune_*_witness)."
  },
  {
   "property": "C90",
   "status": "partial",
   "theorems": [
    "Smol.C90_vertices_partial",
    "Smol.C90_infeasible",
    "Smol.C90_inconsistent_witness",
    "Smol.C90_centroid_on_grid",
    "Smol.C90_centroid_nearest",
    "Smol.C90_centroid_raises",
    "Smol.C90_target_is_vertex_average",
    "Smol.C90_min_size_feasible",
    "Smol.C90_basis_dependence_witness"
   ],
   "note": "Partial: if the constraints contradict each other (charge neutrality with species of one charge only) vertices of least squares solutions are returned without error (C90_inconsistent_witness). The centroid is nearest in coordinates; in counts another composition may be nearer, so the result depends on the basis (C90_basis_dependence_witness). Library contracts: kernel basis, A A+ A = A, extreme points, emptiness, a solver that returns a minimizer up to rounding (shown satisfiable)."
  },
  {
   "property": "C91",
   "status": "proved",
   "theorems": [
    "Smol.C91_constructed",
    "Smol.C91_probabilities_in_force",
    "Smol.C91_always_usable",
    "Smol.C91_flip_probability",
    "Smol.C91_swap_probability",
    "Smol.C91_swap_nothing",
    "Smol.C91_restricted_later_raises",
    "Smol.C91_reset_later_ignored",
    "Smol.C91_multi_uniform",
    "Smol.C91_kernel_multi_uniform",
    "Smol.C91_multi_delegates",
    "Smol.C91_composite_mixture",
    "Smol.C91_composite_constructed",
    "Smol.C91_composite_set_without_effect",
    "Smol.C91_negative_accepted_witness"
   ],
   "note": "Configuration, exact proposal distributions and mixtures are proved for all histories; the violations named in the statement are theorems too: C91_restricted_later_raises, C91_reset_later_ignored, C91_negative_accepted_witness, C91_composite_set_without_effect, C91_composite_constructed (dropped ushers, zero prefixes, metadata twice), C91_probabilities_in_force (stale metadata)."
  },
  {
   "property": "C92",
   "status": "partial",
   "theorems": [
    "Smol.C92_cutoffs",
    "Smol.C92_by_size",
    "Smol.C92_from_cutoffs",
    "Smol.C92_from_cutoffs_numbers",
    "Smol.C92_from_cutoffs_sizes",
    "Smol.C92_function_inds",
    "Smol.C92_function_inds_increasing",
    "Smol.C92_by_diameter",
    "Smol.C92_eq_partial",
    "Smol.C92_eq_more_orbits",
    "Smol.C92_eq_other_functions"
   ],
   "note": "Diameters are a function of the orbit object into any linear order; the dictionary is in order of size, as from_cutoffs builds it (with another order the orbits of a single upper cutoff come size by size in that order). Equality: only the direction for equally many orbits is proved, the rest is refuted by witnesses. orbits_by_cutoffs calls iterorbits, which does not exist."
  },
  {
   "property": "C93",
   "status": "partial",
   "theorems": [
    "Smol.C93_accepts",
    "Smol.C93_processors",
    "Smol.C93_one_each",
    "Smol.C93_all_shapes",
    "Smol.C93_from_processors",
    "Smol.C93_find",
    "Smol.C93_kept_partial",
    "Smol.C93_composition_partial",
    "Smol.C93_visited",
    "Smol.C93_best",
    "Smol.C93_score",
    "Smol.C93_same_lattice_not_found",
    "Smol.C93_left_handed",
    "Smol.C93_mixed_processors",
    "Smol.C93_one_shape_hop"
   ],
   "note": "C93_kept_partial and C93_composition_partial assume, for a single supercell shape, that no hop is due in the first step; without it the claim is false (C93_one_shape_hop). Witnesses of further violations: C93_same_lattice_not_found, C93_left_handed, C93_mixed_processors. The lattice reduction of returned structures is not modelled; reading an occupancy is assumed to invert writing it."
  },
  {
   "property": "C94",
   "status": "partial",
   "theorems": [
    "Smol.C94_raises",
    "Smol.C94_energies",
    "Smol.C94_weights",
    "Smol.C94_lowest",
    "Smol.C94_at_least",
    "Smol.C94_above_composition",
    "Smol.C94_structures_partial",
    "Smol.C94_supercells",
    "Smol.C94_shift",
    "Smol.C94_artificial_entries"
   ],
   "note": "pymatgen's PhaseDiagram by contract (lower convex hull, terminal entries required). C94_structures_partial: equality with the hull of the given structures needs chemical potentials at most 1000 above the highest energy per atom; C94_artificial_entries proves that the claim fails without."
  },
  {
   "property": "C95",
   "status": "proved",
   "theorems": [
    "Smol.C95_raises",
    "Smol.C95_rows",
    "Smol.C95_recorded",
    "Smol.C95_changed",
    "Smol.C95_kernels",
    "Smol.C95_setter",
    "Smol.C95_session",
    "Smol.C95_late_bias",
    "Smol.C95_multicell",
    "Smol.C95_multicell_mixed_bias"
   ],
   "note": "What kernels put into their traces at each step is given from outside (C01, C19, C25 prove those values). The claim that biases can be set at any time fails: C95_late_bias, C95_multicell_mixed_bias; C95_kernels gives the exact condition."
  },
  {
   "property": "C96",
   "status": "partial",
   "theorems": [
    "Smol.C96_placed",
    "Smol.C96_init",
    "Smol.C96_assign",
    "Smol.C96_distance",
    "Smol.C96_copy",
    "Smol.C96_copy_twice",
    "Smol.C96_reload",
    "Smol.C96_vacancies_lost",
    "Smol.C96_offered",
    "Smol.C96_to",
    "Smol.C96_from_str",
    "Smol.C96_file_partial",
    "Smol.C96_yaml_misplaced",
    "Smol.C96_format_ignored"
   ],
   "note": "Cluster objects as values, histories of make, copy, save, load and numbering. Violations proved: vacancies lost when loading (C96_vacancies_lost, with C96_offered the exact condition under which the offered species stay), misplaced YAML files (C96_yaml_misplaced), ignored format (C96_format_ignored). C96_file_partial: JSON names, and YAML names in the working directory."
  },
  {
   "property": "C97",
   "status": "proved",
   "theorems": [
    "Smol.C97_later",
    "Smol.C97_processors",
    "Smol.C97_composites",
    "Smol.C97_add",
    "Smol.C97_ewald_shared",
    "Smol.C97_reload",
    "Smol.C97_reload_composite",
    "Smol.C97_shared_loads",
    "Smol.C97_dict_consumed",
    "Smol.C97_unloadable",
    "Smol.C97_distance_stale"
   ],
   "note": "Objects with references; sessions of any length. The violations are proved with sessions (C97_unloadable, C97_distance_stale) and in general (C97_dict_consumed); C97_reload and C97_reload_composite give the exact conditions. Orbits are compared as numbers (equal orbits, equal numbers); what == of subspaces misses about orbits is C92."
  },
  {
   "property": "C98",
   "status": "proved",
   "theorems": [
    "Smol.C98_same",
    "Smol.C98_again",
    "Smol.C98_attributes",
    "Smol.C98_listed",
    "Smol.C98_kernels_lost",
    "Smol.C98_save_work",
    "Smol.C98_load_work",
    "Smol.C98_work_lost"
   ],
   "note": "monty's jsanitize (defaults) and MontyDecoder by contract, stated in Model/Records.lean. Violations are proved for all records and lists: C98_listed, C98_kernels_lost, C98_work_lost."
  },
  {
   "property": "C99",
   "status": "proved",
   "theorems": [
    "Smol.C99_terms",
    "Smol.C99_injective",
    "Smol.C99_balance",
    "Smol.C99_conserved",
    "Smol.C99_reverse",
    "Smol.C99_short_raises",
    "Smol.C99_table"
   ],
   "note": "Text modelled character by character with decimal numerals; species are numbers with a printed form. Printed forms are assumed without blanks and distinct on each sublattice (an example shows that distinctness is needed)."
  },
  {
   "property": "C100",
   "status": "proved",
   "theorems": [
    "Smol.C100_own_chains",
    "Smol.C100_single_walker",
    "Smol.C100_raises_iff",
    "Smol.C100_cells",
    "Smol.C100_walkers_repeated",
    "Smol.C100_walker_cells_refused",
    "Smol.C100_cells_misread"
   ],
   "note": "Occupancies only; a step of a kernel is any function of its state and its row. That features of an array with more than one dimension cannot be computed, and that numpy repeats a single row on assignment, are contracts. Violations are proved for all arrays of the shape: C100_walkers_repeated, C100_walker_cells_refused, C100_cells_misread."
  },
  {
   "property": "C101",
   "status": "proved",
   "theorems": [
    "Smol.C101_in_step",
    "Smol.C101_set_local",
    "Smol.C101_set_full",
    "Smol.C101_set_subspace",
    "Smol.C101_new_processor",
    "Smol.C101_subspace_ignored",
    "Smol.C101_no_evaluators"
   ],
   "note": "Sessions of any length over any number of objects; the documented use of the subspace's number for local changes is refuted for all subspaces (C101_subspace_ignored), the rest holds as stated."
  },
  {
   "property": "C102",
   "status": "proved",
   "theorems": [
    "Smol.C102_reload",
    "Smol.C102_sessions",
    "Smol.C102_save_raises",
    "Smol.C102_array_not_none",
    "Smol.C102_names",
    "Smol.C102_older",
    "Smol.C102_classes"
   ],
   "note": "Sessions of any length with saves and loads anywhere, by refinement to the session without them; the numpy factorisation is any function. The value of orthonormalization_array is refuted to stay None (C102_array_not_none) and given exactly."
  },
  {
   "property": "C103",
   "status": "proved",
   "theorems": [
    "Smol.C103_chosen",
    "Smol.C103_possible",
    "Smol.C103_scaled",
    "Smol.C103_negligible",
    "Smol.C103_not_normalized",
    "Smol.C103_raises",
    "Smol.C103_negative_accepted",
    "Smol.C103_probability"
   ],
   "note": "Exact intervals for all weights over any ordered field, Lebesgue measure over the reals; numpy's Generator.choice is modelled by its cumulative sums. Normalisation of small weights and the check for negative weights are refuted (C103_not_normalized, C103_negative_accepted)."
  },
  {
   "property": "C104",
   "status": "proved",
   "theorems": [
    "Smol.C104_without_ensemble",
    "Smol.C104_with_ensemble",
    "Smol.C104_parameters_unchecked",
    "Smol.C104_saved_again",
    "Smol.C104_lost"
   ],
   "note": "Exact condition for accepted ensembles; the missing comparison of parameters and the loss of containers saved without an ensemble are proved for all containers (C104_parameters_unchecked, C104_lost)."
  },
  {
   "property": "C105",
   "status": "proved",
   "theorems": [
    "Smol.C105_sessions",
    "Smol.C105_same_beta_iff",
    "Smol.C105_sqs",
    "Smol.C105_constant_not_passed",
    "Smol.C105_cell_assigned",
    "Smol.C105_refused"
   ],
   "note": "Invariant over sessions of assignments and hops, exact condition for equal beta, SQS generator; violations: kB of the multicell kernel does not reach cells, cell temperatures reported with the old beta, refused temperatures reported."
  }
 ]
}
