import Verif.Props.Balance
import Verif.Props.BasisIO
import Verif.Props.Bias
import Verif.Props.Centroid
import Verif.Props.ClassNames
import Verif.Props.ClusterIO
import Verif.Props.Composition
import Verif.Props.CompositionSetup
import Verif.Props.ConstraintString
import Verif.Props.Container
import Verif.Props.Convergence
import Verif.Props.Decomposition
import Verif.Props.Diagnostics
import Verif.Props.Distance
import Verif.Props.Energy
import Verif.Props.Ensemble
import Verif.Props.Ergodic
import Verif.Props.Expansion
import Verif.Props.ExpansionState
import Verif.Props.FlipTable
import Verif.Props.FromExpansion
import Verif.Props.GroundSolver
import Verif.Props.GroundTerms
import Verif.Props.GroundVars
import Verif.Props.Hierarchy
import Verif.Props.HullWeights
import Verif.Props.IntLinAlg
import Verif.Props.LegacyContainer
import Verif.Props.MultiThermal
import Verif.Props.Multicell
import Verif.Props.NatSolutions
import Verif.Props.OccuUtils
import Verif.Props.Orbit
import Verif.Props.OrbitGen
import Verif.Props.OrbitIndices
import Verif.Props.OrbitRotation
import Verif.Props.OrbitSpace
import Verif.Props.Potts
import Verif.Props.ProcObjects
import Verif.Props.Processor
import Verif.Props.RandomOccu
import Verif.Props.Reaction
import Verif.Props.Records
import Verif.Props.SampleStats
import Verif.Props.Sampler
import Verif.Props.SectionChoice
import Verif.Props.Seed
import Verif.Props.Select
import Verif.Props.Serialize
import Verif.Props.Session
import Verif.Props.SiteBasis
import Verif.Props.SiteSpace
import Verif.Props.SplitRun
import Verif.Props.Sqs
import Verif.Props.SqsGen
import Verif.Props.SubOrbit
import Verif.Props.Sublattice
import Verif.Props.SubspaceSelect
import Verif.Props.SubspaceState
import Verif.Props.Supercell
import Verif.Props.SupercellIndex
import Verif.Props.Thermo
import Verif.Props.ThreadSettings
import Verif.Props.Threads
import Verif.Props.TraceRun
import Verif.Props.TraceStats
import Verif.Props.Usher
import Verif.Props.UsherConfig
import Verif.Props.Variance
import Verif.Props.WLChain
import Verif.Props.WalkerStart
import Verif.Props.WangLandau
import Verif.Props.Wrangle
import Verif.Props.WranglerObjects
import Verif.Props.WranglerState

/-! Axioms used by every theorem named in MANIFEST.json; each line of output must list at most
`propext`, `Classical.choice` and `Quot.sound`. -/

#print axioms Smol.C01_trace_matches
#print axioms Smol.C01_ensemble_trace_matches
#print axioms Smol.C01_kept_traces_fail
#print axioms Smol.C02_change_is_difference
#print axioms Smol.C02_change_error_iff
#print axioms Smol.C02_feature_vector_value
#print axioms Smol.C03_change_is_difference
#print axioms Smol.C03_change_error_iff
#print axioms Smol.C03_feature_vector_value
#print axioms Smol.C04_change_is_difference
#print axioms Smol.C04_energy_value
#print axioms Smol.C04_index_array_well_formed
#print axioms Smol.C04_index_array_species
#print axioms Smol.C05_property_is_sum_partial
#print axioms Smol.C05_change_is_difference_partial
#print axioms Smol.C05_feature_error_iff
#print axioms Smol.C05_mixed_shapes_fail
#print axioms Smol.C06_change_is_difference
#print axioms Smol.C06_last_entry_is_work
#print axioms Smol.C06_repeated_site_fails
#print axioms Smol.C06_processors_exact
#print axioms Smol.C07_acceptance_probability
#print axioms Smol.C07_draws_iff_negative
#print axioms Smol.C07_exponent
#print axioms Smol.C08_flip_detailed_balance
#print axioms Smol.C09_swap_detailed_balance
#print axioms Smol.C10_table_detailed_balance
#print axioms Smol.C10_factor_is_ratio
#print axioms Smol.C11_compound_detailed_balance
#print axioms Smol.C11_multi_of_mixed_fails
#print axioms Smol.C11_table_inside_fails
#print axioms Smol.C12_steps_legal
#print axioms Smol.C12_flip_changes
#print axioms Smol.C12_swap_exchanges
#print axioms Smol.C12_never_raises
#print axioms Smol.C12_default_probabilities
#print axioms Smol.C13_inactive_sites_fixed
#print axioms Smol.C13_restricted_sites_fixed
#print axioms Smol.C13_restrict_after_table_fails
#print axioms Smol.C14_swaps_conserve
#print axioms Smol.C15_constraints_kept
#print axioms Smol.C16_active_after_history
#print axioms Smol.C16_restricted_complement
#print axioms Smol.C16_restrict_idem_comm
#print axioms Smol.C16_split_parts
#print axioms Smol.C16_split_partitions_sites
#print axioms Smol.C16_split_succeeds_iff
#print axioms Smol.C16_split_after_full_restriction_fails
#print axioms Smol.C16_split_by_names
#print axioms Smol.C17_parameters_in_step
#print axioms Smol.C17_set_succeeds_iff
#print axioms Smol.C17_table_prices_active
#print axioms Smol.C17_split_replaces
#print axioms Smol.C17_enthalpy
#print axioms Smol.C17_reset_leaves_unpriced
#print axioms Smol.C18_table_correct
#print axioms Smol.C18_counts_and_species_list
#print axioms Smol.C18_delta_counts
#print axioms Smol.C18_delta_error_iff
#print axioms Smol.C19_fugacity_change
#print axioms Smol.C19_fugacity_value
#print axioms Smol.C19_fugacity_refused
#print axioms Smol.C19_charge_change
#print axioms Smol.C19_charge_value
#print axioms Smol.C19_hyperplane_change
#print axioms Smol.C19_hyperplane_value
#print axioms Smol.C20_holds_saved
#print axioms Smol.C20_total_steps
#print axioms Smol.C20_save_error_iff
#print axioms Smol.C20_getter
#print axioms Smol.C20_unused_rows_returned
#print axioms Smol.C20_energies
#print axioms Smol.C20_live_parameters_fail
#print axioms Smol.C21_stream_appends
#print axioms Smol.C21_file_size
#print axioms Smol.C21_repeated_runs
#print axioms Smol.C21_same_as_memory
#print axioms Smol.C21_tail_lost
#print axioms Smol.C21_keep_remainder_raises
#print axioms Smol.C21_stream_after_memory_raises
#print axioms Smol.C22_split_run
#print axioms Smol.C22_container
#print axioms Smol.C23_flat_minimum
#print axioms Smol.C23_single_sample_fails
#print axioms Smol.C23_one_walker_partial
#print axioms Smol.C23_walkers_fail
#print axioms Smol.C24_stays_in_window
#print axioms Smol.C24_resume
#print axioms Smol.C24_started_outside
#print axioms Smol.C25_accept_rule
#print axioms Smol.C25_bookkeeping
#print axioms Smol.C25_histogram_total
#print axioms Smol.C25_entropy_monotone
#print axioms Smol.C25_mod_factor
#print axioms Smol.C26_mean_features_partial
#print axioms Smol.C26_update_period_fails
#print axioms Smol.C27_rows_match_cell
#print axioms Smol.C27_rows_match_cell_resumed
#print axioms Smol.C27_hop_period
#print axioms Smol.C28_memory_overwritten
#print axioms Smol.C28_memory_kept_partial
#print axioms Smol.C28_resumes_elsewhere
#print axioms Smol.C29_seed_determines_run_partial
#print axioms Smol.C29_only_seeded_generator
#print axioms Smol.C29_table_flip_fails
#print axioms Smol.C29_named_inner_ushers_fail
#print axioms Smol.C30_gcdex
#print axioms Smol.C30_recursion
#print axioms Smol.C30_sign
#print axioms Smol.C31_smith_partial
#print axioms Smol.C31_chain_of_two
#print axioms Smol.C31_not_a_chain
#print axioms Smol.C32_raises_only_if_unsolvable
#print axioms Smol.C32_generated_solve
#print axioms Smol.C32_solutions_partial
#print axioms Smol.C32_full_row_rank
#print axioms Smol.C32_inconsistent_accepted
#print axioms Smol.C32_redundant_loses_solutions
#print axioms Smol.C32_default_raises
#print axioms Smol.C33_natural_solutions
#print axioms Smol.C33_all_solutions
#print axioms Smol.C33_empty_one_dim
#print axioms Smol.C33_grid
#print axioms Smol.C33_grid_enumerates_compositions
#print axioms Smol.C34_cache_invisible
#print axioms Smol.C34_scaled_grid_sound
#print axioms Smol.C34_gcd_reduction_raises
#print axioms Smol.C35_determinant
#print axioms Smol.C35_exactly_one
#print axioms Smol.C35_each_once
#print axioms Smol.C36_representatives
#print axioms Smol.C37_mask_feasible
#print axioms Smol.C37_direction_probability
#print axioms Smol.C37_direction_chosen
#print axioms Smol.C38_translate
#print axioms Smol.C38_representation_unique
#print axioms Smol.C38_round_trip
#print axioms Smol.C38_rounding
#print axioms Smol.C38_refusals
#print axioms Smol.C38_base_solution_partial
#print axioms Smol.C38_base_solution_missing
#print axioms Smol.C38_rank_condition
#print axioms Smol.C39_side
#print axioms Smol.C39_two_numbers_refused
#print axioms Smol.C39_leading_number_ignored
#print axioms Smol.C39_text
#print axioms Smol.C39_unknown_name
#print axioms Smol.C39_relation_required
#print axioms Smol.C39_line_break_refused
#print axioms Smol.C39_numbers
#print axioms Smol.C39_large_fractions_lost
#print axioms Smol.C39_trailing_sign
#print axioms Smol.C39_words
#print axioms Smol.C39_stored_means_entries
#print axioms Smol.C40_second_assignment_ignored
#print axioms Smol.C40_unknown_relation_dropped
#print axioms Smol.C40_after_delete_partial
#print axioms Smol.C41_decode_encode
#print axioms Smol.C41_encode_decode
#print axioms Smol.C41_encode_rejects
#print axioms Smol.C41_decode_rejects
#print axioms Smol.C41_short_occupancy_accepted
#print axioms Smol.C41_site_space
#print axioms Smol.C41_allowed_species
#print axioms Smol.C41_sublattices
#print axioms Smol.C41_double_claim
#print axioms Smol.C41_double_claim_vacancy
#print axioms Smol.C42_correlations
#print axioms Smol.C42_interactions
#print axioms Smol.C42_delta_correlations
#print axioms Smol.C42_delta_interactions
#print axioms Smol.C42_terminates
#print axioms Smol.C42_num_threads
#print axioms Smol.C42_shared_slot_fails
#print axioms Smol.C43_ids
#print axioms Smol.C43_function_orbit_ids
#print axioms Smol.C43_remove_functions
#print axioms Smol.C43_remove_orbits
#print axioms Smol.C44_prune
#print axioms Smol.C44_prune_misaligned
#print axioms Smol.C44_prune_raises
#print axioms Smol.C44_feature_matrix
#print axioms Smol.C45_partition
#print axioms Smol.C45_not_group_fails
#print axioms Smol.C45_symmetric
#print axioms Smol.C46_lookup
#print axioms Smol.C46_injective
#print axioms Smol.C46_correlation_vector
#print axioms Smol.C47_expansion_energy
#print axioms Smol.C47_orbit_share
#print axioms Smol.C47_decomposition_energy
#print axioms Smol.C47_energy_change
#print axioms Smol.C48_invert_raises
#print axioms Smol.C48_invert
#print axioms Smol.C48_invert_twice
#print axioms Smol.C48_complete
#print axioms Smol.C48_complete_diverges
#print axioms Smol.C48_complete_outside
#print axioms Smol.C48_sub_orbits_partial
#print axioms Smol.C48_min_size_ignored
#print axioms Smol.C48_orbit_hierarchy
#print axioms Smol.C48_missing_size_raises
#print axioms Smol.C48_sub_functions
#print axioms Smol.C49_groups
#print axioms Smol.C49_disjoint
#print axioms Smol.C50_auxiliary_products
#print axioms Smol.C50_auxiliary_values
#print axioms Smol.C50_objective_terms
#print axioms Smol.C50_cutoff_error
#print axioms Smol.C50_no_variables
#print axioms Smol.C50_objective_is_energy
#print axioms Smol.C50_other_raises
#print axioms Smol.C51_variables
#print axioms Smol.C51_variables_raise
#print axioms Smol.C51_decode
#print axioms Smol.C51_encode
#print axioms Smol.C51_decode_raises
#print axioms Smol.C51_components
#print axioms Smol.C51_fixed_composition
#print axioms Smol.C51_fixed_composition_raises
#print axioms Smol.C51_space_constraints
#print axioms Smol.C51_space_constraints_raise
#print axioms Smol.C51_original_fits
#print axioms Smol.C51_split_fits
#print axioms Smol.C52_solution
#print axioms Smol.C52_results_partial
#print axioms Smol.C52_reset_clears
#print axioms Smol.C52_stale_occupancy
#print axioms Smol.C52_truncated_solution
#print axioms Smol.C53_unconstrained
#print axioms Smol.C53_neutral
#print axioms Smol.C53_neutral_inactive_raises
#print axioms Smol.C53_composition_partial
#print axioms Smol.C53_all_arrangements
#print axioms Smol.C53_remaining_sublattices_zero
#print axioms Smol.C53_missing_species_raises
#print axioms Smol.C53_leftover_gets_code_zero
#print axioms Smol.C53_seeded
#print axioms Smol.C53_neutral_not_seeded
#print axioms Smol.C54_cleared
#print axioms Smol.C54_best_since_clear
#print axioms Smol.C54_continue_raises_iff
#print axioms Smol.C54_continue_new_raises
#print axioms Smol.C54_lost_after_exception
#print axioms Smol.C54_get_best
#print axioms Smol.C54_best_returned
#print axioms Smol.C54_no_duplicates_partial
#print axioms Smol.C54_duplicates_kept
#print axioms Smol.C55_unique
#print axioms Smol.C55_filter_error
#print axioms Smol.C55_cutoff_columns
#print axioms Smol.C55_external_terms_raise
#print axioms Smol.C55_matching_partial
#print axioms Smol.C55_matching_compares_too_little
#print axioms Smol.C55_ewald_split
#print axioms Smol.C55_ewald_threshold
#print axioms Smol.C56_indices_checked
#print axioms Smol.C56_stable_without_removal_partial
#print axioms Smol.C56_removal_shifts
#print axioms Smol.C56_removal_breaks
#print axioms Smol.C56_not_updated
#print axioms Smol.C57_sublattice
#print axioms Smol.C57_sublattice_behaves
#print axioms Smol.C57_sublattice_differs
#print axioms Smol.C57_ensemble_loads_iff
#print axioms Smol.C57_ensemble_kept
#print axioms Smol.C57_ensemble_same_change
#print axioms Smol.C57_ensemble_work
#print axioms Smol.C57_ensemble_unloadable
#print axioms Smol.C57_ensemble_work_differs
#print axioms Smol.C57_ensemble_change_differs
#print axioms Smol.C57_container
#print axioms Smol.C57_container_differs
#print axioms Smol.C57_container_hdf5
#print axioms Smol.C57_subspace
#print axioms Smol.C57_potts
#print axioms Smol.C57_potts_differs
#print axioms Smol.C57_expansion
#print axioms Smol.C57_expansion_pruned
#print axioms Smol.C57_decomposition
#print axioms Smol.C57_decomposition_differs
#print axioms Smol.C58_beta_consistent
#print axioms Smol.C58_refused_assignment_inconsistent
#print axioms Smol.C58_anneal
#print axioms Smol.C58_anneal_refused_iff
#print axioms Smol.C58_anneal_streaming
#print axioms Smol.C59_key_sound
#print axioms Smol.C59_cache_transparent
#print axioms Smol.C60_returns_iff
#print axioms Smol.C60_never_returns
#print axioms Smol.C60_selected
#print axioms Smol.C60_zero_probability
#print axioms Smol.C60_mode_suffices
#print axioms Smol.C60_gaussian_raises_iff
#print axioms Smol.C60_gaussian_greedy
#print axioms Smol.C61_occupancy_from_structure
#print axioms Smol.C61_round_trip
#print axioms Smol.C61_refine_round_trip
#print axioms Smol.C61_other_vacancy
#print axioms Smol.C62_energies_above_composition
#print axioms Smol.C62_weights
#print axioms Smol.C63_uniform_partial
#print axioms Smol.C63_property_vector
#print axioms Smol.C63_add_properties
#print axioms Smol.C63_remove_properties
#print axioms Smol.C63_missing_property_accepted
#print axioms Smol.C63_weight_vector
#print axioms Smol.C63_weights_unchecked
#print axioms Smol.C64_independent
#print axioms Smol.C64_not_maximal
#print axioms Smol.C64_zero_first_selected
#print axioms Smol.C65_function_array
#print axioms Smol.C65_independent
#print axioms Smol.C65_is_orthogonal
#print axioms Smol.C65_sinusoid_orthogonal
#print axioms Smol.C65_orthonormalize
#print axioms Smol.C65_rotate
#print axioms Smol.C65_rotate_preserves
#print axioms Smol.C65_rotate_additive
#print axioms Smol.C65_rotation_array
#print axioms Smol.C65_rotation_array_binary
#print axioms Smol.C65_rotation_array_binary_fails
#print axioms Smol.C65_rotate_same_function
#print axioms Smol.C65_rotate_same_function_destroys
#print axioms Smol.C65_each_basis_once
#print axioms Smol.C66_orthogonal
#print axioms Smol.C66_mean_zero
#print axioms Smol.C66_rotation_array
#print axioms Smol.C66_rotation_unitary
#print axioms Smol.C66_rotation_array_fails
#print axioms Smol.C66_needs_orthonormal
#print axioms Smol.C67_max_diameter
#print axioms Smol.C67_max_diameter_interactions
#print axioms Smol.C67_change_is_difference
#print axioms Smol.C67_change_is_difference_interactions
#print axioms Smol.C67_exact
#print axioms Smol.C67_trace
#print axioms Smol.C67_score
#print axioms Smol.C67_score_interactions
#print axioms Smol.C67_init_error_iff
#print axioms Smol.C67_perfect_match_is_lowest
#print axioms Smol.C67_reload_iff
#print axioms Smol.C67_reload_changes_ranking
#print axioms Smol.C68_optimal_in_lattice
#print axioms Smol.C68_optimal_keeps_constraints
#print axioms Smol.C68_optimal_independent
#print axioms Smol.C68_optimal_smaller
#print axioms Smol.C68_optimal_error_iff
#print axioms Smol.C68_optimal_generates_partial
#print axioms Smol.C68_optimal_loses_compositions
#print axioms Smol.C68_ergodic_in_lattice
#print axioms Smol.C68_no_isolated_composition_partial
#print axioms Smol.C68_ergodic_error_iff
#print axioms Smol.C68_not_ergodic
#print axioms Smol.C68_single_composition_raises
#print axioms Smol.C69_prediction
#print axioms Smol.C69_energy
#print axioms Smol.C69_energy_change
#print axioms Smol.C69_type_refused
#print axioms Smol.C69_second_term_refused
#print axioms Smol.C69_structure
#print axioms Smol.C69_trace
#print axioms Smol.C70_converged_iff
#print axioms Smol.C70_empty_raises
#print axioms Smol.C70_short_series
#print axioms Smol.C70_last_mean_trivial
#print axioms Smol.C70_affine
#print axioms Smol.C70_units_matter
#print axioms Smol.C70_two_values_never
#print axioms Smol.C70_discard
#print axioms Smol.C70_discard_raises_iff
#print axioms Smol.C70_zero_means_not_found
#print axioms Smol.C70_zero_ambiguous
#print axioms Smol.C70_single_increment
#print axioms Smol.C71_classes
#print axioms Smol.C71_multiplicity
#print axioms Smol.C71_multiplicity_class
#print axioms Smol.C71_listed
#print axioms Smol.C71_permutations
#print axioms Smol.C71_respects
#print axioms Smol.C72_sound
#print axioms Smol.C72_complete_partial
#print axioms Smol.C72_cubic_incomplete
#print axioms Smol.C72_size_below
#print axioms Smol.C72_gap_raises
#print axioms Smol.C72_no_clusters_raises
#print axioms Smol.C72_point_entry_ignored
#print axioms Smol.C72_points
#print axioms Smol.C72_points_excluded
#print axioms Smol.C73_is_sub_orbit
#print axioms Smol.C73_class
#print axioms Smol.C73_order
#print axioms Smol.C73_mappings
#print axioms Smol.C73_mappings_nonempty
#print axioms Smol.C73_factor_class
#print axioms Smol.C73_sub_functions
#print axioms Smol.C73_mappings_left_out
#print axioms Smol.C74_lattice_points
#print axioms Smol.C74_sites
#print axioms Smol.C74_index_arrays
#print axioms Smol.C74_site_permutation
#print axioms Smol.C74_correlations
#print axioms Smol.C74_translation
#print axioms Smol.C75_decorations
#print axioms Smol.C75_indices
#print axioms Smol.C75_removal
#print axioms Smol.C75_concentration
#print axioms Smol.C75_sum_partial
#print axioms Smol.C75_sum_fails
#print axioms Smol.C75_removal_fails
#print axioms Smol.C75_constant_fails
#print axioms Smol.C76_stationary
#print axioms Smol.C76_average
#print axioms Smol.C76_probability
#print axioms Smol.C76_thinned_partial
#print axioms Smol.C76_converges
#print axioms Smol.C76_flip_states
#print axioms Smol.C76_swap_states
#print axioms Smol.C76_flip_average
#print axioms Smol.C76_swap_average
#print axioms Smol.C76_table_average
#print axioms Smol.C76_thinned_fails
#print axioms Smol.C77_features
#print axioms Smol.C77_property_partial
#print axioms Smol.C77_weights_partial
#print axioms Smol.C77_weight_mean_square
#print axioms Smol.C77_aliased_fails
#print axioms Smol.C77_indicator_fails
#print axioms Smol.C78_sublattice_counts
#print axioms Smol.C78_unrecognised_iff
#print axioms Smol.C78_count_error_iff
#print axioms Smol.C78_foreign_code_ignored
#print axioms Smol.C78_species_counts
#print axioms Smol.C78_single_occupancy_raises
#print axioms Smol.C78_compositions_sum_to_one
#print axioms Smol.C78_mean_composition
#print axioms Smol.C78_species_counts_walkers
#print axioms Smol.C78_mean_over_walkers
#print axioms Smol.C78_sublattice_mean_walkers
#print axioms Smol.C78_sublattice_mean_flat_partial
#print axioms Smol.C78_single_occupancy_mean_fails
#print axioms Smol.C78_mean_over_walkers_fails
#print axioms Smol.C79_samples
#print axioms Smol.C79_efficiency
#print axioms Smol.C79_efficiency_unthinned
#print axioms Smol.C79_all_discarded
#print axioms Smol.C79_orbit_factors_partial
#print axioms Smol.C79_orbit_factors_raise
#print axioms Smol.C79_orbit_factors_fail
#print axioms Smol.C80_rationalize
#print axioms Smol.C80_rationalize_recovers
#print axioms Smol.C80_integerize_vector
#print axioms Smol.C80_integerize_near
#print axioms Smol.C80_min_supercell_size
#print axioms Smol.C80_integerize_multiple
#print axioms Smol.C80_equations_partial
#print axioms Smol.C80_inequalities
#print axioms Smol.C80_refusals
#print axioms Smol.C80_fractional_charge_fails
#print axioms Smol.C80_small_coefficient_fails
#print axioms Smol.C81_round_trip
#print axioms Smol.C81_keys
#print axioms Smol.C82_acceptance
#print axioms Smol.C82_detailed_balance
#print axioms Smol.C82_frozen
#print axioms Smol.C82_reports
#print axioms Smol.C82_average
#print axioms Smol.C82_bin_share
#print axioms Smol.C82_flat_iff
#print axioms Smol.C82_flat_share
#print axioms Smol.C82_dos
#print axioms Smol.C82_fixed_point
#print axioms Smol.C83_spelling
#print axioms Smol.C83_idempotent
#print axioms Smol.C83_subclasses
#print axioms Smol.C83_factory
#print axioms Smol.C83_key_error_masked
#print axioms Smol.C83_listed_names
#print axioms Smol.C83_bias
#print axioms Smol.C83_bias_factory
#print axioms Smol.C83_listed_biases
#print axioms Smol.C83_case_not_ignored
#print axioms Smol.C84_objects
#print axioms Smol.C84_made
#print axioms Smol.C84_steps_follow_partial
#print axioms Smol.C84_restricted_keep
#print axioms Smol.C84_raises_iff
#print axioms Smol.C84_potentials_follow
#print axioms Smol.C84_setup
#print axioms Smol.C84_reset_not_followed
#print axioms Smol.C84_split_not_followed
#print axioms Smol.C84_metadata_stale
#print axioms Smol.C85_change
#print axioms Smol.C85_canonical
#print axioms Smol.C85_semigrand
#print axioms Smol.C86_add
#print axioms Smol.C86_add_values
#print axioms Smol.C86_process_again
#print axioms Smol.C86_remove
#print axioms Smol.C86_update
#print axioms Smol.C86_change
#print axioms Smol.C86_update_raises_partial
#print axioms Smol.C86_step_partial
#print axioms Smol.C86_rows_right_partial
#print axioms Smol.C86_dictionaries_partial
#print axioms Smol.C86_add_properties
#print axioms Smol.C86_add_weights
#print axioms Smol.C86_reload
#print axioms Smol.C86_shared_entry
#print axioms Smol.C86_stale_rows
#print axioms Smol.C86_mixed_rows
#print axioms Smol.C86_shared_dictionary
#print axioms Smol.C86_raises_after_adding
#print axioms Smol.C87_history
#print axioms Smol.C87_raises
#print axioms Smol.C87_correlations
#print axioms Smol.C87_counts
#print axioms Smol.C87_remove_functions
#print axioms Smol.C87_remove_orbits
#print axioms Smol.C88_selection
#print axioms Smol.C88_columns
#print axioms Smol.C88_defined
#print axioms Smol.C88_gram_plain
#print axioms Smol.C88_gram
#print axioms Smol.C88_gram_bounds_partial
#print axioms Smol.C88_gram_nan_witness
#print axioms Smol.C88_rank
#print axioms Smol.C88_rank_span
#print axioms Smol.C88_orbit_rank
#print axioms Smol.C88_constant
#print axioms Smol.C88_constant_deficient
#print axioms Smol.C88_similarity
#print axioms Smol.C88_similarity_order_witness
#print axioms Smol.C89_new
#print axioms Smol.C89_history_partial
#print axioms Smol.C89_orbits
#print axioms Smol.C89_prune_matching
#print axioms Smol.C89_eci_meaning
#print axioms Smol.C89_total
#print axioms Smol.C89_refresh
#print axioms Smol.C89_stale_coefs_witness
#print axioms Smol.C89_stale_bases_witness
#print axioms Smol.C89_stale_functions_witness
#print axioms Smol.C89_prune_constant_witness
#print axioms Smol.C89_prune_silent_witness
#print axioms Smol.C89_eci_out_of_step
#print axioms Smol.C90_vertices_partial
#print axioms Smol.C90_infeasible
#print axioms Smol.C90_inconsistent_witness
#print axioms Smol.C90_centroid_on_grid
#print axioms Smol.C90_centroid_nearest
#print axioms Smol.C90_centroid_raises
#print axioms Smol.C90_target_is_vertex_average
#print axioms Smol.C90_min_size_feasible
#print axioms Smol.C90_basis_dependence_witness
#print axioms Smol.C91_constructed
#print axioms Smol.C91_probabilities_in_force
#print axioms Smol.C91_always_usable
#print axioms Smol.C91_flip_probability
#print axioms Smol.C91_swap_probability
#print axioms Smol.C91_swap_nothing
#print axioms Smol.C91_restricted_later_raises
#print axioms Smol.C91_reset_later_ignored
#print axioms Smol.C91_multi_uniform
#print axioms Smol.C91_kernel_multi_uniform
#print axioms Smol.C91_multi_delegates
#print axioms Smol.C91_composite_mixture
#print axioms Smol.C91_composite_constructed
#print axioms Smol.C91_composite_set_without_effect
#print axioms Smol.C91_negative_accepted_witness
#print axioms Smol.C92_cutoffs
#print axioms Smol.C92_by_size
#print axioms Smol.C92_from_cutoffs
#print axioms Smol.C92_from_cutoffs_numbers
#print axioms Smol.C92_from_cutoffs_sizes
#print axioms Smol.C92_function_inds
#print axioms Smol.C92_function_inds_increasing
#print axioms Smol.C92_by_diameter
#print axioms Smol.C92_eq_partial
#print axioms Smol.C92_eq_more_orbits
#print axioms Smol.C92_eq_other_functions
#print axioms Smol.C93_accepts
#print axioms Smol.C93_processors
#print axioms Smol.C93_one_each
#print axioms Smol.C93_all_shapes
#print axioms Smol.C93_from_processors
#print axioms Smol.C93_find
#print axioms Smol.C93_kept_partial
#print axioms Smol.C93_composition_partial
#print axioms Smol.C93_visited
#print axioms Smol.C93_best
#print axioms Smol.C93_score
#print axioms Smol.C93_same_lattice_not_found
#print axioms Smol.C93_left_handed
#print axioms Smol.C93_mixed_processors
#print axioms Smol.C93_one_shape_hop
#print axioms Smol.C94_raises
#print axioms Smol.C94_energies
#print axioms Smol.C94_weights
#print axioms Smol.C94_lowest
#print axioms Smol.C94_at_least
#print axioms Smol.C94_above_composition
#print axioms Smol.C94_structures_partial
#print axioms Smol.C94_supercells
#print axioms Smol.C94_shift
#print axioms Smol.C94_artificial_entries
#print axioms Smol.C95_raises
#print axioms Smol.C95_rows
#print axioms Smol.C95_recorded
#print axioms Smol.C95_changed
#print axioms Smol.C95_kernels
#print axioms Smol.C95_setter
#print axioms Smol.C95_session
#print axioms Smol.C95_late_bias
#print axioms Smol.C95_multicell
#print axioms Smol.C95_multicell_mixed_bias
#print axioms Smol.C96_placed
#print axioms Smol.C96_init
#print axioms Smol.C96_assign
#print axioms Smol.C96_distance
#print axioms Smol.C96_copy
#print axioms Smol.C96_copy_twice
#print axioms Smol.C96_reload
#print axioms Smol.C96_vacancies_lost
#print axioms Smol.C96_offered
#print axioms Smol.C96_to
#print axioms Smol.C96_from_str
#print axioms Smol.C96_file_partial
#print axioms Smol.C96_yaml_misplaced
#print axioms Smol.C96_format_ignored
#print axioms Smol.C97_later
#print axioms Smol.C97_processors
#print axioms Smol.C97_composites
#print axioms Smol.C97_add
#print axioms Smol.C97_ewald_shared
#print axioms Smol.C97_reload
#print axioms Smol.C97_reload_composite
#print axioms Smol.C97_shared_loads
#print axioms Smol.C97_dict_consumed
#print axioms Smol.C97_unloadable
#print axioms Smol.C97_distance_stale
#print axioms Smol.C98_same
#print axioms Smol.C98_again
#print axioms Smol.C98_attributes
#print axioms Smol.C98_listed
#print axioms Smol.C98_kernels_lost
#print axioms Smol.C98_save_work
#print axioms Smol.C98_load_work
#print axioms Smol.C98_work_lost
#print axioms Smol.C99_terms
#print axioms Smol.C99_injective
#print axioms Smol.C99_balance
#print axioms Smol.C99_conserved
#print axioms Smol.C99_reverse
#print axioms Smol.C99_short_raises
#print axioms Smol.C99_table
#print axioms Smol.C100_own_chains
#print axioms Smol.C100_single_walker
#print axioms Smol.C100_raises_iff
#print axioms Smol.C100_cells
#print axioms Smol.C100_walkers_repeated
#print axioms Smol.C100_walker_cells_refused
#print axioms Smol.C100_cells_misread
#print axioms Smol.C101_in_step
#print axioms Smol.C101_set_local
#print axioms Smol.C101_set_full
#print axioms Smol.C101_set_subspace
#print axioms Smol.C101_new_processor
#print axioms Smol.C101_subspace_ignored
#print axioms Smol.C101_no_evaluators
#print axioms Smol.C102_reload
#print axioms Smol.C102_sessions
#print axioms Smol.C102_save_raises
#print axioms Smol.C102_array_not_none
#print axioms Smol.C102_names
#print axioms Smol.C102_older
#print axioms Smol.C102_classes
#print axioms Smol.C103_chosen
#print axioms Smol.C103_possible
#print axioms Smol.C103_scaled
#print axioms Smol.C103_negligible
#print axioms Smol.C103_not_normalized
#print axioms Smol.C103_raises
#print axioms Smol.C103_negative_accepted
#print axioms Smol.C103_probability
#print axioms Smol.C104_without_ensemble
#print axioms Smol.C104_with_ensemble
#print axioms Smol.C104_parameters_unchecked
#print axioms Smol.C104_saved_again
#print axioms Smol.C104_lost
#print axioms Smol.C105_sessions
#print axioms Smol.C105_same_beta_iff
#print axioms Smol.C105_sqs
#print axioms Smol.C105_constant_not_passed
#print axioms Smol.C105_cell_assigned
#print axioms Smol.C105_refused
