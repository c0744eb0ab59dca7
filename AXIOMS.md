# Axioms of the theorems of the manifest

Output of `#print axioms`, grouped. No theorem uses `sorryAx` or an axiom of this project.

## none

`Props.C100_types`, `Props.C112_fails_numpy`, `Props.C15_exact_fit_depends_on_threads`, `Props.C17_ambiguous`, `Props.C49_ignored`, `Props.C72_fails_spinful`, `Props.C94_fails_none`

## propext

`Props.C03_undefined_at_full_width`, `Props.C04_wrong_from_256_particles`, `Props.C100_fails_single`, `Props.C105_fails_integer`, `Props.C110_fails_index`, `Props.C110_fails_map`, `Props.C111_fails_empty`, `Props.C111_fails_places`, `Props.C111_types`, `Props.C113_count`, `Props.C115_fails_columns`, `Props.C115_fails_output`, `Props.C115_fails_refused`, `Props.C115_fails_rows`, `Props.C116_refused`, `Props.C17_eleven_levels`, `Props.C17_sixty_five_sites`, `Props.C28_conj_fails`, `Props.C28_conj_square_fails`, `Props.C28_conjugate`, `Props.C67_fails_empty`, `Props.C67_fails_repeated`, `Props.C86_fails_boson`, `Props.C91_fails_general`, `Props.C97_fails_higher_spin`, `Props.C97_fails_up_to_boson`, `Props.C97_fails_vacuum`, `Props.C98_fails_empty`, `Props.C98_fails_list`, `Props.C98_fails_list_example`, `Props.C98_fails_list_from`, `Props.C98_fails_list_to`, `Props.C98_fails_one_state`, `Props.C98_fails_sparse`, `Props.C98_fails_user`, `Props.C98_from_partial`, `Props.C98_get_proj_partial`, `Props.C98_round_trip_partial`, `Props.C98_to_partial`, `Props.C98_unmade`

## Quot.sound, propext

`Props.C01_repeated_sector_duplicates`, `Props.C100_accepted`, `Props.C100_fails_strided`, `Props.C103_fails_asarray`, `Props.C103_fails_shared`, `Props.C108_fails_empty`, `Props.C108_fails_user`, `Props.C108_fails_user_late`, `Props.C108_user_partial`, `Props.C110_shown`, `Props.C111_accepted`, `Props.C111_fails_overrun`, `Props.C112_fails_empty`, `Props.C112_fails_list`, `Props.C112_fails_minimum`, `Props.C112_fails_negative`, `Props.C112_fails_scalar`, `Props.C112_filled`, `Props.C112_python`, `Props.C114_refused`, `Props.C115_accepted`, `Props.C115_table`, `Props.C13_lookup_full`, `Props.C16_index_beyond_type`, `Props.C28_collision`, `Props.C28_equal_partial`, `Props.C32_fails_collect`, `Props.C32_inversion_blocks`, `Props.C33_sequential`, `Props.C35_all_states_fit`, `Props.C49_fails`, `Props.C59_fails_constructor`, `Props.C59_fails_copy`, `Props.C59_fails_neg`, `Props.C59_fails_self`, `Props.C59_fails_sum`, `Props.C59_fails_transpose`, `Props.C59_fails_twice`, `Props.C59_fails_user`, `Props.C64_fails_product`, `Props.C67_all`, `Props.C72_fails_wide`, `Props.C86_negative`, `Props.C94_construct`, `Props.C94_fails_allowed`, `Props.C94_fails_count`, `Props.C94_fails_list`, `Props.C94_named_order`, `Props.C97_fails_up_to_higher_spin`, `Props.C97_negative`, `Props.C98_vector_partial`, `Props.dsum_is_total_occupation`

## Classical.choice, Quot.sound, propext

`Props.C01_fixed_number_complete`, `Props.C01_several_sectors_complete`, `Props.C01_unrestricted_complete`, `Props.C02_complete`, `Props.C02_complete_of_room`, `Props.C02_supported`, `Props.C03_count_exact_iff`, `Props.C03_count_exact_partial`, `Props.C03_wrong_from_256_particles`, `Props.C04_complete_partial`, `Props.C04_dimension_partial`, `Props.C05_bijective`, `Props.C05_image`, `Props.C05_image_loop`, `Props.C05_network_eq_loop`, `Props.C06_bijective`, `Props.C06_image`, `Props.C06_inversion_at_half_filling`, `Props.C06_permutation_in_sector`, `Props.C06_sector`, `Props.C06_unique`, `Props.C07_idempotent`, `Props.C07_representative`, `Props.C07_same_representative_iff`, `Props.C08_basis`, `Props.C08_kept_iff`, `Props.C08_norm`, `Props.C09_blocks_partition`, `Props.C09_built`, `Props.C100_fails_columns`, `Props.C100_fails_rows`, `Props.C100_kernel`, `Props.C100_result_partial`, `Props.C101_default`, `Props.C101_fails_mixed`, `Props.C101_fails_shape`, `Props.C101_fails_sparse`, `Props.C101_refused`, `Props.C101_traces_partial`, `Props.C103_anti_commutator_partial`, `Props.C103_as_dense_partial`, `Props.C103_as_sparse_partial`, `Props.C103_commutator_partial`, `Props.C103_fails_dense`, `Props.C103_fails_mixed`, `Props.C103_fails_sparse`, `Props.C103_matrices`, `Props.C104_agree_partial`, `Props.C104_default_partial`, `Props.C104_fails_columns`, `Props.C104_fails_empty`, `Props.C104_fails_letters`, `Props.C104_fails_more_columns`, `Props.C104_fails_readonly`, `Props.C104_fails_shape`, `Props.C104_fails_sites`, `Props.C104_fails_strided`, `Props.C104_general_partial`, `Props.C104_lattice_partial`, `Props.C104_pauli`, `Props.C104_refuses`, `Props.C105_accepts`, `Props.C105_copied`, `Props.C105_equation`, `Props.C105_fails_caller`, `Props.C105_fails_scalar`, `Props.C105_fails_use`, `Props.C105_generator`, `Props.C105_imaginary_partial`, `Props.C105_scalar_partial`, `Props.C105_stack`, `Props.C106_fails_basis`, `Props.C106_fails_imaginary`, `Props.C106_fails_keywords`, `Props.C106_fails_nested`, `Props.C106_fails_shape`, `Props.C106_fails_unchecked`, `Props.C106_refuses`, `Props.C106_shapes`, `Props.C106_square`, `Props.C106_sum_partial`, `Props.C107_choice_partial`, `Props.C107_fails_both`, `Props.C107_fails_columns`, `Props.C107_fails_enforce`, `Props.C107_fails_packed`, `Props.C107_fails_rest`, `Props.C107_fails_single`, `Props.C107_fails_spectra`, `Props.C107_keys_partial`, `Props.C107_mixed_partial`, `Props.C107_one_matrix`, `Props.C107_photon_mixed_partial`, `Props.C107_photon_one_matrix`, `Props.C107_photon_one_partial`, `Props.C107_photon_partial`, `Props.C107_pure_partial`, `Props.C107_refuses`, `Props.C107_sparse_partial`, `Props.C108_again`, `Props.C108_fails_again`, `Props.C108_history_partial`, `Props.C109_call_partial`, `Props.C109_fails_complex`, `Props.C109_fails_empty`, `Props.C109_fails_triangle`, `Props.C109_fails_unpack`, `Props.C109_fails_uplo`, `Props.C109_hamiltonian_partial`, `Props.C109_linear`, `Props.C109_quantum_operator_partial`, `Props.C10_general`, `Props.C10_one_dimensional`, `Props.C10_spin`, `Props.C110_accepted`, `Props.C110_chain_strings`, `Props.C110_check_partial`, `Props.C110_fails_entropy`, `Props.C110_fails_range`, `Props.C110_fails_repeated`, `Props.C110_fails_subsystem`, `Props.C110_index`, `Props.C110_map`, `Props.C110_map_accepted`, `Props.C110_strings_partial`, `Props.C110_subsystem`, `Props.C111_elements_partial`, `Props.C111_fails_inplace`, `Props.C111_fails_mask`, `Props.C111_fails_types`, `Props.C111_fails_width`, `Props.C111_inplace`, `Props.C112_back`, `Props.C112_fails_overflow`, `Props.C112_index`, `Props.C112_narrowest`, `Props.C112_refused`, `Props.C112_round_trip`, `Props.C112_to_basis`, `Props.C112_type_fits`, `Props.C112_type_least_partial`, `Props.C113_all_states`, `Props.C113_fails_repeated`, `Props.C113_momentum`, `Props.C113_momentum_inversion`, `Props.C113_momentum_product`, `Props.C113_momentum_reflection`, `Props.C113_momentum_reflection_inversion`, `Props.C113_momentum_sublattice`, `Props.C113_multi_level`, `Props.C113_multi_level_partial`, `Props.C113_spinful`, `Props.C113_spinful_partial`, `Props.C113_two_level`, `Props.C113_two_level_partial`, `Props.C114_fails_length`, `Props.C114_fails_letters`, `Props.C114_fails_twice`, `Props.C114_index`, `Props.C114_round_trip_partial`, `Props.C114_strings_partial`, `Props.C115_arithmetic`, `Props.C115_fails_imaginary`, `Props.C115_given_partial`, `Props.C115_in_place`, `Props.C115_new`, `Props.C115_order`, `Props.C116_fails_exchanges`, `Props.C116_free_partial`, `Props.C116_given`, `Props.C116_order_two`, `Props.C116_small`, `Props.C11_anticommutation_partial`, `Props.C11_fails_at_257_sites`, `Props.C11_one_dimensional`, `Props.C11_spinful_partial`, `Props.C11_strings_partial`, `Props.C12_boson_partial`, `Props.C12_boson_z_wrong`, `Props.C12_higher_spin`, `Props.C12_one_dimensional`, `Props.C13_constructed_basis`, `Props.C13_fermion_strings`, `Props.C13_lookup`, `Props.C13_lookup_blocks`, `Props.C13_lookup_plain`, `Props.C13_lookup_plain_blocks`, `Props.C13_no_symmetry`, `Props.C13_orthonormal`, `Props.C13_restriction`, `Props.C13_spin_strings`, `Props.C13_terms`, `Props.C14_fixed_number`, `Props.C14_multi_level_fixed_number`, `Props.C14_thread_independent`, `Props.C14_two_level_fixed_number`, `Props.C14_unrestricted`, `Props.C15_never_overruns`, `Props.C15_parallel_shortage_iff`, `Props.C15_sequential_shortage_iff`, `Props.C15_shortage_consistent_partial`, `Props.C16_index_partial`, `Props.C16_one_dimensional`, `Props.C16_one_dimensional_repeated`, `Props.C16_search`, `Props.C16_search_blocks`, `Props.C17_basis_round_trip_partial`, `Props.C17_bracket_partial`, `Props.C17_round_trip_partial`, `Props.C17_string`, `Props.C17_strings_partial`, `Props.C18_executes`, `Props.C18_parallel_eq_serial`, `Props.C18_product`, `Props.C19_builds_agree`, `Props.C19_complex_parts`, `Props.C19_csc`, `Props.C19_dia`, `Props.C19_executes`, `Props.C19_real_parts`, `Props.C20_add_matrix_partial`, `Props.C20_add_partial`, `Props.C20_adjoint`, `Props.C20_conj`, `Props.C20_expression_partial`, `Props.C20_fails_dense`, `Props.C20_fails_tiny`, `Props.C20_mul_matrix_partial`, `Props.C20_mul_partial`, `Props.C20_neg`, `Props.C20_pow_zero_fails`, `Props.C20_returns`, `Props.C20_rmul_matrix_partial`, `Props.C20_rsub_matrix_partial`, `Props.C20_scalar_partial`, `Props.C20_sub_matrix_partial`, `Props.C20_sub_partial`, `Props.C20_transpose`, `Props.C21_apart_partial`, `Props.C21_fails_astype`, `Props.C21_fails_in_place_sum`, `Props.C21_fails_sum`, `Props.C21_fails_transpose`, `Props.C21_fails_zero`, `Props.C21_in_place_partial`, `Props.C21_no_sharing_partial`, `Props.C21_pure`, `Props.C22_dense_partial`, `Props.C22_fails`, `Props.C22_hamiltonian_fails`, `Props.C22_hamiltonian_partial`, `Props.C22_scalar_partial`, `Props.C22_sparse_partial`, `Props.C23_dictionary_partial`, `Props.C23_fails_caller`, `Props.C23_fails_default`, `Props.C23_fails_leak`, `Props.C23_fails_linear`, `Props.C23_fails_linear_follows`, `Props.C23_fails_small`, `Props.C23_keywords`, `Props.C23_never_wrong_partial`, `Props.C23_partial`, `Props.C23_same_names_partial`, `Props.C24_exp_copies`, `Props.C24_exp_copy_returned`, `Props.C24_exp_object_partial`, `Props.C24_exp_returned`, `Props.C24_exp_twice_partial`, `Props.C24_fails_exp_H`, `Props.C24_fails_exp_T`, `Props.C24_fails_exp_sandwich`, `Props.C24_fails_linear_T`, `Props.C24_fails_linear_copy`, `Props.C24_fails_linear_diagonal`, `Props.C24_fails_linear_left`, `Props.C24_linear_adjoint_partial`, `Props.C24_linear_products`, `Props.C24_linear_reads_partial`, `Props.C24_linear_symmetric_partial`, `Props.C25_expand`, `Props.C25_expanded_dynamic_partial`, `Props.C25_expanded_fermion_partial`, `Props.C25_expanded_sites_partial`, `Props.C25_expanded_spin_half_partial`, `Props.C25_fails_args`, `Props.C25_fails_drives`, `Props.C25_fails_nonzero`, `Props.C25_fails_tensor`, `Props.C25_families`, `Props.C25_hc_fermion`, `Props.C25_hc_sites`, `Props.C25_hc_spinful`, `Props.C25_hc_tensor`, `Props.C25_nonzero_partial`, `Props.C25_sort_fermion`, `Props.C25_sort_sites`, `Props.C25_sort_spinful`, `Props.C25_sort_tensor_partial`, `Props.C26_exact_partial`, `Props.C26_fails_repeated`, `Props.C26_fails_split`, `Props.C26_fails_tensor`, `Props.C26_fails_times`, `Props.C26_fermion_partial`, `Props.C26_sites_partial`, `Props.C26_spinful_partial`, `Props.C27_dynamic_distinct`, `Props.C27_dynamic_partial`, `Props.C27_fails`, `Props.C27_static_exact_partial`, `Props.C27_static_partial`, `Props.C28_pointwise_partial`, `Props.C28_power_partial`, `Props.C28_product_fails`, `Props.C28_products_return`, `Props.C29_agree`, `Props.C29_fails_conjugate`, `Props.C29_fails_order`, `Props.C29_fails_quotient`, `Props.C29_mixed_partial`, `Props.C29_pure_partial`, `Props.C29_reorder`, `Props.C29_sparse_partial`, `Props.C29_trace`, `Props.C30_fails_index`, `Props.C30_fails_nested`, `Props.C30_index`, `Props.C30_op`, `Props.C31_error`, `Props.C31_fails_room`, `Props.C31_matrix_partial`, `Props.C31_partial`, `Props.C32_blocks_once`, `Props.C32_bonds`, `Props.C32_compatible_partial`, `Props.C32_diagonal_relations`, `Props.C32_diagonals`, `Props.C32_fails_none`, `Props.C32_fails_skipped`, `Props.C32_inversions`, `Props.C32_momenta`, `Props.C32_moves`, `Props.C32_parity_blocks`, `Props.C32_periods`, `Props.C32_permutations`, `Props.C32_relations`, `Props.C32_translations`, `Props.C32_visited`, `Props.C33_distribution`, `Props.C33_hangs`, `Props.C33_progress_partial`, `Props.C33_results_partial`, `Props.C33_terminates`, `Props.C34_blocks_partial`, `Props.C34_fails`, `Props.C34_one_drive`, `Props.C34_pairing`, `Props.C34_vanishing_fails`, `Props.C35_number_bounded_partial`, `Props.C35_overflow_loses_matrix_element`, `Props.C35_sector_fits`, `Props.C36_period_is_order`, `Props.C36_refused_iff`, `Props.C36_terminates`, `Props.C36_user_maps_act`, `Props.C37_fails_empty`, `Props.C37_fails_ending`, `Props.C37_fails_overwritten`, `Props.C37_fails_raises`, `Props.C37_one_partial`, `Props.C37_partial`, `Props.C38_compatible`, `Props.C38_fails_full_width`, `Props.C38_inversion`, `Props.C38_momentum`, `Props.C38_reflection`, `Props.C38_translation`, `Props.C39_agree_partial`, `Props.C39_comb`, `Props.C39_fails_agree`, `Props.C39_fails_eigenvector`, `Props.C39_fails_levels`, `Props.C39_fails_list`, `Props.C39_fails_tolerance`, `Props.C39_full_partial`, `Props.C39_iter_partial`, `Props.C39_reiterate`, `Props.C40_const`, `Props.C40_coordinates`, `Props.C40_fails_coordinates`, `Props.C40_fails_down`, `Props.C40_fails_no_ramp`, `Props.C40_fails_up_duration`, `Props.C40_partition_partial`, `Props.C40_segment_strobo_partial`, `Props.C40_strobo`, `Props.C40_times`, `Props.C41_fails_tensor`, `Props.C41_fails_tensor_product`, `Props.C41_fails_zero`, `Props.C41_limit`, `Props.C41_mixed_partial`, `Props.C41_negative`, `Props.C41_pure_partial`, `Props.C41_rdm`, `Props.C41_sparse_partial`, `Props.C41_tensor_partial`, `Props.C41_zero`, `Props.C42_get_proj`, `Props.C42_image_symmetric`, `Props.C42_onto_symmetric`, `Props.C42_pcon_wrong`, `Props.C42_project_from`, `Props.C42_project_to`, `Props.C42_race_free`, `Props.C42_round_trip`, `Props.C42_sparse_is_transpose`, `Props.C42_sparse_partial`, `Props.C42_sparse_wrong`, `Props.C43_fails_large`, `Props.C43_fails_twice`, `Props.C43_partial`, `Props.C44_matrix_free`, `Props.C45_intertwines`, `Props.C45_intertwines_strings`, `Props.C45_permutation`, `Props.C45_permutation_exists`, `Props.C45_product`, `Props.C45_sign`, `Props.C45_vacuum`, `Props.C46_silent_for_noncommuting`, `Props.C46_warning_partial`, `Props.C46_warns_for_commuting`, `Props.C47_acts_partial`, `Props.C47_particle_hole_fails`, `Props.C47_particle_hole_matrix`, `Props.C47_particle_hole_square`, `Props.C47_translation_particle_hole`, `Props.C48_csc`, `Props.C48_csr_fails`, `Props.C48_csr_new_output`, `Props.C48_csr_partial`, `Props.C48_csr_where`, `Props.C48_dia`, `Props.C49_function`, `Props.C49_matvec_partial`, `Props.C50_constructor_exact_partial`, `Props.C50_constructor_partial`, `Props.C50_fails`, `Props.C50_matrices_partial`, `Props.C51_diagonal_fails`, `Props.C51_diagonal_partial`, `Props.C51_dot`, `Props.C51_dot_times`, `Props.C51_element`, `Props.C51_matrix`, `Props.C51_rdot_fails`, `Props.C51_rdot_partial`, `Props.C51_trace`, `Props.C51_transpose`, `Props.C52_imaginary_fails`, `Props.C52_imaginary_partial`, `Props.C52_imaginary_several`, `Props.C52_overlaps`, `Props.C52_schroedinger`, `Props.C52_stack_fails`, `Props.C52_stack_partial`, `Props.C52_stacked`, `Props.C52_times`, `Props.C52_vonNeumann_fails`, `Props.C52_vonNeumann_partial`, `Props.C52_vonNeumann_sparse`, `Props.C53_iadd_matrix_partial`, `Props.C53_iadd_partial`, `Props.C53_isub_dense_fails`, `Props.C53_isub_fails`, `Props.C53_isub_matrix_partial`, `Props.C53_isub_partial`, `Props.C54_dense_partial`, `Props.C54_fails`, `Props.C54_sparse_partial`, `Props.C55_dict_ignored`, `Props.C55_exception_fails`, `Props.C55_formats_partial`, `Props.C55_operator`, `Props.C55_products_partial`, `Props.C55_string_fails`, `Props.C55_string_raises`, `Props.C56_fails`, `Props.C56_mixed`, `Props.C56_pure`, `Props.C57_column_partial`, `Props.C57_density_partial`, `Props.C57_fluctuation_fails`, `Props.C57_fluctuations_partial`, `Props.C57_matrix_elements`, `Props.C57_one_dimensional_fails`, `Props.C57_one_dimensional_sum`, `Props.C57_state_partial`, `Props.C57_states_partial`, `Props.C57_times`, `Props.C58_fails_accepts`, `Props.C58_fails_drives`, `Props.C58_fails_rejects`, `Props.C58_fermion_partial`, `Props.C58_sites_partial`, `Props.C58_spin_half_partial`, `Props.C59_add`, `Props.C59_copy`, `Props.C59_iadd_partial`, `Props.C59_imul_partial`, `Props.C59_isub_partial`, `Props.C59_mul`, `Props.C59_mul_separate`, `Props.C59_pure_history_partial`, `Props.C59_pure_partial`, `Props.C59_sub`, `Props.C59_transpose`, `Props.C60_dot`, `Props.C60_fails_complex`, `Props.C60_fails_hamiltonian`, `Props.C60_fails_sandwich`, `Props.C60_fails_sandwich_shift`, `Props.C60_fails_set_grid`, `Props.C60_fails_shift`, `Props.C60_grids_partial`, `Props.C60_linspace`, `Props.C60_plain`, `Props.C60_rdot`, `Props.C60_sandwich_hermitian_partial`, `Props.C60_sandwich_partial`, `Props.C60_sandwich_plain_partial`, `Props.C60_shift_partial`, `Props.C61_expm`, `Props.C61_expm_projected`, `Props.C61_ftlm`, `Props.C61_moments`, `Props.C62_fails_identity`, `Props.C62_fails_shift`, `Props.C62_partial`, `Props.C63_fails_both_sublattices`, `Props.C63_inversion`, `Props.C63_momentum_inversion`, `Props.C63_momentum_sublattice_A`, `Props.C63_momentum_sublattice_B`, `Props.C63_parity`, `Props.C63_parity_inversion`, `Props.C63_product`, `Props.C63_sublattice`, `Props.C63_sublattices`, `Props.C64_inversion`, `Props.C64_momentum`, `Props.C64_momentum_inversion`, `Props.C64_momentum_sublattice`, `Props.C64_momentum_sublattices`, `Props.C64_parity`, `Props.C64_parity_inversion`, `Props.C64_product_partial`, `Props.C64_sublattice`, `Props.C64_sublattices`, `Props.C65_all`, `Props.C65_fails_product`, `Props.C65_fixed_number`, `Props.C65_inversion`, `Props.C65_momentum`, `Props.C65_momentum_inversion`, `Props.C65_momentum_sublattice_A`, `Props.C65_momentum_sublattice_B`, `Props.C65_parity`, `Props.C65_parity_inversion`, `Props.C65_product_partial`, `Props.C65_real_refused`, `Props.C65_sublattice_A`, `Props.C65_sublattice_B`, `Props.C65_sublattices`, `Props.C66_even_length`, `Props.C66_fails`, `Props.C66_odd_length_partial`, `Props.C67_fails_width`, `Props.C67_multi_level`, `Props.C67_spinful_all_partial`, `Props.C67_spinful_partial`, `Props.C67_two_level`, `Props.C68_all_partial`, `Props.C68_conserved`, `Props.C68_fails_double_occupancy`, `Props.C69_executes`, `Props.C69_fails_norm`, `Props.C69_fails_team`, `Props.C69_fails_team_differs`, `Props.C69_fails_team_result`, `Props.C69_limit`, `Props.C69_result`, `Props.C69_threads`, `Props.C70_fails_combination`, `Props.C70_fails_int8`, `Props.C70_inversion`, `Props.C70_momentum`, `Props.C70_momentum_inversion_partial`, `Props.C70_momentum_sublattice_partial`, `Props.C70_no_symmetry`, `Props.C70_parity`, `Props.C70_parity_inversion`, `Props.C70_product`, `Props.C70_sublattice_A`, `Props.C70_sublattice_B`, `Props.C70_sublattices`, `Props.C71_amp_coefficients_partial`, `Props.C71_amp_full`, `Props.C71_amp_real`, `Props.C71_amp_representative_partial`, `Props.C71_fails_int_factor`, `Props.C71_fails_mode`, `Props.C71_fails_nan`, `Props.C71_fails_zero_amp`, `Props.C71_normalization_default_partial`, `Props.C71_normalization_partial`, `Props.C71_representative`, `Props.C71_representative_iff`, `Props.C72_bra_ket_partial`, `Props.C72_fails_diagonal`, `Props.C72_fails_imaginary`, `Props.C72_fails_pauli`, `Props.C72_fails_return`, `Props.C72_fails_stale`, `Props.C72_shift_sector_partial`, `Props.C73_degenerate`, `Props.C73_entropy`, `Props.C73_fails_array`, `Props.C73_fails_complex`, `Props.C73_fails_dm`, `Props.C73_fails_integer`, `Props.C73_fails_resonance`, `Props.C73_fluctuations_partial`, `Props.C73_mixed_partial`, `Props.C73_observable_dm`, `Props.C73_observable_pure`, `Props.C73_thermal_partial`, `Props.C73_weights`, `Props.C74_momentum_product`, `Props.C74_momentum_reflection`, `Props.C75_fails_unit_cell`, `Props.C75_momentum_product_partial`, `Props.C75_momentum_reflection_partial`, `Props.C76_momentum_reflection_inversion`, `Props.C76_widths`, `Props.C77_fails_signed_byte`, `Props.C77_short_chains`, `Props.C77_vectors_partial`, `Props.C78_chain_partial`, `Props.C78_exact_chain_partial`, `Props.C78_exact_maps_partial`, `Props.C78_fails_current`, `Props.C78_fails_identity`, `Props.C78_fails_number`, `Props.C78_fails_odd`, `Props.C78_fails_one_site`, `Props.C78_fails_repeated`, `Props.C78_fails_spin_exchange`, `Props.C78_fails_spin_reflection`, `Props.C78_fails_split`, `Props.C78_fermions_partial`, `Props.C78_inversion_partial`, `Props.C78_maps_partial`, `Props.C78_spin_flip`, `Props.C78_spin_matrices`, `Props.C78_spinful_partial`, `Props.C79_attributes`, `Props.C79_fails_lengths`, `Props.C79_fails_order`, `Props.C79_fails_period`, `Props.C79_fails_static`, `Props.C79_palindromes`, `Props.C79_phases`, `Props.C79_states_partial`, `Props.C79_transposed`, `Props.C80_arrays`, `Props.C80_elements`, `Props.C80_fails_driven`, `Props.C80_hamiltonian_partial`, `Props.C80_isometry`, `Props.C80_shapes`, `Props.C80_sparse_partial`, `Props.C81_fails_zero`, `Props.C81_gibbs`, `Props.C81_value`, `Props.C82_fails_two`, `Props.C82_outcome`, `Props.C82_range`, `Props.C82_units`, `Props.C83_columns`, `Props.C83_density`, `Props.C83_entropy_partial`, `Props.C83_evolution`, `Props.C83_evolution_mixed`, `Props.C83_fails_entropy`, `Props.C83_fails_generator`, `Props.C83_fails_many_states`, `Props.C83_fails_mutation`, `Props.C83_fails_one_time`, `Props.C83_generator_partial`, `Props.C84_fails_diagonal`, `Props.C84_rows`, `Props.C84_states_partial`, `Props.C84_symmetric_partial`, `Props.C85_boson_partial`, `Props.C85_checks`, `Props.C85_commute`, `Props.C85_fails_contradiction`, `Props.C85_fails_contradiction_sublattices`, `Props.C85_fails_inversion_product`, `Props.C85_fails_inversion_sublattice`, `Props.C85_fails_momentum_inversion_product`, `Props.C85_fails_momentum_reflection_product`, `Props.C85_fails_particle_hole`, `Props.C85_fails_reflection_product`, `Props.C85_fails_sublattice_product`, `Props.C85_labels`, `Props.C85_spin_partial`, `Props.C85_spinful_partial`, `Props.C85_spinless`, `Props.C86_density`, `Props.C86_exact`, `Props.C86_fails_density`, `Props.C86_fails_several`, `Props.C86_fails_spinful`, `Props.C86_sectors_partial`, `Props.C87_boson_partial`, `Props.C87_fails_boson`, `Props.C87_fails_higher_spin`, `Props.C87_fails_spinful`, `Props.C87_fails_spinless`, `Props.C87_higher_spin_partial`, `Props.C87_spin`, `Props.C87_spinful_partial`, `Props.C87_spinless_partial`, `Props.C88_blocks`, `Props.C88_distance_partial`, `Props.C88_evolve_partial`, `Props.C88_expm_partial`, `Props.C88_fails_block_diag`, `Props.C88_fails_caller`, `Props.C88_fails_jobs`, `Props.C88_fails_order`, `Props.C88_fails_update`, `Props.C88_keywords`, `Props.C88_outcome`, `Props.C89_dot_partial`, `Props.C89_fails_caller`, `Props.C89_fails_number`, `Props.C89_fails_out`, `Props.C89_fails_quant_fluct`, `Props.C89_fails_sparse`, `Props.C89_matrix_ele`, `Props.C89_mixture_partial`, `Props.C89_set_diagonal`, `Props.C89_state_partial`, `Props.C89_states_partial`, `Props.C90_fails_check`, `Props.C90_fails_matrix`, `Props.C90_herm_partial`, `Props.C91_fails_large`, `Props.C91_get_proj_partial`, `Props.C91_isometry`, `Props.C91_project_from_partial`, `Props.C91_tensor`, `Props.C91_tensor_isometry`, `Props.C92_columns_partial`, `Props.C92_fails_conjugate`, `Props.C92_fails_default`, `Props.C92_fails_photon_mixed`, `Props.C92_fails_stack`, `Props.C92_fails_stack_square`, `Props.C92_mixed_partial`, `Props.C92_one_partial`, `Props.C92_particles_partial`, `Props.C92_photons_partial`, `Props.C92_trace`, `Props.C93_coherent_complex_partial`, `Props.C93_coherent_real_partial`, `Props.C93_dimension`, `Props.C93_eigenstate`, `Props.C93_fails_empty`, `Props.C93_fails_negative`, `Props.C93_fails_vacuum`, `Props.C93_norm`, `Props.C94_basis`, `Props.C94_default_order`, `Props.C94_matrix`, `Props.C94_op`, `Props.C94_sector`, `Props.C95_order`, `Props.C96_fails_identities`, `Props.C96_fails_raises`, `Props.C96_fails_sector`, `Props.C96_used_partial`, `Props.C97_boson_list`, `Props.C97_default`, `Props.C97_fails_spinless`, `Props.C97_fails_spinless_example`, `Props.C97_fails_up_to_spinless`, `Props.C97_number`, `Props.C97_spinless`, `Props.C97_unrestricted`, `Props.C97_up_to`, `Props.C97_up_to_boson_partial`, `Props.C99_constructor`, `Props.C99_dot_accepts`, `Props.C99_dot_type`, `Props.C99_fails_integers`, `Props.C99_fails_set_a`, `Props.C99_fails_stale`, `Props.C99_history`, `Props.C99_history_dtype`, `Props.C99_no_terms`, `Props.C99_refused`, `Props.C99_scalar_type`, `Props.QOp.C102_adjoint`, `Props.QOp.C102_construct_partial`, `Props.QOp.C102_dot`, `Props.QOp.C102_expt_partial`, `Props.QOp.C102_fails_basis`, `Props.QOp.C102_fails_dense`, `Props.QOp.C102_fails_fluct_mixed`, `Props.QOp.C102_fails_fluct_state`, `Props.QOp.C102_fails_linear`, `Props.QOp.C102_fails_mix`, `Props.QOp.C102_fails_one`, `Props.QOp.C102_fails_out`, `Props.QOp.C102_fails_rdot`, `Props.QOp.C102_fails_update`, `Props.QOp.C102_fails_zero`, `Props.QOp.C102_fluct_partial`, `Props.QOp.C102_formats`, `Props.QOp.C102_history_partial`, `Props.QOp.C102_linear_partial`, `Props.QOp.C102_matrix_ele`, `Props.QOp.C102_matvec`, `Props.QOp.C102_rdot_partial`, `Props.QOp.C102_rmatvec`, `Props.QOp.C102_toarray_partial`, `Props.QOp.C102_tohamiltonian`, `Props.element_shift`
