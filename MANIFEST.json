{
 "claims": [
  {
   "property": "C03",
   "status": "partial",
   "theorems": [
    "Props.C03_count_exact_iff",
    "Props.C03_count_exact_partial",
    "Props.C03_wrong_from_256_particles",
    "Props.C03_undefined_at_full_width"
   ],
   "note": "The code violates the full property (256 or more particles; position equal to the type's width); exact region characterised."
  },
  {
   "property": "C01",
   "status": "proved",
   "theorems": [
    "Props.C01_fixed_number_complete",
    "Props.C01_unrestricted_complete",
    "Props.C01_several_sectors_complete",
    "Props.C01_repeated_sector_duplicates"
   ],
   "note": "Constructor without maps down to the bit-trick successor. Side finding: a repeated sector number in a list of sectors duplicates states."
  },
  {
   "property": "C14",
   "status": "proved",
   "theorems": [
    "Props.C14_unrestricted",
    "Props.C14_thread_independent",
    "Props.C14_fixed_number",
    "Props.C14_two_level_fixed_number"
   ],
   "note": "For any interleaving of the threads' writes and any sort meeting its contract; check_state arbitrary."
  },
  {
   "property": "C15",
   "status": "partial",
   "theorems": [
    "Props.C15_never_overruns",
    "Props.C15_sequential_shortage_iff",
    "Props.C15_parallel_shortage_iff",
    "Props.C15_shortage_consistent_partial",
    "Props.C15_exact_fit_depends_on_threads"
   ],
   "note": "Fails at exact fit (one thread reports shortage, several succeed): proved as a defect."
  },
  {
   "property": "C02",
   "status": "proved",
   "theorems": [
    "Props.C02_complete",
    "Props.C02_complete_of_room",
    "Props.C02_supported",
    "Props.dsum_is_total_occupation",
    "Props.C14_multi_level_fixed_number"
   ],
   "note": "sps > 2 (sps = 2 delegates to the two-level class, C01); unconditional for sps <= 256, for more levels per site under an explicit hypothesis that the integer type leaves room for the intermediate values; dimension formula proved equal to the number of states"
  },
  {
   "property": "C07",
   "status": "proved",
   "theorems": [
    "Props.C07_representative",
    "Props.C07_same_representative_iff",
    "Props.C07_idempotent"
   ],
   "note": "up to the library's limit of 32 maps; calls start with zeroed exponents and sign 1"
  },
  {
   "property": "C08",
   "status": "proved",
   "theorems": [
    "Props.C08_kept_iff",
    "Props.C08_norm",
    "Props.C08_basis"
   ],
   "note": "norm arithmetic in the reals"
  },
  {
   "property": "C09",
   "status": "proved",
   "theorems": [
    "Props.C09_blocks_partition",
    "Props.C09_built"
   ],
   "note": "character orthogonality and orbit counting on the modelled membership test"
  },
  {
   "property": "C16",
   "status": "partial",
   "theorems": [
    "Props.C16_search",
    "Props.C16_search_blocks",
    "Props.C16_index_partial",
    "Props.C16_index_beyond_type",
    "Props.C16_one_dimensional",
    "Props.C16_one_dimensional_repeated"
   ],
   "note": "index of integers that do not fit the basis type fails (proved as a defect); negative integers are not modelled"
  },
  {
   "property": "C10",
   "status": "proved",
   "theorems": [
    "Props.C10_general",
    "Props.C10_spin",
    "Props.C10_one_dimensional"
   ],
   "note": "general and one-dimensional spin-1/2 / hard-core boson strings, all pauli conventions; exact complex coefficients"
  },
  {
   "property": "C11",
   "status": "partial",
   "theorems": [
    "Props.C11_strings_partial",
    "Props.C11_anticommutation_partial",
    "Props.C11_spinful_partial",
    "Props.C11_one_dimensional",
    "Props.C11_fails_at_257_sites"
   ],
   "note": "up to 256 sites (modes) in the general bases, false from 257 on (proved); no bound for the one-dimensional code"
  },
  {
   "property": "C12",
   "status": "partial",
   "theorems": [
    "Props.C12_boson_partial",
    "Props.C12_higher_spin",
    "Props.C12_one_dimensional",
    "Props.C12_boson_z_wrong"
   ],
   "note": "'z' of the general boson basis is wrong (proved as a defect)"
  },
  {
   "property": "C35",
   "status": "partial",
   "theorems": [
    "Props.C35_all_states_fit",
    "Props.C35_sector_fits",
    "Props.C35_number_bounded_partial",
    "Props.C35_overflow_loses_matrix_element"
   ],
   "note": "all states fit; strings that never exceed the fixed particle number are right; others can overflow (proved as a defect)"
  },
  {
   "property": "C13",
   "status": "proved",
   "theorems": [
    "Props.C13_restriction",
    "Props.C13_orthonormal",
    "Props.C13_constructed_basis",
    "Props.C13_lookup",
    "Props.C13_lookup_blocks",
    "Props.C13_no_symmetry",
    "Props.C13_lookup_plain",
    "Props.C13_lookup_plain_blocks",
    "Props.C13_lookup_full",
    "Props.C13_terms",
    "Props.C13_spin_strings",
    "Props.C13_fermion_strings"
   ],
   "note": "matrix entries are the matrix elements between normalised projected states, for operators commuting with the symmetries; exact complex arithmetic"
  },
  {
   "property": "C42",
   "status": "partial",
   "theorems": [
    "Props.C42_project_from",
    "Props.C42_race_free",
    "Props.C42_project_to",
    "Props.C42_round_trip",
    "Props.C42_image_symmetric",
    "Props.C42_onto_symmetric",
    "Props.C42_get_proj",
    "Props.C42_sparse_is_transpose",
    "Props.C42_sparse_partial",
    "Props.C42_sparse_wrong",
    "Props.C42_pcon_wrong"
   ],
   "note": "dense variants proved in full; the default sparse project_to is the transpose, not the adjoint: right for real characters, wrong otherwise (proved), and so is the particle-conserving variant (proved)"
  },
  {
   "property": "C44",
   "status": "proved",
   "theorems": [
    "Props.C44_matrix_free"
   ],
   "note": "every processing order; transposed and conjugated variants"
  },
  {
   "property": "C17",
   "status": "partial",
   "theorems": [
    "Props.C17_string",
    "Props.C17_round_trip_partial",
    "Props.C17_strings_partial",
    "Props.C17_basis_round_trip_partial",
    "Props.C17_bracket_partial",
    "Props.C17_eleven_levels",
    "Props.C17_ambiguous",
    "Props.C17_sixty_five_sites"
   ],
   "note": "up to 10 levels per site and 64 sites; beyond that the strings are ambiguous or unreadable (proved)"
  },
  {
   "property": "C04",
   "status": "partial",
   "theorems": [
    "Props.C04_complete_partial",
    "Props.C04_dimension_partial",
    "Props.C04_wrong_from_256_particles"
   ],
   "note": "fewer than 256 down particles, with and without double occupancy; false from 256 on (proved)"
  },
  {
   "property": "C05",
   "status": "proved",
   "theorems": [
    "Props.C05_image",
    "Props.C05_bijective",
    "Props.C05_image_loop",
    "Props.C05_network_eq_loop"
   ],
   "note": "Benes network generator and evaluation, every word size 2^ld; also the direct loop used by the fermionic bases"
  },
  {
   "property": "C06",
   "status": "proved",
   "theorems": [
    "Props.C06_image",
    "Props.C06_unique",
    "Props.C06_bijective",
    "Props.C06_sector",
    "Props.C06_permutation_in_sector",
    "Props.C06_inversion_at_half_filling"
   ],
   "note": "full space and fixed-number bases with their narrower integer type"
  },
  {
   "property": "C36",
   "status": "proved",
   "theorems": [
    "Props.C36_refused_iff",
    "Props.C36_terminates",
    "Props.C36_period_is_order",
    "Props.C36_user_maps_act"
   ],
   "note": ""
  },
  {
   "property": "C46",
   "status": "partial",
   "theorems": [
    "Props.C46_warning_partial",
    "Props.C46_silent_for_noncommuting",
    "Props.C46_warns_for_commuting"
   ],
   "note": "proved for maps that each invert every site or none; false in both directions for partially inverting maps (witnesses)"
  },
  {
   "property": "C45",
   "status": "proved",
   "theorems": [
    "Props.C45_sign",
    "Props.C45_permutation",
    "Props.C45_permutation_exists",
    "Props.C45_intertwines",
    "Props.C45_intertwines_strings",
    "Props.C45_vacuum",
    "Props.C45_product"
   ],
   "note": "merge-sort exchange count and inversion sign; the computed image and sign are the columns of the operator that moves the fermions, which intertwines the site operators and multiplies"
  },
  {
   "property": "C47",
   "status": "partial",
   "theorems": [
    "Props.C47_acts_partial",
    "Props.C47_particle_hole_square",
    "Props.C47_particle_hole_fails",
    "Props.C47_particle_hole_matrix",
    "Props.C47_translation_particle_hole"
   ],
   "note": "proved for maps without inversions; false with inversions: the particle-hole map squares to (-1)^floor(N/2) although its period is 2, anticommutes with translation on four sites, and gives a non-Hermitian 1x1 block on two sites"
  },
  {
   "property": "C18",
   "status": "proved",
   "theorems": [
    "Props.C18_product",
    "Props.C18_parallel_eq_serial",
    "Props.C18_executes"
   ],
   "note": "Merge-path partition of rows and entries, threads' accesses to the output interleaved arbitrarily, carry-out fix-up; every thread count, every stride. Index arithmetic is exact (rows + entries must fit the index type)."
  },
  {
   "property": "C19",
   "status": "proved",
   "theorems": [
    "Props.C19_csc",
    "Props.C19_real_parts",
    "Props.C19_complex_parts",
    "Props.C19_dia",
    "Props.C19_builds_agree",
    "Props.C19_executes"
   ],
   "note": "Every interleaving of atomic additions (CSC) and of unsynchronised read-modify-writes (DIA), every stride of either sign."
  },
  {
   "property": "C48",
   "status": "partial",
   "theorems": [
    "Props.C48_csc",
    "Props.C48_dia",
    "Props.C48_csr_partial",
    "Props.C48_csr_new_output",
    "Props.C48_csr_where",
    "Props.C48_csr_fails"
   ],
   "note": "CSC and DIA for all layouts. CSR for row-major, gap-free column-major and single-vector outputs; for other layouts the library writes to wrong cells (C48_csr_fails)."
  },
  {
   "property": "C49",
   "status": "partial",
   "theorems": [
    "Props.C49_function",
    "Props.C49_matvec_partial",
    "Props.C49_ignored",
    "Props.C49_fails"
   ],
   "note": "Functions of get_matvec_function are right. The public matvec ignores overwrite_out, out and a, so the statement is false for it (C49_fails)."
  },
  {
   "property": "C28",
   "status": "partial",
   "theorems": [
    "Props.C28_pointwise_partial",
    "Props.C28_power_partial",
    "Props.C28_products_return",
    "Props.C28_equal_partial",
    "Props.C28_conjugate",
    "Props.C28_conj_fails",
    "Props.C28_conj_square_fails",
    "Props.C28_collision",
    "Props.C28_product_fails"
   ],
   "note": "Pointwise for every expression for which an object is built and hashes do not collide. Missing because false: conjugates of products raise, squares of conjugates cannot be hashed, arguments -1 and -2 collide."
  },
  {
   "property": "C20",
   "status": "partial",
   "theorems": [
    "Props.C20_add_partial",
    "Props.C20_sub_partial",
    "Props.C20_neg",
    "Props.C20_scalar_partial",
    "Props.C20_mul_partial",
    "Props.C20_transpose",
    "Props.C20_conj",
    "Props.C20_adjoint",
    "Props.C20_add_matrix_partial",
    "Props.C20_sub_matrix_partial",
    "Props.C20_rsub_matrix_partial",
    "Props.C20_mul_matrix_partial",
    "Props.C20_rmul_matrix_partial",
    "Props.C20_expression_partial",
    "Props.C20_returns",
    "Props.C20_fails_tiny",
    "Props.C20_fails_dense",
    "Props.C20_pow_zero_fails"
   ],
   "note": "Every operation up to the threshold below which matrices are dropped; whole expressions exactly for threshold zero and sparse matrices. Exactness and dense times dense are false for the code (C20_fails_tiny, C20_fails_dense)."
  },
  {
   "property": "C22",
   "status": "partial",
   "theorems": [
    "Props.C22_scalar_partial",
    "Props.C22_dense_partial",
    "Props.C22_sparse_partial",
    "Props.C22_hamiltonian_partial",
    "Props.C22_fails",
    "Props.C22_hamiltonian_fails"
   ],
   "note": "Numbers, arrays, time-independent operators and pairs of driven hamiltonians. False for sparse matrices times driven operators (C22_fails)."
  },
  {
   "property": "C53",
   "status": "partial",
   "theorems": [
    "Props.C53_iadd_partial",
    "Props.C53_isub_partial",
    "Props.C53_iadd_matrix_partial",
    "Props.C53_isub_matrix_partial",
    "Props.C53_isub_fails",
    "Props.C53_isub_dense_fails"
   ],
   "note": "Up to the threshold of C20. -= raises NameError for shared drives and for arrays."
  },
  {
   "property": "C54",
   "status": "partial",
   "theorems": [
    "Props.C54_dense_partial",
    "Props.C54_sparse_partial",
    "Props.C54_fails"
   ],
   "note": "Arrays (also rectangular) and time-independent operators, threshold zero. False for sparse matrices and driven operators (C54_fails)."
  },
  {
   "property": "C27",
   "status": "partial",
   "theorems": [
    "Props.C27_static_exact_partial",
    "Props.C27_static_partial",
    "Props.C27_dynamic_partial",
    "Props.C27_dynamic_distinct",
    "Props.C27_fails"
   ],
   "note": "_consolidate_static and _consolidate_dynamic, up to dropped couplings of at most 10*2^-52 (C27_fails shows they matter)."
  },
  {
   "property": "C50",
   "status": "partial",
   "theorems": [
    "Props.C50_constructor_partial",
    "Props.C50_constructor_exact_partial",
    "Props.C50_matrices_partial",
    "Props.C50_fails"
   ],
   "note": "Operator lists and lists of matrices, up to dropped couplings and matrices. False when the hashes of two drives collide (C50_fails: arguments -1 and -2)."
  },
  {
   "property": "C51",
   "status": "partial",
   "theorems": [
    "Props.C51_matrix",
    "Props.C51_element",
    "Props.C51_dot",
    "Props.C51_dot_times",
    "Props.C51_rdot_partial",
    "Props.C51_trace",
    "Props.C51_diagonal_partial",
    "Props.C51_transpose",
    "Props.C51_rdot_fails",
    "Props.C51_diagonal_fails"
   ],
   "note": "All routes agree for every format. Violated: rdot without out always raises, diagonal of a driven operator with dense static part raises."
  },
  {
   "property": "C52",
   "status": "partial",
   "theorems": [
    "Props.C52_schroedinger",
    "Props.C52_stacked",
    "Props.C52_overlaps",
    "Props.C52_vonNeumann_partial",
    "Props.C52_vonNeumann_sparse",
    "Props.C52_vonNeumann_fails",
    "Props.C52_times",
    "Props.C52_imaginary_partial",
    "Props.C52_imaginary_several",
    "Props.C52_imaginary_fails",
    "Props.C52_stack_partial",
    "Props.C52_stack_fails"
   ],
   "note": "Solver exact by assumption. Violated: LvNE uses -i(H rho - rho H^T) for CSR/CSC matrices; imaginary time gives several states the norm of the whole array; stack_state raises for several states."
  },
  {
   "property": "C55",
   "status": "partial",
   "theorems": [
    "Props.C55_operator",
    "Props.C55_products_partial",
    "Props.C55_formats_partial",
    "Props.C55_dict_ignored",
    "Props.C55_string_fails",
    "Props.C55_string_raises",
    "Props.C55_exception_fails"
   ],
   "note": "The operator never changes; products are right unless the call raised. Violated: requested dynamic formats are ignored or raise; after an exception products use the transposed static matrix."
  },
  {
   "property": "C56",
   "status": "partial",
   "theorems": [
    "Props.C56_pure",
    "Props.C56_mixed",
    "Props.C56_fails"
   ],
   "note": "Proved for every dimension except one, where the call raises."
  },
  {
   "property": "C57",
   "status": "partial",
   "theorems": [
    "Props.C57_state_partial",
    "Props.C57_states_partial",
    "Props.C57_column_partial",
    "Props.C57_fluctuations_partial",
    "Props.C57_density_partial",
    "Props.C57_times",
    "Props.C57_matrix_elements",
    "Props.C57_one_dimensional_fails",
    "Props.C57_one_dimensional_sum",
    "Props.C57_fluctuation_fails"
   ],
   "note": "Violated: spaces of dimension one raise or return the sum over states; fluctuations of several states use H^dagger H instead of H^2."
  },
  {
   "property": "C33",
   "status": "partial",
   "theorems": [
    "Props.C33_distribution",
    "Props.C33_results_partial",
    "Props.C33_progress_partial",
    "Props.C33_terminates",
    "Props.C33_sequential",
    "Props.C33_hangs"
   ],
   "note": "For every number of blocks, workers and time points and every interleaving: distribution, results in order, no deadlock, termination, agreement with the sequential branch. Partial because a worker whose generators end early (an exception in the solver) leaves the parent waiting for ever (C33_hangs), so the results and progress theorems assume that every block yields one value per time point."
  },
  {
   "property": "C34",
   "status": "partial",
   "theorems": [
    "Props.C34_pairing",
    "Props.C34_blocks_partial",
    "Props.C34_one_drive",
    "Props.C34_fails",
    "Props.C34_vanishing_fails"
   ],
   "note": "Direct sum at every time if python iterates over the set of drives in the order of the list (always so for one drive) and no drive vanishes in a block. C34_pairing says what is computed for every order; C34_fails and C34_vanishing_fails show the property is false of the code otherwise."
  },
  {
   "property": "C21",
   "status": "partial",
   "theorems": [
    "Props.C21_pure",
    "Props.C21_in_place_partial",
    "Props.C21_apart_partial",
    "Props.C21_no_sharing_partial",
    "Props.C21_fails_sum",
    "Props.C21_fails_in_place_sum",
    "Props.C21_fails_transpose",
    "Props.C21_fails_astype",
    "Props.C21_fails_zero"
   ],
   "note": "The full statement is false and its negation is proved on histories: `C = A + B; C *= 2` changes B (a drive of B that A lacks is shared), likewise `A += B`, `A.T`, `astype(copy=False)`, `A + 0`, `A**1`. Proved for every program: statements that bind a new variable change no other variable; an in-place operation changes only variables that share data with its target; programs without the sharing statements keep hamiltonians apart."
  },
  {
   "property": "C25",
   "status": "partial",
   "theorems": [
    "Props.C25_sort_sites",
    "Props.C25_sort_fermion",
    "Props.C25_sort_spinful",
    "Props.C25_hc_sites",
    "Props.C25_families",
    "Props.C25_hc_fermion",
    "Props.C25_hc_spinful",
    "Props.C25_expand",
    "Props.C25_nonzero_partial",
    "Props.C25_expanded_spin_half_partial",
    "Props.C25_expanded_sites_partial",
    "Props.C25_expanded_fermion_partial",
    "Props.C25_expanded_dynamic_partial",
    "Props.C25_sort_tensor_partial",
    "Props.C25_hc_tensor",
    "Props.C25_fails_tensor",
    "Props.C25_fails_nonzero",
    "Props.C25_fails_drives",
    "Props.C25_fails_args"
   ],
   "note": "Sorting, conjugating and expanding single strings: proved for all strings, sites and couplings of spins, bosons, spinless and spinful fermions. False for tensor bases with fermions (the sorted form loses the sign, C25_fails_tensor). expanded_form as a whole: proved if no site occurs more often in a bond than there are states per site, discarded couplings are zero, and there is one drive; false otherwise (C25_fails_nonzero, C25_fails_drives, C25_fails_args). Photon bases and the expansion of spinful lists are not modelled."
  },
  {
   "property": "C26",
   "status": "partial",
   "theorems": [
    "Props.C26_sites_partial",
    "Props.C26_exact_partial",
    "Props.C26_fermion_partial",
    "Props.C26_spinful_partial",
    "Props.C26_fails_repeated",
    "Props.C26_fails_split",
    "Props.C26_fails_times",
    "Props.C26_fails_tensor"
   ],
   "note": "The full statement is false in both directions (C26_fails_*). Proved: accepted lists without repeated terms are Hermitian (all bases but tensor and photon bases); the check is exact for spins and bosons with terms of z or n, +, - on distinct sites and no string twice on the same sites."
  },
  {
   "property": "C58",
   "status": "partial",
   "theorems": [
    "Props.C58_spin_half_partial",
    "Props.C58_sites_partial",
    "Props.C58_fermion_partial",
    "Props.C58_fails_accepts",
    "Props.C58_fails_drives",
    "Props.C58_fails_rejects"
   ],
   "note": "The full statement is false in both directions (C58_fails_*). Proved: accepted lists conserve the number of particles if no site occurs more often in a bond than there are states per site, discarded couplings are zero and the drives of the dynamic list agree."
  },
  {
   "property": "C23",
   "status": "partial",
   "theorems": [
    "Props.C23_never_wrong_partial",
    "Props.C23_partial",
    "Props.C23_same_names_partial",
    "Props.C23_keywords",
    "Props.C23_dictionary_partial",
    "Props.C23_fails_default",
    "Props.C23_fails_leak",
    "Props.C23_fails_caller",
    "Props.C23_fails_linear",
    "Props.C23_fails_linear_follows",
    "Props.C23_fails_small"
   ],
   "note": "The full statement is false (C23_fails_*): omitted names are written into the dictionary that was passed, including the default one shared by all calls. Proved for every history: an answer always follows the parameters that were given, except through such entries; dictionaries that name every parameter, and keywords, are never affected."
  },
  {
   "property": "C37",
   "status": "partial",
   "theorems": [
    "Props.C37_partial",
    "Props.C37_one_partial",
    "Props.C37_fails_raises",
    "Props.C37_fails_overwritten",
    "Props.C37_fails_ending",
    "Props.C37_fails_empty"
   ],
   "note": "The full statement is false (C37_fails_*): names that begin with dense_ or sparse_, or end in .npz, are cut or collide. Proved: operators with plain names are loaded back with the same names, and for a single operator exactly which names survive."
  },
  {
   "property": "C59",
   "status": "partial",
   "theorems": [
    "Props.C59_add",
    "Props.C59_sub",
    "Props.C59_mul",
    "Props.C59_copy",
    "Props.C59_transpose",
    "Props.C59_iadd_partial",
    "Props.C59_isub_partial",
    "Props.C59_imul_partial",
    "Props.C59_mul_separate",
    "Props.C59_pure_partial",
    "Props.C59_pure_history_partial",
    "Props.C59_fails_copy",
    "Props.C59_fails_transpose",
    "Props.C59_fails_sum",
    "Props.C59_fails_user",
    "Props.C59_fails_neg",
    "Props.C59_fails_constructor",
    "Props.C59_fails_twice",
    "Props.C59_fails_self"
   ],
   "note": "The full statement is false (C59_fails_*). Proved after any program: sums, differences, multiples, copies and transposes have the right values for all parameters; statements that make something new leave everything else unchanged (with at most one matrix per name in the constructor); in-place statements change only what shares an object or a matrix."
  },
  {
   "property": "C24",
   "status": "partial",
   "theorems": [
    "Props.C24_exp_returned",
    "Props.C24_exp_object_partial",
    "Props.C24_exp_twice_partial",
    "Props.C24_exp_copies",
    "Props.C24_exp_copy_returned",
    "Props.C24_linear_reads_partial",
    "Props.C24_linear_symmetric_partial",
    "Props.C24_linear_adjoint_partial",
    "Props.C24_linear_products",
    "Props.C24_fails_exp_T",
    "Props.C24_fails_exp_H",
    "Props.C24_fails_exp_sandwich",
    "Props.C24_fails_linear_left",
    "Props.C24_fails_linear_T",
    "Props.C24_fails_linear_diagonal",
    "Props.C24_fails_linear_copy"
   ],
   "note": "The full statement is false (C24_fails_*): .T, .H and conj change the object itself, and sandwich, rmatvec and V*A read them. Proved: the returned object has the right value after any program; exactly what a history of reads does to an object; copies and products leave all objects unchanged; for real symmetric linear operators every history is harmless, for Hermitian ones histories without transposes."
  },
  {
   "property": "C60",
   "status": "partial",
   "theorems": [
    "Props.C60_plain",
    "Props.C60_linspace",
    "Props.C60_dot",
    "Props.C60_rdot",
    "Props.C60_sandwich_partial",
    "Props.C60_sandwich_plain_partial",
    "Props.C60_sandwich_hermitian_partial",
    "Props.C60_shift_partial",
    "Props.C60_grids_partial",
    "Props.C60_fails_set_grid",
    "Props.C60_fails_hamiltonian",
    "Props.C60_fails_sandwich_shift",
    "Props.C60_fails_sandwich",
    "Props.C60_fails_complex",
    "Props.C60_fails_shift"
   ],
   "note": "The full statement is false (C60_fails_*). Proved: get_mat, dot and rdot with and without any grid; sandwich on real grids; what sandwich without a grid computes, and that it is the documented matrix if aO is Hermitian."
  },
  {
   "property": "C40",
   "status": "partial",
   "theorems": [
    "Props.C40_times",
    "Props.C40_strobo",
    "Props.C40_partition_partial",
    "Props.C40_segment_strobo_partial",
    "Props.C40_const",
    "Props.C40_coordinates",
    "Props.C40_fails_down",
    "Props.C40_fails_no_ramp",
    "Props.C40_fails_up_duration",
    "Props.C40_fails_coordinates"
   ],
   "note": "Exact real arithmetic. The segments partition the vector and the stroboscopic indices; the values of the stroboscopic times agree for up and const but are wrong for down (defect proved for every len_T >= 2); const is missing without ramps."
  },
  {
   "property": "C39",
   "status": "partial",
   "theorems": [
    "Props.C39_iter_partial",
    "Props.C39_full_partial",
    "Props.C39_agree_partial",
    "Props.C39_reiterate",
    "Props.C39_comb",
    "Props.C39_fails_agree",
    "Props.C39_fails_eigenvector",
    "Props.C39_fails_list",
    "Props.C39_fails_levels",
    "Props.C39_fails_tolerance"
   ],
   "note": "Exact arithmetic. Recurrence, orthonormality and T = Q^H A Q are proved for every Hermitian matrix and start vector, and re-iteration for every program. The full and the iterator variants agree exactly when there is no breakdown; on breakdown lanczos_full drops a vector (defect). full_ortho is not modelled."
  },
  {
   "property": "C61",
   "status": "proved",
   "theorems": [
    "Props.C61_expm",
    "Props.C61_expm_projected",
    "Props.C61_moments",
    "Props.C61_ftlm"
   ],
   "note": "Exact arithmetic; E, V satisfy the contract of eigh_tridiagonal. Exactness needs a closed Krylov space; the projected formula and the moments hold without it."
  },
  {
   "property": "C62",
   "status": "partial",
   "theorems": [
    "Props.C62_partial",
    "Props.C62_fails_shift",
    "Props.C62_fails_identity"
   ],
   "note": "Proved when no Ritz value is cut off. The code cuts the eigenvector matrix in both indices: the thermal average of the identity becomes 1/2 in a witness; and for every input some energy offset makes the function raise IndexError."
  },
  {
   "property": "C29",
   "status": "partial",
   "theorems": [
    "Props.C29_reorder",
    "Props.C29_pure_partial",
    "Props.C29_trace",
    "Props.C29_mixed_partial",
    "Props.C29_agree",
    "Props.C29_sparse_partial",
    "Props.C29_fails_conjugate",
    "Props.C29_fails_quotient",
    "Props.C29_fails_order"
   ],
   "note": "The matrix for A is the partial trace for all sites, levels, subsystems and states (pure, mixed, sparse). The matrix for B is the complex conjugate (defect), in the order in which Python walks through the set of its sites (taken as given; can differ from ascending order). The sparse routine divides in double precision (defect beyond 2^53)."
  },
  {
   "property": "C30",
   "status": "partial",
   "theorems": [
    "Props.C30_op",
    "Props.C30_index",
    "Props.C30_fails_nested",
    "Props.C30_fails_index"
   ],
   "note": "Kronecker products and indices for tensor products of any number of factors nested to the right; proved failures: a tensor basis as the left factor is accepted but every string and state is refused, and an oscillator level beyond the cutoff gives the index of another state"
  },
  {
   "property": "C31",
   "status": "partial",
   "theorems": [
    "Props.C31_partial",
    "Props.C31_matrix_partial",
    "Props.C31_error",
    "Props.C31_fails_room"
   ],
   "note": "oscillator strings give the elements of the untruncated operator as long as the intermediate levels fit the integer type chosen from the cutoff; proved failure: with Np = 127 the string -+ gives -128 on the highest level"
  },
  {
   "property": "C43",
   "status": "partial",
   "theorems": [
    "Props.C43_partial",
    "Props.element_shift",
    "Props.C43_fails_large",
    "Props.C43_fails_twice"
   ],
   "note": "restriction of the tensor operator to the sector for conserving strings and at most 127 quanta; proved failures: with 200 quanta the photon numbers wrap in eight bits, and Op extends the caller's index list so that the same call fails the second time"
  },
  {
   "property": "C41",
   "status": "partial",
   "theorems": [
    "Props.C41_pure_partial",
    "Props.C41_rdm",
    "Props.C41_sparse_partial",
    "Props.C41_mixed_partial",
    "Props.C41_limit",
    "Props.C41_negative",
    "Props.C41_tensor_partial",
    "Props.C41_fails_tensor",
    "Props.C41_zero",
    "Props.C41_fails_zero",
    "Props.C41_fails_tensor_product"
   ],
   "note": "lattice bases: Renyi entropies of the reduced density matrices for all alpha > 0, dense, sparse and mixed, per site if asked for; the numbers added to the spectrum vanish in the limit; proved failures: alpha = 0 gives the logarithm of the smaller dimension for every state, and tensor bases put the factor 1/(1-alpha) inside the logarithm (not a number for alpha > 1)"
  },
  {
   "property": "C32",
   "status": "partial",
   "theorems": [
    "Props.C32_moves",
    "Props.C32_diagonals",
    "Props.C32_inversions",
    "Props.C32_permutations",
    "Props.C32_bonds",
    "Props.C32_relations",
    "Props.C32_diagonal_relations",
    "Props.C32_translations",
    "Props.C32_periods",
    "Props.C32_momenta",
    "Props.C32_blocks_once",
    "Props.C32_visited",
    "Props.C32_compatible_partial",
    "Props.C32_inversion_blocks",
    "Props.C32_parity_blocks",
    "Props.C32_fails_skipped",
    "Props.C32_fails_none",
    "Props.C32_fails_collect"
   ],
   "note": "The maps have the documented geometric action for all Lx, Ly, are permutations that preserve the bonds of the periodic lattice, satisfy the relations of the square-lattice group and get the right periods from the basis constructors. The block iterator yields no block twice, its range of momenta represents every momentum once, and the momenta it visits are exactly those fixed by a reflection; quantum numbers in a block are compatible unless the sides are different even numbers. Defects: generic momenta (e.g. (1,2) on 5x5) are never yielded, for different even sides a block has None as its diagonal map, and collecting the spin-inversion iterator in a list loses the zblock."
  },
  {
   "property": "C38",
   "status": "partial",
   "theorems": [
    "Props.C38_translation",
    "Props.C38_reflection",
    "Props.C38_inversion",
    "Props.C38_momentum",
    "Props.C38_compatible",
    "Props.C38_fails_full_width"
   ],
   "note": "For spin-1/2, higher spins/bosons, spinless and spinful fermions of any length: shift, fliplr and flip_all move the sites as stated and have the sign of reordering the fermions, provided the integer type has room (one spare bit for spinless fermions). The momentum test is positive exactly for representatives with non-vanishing projection, its value is the period. Defect: on exactly 32 (64) sites spinless fermions lose the sign of translation and reflection."
  },
  {
   "property": "C63",
   "status": "partial",
   "theorems": [
    "Props.C63_parity",
    "Props.C63_inversion",
    "Props.C63_sublattice",
    "Props.C63_product",
    "Props.C63_parity_inversion",
    "Props.C63_sublattices",
    "Props.C63_momentum_inversion",
    "Props.C63_momentum_sublattice_A",
    "Props.C63_momentum_sublattice_B",
    "Props.C63_fails_both_sublattices"
   ],
   "note": "Full for the blocks P, Z, ZA, ZB, PZ, P&Z, ZA&ZB, T&Z, T&ZA, T&ZB. Missing: the blocks that combine momentum with parity (semi-momentum states, a non-abelian group). Defect: momentum with both sublattice inversions drops configurations with several stabilisers (three levels per site)."
  },
  {
   "property": "C66",
   "status": "partial",
   "theorems": [
    "Props.C66_odd_length_partial",
    "Props.C66_even_length",
    "Props.C66_fails"
   ],
   "note": "Holds for odd length; for every even length the two sublattices are exchanged (proved as a defect)."
  },
  {
   "property": "C64",
   "status": "partial",
   "theorems": [
    "Props.C64_parity",
    "Props.C64_inversion",
    "Props.C64_sublattice",
    "Props.C64_parity_inversion",
    "Props.C64_sublattices",
    "Props.C64_momentum",
    "Props.C64_momentum_inversion",
    "Props.C64_momentum_sublattice",
    "Props.C64_momentum_sublattices",
    "Props.C64_product_partial",
    "Props.C64_fails_product"
   ],
   "note": "Full for the blocks P, Z, ZA, ZB, P&Z, ZA&ZB, T, T&Z, T&ZA, T&ZB, T&ZA&ZB, and for PZ without fermions. Defect: RefState_PZ loses the sign of fermions with spin. Missing: the blocks that combine momentum with parity (semi-momentum states)."
  },
  {
   "property": "C65",
   "status": "partial",
   "theorems": [
    "Props.C65_parity",
    "Props.C65_inversion",
    "Props.C65_sublattice_A",
    "Props.C65_sublattice_B",
    "Props.C65_parity_inversion",
    "Props.C65_sublattices",
    "Props.C65_momentum",
    "Props.C65_momentum_inversion",
    "Props.C65_momentum_sublattice_A",
    "Props.C65_momentum_sublattice_B",
    "Props.C65_real_refused",
    "Props.C65_all",
    "Props.C65_fixed_number",
    "Props.C65_product_partial",
    "Props.C65_fails_product"
   ],
   "note": "Full for the blocks P, Z, ZA, ZB, P&Z, ZA&ZB, T, T&Z, T&ZA, T&ZB, for any sector mapped to itself; the sectors are proved to be visited completely for all configurations and, for one-bit sites, a fixed particle number. Defect: wrong sign of matrix elements in the PZ block of fermions with spin. Missing: semi-momentum blocks, T&ZA&ZB, several particle sectors in one basis."
  },
  {
   "property": "C67",
   "status": "partial",
   "theorems": [
    "Props.C67_two_level",
    "Props.C67_multi_level",
    "Props.C67_all",
    "Props.C67_spinful_partial",
    "Props.C67_spinful_all_partial",
    "Props.C67_fails_empty",
    "Props.C67_fails_width",
    "Props.C67_fails_repeated"
   ],
   "note": "Full for two-level sites, bosons and higher spins with distinct particle numbers. Defects: an empty single sector returns uninitialised memory; for fermions with spin on 17 to 64 sites without particle numbers the integer type is too narrow and configurations repeat; repeated particle numbers repeat configurations."
  },
  {
   "property": "C68",
   "status": "partial",
   "theorems": [
    "Props.C68_conserved",
    "Props.C68_all_partial",
    "Props.C68_fails_double_occupancy"
   ],
   "note": "Full for bases with particle numbers and for bases of all configurations. Defect: without particle numbers but with double_occupancy=False the row is computed as if no configuration were missing, and matrix elements are misplaced."
  },
  {
   "property": "C69",
   "status": "partial",
   "theorems": [
    "Props.C69_result",
    "Props.C69_threads",
    "Props.C69_executes",
    "Props.C69_limit",
    "Props.C69_fails_team",
    "Props.C69_fails_team_result",
    "Props.C69_fails_team_differs",
    "Props.C69_fails_norm"
   ],
   "note": "Full if OpenMP gives as many threads as omp_get_max_threads() says. Defects: if it gives fewer, the elements of the missing threads are returned unchanged; the norm from which the number of terms is chosen is that of A+mu instead of A-mu and may be too small by almost a factor of two. Not modelled: scipy's choice of the number of steps and terms, rounding errors."
  },
  {
   "property": "C70",
   "status": "partial",
   "theorems": [
    "Props.C70_no_symmetry",
    "Props.C70_parity",
    "Props.C70_inversion",
    "Props.C70_sublattice_A",
    "Props.C70_sublattice_B",
    "Props.C70_product",
    "Props.C70_parity_inversion",
    "Props.C70_sublattices",
    "Props.C70_momentum",
    "Props.C70_momentum_inversion_partial",
    "Props.C70_momentum_sublattice_partial",
    "Props.C70_fails_combination",
    "Props.C70_fails_int8"
   ],
   "note": "All blocks without momentum, momentum alone, and momentum with inversion (up to 63 sites) or with the inversion of one sublattice (up to 128 unit cells). Missing: momentum with parity (semi-momentum states) and momentum with both sublattices. Defects: pblock and pzblock given together make vectors that are not normalised; the code of the norm is read as a signed byte, so that norms are wrong in long chains."
  },
  {
   "property": "C71",
   "status": "partial",
   "theorems": [
    "Props.C71_representative",
    "Props.C71_representative_iff",
    "Props.C71_normalization_partial",
    "Props.C71_normalization_default_partial",
    "Props.C71_amp_full",
    "Props.C71_amp_coefficients_partial",
    "Props.C71_amp_representative_partial",
    "Props.C71_amp_real",
    "Props.C71_fails_nan",
    "Props.C71_fails_zero_amp",
    "Props.C71_fails_mode",
    "Props.C71_fails_int_factor"
   ],
   "note": "Proved for all groups, states and schedules. Violations: NaN instead of zero for representatives the quantum numbers exclude (default mode of get_amp); division by zero in full_basis mode for excluded states; a misspelt mode returns zeros without error; the group order is computed in 32 bits."
  },
  {
   "property": "C72",
   "status": "partial",
   "theorems": [
    "Props.C72_bra_ket_partial",
    "Props.C72_shift_sector_partial",
    "Props.C72_fails_return",
    "Props.C72_fails_stale",
    "Props.C72_fails_diagonal",
    "Props.C72_fails_imaginary",
    "Props.C72_fails_pauli",
    "Props.C72_fails_wide",
    "Props.C72_fails_spinful"
   ],
   "note": "Proved for all groups, operators and schedules when the quantum numbers are trivial or no stale exponents are read. Violations: the array of exponents is neither initialised nor reset (signs depend on threads and memory); the diagonal branch with particle sectors uses it too; complex results are silently truncated for real dtypes; pauli factors are missing; Op_shift_sector drops the phase when a term stays in the orbit, has no 4096-bit branch and cannot be called for spinful fermions."
  },
  {
   "property": "C73",
   "status": "partial",
   "theorems": [
    "Props.C73_degenerate",
    "Props.C73_observable_dm",
    "Props.C73_observable_pure",
    "Props.C73_fluctuations_partial",
    "Props.C73_entropy",
    "Props.C73_mixed_partial",
    "Props.C73_thermal_partial",
    "Props.C73_fails_complex",
    "Props.C73_fails_resonance",
    "Props.C73_fails_dm",
    "Props.C73_fails_array",
    "Props.C73_weights",
    "Props.C73_fails_integer"
   ],
   "note": "Expectation values proved for all states, with the error made by replacing weights below 1e-16; fluctuations for pure states, real matrix elements and no resonances. Violations: squares of complex matrix elements (NaN), resonances are not detected, density matrices get the formula of pure states, an array as observable raises ValueError, an integer argument truncates all weights to 0. Missing: Srdm_Renyi."
  },
  {
   "property": "C74",
   "status": "proved",
   "theorems": [
    "Props.C74_momentum_reflection",
    "Props.C74_momentum_product"
   ],
   "note": "Orthonormality, membership, completeness and matrix elements for every chain that fits the integer type, on exact numbers. The statement is about one pass over the configurations (all, or one particle sector), as C65."
  },
  {
   "property": "C75",
   "status": "partial",
   "theorems": [
    "Props.C75_momentum_reflection_partial",
    "Props.C75_momentum_product_partial",
    "Props.C75_fails_unit_cell"
   ],
   "note": "Proved for reflection with momentum other than pi or a unit cell of one site, and for the product in chains of up to 63 sites; with a larger unit cell and momentum pi the vectors have norm sqrt 2. Exact numbers."
  },
  {
   "property": "C76",
   "status": "proved",
   "theorems": [
    "Props.C76_momentum_reflection_inversion",
    "Props.C76_widths"
   ],
   "note": "For all chains, lengths, unit cells, momenta, eigenvalues and sectors; exact numbers, the stored integers fit their types up to 64 sites (C76_widths)."
  },
  {
   "property": "C77",
   "status": "partial",
   "theorems": [
    "Props.C77_vectors_partial",
    "Props.C77_short_chains",
    "Props.C77_fails_signed_byte"
   ],
   "note": "Proved for all chains of up to ten sites, and for longer ones while the stored integers fit; fails from twelve sites on because the integer is put into a signed byte. Exact numbers."
  },
  {
   "property": "C78",
   "status": "partial",
   "theorems": [
    "Props.C78_chain_partial",
    "Props.C78_inversion_partial",
    "Props.C78_spin_matrices",
    "Props.C78_fermions_partial",
    "Props.C78_spin_flip",
    "Props.C78_spinful_partial",
    "Props.C78_maps_partial",
    "Props.C78_exact_chain_partial",
    "Props.C78_exact_maps_partial",
    "Props.C78_fails_current",
    "Props.C78_fails_one_site",
    "Props.C78_fails_odd",
    "Props.C78_fails_number",
    "Props.C78_fails_repeated",
    "Props.C78_fails_split",
    "Props.C78_fails_spin_exchange",
    "Props.C78_fails_identity",
    "Props.C78_fails_spin_reflection"
   ],
   "note": "Soundness proved for lists without repeated terms: translations, reflections, inversions of spins on chains and maps of general lattices (all letters without inversions, I x y z with them). Exact for terms of one diagonal letter and + and - with T, P and maps. Chains of spinful fermions: translations, reflection, and the exchange of the spins for terms of one spin or with the same sites for both. Fails in both directions otherwise. Exact numbers."
  },
  {
   "property": "C79",
   "status": "partial",
   "theorems": [
    "Props.C79_attributes",
    "Props.C79_phases",
    "Props.C79_states_partial",
    "Props.C79_palindromes",
    "Props.C79_transposed",
    "Props.C79_fails_static",
    "Props.C79_fails_order",
    "Props.C79_fails_lengths",
    "Props.C79_fails_period"
   ],
   "note": "Phases and quasienergies are right for all Hermitian protocols; unitary, states and Hamiltonian are those of the transposed evolution, hence right only if the evolution operator is symmetric. ODE solver and scipy routines enter as contracts. Exact numbers."
  },
  {
   "property": "C80",
   "status": "partial",
   "theorems": [
    "Props.C80_arrays",
    "Props.C80_shapes",
    "Props.C80_elements",
    "Props.C80_isometry",
    "Props.C80_hamiltonian_partial",
    "Props.C80_sparse_partial",
    "Props.C80_fails_driven"
   ],
   "note": "Arrays; hamiltonians with an array as projector at every time; static hamiltonians with a basis or sparse projector. False for driven hamiltonians and a basis (C80_fails_driven). Threshold for small matrices zero."
  },
  {
   "property": "C81",
   "status": "partial",
   "theorems": [
    "Props.C81_value",
    "Props.C81_gibbs",
    "Props.C81_fails_zero"
   ],
   "note": "All strictly positive distributions within the tolerance of the code. Distributions with an entry zero are rejected (C81_fails_zero). Exact real numbers."
  },
  {
   "property": "C82",
   "status": "partial",
   "theorems": [
    "Props.C82_outcome",
    "Props.C82_range",
    "Props.C82_units",
    "Props.C82_fails_two"
   ],
   "note": "Complete description of the outcome for every list of real numbers; two levels give nan although they are not degenerate (C82_fails_two). Exact real numbers."
  },
  {
   "property": "C83",
   "status": "partial",
   "theorems": [
    "Props.C83_evolution",
    "Props.C83_evolution_mixed",
    "Props.C83_columns",
    "Props.C83_density",
    "Props.C83_generator_partial",
    "Props.C83_entropy_partial",
    "Props.C83_fails_entropy",
    "Props.C83_fails_one_time",
    "Props.C83_fails_many_states",
    "Props.C83_fails_generator",
    "Props.C83_fails_mutation"
   ],
   "note": "Values for one state or density matrix per time in all three forms of input. False for several states per time (enforce_pure ignored), one time with a generator and return_state, entropies of an array with as many times as dimensions; matrices in the dictionary are replaced. Spaces of dimension one raise (C56, C57). Exact numbers; the entropy of one state is a parameter."
  },
  {
   "property": "C84",
   "status": "partial",
   "theorems": [
    "Props.C84_states_partial",
    "Props.C84_rows",
    "Props.C84_symmetric_partial",
    "Props.C84_fails_diagonal"
   ],
   "note": "States and density matrices, all options; for eigenvectors in columns only if their matrix is symmetric, since the code mixes the rows. basis.ent_entropy enters as a contract (C41-C43)."
  },
  {
   "property": "C85",
   "status": "partial",
   "theorems": [
    "Props.C85_spin_partial",
    "Props.C85_boson_partial",
    "Props.C85_spinless",
    "Props.C85_labels",
    "Props.C85_spinful_partial",
    "Props.C85_checks",
    "Props.C85_commute",
    "Props.C85_fails_inversion_product",
    "Props.C85_fails_reflection_product",
    "Props.C85_fails_momentum_reflection_product",
    "Props.C85_fails_momentum_inversion_product",
    "Props.C85_fails_inversion_sublattice",
    "Props.C85_fails_sublattice_product",
    "Props.C85_fails_contradiction",
    "Props.C85_fails_contradiction_sublattices",
    "Props.C85_fails_particle_hole"
   ],
   "note": "All lengths and labels that do not repeat or contradict each other; spinless fermions without restriction. False for pzblock with pblock, zblock or a sublattice, zblock with one sublattice, contradicting labels, pcblock alone: a label is ignored. What the single functions make is C63, C65, C67, C70, C74-C77."
  },
  {
   "property": "C86",
   "status": "partial",
   "theorems": [
    "Props.C86_sectors_partial",
    "Props.C86_exact",
    "Props.C86_negative",
    "Props.C86_density",
    "Props.C86_fails_several",
    "Props.C86_fails_boson",
    "Props.C86_fails_spinful",
    "Props.C86_fails_density"
   ],
   "note": "One sector of spins: accepted exactly if inversion keeps the sector. False for several sectors (missing raise), bosons (always a NameError), spinful fermions (equal numbers away from half filling refused); m is a magnetisation, not the documented density."
  },
  {
   "property": "C87",
   "status": "partial",
   "theorems": [
    "Props.C87_spin",
    "Props.C87_higher_spin_partial",
    "Props.C87_boson_partial",
    "Props.C87_spinless_partial",
    "Props.C87_spinful_partial",
    "Props.C87_fails_higher_spin",
    "Props.C87_fails_boson",
    "Props.C87_fails_spinless",
    "Props.C87_fails_spinful"
   ],
   "note": "Spin 1/2 without restriction; higher spins and spinful fermions up to as many quanta as sites; for bosons and spinless fermions the last sector is always missing. One-dimensional bases; the list of sectors is modelled, the states of a sector are C67."
  },
  {
   "property": "C88",
   "status": "partial",
   "theorems": [
    "Props.C88_evolve_partial",
    "Props.C88_distance_partial",
    "Props.C88_outcome",
    "Props.C88_expm_partial",
    "Props.C88_blocks",
    "Props.C88_keywords",
    "Props.C88_fails_block_diag",
    "Props.C88_fails_jobs",
    "Props.C88_fails_order",
    "Props.C88_fails_update",
    "Props.C88_fails_caller"
   ],
   "note": "proved for all histories, states and Hamiltonians; assumes exact arithmetic, that hamiltonian.evolve solves the equation in a block and that expm_multiply is exact. block_diag=True of evolve never works, expm with more jobs than blocks raises, blocks with reordered keywords or added by update_blocks count twice: proved as failures"
  },
  {
   "property": "C89",
   "status": "partial",
   "theorems": [
    "Props.C89_dot_partial",
    "Props.C89_set_diagonal",
    "Props.C89_state_partial",
    "Props.C89_states_partial",
    "Props.C89_mixture_partial",
    "Props.C89_matrix_ele",
    "Props.C89_fails_out",
    "Props.C89_fails_quant_fluct",
    "Props.C89_fails_number",
    "Props.C89_fails_sparse",
    "Props.C89_fails_caller"
   ],
   "note": "proved for all strings, diagonals and states of an operator that is not transposed or conjugated (C24); the products with numbers, sparse matrices and output arrays, and quant_fluct, do not work at all: proved as failures"
  },
  {
   "property": "C90",
   "status": "partial",
   "theorems": [
    "Props.C90_herm_partial",
    "Props.C90_fails_check",
    "Props.C90_fails_matrix"
   ],
   "note": "the check for hermiticity is sound for spins and bosons without repeated terms; the check for conservation accepts every list: proved"
  },
  {
   "property": "C91",
   "status": "partial",
   "theorems": [
    "Props.C91_tensor",
    "Props.C91_tensor_isometry",
    "Props.C91_get_proj_partial",
    "Props.C91_project_from_partial",
    "Props.C91_isometry",
    "Props.C91_fails_general",
    "Props.C91_fails_large"
   ],
   "note": "tensor bases complete; photon bases with one-dimensional particle bases and at most 127 quanta; bases of the general classes and larger numbers fail: proved"
  },
  {
   "property": "C92",
   "status": "partial",
   "theorems": [
    "Props.C92_one_partial",
    "Props.C92_columns_partial",
    "Props.C92_mixed_partial",
    "Props.C92_trace",
    "Props.C92_particles_partial",
    "Props.C92_photons_partial",
    "Props.C92_fails_default",
    "Props.C92_fails_conjugate",
    "Props.C92_fails_stack",
    "Props.C92_fails_stack_square",
    "Props.C92_fails_photon_mixed"
   ],
   "note": "proved for the subsystem and all forms of input but stacks; the matrix of the rest is conjugated, stacks, the default arguments and mixed states of photon bases fail: proved; sparse arrays are not modelled"
  },
  {
   "property": "C93",
   "status": "partial",
   "theorems": [
    "Props.C93_coherent_complex_partial",
    "Props.C93_coherent_real_partial",
    "Props.C93_eigenstate",
    "Props.C93_norm",
    "Props.C93_dimension",
    "Props.C93_fails_vacuum",
    "Props.C93_fails_negative",
    "Props.C93_fails_empty"
   ],
   "note": "the dimension is complete; coherent states for all complex numbers except zero and all positive real numbers; zero and negative real numbers give not-a-number: proved"
  },
  {
   "property": "C94",
   "status": "partial",
   "theorems": [
    "Props.C94_op",
    "Props.C94_basis",
    "Props.C94_sector",
    "Props.C94_matrix",
    "Props.C94_default_order",
    "Props.C94_named_order",
    "Props.C94_construct",
    "Props.C94_fails_allowed",
    "Props.C94_fails_list",
    "Props.C94_fails_count",
    "Props.C94_fails_none"
   ],
   "note": "basis, operators and matrices are complete for one sector or no sector; default arguments and lists of sectors always raise: proved"
  },
  {
   "property": "C95",
   "status": "proved",
   "theorems": [
    "Props.C95_order"
   ],
   "note": "for every reduced basis in the sense of C13, which all constructions return (C13_constructed_basis, C94_basis, C94_sector)"
  },
  {
   "property": "C96",
   "status": "partial",
   "theorems": [
    "Props.C96_used_partial",
    "Props.C96_fails_identities",
    "Props.C96_fails_sector",
    "Props.C96_fails_raises"
   ],
   "note": "complete for at most one map that acts trivially; with two the first proper symmetry is lost, with three the constructor raises: proved"
  },
  {
   "property": "C97",
   "status": "partial",
   "theorems": [
    "Props.C97_boson_list",
    "Props.C97_unrestricted",
    "Props.C97_number",
    "Props.C97_default",
    "Props.C97_negative",
    "Props.C97_spinless",
    "Props.C97_up_to",
    "Props.C97_up_to_boson_partial",
    "Props.C97_fails_up_to_boson",
    "Props.C97_fails_up_to_spinless",
    "Props.C97_fails_up_to_higher_spin",
    "Props.C97_fails_spinless",
    "Props.C97_fails_spinless_example",
    "Props.C97_fails_higher_spin",
    "Props.C97_fails_vacuum"
   ],
   "note": "bosons complete up to 256 levels per site; spin 1/2 is C01; lists fail for spinless fermions and higher spins: proved; the lattice parts of photon bases, of configurations with at most a given number, are complete for two levels per site and, up to as many quanta as sites, for bosons"
  },
  {
   "property": "C98",
   "status": "partial",
   "theorems": [
    "Props.C98_get_proj_partial",
    "Props.C98_from_partial",
    "Props.C98_to_partial",
    "Props.C98_vector_partial",
    "Props.C98_round_trip_partial",
    "Props.C98_unmade",
    "Props.C98_fails_list",
    "Props.C98_fails_list_from",
    "Props.C98_fails_list_to",
    "Props.C98_fails_list_example",
    "Props.C98_fails_sparse",
    "Props.C98_fails_empty",
    "Props.C98_fails_one_state",
    "Props.C98_fails_user"
   ],
   "note": "shapes and errors (the numbers are C42); complete for one number and for dense results; sparse results with pcon fail for lists, sparse arguments are always refused, pcon fails for user_basis: proved"
  },
  {
   "property": "C99",
   "status": "partial",
   "theorems": [
    "Props.C99_history",
    "Props.C99_history_dtype",
    "Props.C99_refused",
    "Props.C99_constructor",
    "Props.C99_dot_accepts",
    "Props.C99_dot_type",
    "Props.C99_scalar_type",
    "Props.C99_no_terms",
    "Props.C99_fails_set_a",
    "Props.C99_fails_stale",
    "Props.C99_fails_integers"
   ],
   "note": "complete for set_a without dtype; with dtype it raises and leaves a mixture of old and new parameters, of which dot gives wrong results: proved"
  },
  {
   "property": "C100",
   "status": "partial",
   "theorems": [
    "Props.C100_kernel",
    "Props.C100_types",
    "Props.C100_accepted",
    "Props.C100_result_partial",
    "Props.C100_fails_single",
    "Props.C100_fails_strided",
    "Props.C100_fails_rows",
    "Props.C100_fails_columns"
   ],
   "note": "complete for square matrices in double precision and contiguous output; single precision, strided output and other matrices fail: proved"
  },
  {
   "property": "C101",
   "status": "partial",
   "theorems": [
    "Props.C101_traces_partial",
    "Props.C101_default",
    "Props.C101_refused",
    "Props.C101_fails_sparse",
    "Props.C101_fails_mixed",
    "Props.C101_fails_shape"
   ],
   "note": "the second result is conjugated (C29); sparse states of general classes refused; sparse=True takes density matrices for pure states"
  },
  {
   "property": "C102",
   "status": "partial",
   "theorems": [
    "Props.QOp.C102_dot",
    "Props.QOp.C102_toarray_partial",
    "Props.QOp.C102_matvec",
    "Props.QOp.C102_rmatvec",
    "Props.QOp.C102_rdot_partial",
    "Props.QOp.C102_adjoint",
    "Props.QOp.C102_linear_partial",
    "Props.QOp.C102_formats",
    "Props.QOp.C102_history_partial",
    "Props.QOp.C102_construct_partial",
    "Props.QOp.C102_expt_partial",
    "Props.QOp.C102_fluct_partial",
    "Props.QOp.C102_matrix_ele",
    "Props.QOp.C102_tohamiltonian",
    "Props.QOp.C102_fails_rdot",
    "Props.QOp.C102_fails_linear",
    "Props.QOp.C102_fails_update",
    "Props.QOp.C102_fails_dense",
    "Props.QOp.C102_fails_out",
    "Props.QOp.C102_fails_mix",
    "Props.QOp.C102_fails_zero",
    "Props.QOp.C102_fails_fluct_state",
    "Props.QOp.C102_fails_fluct_mixed",
    "Props.QOp.C102_fails_one",
    "Props.QOp.C102_fails_basis"
   ],
   "note": "Proved for all operators, parameters, states and histories outside the defects: rdot without output raises, rmatvec of the linear operator ignores the conjugation of complex parameters, a failed format change leaves wrong routines, mixed lists lose their strings, vanishing names are refused, quant_fluct raises for single states and density matrices, spaces with one state."
  },
  {
   "property": "C103",
   "status": "partial",
   "theorems": [
    "Props.C103_commutator_partial",
    "Props.C103_anti_commutator_partial",
    "Props.C103_matrices",
    "Props.C103_as_dense_partial",
    "Props.C103_as_sparse_partial",
    "Props.C103_fails_dense",
    "Props.C103_fails_mixed",
    "Props.C103_fails_asarray",
    "Props.C103_fails_shared",
    "Props.C103_fails_sparse"
   ],
   "note": "Commutators are right at all times except for two dense hamiltonians of which one is time independent; all dense time-independent pairs get the commutator zero, dense with sparse matrices raise, dense results share the drives with the original, drives stay dense in as_sparse_format"
  },
  {
   "property": "C104",
   "status": "partial",
   "theorems": [
    "Props.C104_general_partial",
    "Props.C104_default_partial",
    "Props.C104_agree_partial",
    "Props.C104_lattice_partial",
    "Props.C104_refuses",
    "Props.C104_pauli",
    "Props.C104_fails_letters",
    "Props.C104_fails_sites",
    "Props.C104_fails_readonly",
    "Props.C104_fails_empty",
    "Props.C104_fails_shape",
    "Props.C104_fails_columns",
    "Props.C104_fails_more_columns",
    "Props.C104_fails_strided"
   ],
   "note": "Both versions add the product with the matrix of Op for all accepted lists and documented arrays; the general classes do not check strings and sites and refuse read-only states, the default version does not check v_out, empty bases raise, the shape is squeezed"
  },
  {
   "property": "C105",
   "status": "partial",
   "theorems": [
    "Props.C105_accepts",
    "Props.C105_equation",
    "Props.C105_generator",
    "Props.C105_stack",
    "Props.C105_copied",
    "Props.C105_imaginary_partial",
    "Props.C105_scalar_partial",
    "Props.C105_fails_use",
    "Props.C105_fails_scalar",
    "Props.C105_fails_caller",
    "Props.C105_fails_integer"
   ],
   "note": "Accepted calls and equations are characterised; generators that are only read agree with lists and keep the caller's array; states handed out are the arrays of the solver or of the caller, several states in imaginary time are rescaled in the caller's array, integer states raise"
  },
  {
   "property": "C106",
   "status": "partial",
   "theorems": [
    "Props.C106_sum_partial",
    "Props.C106_shapes",
    "Props.C106_refuses",
    "Props.C106_square",
    "Props.C106_fails_imaginary",
    "Props.C106_fails_nested",
    "Props.C106_fails_basis",
    "Props.C106_fails_shape",
    "Props.C106_fails_keywords",
    "Props.C106_fails_unchecked"
   ],
   "note": "The sum is proved for all lists whose dense matrices the type can hold; dense complex matrices lose their imaginary part in real operators, nested lists with two rows are refused, a basis of another size, a shape and keywords can be ignored, matrices are never checked"
  },
  {
   "property": "C107",
   "status": "partial",
   "theorems": [
    "Props.C107_keys_partial",
    "Props.C107_refuses",
    "Props.C107_pure_partial",
    "Props.C107_sparse_partial",
    "Props.C107_choice_partial",
    "Props.C107_mixed_partial",
    "Props.C107_one_matrix",
    "Props.C107_photon_partial",
    "Props.C107_photon_one_partial",
    "Props.C107_photon_mixed_partial",
    "Props.C107_photon_one_matrix",
    "Props.C107_fails_both",
    "Props.C107_fails_rest",
    "Props.C107_fails_single",
    "Props.C107_fails_packed",
    "Props.C107_fails_spectra",
    "Props.C107_fails_enforce",
    "Props.C107_fails_columns"
   ],
   "note": "Proved for alpha = 1 given the contracts of svd and eigvalsh; sub_sys_A both means right, mixed states lose Sent_A with return_rdm B, parts with one state raise, one sparse matrix comes packed, photon bases ignore return_rdm_EVs and enforce_pure and take sparse density matrices for columns"
  },
  {
   "property": "C108",
   "status": "partial",
   "theorems": [
    "Props.C108_history_partial",
    "Props.C108_again",
    "Props.C108_user_partial",
    "Props.C108_fails_empty",
    "Props.C108_fails_again",
    "Props.C108_fails_user",
    "Props.C108_fails_user_late"
   ],
   "note": "Proved for every history by an invariant over commands, given what C14, C15 and C57 prove of the compiled construction; prefixes for an empty block read outside of the array, make() of a large made block raises, user bases are sorted after their prefixes were computed, or never when made later."
  },
  {
   "property": "C109",
   "status": "partial",
   "theorems": [
    "Props.C109_hamiltonian_partial",
    "Props.C109_quantum_operator_partial",
    "Props.C109_linear",
    "Props.C109_call_partial",
    "Props.C109_fails_triangle",
    "Props.C109_fails_uplo",
    "Props.C109_fails_empty",
    "Props.C109_fails_complex",
    "Props.C109_fails_unpack"
   ],
   "note": "Given the contracts of LAPACK and ARPACK (met by explicit solvers from the spectral theorem); keyword arguments documented are refused, one triangle is read without a check, eigvals_only of quantum_operator.eigh cannot be unpacked, real operators with complex functions cannot be diagonalised densely, empty spaces give one row."
  },
  {
   "property": "C110",
   "status": "partial",
   "theorems": [
    "Props.C110_strings_partial",
    "Props.C110_chain_strings",
    "Props.C110_accepted",
    "Props.C110_map",
    "Props.C110_map_accepted",
    "Props.C110_shown",
    "Props.C110_index",
    "Props.C110_subsystem",
    "Props.C110_check_partial",
    "Props.C110_fails_range",
    "Props.C110_fails_map",
    "Props.C110_fails_entropy",
    "Props.C110_fails_index",
    "Props.C110_fails_subsystem",
    "Props.C110_fails_repeated"
   ],
   "note": "Strings, maps, Fock states, subsystems of the chain and the symmetry check proved; sites and map entries outside of the lattice are taken for the other spin, entropies of general bases refuse every subsystem with spin down, index takes numbers that do not fit, repeated terms are not counted."
  },
  {
   "property": "C111",
   "status": "partial",
   "theorems": [
    "Props.C111_elements_partial",
    "Props.C111_accepted",
    "Props.C111_types",
    "Props.C111_inplace",
    "Props.C111_fails_inplace",
    "Props.C111_fails_types",
    "Props.C111_fails_overrun",
    "Props.C111_fails_mask",
    "Props.C111_fails_width",
    "Props.C111_fails_empty",
    "Props.C111_fails_places"
   ],
   "note": "Element-wise results, untouched memory and the exact set of accepted calls, for every schedule, if the types agree and the arrays are apart; in place with T threads the operation is applied between once and T times. The boost integers are taken as plain words."
  },
  {
   "property": "C112",
   "status": "partial",
   "theorems": [
    "Props.C112_to_basis",
    "Props.C112_narrowest",
    "Props.C112_python",
    "Props.C112_back",
    "Props.C112_round_trip",
    "Props.C112_refused",
    "Props.C112_filled",
    "Props.C112_type_fits",
    "Props.C112_type_least_partial",
    "Props.C112_index",
    "Props.C112_fails_scalar",
    "Props.C112_fails_list",
    "Props.C112_fails_empty",
    "Props.C112_fails_negative",
    "Props.C112_fails_minimum",
    "Props.C112_fails_overflow",
    "Props.C112_fails_numpy"
   ],
   "note": "Round trips, refusals, filled arrays and types that hold all states for all inputs; the type is the smallest but for empty and full sectors. numpy integers, lists and empty arrays are not converted, index of a negative number never returns."
  },
  {
   "property": "C113",
   "status": "partial",
   "theorems": [
    "Props.C113_two_level",
    "Props.C113_two_level_partial",
    "Props.C113_multi_level",
    "Props.C113_multi_level_partial",
    "Props.C113_spinful",
    "Props.C113_spinful_partial",
    "Props.C113_all_states",
    "Props.C113_count",
    "Props.C113_momentum",
    "Props.C113_momentum_inversion",
    "Props.C113_momentum_sublattice",
    "Props.C113_momentum_reflection",
    "Props.C113_momentum_product",
    "Props.C113_momentum_reflection_inversion",
    "Props.C113_fails_repeated"
   ],
   "note": "Enough memory for every single sector and for the full space of every chain, and for several sectors of which at most one has fewer than 8n^3 states; momentum alone, with inversion, inversion of a sublattice, reflection, their product, reflection and inversion. Repeated particle numbers are written beyond the end. Missing: several small sectors, momentum with both sublattice inversions."
  },
  {
   "property": "C114",
   "status": "partial",
   "theorems": [
    "Props.C114_index",
    "Props.C114_strings_partial",
    "Props.C114_round_trip_partial",
    "Props.C114_refused",
    "Props.C114_fails_letters",
    "Props.C114_fails_length",
    "Props.C114_fails_twice"
   ],
   "note": "index of an integer is characterised for every list of states; strings agree with integers for at most ten states per site and any number of sites. With more than ten states per site strings with letters are refused, because they are first read in base ten; too short strings are accepted; states that a block of momentum and reflection holds twice have an array of places and state_to_int raises."
  },
  {
   "property": "C115",
   "status": "partial",
   "theorems": [
    "Props.C115_table",
    "Props.C115_accepted",
    "Props.C115_new",
    "Props.C115_given_partial",
    "Props.C115_arithmetic",
    "Props.C115_in_place",
    "Props.C115_order",
    "Props.C115_fails_output",
    "Props.C115_fails_imaginary",
    "Props.C115_fails_rows",
    "Props.C115_fails_columns",
    "Props.C115_fails_refused"
   ],
   "note": "the two generated tables agree for every list of types; without out, and with an out of the type of the vector and the length of the matrix, every array is used in its own type and inside its bounds. The type and length of out and the length of the vector are never compared: proved. Some products with a result type are refused: proved."
  },
  {
   "property": "C116",
   "status": "partial",
   "theorems": [
    "Props.C116_free_partial",
    "Props.C116_order_two",
    "Props.C116_given",
    "Props.C116_small",
    "Props.C116_refused",
    "Props.C116_fails_exchanges"
   ],
   "note": "the default is enough for one symmetry of period two and for groups with few symmetric states; an estimate above the number of states is enough where it arrives. Two commuting exchanges of sites overflow the default, and bosons with two levels ignore the estimate: proved. Bases without a particle number; the quotient of floating point numbers is exact in the model."
  }
 ]
}