{
 "claims": [
  {
   "property": "C01",
   "status": "proved",
   "theorems": [
    "Mfmg.C01_result_ignores_output_vector",
    "Mfmg.C01_standalone_guess_finest_only"
   ],
   "note": ""
  },
  {
   "property": "C02",
   "status": "proved",
   "theorems": [
    "Mfmg.C02_cycle_linear"
   ],
   "note": ""
  },
  {
   "property": "C03",
   "status": "proved",
   "theorems": [
    "Mfmg.C03_solution_is_fixed_point",
    "Mfmg.C03_single_level"
   ],
   "note": ""
  },
  {
   "property": "C04",
   "status": "proved",
   "theorems": [
    "Mfmg.C04_cycle_is_textbook",
    "Mfmg.C04_standalone_is_richardson",
    "Mfmg.C04_two_level_error"
   ],
   "note": ""
  },
  {
   "property": "C05",
   "status": "proved",
   "theorems": [
    "Mfmg.C05_preconditioner_symmetric"
   ],
   "note": ""
  },
  {
   "property": "C06",
   "status": "proved",
   "theorems": [
    "Mfmg.C06_galerkin",
    "Mfmg.C06_symmetry_and_semidefiniteness_inherited"
   ],
   "note": "Products by the linear algebra library are assumed exact; the fast_ap product is assumed correct here (see C23)."
  },
  {
   "property": "C07",
   "status": "proved",
   "theorems": [
    "Mfmg.C07_coarse_correction_optimal"
   ],
   "note": "Stated for the two-level cycle."
  },
  {
   "property": "C08",
   "status": "proved",
   "theorems": [
    "Mfmg.C08_levels_populated",
    "Mfmg.C08_apply_never_dereferences_null",
    "Mfmg.C08_construction_succeeds",
    "Mfmg.C08_zero_levels",
    "Mfmg.C08_negative_levels",
    "Mfmg.C08_null_params"
   ],
   "note": ""
  },
  {
   "property": "C09",
   "status": "partial",
   "theorems": [
    "Mfmg.C09_setup_balanced",
    "Mfmg.C09_apply_balanced_partial",
    "Mfmg.C09_reentry_violated",
    "Mfmg.C09_apply_balanced_up_to_reentry",
    "Mfmg.C09_sections_leak_on_throw_violated"
   ],
   "note": "Set-up is balanced for any number of levels; applications for at most two levels. The unrestricted claim is false of the code: refuted for every hierarchy with three or more levels (C09_reentry_violated) and for every failing construction (C09_sections_leak_on_throw_violated)."
  },
  {
   "property": "C10",
   "status": "proved",
   "theorems": [
    "Mfmg.C10_parameters",
    "Mfmg.C10_smoothing_steps",
    "Mfmg.C10_call_order",
    "Mfmg.C10_user_parameters"
   ],
   "note": ""
  },
  {
   "property": "C11",
   "status": "proved",
   "theorems": [
    "Mfmg.C11_owned_cells_flagged",
    "Mfmg.C11_returns"
   ],
   "note": ""
  },
  {
   "property": "C12",
   "status": "proved",
   "theorems": [
    "Mfmg.C12_no_empty_agglomerate",
    "Mfmg.C12_bad_order"
   ],
   "note": "The hypothesis on the iteration order is needed: C12_bad_order."
  },
  {
   "property": "C13",
   "status": "partial",
   "theorems": [
    "Mfmg.C13_block_rerun_violated",
    "Mfmg.C13_block_rerun_boundary_violated",
    "Mfmg.C13_partitioner_rerun_partial"
   ],
   "note": "False for the block partitioner: refuted on every mesh (C13_block_rerun_violated, C13_block_rerun_boundary_violated). Holds for the graph partitioners."
  },
  {
   "property": "C14",
   "status": "proved",
   "theorems": [
    "Mfmg.C14_partitioner"
   ],
   "note": ""
  },
  {
   "property": "C15",
   "status": "proved",
   "theorems": [
    "Mfmg.C15_boundary_exact",
    "Mfmg.C15_bad_flags"
   ],
   "note": ""
  },
  {
   "property": "C16",
   "status": "proved",
   "theorems": [
    "Mfmg.C16_increasing",
    "Mfmg.C16_outside",
    "Mfmg.C16_any_order_narrow",
    "Mfmg.C16_by_id"
   ],
   "note": "The width of the iterator's difference type is a parameter; deal.II's own type decides which case applies."
  },
  {
   "property": "C17",
   "status": "proved",
   "theorems": [
    "Mfmg.C17_dof_map",
    "Mfmg.C17_order_independent",
    "Mfmg.C17_missing_cell"
   ],
   "note": ""
  },
  {
   "property": "C18",
   "status": "partial",
   "theorems": [
    "Mfmg.C18_pvtu_record_violated",
    "Mfmg.C18_single_process_partial"
   ],
   "note": "False for two or more processes: refuted for every file name and process count (C18_pvtu_record_violated). Holds for one process."
  },
  {
   "property": "C19",
   "status": "proved",
   "theorems": [
    "Mfmg.C19_dispatch",
    "Mfmg.C19_missing_parameter"
   ],
   "note": ""
  },
  {
   "property": "C20",
   "status": "proved",
   "theorems": [
    "Mfmg.C20_rows",
    "Mfmg.C20_partition_of_unity"
   ],
   "note": ""
  },
  {
   "property": "C21",
   "status": "proved",
   "theorems": [
    "Mfmg.C21_row_ranges",
    "Mfmg.C21_own_row",
    "Mfmg.C21_pattern"
   ],
   "note": ""
  },
  {
   "property": "C22",
   "status": "proved",
   "theorems": [
    "Mfmg.C22_restriction_is_sum",
    "Mfmg.C22_delta_vanishes"
   ],
   "note": ""
  },
  {
   "property": "C23",
   "status": "proved",
   "theorems": [
    "Mfmg.C23_fast_ap"
   ],
   "note": ""
  },
  {
   "property": "C24",
   "status": "partial",
   "theorems": [
    "Mfmg.C24_once_partial",
    "Mfmg.C24_stale_violated"
   ],
   "note": "False when patches are empty: the worker returns early and leaves the previous item's rows in the copy object, so they are added again. C24_stale_violated gives the exact multiplicity for every list of patches in the sequential run; C24_once_partial proves the claim when no patch (or every patch) is empty, for every legal schedule."
  },
  {
   "property": "C25",
   "status": "partial",
   "theorems": [
    "Mfmg.C25_schedule_partial",
    "Mfmg.C25_schedule_violated"
   ],
   "note": "The full claim (ScheduleIndependent) is false when the Lanczos/LOBPCG initial guess is carried over in the scratch evaluator (C25_schedule_violated); proved for every legal schedule when no state is carried over (C25_schedule_partial)."
  },
  {
   "property": "C26",
   "status": "proved",
   "theorems": [
    "Mfmg.C26_lanczos_relation",
    "Mfmg.C26_every_iteration"
   ],
   "note": "Exact arithmetic. Stated on any subspace the operator maps to itself and is symmetric on, so it covers the deflated operator."
  },
  {
   "property": "C27",
   "status": "proved",
   "theorems": [
    "Mfmg.C27_residual"
   ],
   "note": "Exact arithmetic; LAPACK's dstev is assumed to return a sorted orthonormal eigenbasis (DstevContract, met by exactDstev)."
  },
  {
   "property": "C28",
   "status": "proved",
   "theorems": [
    "Mfmg.C28_projection",
    "Mfmg.C28_add",
    "Mfmg.C28_add_returns_iff",
    "Mfmg.C28_history",
    "Mfmg.C28_lanczos_cycle",
    "Mfmg.C28_all_cycles",
    "Mfmg.C28_no_breakdown"
   ],
   "note": "Exact arithmetic; dependent vectors make add_deflation_vecs divide by zero (C28_add_returns_iff)."
  },
  {
   "property": "C29",
   "status": "proved",
   "theorems": [
    "Mfmg.C29_scan_exact"
   ],
   "note": ""
  },
  {
   "property": "C30",
   "status": "proved",
   "theorems": [
    "Mfmg.C30_all_or_nothing"
   ],
   "note": ""
  },
  {
   "property": "C31",
   "status": "partial",
   "theorems": [
    "Mfmg.C31_cut_iff_partial",
    "Mfmg.C31_one_cycle_partial",
    "Mfmg.C31_padding_violated",
    "Mfmg.C31_cut_violated"
   ],
   "note": "False of the code. C31_cut_violated: two cycles, the smaller pair is found and dropped, for every operator with two such eigenvectors. C31_padding_violated: every deflated solve with too few cycles returns a zero value with an empty vector. C31_cut_iff_partial gives the exact condition under which the cut-then-sort is right; C31_one_cycle_partial covers the plain solve."
  },
  {
   "property": "C32",
   "status": "proved",
   "theorems": [
    "Mfmg.C32_tests"
   ],
   "note": ""
  },
  {
   "property": "C33",
   "status": "partial",
   "theorems": [
    "Mfmg.C33_purged_violated",
    "Mfmg.C33_no_purge_partial"
   ],
   "note": "False of the code: C33_purged_violated shows the out-of-range read for every operator acting as [[c,b],[b,c]] on a plane with tol2/2 < b <= tol2 (tol2 is 5e-12), in debug and release. C33_no_purge_partial proves the claim when no purge leaves fewer pairs than requested."
  },
  {
   "property": "C34",
   "status": "proved",
   "theorems": [
    "Mfmg.C34_strict_weak",
    "Mfmg.C34_sorts",
    "Mfmg.C34_unique",
    "Mfmg.C34_mismatch",
    "Mfmg.C34_mismatch_release"
   ],
   "note": ""
  },
  {
   "property": "C35",
   "status": "proved",
   "theorems": [
    "Mfmg.C35_permutes",
    "Mfmg.C35_returns_iff",
    "Mfmg.C35_never_ends"
   ],
   "note": ""
  },
  {
   "property": "C36",
   "status": "proved",
   "theorems": [
    "Mfmg.C36_round_trip",
    "Mfmg.C36_only_plain",
    "Mfmg.C36_unique",
    "Mfmg.C36_injection"
   ],
   "note": "Round trip for names and values without XML special characters; C36_injection shows how a quote in a name changes the list."
  },
  {
   "property": "C37",
   "status": "partial",
   "theorems": [
    "Mfmg.C37_smoother",
    "Mfmg.C37_smoother_rejects",
    "Mfmg.C37_matrix_free_smoother",
    "Mfmg.C37_solver",
    "Mfmg.C37_solver_rejects",
    "Mfmg.C37_cuda_smoother",
    "Mfmg.C37_helpers",
    "Mfmg.C37_helpers_device",
    "Mfmg.C37_cuda_solver_partial",
    "Mfmg.C37_cuda_solver_violated"
   ],
   "note": "Host factories proved in full. The device solver accepts any name at construction, in every build mode; only apply reports an unknown name: C37_cuda_solver_violated."
  },
  {
   "property": "C38",
   "status": "proved",
   "theorems": [
    "Mfmg.C38_extract_row",
    "Mfmg.C38_stored",
    "Mfmg.C38_values",
    "Mfmg.C38_error",
    "Mfmg.C38_galerkin"
   ],
   "note": "Exact arithmetic; the operator is assumed to be multiplication by a matrix (IsMatrix)."
  },
  {
   "property": "C39",
   "status": "proved",
   "theorems": [
    "Mfmg.C39_guess",
    "Mfmg.C39_guess_constrained",
    "Mfmg.C39_noise",
    "Mfmg.C39_lobpcg",
    "Mfmg.C39_lobpcg_fallback",
    "Mfmg.C39_lobpcg_too_few"
   ],
   "note": "Random numbers are a parameter; the 'nonzero elsewhere' half needs them to be nonzero."
  },
  {
   "property": "C40",
   "status": "proved",
   "theorems": [
    "Mfmg.C40_shifted",
    "Mfmg.C40_unconstrained_rows",
    "Mfmg.C40_constrained_rows",
    "Mfmg.C40_free_block",
    "Mfmg.C40_diagonal"
   ],
   "note": "Eigensolvers are assumed to return eigenpairs of the matrix they are given (EigenContract)."
  },
  {
   "property": "C41",
   "status": "proved",
   "theorems": [
    "Mfmg.C41_add",
    "Mfmg.C41_add_violated",
    "Mfmg.C41_times",
    "Mfmg.C41_scale",
    "Mfmg.C41_init",
    "Mfmg.C41_view",
    "Mfmg.C41_copy",
    "Mfmg.C41_copy_independent",
    "Mfmg.C41_copy_all",
    "Mfmg.C41_view_shares",
    "Mfmg.C41_set_block",
    "Mfmg.C41_products",
    "Mfmg.C41_norm"
   ],
   "note": "False when the output of MvAddMv is its second operand (C41_add_violated, for all coefficients and sizes); every other operation proved under the stated aliasing conditions. C41_norm takes the square root as a parameter."
  },
  {
   "property": "C42",
   "status": "partial",
   "theorems": [
    "Mfmg.C42_extraction_partial",
    "Mfmg.C42_extraction_violated"
   ],
   "note": "False when Anasazi reports more pairs than requested, for every such report (C42_extraction_violated); proved otherwise."
  },
  {
   "property": "C43",
   "status": "proved",
   "theorems": [
    "Mfmg.C43_gather"
   ],
   "note": "Proved for every distribution and thread order, from the documented contract of MPI_Allgatherv."
  },
  {
   "property": "C44",
   "status": "partial",
   "theorems": [
    "Mfmg.C44_square_violated",
    "Mfmg.C44_square_partial",
    "Mfmg.C44_rectangular",
    "Mfmg.C44_trilinos",
    "Mfmg.C44_empty_violated",
    "Mfmg.C44_epetra",
    "Mfmg.C44_to_trilinos",
    "Mfmg.C44_round_trip"
   ],
   "note": "The square deal.II conversion reads one element past the end of the column array for every matrix with a row (C44_square_violated); if that read is harmless the result is right (C44_square_partial). Rectangular, Trilinos, Epetra conversions and the conversion back are proved; a process without entries fails (C44_empty_violated)."
  },
  {
   "property": "C45",
   "status": "proved",
   "theorems": [
    "Mfmg.C45_numbering",
    "Mfmg.C45_matrix",
    "Mfmg.C45_solution",
    "Mfmg.C45_vectors",
    "Mfmg.C45_solve"
   ],
   "note": "Numbering, matrix, vectors and the solve are proved for one process with any owned rows, halo columns and sent rows, any iteration order of the row map and any sort satisfying SortContract."
  },
  {
   "property": "C46",
   "status": "partial",
   "theorems": [
    "Mfmg.C46_history_partial",
    "Mfmg.C46_apply_only",
    "Mfmg.C46_violated",
    "Mfmg.C46_apply_transpose_violated"
   ],
   "note": "Proved for histories with at most one transposition (C46_history_partial) and without any (C46_apply_only); missing: further transpositions, for which the claim is false (C46_violated gives the exact parity behaviour)."
  },
  {
   "property": "C47",
   "status": "partial",
   "theorems": [
    "Mfmg.C47_counts_partial",
    "Mfmg.C47_moved_again",
    "Mfmg.C47_default_violated",
    "Mfmg.C47_safe",
    "Mfmg.C47_exact",
    "Mfmg.C47_released_partial",
    "Mfmg.C47_vmult_violated",
    "Mfmg.C47_assign_violated",
    "Mfmg.C47_alias_violated"
   ],
   "note": "No double free, no use after free (C47_safe) and the exact set of arrays still allocated after any history (C47_exact). C47_released_partial covers histories without vmult and move assignment onto a non-empty matrix; those leak (C47_vmult_violated, C47_assign_violated). Assumes allocations succeed and addresses are not reused. C47_counts_partial and C47_moved_again: no uninitialised number of entries is read in programs that do not use the default constructor; with it copying, moving and assigning read one (C47_default_violated)."
  },
  {
   "property": "C48",
   "status": "partial",
   "theorems": [
    "Mfmg.C48_exact",
    "Mfmg.C48_released_partial",
    "Mfmg.C48_violated",
    "Mfmg.C48_other_solvers"
   ],
   "note": "Exact set of AMGX objects after any history of constructions and destructions (C48_exact, no double destruction); C48_released_partial misses the matrix objects, which are never destroyed (C48_violated)."
  },
  {
   "property": "C49",
   "status": "partial",
   "theorems": [
    "Mfmg.C49_exact",
    "Mfmg.C49_inverse_partial",
    "Mfmg.C49_violated",
    "Mfmg.C49_sweep_partial"
   ],
   "note": "C49_exact gives the matrix on any process. C49_inverse_partial and C49_sweep_partial cover processes whose rows start at 0, respectively one process; missing: other processes, for which the claim is false (C49_violated)."
  },
  {
   "property": "C50",
   "status": "partial",
   "theorems": [
    "Mfmg.C50_exact",
    "Mfmg.C50_serial_partial",
    "Mfmg.C50_violated"
   ],
   "note": "C50_exact: every process reports its own count after any history; C50_serial_partial misses several processes, for which the claim is false unless all other processes are empty (C50_violated)."
  },
  {
   "property": "C51",
   "status": "proved",
   "theorems": [
    "Mfmg.C51_consistent",
    "Mfmg.C51_symmetric",
    "Mfmg.C51_violated",
    "Mfmg.C51_partner_violated"
   ],
   "note": "Proved for every pattern in which data is needed in both directions or not at all, in particular structurally symmetric ones; for other patterns the out-of-bounds access and the wrong pairing are proved universally. Assumes that the matrix's communicator is MPI_COMM_WORLD."
  },
  {
   "property": "C52",
   "status": "proved",
   "theorems": [
    "Mfmg.C52_preconditioner_positive_definite"
   ],
   "note": ""
  },
  {
   "property": "C53",
   "status": "proved",
   "theorems": [
    "Mfmg.C53_energy_error_does_not_grow",
    "Mfmg.C53_energy_error_decreases"
   ],
   "note": ""
  },
  {
   "property": "C54",
   "status": "proved",
   "theorems": [
    "Mfmg.C54_tiling"
   ],
   "note": ""
  },
  {
   "property": "C55",
   "status": "proved",
   "theorems": [
    "Mfmg.C55_agglomerate_size"
   ],
   "note": ""
  },
  {
   "property": "C56",
   "status": "partial",
   "theorems": [
    "Mfmg.C56_user_parameters_partial",
    "Mfmg.C56_defaults_violated"
   ],
   "note": "The user's parameters all take effect (C56_user_parameters_partial); the defaults are lost (C56_defaults_violated)."
  },
  {
   "property": "C57",
   "status": "partial",
   "theorems": [
    "Mfmg.C57_unknown_name_partial",
    "Mfmg.C57_unknown_name_violated",
    "Mfmg.C57_matrix_free_throws",
    "Mfmg.C57_no_name"
   ],
   "note": "False in release builds for every unknown name (C57_unknown_name_violated); debug builds abort (C57_unknown_name_partial)."
  },
  {
   "property": "C58",
   "status": "partial",
   "theorems": [
    "Mfmg.C58_lapack_partial",
    "Mfmg.C58_lapack_violated"
   ],
   "note": "False: C58_lapack_violated, for every size, number of eigenvectors and constraint set with the matrix c*I, c > 50."
  },
  {
   "property": "C59",
   "status": "partial",
   "theorems": [
    "Mfmg.C59_aligned_partial",
    "Mfmg.C59_aligned_violated",
    "Mfmg.C59_debug"
   ],
   "note": "False in release builds whenever Lanczos returns fewer pairs than requested (C59_aligned_violated)."
  },
  {
   "property": "C60",
   "status": "partial",
   "theorems": [
    "Mfmg.C60_one_call_partial",
    "Mfmg.C60_fresh_violated",
    "Mfmg.C60_constrained_violated"
   ],
   "note": "False: C60_fresh_violated and C60_constrained_violated, universally; C60_one_call_partial is what holds."
  },
  {
   "property": "C61",
   "status": "proved",
   "theorems": [
    "Mfmg.C61_vmult",
    "Mfmg.C61_convert_vmult"
   ],
   "note": "From the contracts of MPI_Allgatherv and cusparseDcsrmv; exact arithmetic."
  },
  {
   "property": "C62",
   "status": "partial",
   "theorems": [
    "Mfmg.C62_host",
    "Mfmg.C62_device_violated",
    "Mfmg.C62_operator_serial_partial",
    "Mfmg.C62_operator_violated"
   ],
   "note": "Host vectors proved; device right-hand side and distributed operator violated; the one-process operator is preserved (C62_operator_serial_partial: what is missing is several processes, where the claim is false)."
  },
  {
   "property": "C63",
   "status": "partial",
   "theorems": [
    "Mfmg.C63_usable_partial",
    "Mfmg.C63_violated"
   ],
   "note": "Proved for transpose, multiply and the serial multiply_transpose (C63_usable_partial); missing: the distributed multiply_transpose, for which the claim is false (C63_violated)."
  },
  {
   "property": "C64",
   "status": "partial",
   "theorems": [
    "Mfmg.C64_accepts_iff_partial",
    "Mfmg.C64_correct_accepted_partial",
    "Mfmg.C64_release",
    "Mfmg.C64_last_violated",
    "Mfmg.C64_before_larger_violated"
   ],
   "note": "Characterised exactly (accepts iff sums agree) when every agglomerate has an eigenvector; missing: agglomerates without eigenvectors, for which out-of-bounds reads are proved universally (C64_last_violated, C64_before_larger_violated). Exact arithmetic; 1e-14 is any tolerance in (0,1]."
  },
  {
   "property": "C65",
   "status": "partial",
   "theorems": [
    "Mfmg.C65_two_levels_partial",
    "Mfmg.C65_sizes_violated",
    "Mfmg.C65_debug_violated",
    "Mfmg.C65_apply_violated",
    "Mfmg.C65_fast_constructs"
   ],
   "note": "Proved for one and two levels (C65_two_levels_partial); missing: three and more levels, for which failure is proved for every evaluator whose first restrictor is not square (C65_debug_violated, C65_apply_violated). Dimension mismatches are undefined behaviour of deal.II/Trilinos in release builds."
  },
  {
   "property": "C66",
   "status": "partial",
   "theorems": [
    "Mfmg.C66_compose_partial",
    "Mfmg.C66_matrix_free",
    "Mfmg.C66_matrix_free_throws",
    "Mfmg.C66_operand_violated"
   ],
   "note": "C66_compose_partial covers all expressions of assembled operators, C66_matrix_free and C66_matrix_free_throws matrix-free left operands; missing: matrix-free right operands, for which the claim is false (C66_operand_violated). EpetraExt products and transposes are assumed correct."
  },
  {
   "property": "C67",
   "status": "partial",
   "theorems": [
    "Mfmg.C67_smallest_partial",
    "Mfmg.C67_none_violated",
    "Mfmg.C67_many_violated"
   ],
   "note": "Proved for 1 <= n_eigenvectors <= n_rows under the contract of cusolverDnDsygvd (all eigenpairs, ascending, orthonormal); missing: zero eigenvectors and more eigenvectors than rows, for which out-of-bounds accesses are proved for every matrix and schedule."
  },
  {
   "property": "C68",
   "status": "partial",
   "theorems": [
    "Mfmg.C68_rows_partial",
    "Mfmg.C68_leaks_violated"
   ],
   "note": "C68_rows_partial: missing agglomerates with fewer dofs than requested eigenvectors (out-of-bounds read, C67). C68_leaks_violated: exactly two device allocations per agglomerate are leaked. Contract of cusolverDnDsygvd assumed; allocations succeed."
  },
  {
   "property": "C69",
   "status": "partial",
   "theorems": [
    "Mfmg.C69_solves_partial",
    "Mfmg.C69_singular_violated",
    "Mfmg.C69_shared_violated",
    "Mfmg.C69_unknown",
    "Mfmg.C69_operator_violated"
   ],
   "note": "C69_solves_partial covers one process and matrices the factorisation applies to; missing: several processes (C69_shared_violated: out-of-bounds read) and singular matrices in release builds (C69_singular_violated). cuSOLVER is assumed to return exact solutions and to report singularity (CuSolver.Correct)."
  },
  {
   "property": "C70",
   "status": "partial",
   "theorems": [
    "Mfmg.C70_uneven_violated",
    "Mfmg.C70_even_partial"
   ],
   "note": "C70_even_partial: equal numbers of eigenvectors. Missing: different numbers, for which C70_uneven_violated shows, for every mesh and schedule, that the rows left over get no correction."
  },
  {
   "property": "C71",
   "status": "partial",
   "theorems": [
    "Mfmg.C71_smoother_partial",
    "Mfmg.C71_vmult",
    "Mfmg.C71_empty_violated"
   ],
   "note": "C71_smoother_partial: processes with at least one row and one entry. Missing: processes without entries, for which C71_empty_violated shows out-of-bounds accesses for every schedule. C71_vmult has no such restriction. Idealisation: block index times block size is computed in unsigned arithmetic and converted to int; launches with more than 2^31-1 blocks do not occur."
  },
  {
   "property": "C72",
   "status": "partial",
   "theorems": [
    "Mfmg.C72_ids",
    "Mfmg.C72_distinguish_partial",
    "Mfmg.C72_zero_violated"
   ],
   "note": "C72_ids (ids copied exactly) is complete. C72_distinguish_partial: no boundary id 0 on the global mesh; C72_zero_violated shows the missing case false. build_triangulation_from_patch is assumed to copy cells and face numbering (PatchMesh.Copies)."
  },
  {
   "property": "C73",
   "status": "partial",
   "theorems": [
    "Mfmg.C73_product_partial",
    "Mfmg.C73_empty_violated",
    "Mfmg.C73_error",
    "Mfmg.C73_handle_violated",
    "Mfmg.C73_operand_violated"
   ],
   "note": "C73_product_partial: every process has an entry of the product above the threshold. Missing: processes without one, where C73_empty_violated shows the call fails, and operands of another kind (C73_operand_violated). The operator is assumed to be multiplication by a matrix (IsMatrix). C73_error bounds the effect of the threshold."
  },
  {
   "property": "C74",
   "status": "partial",
   "theorems": [
    "Mfmg.C74_iff",
    "Mfmg.C74_spd_partial",
    "Mfmg.C74_singular_violated"
   ],
   "note": "C74_iff is complete for a given restriction matrix. C74_spd_partial: eigenvectors independent on the dofs belonging to one agglomerate only, nonzero diagonals. Missing: other agglomerations; C74_singular_violated refutes the property, for every operator, whenever there are more eigenvectors than dofs. The coarse operator is the product R A R^T in exact arithmetic (C12, C66)."
  },
  {
   "property": "C75",
   "status": "partial",
   "theorems": [
    "Mfmg.C75_smoother_partial",
    "Mfmg.C75_symmetric",
    "Mfmg.C75_cycle_partial",
    "Mfmg.C75_preconditioner_partial",
    "Mfmg.C75_jacobi_iff",
    "Mfmg.C75_cycle_violated",
    "Mfmg.C75_rate_partial",
    "Mfmg.C75_processes_smoother_partial",
    "Mfmg.C75_two_colours",
    "Mfmg.C75_processes_cycle_partial",
    "Mfmg.C75_two_processes_partial",
    "Mfmg.C75_processes_symmetric",
    "Mfmg.C75_processes_preconditioner_partial",
    "Mfmg.C75_two_processes_rate_partial",
    "Mfmg.C75_gauss_seidel_iff",
    "Mfmg.C75_stieltjes_smoother_partial",
    "Mfmg.C75_stieltjes_cycle_partial",
    "Mfmg.C75_stieltjes_preconditioner_partial",
    "Mfmg.C75_gauss_seidel_violated",
    "Mfmg.C75_stieltjes_rate_partial"
   ],
   "note": "C75_cycle_partial, C75_rate_partial, C75_preconditioner_partial: one process, (symmetric) Gauss-Seidel. C75_two_processes_partial, C75_two_processes_rate_partial: the default smoother on two processes, for every problem and distribution of rows. C75_processes_cycle_partial, C75_processes_preconditioner_partial: the default smoother on any number of processes with weak coupling (C75_two_colours gives a sufficient condition). C75_stieltjes_cycle_partial, C75_stieltjes_rate_partial, C75_stieltjes_preconditioner_partial: all three relaxation smoothers on any number of processes for Stieltjes matrices. Missing: other matrices with Jacobi and with Gauss-Seidel on several processes, settled for one smoothing step by C75_jacobi_iff and C75_gauss_seidel_iff (refuted on two processes by C75_gauss_seidel_violated), incomplete factorisation (see C88), and strongly coupled processes, refuted for every number n >= 3 of processes by C75_cycle_violated. The Trilinos preconditioners are modelled by their textbook definitions (one sweep, factor 1, no overlap)."
  },
  {
   "property": "C76",
   "status": "partial",
   "theorems": [
    "Mfmg.C76_setup_partial",
    "Mfmg.C76_matrix_free_partial",
    "Mfmg.C76_cycle",
    "Mfmg.C76_amgx_world",
    "Mfmg.C76_exception_violated",
    "Mfmg.C76_no_agglomerates_violated",
    "Mfmg.C76_amgx_violated"
   ],
   "note": "Proved under the assumption that the own computations of all members succeed (C76_setup_partial, which also gives the entries of the rows; C76_matrix_free_partial: matrix-free set-up with an iterative eigensolver) and without assumption for applications (C76_cycle). Refuted for failures on some members only (C76_exception_violated, C76_no_agglomerates_violated) and for AMGX on a part of the world (C76_amgx_violated). Which library calls are collective is part of the model."
  },
  {
   "property": "C77",
   "status": "proved",
   "theorems": [
    "Mfmg.C77_approximation",
    "Mfmg.C77_rate",
    "Mfmg.C77_pipeline",
    "Mfmg.C77_chain"
   ],
   "note": "C77_approximation: the assembled restriction matrix approximates every error; C77_rate: rate of the cycle for any restriction matrix that does; C77_pipeline: both together, for any number of cycles; C77_chain: a family of problems of every size with the factor 25/27. One process, symmetric Gauss-Seidel or Gauss-Seidel; that the agglomerate matrices sum to the global matrix and that the eigenvectors are correct are hypotheses."
  },
  {
   "property": "C78",
   "status": "partial",
   "theorems": [
    "Mfmg.C78_smoother_iff",
    "Mfmg.C78_degree",
    "Mfmg.C78_cycle_partial",
    "Mfmg.C78_symmetric",
    "Mfmg.C78_preconditioner_partial",
    "Mfmg.C78_diverges",
    "Mfmg.C78_cycle_violated",
    "Mfmg.C78_max_eigenvalue_violated"
   ],
   "note": "C78_smoother_iff: exact condition for one smoothing step; C78_cycle_partial, C78_preconditioner_partial: the cycle under that condition; C78_symmetric; C78_degree: the user's degree is honoured (the error factor is the Chebyshev polynomial of that degree). Missing: operators with larger eigenvalues, where C78_diverges and C78_cycle_violated show divergence for every setting; C78_max_eigenvalue_violated: the parameter smoother.max_eigenvalue has no effect. deal.II's PreconditionChebyshev is modelled as documented; that the estimates are Ritz values of the Krylov space of the start vector is a hypothesis."
  },
  {
   "property": "C79",
   "status": "partial",
   "theorems": [
    "Mfmg.C79_diagonal",
    "Mfmg.C79_weights_partial",
    "Mfmg.C79_finite_iff",
    "Mfmg.C79_constrained_violated",
    "Mfmg.C79_ghosts"
   ],
   "note": "C79_diagonal: get_diagonal on every process; C79_weights_partial: assembly without failures, finite entries, equal to the matrix of C20; C79_finite_iff: exactly when all entries are finite; C79_ghosts: which elements must be stored. Missing: diagonals with zeros, where C79_constrained_violated shows non-finite rows for every evaluator that follows the documentation of the matrix-free get_diagonal. Infinity and NaN are one value of the model; rounding and overflow are not modelled."
  },
  {
   "property": "C80",
   "status": "partial",
   "theorems": [
    "Mfmg.C80_setup",
    "Mfmg.C80_second_setup_violated",
    "Mfmg.C80_second_setup_partial",
    "Mfmg.C80_nullspace",
    "Mfmg.C80_rate"
   ],
   "note": "C80_setup: the composition from the mesh to the matrix; C80_nullspace: what the coarse space contains; C80_rate: the hypotheses of C77 about the agglomerates derived from the set-up. C80_second_setup_partial: repeated set-up with the graph partitioners. Missing: repetition with the block partitioner, where C80_second_setup_violated shows that every second set-up has no agglomerates. The user's evaluator and the eigensolver are parameters with stated assumptions (Faithful, SolvedExactly)."
  },
  {
   "property": "C81",
   "status": "partial",
   "theorems": [
    "Mfmg.C81_put_get",
    "Mfmg.C81_settings",
    "Mfmg.C81_tree",
    "Mfmg.C81_kept_partial",
    "Mfmg.C81_kept_violated",
    "Mfmg.C81_rebuild",
    "Mfmg.C81_ml_violated",
    "Mfmg.C81_history_violated"
   ],
   "note": "C81_put_get: laws of Boost's put and get_child for every path; C81_tree: the tree after every outcome; C81_rebuild: a second construction from the tree left behind. C81_kept_partial: the entries that keep their value. Missing: ParametersKept for one level; C81_kept_violated shows the entry that is overwritten, C81_ml_violated and C81_history_violated that ML loses all defaults for this and later hierarchies."
  },
  {
   "property": "C82",
   "status": "proved",
   "theorems": [
    "Mfmg.C82_exact",
    "Mfmg.C82_guess_ignored",
    "Mfmg.C82_cycle",
    "Mfmg.C82_attainable",
    "Mfmg.C82_symmetry",
    "Mfmg.C82_products",
    "Mfmg.C82_weights",
    "Mfmg.C82_nearest",
    "Mfmg.C82_weights_inexact",
    "Mfmg.C82_components",
    "Mfmg.C82_double"
   ],
   "note": "C82_cycle: any hierarchy, norm and relative error of the components; C82_components and C82_double: sparse matrices with Jacobi smoothing in the standard model, component by component; C82_products, C82_weights: the parts; C82_nearest: rounding to nearest meets the model; C82_attainable, C82_symmetry, C82_guess_ignored: what follows for iterations; C82_exact ties the model to the one of the other claims; C82_weights_inexact: the bound cannot be zero. Stored matrices and the error of the coarse solver are given; no overflow, underflow, NaN."
  },
  {
   "property": "C83",
   "status": "partial",
   "theorems": [
    "Mfmg.C83_alive_iff",
    "Mfmg.C83_references",
    "Mfmg.C83_drop",
    "Mfmg.C83_leak",
    "Mfmg.C83_teardown",
    "Mfmg.C83_vmult",
    "Mfmg.C83_vmult_partial",
    "Mfmg.C83_matrix_free_violated",
    "Mfmg.C83_device_violated"
   ],
   "note": "C83_vmult says exactly what an application needs, for every kind of hierarchy after any further history; C83_vmult_partial is the claim for matrix-based hierarchies on the host. C83_matrix_free_violated, C83_device_violated: matrix-free hierarchies need the DoFHandler and what the evaluator reads, device hierarchies the CUDA handle. C83_alive_iff, C83_references, C83_drop, C83_teardown, C83_leak hold for all kinds. Temporary objects of the set-up and the internals of preconditioners are not followed."
  },
  {
   "property": "C84",
   "status": "proved",
   "theorems": [
    "Mfmg.C84_rate",
    "Mfmg.C84_preconditioner",
    "Mfmg.C84_weak",
    "Mfmg.C84_pairs"
   ],
   "note": "C84_rate and C84_preconditioner: any number of levels, bound independent of it; C84_weak: the approximation of C77 on every level, bound with a factor per level; C84_pairs: a family of problems for all sizes and numbers of levels. The approximation constants are hypotheses (C77 derives the weaker one for the assembled restriction matrix); coarse solve exact; exact arithmetic."
  },
  {
   "property": "C85",
   "status": "proved",
   "theorems": [
    "Mfmg.C85_construction",
    "Mfmg.C85_tree",
    "Mfmg.C85_matrix_hierarchy",
    "Mfmg.C85_matrix_free_hierarchy",
    "Mfmg.C85_device_smoother",
    "Mfmg.C85_levels",
    "Mfmg.C85_operators",
    "Mfmg.C85_programs",
    "Mfmg.C85_agglomerates",
    "Mfmg.C85_restriction",
    "Mfmg.C85_fast_ap",
    "Mfmg.C85_assembly",
    "Mfmg.C85_local",
    "Mfmg.C85_multivectors",
    "Mfmg.C85_lanczos",
    "Mfmg.C85_device_matrices",
    "Mfmg.C85_device_operators",
    "Mfmg.C85_device_memory",
    "Mfmg.C85_device_restriction",
    "Mfmg.C85_device_free",
    "Mfmg.C85_device_solver"
   ],
   "note": "One theorem per function or group of functions of the model that depends on the build; histories of calls where there are any. What a release build does where the debug build stops is the subject of other claims (C57, C59, C65, C69, C73). The check of the restriction matrix (C64) exists in debug builds only and returns nothing. The extra collective calls that check makes (C76) are not compared."
  },
  {
   "property": "C86",
   "status": "partial",
   "theorems": [
    "Mfmg.C86_output_partial",
    "Mfmg.C86_exception",
    "Mfmg.C86_in_place_violated"
   ],
   "note": "C86_output_partial: different vectors; the value is the one of the functional model of the cycle, and all other vectors are as before. C86_exception: every point of exit. Missing: one object for both arguments, refuted in preconditioner mode for every hierarchy by C86_in_place_violated (an example refutes the standalone mode). madeOf_of_isLinear: the hierarchies of the other claims are covered. Host smoothers only."
  },
  {
   "property": "C87",
   "status": "partial",
   "theorems": [
    "Mfmg.C87_threads_partial",
    "Mfmg.C87_direct_solver_violated",
    "Mfmg.C87_timer_violated"
   ],
   "note": "C87_threads_partial: any number of threads, every order of their statements, absence of data races. Missing, because false: a direct solver shared by threads (C87_direct_solver_violated, a race for every pair of applications) and a timer (C87_timer_violated: only one application after the other is accepted). Calls of the libraries are single statements; Epetra's import buffers (several processes) and the device are not modelled."
  },
  {
   "property": "C88",
   "status": "partial",
   "theorems": [
    "Mfmg.C88_factors",
    "Mfmg.C88_symmetric",
    "Mfmg.C88_exact",
    "Mfmg.C88_smoother_partial",
    "Mfmg.C88_monotone_partial",
    "Mfmg.C88_cycle_partial",
    "Mfmg.C88_preconditioner_partial",
    "Mfmg.C88_cycle_violated"
   ],
   "note": "C88_factors, C88_symmetric: every matrix without zero pivots. C88_exact: symmetric positive definite matrices without fill. C88_smoother_partial, C88_monotone_partial, C88_cycle_partial, C88_preconditioner_partial: Stieltjes matrices on all levels but the coarsest, any number of processes (absence of zero pivots is proved). Missing, because false: other symmetric positive definite matrices (C88_cycle_violated, a two-parameter family, with and without negative pivots). PreconditionILU is modelled by its textbook definition with the default data."
  },
  {
   "property": "C89",
   "status": "partial",
   "theorems": [
    "Mfmg.C89_hierarchy_partial",
    "Mfmg.C89_chebyshev_partial",
    "Mfmg.C89_weights",
    "Mfmg.C89_eigenpairs_partial",
    "Mfmg.C89_lanczos_partial",
    "Mfmg.C89_lanczos_guess_violated",
    "Mfmg.C89_lanczos_pairs_violated",
    "Mfmg.C89_product_violated",
    "Mfmg.C89_constrained_violated",
    "Mfmg.C89_lapack_violated"
   ],
   "note": "C89_hierarchy_partial: all four smoothers of DealIISmoother, any number of levels and processes, the same restriction in both units. C89_chebyshev_partial: the same with the Chebyshev smoother if the eigenvalue estimate of the scaled operator is unchanged. C89_weights: the assembled restriction. C89_eigenpairs_partial: agglomerates without constrained dofs. C89_lanczos_partial: if both tolerances of the Lanczos solver are scaled too and dstev scales. Missing, because false: constrained dofs (C89_constrained_violated), LAPACK (C89_lapack_violated), the drop tolerance of the product (C89_product_violated), Lanczos with its own tolerances (C89_lanczos_guess_violated, C89_lanczos_pairs_violated)."
  },
  {
   "property": "C90",
   "status": "partial",
   "theorems": [
    "Mfmg.C90_names",
    "Mfmg.C90_processes_partial",
    "Mfmg.C90_numbering_partial",
    "Mfmg.C90_chebyshev_partial",
    "Mfmg.C90_assembly",
    "Mfmg.C90_processes_violated",
    "Mfmg.C90_order_violated",
    "Mfmg.C90_ilu_violated",
    "Mfmg.C90_cycle_violated"
   ],
   "note": "C90_names: all four smoothers of DealIISmoother, when the order of the rows in each process follows the renumbering. C90_processes_partial, C90_numbering_partial: Jacobi, any numbering and division. C90_chebyshev_partial: estimate assumed unchanged (its start vector depends on the numbering). C90_assembly: restriction matrix for any division of the agglomerates. Missing, because false: the other smoothers under a change of order or division; C90_processes_violated and C90_order_violated (Gauss-Seidel, symmetric Gauss-Seidel: equal exactly if no process owns two coupled unknowns), C90_ilu_violated, C90_cycle_violated (a whole cycle with default parameters)."
  },
  {
   "property": "C91",
   "status": "partial",
   "theorems": [
    "Mfmg.C91_cycle_partial",
    "Mfmg.C91_one_level_partial",
    "Mfmg.C91_memory_violated",
    "Mfmg.C91_same_as_host_partial",
    "Mfmg.C91_levels_violated",
    "Mfmg.C91_smoother_violated",
    "Mfmg.C91_fast_ap_violated",
    "Mfmg.C91_solver_violated",
    "Mfmg.C91_matrix_free_violated",
    "Mfmg.C91_handle_violated"
   ],
   "note": "C91_cycle_partial (two levels) and C91_one_level_partial: any history, both builds and vector types, all schedules. C91_same_as_host_partial: equal to the host hierarchy with Jacobi smoothing on any number of processes. Assumed: cuSPARSE multiplies, EpetraExt transposes, cuSOLVER solves (exact arithmetic); the restriction is any matrix the evaluator delivers. Missing: several device processes (C49 and C69 show what goes wrong there) and more than two levels, which is false: C91_levels_violated. Further: C91_memory_violated, C91_smoother_violated, C91_fast_ap_violated, C91_solver_violated, C91_matrix_free_violated. C91_handle_violated: a matrix without cuSPARSE handle or descriptor is not rejected but aborts (debug) or is undefined (release)."
  },
  {
   "property": "C92",
   "status": "partial",
   "theorems": [
    "Mfmg.C92_solves_partial",
    "Mfmg.C92_best_partial",
    "Mfmg.C92_symmetric_partial",
    "Mfmg.C92_two_processes_partial",
    "Mfmg.C92_stieltjes_partial",
    "Mfmg.C92_standalone_violated",
    "Mfmg.C92_no_smoothing_violated",
    "Mfmg.C92_chebyshev_partial",
    "Mfmg.C92_rate_partial",
    "Mfmg.C92_gauss_seidel_violated",
    "Mfmg.C92_ilu_partial"
   ],
   "note": "C92_solves_partial and C92_best_partial: whenever a cycle is a symmetric positive definite map. C92_symmetric_partial, C92_two_processes_partial, C92_stieltjes_partial: hierarchies built by the library with symmetric Gauss-Seidel smoothing (weak coupling; one or two processes; Stieltjes matrices) and with Jacobi smoothing (Stieltjes matrices), and C92_ilu_partial with incomplete factorisation smoothing (Stieltjes matrices), with the comparison with the standalone hierarchy. C92_rate_partial: a factor below one per step. C92_chebyshev_partial: matrix-free, two levels. Where the claim fails: C92_standalone_violated ('is preconditioner' false: result depends on uninitialised memory), C92_no_smoothing_violated (division by zero), C92_gauss_seidel_violated (not symmetric, no convergence). deal.II's SolverCG is modelled from its documentation, in exact arithmetic."
  },
  {
   "property": "C93",
   "status": "proved",
   "theorems": [
    "Mfmg.C93_equivalent",
    "Mfmg.C93_levels",
    "Mfmg.C93_weak",
    "Mfmg.C93_pipeline",
    "Mfmg.C93_laplace"
   ],
   "note": "C93_equivalent: from the spectral equivalence of a cycle with the inverse (ratio w^2) to a reduction of the energy by ((w-1)/(w+1))^2 per step, up to a factor 4, and to a bound of the number of steps. C93_levels: any number of levels, ratio 2 s^2 kappa (strong approximation). C93_weak: weak approximation, ratio (s^2 kappa)^(L-1). C93_pipeline: two levels with the restriction matrix the agglomeration set-up makes. C93_laplace: tridiag(-1,2,-1) of any size, a factor 1/4 per step. Real numbers, exact arithmetic."
  },
  {
   "property": "C94",
   "status": "partial",
   "theorems": [
    "Mfmg.C94_dominated",
    "Mfmg.C94_pairs",
    "Mfmg.C94_laplace_partial",
    "Mfmg.C94_one_row",
    "Mfmg.C94_one_row_violated",
    "Mfmg.C94_cg_partial",
    "Mfmg.C94_cg_weak_partial",
    "Mfmg.C94_cg_laplace_partial",
    "Mfmg.C94_smoother",
    "Mfmg.C94_rate_partial",
    "Mfmg.C94_preconditioner_partial",
    "Mfmg.C94_weak_partial"
   ],
   "note": "C94_smoother: a step decreases every energy iff energy < 2 * energy on the processes. C94_rate_partial, C94_preconditioner_partial, C94_weak_partial, C94_cg_partial, C94_cg_weak_partial: coupling factor c < 2 gives rate 1 - (2-c)/(s^2 kappa), ratio 2 s^2 kappa/(2-c), and for the weak approximation the powers; conjugate gradients accordingly. C94_dominated, C94_pairs: diagonally dominant rows, every distribution. C94_laplace_partial, C94_cg_laplace_partial: tridiag(-1,2,-1) of any size, any number of processes with two or more neighbouring rows each: 35/36 per cycle, 25/49 per step. Missing: the factor c = 2, where the claim is false: C94_one_row, C94_one_row_violated (one row on every process, any smoother, any number of steps: no rate below 1 for all sizes)."
  },
  {
   "property": "C95",
   "status": "partial",
   "theorems": [
    "Mfmg.C95_direct_partial",
    "Mfmg.C95_direct_silent_violated",
    "Mfmg.C95_direct_violated",
    "Mfmg.C95_amgx_partial",
    "Mfmg.C95_amgx_violated",
    "Mfmg.C95_handles",
    "Mfmg.C95_copy_partial",
    "Mfmg.C95_copy_violated",
    "Mfmg.C95_vmult_partial",
    "Mfmg.C95_vmult_violated",
    "Mfmg.C95_smoother_partial",
    "Mfmg.C95_smoother_violated",
    "Mfmg.C95_eigen_partial",
    "Mfmg.C95_eigen_violated"
   ],
   "note": "Debug builds: C95_direct_partial, C95_copy_partial, C95_eigen_partial: a return means that no call failed and the result is right (for the eigenvectors although amge_device.templates.cuh:148 and 281 are not checked). C95_vmult_partial, C95_smoother_partial: a return means that no kernel failed, and no call failed or an error is pending; C95_amgx_partial: the same as for the direct solvers as long as the calls of AMGX succeed. C95_handles: never a double or missing destruction. Missing, because false: C95_vmult_violated, C95_smoother_violated (a refused kernel is not noticed, product with uninitialised memory, debug too), C95_amgx_violated (AMGX's return codes are not looked at, debug too), release builds: C95_direct_silent_violated, C95_direct_violated, C95_eigen_violated."
  },
  {
   "property": "C96",
   "status": "partial",
   "theorems": [
    "Mfmg.C96_parameters_partial",
    "Mfmg.C96_parameters_violated",
    "Mfmg.C96_hidden_partial",
    "Mfmg.C96_hidden_violated",
    "Mfmg.C96_problem_partial",
    "Mfmg.C96_degree",
    "Mfmg.C96_problem_violated",
    "Mfmg.C96_needed",
    "Mfmg.C96_default_violated"
   ],
   "note": "C96_parameters_partial, C96_hidden_partial: every entry but those the program sets is that of the file, or of hidden; C96_problem_partial: in debug builds a normal end means that the problem asked for was run; C96_degree: the conversion of the degree; C96_needed: exactly which entries a problem needs. Missing, because false: C96_parameters_violated (eigensolver, its tolerance, fast_ap, the tolerance of the solver, the smoother of matrix-free problems are never those of the file), C96_problem_violated (release: other dimensions run in 3D; unsupported degree: nothing is run, exit code 0), C96_hidden_violated (hidden in hidden is undefined), C96_default_violated (the default for `is preconditioner` does not apply)."
  },
  {
   "property": "C97",
   "status": "partial",
   "theorems": [
    "Mfmg.C97_safe_partial",
    "Mfmg.C97_results_partial",
    "Mfmg.C97_warm_partial",
    "Mfmg.C97_race_violated",
    "Mfmg.C97_swapped_violated",
    "Mfmg.C97_early_violated",
    "Mfmg.C97_hierarchy_partial"
   ],
   "note": "C97_safe_partial: exact condition for the absence of data races; C97_results_partial: then the results are those of a single thread and every thread ends; C97_hierarchy_partial: the condition for hierarchies; C97_warm_partial: after one complete application any number of threads may go on. Missing, because false: C97_race_violated (two threads that apply the transpose for the first time race), C97_swapped_violated (the operator may become its transpose), C97_early_violated (aborted, or destination unchanged)."
  },
  {
   "property": "C98",
   "status": "partial",
   "theorems": [
    "Mfmg.C98_rate_partial",
    "Mfmg.C98_omitted",
    "Mfmg.C98_slow",
    "Mfmg.C98_tolerance_violated",
    "Mfmg.C98_chain"
   ],
   "note": "C98_rate_partial: the rate with the omitted eigenvalues reduced by tolerance squared over the smallest eigenvalue of the inexact vectors (exact vectors may have the eigenvalue zero); C98_omitted: the bound on the complement of the computed vectors follows from the exact one; C98_chain: a family with a rate independent of the size; C98_slow: what no cycle reduces. Missing, because false: a tolerance independent of that eigenvalue (C98_tolerance_violated: for every tolerance and every rate below one there are problems with any number of agglomerates on which the cycle is slower)."
  },
  {
   "property": "C99",
   "status": "partial",
   "theorems": [
    "Mfmg.C99_setup_exact",
    "Mfmg.C99_evaluator_partial",
    "Mfmg.C99_setup_violated",
    "Mfmg.C99_attempts",
    "Mfmg.C99_unbounded_violated",
    "Mfmg.C99_smoother_violated",
    "Mfmg.C99_solver_violated",
    "Mfmg.C99_vmult_violated",
    "Mfmg.C99_clean_partial",
    "Mfmg.C99_fast_ap_violated",
    "Mfmg.C99_multiply_violated",
    "Mfmg.C99_no_exception"
   ],
   "note": "C99_setup_exact: what stays in use for each call that throws, for every mesh and order of evaluation; C99_evaluator_partial: an exception of the user's evaluator leaves only the resources of the agglomerates before; C99_attempts: any sequence of attempts; C99_clean_partial: the product on one process and the restrictor on the host without fast_ap leave nothing; C99_no_exception: without an exception the program is that of C68. Missing, because false: the set-up on the device (C99_setup_violated, C99_unbounded_violated), the smoother (C99_smoother_violated), the AMGX solver (C99_solver_violated), the product with a vector (C99_vmult_violated), fast_ap (C99_fast_ap_violated), and the product on several processes, which releases arrays twice (C99_multiply_violated)."
  },
  {
   "property": "C100",
   "status": "partial",
   "theorems": [
    "Mfmg.C100_rate_partial",
    "Mfmg.C100_good_start",
    "Mfmg.C100_solve",
    "Mfmg.C100_missed_violated",
    "Mfmg.C100_early_stop_violated"
   ],
   "note": "C100_rate_partial: for a start vector with a component in the smallest eigenvector, every run that returns has met the tolerance within the stated number of iterations, and the error of the value and vector is bounded for every number of iterations made; C100_good_start: if the Rayleigh quotient of the start vector is below a threshold the run always returns and the value is within tol^2/(l2 - rho) of the smallest eigenvalue; C100_solve: the same for Lanczos::solve. Missing, because false: a start vector without that component gives other eigenvalues silently (C100_missed_violated), and with a small component the solver may stop after one iteration near another eigenvalue (C100_early_stop_violated)."
  },
  {
   "property": "C101",
   "status": "partial",
   "theorems": [
    "Mfmg.C101_start_sees",
    "Mfmg.C101_found_partial",
    "Mfmg.C101_shifted",
    "Mfmg.C101_missed_violated"
   ],
   "note": "C101_start_sees: for symmetric matrices without positive entries off the diagonal and positive random numbers, there is a nonnegative unit eigenvector for the smallest eigenvalue on the free dofs that is not orthogonal to the start vector (no connectedness needed); C101_found_partial: for every symmetric matrix and a start vector that is not orthogonal (beyond the filter constant) enough iterations give the smallest eigenvalue as accurately as wanted; C101_shifted: the diagonal shift keeps all hypotheses and eigenvectors. Missing, because false: for general symmetric positive definite matrices the start vector may be orthogonal, and then the call returns another eigenvalue as converged (C101_missed_violated); with a small component a call may stop early (C100_early_stop_violated)."
  },
  {
   "property": "C102",
   "status": "partial",
   "theorems": [
    "Mfmg.C102_returns_partial",
    "Mfmg.C102_more_pairs_violated",
    "Mfmg.C102_untested_violated",
    "Mfmg.C102_library_violated"
   ],
   "note": "C102_returns_partial: if d vectors can be made, not more than d pairs are requested, the schedule tests step d and the filter leaves enough pairs, the solver returns after at most d iterations, converged when d iterations are allowed. Missing, because false: with more requested pairs than vectors (zero start vector because all dofs are constrained, start vector an eigenvector, two pairs of a multiple of the identity) it never returns (C102_more_pairs_violated); when step d is not tested it never returns for tolerances below a bound that scales with the operator (C102_untested_violated), and with the library's call, for every tolerance, for diagonal matrices of a size that is not tested (21 by default) (C102_library_violated). Arithmetic is exact here: with rounding the norm is tiny instead of zero. The hypothesis on the filter is needed by C33_purged_violated."
  },
  {
   "property": "C103",
   "status": "partial",
   "theorems": [
    "Mfmg.C103_lower_partial",
    "Mfmg.C103_exact_partial",
    "Mfmg.C103_multiple_violated",
    "Mfmg.C103_orthogonal_violated",
    "Mfmg.C103_distinct_violated"
   ],
   "note": "C103_lower_partial: value number i is never below the distinct eigenvalue number i, and a converged value is within the tolerance of an eigenvalue. C103_exact_partial: after a zero remainder, with a start vector that has a component for each eigenvalue and nothing filtered, the values are the smallest distinct eigenvalues. Missing, because false: the count with multiplicity. For every matrix with a multiple eigenvalue among the requested ones, every start vector and every tolerance, a call without deflation returns a too large value (C103_multiple_violated), some eigenvector of the multiple eigenvalue is orthogonal to everything returned (C103_orthogonal_violated), and a call for more eigenvectors than there are distinct eigenvalues does not return (C103_distinct_violated). Arithmetic is exact here: with rounding a second copy may appear after many iterations."
  },
  {
   "property": "C104",
   "status": "partial",
   "theorems": [
    "Mfmg.C104_safe_iff",
    "Mfmg.C104_one_at_a_time_partial",
    "Mfmg.C104_two_solvers_violated",
    "Mfmg.C104_kept_solver_violated",
    "Mfmg.C104_counted"
   ],
   "note": "C104_safe_iff says exactly which programs run: those in which no AMGX solver is applied or destroyed after the destruction of another one during its life. C104_one_at_a_time_partial: AMGX solvers one after the other, next to any other solvers. Missing, because false: two AMGX solvers at the same time. Every destructor finalises the library, so destroying both is undefined in any order (C104_two_solvers_violated), and so is applying the one that is kept (C104_kept_solver_violated), even if the library has been initialised again. C104_counted: all programs run if initialisations are counted. That no AMGX call may follow AMGX_finalize is the library's documented rule."
  },
  {
   "property": "C105",
   "status": "partial",
   "theorems": [
    "Mfmg.C105_first_processes_partial",
    "Mfmg.C105_one_process",
    "Mfmg.C105_other_communicators_violated",
    "Mfmg.C105_iff"
   ],
   "note": "C105_first_processes_partial: the lists fit on the first processes of the world in their order; C105_one_process: on any single process. Missing, because false: every other communicator. C105_iff: with at least two processes the lists fit for all matrices exactly if the ranks in the communicator are the ranks in the world, because the patterns are gathered over MPI_COMM_WORLD but read by the ranks of the communicator (C105_other_communicators_violated gives the matrix, a diagonal one)."
  },
  {
   "property": "C106",
   "status": "partial",
   "theorems": [
    "Mfmg.C106_exact_cycle",
    "Mfmg.C106_upper_partial",
    "Mfmg.C106_lower_partial",
    "Mfmg.C106_exact_partial",
    "Mfmg.C106_many_per_cycle_violated",
    "Mfmg.C106_many_cycles_violated"
   ],
   "note": "C106_upper_partial bounds the values from above by the eigenvalues counted with multiplicity, for any number of eigenvectors per cycle and every run in which no cycle returns a value number j that is by more than delta above eigenvalue number j on the complement of the vectors found before (the vectors found may be inexact); C106_lower_partial bounds them from below, up to (n-1) times the tolerance, if the cycles converged; C106_exact_cycle and C106_exact_partial say that an exact cycle misses an eigenvalue only if its start vector is orthogonal to all eigenvectors for it or, from the second value of a cycle on, if the eigenvalue is multiple. Missing: the code does not make sure that a cycle finds the smallest values on the complement. The full claim is false: more eigenvectors per cycle than distinct eigenvalues (C106_many_per_cycle_violated) and cycles that together ask for more eigenvectors than dofs (C106_many_cycles_violated) never return normally."
  },
  {
   "property": "C107",
   "status": "partial",
   "theorems": [
    "Mfmg.C107_number_partial",
    "Mfmg.C107_solved_violated",
    "Mfmg.C107_one_level_violated",
    "Mfmg.C107_bound_partial",
    "Mfmg.C107_above_one_violated"
   ],
   "note": "C107_number_partial: if the 19th approximation does not solve the system yet, the factor of the last cycle is printed, for every linear standalone hierarchy of two or more levels. C107_bound_partial: it is at most sqrt(q hi / lo) for eigenvalues between lo and hi and an energy factor q per cycle. The full claim is false: NaN is printed as soon as an approximation (or the start vector) solves the system (C107_solved_violated), always for one level with an exact coarse solver (C107_one_level_violated), and a number above 3/2 for cycles that multiply the energy of every error at most by 16/81 (C107_above_one_violated)."
  },
  {
   "property": "C108",
   "status": "partial",
   "theorems": [
    "Mfmg.C108_shown_partial",
    "Mfmg.C108_block_violated",
    "Mfmg.C108_partitioner_violated"
   ],
   "note": "C108_shown_partial: for ranks and agglomerate numbers up to 2^24 the files have the owned cells with their numbers and tell all agglomerates of all processes apart. The full claim is false: the numbers go through float, and whenever the block partitioner or a graph partitioner makes more than 2^24 agglomerates on a process two different ones are shown as the same (C108_block_violated, C108_partitioner_violated)."
  },
  {
   "property": "C109",
   "status": "partial",
   "theorems": [
    "Mfmg.C109_matrix",
    "Mfmg.C109_matrix_free_current",
    "Mfmg.C109_matrix_free_partial",
    "Mfmg.C109_matrix_free_violated",
    "Mfmg.C109_scaled_violated"
   ],
   "note": "Matrix-based hierarchies keep their answers whatever happens (C109_matrix). Matrix-free ones do as long as the matrix is not changed (C109_matrix_free_partial), but they call the evaluator again in every application: after a change they converge to the solution of the current problem if its energy on the coarse space is at most twice the old one and its eigenvalues are in the reach of the old estimates (C109_matrix_free_current), so they leave the solution of the problem they were built for (C109_matrix_free_violated). Nor do they solve the current problem in general: coarse matrix, inverse diagonal and eigenvalue estimates stay, and after a multiplication of the matrix by a large number cycles do not decrease errors in the coarse space (C109_scaled_violated)."
  },
  {
   "property": "C110",
   "status": "partial",
   "theorems": [
    "Mfmg.C110_blocks",
    "Mfmg.C110_prescribed_partial",
    "Mfmg.C110_chebyshev_blocks",
    "Mfmg.C110_chebyshev_violated",
    "Mfmg.C110_lanczos",
    "Mfmg.C110_restriction_partial",
    "Mfmg.C110_unsmoothed_violated"
   ],
   "note": "Unknowns that are not coupled do not influence each other, with every smoother (C110_blocks, C110_chebyshev_blocks). With relaxation or incomplete factorisation and at least one smoothing step every cycle satisfies the equation of a constrained dof, whatever the restriction matrix (C110_prescribed_partial); missing: no smoothing steps, where it is false: the matrix-based local eigenproblem gives constrained dofs the eigenvalue 200 after a shift by the mean of the diagonal, which can be that of other dofs; an eigenvector may then not vanish there and the coarse correction destroys a prescribed value (C110_unsmoothed_violated). Chebyshev smoothing of the default degree does not satisfy the equation unless the centre of its interval is 1 (C110_chebyshev_violated). Vectors of the own Lanczos solver vanish on constrained dofs whatever dstev returns (C110_lanczos); rows of the restriction matrix do unless the eigenvalue is the one of the constrained dofs (C110_restriction_partial; missing: that case)."
  },
  {
   "property": "C111",
   "status": "partial",
   "theorems": [
    "Mfmg.C111_residual",
    "Mfmg.C111_cycle",
    "Mfmg.C111_tolerance_partial",
    "Mfmg.C111_tolerance_violated"
   ],
   "note": "The fast_ap branch builds A R^T plus the residuals of the pairs, exact or not (C111_residual). A coarse matrix with at least half the energy of the problem on the coarse space, symmetric or not, gives cycles that decrease the energy (C111_cycle). Residuals below a bound formed from the smallest eigenvalues of problem and coarse matrix, the overlap and the number of eigenvectors guarantee this (C111_tolerance_partial). Missing: a tolerance independent of the problem. There is none: for every tolerance and number of Jacobi steps there is a symmetric positive definite problem with Ritz pairs within the tolerance whose error every cycle multiplies by at least 6, whereas the exact product gives the solution after one cycle (C111_tolerance_violated). Two levels, one process."
  },
  {
   "property": "C112",
   "status": "partial",
   "theorems": [
    "Mfmg.C112_direct",
    "Mfmg.C112_neumann_violated",
    "Mfmg.C112_cycle_partial"
   ],
   "note": "With the direct coarse solver and a symmetric positive semidefinite matrix construction succeeds exactly if the prolongation maps no nonzero coarse vector into the kernel, and otherwise ends with the exception of the factorisation (C112_direct). The code violates the property: if all cell matrices annihilate a nonzero vector, the restrictor is computed but the constructor always fails, on any number of processes (C112_neumann_violated). Proved part: with a coarse solver that solves every solvable coarse system, construction succeeds and standalone cycles with Gauss-Seidel strictly decrease the energy of the error until the right-hand side is attained (C112_cycle_partial). Missing: the direct solver. Two levels; exact arithmetic, where the factorisation notices every singular matrix."
  },
  {
   "property": "C113",
   "status": "partial",
   "theorems": [
    "Mfmg.C113_work_partial",
    "Mfmg.C113_memory",
    "Mfmg.C113_linear",
    "Mfmg.C113_setup",
    "Mfmg.C113_reported_violated"
   ],
   "note": "C113_work_partial gives the exact cost of an application for any cost of products, vector operations and the coarse solve; C113_memory bounds the vectors of a level alive at any moment by 7; C113_linear derives the bound proportional to the unknowns; C113_setup bounds the unknowns and entries of the coarse level on any number of processes. Missing, because the code violates it: the complexities reported by the hierarchy are 0 for every hierarchy, the computation is commented out (C113_reported_violated)."
  },
  {
   "property": "C114",
   "status": "partial",
   "theorems": [
    "Mfmg.C114_rate_partial",
    "Mfmg.C114_preconditioner_partial",
    "Mfmg.C114_steps",
    "Mfmg.C114_setup",
    "Mfmg.C114_gaussSeidel_violated",
    "Mfmg.C114_single_violated"
   ],
   "note": "C114_rate_partial and C114_preconditioner_partial: symmetric Gauss-Seidel or Jacobi, any number of processes; C114_steps: more smoothing steps with (symmetric) Gauss-Seidel on one process; C114_setup: more eigenvectors on the agglomerates give a larger coarse space. Missing, because the code violates it: with Gauss-Seidel there is an operator for which one coarse vector makes every cycle exact and two do not (C114_gaussSeidel_violated); even with symmetric Gauss-Seidel a single cycle can be worse with the larger space (C114_single_violated)."
  },
  {
   "property": "C115",
   "status": "partial",
   "theorems": [
    "Mfmg.C115_close_partial",
    "Mfmg.C115_rate_partial",
    "Mfmg.C115_decreases",
    "Mfmg.C115_residual_violated"
   ],
   "note": "C115_close_partial, C115_rate_partial and C115_decreases: any number of levels, (symmetric) Gauss-Seidel on one process, accuracy in the energy norm. Missing, because the code violates it: the case that only the residual of the coarse problem is known to be small (C115_residual_violated); for every tolerance and every factor there is a problem and a solver meeting the tolerance for which a cycle multiplies the error by the factor."
  },
  {
   "property": "C116",
   "status": "partial",
   "theorems": [
    "Mfmg.C116_rows_partial",
    "Mfmg.C116_coarse_partial",
    "Mfmg.C116_couples",
    "Mfmg.C116_guess_violated"
   ],
   "note": "C116_rows_partial and C116_coarse_partial: any number of processes, all partitioners and eigensolvers without start vectors from other agglomerates, the same number of vectors per patch before and after (otherwise later rows are renumbered). Missing, because the code violates it: anasazi with use_initial_guess (C116_guess_violated). C116_couples: the couplings of the coarse matrix."
  },
  {
   "property": "C117",
   "status": "partial",
   "theorems": [
    "Mfmg.C117_rows_partial",
    "Mfmg.C117_pattern_partial",
    "Mfmg.C117_rows_violated",
    "Mfmg.C117_count_violated",
    "Mfmg.C117_offset",
    "Mfmg.C117_csr_partial",
    "Mfmg.C117_entries_violated",
    "Mfmg.C117_rectangular_partial",
    "Mfmg.C117_columns_violated",
    "Mfmg.C117_round_trip_partial"
   ],
   "note": "Partial because the code violates the claim for numbers that do not fit (C117_rows_violated, C117_count_violated, C117_entries_violated, C117_columns_violated; C117_rectangular_partial is an equivalence). The square case of convert_matrix for deal.II matrices is left out: it is undefined for all sizes (C44)."
  },
  {
   "property": "C118",
   "status": "partial",
   "theorems": [
    "Mfmg.C118_patches_partial",
    "Mfmg.C118_scan_violated",
    "Mfmg.C118_block_violated",
    "Mfmg.C118_advance_violated",
    "Mfmg.C118_debug_violated",
    "Mfmg.C118_block_steps"
   ],
   "note": "C118_block_steps and C118_patches_partial: forming agglomerates and the sizes of the local problems are linear. Missing, because the code violates it: finding the patches (C118_scan_violated for any agglomeration, C118_block_violated for blocks), patches of fast_ap (C118_advance_violated), the debug check (C118_debug_violated). Steps inside deal.II and the eigensolvers are not counted."
  },
  {
   "property": "C119",
   "status": "partial",
   "theorems": [
    "Mfmg.C119_symmetric_partial",
    "Mfmg.C119_stieltjes_partial",
    "Mfmg.C119_cycle_violated",
    "Mfmg.C119_forward_violated",
    "Mfmg.C119_steps_partial"
   ],
   "note": "C119_symmetric_partial and C119_stieltjes_partial: every linear, symmetric, nonnegative coarse solver; C119_steps_partial: the number of steps. Missing, because the code violates it: coarse solvers that are not symmetric (C119_cycle_violated, C119_forward_violated). ML itself is not modelled; the coarse solver is a parameter."
  },
  {
   "property": "C120",
   "status": "partial",
   "theorems": [
    "Mfmg.C120_solvable",
    "Mfmg.C120_correction",
    "Mfmg.C120_converges_partial",
    "Mfmg.C120_violated"
   ],
   "note": "C120_solvable: any number of levels and processes, all relaxation smoothers. C120_correction: two levels. C120_converges_partial: two levels, with the factors of smoother and skewness. Missing, because the code violates it: convergence for every positive matrix (C120_violated)."
  },
  {
   "property": "C121",
   "status": "partial",
   "theorems": [
    "Mfmg.C121_two_levels_partial",
    "Mfmg.C121_scaling",
    "Mfmg.C121_setup",
    "Mfmg.C121_levels_violated"
   ],
   "note": "C121_setup: any number of processes, any change of the basis. C121_two_levels_partial: two levels, any change of the basis, all relaxation smoothers. C121_scaling: any number of levels, signs and lengths, all four smoothers. Missing, because the code violates it: any change of the basis with more than two levels (C121_levels_violated)."
  },
  {
   "property": "C122",
   "status": "partial",
   "theorems": [
    "Mfmg.C122_parts_partial",
    "Mfmg.C122_mixed_violated"
   ],
   "note": "C122_parts_partial: any number of levels and processes, all four smoothers, parts not coupled by the restriction matrices. Missing, because the code violates it: agglomerates that extend over several parts (C122_mixed_violated)."
  },
  {
   "property": "C123",
   "status": "partial",
   "theorems": [
    "Mfmg.C123_matrix_free_partial",
    "Mfmg.C123_matrix_free_bounds_partial",
    "Mfmg.C123_cycles_partial",
    "Mfmg.C123_bounds_partial",
    "Mfmg.C123_gauss_seidel_violated"
   ],
   "note": "C123_cycles_partial: symmetric Gauss-Seidel and Jacobi, any number of levels, steps and processes, without assuming that the smoother converges. C123_bounds_partial: the upper bounds, with symmetric Gauss-Seidel and weakly coupled processes. C123_matrix_free_partial: matrix-free, Chebyshev smoothing, two levels, without a condition on the eigenvalues; C123_matrix_free_bounds_partial: its upper bounds, with the condition of C78. Missing, because the code violates it: Gauss-Seidel in one direction (C123_gauss_seidel_violated)."
  },
  {
   "property": "C124",
   "status": "partial",
   "theorems": [
    "Mfmg.C124_matrix_partial",
    "Mfmg.C124_vector_partial",
    "Mfmg.C124_release_violated",
    "Mfmg.C124_dealii_partial",
    "Mfmg.C124_small_violated"
   ],
   "note": "C124_matrix_partial, C124_vector_partial: debug builds, or successful writers. C124_dealii_partial: no entries that are small but not zero. Missing, because the code violates it: release builds with failing writers (C124_release_violated) and deal.II matrices with small entries (C124_small_violated, for every matrix). The drop tolerance is deal.II's default argument, from memory of deal.II, whose source is not available here (DESIGN.md, assumptions)."
  },
  {
   "property": "C125",
   "status": "partial",
   "theorems": [
    "Mfmg.C125_gain",
    "Mfmg.C125_both_sides",
    "Mfmg.C125_corrections_partial",
    "Mfmg.C125_corrections_violated",
    "Mfmg.C125_upper_violated",
    "Mfmg.C125_matrix_free_partial"
   ],
   "note": "C125_gain: one process, Gauss-Seidel in one or both directions, any number of levels. C125_both_sides: in addition the approximation property of C84. C125_corrections_partial: symmetric Gauss-Seidel and Jacobi, any number of processes. C125_matrix_free_partial: matrix-free, Chebyshev smoothing, two levels, without a condition on the eigenvalues. Missing, because the code violates it: Gauss-Seidel in one direction (C125_corrections_violated) and a bound from above by the corrections alone (C125_upper_violated, for every factor)."
  },
  {
   "property": "C126",
   "status": "partial",
   "theorems": [
    "Mfmg.C126_prolongation",
    "Mfmg.C126_share_partial",
    "Mfmg.C126_levels_partial",
    "Mfmg.C126_levels_share_partial",
    "Mfmg.C126_below_violated"
   ],
   "note": "C126_prolongation: the assembled restriction matrix and the coarse matrix made with it, from above. C126_share_partial: from below, up to the share of the own dofs. C126_levels_partial, C126_levels_share_partial: the same on all levels. Missing, because the code violates it: bounds from below without such a share (C126_below_violated, for every factor). Exact arithmetic; that the eigensolvers return orthonormal vectors is a hypothesis (C26, C98)."
  },
  {
   "property": "C127",
   "status": "partial",
   "theorems": [
    "Mfmg.C127_chebyshev_partial",
    "Mfmg.C127_error_partial",
    "Mfmg.C127_units_violated"
   ],
   "note": "C127_error_partial: symmetric Gauss-Seidel with the hypotheses of C92, absolute errors. C127_chebyshev_partial: matrix-free with the hypotheses of C92_chebyshev_partial. Missing, because the code violates it: errors relative to the solution (C127_units_violated, for all problems in small enough units). deal.II's solver is modelled from its documentation (C92)."
  }
 ]
}