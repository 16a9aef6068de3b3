{
 "claims": [
  {
   "property": "C01",
   "status": "proved",
   "theorems": [
    "Macis.C01_ffs_lowest",
    "Macis.C01_fls_highest"
   ],
   "note": ""
  },
  {
   "property": "C02",
   "status": "proved",
   "theorems": [
    "Macis.C02_bits_to_indices_exact",
    "Macis.C02_bits_to_indices_injective",
    "Macis.C02_rebuild"
   ],
   "note": ""
  },
  {
   "property": "C03",
   "status": "proved",
   "theorems": [
    "Macis.C03_full_mask_exact",
    "Macis.C03_full_mask_static_exact",
    "Macis.C03_truncate_expand",
    "Macis.C03_expand_truncate",
    "Macis.C03_halves"
   ],
   "note": ""
  },
  {
   "property": "C04",
   "status": "proved",
   "theorems": [
    "Macis.C04_bitset_less_numeric",
    "Macis.C04_bitset_less_strict_total"
   ],
   "note": ""
  },
  {
   "property": "C05",
   "status": "proved",
   "theorems": [
    "Macis.C05_occ_vir_partition",
    "Macis.C05_occ_vir_as_partition",
    "Macis.C05_unsupported_loses_virtual"
   ],
   "note": ""
  },
  {
   "property": "C06",
   "status": "proved",
   "theorems": [
    "Macis.C06_canonical_hf",
    "Macis.C06_canonical_hf_energies"
   ],
   "note": ""
  },
  {
   "property": "C07",
   "status": "proved",
   "theorems": [
    "Macis.C07_singles_exact",
    "Macis.C07_singles_as_exact"
   ],
   "note": ""
  },
  {
   "property": "C08",
   "status": "proved",
   "theorems": [
    "Macis.C08_doubles_exact",
    "Macis.C08_doubles_as_exact"
   ],
   "note": ""
  },
  {
   "property": "C09",
   "status": "proved",
   "theorems": [
    "Macis.C09_cisd_exact"
   ],
   "note": ""
  },
  {
   "property": "C10",
   "status": "proved",
   "theorems": [
    "Macis.C10_combs_exact",
    "Macis.C10_combs_loop_stops",
    "Macis.C10_hilbert_space_exact"
   ],
   "note": ""
  },
  {
   "property": "C11",
   "status": "proved",
   "theorems": [
    "Macis.C11_single_sign_parity",
    "Macis.C11_single_sign_operator",
    "Macis.C11_single_indices",
    "Macis.C11_double_indices"
   ],
   "note": ""
  },
  {
   "property": "C12",
   "status": "proved",
   "theorems": [
    "Macis.C12_parse_meaning",
    "Macis.C12_string_meaning",
    "Macis.C12_string_round_trip",
    "Macis.C12_long_string_aliases",
    "Macis.C12_too_long_throws"
   ],
   "note": ""
  },
  {
   "property": "C13",
   "status": "proved",
   "theorems": [
    "Macis.C13_slater_condon",
    "Macis.C13_needs_pair_symmetry"
   ],
   "note": ""
  },
  {
   "property": "C14",
   "status": "proved",
   "theorems": [
    "Macis.C14_symmetric",
    "Macis.C14_not_symmetric_across_sectors"
   ],
   "note": ""
  },
  {
   "property": "C15",
   "status": "proved",
   "theorems": [
    "Macis.C15_zero_beyond_doubles",
    "Macis.C15_more_than_two_moved"
   ],
   "note": ""
  },
  {
   "property": "C16",
   "status": "proved",
   "theorems": [
    "Macis.C16_orbital_energies",
    "Macis.C16_single_alpha",
    "Macis.C16_single_beta",
    "Macis.C16_double_alpha",
    "Macis.C16_double_beta",
    "Macis.C16_double_opposite"
   ],
   "note": ""
  },
  {
   "property": "C17",
   "status": "proved",
   "theorems": [
    "Macis.C17_csr_block",
    "Macis.C17_csr_block_hamiltonian"
   ],
   "note": ""
  },
  {
   "property": "C18",
   "status": "proved",
   "theorems": [
    "Macis.C18_distributed_hamiltonian"
   ],
   "note": ""
  },
  {
   "property": "C19",
   "status": "proved",
   "theorems": [
    "Macis.C19_one_rdm",
    "Macis.C19_two_rdm",
    "Macis.C19_energy",
    "Macis.C19_energy_no_drop"
   ],
   "note": ""
  },
  {
   "property": "C20",
   "status": "proved",
   "theorems": [
    "Macis.C20_trace"
   ],
   "note": ""
  },
  {
   "property": "C21",
   "status": "proved",
   "theorems": [
    "Macis.C21_singles_exact",
    "Macis.C21_doubles_exact",
    "Macis.C21_satisfies_test",
    "Macis.C21_triplet_is_constraint",
    "Macis.C21_refinement_is_constraint"
   ],
   "note": ""
  },
  {
   "property": "C22",
   "status": "proved",
   "theorems": [
    "Macis.C22_counts",
    "Macis.C22_work_zero_iff"
   ],
   "note": ""
  },
  {
   "property": "C23",
   "status": "proved",
   "theorems": [
    "Macis.C23_triplets_partition"
   ],
   "note": ""
  },
  {
   "property": "C24",
   "status": "proved",
   "theorems": [
    "Macis.C24_split_partitions",
    "Macis.C24_distribution_covers"
   ],
   "note": ""
  },
  {
   "property": "C25",
   "status": "proved",
   "theorems": [
    "Macis.C25_one_owner",
    "Macis.C25_greedy",
    "Macis.C25_balanced"
   ],
   "note": ""
  },
  {
   "property": "C26",
   "status": "proved",
   "theorems": [
    "Macis.C26_accumulate"
   ],
   "note": ""
  },
  {
   "property": "C27",
   "status": "proved",
   "theorems": [
    "Macis.C27_keep_largest_copy",
    "Macis.C27_reorder_ci"
   ],
   "note": ""
  },
  {
   "property": "C28",
   "status": "proved",
   "theorems": [
    "Macis.C28_search",
    "Macis.C28_all_when_few"
   ],
   "note": ""
  },
  {
   "property": "C29",
   "status": "proved",
   "theorems": [
    "Macis.C29_distributed"
   ],
   "note": ""
  },
  {
   "property": "C30",
   "status": "proved",
   "theorems": [
    "Macis.C30_quickselect",
    "Macis.C30_kth_unique"
   ],
   "note": ""
  },
  {
   "property": "C31",
   "status": "proved",
   "theorems": [
    "Macis.C31_grow",
    "Macis.C31_no_growth_needed"
   ],
   "note": ""
  },
  {
   "property": "C32",
   "status": "proved",
   "theorems": [
    "Macis.C32_refine",
    "Macis.C32_no_iterations"
   ],
   "note": ""
  },
  {
   "property": "C33",
   "status": "proved",
   "theorems": [
    "Macis.C33_serial_guess",
    "Macis.C33_distributed_guess"
   ],
   "note": ""
  },
  {
   "property": "C34",
   "status": "proved",
   "theorems": [
    "Macis.C34_rounded",
    "Macis.C34_round_trip",
    "Macis.C34_file_contents",
    "Macis.C34_size_checks",
    "Macis.C34_read_lengths"
   ],
   "note": ""
  },
  {
   "property": "C35",
   "status": "proved",
   "theorems": [
    "Macis.C35_round_trip",
    "Macis.C35_all_lines_written"
   ],
   "note": ""
  },
  {
   "property": "C36",
   "status": "proved",
   "theorems": [
    "Macis.C36_line",
    "Macis.C36_classification",
    "Macis.C36_norb",
    "Macis.C36_core",
    "Macis.C36_one_body",
    "Macis.C36_one_body_symmetric",
    "Macis.C36_two_body",
    "Macis.C36_two_body_symmetric",
    "Macis.C36_dimension_checks",
    "Macis.C36_negative_index_rejected"
   ],
   "note": ""
  },
  {
   "property": "C37",
   "status": "proved",
   "theorems": [
    "Macis.C37_round_trip",
    "Macis.C37_mismatch_throws",
    "Macis.C37_header"
   ],
   "note": ""
  },
  {
   "property": "C38",
   "status": "proved",
   "theorems": [
    "Macis.C38_two_index",
    "Macis.C38_four_index"
   ],
   "note": ""
  },
  {
   "property": "C39",
   "status": "proved",
   "theorems": [
    "Macis.C39_generalized_fock",
    "Macis.C39_energy_split",
    "Macis.C39_energy_from_fock"
   ],
   "note": ""
  },
  {
   "property": "C40",
   "status": "proved",
   "theorems": [
    "Macis.C40_unpack",
    "Macis.C40_antisymmetric",
    "Macis.C40_round_trip",
    "Macis.C40_positions",
    "Macis.C40_gradients_agree"
   ],
   "note": ""
  },
  {
   "property": "C41",
   "status": "proved",
   "theorems": [
    "Macis.C41_window"
   ],
   "note": ""
  },
  {
   "property": "C42",
   "status": "proved",
   "theorems": [
    "Macis.C42_default_partition",
    "Macis.C42_local_rows",
    "Macis.C42_custom_tiles"
   ],
   "note": ""
  },
  {
   "property": "C43",
   "status": "proved",
   "theorems": [
    "Macis.C43_csc_to_csr",
    "Macis.C43_csc_to_csr_sorted",
    "Macis.C43_csr_to_coo"
   ],
   "note": ""
  },
  {
   "property": "C44",
   "status": "proved",
   "theorems": [
    "Macis.C44_csr_spmv",
    "Macis.C44_csr_spmv_serial"
   ],
   "note": ""
  },
  {
   "property": "C45",
   "status": "proved",
   "theorems": [
    "Macis.C45_distributed_spmv",
    "Macis.C45_distributed_hamiltonian_product"
   ],
   "note": ""
  },
  {
   "property": "C46",
   "status": "proved",
   "theorems": [
    "Macis.C46_submatrix",
    "Macis.C46_inclrow_exclcol",
    "Macis.C46_parts_restore_rows",
    "Macis.C46_needs_sorted_rows"
   ],
   "note": ""
  },
  {
   "property": "C47",
   "status": "proved",
   "theorems": [
    "Macis.C47_upper_triangle",
    "Macis.C47_diagonal",
    "Macis.C47_trace",
    "Macis.C47_needs_sorted_rows"
   ],
   "note": ""
  },
  {
   "property": "C48",
   "status": "proved",
   "theorems": [
    "Macis.C48_invert_perm",
    "Macis.C48_permute_vector",
    "Macis.C48_permute_rows",
    "Macis.C48_permute_rows_cols",
    "Macis.C48_permute_cols",
    "Macis.C48_perm_from_part"
   ],
   "note": ""
  },
  {
   "property": "C49",
   "status": "proved",
   "theorems": [
    "Macis.C49_round_trip",
    "Macis.C49_lines",
    "Macis.C49_symmetric_refused"
   ],
   "note": ""
  },
  {
   "property": "C50",
   "status": "proved",
   "theorems": [
    "Macis.C50_gram_schmidt",
    "Macis.C50_gram_schmidt_breakdown",
    "Macis.C50_davidson",
    "Macis.C50_complete",
    "Macis.C50_two_levels"
   ],
   "note": ""
  },
  {
   "property": "C51",
   "status": "proved",
   "theorems": [
    "Macis.C51_residues_exact"
   ],
   "note": ""
  },
  {
   "property": "C52",
   "status": "partial",
   "theorems": [
    "Macis.C52_copy_default_partial",
    "Macis.C52_copy_loses_tiles_refuted",
    "Macis.C52_copy_iff"
   ],
   "note": "Full statement: copying a distributed matrix preserves its distribution. False for user-supplied tiles (C52_copy_loses_tiles_refuted); proved for the default distribution. C52_copy_iff: preserved exactly when the tiles are the default ones."
  },
  {
   "property": "C53",
   "status": "partial",
   "theorems": [
    "Macis.C53_far_sectors_partial",
    "Macis.C53_sector_coupling_refuted",
    "Macis.C53_fallthrough"
   ],
   "note": "Full statement: <I|H|J> = 0 whenever I, J lie in different particle-number/spin sectors. False of the code: unequal counts with a small total difference fall through to the diagonal routine (refuted + exact fall-through value); proved for pairs further apart than four bits."
  },
  {
   "property": "C54",
   "status": "partial",
   "theorems": [
    "Macis.C54_ffs_empty_le64_partial",
    "Macis.C54_ffs_empty_refuted",
    "Macis.C54_fls_empty_undefined"
   ],
   "note": "Full statement: ffs/fls of the empty bitset report 'none'. False for widths above 64 bits (ffs) and undefined for fls; proved for widths up to 64."
  },
  {
   "property": "C55",
   "status": "partial",
   "theorems": [
    "Macis.C55_any_base",
    "Macis.C55_coo_spmv_partial",
    "Macis.C55_coo_index_base_refuted"
   ],
   "note": "Full statement: COO spmv is the matrix-vector product for every index base. False for one-based matrices (refuted); proved for zero-based. C55_any_base gives the result for every index base."
  },
  {
   "property": "C56",
   "status": "proved",
   "theorems": [
    "Macis.C56_csr_to_dense",
    "Macis.C56_csr_to_dense_zeroed"
   ],
   "note": ""
  },
  {
   "property": "C57",
   "status": "proved",
   "theorems": [
    "Macis.C57_sort_same_matrix",
    "Macis.C57_sort_by_row",
    "Macis.C57_sort_by_col"
   ],
   "note": ""
  },
  {
   "property": "C58",
   "status": "partial",
   "theorems": [
    "Macis.C58_coo_to_csr_partial",
    "Macis.C58_coo_to_csr_rejects_unsorted",
    "Macis.C58_coo_to_csr_empty_row_refuted",
    "Macis.C58_coo_to_csr_last_row_refuted",
    "Macis.C58_coo_to_csc_partial",
    "Macis.C58_coo_to_csc_tall_refuted",
    "Macis.C58_coo_to_csc_wide_refuted"
   ],
   "note": "Full statement: COO->CSR and COO->CSC preserve every sorted matrix. False with empty rows or non-square shapes (four witnesses); proved when every row (column) after the first has an entry, CSC also square; unsorted input is rejected."
  },
  {
   "property": "C59",
   "status": "partial",
   "theorems": [
    "Macis.C59_any_base",
    "Macis.C59_coo_to_dense_partial",
    "Macis.C59_coo_to_dense_index_base_refuted"
   ],
   "note": "Full statement: COO->dense is exact for every index base. False for one-based matrices; proved for zero-based. C59_any_base gives the result for every index base."
  },
  {
   "property": "C60",
   "status": "partial",
   "theorems": [
    "Macis.C60_throws_iff",
    "Macis.C60_expand_unchanged",
    "Macis.C60_expand_partial",
    "Macis.C60_expand_missing_diagonal_refuted"
   ],
   "note": "Full statement: expand_from_triangle rebuilds the symmetric matrix. False in the recorded entry count when diagonal entries are missing, and it throws for very sparse triangles; proved: the arrays denote the symmetric matrix for triangles with at least n/2 entries, count right iff n diagonal entries. C60_throws_iff: it throws exactly for non-diagonal triangles storing fewer than n/2 entries."
  },
  {
   "property": "C61",
   "status": "proved",
   "theorems": [
    "Macis.C61_distribute_serial",
    "Macis.C61_distribute_serial_tiled",
    "Macis.C61_distributed_product"
   ],
   "note": ""
  },
  {
   "property": "C62",
   "status": "partial",
   "theorems": [
    "Macis.C62_two_rdm_partial",
    "Macis.C62_exchange_elements_refuted",
    "Macis.C62_exchange_elements"
   ],
   "note": "Full statement: every element of the 2-RDM array equals the textbook value. False for (p,q,p,q) and (p,q,q,p) with p != q (refuted); proved for every other element. C62_exchange_elements gives the remaining elements exactly, so every element is determined."
  },
  {
   "property": "C63",
   "status": "partial",
   "theorems": [
    "Macis.C63_ordm_only_partial",
    "Macis.C63_ordm_only_refuted",
    "Macis.C63_ordm_only_value"
   ],
   "note": "Full statement: the 1-RDM is the same when no 2-RDM is requested. False for expansions containing double excitations (refuted); proved when no two determinants differ by a double excitation. C63_ordm_only_value gives every element for every expansion."
  },
  {
   "property": "C64",
   "status": "partial",
   "theorems": [
    "Macis.C64_doubles_ignore_old_partial",
    "Macis.C64_singles_ignore_old_partial",
    "Macis.C64_singles_keep_stale_refuted",
    "Macis.C64_singles_exact"
   ],
   "note": "Full statement: output does not depend on previous container content. False for the early exit of generate_constraint_singles (refuted); proved otherwise. C64_singles_exact gives the content for every previous content."
  },
  {
   "property": "C65",
   "status": "partial",
   "theorems": [
    "Macis.C65_coverage_partial",
    "Macis.C65_two_electrons_refuted",
    "Macis.C65_three_electrons_split_refuted",
    "Macis.C65_many_orbitals_refuted"
   ],
   "note": "Full statement: every determinant is covered by some rank's constraints. False for two alpha electrons, for a split triplet with three electrons, and beyond 66 orbitals (three witnesses); proved with at least 3 + nlevels electrons of the first spin and at most 66 orbitals."
  },
  {
   "property": "C66",
   "status": "partial",
   "theorems": [
    "Macis.C66_kept_are_good_partial",
    "Macis.C66_ties_refuted",
    "Macis.C66_few_candidates_refuted",
    "Macis.C66_defined_iff_partial",
    "Macis.C66_nothing_requested_partial",
    "Macis.C66_nothing_requested_refuted"
   ],
   "note": "Full statement: the distributed top-k equals the serial one including ties and few candidates. False for ties, for fewer candidates than requested and for nothing requested (witnesses); proved: the search goes through exactly when there are as many candidates as requested (at least one), every selected determinant then scores at least the k-th best score, and with nothing requested a search that goes through returns the core determinants."
  },
  {
   "property": "C67",
   "status": "partial",
   "theorems": [
    "Macis.C67_result_size_partial",
    "Macis.C67_factor_one_refuted",
    "Macis.C67_never_returns"
   ],
   "note": "Full statement: growth terminates for every factor. False for factor <= 1 (infinite loop, refuted); proved: size of the result whenever it returns. C67_never_returns: with factor one and ntdets_min < ntdets_max no run returns, whatever the Hamiltonian."
  },
  {
   "property": "C68",
   "status": "proved",
   "theorems": [
    "Macis.C68_iteration"
   ],
   "note": ""
  },
  {
   "property": "C69",
   "status": "partial",
   "theorems": [
    "Macis.C69_energy_consistent_partial",
    "Macis.C69_rotation_refuted",
    "Macis.C69_rotated"
   ],
   "note": "Full statement: the returned energy is that of the returned wave function in the returned orbitals. False when orbitals are rotated after the last diagonalisation; proved without rotation. C69_rotated: with rotations the energy is exactly that before the last rotation, the coefficients those after it."
  },
  {
   "property": "C70",
   "status": "proved",
   "theorems": [
    "Macis.C70_gather"
   ],
   "note": ""
  },
  {
   "property": "C71",
   "status": "partial",
   "theorems": [
    "Macis.C71_eigenvector_guess_partial",
    "Macis.C71_eigenvector_guess_refuted"
   ],
   "note": "Full statement: an exact eigenvector passed as guess is accepted. False: for every subspace limit and dimension of at least two the solver divides by zero (general refutation); proved: such a run never returns a wrong result."
  },
  {
   "property": "C72",
   "status": "proved",
   "theorems": [
    "Macis.C72_distributed_equals_serial"
   ],
   "note": ""
  },
  {
   "property": "C73",
   "status": "partial",
   "theorems": [
    "Macis.C73_at_most_one_partial",
    "Macis.C73_remainder_refuted",
    "Macis.C73_many_ranks_refuted",
    "Macis.C73_set_iff"
   ],
   "note": "Full statement: exactly one rank holds the unit entry for every size. False with remainder rows / more ranks than rows; proved: never more than one. C73_set_iff: some rank sets the entry exactly when there are at most as many ranks as rows and the row is not among the last N % P."
  },
  {
   "property": "C74",
   "status": "partial",
   "theorems": [
    "Macis.C74_fresh_vector_partial",
    "Macis.C74_ranks_disagree_refuted",
    "Macis.C74_choice"
   ],
   "note": "Full statement: all ranks take the same branch. False when only some ranks pass a vector of the right length; proved for fresh vectors. C74_choice says exactly when a rank keeps the passed vector."
  },
  {
   "property": "C75",
   "status": "partial",
   "theorems": [
    "Macis.C75_every_cut",
    "Macis.C75_cut_in_string",
    "Macis.C75_truncated_file_accepted_refuted",
    "Macis.C75_long_string_accepted_refuted"
   ],
   "note": "Full statement: damaged wavefunction files are detected. False. C75_every_cut gives what is read for every cut of a written file after its header, C75_cut_in_string what a cut inside a determinant string yields; witnesses for a short file and an over-long string."
  },
  {
   "property": "C76",
   "status": "partial",
   "theorems": [
    "Macis.C76_orbital_energy_line_refuted",
    "Macis.C76_integer_value_misread_refuted",
    "Macis.C76_header_throws_refuted"
   ],
   "note": "Full statement: FCIDUMP readers are safe on files other programs write. False (orbital-energy lines, integer-valued numbers, five-word headers); the positive part is C36."
  },
  {
   "property": "C77",
   "status": "partial",
   "theorems": [
    "Macis.C77_write_over_existing",
    "Macis.C77_second_write_refuted",
    "Macis.C77_append_refuted"
   ],
   "note": "Full statement: FCIDUMP files can be written repeatedly. False: a second call in a process throws; C77_write_over_existing gives exactly what is read back after writing over an existing file (old core energy, larger orbital count, mixed integrals)."
  },
  {
   "property": "C78",
   "status": "partial",
   "theorems": [
    "Macis.C78_any_length",
    "Macis.C78_truncated_rdm_file_refuted"
   ],
   "note": "Full statement: truncated RDM files are detected. False; C78_any_length gives what is read for every file length."
  },
  {
   "property": "C79",
   "status": "partial",
   "theorems": [
    "Macis.C79_value",
    "Macis.C79_source_iff",
    "Macis.C79_destination_iff",
    "Macis.C79_padded_source_refuted",
    "Macis.C79_padded_destination_refuted"
   ],
   "note": "Full statement: four_index_transform honours LDX, LDY. False for padded arrays. C79_value gives the result for all leading dimensions; C79_source_iff and C79_destination_iff show the claim holds exactly for unpadded arrays or at most one orbital."
  },
  {
   "property": "C80",
   "status": "proved",
   "theorems": [
    "Macis.C80_extrapolation_optimal"
   ],
   "note": ""
  },
  {
   "property": "C81",
   "status": "partial",
   "theorems": [
    "Macis.C81_zero_window_refuted"
   ],
   "note": "Full statement: a DIIS object with window zero holds nothing. False (front() of an empty vector); windows >= 1 are C41."
  },
  {
   "property": "C82",
   "status": "proved",
   "theorems": [
    "Macis.C82_energy_derivative",
    "Macis.C82_energy_derivative_start"
   ],
   "note": ""
  },
  {
   "property": "C83",
   "status": "proved",
   "theorems": [
    "Macis.C83_orthogonal",
    "Macis.C83_orthogonal_packed"
   ],
   "note": ""
  },
  {
   "property": "C84",
   "status": "proved",
   "theorems": [
    "Macis.C84_second_derivative"
   ],
   "note": ""
  },
  {
   "property": "C85",
   "status": "proved",
   "theorems": [
    "Macis.C85_symmetric_at_stationary"
   ],
   "note": ""
  },
  {
   "property": "C86",
   "status": "partial",
   "theorems": [
    "Macis.C86_asymmetry",
    "Macis.C86_asymmetry_gradient",
    "Macis.C86_not_symmetric_refuted"
   ],
   "note": "Full statement: the orbital Hessian contraction is symmetric everywhere. False off stationary points; C86_asymmetry gives the defect exactly in every state; stationary points are C85."
  },
  {
   "property": "C87",
   "status": "partial",
   "theorems": [
    "Macis.C87_padded_one_index_refuted",
    "Macis.C87_one_index_exact",
    "Macis.C87_one_index_partial"
   ],
   "note": "Full statement: the one-index transformation honours both leading dimensions. False when LDT differs from LDX; proved when they agree."
  },
  {
   "property": "C88",
   "status": "proved",
   "theorems": [
    "Macis.C88_energy"
   ],
   "note": ""
  },
  {
   "property": "C89",
   "status": "proved",
   "theorems": [
    "Macis.C89_iterations"
   ],
   "note": ""
  },
  {
   "property": "C90",
   "status": "proved",
   "theorems": [
    "Macis.C90_converged_stationary"
   ],
   "note": ""
  },
  {
   "property": "C91",
   "status": "proved",
   "theorems": [
    "Macis.C91_step"
   ],
   "note": ""
  },
  {
   "property": "C92",
   "status": "partial",
   "theorems": [
    "Macis.C92_slope",
    "Macis.C92_uphill_refuted"
   ],
   "note": "Full statement: every MCSCF step is downhill. False for indefinite approximate Hessians; C92_slope gives the exact slope and the necessary and sufficient condition; positive-definite ones are C91."
  },
  {
   "property": "C93",
   "status": "partial",
   "theorems": [
    "Macis.C93_initial_energy",
    "Macis.C93_padded_rdm_refuted"
   ],
   "note": "Full statement: MCSCF accepts padded RDM arrays. False; C93_initial_energy shows for every leading dimension that the unpadded reading is used; unpadded arrays are C88-C90."
  },
  {
   "property": "C94",
   "status": "partial",
   "theorems": [
    "Macis.C94_one_based_default",
    "Macis.C94_zero_based_empty",
    "Macis.C94_cut",
    "Macis.C94_zero_based_partial",
    "Macis.C94_one_based_default_refuted",
    "Macis.C94_zero_based_empty_refuted",
    "Macis.C94_truncated_refuted",
    "Macis.C94_csr_partial",
    "Macis.C94_csr_empty_row_refuted"
   ],
   "note": "Full statement: every write/read combination agrees. False for one-based default output, zero-based with empty first row/column, truncated files and CSR targets with empty rows; proved otherwise. C94_one_based_default, C94_zero_based_empty and C94_cut say exactly what is read in the failing cases."
  },
  {
   "property": "C95",
   "status": "proved",
   "theorems": [
    "Macis.C95_read_matrix_market",
    "Macis.C95_symmetric_not_square",
    "Macis.C95_bad_banner_rejected",
    "Macis.C95_bad_dimensions_rejected"
   ],
   "note": ""
  },
  {
   "property": "C96",
   "status": "proved",
   "theorems": [
    "Macis.C96_distributed_write",
    "Macis.C96_default_write"
   ],
   "note": ""
  },
  {
   "property": "C97",
   "status": "partial",
   "theorems": [
    "Macis.C97_triangle_mirrored",
    "Macis.C97_sparse_triangle_throws",
    "Macis.C97_triplet_round_trip_partial",
    "Macis.C97_csr_writer",
    "Macis.C97_triangle_refuted"
   ],
   "note": "Full statement: binary triplet files round-trip. False for triangular matrices (the reader mirrors them); proved otherwise. C97_triangle_mirrored and C97_sparse_triangle_throws say what happens to every triangle with a full diagonal and to very sparse ones."
  },
  {
   "property": "C98",
   "status": "proved",
   "theorems": [
    "Macis.C98_read_rb"
   ],
   "note": ""
  },
  {
   "property": "C99",
   "status": "partial",
   "theorems": [
    "Macis.C99_reads_triangle",
    "Macis.C99_symmetric_rb_refuted"
   ],
   "note": "Full statement: a symmetric RB file denotes the symmetric matrix. False (type ignored); general files are C98. C99_reads_triangle: for every file that stores the lower triangle, the matrix read is zero above the diagonal, hence symmetric only if diagonal."
  },
  {
   "property": "C100",
   "status": "proved",
   "theorems": [
    "Macis.C100_cis_exact",
    "Macis.C100_singles_spin_exact",
    "Macis.C100_singles_doubles_spin_exact",
    "Macis.C100_singles_doubles_spin_as_exact"
   ],
   "note": ""
  },
  {
   "property": "C101",
   "status": "proved",
   "theorems": [
    "Macis.C101_adjacency",
    "Macis.C101_undirected"
   ],
   "note": ""
  },
  {
   "property": "C102",
   "status": "proved",
   "theorems": [
    "Macis.C102_scores",
    "Macis.C102_perturbative_score",
    "Macis.C102_search"
   ],
   "note": ""
  },
  {
   "property": "C103",
   "status": "proved",
   "theorems": [
    "Macis.C103_distributed_scores",
    "Macis.C103_same_as_one_rank",
    "Macis.C103_search"
   ],
   "note": ""
  },
  {
   "property": "C104",
   "status": "proved",
   "theorems": [
    "Macis.C104_pruning"
   ],
   "note": ""
  },
  {
   "property": "C105",
   "status": "partial",
   "theorems": [
    "Macis.C105_same_scores_partial",
    "Macis.C105_screening_refuted",
    "Macis.C105_just_singles_refuted",
    "Macis.C105_pruning_refuted"
   ],
   "note": "Full statement: scores do not depend on the number of ranks. False (different screening, just_singles ignored, pruning); proved with screening and pruning off."
  },
  {
   "property": "C106",
   "status": "proved",
   "theorems": [
    "Macis.C106_plain_step",
    "Macis.C106_diis_step"
   ],
   "note": ""
  },
  {
   "property": "C107",
   "status": "proved",
   "theorems": [
    "Macis.C107_diag_hessian",
    "Macis.C107_noninteracting"
   ],
   "note": ""
  },
  {
   "property": "C108",
   "status": "proved",
   "theorems": [
    "Macis.C108_identity",
    "Macis.C108_updated_scaled",
    "Macis.C108_static_scaled",
    "Macis.C108_diagonal",
    "Macis.C108_runtime"
   ],
   "note": ""
  },
  {
   "property": "C109",
   "status": "proved",
   "theorems": [
    "Macis.C109_quasi_newton",
    "Macis.C109_needs_curvature"
   ],
   "note": ""
  },
  {
   "property": "C110",
   "status": "proved",
   "theorems": [
    "Macis.C110_backtracking",
    "Macis.C110_no_decrease_witness"
   ],
   "note": ""
  },
  {
   "property": "C111",
   "status": "proved",
   "theorems": [
    "Macis.C111_bfgs",
    "Macis.C111_default",
    "Macis.C111_start_not_tested"
   ],
   "note": ""
  },
  {
   "property": "C112",
   "status": "proved",
   "theorems": [
    "Macis.C112_strong_wolfe",
    "Macis.C112_zoom_below"
   ],
   "note": ""
  },
  {
   "property": "C113",
   "status": "proved",
   "theorems": [
    "Macis.C113_grid",
    "Macis.C113_can_increase"
   ],
   "note": ""
  },
  {
   "property": "C114",
   "status": "proved",
   "theorems": [
    "Macis.C114_orbital_energies"
   ],
   "note": ""
  },
  {
   "property": "C115",
   "status": "proved",
   "theorems": [
    "Macis.C115_amplitudes"
   ],
   "note": ""
  },
  {
   "property": "C116",
   "status": "proved",
   "theorems": [
    "Macis.C116_density",
    "Macis.C116_density_properties"
   ],
   "note": ""
  },
  {
   "property": "C117",
   "status": "partial",
   "theorems": [
    "Macis.C117_energy",
    "Macis.C117_leading_dimension_refuted"
   ],
   "note": "Proved when LDV equals the number of orbitals; refuted otherwise (the code uses norb as a stride)."
  },
  {
   "property": "C118",
   "status": "partial",
   "theorems": [
    "Macis.C118_any_contents",
    "Macis.C118_natural_orbitals_partial",
    "Macis.C118_stale_contents_refuted"
   ],
   "note": "Proved when the caller zeroed the virtual-occupied block and norb = nocc + nvir; refuted for stale contents. C118_any_contents: for every content the orbitals diagonalise the density plus the stale block, and the density itself exactly when that block is zero."
  },
  {
   "property": "C119",
   "status": "proved",
   "theorems": [
    "Macis.C119_selected_ci"
   ],
   "note": ""
  },
  {
   "property": "C120",
   "status": "proved",
   "theorems": [
    "Macis.C120_casci"
   ],
   "note": ""
  },
  {
   "property": "C121",
   "status": "partial",
   "theorems": [
    "Macis.C121_prior_contents_refuted"
   ],
   "note": "False: the call adds the RDMs to the prior contents (proved for every prior content)."
  },
  {
   "property": "C122",
   "status": "partial",
   "theorems": [
    "Macis.C122_several_ranks_refuted",
    "Macis.C122_reads_iff"
   ],
   "note": "False for every P >= 2 not above the number of determinants."
  },
  {
   "property": "C123",
   "status": "proved",
   "theorems": [
    "Macis.C123_lobpcg_relative",
    "Macis.C123_lobpcg_absolute",
    "Macis.C123_lobpcg_simple"
   ],
   "note": ""
  },
  {
   "property": "C124",
   "status": "proved",
   "theorems": [
    "Macis.C124_not_converged",
    "Macis.C124_iteration"
   ],
   "note": ""
  },
  {
   "property": "C125",
   "status": "partial",
   "theorems": [
    "Macis.C125_eigenvector_in_guess_refuted",
    "Macis.C125_large_block_refuted"
   ],
   "note": "False: eigenvector in the span of the guess, or N < 3K, ends in a Cholesky failure (proved in general)."
  },
  {
   "property": "C126",
   "status": "partial",
   "theorems": [
    "Macis.C126_unnormalised_guess_refuted"
   ],
   "note": "False for the absolute check: any direction scaled down far enough is accepted (proved for every matrix)."
  },
  {
   "property": "C127",
   "status": "partial",
   "theorems": [
    "Macis.C127_exact_guess_partial",
    "Macis.C127_zero_eigenvalue_refuted"
   ],
   "note": "Proved for nonzero eigenvalues; refuted for null vectors with the default relative check."
  },
  {
   "property": "C128",
   "status": "partial",
   "theorems": [
    "Macis.C128_last_iterate_unchecked_refuted",
    "Macis.C128_half_dimension_partial"
   ],
   "note": "False: the last iterate is not checked. Proved that in the half-dimension case one more allowed iteration accepts it."
  },
  {
   "property": "C129",
   "status": "proved",
   "theorems": [
    "Macis.C129_workspace",
    "Macis.C129_arguments"
   ],
   "note": ""
  },
  {
   "property": "C130",
   "status": "proved",
   "theorems": [
    "Macis.C130_history",
    "Macis.C130_contents"
   ],
   "note": ""
  },
  {
   "property": "C131",
   "status": "proved",
   "theorems": [
    "Macis.C131_matrix_element",
    "Macis.C131_hamiltonian",
    "Macis.C131_expectation",
    "Macis.C131_core_exists"
   ],
   "note": ""
  },
  {
   "property": "C132",
   "status": "proved",
   "theorems": [
    "Macis.C132_total_energy",
    "Macis.C132_variational"
   ],
   "note": ""
  },
  {
   "property": "C133",
   "status": "proved",
   "theorems": [
    "Macis.C133_numerical_gradient"
   ],
   "note": ""
  },
  {
   "property": "C134",
   "status": "partial",
   "theorems": [
    "Macis.C134_ignored",
    "Macis.C134_leading_dimension_refuted"
   ],
   "note": "Full statement: numerical_orbital_gradient writes with leading dimension LDOG. False: LDOG is ignored (C134_ignored, all dimensions); LDOG = norb is C133."
  },
  {
   "property": "C135",
   "status": "proved",
   "theorems": [
    "Macis.C135_numerical_hessian"
   ],
   "note": ""
  },
  {
   "property": "C136",
   "status": "proved",
   "theorems": [
    "Macis.C136_mixed_derivative",
    "Macis.C136_at_stationary",
    "Macis.C136_numerical_vs_analytic"
   ],
   "note": ""
  },
  {
   "property": "C137",
   "status": "partial",
   "theorems": [
    "Macis.C137_all_pairs_refuted",
    "Macis.C137_all_pairs_partial"
   ],
   "note": "Full statement: every ordered pair of sector indices is stored. False: the pair (i,b) is stored exactly when i < b; C137_all_pairs_partial covers those, so one of the two orders always is (C137_all_pairs_refuted for the rest)."
  },
  {
   "property": "C138",
   "status": "proved",
   "theorems": [
    "Macis.Ini.C138_read",
    "Macis.Ini.C138_query"
   ],
   "note": ""
  },
  {
   "property": "C139",
   "status": "partial",
   "theorems": [
    "Macis.Ini.C139_indented",
    "Macis.Ini.C139_indentation_refuted"
   ],
   "note": "Full statement: leading blanks do not change what an input file means. False (C139_indentation_refuted); C139_indented gives the exact effect of any indentation of any option line."
  },
  {
   "property": "C140",
   "status": "partial",
   "theorems": [
    "Macis.Ini.C140_header_dropped",
    "Macis.Ini.C140_value_cut",
    "Macis.Ini.C140_header_refuted",
    "Macis.Ini.C140_value_refuted",
    "Macis.Ini.C140_defined_refuted"
   ],
   "note": "Full statement: comments, carriage returns and separators inside values are harmless. False; C140_header_dropped (a header followed by anything has no effect) and C140_value_cut (the value ends at the next separator, the rest of the line is ignored) say what happens in general."
  },
  {
   "property": "C141",
   "status": "partial",
   "theorems": [
    "Macis.Ini.C141_switch_partial",
    "Macis.Ini.C141_switch_refuted"
   ],
   "note": "Full statement: every customary spelling of a switch is understood. Proved: TRUE and ON (upper-cased) are exactly the true spellings; refuted for the others."
  },
  {
   "property": "C142",
   "status": "partial",
   "theorems": [
    "Macis.Ini.C142_any_text",
    "Macis.Ini.C142_count_partial",
    "Macis.Ini.C142_count_refuted"
   ],
   "note": "Full statement: counts are read exactly and malformed counts are rejected. Proved for decimal digit strings; refuted for -1, 1e6 and trailing text; C142_any_text gives the result for every value."
  },
  {
   "property": "C143",
   "status": "partial",
   "theorems": [
    "Macis.Ini.C143_space_partial",
    "Macis.Ini.C143_accepts",
    "Macis.Ini.C143_electrons_refuted"
   ],
   "note": "Full statement: inconsistent active spaces are rejected. Proved: orbital counts are checked; refuted for electron counts, which are not."
  },
  {
   "property": "C144",
   "status": "proved",
   "theorems": [
    "Macis.C144_spmv_every_schedule",
    "Macis.C144_buffers_setup",
    "Macis.C144_buffers_product"
   ],
   "note": ""
  },
  {
   "property": "C145",
   "status": "partial",
   "theorems": [
    "Macis.C145_volume_partial",
    "Macis.C145_volume_refuted"
   ],
   "note": "Full statement: the reported communication volume is exact. Proved: never larger than, and short by at most P/2 of, the exact one; refuted as an equality."
  },
  {
   "property": "C146",
   "status": "proved",
   "theorems": [
    "Macis.C146_dist_write_every_schedule"
   ],
   "note": ""
  },
  {
   "property": "C147",
   "status": "proved",
   "theorems": [
    "Macis.C147_quickselect_every_schedule"
   ],
   "note": ""
  },
  {
   "property": "C148",
   "status": "proved",
   "theorems": [
    "Macis.C148_permute_rows",
    "Macis.C148_permute_rows_cols",
    "Macis.C148_permute_cols"
   ],
   "note": ""
  },
  {
   "property": "C149",
   "status": "proved",
   "theorems": [
    "Macis.C149_same_on_all_ranks",
    "Macis.C149_best_choice"
   ],
   "note": ""
  },
  {
   "property": "C150",
   "status": "proved",
   "theorems": [
    "Macis.C150_wrappers",
    "Macis.C150_scalar",
    "Macis.C150_long_buffers",
    "Macis.C150_chunks"
   ],
   "note": ""
  },
  {
   "property": "C151",
   "status": "proved",
   "theorems": [
    "Macis.C151_similar",
    "Macis.C151_eigenvalues",
    "Macis.C151_expectation"
   ],
   "note": ""
  },
  {
   "property": "C152",
   "status": "proved",
   "theorems": [
    "Macis.C152_matrix_element",
    "Macis.C152_csr",
    "Macis.C152_dist",
    "Macis.C152_casci",
    "Macis.C152_slater_condon",
    "Macis.C152_search"
   ],
   "note": ""
  },
  {
   "property": "C153",
   "status": "proved",
   "theorems": [
    "Macis.C153_matrix_element",
    "Macis.C153_csr",
    "Macis.C153_diagonalisation"
   ],
   "note": ""
  },
  {
   "property": "C154",
   "status": "proved",
   "theorems": [
    "Macis.C154_casci_energy",
    "Macis.C154_casci_variational"
   ],
   "note": ""
  },
  {
   "property": "C155",
   "status": "proved",
   "theorems": [
    "Macis.C155_mcscf_energy",
    "Macis.C155_mcscf_variational",
    "Macis.C155_casscf_converged"
   ],
   "note": ""
  },
  {
   "property": "C156",
   "status": "proved",
   "theorems": [
    "Macis.C156_asci_energy",
    "Macis.C156_asci_variational"
   ],
   "note": ""
  },
  {
   "property": "C157",
   "status": "proved",
   "theorems": [
    "Macis.C157_output_file",
    "Macis.C157_output_file_guess",
    "Macis.C157_rerun"
   ],
   "note": ""
  },
  {
   "property": "C158",
   "status": "proved",
   "theorems": [
    "Macis.C158_rdm_symmetry"
   ],
   "note": ""
  },
  {
   "property": "C159",
   "status": "proved",
   "theorems": [
    "Macis.C159_accesses",
    "Macis.C159_csr_product",
    "Macis.C159_coo_product",
    "Macis.C159_coo_to_dense",
    "Macis.C159_short_leading_dimension",
    "Macis.C159_duplicates"
   ],
   "note": ""
  },
  {
   "property": "C160",
   "status": "proved",
   "theorems": [
    "Macis.C160_serial",
    "Macis.C160_distributed",
    "Macis.C160_single_process"
   ],
   "note": ""
  },
  {
   "property": "C161",
   "status": "proved",
   "theorems": [
    "Macis.C161_davidson_every_schedule",
    "Macis.C161_same_limit",
    "Macis.C161_energy"
   ],
   "note": ""
  },
  {
   "property": "C162",
   "status": "partial",
   "theorems": [
    "Macis.C162_passed_vector_partial",
    "Macis.C162_fresh_vector_partial",
    "Macis.C162_lost_guess_refuted",
    "Macis.C162_disagreement_refuted"
   ],
   "note": "Proved for every schedule where the ranks agree on the choice of start vector; the remainder-row guess and the disagreement are general refutations."
  },
  {
   "property": "C163",
   "status": "partial",
   "theorems": [
    "Macis.C163_iteration_partial",
    "Macis.C163_growth_partial",
    "Macis.C163_growth_ends",
    "Macis.C163_refinement_partial",
    "Macis.C163_energy",
    "Macis.C163_diagonalisation_serial",
    "Macis.C163_lost_start_refuted",
    "Macis.C163_three_ranks_refuted"
   ],
   "note": "Full statement: ASCI on any number of ranks ends on every rank with the joint result. Proved for two or more ranks, at least as many determinants asked for as ranks, sizes that fit size_t; the search result itself is that of C103. Refuted: from the lowest determinant with a number of determinants that the rank count does not divide, every rank throws."
  },
  {
   "property": "C164",
   "status": "partial",
   "theorems": [
    "Macis.C164_several_writers_partial",
    "Macis.C164_stopped_writers_partial",
    "Macis.C164_stop_undetected_refuted",
    "Macis.C164_torn_lines_refuted",
    "Macis.C164_cut_number_refuted"
   ],
   "note": "Full statement: any cutting into pieces. Proved for pieces that end at line ends (any number of ranks, any order, any stopping point); refuted for pieces that cut lines, as full buffers of the C library do, and a stopped writer is not detected (core energy read as 0)."
  },
  {
   "property": "C165",
   "status": "partial",
   "theorems": [
    "Macis.C165_arrays",
    "Macis.C165_product_partial",
    "Macis.C165_lost_row_refuted",
    "Macis.C165_one_electron_refuted"
   ],
   "note": "Full statement: exact for any number of stored elements. Proved when they number less than 2^(w-1) (and the columns at most that); refuted beyond: the row in which the count passes 2^(w-1) is read as empty, later rows outside the arrays. Reached by one electron in 46341 or more orbitals with int32_t."
  },
  {
   "property": "C166",
   "status": "partial",
   "theorems": [
    "Macis.C166_one_rank",
    "Macis.C166_all_ranks_partial",
    "Macis.C166_outputs",
    "Macis.C166_energy_partial",
    "Macis.C166_variational_partial"
   ],
   "note": "Full statement: any number of ranks, any settings. Proved for two or more ranks, at least as many determinants asked for (NTDETS_MIN, NTDETS_MAX) as ranks, 3 + CONSTRAINT_LVL at most the number of alpha electrons, room for the pairs of every core, sizes that fit size_t; the energy equality without orbital rotations (with them: the variational bound). Each rank is taken to read the same files."
  },
  {
   "property": "C167",
   "status": "proved",
   "theorems": [
    "Macis.C167_counts",
    "Macis.C167_reals",
    "Macis.C167_switches",
    "Macis.C167_names",
    "Macis.C167_integers",
    "Macis.C167_calculation",
    "Macis.C167_nothing_else"
   ],
   "note": ""
  },
  {
   "property": "C168",
   "status": "proved",
   "theorems": [
    "Macis.C168_printed_determinants",
    "Macis.C168_erdm",
    "Macis.C168_given_energy",
    "Macis.C168_file_energy_any",
    "Macis.C168_file_energy",
    "Macis.C168_wavefunction_file",
    "Macis.C168_restart",
    "Macis.C168_mp2_guess",
    "Macis.C168_given_energy_any"
   ],
   "note": ""
  },
  {
   "property": "C169",
   "status": "proved",
   "theorems": [
    "Macis.C169_symmetric",
    "Macis.C169_error",
    "Macis.C169_sparse_symmetric",
    "Macis.C169_sparse_error"
   ],
   "note": ""
  },
  {
   "property": "C170",
   "status": "proved",
   "theorems": [
    "Macis.C170_csr_product"
   ],
   "note": ""
  },
  {
   "property": "C171",
   "status": "proved",
   "theorems": [
    "Macis.C171_single_alpha",
    "Macis.C171_single_beta",
    "Macis.C171_double_alpha",
    "Macis.C171_double_beta",
    "Macis.C171_double_opposite"
   ],
   "note": ""
  },
  {
   "property": "C172",
   "status": "proved",
   "theorems": [
    "Macis.C172_every_schedule",
    "Macis.C172_distributed_product"
   ],
   "note": ""
  },
  {
   "property": "C173",
   "status": "proved",
   "theorems": [
    "Macis.C173_electron_exchange",
    "Macis.C173_one_rdm_error",
    "Macis.C173_nearly_hermitian",
    "Macis.C173_two_rdm_error",
    "Macis.C173_not_exactly_hermitian"
   ],
   "note": ""
  },
  {
   "property": "C174",
   "status": "proved",
   "theorems": [
    "Macis.C174_accumulate",
    "Macis.C174_search",
    "Macis.C174_clear_choice",
    "Macis.C174_order_matters"
   ],
   "note": ""
  },
  {
   "property": "C175",
   "status": "proved",
   "theorems": [
    "Macis.C175_round_trip",
    "Macis.C175_subnormal",
    "Macis.C175_faithful",
    "Macis.C175_wavefunction_file",
    "Macis.C175_fcidump_file",
    "Macis.C175_fifteen_digits_collide"
   ],
   "note": ""
  },
  {
   "property": "C176",
   "status": "proved",
   "theorems": [
    "Macis.C176_round_trip",
    "Macis.C176_subnormal",
    "Macis.C176_readable",
    "Macis.C176_file"
   ],
   "note": ""
  },
  {
   "property": "C177",
   "status": "partial",
   "theorems": [
    "Macis.C177_plain",
    "Macis.C177_exponent",
    "Macis.C177_rest_ignored_refuted",
    "Macis.C177_fortran_line_refuted",
    "Macis.C177_settings"
   ],
   "note": "Plain notation and e/E exponents are read exactly; any other text after the digits (Fortran D exponents, exponents without letter) is ignored instead of read or rejected, proved for every numeral and every such text (refutation of the full statement)."
  },
  {
   "property": "C178",
   "status": "proved",
   "theorems": [
    "Macis.C178_two_index",
    "Macis.C178_four_index",
    "Macis.C178_reorder_two",
    "Macis.C178_reorder_four",
    "Macis.C178_not_symmetric"
   ],
   "note": ""
  },
  {
   "property": "C179",
   "status": "proved",
   "theorems": [
    "Macis.C179_inactive_fock",
    "Macis.C179_fock_symmetric",
    "Macis.C179_core_energy",
    "Macis.C179_active_integrals",
    "Macis.C179_hamiltonian_symmetric",
    "Macis.C179_generalized_fock",
    "Macis.C179_energy",
    "Macis.C179_mcscf_energy",
    "Macis.C179_gradient"
   ],
   "note": ""
  },
  {
   "property": "C180",
   "status": "proved",
   "theorems": [
    "Macis.C180_intermediates",
    "Macis.C180_rotated",
    "Macis.C180_matrix_element",
    "Macis.C180_energies",
    "Macis.C180_natural"
   ],
   "note": ""
  }
 ]
}