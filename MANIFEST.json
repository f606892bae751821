{
 "claims": [
  {
   "property": "C01",
   "status": "proved",
   "theorems": [
    "Mpnum.C01_to_array",
    "Mpnum.C01_all_entries",
    "Mpnum.C01_ltens_to_array",
    "Mpnum.C01_to_array_global"
   ],
   "note": ""
  },
  {
   "property": "C02",
   "status": "proved",
   "theorems": [
    "Mpnum.C02_from_array",
    "Mpnum.C02_from_array_const",
    "Mpnum.C02_from_array_default",
    "Mpnum.C02_from_array_too_few_legs",
    "Mpnum.C02_from_array_outcome",
    "Mpnum.C02_from_array_const_outcome",
    "Mpnum.C02_from_array_virtual",
    "Mpnum.C02_from_array_virtual_default"
   ],
   "note": "Complete outcome for every sequence ndims and every number ndims (C02_from_array_outcome, C02_from_array_const_outcome); has_virtual=True. Findings: superfluous numbers in ndims are ignored; has_virtual=True with the default ndims always fails."
  },
  {
   "property": "C03",
   "status": "proved",
   "theorems": [
    "Mpnum.C03_from_array_ranks"
   ],
   "note": ""
  },
  {
   "property": "C04",
   "status": "proved",
   "theorems": [
    "Mpnum.C04_from_kron"
   ],
   "note": ""
  },
  {
   "property": "C05",
   "status": "proved",
   "theorems": [
    "Mpnum.C05_add",
    "Mpnum.C05_add_length",
    "Mpnum.C05_add_outcomes",
    "Mpnum.C05_add_single",
    "Mpnum.C05_add_not_symmetric",
    "Mpnum.C05_add_extra_legs",
    "Mpnum.C05_sub",
    "Mpnum.C05_sub_length"
   ],
   "note": "C05_add_outcomes and C05_add_single characterise + for all shapes with equal numbers of legs: interior legs of size one of the second summand are broadcast, so x + y can succeed where y + x fails (C05_add_not_symmetric). C05_add_extra_legs: more legs on an inner site of the second operand give a ValueError if the bond to the left has a rank other than one."
  },
  {
   "property": "C06",
   "status": "proved",
   "theorems": [
    "Mpnum.C06_mul",
    "Mpnum.C06_imul",
    "Mpnum.C06_neg",
    "Mpnum.C06_truediv",
    "Mpnum.C06_truediv_zero"
   ],
   "note": ""
  },
  {
   "property": "C07",
   "status": "proved",
   "theorems": [
    "Mpnum.C07_sumup",
    "Mpnum.C07_sumup_empty",
    "Mpnum.C07_sumup_length"
   ],
   "note": ""
  },
  {
   "property": "C08",
   "status": "proved",
   "theorems": [
    "Mpnum.C08_dot",
    "Mpnum.C08_dot_length",
    "Mpnum.C08_matrix_product",
    "Mpnum.C08_dot_outcomes",
    "Mpnum.C08_dot_index",
    "Mpnum.C08_virtual_leg",
    "Mpnum.C08_matrix_vector"
   ],
   "note": "C08_dot_outcomes: for axes in range, dot succeeds exactly for admissible arguments, with the exception raised otherwise; C08_dot_index: axes out of range by more than one raise IndexError; C08_virtual_leg is a finding: out of range by one denotes a virtual leg."
  },
  {
   "property": "C09",
   "status": "proved",
   "theorems": [
    "Mpnum.C09_inner_outcomes",
    "Mpnum.C09_inner_other_legs",
    "Mpnum.C09_inner",
    "Mpnum.C09_norm",
    "Mpnum.C09_normdist"
   ],
   "note": "C09_inner_outcomes: inner succeeds exactly if the numbers of entries per site agree (legs may be grouped differently), with the exception raised otherwise."
  },
  {
   "property": "C10",
   "status": "proved",
   "theorems": [
    "Mpnum.C10_canonicalize"
   ],
   "note": ""
  },
  {
   "property": "C11",
   "status": "proved",
   "theorems": [
    "Mpnum.C11_no_arguments",
    "Mpnum.C11_reaches",
    "Mpnum.C11_index_error",
    "Mpnum.C11_value_error",
    "Mpnum.C11_afull"
   ],
   "note": ""
  },
  {
   "property": "C12",
   "status": "partial",
   "theorems": [
    "Mpnum.C12_update_partial",
    "Mpnum.C12_negative_index",
    "Mpnum.C12_left_meets_right",
    "Mpnum.C12_meeting_breaks",
    "Mpnum.Prog.C12_history_partial",
    "Mpnum.Prog.C12_program_partial"
   ],
   "note": "All histories over programs of API calls (C12_history_partial, C12_program_partial: the language of C54 with assignments of local tensors by non-negative index). Assignments with a claim: proved for non-negative index that leave one site without claim; false in the code otherwise (witnesses), so the unrestricted statement cannot be proved."
  },
  {
   "property": "C13",
   "status": "partial",
   "theorems": [
    "Mpnum.C13_history_partial",
    "Mpnum.C13_int_reject",
    "Mpnum.C13_int_index",
    "Mpnum.C13_slice_reject",
    "Mpnum.C13_slice_length_unchecked",
    "Mpnum.C13_slice_ndim_unchecked",
    "Mpnum.C13_slice_string"
   ],
   "note": "All histories of integer assignments and of slice assignments with as many local tensors as sites; the code does not check the number of tensors (witness theorem), so the unrestricted statement is false. C13_slice_string: a string given for a slice is iterated letter by letter."
  },
  {
   "property": "C14",
   "status": "proved",
   "theorems": [
    "Mpnum.C14_T",
    "Mpnum.C14_transpose_default",
    "Mpnum.C14_transpose",
    "Mpnum.C14_transpose_invalid",
    "Mpnum.C14_conj",
    "Mpnum.C14_adj",
    "Mpnum.C14_reverse",
    "Mpnum.C14_negative_axis",
    "Mpnum.C14_ranks",
    "Mpnum.C14_twice",
    "Mpnum.C14_transpose_inverse",
    "Mpnum.C14_transpose_rejects"
   ],
   "note": ""
  },
  {
   "property": "C15",
   "status": "proved",
   "theorems": [
    "Mpnum.C15_reshape",
    "Mpnum.C15_reshape_one",
    "Mpnum.C15_ravel",
    "Mpnum.C15_reshape_prune",
    "Mpnum.C15_reshape_wrong_size",
    "Mpnum.C15_reshape_empty",
    "Mpnum.C15_short_list_truncates",
    "Mpnum.C15_reshape_rejects"
   ],
   "note": ""
  },
  {
   "property": "C16",
   "status": "proved",
   "theorems": [
    "Mpnum.C16_group_sites",
    "Mpnum.C16_group_sites_invalid",
    "Mpnum.C16_split_sites",
    "Mpnum.C16_split_sites_invalid",
    "Mpnum.C16_round_trip",
    "Mpnum.C16_split_no_legs",
    "Mpnum.C16_split_sites_rejects"
   ],
   "note": "Sites with at least one leg; a site without legs is not split by the code (witness)."
  },
  {
   "property": "C17",
   "status": "partial",
   "theorems": [
    "Mpnum.C17_vleg2leg",
    "Mpnum.C17_leg2vleg_vleg2leg",
    "Mpnum.C17_leg2vleg_partial",
    "Mpnum.C17_split_outside",
    "Mpnum.C17_split",
    "Mpnum.C17_leg2vleg_wrong_form",
    "Mpnum.C17_split_last"
   ],
   "note": "The claimed form of leg2vleg is false in the code when site pos+1 was claimed right-canonical (witness theorem); split(len-1) raises IndexError (witness)."
  },
  {
   "property": "C18",
   "status": "proved",
   "theorems": [
    "Mpnum.C18_sum",
    "Mpnum.C18_sum_all",
    "Mpnum.C18_sum_length",
    "Mpnum.C18_first_none",
    "Mpnum.C18_negative_axis"
   ],
   "note": "C18_first_none: a per-site sequence starting with None raises TypeError although documented."
  },
  {
   "property": "C19",
   "status": "proved",
   "theorems": [
    "Mpnum.C19_get",
    "Mpnum.C19_get_length",
    "Mpnum.C19_get_range",
    "Mpnum.C19_axis_iter",
    "Mpnum.C19_axis_iter_int",
    "Mpnum.C19_diag",
    "Mpnum.C19_diag_numbers",
    "Mpnum.C19_axis_iter_order",
    "Mpnum.C19_diag_negative"
   ],
   "note": "The order of axis_iter is proved to be row-major; the docstring states the opposite order (witness C19_axis_iter_order)."
  },
  {
   "property": "C20",
   "status": "proved",
   "theorems": [
    "Mpnum.C20_partialtrace",
    "Mpnum.C20_trace",
    "Mpnum.C20_trace_mpo",
    "Mpnum.C20_too_few_legs",
    "Mpnum.C20_short_list_truncates"
   ],
   "note": ""
  },
  {
   "property": "C21",
   "status": "proved",
   "theorems": [
    "Mpnum.C21_prune",
    "Mpnum.C21_prune_singletons"
   ],
   "note": ""
  },
  {
   "property": "C22",
   "status": "proved",
   "theorems": [
    "Mpnum.C22_chain",
    "Mpnum.C22_chain_empty",
    "Mpnum.C22_localouter",
    "Mpnum.C22_localouter_length"
   ],
   "note": ""
  },
  {
   "property": "C23",
   "status": "proved",
   "theorems": [
    "Mpnum.C23_inject",
    "Mpnum.C23_inject_one",
    "Mpnum.C23_inject_eye",
    "Mpnum.C23_not_increasing",
    "Mpnum.C23_single",
    "Mpnum.C23_missing"
   ],
   "note": "Value and shape of inject for every list of positions and items, the single-position and default-identity forms, and the error branches. C23_missing is a finding: None in a list of injections raises TypeError."
  },
  {
   "property": "C24",
   "status": "proved",
   "theorems": [
    "Mpnum.C24_second_shorter",
    "Mpnum.C24_first_shorter",
    "Mpnum.C24_overhang_ignored",
    "Mpnum.C24_negative_start",
    "Mpnum.C24_equal_length"
   ],
   "note": "Value of partialdot with either operand shorter, for every start site; findings: a negative start_at is treated as zero, an overhanging operand is silently truncated."
  },
  {
   "property": "C25",
   "status": "proved",
   "theorems": [
    "Mpnum.C25_embed_slice",
    "Mpnum.C25_embed_slice_default",
    "Mpnum.C25_embed_slice_width",
    "Mpnum.C25_embed_slice_not_square",
    "Mpnum.C25_local_sum",
    "Mpnum.C25_local_sum_default",
    "Mpnum.C25_local_sum_slices",
    "Mpnum.C25_local_sum_width",
    "Mpnum.C25_local_sum_no_length",
    "Mpnum.C25_ranks",
    "Mpnum.C25_regular_ignores_length"
   ],
   "note": "Value of embed_slice and of local_sum on both code paths for every number of terms and every width, the documented rank bound, and the error branches. C25_regular_ignores_length is a finding."
  },
  {
   "property": "C26",
   "status": "proved",
   "theorems": [
    "Mpnum.C26_regular_slices",
    "Mpnum.C26_cover",
    "Mpnum.C26_not_divisible",
    "Mpnum.C26_zero_offset",
    "Mpnum.C26_too_wide"
   ],
   "note": "All integers in the stated range, plus the rejected arguments."
  },
  {
   "property": "C27",
   "status": "proved",
   "theorems": [
    "Mpnum.C27_compress",
    "Mpnum.C27_single_site",
    "Mpnum.C27_error",
    "Mpnum.C27_exact",
    "Mpnum.C27_overlap_pos",
    "Mpnum.C27_errors",
    "Mpnum.C27_zero_overlap"
   ],
   "note": "All MPAs over an RCLike field, any SVD routine and any svdfunc meeting the contract. C27_zero_overlap: the documented range (0, inf) of the overlap does not include the zero tensor."
  },
  {
   "property": "C28",
   "status": "proved",
   "theorems": [
    "Mpnum.C28_selection",
    "Mpnum.C28_rule"
   ],
   "note": "Selection rule for every list of singular values, and for every bond of a whole compression with the default svdfunc."
  },
  {
   "property": "C29",
   "status": "proved",
   "theorems": [
    "Mpnum.C29_compression",
    "Mpnum.C29_monotone",
    "Mpnum.C29_unchanged",
    "Mpnum.C29_missing_rank",
    "Mpnum.C29_wrong_shape",
    "Mpnum.C29_start_returned",
    "Mpnum.C29_overlap_fails",
    "Mpnum.C29_two_sites"
   ],
   "note": "All MPAs of two or more sites, start vectors or random starts, num_sweeps >= 1, 1 <= var_sites <= length; plus monotone error for var_sites=1 and var_sites=2, the cases that return a copy, the exceptions, and the finding that num_sweeps=0 or var_sites > length silently returns the start vector. On a chain of two sites with var_sites=2, one or more sweeps give a best approximation from every start vector, with the error and the number of SVD compression (C29_two_sites)."
  },
  {
   "property": "C30",
   "status": "proved",
   "theorems": [
    "Mpnum.C30_pad_ranks",
    "Mpnum.C30_default",
    "Mpnum.C30_full_rank",
    "Mpnum.C30_single_site"
   ],
   "note": "Single-site MPA without argument raises ValueError (C30_single_site)."
  },
  {
   "property": "C31",
   "status": "proved",
   "theorems": [
    "Mpnum.C31_round_trip",
    "Mpnum.C31_file",
    "Mpnum.C31_occupied",
    "Mpnum.C31_failed_dump_corrupts",
    "Mpnum.C31_dump_writes",
    "Mpnum.C31_interrupted",
    "Mpnum.C31_file_interrupted"
   ],
   "note": "h5py is modelled as finite maps; an interrupted dump keeps the writes made before the interruption (HDF5's own buffering and file corruption are not modelled). C31_failed_dump_corrupts: a dump that fails on an occupied group has already replaced the attributes."
  },
  {
   "property": "C32",
   "status": "proved",
   "theorems": [
    "Mpnum.C32_positions",
    "Mpnum.C32_global_to_local",
    "Mpnum.C32_local_to_global",
    "Mpnum.C32_inverse_global",
    "Mpnum.C32_inverse_local",
    "Mpnum.C32_not_multiple"
   ],
   "note": ""
  },
  {
   "property": "C33",
   "status": "proved",
   "theorems": [
    "Mpnum.C33_pmps_to_mpo",
    "Mpnum.C33_pmps_to_mpo_ranks",
    "Mpnum.C33_hermitian",
    "Mpnum.C33_mps_to_pmps",
    "Mpnum.C33_pmps_to_mps",
    "Mpnum.C33_pmps_to_mps_reject",
    "Mpnum.C33_round_trip",
    "Mpnum.C33_mps_to_mpo",
    "Mpnum.C33_psd_trace",
    "Mpnum.C33_dm_to_array",
    "Mpnum.C33_dm_to_array_global"
   ],
   "note": "Conversions between MPS, PMPS and MPO, Hermiticity, positivity and trace, pmps_dm_to_array."
  },
  {
   "property": "C34",
   "status": "proved",
   "theorems": [
    "Mpnum.C34_reductions_mpo",
    "Mpnum.C34_width",
    "Mpnum.C34_startsites",
    "Mpnum.C34_trace",
    "Mpnum.C34_reject"
   ],
   "note": "Every sequence of windows; the remainder cache is part of the model state and is shown never to matter."
  },
  {
   "property": "C35",
   "status": "proved",
   "theorems": [
    "Mpnum.C35_reductions_pmps",
    "Mpnum.C35_width",
    "Mpnum.C35_mps_as_pmps",
    "Mpnum.C35_mps_as_mpo",
    "Mpnum.C35_reductions",
    "Mpnum.C35_windows",
    "Mpnum.C35_pmps_reduction"
   ],
   "note": "Every sequence of windows with in-place canonicalisation between items; all three ways to give the windows; pmps_reduction for every set of sites."
  },
  {
   "property": "C36",
   "status": "proved",
   "theorems": [
    "Mpnum.C36_sandwich",
    "Mpnum.C36_sandwich_default",
    "Mpnum.C36_local_op",
    "Mpnum.C36_sandwich_unequal_lengths"
   ],
   "note": "sandwich is <b|H|a> for all MPOs and MPSs (also rectangular operators); the local operator formed by eig for any block of sites is the compression of H; sandwich does not check lengths (witness)."
  },
  {
   "property": "C37",
   "status": "proved",
   "theorems": [
    "Mpnum.C37_var_sites_too_large",
    "Mpnum.C37_value",
    "Mpnum.C37_value_hermitian",
    "Mpnum.C37_var_sites",
    "Mpnum.C37_lower_bound",
    "Mpnum.C37_not_above_start",
    "Mpnum.C37_more_sweeps",
    "Mpnum.C37_returns",
    "Mpnum.C37_two_ranks_one",
    "Mpnum.C37_no_sweeps"
   ],
   "note": "eig with var_sites=1 returns a unit vector and its expectation value, for every eigensolver contract, start vector and number of sweeps; also for var_sites>1 (value of an untruncated unit vector), lower bound, monotone in the sweeps, error cases"
  },
  {
   "property": "C38",
   "status": "proved",
   "theorems": [
    "Mpnum.C38_local_op",
    "Mpnum.C38_eig_sum",
    "Mpnum.C38_different_lengths",
    "Mpnum.C38_two_mpos",
    "Mpnum.C38_value"
   ],
   "note": "local operators of eig_sum equal those of eig for the sum; eig_sum = eig of the sum as a whole run"
  },
  {
   "property": "C39",
   "status": "proved",
   "theorems": [
    "Mpnum.C39_inner_prod_mps",
    "Mpnum.C39_inner_prod_mps_eq_inner",
    "Mpnum.C39_inner_prod_mps_rejects",
    "Mpnum.C39_sumup",
    "Mpnum.C39_sumup_exact",
    "Mpnum.C39_sumup_error",
    "Mpnum.C39_sumup_single_site",
    "Mpnum.C39_sumup_rejects",
    "Mpnum.C39_inner_prod_mps_length_unchecked"
   ],
   "note": "special.inner_prod_mps equals inner for a product first argument (rejections and the missing length check included); special.sumup: shape, ranks, true canonical claim, orthogonal projection of the weighted sum for every rank, equality with mparray.sumup when the rank suffices, single-site branch, rejections. The sparse matrix of _local_add_sparse is modelled from data/indices/indptr. Requires svdfunc to return min(rank, m, n) exact singular triples."
  },
  {
   "property": "C40",
   "status": "proved",
   "theorems": [
    "Mpnum.C40_x_povm",
    "Mpnum.C40_y_povm",
    "Mpnum.C40_z_povm",
    "Mpnum.C40_concat",
    "Mpnum.C40_concat_weights",
    "Mpnum.C40_pauli_povm",
    "Mpnum.C40_pauli_povm_small"
   ],
   "note": "x, y, z and pauli POVMs for every d; concat for arbitrary POVMs; error branches. Elements over C, exact arithmetic (sqrt exact)."
  },
  {
   "property": "C41",
   "status": "proved",
   "theorems": [
    "Mpnum.C41_probability_map",
    "Mpnum.C41_info_complete",
    "Mpnum.C41_x_not_complete",
    "Mpnum.C41_linear_inversion"
   ],
   "note": "pauli_povm probabilities determine the operator for every d; probability_map rows are Born probabilities; linear inversion with any function meeting P X P = P (satisfiable, exists_PinvSpec) recovers the operator."
  },
  {
   "property": "C42",
   "status": "proved",
   "theorems": [
    "Mpnum.C42_expectations_mpdo",
    "Mpnum.C42_expectations_pmps",
    "Mpnum.C42_expectations_mps",
    "Mpnum.C42_expectations_reject",
    "Mpnum.C42_pmf_mpdo",
    "Mpnum.C42_pmf_pmps",
    "Mpnum.C42_pmf_mps",
    "Mpnum.C42_pmf_reject",
    "Mpnum.C42_array_mpdo",
    "Mpnum.C42_array_pmps_fast",
    "Mpnum.C42_array_pmps_default",
    "Mpnum.C42_array_mps",
    "Mpnum.C42_array_unknown",
    "Mpnum.C42_agree",
    "Mpnum.C42_nonneg",
    "Mpnum.C42_sum_one",
    "Mpnum.C42_pmps_psd",
    "Mpnum.C42_pmf_as_array",
    "Mpnum.C42_mps_fast_fails"
   ],
   "note": "pmf, expectations and pmf_as_array in every mode and implementation equal tr(M_y rho) (Born rule stated with plain sums); fast paths contract from the left or from both ends at any cut; non-negativity, normalisation and projection for valid states and POVMs. Exact scalars; 64 bit overflow in the choice of the cut is not modelled. C42_mps_fast_fails is a finding: the fast implementations always raise IndexError for an MPS."
  },
  {
   "property": "C43",
   "status": "proved",
   "theorems": [
    "Mpnum.C43_eye",
    "Mpnum.C43_from_local_povm",
    "Mpnum.C43_embed",
    "Mpnum.C43_embed_born",
    "Mpnum.C43_embed_reject",
    "Mpnum.C43_embed_negative",
    "Mpnum.C43_block",
    "Mpnum.C43_block_reject",
    "Mpnum.C43_repeat",
    "Mpnum.C43_repeat_reject",
    "Mpnum.C43_list_block",
    "Mpnum.C43_list_repeat",
    "Mpnum.C43_repeat_gauge"
   ],
   "note": "eye, from_local_povm, embed, block and repeat (also of lists): exact elements, outcome and Hilbert space dimensions, and equality of the embedded probabilities with those of the reduced state. Findings proved: a negative startsite is accepted and gives a chain of the wrong length; repeat with a cut copy depends on the scaling of the factors."
  },
  {
   "property": "C44",
   "status": "proved",
   "theorems": [
    "Mpnum.C44_pack",
    "Mpnum.C44_unpack",
    "Mpnum.C44_unpack_pack",
    "Mpnum.C44_pack_unpack",
    "Mpnum.C44_pack_dtype",
    "Mpnum.C44_pack_out_of_range",
    "Mpnum.C44_unpack_out_of_range",
    "Mpnum.C44_list"
   ],
   "note": "All outcome dimensions and sample arrays."
  },
  {
   "property": "C45",
   "status": "proved",
   "theorems": [
    "Mpnum.C45_est_pmf",
    "Mpnum.C45_counts",
    "Mpnum.C45_packed",
    "Mpnum.C45_packed_out_of_range",
    "Mpnum.C45_out_of_range",
    "Mpnum.C45_no_outcomes",
    "Mpnum.C45_list"
   ],
   "note": "All sample arrays; relative frequencies, packed and unpacked, and lists. C45_no_outcomes is a finding: TypeError if no site has several outcomes."
  },
  {
   "property": "C46",
   "status": "proved",
   "theorems": [
    "Mpnum.C46_cond",
    "Mpnum.C46_direct",
    "Mpnum.C46_sample_mpdo",
    "Mpnum.C46_sample_pmps",
    "Mpnum.C46_sample_mps",
    "Mpnum.C46_methods_agree",
    "Mpnum.C46_reject",
    "Mpnum.C46_group_size",
    "Mpnum.C46_no_outcomes"
   ],
   "note": "Random generator is an ideal one (PMF); samples are independent with exactly the Born rule distribution for methods cond (any group size) and direct, packed and unpacked results; cond raises if every site has a single outcome (C46_no_outcomes)."
  },
  {
   "property": "C47",
   "status": "proved",
   "theorems": [
    "Mpnum.C47_lfun",
    "Mpnum.C47_lfun_cov",
    "Mpnum.C47_est_lfun",
    "Mpnum.C47_est_lfun_few",
    "Mpnum.C47_no_outcomes",
    "Mpnum.C47_unbiased",
    "Mpnum.C47_list_lfun",
    "Mpnum.C47_list_est_lfun",
    "Mpnum.C47_list_weights_ignored"
   ],
   "note": "Real scalars; est_lfun with weight sum 0 or 1 (nan/inf in numpy) excluded. Unbiasedness is over finite i.i.d. product distributions. C47_list_weights_ignored and C47_no_outcomes are findings."
  },
  {
   "property": "C48",
   "status": "proved",
   "theorems": [
    "Mpnum.C48_result",
    "Mpnum.C48_project_pmf",
    "Mpnum.C48_fixed",
    "Mpnum.C48_in_place"
   ],
   "note": "Hypotheses: truncation threshold non-negative, tolerance below one (as for the defaults)."
  },
  {
   "property": "C49",
   "status": "proved",
   "theorems": [
    "Mpnum.C49_generate_reject",
    "Mpnum.C49_generate_long_rank_cut",
    "Mpnum.C49_generate_ldim_reject",
    "Mpnum.C49_zero",
    "Mpnum.C49_eye",
    "Mpnum.C49_eye_length",
    "Mpnum.C49_diagonal",
    "Mpnum.C49_diagonal_legs",
    "Mpnum.C49_random_vec",
    "Mpnum.C49_random_op",
    "Mpnum.C49_random_local_ham",
    "Mpnum.C49_local_ham_ignores_randstate",
    "Mpnum.C49_random_mpa_uses_randstate",
    "Mpnum.C49_random_state",
    "Mpnum.C49_random_mpa",
    "Mpnum.C49_random_mpa_normalized",
    "Mpnum.C49_random_mps",
    "Mpnum.C49_random_mpo",
    "Mpnum.C49_random_mpdo"
   ],
   "note": "factory.py: shapes and ranks of all constructors, eye/zero/diagonal entries, and for every state of the random generator: random_mpa/mps/mpo (Hermitian, normalised), random_mpdo (positive semidefinite, trace one, rank), random_local_ham (Hermitian sum of local unit-norm terms), dense _random_vec/_random_op/_random_state. numpy division by zero (a null event) is modelled as an error. Witness: random_local_ham ignores randstate."
  },
  {
   "property": "C50",
   "status": "proved",
   "theorems": [
    "Mpnum.C50_mpo_cH",
    "Mpnum.C50_sparse_cH",
    "Mpnum.C50_mpo_eq_sparse",
    "Mpnum.C50_sparse_one_term",
    "Mpnum.C50_cXY_local_terms",
    "Mpnum.C50_xy_hamiltonian",
    "Mpnum.C50_pauli_mpos",
    "Mpnum.C50_last_term_order"
   ],
   "note": "mpo_cH and sparse_cH are the ring Hamiltonian of the given terms for every number of terms >= 2, and agree entry by entry; the XY terms give the documented XY Hamiltonian. mpo_X, mpo_Y and mpo_Z represent the Pauli matrices. Witnesses: one term raises UnboundLocalError in sparse_cH; the last term acts on (0, N-1), not (N-1, 0)."
  },
  {
   "property": "C51",
   "status": "proved",
   "theorems": [
    "Mpnum.Prog.C51_value_semantics",
    "Mpnum.Prog.C51_value_semantics_from",
    "Mpnum.Prog.C51_operands_unchanged",
    "Mpnum.Prog.C51_compression_unchanged",
    "Mpnum.Prog.C51_read_only",
    "Mpnum.Prog.C51_copy_is_deep",
    "Mpnum.Prog.C51_executions",
    "Mpnum.Prog.C51_returns_operand",
    "Mpnum.Prog.C51_wrap_shares",
    "Mpnum.Prog.C51_user_array"
   ],
   "note": "Object store with buffers, views, LocalTensors objects and MPArray objects: every execution of every program without second names equals the run in which each variable has a value of its own; operands (and everything else not named on the left) unchanged; compression works on a copy; copies are deep; tensors read from an MPA are read-only. Limits proved as theorems: +x, group_sites(1) and split out of range return the operand, MPArray(x.lt) shares it, MPArray([a]) keeps the caller's array."
  },
  {
   "property": "C52",
   "status": "proved",
   "theorems": [
    "Mpnum.C52_singularvals"
   ],
   "note": "Every stopping point of the generator."
  },
  {
   "property": "C53",
   "status": "proved",
   "theorems": [
    "Mpnum.C53_init",
    "Mpnum.C53_tensordot",
    "Mpnum.C53_tensordot_one",
    "Mpnum.C53_rename",
    "Mpnum.C53_swap",
    "Mpnum.C53_rename_duplicate",
    "Mpnum.C53_rename_unknown",
    "Mpnum.C53_to_array",
    "Mpnum.C53_to_array_error"
   ],
   "note": ""
  },
  {
   "property": "C54",
   "status": "proved",
   "theorems": [
    "Mpnum.Prog.C54_call",
    "Mpnum.Prog.C54_inplace",
    "Mpnum.Prog.C54_make",
    "Mpnum.Prog.C54_step",
    "Mpnum.Prog.C54_program",
    "Mpnum.Prog.C54_to_array",
    "Mpnum.Prog.C54_objects",
    "Mpnum.Prog.C54_determined"
   ],
   "note": "Every program whose statements are allowed on dense tensors (specification Program/Dense, stated with index sums only) runs without exception and every variable represents the dense result, with true canonical claims; to_array form; with the object store of C51 for programs without second names; unique result when no statement leaves a choice. Not in the dense language: leg2vleg, prune(singletons=True), inject of identities, variational compression, whose own properties are C17, C21, C23, C29."
  },
  {
   "property": "C55",
   "status": "proved",
   "theorems": [
    "Mpnum.C55_bonds",
    "Mpnum.C55_quasi_optimal",
    "Mpnum.C55_two_sites",
    "Mpnum.C55_singular_values",
    "Mpnum.C55_relerr"
   ],
   "note": "against every competing MPA; also bounds by singular values of the original and by relerr"
  },
  {
   "property": "C56",
   "status": "proved",
   "theorems": [
    "Mpnum.C56_match_elems",
    "Mpnum.C56_reject",
    "Mpnum.C56_match_close",
    "Mpnum.C56_match_probability",
    "Mpnum.C56_match_found",
    "Mpnum.C56_match_exact"
   ],
   "note": "For complex MP-POVMs; numpy's division by a zero norm is modelled by the assertion the code makes before it."
  },
  {
   "property": "C57",
   "status": "proved",
   "theorems": [
    "Mpnum.C57_est_pmf_from",
    "Mpnum.C57_fraction_exact",
    "Mpnum.C57_fraction_close",
    "Mpnum.C57_expectation",
    "Mpnum.C57_expectation_close",
    "Mpnum.C57_unbiased",
    "Mpnum.C57_spurious",
    "Mpnum.C57_mpps_lengths",
    "Mpnum.C57_est_pmf_from_mpps"
   ],
   "note": "est_pmf_from characterised completely (result and rejection), expectation value for independent samples, unbiasedness up to eps, weighted average of est_pmf_from_mpps. QR decompositions enter as an oracle with a specification; floating point is idealised."
  },
  {
   "property": "C58",
   "status": "proved",
   "theorems": [
    "Mpnum.C58_lfun_from",
    "Mpnum.C58_value",
    "Mpnum.C58_value_close",
    "Mpnum.C58_est_lfun_from",
    "Mpnum.C58_unbiased",
    "Mpnum.C58_weights_truncated",
    "Mpnum.C58_single_sample"
   ],
   "note": "Weights are positive natural numbers (C58_weights_truncated shows what happens for fractions). The results of pmf_as_array are arguments of the model of lfun_from; their correctness is C43. lfun_from: the other MP-POVMs have a site with several outcomes (C47_no_outcomes shows the TypeError otherwise)."
  },
  {
   "property": "C59",
   "status": "proved",
   "theorems": [
    "Mpnum.C59_chain",
    "Mpnum.C59_from_local_povm",
    "Mpnum.C59_too_many",
    "Mpnum.C59_eye",
    "Mpnum.C59_embed",
    "Mpnum.C59_block",
    "Mpnum.C59_repeat",
    "Mpnum.C59_pauli_mpp",
    "Mpnum.C59_pauli_mpp_large",
    "Mpnum.C59_pauli_outcomes",
    "Mpnum.C59_pauli_reject",
    "Mpnum.C59_pauli_mpps",
    "Mpnum.C59_pauli_mpps_large",
    "Mpnum.C59_parts_outcomes",
    "Mpnum.C59_pauli_elems",
    "Mpnum.C59_pauli_qubit"
   ],
   "note": "every constructor returns a POVM on the full tensor product space, for all sizes; Pauli MP-POVMs with their elements"
  },
  {
   "property": "C60",
   "status": "proved",
   "theorems": [
    "Mpnum.C60_pmfs_as_array",
    "Mpnum.C60_list_pmf",
    "Mpnum.C60_list_pmf_as_array",
    "Mpnum.C60_list_reject",
    "Mpnum.C60_list_pmfs_as_array",
    "Mpnum.C60_list_pmfs_truncated",
    "Mpnum.C60_block",
    "Mpnum.C60_block_default",
    "Mpnum.C60_block_full",
    "Mpnum.C60_block_auto",
    "Mpnum.C60_list_block",
    "Mpnum.C60_list_block_default",
    "Mpnum.C60_list_sample",
    "Mpnum.C60_list_est",
    "Mpnum.C60_list_est_reject"
   ],
   "note": "all modes, all windows, lists of any length; joint law of the samples"
  },
  {
   "property": "C61",
   "status": "proved",
   "theorems": [
    "Mpnum.C61_eckart_young",
    "Mpnum.C61_unique",
    "Mpnum.C61_randomized_svd",
    "Mpnum.C61_never_better",
    "Mpnum.C61_exact",
    "Mpnum.C61_spans_of_rank",
    "Mpnum.C61_dtype",
    "Mpnum.C61_unknown_normalizer",
    "Mpnum.C61_auto_normalizer",
    "Mpnum.C61_almost_surely"
   ],
   "note": "for all draws, and with probability one for atomless draws"
  },
  {
   "property": "C62",
   "status": "proved",
   "theorems": [
    "Mpnum.C62_partial_trace",
    "Mpnum.C62_partial_trace_odd",
    "Mpnum.C62_partial_trace_unsorted",
    "Mpnum.C62_mkron",
    "Mpnum.C62_mkron_all",
    "Mpnum.C62_mkron_matrix",
    "Mpnum.C62_mkron_none"
   ],
   "note": "for all arrays and lists"
  },
  {
   "property": "C63",
   "status": "proved",
   "theorems": [
    "Mpnum.C63_accepts",
    "Mpnum.C63_ground_energy",
    "Mpnum.C63_large_gamma",
    "Mpnum.C63_eig"
   ],
   "note": "For every N = 2 (mod 4): smallest eigenvalue (eigenvector, minimality and variational bound) for |gamma| <= 1; exact value and failure of the formula for |gamma| > 1; eig never returns less."
  },
  {
   "property": "C64",
   "status": "proved",
   "theorems": [
    "Mpnum.C64_unique",
    "Mpnum.C64_independent",
    "Mpnum.C64_dense",
    "Mpnum.C64_left_projectors"
   ],
   "note": "the gap condition is necessary for the result to be unique; it is stated for the tensors met on the way (C64Unique: singVals_unique, schmidt_trunc_unique)"
  },
  {
   "property": "C65",
   "status": "proved",
   "theorems": [
    "Mpnum.C65_normalization",
    "Mpnum.C65_good",
    "Mpnum.C65_detects",
    "Mpnum.C65_identical",
    "Mpnum.C65_identical_val",
    "Mpnum.C65_almost_equal",
    "Mpnum.C65_random_lowrank",
    "Mpnum.C65_random_dtype",
    "Mpnum.C65_random_fullrank"
   ],
   "note": "exact arithmetic; dtype comparison not modelled"
  },
  {
   "property": "C66",
   "status": "proved",
   "theorems": [
    "Mpnum.C66_lossless",
    "Mpnum.C66_minimal",
    "Mpnum.C66_no_smaller",
    "Mpnum.C66_default_keeps_zeros"
   ],
   "note": "compress(relerr=0) keeps the tensor and every bond is the least possible; compress(rank=r) is lossless if no cut has a larger rank; the documented default of relerr is not the one of the code (C66_default_keeps_zeros)"
  },
  {
   "property": "C67",
   "status": "proved",
   "theorems": [
    "Mpnum.C67_chain",
    "Mpnum.C67_from_local_povm",
    "Mpnum.C67_pauli_mpp",
    "Mpnum.C67_pauli_mpps",
    "Mpnum.C67_tomography",
    "Mpnum.C67_pauli_tomography",
    "Mpnum.C67_pauli_mpps_tomography",
    "Mpnum.C67_block",
    "Mpnum.C67_x_incomplete"
   ],
   "note": "informational completeness of pauli_mpp, pauli_mpps, from_local_povm (iff) and chain, and of block_pmfs_as_array for the reductions; sharpness: C67_x_incomplete"
  },
  {
   "property": "C68",
   "status": "proved",
   "theorems": [
    "Mpnum.C68_est_pmf_all",
    "Mpnum.C68_est_pmf",
    "Mpnum.C68_consistent",
    "Mpnum.C68_est_lfun"
   ],
   "note": "sample followed by est_pmf / est_lfun: Chebyshev bounds on the probability of a wrong estimate, and consistency"
  },
  {
   "property": "C69",
   "status": "proved",
   "theorems": [
    "Mpnum.C69_to_array_global",
    "Mpnum.C69_from_array_global",
    "Mpnum.C69_inverse",
    "Mpnum.C69_default",
    "Mpnum.C69_exceptions",
    "Mpnum.C69_uneven"
   ],
   "note": "to_array_global/from_array_global: axis order, entries, both inverses, default ndims, exceptions; finding about uneven legs"
  },
  {
   "property": "C70",
   "status": "proved",
   "theorems": [
    "Mpnum.C70_canonicalize",
    "Mpnum.C70_canonicalize_rejected",
    "Mpnum.C70_canonicalize_again",
    "Mpnum.C70_imul",
    "Mpnum.C70_norm",
    "Mpnum.C70_compress",
    "Mpnum.C70_compress_var",
    "Mpnum.C70_between_assignments_invalid",
    "Mpnum.C70_between_assignments_changed"
   ],
   "note": "every schedule of exceptions raised by numerical routines; exceptions between the two assignments of one LocalTensors.update are excluded by hypothesis (hw) and shown to break the object in the two _between_assignments theorems; compress('var') is modelled with one point before and one after the sweeps, because they work on another object"
  },
  {
   "property": "C71",
   "status": "proved",
   "theorems": [
    "Mpnum.C71_inner_conj",
    "Mpnum.C71_inner_linear",
    "Mpnum.C71_norm_definite",
    "Mpnum.C71_cauchy_schwarz",
    "Mpnum.C71_norm",
    "Mpnum.C71_metric",
    "Mpnum.C71_normdist_sq"
   ],
   "note": "norm also returns the canonicalized MPA; contracts of QR as in C09."
  },
  {
   "property": "C72",
   "status": "proved",
   "theorems": [
    "Mpnum.C72_assoc",
    "Mpnum.C72_assoc_vec",
    "Mpnum.C72_distrib",
    "Mpnum.C72_adj",
    "Mpnum.C72_trace_cyclic",
    "Mpnum.C72_trace_inner",
    "Mpnum.C72_trace_adj",
    "Mpnum.C72_adjoint",
    "Mpnum.C72_positive"
   ],
   "note": "Dimensions may differ from site to site."
  },
  {
   "property": "C73",
   "status": "proved",
   "theorems": [
    "Mpnum.C73_to_array",
    "Mpnum.C73_dtype",
    "Mpnum.C73_add",
    "Mpnum.C73_sub",
    "Mpnum.C73_mul",
    "Mpnum.C73_sumup",
    "Mpnum.C73_local_sum",
    "Mpnum.C73_local_sum_kind",
    "Mpnum.C73_local_sum_slices",
    "Mpnum.C73_add_lossy",
    "Mpnum.C73_local_sum_order",
    "Mpnum.C73_local_sum_int",
    "Mpnum.C73_examples"
   ],
   "note": "Element types (dtypes) modelled for the functions that choose them. Safe-cast comparable types: typed programs equal the untyped ones; the remaining combinations are shown to lose values or raise."
  },
  {
   "property": "C74",
   "status": "proved",
   "theorems": [
    "Mpnum.C74_consistent",
    "Mpnum.C74_expectation",
    "Mpnum.C74_energy",
    "Mpnum.C74_states",
    "Mpnum.C74_pmps_norm",
    "Mpnum.C74_pmps_states",
    "Mpnum.C74_psd_reachable"
   ],
   "note": "reductions_mpo, reductions_pmps, embed_slice and local_sum on states"
  },
  {
   "property": "C75",
   "status": "proved",
   "theorems": [
    "Mpnum.C75_qr_backward",
    "Mpnum.C75_qr_exact",
    "Mpnum.C75_md_componentwise",
    "Mpnum.C75_md_exact",
    "Mpnum.C75_good",
    "Mpnum.C75_canonicalize",
    "Mpnum.C75_same_outcome",
    "Mpnum.C75_error_fresh",
    "Mpnum.C75_error_canonical",
    "Mpnum.C75_history",
    "Mpnum.C75_norm",
    "Mpnum.C75_norm_canonical",
    "Mpnum.C75_norm_fresh",
    "Mpnum.C75_exact",
    "Mpnum.C75_first_order",
    "Mpnum.C75_first_order_canonical"
   ],
   "note": "Contracts: QRNear (follows from backward stable QR, C75_qr_backward), MdNear (follows from the componentwise error model, C75_md_componentwise), NormNear; overflow and underflow are not modelled."
  },
  {
   "property": "C76",
   "status": "proved",
   "theorems": [
    "Mpnum.C76_pmps_current",
    "Mpnum.C76_pmps",
    "Mpnum.C76_mps",
    "Mpnum.C76_met",
    "Mpnum.C76_mpo",
    "Mpnum.C76_singularvals",
    "Mpnum.C76_singularvals_twice",
    "Mpnum.C76_singularvals_norm",
    "Mpnum.C76_mpo_norm"
   ],
   "note": "Schedules of any length. The unsafe schedules are defects of the code, proved as C76_singularvals_twice, C76_singularvals_norm and C76_mpo_norm."
  },
  {
   "property": "C77",
   "status": "proved",
   "theorems": [
    "Mpnum.C77_contract_exact",
    "Mpnum.C77_model_exact",
    "Mpnum.C77_svd_mono",
    "Mpnum.C77_compress",
    "Mpnum.C77_canonical",
    "Mpnum.C77_fresh",
    "Mpnum.C77_no_canonicalize",
    "Mpnum.C77_lossless",
    "Mpnum.C77_single",
    "Mpnum.C77_exact",
    "Mpnum.C77_first_order",
    "Mpnum.C77_first_order_canonical"
   ],
   "note": "Contract Arith.Near: QRNear, MdNear, NormNear as in C75; SVDNear: the singular values are those of a matrix within eps of the argument (Frobenius, relative), and the computed factors are within eps of its singular vectors; elementwise products with relative error eps. svdfunc=truncated_svd. relerr: the number of kept singular values is an arbitrary number >= 1, so that the bound is against competitors with the ranks of the result."
  },
  {
   "property": "C78",
   "status": "proved",
   "theorems": [
    "Mpnum.C78_contract_componentwise",
    "Mpnum.C78_contract_exact",
    "Mpnum.C78_model_exact",
    "Mpnum.C78_to_array",
    "Mpnum.C78_to_array_canonical",
    "Mpnum.C78_dot",
    "Mpnum.C78_inner",
    "Mpnum.C78_inner_canonical",
    "Mpnum.C78_exact",
    "Mpnum.C78_first_order",
    "Mpnum.C78_first_order_canonical"
   ],
   "note": "Contract TdNear: ‖computed - exact‖_F <= eps ‖a‖_F ‖b‖_F for every call of tensordot that succeeds; transpositions and reshapes are exact. inner: same shape, ranks positive."
  },
  {
   "property": "C79",
   "status": "proved",
   "theorems": [
    "Mpnum.C79_add",
    "Mpnum.C79_add_canonical",
    "Mpnum.C79_normdist",
    "Mpnum.C79_normdist_canonical",
    "Mpnum.C79_factor",
    "Mpnum.C79_normdist_exact",
    "Mpnum.C79_add_copies",
    "Mpnum.C79_normdist_one",
    "Mpnum.C79_model_exact",
    "Mpnum.C79_ad_exact"
   ],
   "note": "addF, subF and normdistF are the models of C05 and C09 with numpy.add, QR, matdot and the norm replaced by routines with relative error eps."
  },
  {
   "property": "C80",
   "status": "proved",
   "theorems": [
    "Mpnum.C80_size",
    "Mpnum.C80_bound",
    "Mpnum.C80_canonicalize",
    "Mpnum.C80_add",
    "Mpnum.C80_dot",
    "Mpnum.C80_compress",
    "Mpnum.C80_smallest",
    "Mpnum.C80_canonical_ranks"
   ],
   "note": "size as a formula in shape and ranks; bounds; behaviour under canonicalize, compress, + and dot; minimality after compress(relerr=0)."
  },
  {
   "property": "C81",
   "status": "proved",
   "theorems": [
    "Mpnum.C81_compress_sum",
    "Mpnum.C81_compress_sum_canonical",
    "Mpnum.C81_lossless",
    "Mpnum.C81_single",
    "Mpnum.C81_compress_sub",
    "Mpnum.C81_exact",
    "Mpnum.C81_first_order"
   ],
   "note": "For every set of routines that meet the contracts of C77 with relative error eps; the unit roundoff enters only through eps."
  },
  {
   "property": "C82",
   "status": "proved",
   "theorems": [
    "Mpnum.C82_from_array",
    "Mpnum.C82_from_array_const",
    "Mpnum.C82_from_array_default",
    "Mpnum.C82_frob",
    "Mpnum.C82_round_trip",
    "Mpnum.C82_compress",
    "Mpnum.C82_exact",
    "Mpnum.C82_first_order"
   ],
   "note": "All arrays, groupings and QR decompositions with a relative error; consequences for to_array and compress."
  },
  {
   "property": "C83",
   "status": "proved",
   "theorems": [
    "Mpnum.C83_probabilities",
    "Mpnum.C83_probabilities_mps",
    "Mpnum.C83_pmf_as_array",
    "Mpnum.C83_pmf_as_array_mps",
    "Mpnum.C83_first_order"
   ],
   "note": "Both fast implementations; the implementation 'default' and the arithmetic of project_pmf are not treated as inexact."
  },
  {
   "property": "C84",
   "status": "proved",
   "theorems": [
    "Mpnum.C84_canonical",
    "Mpnum.C84_left_canonical",
    "Mpnum.C84_left_canonical_pmf",
    "Mpnum.C84_mixed",
    "Mpnum.C84_canonicalized",
    "Mpnum.C84_canonicalized_mps",
    "Mpnum.C84_first_order",
    "Mpnum.C84_pmf_as_array"
   ],
   "note": "Local measurements; the fast implementations 'pmps-ltr', 'pmps-symm' and 'auto' with modes 'pmps' and 'mps'; canonical form around any site, exact or approximate. For MP-POVMs with larger bonds only the bound of C83 is proved."
  },
  {
   "property": "C85",
   "status": "proved",
   "theorems": [
    "Mpnum.C85_constructor",
    "Mpnum.C85_povm",
    "Mpnum.C85_vleg2leg",
    "Mpnum.C85_split",
    "Mpnum.C85_leg2vleg",
    "Mpnum.C85_partialtrace",
    "Mpnum.C85_trace",
    "Mpnum.C85_trace_unequal",
    "Mpnum.C85_diag",
    "Mpnum.C85_pack",
    "Mpnum.C85_pack_dtype",
    "Mpnum.C85_unpack",
    "Mpnum.C85_est_pmf",
    "Mpnum.C85_lfun",
    "Mpnum.C85_lfun_outcomes",
    "Mpnum.C85_est_lfun",
    "Mpnum.C85_lfun_lists",
    "Mpnum.C85_mps_pmps",
    "Mpnum.C85_pmps_reduction",
    "Mpnum.C85_pmps_dm",
    "Mpnum.C85_inner_prod",
    "Mpnum.C85_special_sumup",
    "Mpnum.C85_eig",
    "Mpnum.C85_eig_sum",
    "Mpnum.C85_compress",
    "Mpnum.C85_pauli",
    "Mpnum.C85_match",
    "Mpnum.C85_compress_var",
    "Mpnum.C85_factory"
   ],
   "note": "Acceptance theorems: a call that returns a value had admissible arguments; equivalences for the constructors, vleg2leg, split, trace, pack_samples and unpack_samples. Two findings: partialtrace accepts two legs of different sizes (C85_trace_unequal); compress('var') does not compare the number of sites of the start MPA."
  },
  {
   "property": "C86",
   "status": "proved",
   "theorems": [
    "Mpnum.C86_separate",
    "Mpnum.C86_progress",
    "Mpnum.C86_norm_of_copies",
    "Mpnum.C86_norm_shared",
    "Mpnum.C86_norm_race",
    "Mpnum.C86_torn_read"
   ],
   "note": "Separation holds for every schedule, program and number of threads. It includes norm and canonicalize of a shared object that has the canonical form already (C86_norm_shared). C86_norm_race and C86_torn_read are findings: norm changes its argument in place, so that threads that share it can return wrong values and change the tensor. A method that only reads is modelled by reading all local tensors one after the other."
  },
  {
   "property": "C87",
   "status": "proved",
   "theorems": [
    "Mpnum.C87_sandwich",
    "Mpnum.C87_sandwich_canonical",
    "Mpnum.C87_sandwich_default",
    "Mpnum.C87_expectation",
    "Mpnum.C87_model_exact",
    "Mpnum.C87_inner_dot"
   ],
   "note": "floating point model of sandwich and of inner after dot; relative error of numpy.tensordot as a parameter (contract TdNear)"
  },
  {
   "property": "C88",
   "status": "proved",
   "theorems": [
    "Mpnum.C88_partialtrace",
    "Mpnum.C88_trace",
    "Mpnum.C88_trace_mpo",
    "Mpnum.C88_trace_first_order",
    "Mpnum.C88_model_exact"
   ],
   "note": "numpy.trace and numpy.tensordot are parameters with a bounded error"
  },
  {
   "property": "C89",
   "status": "proved",
   "theorems": [
    "Mpnum.C89_sum",
    "Mpnum.C89_sum_all",
    "Mpnum.C89_model_exact"
   ],
   "note": "the sum of numpy and numpy.tensordot are parameters with a bounded error"
  },
  {
   "property": "C90",
   "status": "proved",
   "theorems": [
    "Mpnum.C90_reductions_mpo",
    "Mpnum.C90_width",
    "Mpnum.C90_model_exact",
    "Mpnum.C90_pmps_to_mpo",
    "Mpnum.C90_pmps_model_exact"
   ],
   "note": "reductions_mpo for every sequence of windows (explicit sites or width) and pmps_to_mpo, with errors in numpy.trace and numpy.tensordot; the models with exact functions are the exact models."
  },
  {
   "property": "C91",
   "status": "proved",
   "theorems": [
    "Mpnum.C91_expectations",
    "Mpnum.C91_pmf",
    "Mpnum.C91_probabilities",
    "Mpnum.C91_pmf_as_array",
    "Mpnum.C91_slow_exact",
    "Mpnum.C91_model_exact"
   ],
   "note": "expectations, pmf and pmf_as_array with mode 'mpdo' (chosen by 'auto' for MPOs), with errors in numpy.trace and numpy.tensordot; the models with exact functions are the exact models."
  },
  {
   "property": "C92",
   "status": "proved",
   "theorems": [
    "Mpnum.C92_dm_to_array",
    "Mpnum.C92_dm_to_array_global",
    "Mpnum.C92_dm_model_exact",
    "Mpnum.C92_mps_to_mpo",
    "Mpnum.C92_mps_model_exact",
    "Mpnum.C92_prune",
    "Mpnum.C92_prune_singletons"
   ],
   "note": "Distance to the density matrix of pmps_dm_to_array (both orders of the legs), to the projector of mps_to_mpo and to the exact result of prune, with a relative error per contraction; the models with the exact contraction are those of C33 and C21. Ranks and dimensions of pmps_dm_to_array are assumed positive, as in C33."
  }
 ]
}