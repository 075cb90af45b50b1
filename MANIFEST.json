{
 "claims": [
  {
   "property": "C01",
   "status": "proved",
   "theorems": [
    "LieNN.Props.C01_isPerm_iff",
    "LieNN.Props.C01_numbering",
    "LieNN.Props.C01_fromInt_injective",
    "LieNN.Props.C01_group",
    "LieNN.Props.C01_rand_uniform"
   ],
   "note": "n unbounded; rand(n) covered as from_int of an arbitrary number below n!."
  },
  {
   "property": "C02",
   "status": "proved",
   "theorems": [
    "LieNN.Props.C02_group_laws",
    "LieNN.Props.C02_laws_on_tuples",
    "LieNN.Props.C02_compose_rejects"
   ],
   "note": ""
  },
  {
   "property": "C03",
   "status": "proved",
   "theorems": [
    "LieNN.Props.C03_germinate",
    "LieNN.Props.C03_germinate_is_group",
    "LieNN.Props.C03_germinate_empty"
   ],
   "note": "loop modelled with fuel; every fuel >= n!+1 gives the result."
  },
  {
   "property": "C04",
   "status": "proved",
   "theorems": [
    "LieNN.Props.C04_is_group",
    "LieNN.Props.C04_is_group_decides",
    "LieNN.Props.C04_empty"
   ],
   "note": ""
  },
  {
   "property": "C05",
   "status": "proved",
   "theorems": [
    "LieNN.Props.C05_signs",
    "LieNN.Props.C05_multiplicative"
   ],
   "note": ""
  },
  {
   "property": "C06",
   "status": "proved",
   "theorems": [
    "LieNN.Props.C06_normalize"
   ],
   "note": ""
  },
  {
   "property": "C07",
   "status": "proved",
   "theorems": [
    "LieNN.Props.C07_limit_denominator",
    "LieNN.Props.C07_exact_below",
    "LieNN.Props.C07_fails_at_max",
    "LieNN.Props.C07_unrestricted_false"
   ],
   "note": "proved for d != max_denominator as stated; at d == max_denominator the code returns 0/1 (C07_fails_at_max, C07_unrestricted_false)."
  },
  {
   "property": "C08",
   "status": "proved",
   "theorems": [
    "LieNN.Props.C08_vectorised",
    "LieNN.Props.C08_vectorised_converse",
    "LieNN.Props.C08_terminates"
   ],
   "note": "both directions; array of any length, loop with fuel."
  },
  {
   "property": "C09",
   "status": "proved",
   "theorems": [
    "LieNN.Props.C09_as_approx_integer_ratio",
    "LieNN.Props.C09_abs_error"
   ],
   "note": "exact real arithmetic; float64 rounding not modelled."
  },
  {
   "property": "C10",
   "status": "proved",
   "theorems": [
    "LieNN.Props.C10_round_to_sqrt_rational",
    "LieNN.Props.C10_default",
    "LieNN.Props.C10_complex"
   ],
   "note": "exact real arithmetic; stronger than stated (p <= 3q, any max_denominator with p(N^2+1) < 2^50)."
  },
  {
   "property": "C11",
   "status": "proved",
   "theorems": [
    "LieNN.Props.C11_direct_sum_blocks",
    "LieNN.Props.C11_direct_sum_empty",
    "LieNN.Props.C11_direct_sum_mul",
    "LieNN.Props.C11_direct_sum_assoc",
    "LieNN.Props.C11_direct_sum_one",
    "LieNN.Props.C11_block_diagonal_eq",
    "LieNN.Props.C11_block_diagonal_real_part",
    "LieNN.Props.C11_block_diagonal_complex_false"
   ],
   "note": ""
  },
  {
   "property": "C12",
   "status": "proved",
   "theorems": [
    "LieNN.Props.C12_gram_schmidt",
    "LieNN.Props.C12_gram_schmidt_exact",
    "LieNN.Props.C12_gram_schmidt_fixed"
   ],
   "note": ""
  },
  {
   "property": "C13",
   "status": "proved",
   "theorems": [
    "LieNN.Props.C13_extend_basis",
    "LieNN.Props.C13_extend_basis_full_rank_raises"
   ],
   "note": "n >= 1; at n = 0 np.stack([]) raises for both values of `returns`."
  },
  {
   "property": "C14",
   "status": "proved",
   "theorems": [
    "LieNN.Props.C14_nullspace",
    "LieNN.Props.C14_nullspace_length",
    "LieNN.Props.C14_nullspace_residual"
   ],
   "note": "eigh is any function satisfying EighSpec; exact arithmetic; round_fn is the identity."
  },
  {
   "property": "C15",
   "status": "proved",
   "theorems": [
    "LieNN.Props.C15_sequential_nullspace",
    "LieNN.Props.C15_sequential_nullspace_raises"
   ],
   "note": "gap hypothesis on each constraint restricted to the kernel of the previous ones (GapOn)."
  },
  {
   "property": "C16",
   "status": "proved",
   "theorems": [
    "LieNN.Props.C16_infer_change_of_basis",
    "LieNN.Props.C16_infer_change_of_basis_empty",
    "LieNN.Props.C16_rep_infer_change_of_basis",
    "LieNN.Props.C16_rep_infer_change_of_basis_exp_map",
    "LieNN.Props.C16_rep_infer_change_of_basis_guard",
    "LieNN.Props.C16_gap_su2"
   ],
   "note": "Rep-level tolerance is the fixed 1e-4 of the code, hence d1*d2 < 10^8."
  },
  {
   "property": "C17",
   "status": "proved",
   "theorems": [
    "LieNN.Props.C17_is_irreducible_unitary",
    "LieNN.Props.C17_is_irreducible_of_irreducible",
    "LieNN.Props.C17_is_irreducible_non_unitary_false"
   ],
   "note": "the non-unitary direction is refuted by C17_is_irreducible_non_unitary_false, as the statement says."
  },
  {
   "property": "C18",
   "status": "proved",
   "theorems": [
    "LieNN.Props.C18_infer_algebra_sound",
    "LieNN.Props.C18_infer_algebra_complete",
    "LieNN.Props.C18_infer_algebra_iff",
    "LieNN.Props.C18_from_generators",
    "LieNN.Props.C18_from_generators_isRep",
    "LieNN.Props.C18_infer_algebra_complex_false"
   ],
   "note": ""
  },
  {
   "property": "C19",
   "status": "proved",
   "theorems": [
    "LieNN.Props.C19_unique_with_tol",
    "LieNN.Props.C19_clustering_unique",
    "LieNN.Props.C19_unique_with_tol_empty",
    "LieNN.Props.C19_unique_with_tol_nonpositive",
    "LieNN.Props.C19_example_ok",
    "LieNN.Props.C19_order_dependent"
   ],
   "note": ""
  },
  {
   "property": "C20",
   "status": "proved",
   "theorems": [
    "LieNN.Props.C20_decompose_from",
    "LieNN.Props.C20_decompose_rep",
    "LieNN.Props.C20_gram_schmidt_orthonormal",
    "LieNN.Props.C20_block_algebra",
    "LieNN.Props.C20_decompose_complex_false",
    "LieNN.Props.C20_decompose_spans"
   ],
   "note": ""
  },
  {
   "property": "C21",
   "status": "proved",
   "theorems": [
    "LieNN.Props.C21_regular_representation"
   ],
   "note": ""
  },
  {
   "property": "C22",
   "status": "proved",
   "theorems": [
    "LieNN.Props.C22_change_basis_algebra",
    "LieNN.Props.C22_change_basis_exp_map",
    "LieNN.Props.C22_change_basis_intertwines",
    "LieNN.Props.C22_change_basis_comp",
    "LieNN.Props.C22_change_basis_inverse"
   ],
   "note": ""
  },
  {
   "property": "C23",
   "status": "proved",
   "theorems": [
    "LieNN.Props.C23_change_algebra",
    "LieNN.Props.C23_change_algebra_exp_map"
   ],
   "note": ""
  },
  {
   "property": "C24",
   "status": "proved",
   "theorems": [
    "LieNN.Props.C24_conjugate",
    "LieNN.Props.C24_conjugate_needs_real"
   ],
   "note": ""
  },
  {
   "property": "C25",
   "status": "proved",
   "theorems": [
    "LieNN.Props.C25_direct_sum",
    "LieNN.Props.C25_direct_sum_guard"
   ],
   "note": ""
  },
  {
   "property": "C26",
   "status": "proved",
   "theorems": [
    "LieNN.Props.C26_tensor_product",
    "LieNN.Props.C26_tensor_product_guard"
   ],
   "note": ""
  },
  {
   "property": "C27",
   "status": "proved",
   "theorems": [
    "LieNN.Props.C27_tensor_power",
    "LieNN.Props.C27_tensor_power_zero",
    "LieNN.Props.C27_tensor_power_negative"
   ],
   "note": ""
  },
  {
   "property": "C28",
   "status": "proved",
   "theorems": [
    "LieNN.Props.C28_group_product",
    "LieNN.Props.C28_tabulated_product"
   ],
   "note": ""
  },
  {
   "property": "C29",
   "status": "proved",
   "theorems": [
    "LieNN.Props.C29_unitary_constructions",
    "LieNN.Props.C29_unitary_tensor_power",
    "LieNN.Props.C29_unitary_action",
    "LieNN.Props.C29_is_unitary_accepts"
   ],
   "note": ""
  },
  {
   "property": "C30",
   "status": "proved",
   "theorems": [
    "LieNN.Props.C30_create_trivial",
    "LieNN.Props.C30_tensor_unit"
   ],
   "note": ""
  },
  {
   "property": "C31",
   "status": "proved",
   "theorems": [
    "LieNN.Props.C31_clebsch_gordan",
    "LieNN.Props.C31_clebsch_gordan_exp_map"
   ],
   "note": ""
  },
  {
   "property": "C32",
   "status": "proved",
   "theorems": [
    "LieNN.Props.C32_is_real",
    "LieNN.Props.C32_is_real_of_real_form",
    "LieNN.Props.C32_make_explicitly_real_sound",
    "LieNN.Props.C32_make_explicitly_real_complete",
    "LieNN.Props.C32_is_real_spin_half_false",
    "LieNN.Props.C32_make_explicitly_real_discrete_false"
   ],
   "note": ""
  },
  {
   "property": "C33",
   "status": "proved",
   "theorems": [
    "LieNN.Props.C33_mulirrep",
    "LieNN.Props.C33_reduced_rep",
    "LieNN.Props.C33_algebra",
    "LieNN.Props.C33_mul_zero",
    "LieNN.Props.C33_raises",
    "LieNN.Props.C33_raises_lie_dim_zero",
    "LieNN.Props.C33_raises_empty",
    "LieNN.Props.C33_from_irreps",
    "LieNN.Props.C33_from_irreps_bad_shape"
   ],
   "note": "a Table models any TabulatedIrrep subclass; MulIrrep of a tabulated irrep."
  },
  {
   "property": "C34",
   "status": "proved",
   "theorems": [
    "LieNN.Props.C34_tabulated",
    "LieNN.Props.C34_mulirrep",
    "LieNN.Props.C34_mulirrep_tabulated",
    "LieNN.Props.C34_reduced_rep",
    "LieNN.Props.C34_rounding_bound",
    "LieNN.Props.C34_rounding_false"
   ],
   "note": "exact arithmetic; for ReducedRep x ReducedRep the two np.allclose tests on the final Q must only fire on exact equalities (hypothesis RoundExact); without it the claim is refuted by C34_rounding_false, and C34_rounding_bound bounds the error in the stored Q."
  },
  {
   "property": "C35",
   "status": "proved",
   "theorems": [
    "LieNN.Props.C35_mul_reduced",
    "LieNN.Props.C35_tab_reduced",
    "LieNN.Props.C35_reduced_mul_swapped",
    "LieNN.Props.C35_reduced_tab_swapped",
    "LieNN.Props.C35_reduced_mul_false"
   ],
   "note": "the correct overloads are proved; the defect of the two others is proved in general (..._swapped) and by a concrete witness (C35_reduced_mul_false)."
  },
  {
   "property": "C36",
   "status": "proved",
   "theorems": [
    "LieNN.Props.C36_algebra",
    "LieNN.Props.C36_unitary",
    "LieNN.Props.C36_casimir",
    "LieNN.Props.C36_irreducible",
    "LieNN.Props.C36_inequivalent"
   ],
   "note": ""
  },
  {
   "property": "C37",
   "status": "proved",
   "theorems": [
    "LieNN.Props.C37_unitary",
    "LieNN.Props.C37_real",
    "LieNN.Props.C37_representation",
    "LieNN.Props.C37_negative",
    "LieNN.Props.C37_irreducible"
   ],
   "note": ""
  },
  {
   "property": "C38",
   "status": "proved",
   "theorems": [
    "LieNN.Props.C38_parity",
    "LieNN.Props.C38_exp_map",
    "LieNN.Props.C38_group",
    "LieNN.Props.C38_selection",
    "LieNN.Props.C38_z2",
    "LieNN.Props.C38_unchecked"
   ],
   "note": ""
  },
  {
   "property": "C39",
   "status": "proved",
   "theorems": [
    "LieNN.Props.C39_algebras",
    "LieNN.Props.C39_constants",
    "LieNN.Props.C39_before_basis",
    "LieNN.Props.C39_sl2c",
    "LieNN.Props.C39_sl2c_compact",
    "LieNN.Props.C39_boost",
    "LieNN.Props.C39_so13",
    "LieNN.Props.C39_so13_not_real",
    "LieNN.Props.C39_four_vector"
   ],
   "note": "scipy.linalg.sqrtm is any function satisfying SqrtmSpec; eigh any satisfying EighSpec; roundings are the identity; dimension below 10^4 for SO13 (tolerance of the rank test). The spectral gap is proved (Casimir eigenvalues), not assumed."
  },
  {
   "property": "C40",
   "status": "proved",
   "theorems": [
    "LieNN.Props.C40_z2",
    "LieNN.Props.C40_su2",
    "LieNN.Props.C40_so3",
    "LieNN.Props.C40_o3",
    "LieNN.Props.C40_su2real",
    "LieNN.Props.C40_sl2c",
    "LieNN.Props.C40_so13",
    "LieNN.Props.C40_so13_trivial",
    "LieNN.Props.C40_sun",
    "LieNN.Props.C40_sun_labels",
    "LieNN.Props.C40_create_trivial",
    "LieNN.Props.C40_su3_unchecked",
    "LieNN.Props.C40_product"
   ],
   "note": "generators with an infinite loop are modelled by what each turn of the outer loop yields; SU2Real labels are exact rationals. TabulatedIrrepProduct has no iterator (NotImplementedError). SU2_, SU3, SU4 drop the checks of SUN (C40_su3_unchecked); validity means the normal form SUN accepts."
  },
  {
   "property": "C41",
   "status": "proved",
   "theorems": [
    "LieNN.Props.C41_su2",
    "LieNN.Props.C41_so3",
    "LieNN.Props.C41_o3",
    "LieNN.Props.C41_z2",
    "LieNN.Props.C41_sl2c",
    "LieNN.Props.C41_so13",
    "LieNN.Props.C41_product"
   ],
   "note": "O3 and Z2 for parities 1 and -1; SO3 for non-negative l; SO13 for labels its constructor accepts."
  },
  {
   "property": "C42",
   "status": "proved",
   "theorems": [
    "LieNN.Props.C42_shape",
    "LieNN.Props.C42_equivariant",
    "LieNN.Props.C42_weights"
   ],
   "note": ""
  },
  {
   "property": "C43",
   "status": "proved",
   "theorems": [
    "LieNN.Props.C43_dim_length",
    "LieNN.Props.C43_dim_card",
    "LieNN.Props.C43_invalid"
   ],
   "note": "all weights, negative entries included; also stated against the set of patterns (C43_dim_card)."
  },
  {
   "property": "C44",
   "status": "proved",
   "theorems": [
    "LieNN.Props.C44_index",
    "LieNN.Props.C44_pattern",
    "LieNN.Props.C44_too_large"
   ],
   "note": "non-negative indices; a negative index behaves as 0 in the code and is not covered."
  },
  {
   "property": "C45",
   "status": "proved",
   "theorems": [
    "LieNN.Props.C45_patterns",
    "LieNN.Props.C45_rows",
    "LieNN.Props.C45_is_valid",
    "LieNN.Props.C45_single"
   ],
   "note": "is_valid_M: arrays with at least two rows; with a single row it accepts everything (C45_single)."
  },
  {
   "property": "C46",
   "status": "proved",
   "theorems": [
    "LieNN.Props.C46_coefficients",
    "LieNN.Props.C46_adjoint",
    "LieNN.Props.C46_entries"
   ],
   "note": "weights without negative entry, as SUN's constructor guarantees; exact square roots."
  },
  {
   "property": "C47",
   "status": "proved",
   "theorems": [
    "LieNN.Props.C47_weights",
    "LieNN.Props.C47_pweight"
   ],
   "note": "as C46; also the off-diagonal Cartan integers."
  },
  {
   "property": "C48",
   "status": "proved",
   "theorems": [
    "LieNN.Props.C48_mul",
    "LieNN.Props.C48_mul_rep"
   ],
   "note": "also for a first factor with positive last entry and any second tuple of that length."
  },
  {
   "property": "C49",
   "status": "proved",
   "theorems": [
    "LieNN.Props.C49_number",
    "LieNN.Props.C49_orthonormal",
    "LieNN.Props.C49_first_iff",
    "LieNN.Props.C49_rest",
    "LieNN.Props.C49_all_iff",
    "LieNN.Props.C49_octet_wrong",
    "LieNN.Props.C49_octets_wrong"
   ],
   "note": "exact real arithmetic; round_to_sqrt_rational is any function that keeps 0, 1 and the entries of the raising operators, nullspace any function that is exact on the constraint matrix (both exist: keepsLadder_id, nullExact_exactNull). The positive claim fails in the code: C49_all_iff says exactly for which labels it holds, C49_octet_wrong and C49_octets_wrong are witnesses."
  },
  {
   "property": "C50",
   "status": "proved",
   "theorems": [
    "LieNN.Props.C50_formula",
    "LieNN.Props.C50_negative",
    "LieNN.Props.C50_malformed",
    "LieNN.Props.C50_germinate"
   ],
   "note": "all formulas: negative first term AssertionError, malformed RuntimeError, otherwise the loop halts with the generated subgroup"
  },
  {
   "property": "C51",
   "status": "proved",
   "theorems": [
    "LieNN.Props.C51_matrix",
    "LieNN.Props.C51_sign",
    "LieNN.Props.C51_rowMajor"
   ],
   "note": "exact arithmetic; the group is any subgroup of the signed permutations, the dims are constant on its orbits"
  },
  {
   "property": "C52",
   "status": "proved",
   "theorems": [
    "LieNN.Props.C52_subrepr",
    "LieNN.Props.C52_group"
   ],
   "note": "any subset of the indices, any set of signed permutations"
  },
  {
   "property": "C53",
   "status": "proved",
   "theorems": [
    "LieNN.Props.C53_init",
    "LieNN.Props.C53_sorted",
    "LieNN.Props.C53_simplify",
    "LieNN.Props.C53_simplify_array",
    "LieNN.Props.C53_reshape",
    "LieNN.Props.C53_reshape_size",
    "LieNN.Props.C53_reshape_last_false"
   ],
   "note": "labels linearly ordered by __lt__; an empty IrrepsArray raises AssertionError; reshape: Props/Reshape.lean, -1 only as the last size; its check of an explicit last size is a defect (C53_reshape_last_false)"
  },
  {
   "property": "C54",
   "status": "proved",
   "theorems": [
    "LieNN.Props.C54_reduce_basis_product",
    "LieNN.Props.C54_empty"
   ],
   "note": "bases on disjoint axes, arbitrary representations on the leading axes; also the multiplicities and the AssertionError of an empty result"
  },
  {
   "property": "C55",
   "status": "proved",
   "theorems": [
    "LieNN.Props.C55_matrix_power",
    "LieNN.Props.C55_matrix_power_mod",
    "LieNN.Props.C55_matrix_power_dtype",
    "LieNN.Props.C55_exp_map",
    "LieNN.Props.C55_negative_differs"
   ],
   "note": "float arrays only: C55_matrix_power_dtype shows int/complex arrays raise TypeError (scan carry dtype), C55_negative_differs that negative exponents are reduced modulo 2^32."
  },
  {
   "property": "C56",
   "status": "proved",
   "theorems": [
    "LieNN.Props.C56_small_rank",
    "LieNN.Props.C56_cartan_A",
    "LieNN.Props.C56_cartan_B",
    "LieNN.Props.C56_cartan_C",
    "LieNN.Props.C56_cartan_D",
    "LieNN.Props.C56_fundamental_ABC",
    "LieNN.Props.C56_fundamental_D_partial",
    "LieNN.Props.C56_fundamental_D_wrong",
    "LieNN.Props.C56_positive_roots_A",
    "LieNN.Props.C56_positive_roots_B",
    "LieNN.Props.C56_positive_roots_C",
    "LieNN.Props.C56_positive_roots_D",
    "LieNN.Props.C56_coxeter",
    "LieNN.Props.C56_max_root",
    "LieNN.Props.C56_weyl_dim_SUN"
   ],
   "note": "cartan_matrix of B and C is the transpose of Bourbaki's (and Mathlib's) matrix, which the statements say explicitly; for D the fundamental-weight list is proved wrong for rank >= 3 (C56_fundamental_D_wrong) and C56_fundamental_D_partial says which entries are right."
  },
  {
   "property": "C57",
   "status": "proved",
   "theorems": [
    "LieNN.Props.C57_permutation_matrix_mul",
    "LieNN.Props.C57_permutation_matrix_column",
    "LieNN.Props.C57_transposition_matrix",
    "LieNN.Props.C57_transposition_matrix_rejects",
    "LieNN.Props.C57_natural_generators",
    "LieNN.Props.C57_natural_generates",
    "LieNN.Props.C57_standard_embeds",
    "LieNN.Props.C57_standard_hom",
    "LieNN.Props.C57_standard_irreducible",
    "LieNN.Props.C57_trivial",
    "LieNN.Props.C57_standard_not_unitary",
    "LieNN.Props.C57_num_transpositions"
   ],
   "note": "also: standard rep irreducible, injective homomorphism; finding: Sn_standard is not unitary for n >= 3."
  },
  {
   "property": "C58",
   "status": "proved",
   "theorems": [
    "LieNN.Props.C58_numeral",
    "LieNN.Props.C58_su2",
    "LieNN.Props.C58_so3",
    "LieNN.Props.C58_z2",
    "LieNN.Props.C58_o3",
    "LieNN.Props.C58_sl2c",
    "LieNN.Props.C58_sun",
    "LieNN.Props.C58_print",
    "LieNN.Props.C58_su2_only",
    "LieNN.Props.C58_so3_only",
    "LieNN.Props.C58_z2_only",
    "LieNN.Props.C58_o3_only",
    "LieNN.Props.C58_sl2c_trailing",
    "LieNN.Props.C58_sun_trailing",
    "LieNN.Props.C58_sun_valid",
    "LieNN.Props.C58_sun_invalid",
    "LieNN.Props.C58_repr_not_read",
    "LieNN.Props.C58_errors",
    "LieNN.Props.C58_so3_negative"
   ],
   "note": "ASCII strings; the round trip for every label class and every list, the exact set of accepted texts for SU2, SO3, Z2, O3, and the defects: SL2C/SO13/SUN labels ignore trailing text, the repr of a MulIrrep is not readable, SO3 accepts negative labels."
  },
  {
   "property": "C59",
   "status": "proved",
   "theorems": [
    "LieNN.Props.C59_reduce",
    "LieNN.Props.C59_reduce_fails",
    "LieNN.Props.C59_reduce_multiplicity",
    "LieNN.Props.C59_irreducible",
    "LieNN.Props.C59_reduce_error",
    "LieNN.Props.C59_reduce_mul_irrep",
    "LieNN.Props.C59_reduce_reduced"
   ],
   "note": "exact arithmetic; eig must return an eigenbasis of the random commuting matrix on which gram_schmidt loses nothing; spectral gap hypotheses as in C16."
  },
  {
   "property": "C60",
   "status": "proved",
   "theorems": [
    "LieNN.Props.C60_int64_exact"
   ],
   "note": ""
  },
  {
   "property": "C61",
   "status": "proved",
   "theorems": [
    "LieNN.Props.C61_orthonormal",
    "LieNN.Props.C61_complete"
   ],
   "note": ""
  },
  {
   "property": "C62",
   "status": "proved",
   "theorems": [
    "LieNN.Props.C62_tensor_product",
    "LieNN.Props.C62_blocks",
    "LieNN.Props.C62_mulirrep"
   ],
   "note": ""
  },
  {
   "property": "C63",
   "status": "proved",
   "theorems": [
    "LieNN.Props.C63_shape",
    "LieNN.Props.C63_equivariant",
    "LieNN.Props.C63_orthonormal",
    "LieNN.Props.C63_o3_equivariant",
    "LieNN.Props.C63_tensor_product",
    "LieNN.Props.C63_z2_partial",
    "LieNN.Props.C63_z2_false"
   ],
   "note": ""
  },
  {
   "property": "C64",
   "status": "proved",
   "theorems": [
    "LieNN.Props.C64_shape",
    "LieNN.Props.C64_equivariant",
    "LieNN.Props.C64_orthonormal",
    "LieNN.Props.C64_tensor_product",
    "LieNN.Props.C64_irreducible",
    "LieNN.Props.C64_inequivalent"
   ],
   "note": "exact arithmetic; the real arrays of the code are real numbers here."
  },
  {
   "property": "C65",
   "status": "proved",
   "theorems": [
    "LieNN.Props.C65_equivariant",
    "LieNN.Props.C65_complete",
    "LieNN.Props.C65_tensor_product",
    "LieNN.Props.C65_irreducible"
   ],
   "note": "the factors are tables whose selection rules and coefficients do not raise (proved for SU2, SO3, O3, Z2, SL2C)."
  },
  {
   "property": "C66",
   "status": "proved",
   "theorems": [
    "LieNN.Props.C66_round",
    "LieNN.Props.C66_labels",
    "LieNN.Props.C66_generators",
    "LieNN.Props.C66_blocks",
    "LieNN.Props.C66_selection",
    "LieNN.Props.C66_multiplicity_hidden"
   ],
   "note": "exact arithmetic; SU2Real.clebsch_gordan on half-odd spins is treated in C81."
  },
  {
   "property": "C67",
   "status": "proved",
   "theorems": [
    "LieNN.Props.C67_sp_dim",
    "LieNN.Props.C67_so_odd_dim",
    "LieNN.Props.C67_so_even_dim",
    "LieNN.Props.C67_so4_dim",
    "LieNN.Props.C67_small_rank",
    "LieNN.Props.C67_sp_small",
    "LieNN.Props.C67_so_odd_small",
    "LieNN.Props.C67_so_even_wrong",
    "LieNN.Props.C67_sp_negative"
   ],
   "note": "for an even number of labels (>= 4) the natural claim fails: C67_so_even_dim says which irrep's dimension is returned, C67_so_even_wrong holds the witness; negative labels are accepted (C67_sp_negative)."
  },
  {
   "property": "C71",
   "status": "proved",
   "theorems": [
    "LieNN.Props.C71_kron_entries",
    "LieNN.Props.C71_kron_empty",
    "LieNN.Props.C71_kron_mul",
    "LieNN.Props.C71_kron_assoc",
    "LieNN.Props.C71_kron_one",
    "LieNN.Props.C71_commutator"
   ],
   "note": "exact arithmetic."
  },
  {
   "property": "C69",
   "status": "proved",
   "theorems": [
    "LieNN.Props.C69_generators",
    "LieNN.Props.C69_basis",
    "LieNN.Props.C69_algebra",
    "LieNN.Props.C69_rep",
    "LieNN.Props.C69_faithful",
    "LieNN.Props.C69_scalar",
    "LieNN.Props.C69_one"
   ],
   "note": "exact arithmetic; np.linalg.pinv is an argument that satisfies the four Moore-Penrose equations on the generators of the defining label (shown to exist); limit_denominator with enough steps."
  },
  {
   "property": "C72",
   "status": "proved",
   "theorems": [
    "LieNN.Props.C72_irreducible",
    "LieNN.Props.C72_inequivalent",
    "LieNN.Props.C72_one",
    "LieNN.Props.C72_schur"
   ],
   "note": "exact arithmetic."
  },
  {
   "property": "C68",
   "status": "proved",
   "theorems": [
    "LieNN.Props.C68_small",
    "LieNN.Props.C68_even",
    "LieNN.Props.C68_dependent",
    "LieNN.Props.C68_odd"
   ],
   "note": "the code is correct for even n only; C68_odd and C68_small are the failures, for all odd n."
  },
  {
   "property": "C73",
   "status": "proved",
   "theorems": [
    "LieNN.Props.C73_empty",
    "LieNN.Props.C73_intersection",
    "LieNN.Props.C73_small",
    "LieNN.Props.C73_complex"
   ],
   "note": "exact arithmetic; eigh is any function meeting EighSpec and EighReal (one exists: exists_eigh_real). C73_complex is a failure of the code: it uses .T where complex arrays need the conjugate transpose."
  },
  {
   "property": "C70",
   "status": "proved",
   "theorems": [
    "LieNN.Props.C70_basis",
    "LieNN.Props.C70_no_tensor",
    "LieNN.Props.C70_minus",
    "LieNN.Props.C70_one",
    "LieNN.Props.C70_one_negative",
    "LieNN.Props.C70_zero",
    "LieNN.Props.C70_tables",
    "LieNN.Props.C70_acts",
    "LieNN.Props.C70_antisymmetric_negative"
   ],
   "note": "exact arithmetic; the iteration order over small frozensets of ints is the increasing one (SortedOrder, true in CPython for indices below 8); eigh any function meeting EighSpec and EighReal. C70_one_negative and C70_antisymmetric_negative are failures of the code."
  },
  {
   "property": "C74",
   "status": "proved",
   "theorems": [
    "LieNN.Props.C74_list",
    "LieNN.Props.C74_symmetric",
    "LieNN.Props.C74_formula",
    "LieNN.Props.C74_undetermined",
    "LieNN.Props.C74_equal_irreps",
    "LieNN.Props.C74_keywords"
   ],
   "note": "hypotheses as in C70 (SortedOrder, EighSpec, EighReal, GoodTable, GoodRed); object identity is modelled by addresses, the order of iteration over the frozenset of permutations is arbitrary. The case of one index in a formula is C70_one."
  },
  {
   "property": "C75",
   "status": "proved",
   "theorems": [
    "LieNN.Props.C75_group",
    "LieNN.Props.C75_orthogonal",
    "LieNN.Props.C75_so3"
   ],
   "note": "hypotheses for the existence of the result as in C74; `exp` is Mathlib's matrix exponential."
  },
  {
   "property": "C76",
   "status": "proved",
   "theorems": [
    "LieNN.Props.C76_reduced",
    "LieNN.Props.C76_compose",
    "LieNN.Props.C76_unchecked",
    "LieNN.Props.C76_irrep",
    "LieNN.Props.C76_mul"
   ],
   "note": "exact arithmetic; a singular matrix makes np.linalg.inv raise."
  },
  {
   "property": "C77",
   "status": "proved",
   "theorems": [
    "LieNN.Props.C77_multiplicity",
    "LieNN.Props.C77_mem_iff",
    "LieNN.Props.C77_arrays",
    "LieNN.Props.C77_dims",
    "LieNN.Props.C77_perm",
    "LieNN.Props.C77_comm",
    "LieNN.Props.C77_one",
    "LieNN.Props.C77_octets",
    "LieNN.Props.C77_quarks"
   ],
   "note": "Full. The Littlewood-Richardson rule is proved from scratch: a sign-reversing involution on Gelfand-Tsetlin patterns gives the product of an alternating sum and a character (LRPat, LRRow, LRAlt, LRSum), complete reducibility of the tensor product of the constructed matrices gives the product of two characters (LadderSplit, LRDecomp, LRSplit), the two are compared by coefficients (LRCount), and the loop is shown to test exactly the row conditions (LRLoop). Exact arithmetic for the arrays of clebsch_gordan (C49)."
  },
  {
   "property": "C78",
   "status": "proved",
   "theorems": [
    "LieNN.Props.C78_su2",
    "LieNN.Props.C78_so3",
    "LieNN.Props.C78_o3",
    "LieNN.Props.C78_sl2c",
    "LieNN.Props.C78_space",
    "LieNN.Props.C78_tables",
    "LieNN.Props.C78_selection"
   ],
   "note": "Full, exact arithmetic; eigh enters by its specification (EighSpec) and the spectral gap of the linear system is proved from Casimir operators. The bound 10^8 is where the Gram-Schmidt threshold of the code (1e-4) could drop the only direction."
  },
  {
   "property": "C79",
   "status": "proved",
   "theorems": [
    "LieNN.Props.C79_generic",
    "LieNN.Props.C79_orthonormal",
    "LieNN.Props.C79_orthogonal"
   ],
   "note": "Full, exact arithmetic; eigh enters by its specification and the spectral gap (smallest non-zero eigenvalue >= 1) is proved for every N from the Casimir identity and integer weights. Bound 10^8 as in C78."
  },
  {
   "property": "C80",
   "status": "proved",
   "theorems": [
    "LieNN.Props.C80_cg",
    "LieNN.Props.C80_real",
    "LieNN.Props.C80_make",
    "LieNN.Props.C80_mul"
   ],
   "note": "Full, exact arithmetic; eigh and sqrtm enter by specification, rounding is not modelled."
  },
  {
   "property": "C81",
   "status": "proved",
   "theorems": [
    "LieNN.Props.C81_generic_real",
    "LieNN.Props.C81_cg",
    "LieNN.Props.C81_integer",
    "LieNN.Props.C81_equivariant",
    "LieNN.Props.C81_tensor_product",
    "LieNN.Props.C81_tensor_product_raises"
   ],
   "note": "Exact arithmetic; eigh enters by specification, round_fn is the identity. The half-odd branch goes through the generic solver on real matrices."
  },
  {
   "property": "C82",
   "status": "proved",
   "theorems": [
    "LieNN.Props.C82_isRound",
    "LieNN.Props.C82_label",
    "LieNN.Props.C82_equal",
    "LieNN.Props.C82_small",
    "LieNN.Props.C82_top_rounded",
    "LieNN.Props.C82_differs",
    "LieNN.Props.C82_witness"
   ],
   "note": "Arithmetic is exact, but the rounding is the one of the code (round_to_sqrt_rational with max_denominator 4096) wherever the code rounds; eigh enters by specification. The size conditions are what the rounding needs and C82_differs shows that a condition of this kind cannot be dropped."
  },
  {
   "property": "C83",
   "status": "proved",
   "theorems": [
    "LieNN.Props.C83_iff",
    "LieNN.Props.C83_exact_iff",
    "LieNN.Props.C83_pass",
    "LieNN.Props.C83_raises",
    "LieNN.Props.C83_blind",
    "LieNN.Props.C83_parity_unchecked",
    "LieNN.Props.C83_su2",
    "LieNN.Props.C83_so3",
    "LieNN.Props.C83_o3",
    "LieNN.Props.C83_sl2c",
    "LieNN.Props.C83_su2real",
    "LieNN.Props.C83_so13",
    "LieNN.Props.C83_generic",
    "LieNN.Props.C83_sun_generic",
    "LieNN.Props.C83_sun_pass",
    "LieNN.Props.C83_su2_generic",
    "LieNN.Props.C83_so3_generic",
    "LieNN.Props.C83_o3_generic",
    "LieNN.Props.C83_sl2c_generic",
    "LieNN.Props.C83_sun_raises",
    "LieNN.Props.C83_octets_raise"
   ],
   "note": "Arithmetic is exact, so the tolerances only make the check weaker. There is at least one continuous generator."
  },
  {
   "property": "C84",
   "status": "proved",
   "theorems": [
    "LieNN.Props.C84_tables",
    "LieNN.Props.C84_product",
    "LieNN.Props.C84_recompute",
    "LieNN.Props.C84_selection",
    "LieNN.Props.C84_triplet",
    "LieNN.Props.C84_triplet_generic",
    "LieNN.Props.C84_su2su2",
    "LieNN.Props.C84_so3z2z2",
    "LieNN.Props.C84_tests_vacuous",
    "LieNN.Props.C84_tests_one"
   ],
   "note": "Arithmetic is exact; eigh by specification. A class is a table of labels, matrices, products and arrays."
  },
  {
   "property": "C85",
   "status": "proved",
   "theorems": [
    "LieNN.Props.C85_weights",
    "LieNN.Props.C85_decompose",
    "LieNN.Props.C85_reduce"
   ],
   "note": "Arithmetic is exact and round_fn is the identity; eigh and eig by specification; the weights of np.random.rand are a point of R^N and the theorem says that the exceptional points have Lebesgue measure zero. For complex generators the blocks need not even be sub-representations (C20_decompose_complex_false)."
  },
  {
   "property": "C86",
   "status": "proved",
   "theorems": [
    "LieNN.Props.C86_vmap",
    "LieNN.Props.C86_tuple",
    "LieNN.Props.C86_errors",
    "LieNN.Props.C86_shapes",
    "LieNN.Props.C86_empty",
    "LieNN.Props.C86_left_side",
    "LieNN.Props.C86_kron_add"
   ],
   "note": "Arrays are a shape with a function on multi-indices; axes are non-negative; the outcome of np.empty(None) depends on the numpy version and is a parameter."
  },
  {
   "property": "C87",
   "status": "proved",
   "theorems": [
    "LieNN.Props.C87_exact",
    "LieNN.Props.C87_nullspace",
    "LieNN.Props.C87_nullspace_one",
    "LieNN.Props.C87_nullspace_bad_run",
    "LieNN.Props.C87_is_irreducible",
    "LieNN.Props.C87_is_irreducible_unitary",
    "LieNN.Props.C87_su2_irreducible",
    "LieNN.Props.C87_clebsch_gordan",
    "LieNN.Props.C87_su2"
   ],
   "note": "Errors are absolute and bounded in norm by delta per step (vector update of the inner loop, norm, division, each row of the projection; for eigh a backward error and a distance of the eigenvectors from an orthonormal basis); how delta follows from the unit roundoff and the sizes is not derived. The checks of infer_change_of_basis and the factor sqrt(dim) are evaluated exactly; round_fn is the identity."
  },
  {
   "property": "C88",
   "status": "proved",
   "theorems": [
    "LieNN.Props.C88_errors",
    "LieNN.Props.C88_fields",
    "LieNN.Props.C88_tsDim_wrong",
    "LieNN.Props.C88_dynkin_ABC",
    "LieNN.Props.C88_label_column",
    "LieNN.Props.C88_dynkin_D_wrong",
    "LieNN.Props.C88_max_root_D"
   ],
   "note": "The text is a list of characters. The property as one would state it (a dictionary with the dimension and the right diagram) is false for tsDim and for type D: C88_tsDim_wrong and C88_dynkin_D_wrong prove the negations for all ranks; everything else is proved in full."
  },
  {
   "property": "C89",
   "status": "proved",
   "theorems": [
    "LieNN.Props.C89_sum",
    "LieNN.Props.C89_algebra",
    "LieNN.Props.C89_general",
    "LieNN.Props.C89_su2",
    "LieNN.Props.C89_su2_float64",
    "LieNN.Props.C89_run_exists",
    "LieNN.Props.C89_exact",
    "LieNN.Props.C89_algebra_bad_run",
    "LieNN.Props.C89_su2_bad_run",
    "LieNN.Props.C89_su2_float64_bad"
   ],
   "note": "Relative errors: no overflow and no underflow. The exact values are those of the model of SU2 (C36, C42, C61). The comparison itself is evaluated with errors too."
  },
  {
   "property": "C90",
   "status": "proved",
   "theorems": [
    "LieNN.Props.C90_su2_group",
    "LieNN.Props.C90_su2",
    "LieNN.Props.C90_su2_polynomial",
    "LieNN.Props.C90_su2_kernel",
    "LieNN.Props.C90_so3_group",
    "LieNN.Props.C90_so3",
    "LieNN.Props.C90_so3_polynomial",
    "LieNN.Props.C90_so3_kernel",
    "LieNN.Props.C90_o3_group",
    "LieNN.Props.C90_o3",
    "LieNN.Props.C90_sun_group",
    "LieNN.Props.C90_sun",
    "LieNN.Props.C90_sun_polynomial",
    "LieNN.Props.C90_sun_kernel"
   ],
   "note": "Matrix exponential exact (Mathlib NormedSpace.exp). Uses the models of C36, C37, C38, C69, C72 and the Clebsch-Gordan theorems C61 and C67."
  },
  {
   "property": "C91",
   "status": "proved",
   "theorems": [
    "LieNN.Props.C91_group",
    "LieNN.Props.C91_so13",
    "LieNN.Props.C91_polynomial",
    "LieNN.Props.C91_faithful",
    "LieNN.Props.C91_parity",
    "LieNN.Props.C91_odd",
    "LieNN.Props.C91_sl2c_group",
    "LieNN.Props.C91_sl2c"
   ],
   "note": "Matrix exponential exact (Mathlib NormedSpace.exp); eigh and sqrtm by specification as in C39. Uses the models of C39 and the Clebsch-Gordan theorems of SL2C."
  },
  {
   "property": "C92",
   "status": "proved",
   "theorems": [
    "LieNN.Props.C92_su2",
    "LieNN.Props.C92_su2_dim",
    "LieNN.Props.C92_sl2c",
    "LieNN.Props.C92_so3",
    "LieNN.Props.C92_so3_spin",
    "LieNN.Props.C92_o3",
    "LieNN.Props.C92_z2",
    "LieNN.Props.C92_so13",
    "LieNN.Props.C92_sun"
   ],
   "note": "Equivalence is Spec/Complete.lean; irreducible means no invariant subspace (Spec/LinAlg.lean). eigh, sqrtm and pinv by specification as in C39 and C69."
  },
  {
   "property": "C93",
   "status": "proved",
   "theorems": [
    "LieNN.Props.C93_general",
    "LieNN.Props.C93_multiplicity",
    "LieNN.Props.C93_determined",
    "LieNN.Props.C93_su2_semisimple",
    "LieNN.Props.C93_su2",
    "LieNN.Props.C93_sl2c_semisimple",
    "LieNN.Props.C93_sl2c",
    "LieNN.Props.C93_so3",
    "LieNN.Props.C93_so3_spin",
    "LieNN.Props.C93_o3",
    "LieNN.Props.C93_so13_semisimple",
    "LieNN.Props.C93_so13",
    "LieNN.Props.C93_sun_semisimple",
    "LieNN.Props.C93_sun"
   ],
   "note": "Acts is Spec/Reduced.lean, invariant complements Spec/Semisimple.lean, multiplicity Spec/Multiplicity.lean. For SUN and SO13, which the model has no product and Clebsch-Gordan table for, the statement is about every table in which the accepted labels occur. Z2 is left out: ReducedRep.continuous_generators raises without continuous generators (C63)."
  },
  {
   "property": "C94",
   "status": "proved",
   "theorems": [
    "LieNN.Props.C94_sum",
    "LieNN.Props.C94_regular"
   ],
   "note": "blockSum is Spec/BlockSum.lean, Equivalent Spec/Complete.lean. Exact arithmetic; the hypotheses on eig and eigh are those of C85."
  },
  {
   "property": "C95",
   "status": "proved",
   "theorems": [
    "LieNN.Props.C95_exp_map",
    "LieNN.Props.C95_exp_map_standard",
    "LieNN.Props.C95_count",
    "LieNN.Props.C95_reaches",
    "LieNN.Props.C95_not_closed",
    "LieNN.Props.C95_equivariant",
    "LieNN.Props.C95_natural_maps",
    "LieNN.Props.C95_natural_sum"
   ],
   "note": "The representations are the Rep 0 h d whose discrete generators are what the model of finite.py returns."
  },
  {
   "property": "C96",
   "status": "proved",
   "theorems": [
    "LieNN.Props.C96_power",
    "LieNN.Props.C96_multiplicative",
    "LieNN.Props.C96_zero",
    "LieNN.Props.C96_classes",
    "LieNN.Props.C96_negative",
    "LieNN.Props.C96_no_blocks",
    "LieNN.Props.C96_trivial_error",
    "LieNN.Props.C96_first_power_false",
    "LieNN.Props.C96_su2",
    "LieNN.Props.C96_su2_mul",
    "LieNN.Props.C96_su2_multiplicity",
    "LieNN.Props.C96_su2_one",
    "LieNN.Props.C96_catalan"
   ],
   "note": "The exactness of the tolerances is a hypothesis for a general table (C96_first_power_false shows that it is needed) and proved for SU2(j), j >= 1."
  },
  {
   "property": "C97",
   "status": "proved",
   "theorems": [
    "LieNN.Props.C97_su2",
    "LieNN.Props.C97_sl2c",
    "LieNN.Props.C97_so13",
    "LieNN.Props.C97_o3",
    "LieNN.Props.C97_pseudoscalar",
    "LieNN.Props.C97_sun",
    "LieNN.Props.C97_spn",
    "LieNN.Props.C97_son",
    "LieNN.Props.C97_negative"
   ],
   "note": "Restricted for SON and SPN to non-negative entries, since the classes accept negative ones; C97_negative shows the restriction is needed."
  },
  {
   "property": "C98",
   "status": "proved",
   "theorems": [
    "LieNN.Props.C98_true",
    "LieNN.Props.C98_exact",
    "LieNN.Props.C98_semisimple",
    "LieNN.Props.C98_su2",
    "LieNN.Props.C98_count",
    "LieNN.Props.C98_reduced",
    "LieNN.Props.C98_product",
    "LieNN.Props.C98_su2_count",
    "LieNN.Props.C98_su2_labels",
    "LieNN.Props.C98_scale"
   ],
   "note": "The gap of the spectrum is a hypothesis except for anti-hermitian SU2 representations, where it is proved; C98_scale shows it cannot be dropped."
  },
  {
   "property": "C99",
   "status": "proved",
   "theorems": [
    "LieNN.Props.C99_group_product",
    "LieNN.Props.C99_product",
    "LieNN.Props.C99_direct_sum",
    "LieNN.Props.C99_unique",
    "LieNN.Props.C99_reduced",
    "LieNN.Props.C99_su2",
    "LieNN.Props.C99_sl2c",
    "LieNN.Props.C99_so3",
    "LieNN.Props.C99_o3",
    "LieNN.Props.C99_z2",
    "LieNN.Props.C99_sun",
    "LieNN.Props.C99_computes",
    "LieNN.Props.C99_three",
    "LieNN.Props.C99_product3"
   ],
   "note": "C99_product, C99_unique, C99_reduced, C99_group_product, C99_direct_sum general; C99_su2, C99_sl2c, C99_so3, C99_o3, C99_z2, C99_sun are the factors; C99_three and C99_product3 the three-argument overloads."
  },
  {
   "property": "C100",
   "status": "proved",
   "theorems": [
    "LieNN.Props.C100_label",
    "LieNN.Props.C100_label_prefix",
    "LieNN.Props.C100_int",
    "LieNN.Props.C100_text",
    "LieNN.Props.C100_tuple",
    "LieNN.Props.C100_blocks",
    "LieNN.Props.C100_reduced_text",
    "LieNN.Props.C100_reduced",
    "LieNN.Props.C100_su2",
    "LieNN.Props.C100_rep",
    "LieNN.Props.C100_rep_class",
    "LieNN.Props.C100_nested_ambiguous",
    "LieNN.Props.C100_class"
   ],
   "note": "SU2Real (a float field) and fields that are NumPy integers are not modelled."
  },
  {
   "property": "C101",
   "status": "proved",
   "theorems": [
    "LieNN.Props.C101_never_trivial",
    "LieNN.Props.C101_spn_trivial",
    "LieNN.Props.C101_son_trivial",
    "LieNN.Props.C101_raises",
    "LieNN.Props.C101_from_rep",
    "LieNN.Props.C101_adjoint_repr",
    "LieNN.Props.C101_adjoint_repr_even",
    "LieNN.Props.C101_adjoint_create_trivial",
    "LieNN.Props.C101_eq",
    "LieNN.Props.C101_lt",
    "LieNN.Props.C101_order",
    "LieNN.Props.C101_from_string"
   ],
   "note": "The property that fails (is_trivial agrees with is_scalar) is refuted for every number of labels from two; the statements about order and from_string are the full ones."
  },
  {
   "property": "C102",
   "status": "proved",
   "theorems": [
    "LieNN.Props.C102_recovers",
    "LieNN.Props.C102_recovers_complex",
    "LieNN.Props.C102_default",
    "LieNN.Props.C102_zero",
    "LieNN.Props.C102_zero_sharp",
    "LieNN.Props.C102_neg",
    "LieNN.Props.C102_sympy",
    "LieNN.Props.C102_sympy_exact"
   ],
   "note": "Real arithmetic (C103 treats rounding errors)."
  },
  {
   "property": "C103",
   "status": "proved",
   "theorems": [
    "LieNN.Props.C103_recovers",
    "LieNN.Props.C103_recovers_complex",
    "LieNN.Props.C103_accuracy",
    "LieNN.Props.C103_idempotent",
    "LieNN.Props.C103_default",
    "LieNN.Props.C103_zero"
   ],
   "note": "Overflow to infinity is left out; the hypotheses bound x^2 by 2^48."
  },
  {
   "property": "C104",
   "status": "proved",
   "theorems": [
    "LieNN.Props.C104_unique_exact",
    "LieNN.Props.C104_unique",
    "LieNN.Props.C104_unique_raises",
    "LieNN.Props.C104_decompose_exact",
    "LieNN.Props.C104_decompose",
    "LieNN.Props.C104_scalar_noise"
   ],
   "note": "Delta comes from a compactness argument and is not explicit. Rounding is the identity (round_fn default)."
  },
  {
   "property": "C105",
   "status": "proved",
   "theorems": [
    "LieNN.Props.C105_representatives",
    "LieNN.Props.C105_regular"
   ],
   "note": ""
  },
  {
   "property": "C106",
   "status": "proved",
   "theorems": [
    "LieNN.Props.C106_base",
    "LieNN.Props.C106_cycles",
    "LieNN.Props.C106_base_antisymmetric",
    "LieNN.Props.C106_array",
    "LieNN.Props.C106_unique",
    "LieNN.Props.C106_formula",
    "LieNN.Props.C106_symmetric",
    "LieNN.Props.C106_antisymmetric"
   ],
   "note": ""
  },
  {
   "property": "C107",
   "status": "proved",
   "theorems": [
    "LieNN.Props.C107_exact",
    "LieNN.Props.C107_gram_schmidt",
    "LieNN.Props.C107_gram_schmidt_close",
    "LieNN.Props.C107_extend_basis"
   ],
   "note": ""
  },
  {
   "property": "C108",
   "status": "proved",
   "theorems": [
    "LieNN.Props.C108_exact",
    "LieNN.Props.C108_sequential_nullspace",
    "LieNN.Props.C108_raises"
   ],
   "note": ""
  },
  {
   "property": "C109",
   "status": "proved",
   "theorems": [
    "LieNN.Props.C109_exact",
    "LieNN.Props.C109_basis_intersection",
    "LieNN.Props.C109_empty"
   ],
   "note": ""
  },
  {
   "property": "C110",
   "status": "proved",
   "theorems": [
    "LieNN.Props.C110_exact",
    "LieNN.Props.C110_sound",
    "LieNN.Props.C110_close",
    "LieNN.Props.C110_complete",
    "LieNN.Props.C110_limit",
    "LieNN.Props.C110_from_generators",
    "LieNN.Props.C110_su2_float64",
    "LieNN.Props.C110_complex_false"
   ],
   "note": "round_fn is the identity"
  },
  {
   "property": "C111",
   "status": "proved",
   "theorems": [
    "LieNN.Props.C111_block_exact",
    "LieNN.Props.C111_exact",
    "LieNN.Props.C111_reduce"
   ],
   "note": "Both directions are proved. The eigenvalues and eigenvectors returned by np.linalg.eig are inputs of the run, assumed near exact ones (C104 explains why that is needed)."
  },
  {
   "property": "C112",
   "status": "proved",
   "theorems": [
    "LieNN.Props.C112_store",
    "LieNN.Props.C112_group_product",
    "LieNN.Props.C112_tabulated_product",
    "LieNN.Props.C112_constructions",
    "LieNN.Props.C112_stays_float",
    "LieNN.Props.C112_jax_direct_sum",
    "LieNN.Props.C112_jax_products",
    "LieNN.Props.C112_reduced",
    "LieNN.Props.C112_reduced_continuous",
    "LieNN.Props.C112_reduced_complex"
   ],
   "note": "The widths of the types (float32, float64) are not distinguished. "
  }
 ]
}