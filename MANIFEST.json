{
 "claims": [
  {
   "property": "C01",
   "status": "proved",
   "theorems": [
    "E3nn.C01_lt_iff_before",
    "E3nn.C01_lt_strict_total_order",
    "E3nn.C01_iterator_complete",
    "E3nn.C01_iterator_increasing",
    "E3nn.C01_iterator_prefix"
   ],
   "note": ""
  },
  {
   "property": "C02",
   "status": "proved",
   "theorems": [
    "E3nn.C02_mem_mul_iff",
    "E3nn.C02_mul_increasing",
    "E3nn.C02_mul_dim",
    "E3nn.C02_mul_comm",
    "E3nn.C02_scalar_mem_mul_iff",
    "E3nn.C02_mul_cyclic"
   ],
   "note": ""
  },
  {
   "property": "C03",
   "status": "proved",
   "theorems": [
    "E3nn.C03_parse_iff",
    "E3nn.C03_parse_error",
    "E3nn.C03_roundtrip",
    "E3nn.C03_show_injective",
    "E3nn.C03_blanks",
    "E3nn.C03_unambiguous",
    "E3nn.C03_empty"
   ],
   "note": ""
  },
  {
   "property": "C04",
   "status": "proved",
   "theorems": [
    "E3nn.C04_slices_spec",
    "E3nn.C04_slice_length",
    "E3nn.C04_slices_partition"
   ],
   "note": ""
  },
  {
   "property": "C05",
   "status": "proved",
   "theorems": [
    "E3nn.C05_preserve_sequence",
    "E3nn.C05_unify_adjacent",
    "E3nn.C05_simplify_normal",
    "E3nn.C05_simplify_canonical",
    "E3nn.C05_simplify_idempotent"
   ],
   "note": ""
  },
  {
   "property": "C06",
   "status": "proved",
   "theorems": [
    "E3nn.C06_sort_permutation",
    "E3nn.C06_sort_sorted_stable"
   ],
   "note": ""
  },
  {
   "property": "C07",
   "status": "proved",
   "theorems": [
    "E3nn.C07_regroup_spec",
    "E3nn.C07_regroup_dim",
    "E3nn.C07_regroup_canonical",
    "E3nn.C07_regroup_idempotent"
   ],
   "note": ""
  },
  {
   "property": "C08",
   "status": "proved",
   "theorems": [
    "E3nn.C08_keep_drop",
    "E3nn.C08_keep_drop_callable",
    "E3nn.C08_lmax",
    "E3nn.C08_arguments",
    "E3nn.C08_filter_idempotent"
   ],
   "note": ""
  },
  {
   "property": "C09",
   "status": "proved",
   "theorems": [
    "E3nn.C09_slice_by_mul",
    "E3nn.C09_slice_by_mul_reversed",
    "E3nn.C09_slice_by_mul_step",
    "E3nn.C09_bound_resolution",
    "E3nn.C09_reversed_raises_witness"
   ],
   "note": "Python list slicing for ordered bounds; reversed bounds inside one term raise (witness proved)."
  },
  {
   "property": "C10",
   "status": "proved",
   "theorems": [
    "E3nn.C10_slice_by_dim",
    "E3nn.C10_slice_by_dim_dim",
    "E3nn.C10_bounds_le",
    "E3nn.C10_unsound_witness",
    "E3nn.C10_accepts_iff",
    "E3nn.C10_returns"
   ],
   "note": "The documented soundness (only equivariant cuts are accepted) is false of the code, C10_unsound_witness; C10_accepts_iff gives exactly which cuts are accepted, C10_returns what they return."
  },
  {
   "property": "C11",
   "status": "proved",
   "theorems": [
    "E3nn.C11_dim_numIrreps_count_spec",
    "E3nn.C11_add",
    "E3nn.C11_repeat",
    "E3nn.C11_mul_repeat_count",
    "E3nn.C11_mul_repeat_regroup",
    "E3nn.C11_floordiv_mul",
    "E3nn.C11_floordiv_zero",
    "E3nn.C11_mul_negative",
    "E3nn.C11_lmax",
    "E3nn.C11_isScalar",
    "E3nn.C11_spherical_harmonics_terms",
    "E3nn.C11_spherical_harmonics_dim"
   ],
   "note": ""
  },
  {
   "property": "C12",
   "status": "proved",
   "theorems": [
    "E3nn.C12_from_chunks",
    "E3nn.C12_from_array",
    "E3nn.C12_zeros_ones",
    "E3nn.C12_as_irreps_array",
    "E3nn.C12_chunks_array"
   ],
   "note": ""
  },
  {
   "property": "C13",
   "status": "proved",
   "theorems": [
    "E3nn.C13_rechunk"
   ],
   "note": ""
  },
  {
   "property": "C14",
   "status": "proved",
   "theorems": [
    "E3nn.C14_history",
    "E3nn.C14_none_is_zero",
    "E3nn.C14_pow_witness",
    "E3nn.C14_pow_rechunk_witness",
    "E3nn.C14_pow_no_zero_chunks"
   ],
   "note": ""
  },
  {
   "property": "C15",
   "status": "proved",
   "theorems": [
    "E3nn.C15_index_irreps",
    "E3nn.C15_empty_pattern_witness"
   ],
   "note": ""
  },
  {
   "property": "C16",
   "status": "proved",
   "theorems": [
    "E3nn.C16_slice_ok",
    "E3nn.C16_slice_only_borders",
    "E3nn.C16_slice_terminates"
   ],
   "note": ""
  },
  {
   "property": "C17",
   "status": "proved",
   "theorems": [
    "E3nn.C17_simplify_unify",
    "E3nn.C17_sort",
    "E3nn.C17_regroup"
   ],
   "note": ""
  },
  {
   "property": "C18",
   "status": "proved",
   "theorems": [
    "E3nn.C18_filter",
    "E3nn.C18_filter_none",
    "E3nn.C18_callable_witness"
   ],
   "note": ""
  },
  {
   "property": "C19",
   "status": "proved",
   "theorems": [
    "E3nn.C19_extend_with_zeros"
   ],
   "note": ""
  },
  {
   "property": "C20",
   "status": "proved",
   "theorems": [
    "E3nn.C20_slice_by_mul",
    "E3nn.C20_slice_by_chunk",
    "E3nn.C20_zero_cut_witness"
   ],
   "note": ""
  },
  {
   "property": "C21",
   "status": "proved",
   "theorems": [
    "E3nn.C21_mul_to_axis",
    "E3nn.C21_axis_to_mul_of_mul_to_axis",
    "E3nn.C21_mul_to_axis_of_axis_to_mul",
    "E3nn.C21_bad_factor",
    "E3nn.C21_default_factor"
   ],
   "note": ""
  },
  {
   "property": "C22",
   "status": "proved",
   "theorems": [
    "E3nn.C22_transform",
    "E3nn.C22_rechunk",
    "E3nn.C22_simplify",
    "E3nn.C22_unify",
    "E3nn.C22_sort",
    "E3nn.C22_regroup",
    "E3nn.C22_filter",
    "E3nn.C22_remove_zero_chunks",
    "E3nn.C22_extend_with_zeros",
    "E3nn.C22_slice_by_mul",
    "E3nn.C22_slice_by_chunk",
    "E3nn.C22_index_irreps",
    "E3nn.C22_slice",
    "E3nn.C22_concatenate",
    "E3nn.C22_linear",
    "E3nn.C22_add",
    "E3nn.C22_axis_to_mul",
    "E3nn.C22_mul_to_axis"
   ],
   "note": ""
  },
  {
   "property": "C23",
   "status": "proved",
   "theorems": [
    "E3nn.C23_concatenate",
    "E3nn.C23_remove_zero_chunks"
   ],
   "note": ""
  },
  {
   "property": "C24",
   "status": "proved",
   "theorems": [
    "E3nn.C24_isPerm_iff",
    "E3nn.C24_compose_spec",
    "E3nn.C24_compose_rejects",
    "E3nn.C24_compose_assoc",
    "E3nn.C24_identity",
    "E3nn.C24_inverse",
    "E3nn.C24_inverse_compose"
   ],
   "note": ""
  },
  {
   "property": "C25",
   "status": "proved",
   "theorems": [
    "E3nn.C25_fromInt_isBij",
    "E3nn.C25_toInt_fromInt",
    "E3nn.C25_fromInt_toInt",
    "E3nn.C25_group"
   ],
   "note": ""
  },
  {
   "property": "C26",
   "status": "proved",
   "theorems": [
    "E3nn.C26_germinate",
    "E3nn.C26_isGroup_iff",
    "E3nn.C26_germinate_isGroup",
    "E3nn.C26_symmetric_group"
   ],
   "note": ""
  },
  {
   "property": "C27",
   "status": "proved",
   "theorems": [
    "E3nn.C27_tuple_of_bij",
    "E3nn.C27_sign",
    "E3nn.C27_sign_compose",
    "E3nn.C27_sign_generators",
    "E3nn.C27_toCycles"
   ],
   "note": ""
  },
  {
   "property": "C28",
   "status": "proved",
   "theorems": [
    "E3nn.C28_init_returns",
    "E3nn.C28_call_returns",
    "E3nn.C28_equivariant",
    "E3nn.C28_equivariant_instructions",
    "E3nn.C28_equivariant_no_bias",
    "E3nn.C28_formula",
    "E3nn.C28_instruction_unchecked_witness",
    "E3nn.C28_concrete"
   ],
   "note": ""
  },
  {
   "property": "C29",
   "status": "proved",
   "theorems": [
    "E3nn.C29_matrix"
   ],
   "note": ""
  },
  {
   "property": "C30",
   "status": "proved",
   "theorems": [
    "E3nn.C30_normalisation",
    "E3nn.C30_zero_multiplicity_witness"
   ],
   "note": ""
  },
  {
   "property": "C31",
   "status": "proved",
   "theorems": [
    "E3nn.C31_default_instructions",
    "E3nn.C31_output_mask"
   ],
   "note": ""
  },
  {
   "property": "C32",
   "status": "proved",
   "theorems": [
    "E3nn.C32_split_weights",
    "E3nn.C32_call_flat"
   ],
   "note": ""
  },
  {
   "property": "C33",
   "status": "proved",
   "theorems": [
    "E3nn.C33_count",
    "E3nn.C33_dim",
    "E3nn.C33_sorted",
    "E3nn.C33_irreps_determined",
    "E3nn.C33_values",
    "E3nn.C33_order",
    "E3nn.C33_bad_norm",
    "E3nn.C33_elementwise",
    "E3nn.C33_elementwise_refuses",
    "E3nn.C33_elementwise_zero_multiplicity_witness",
    "E3nn.C33_concrete"
   ],
   "note": "elementwise_tensor_product raises on a trailing zero-multiplicity term although the multiplicities match: proved as a witness theorem, and zero multiplicities are excluded from the success theorem."
  },
  {
   "property": "C34",
   "status": "proved",
   "theorems": [
    "E3nn.C34_irreps",
    "E3nn.C34_dim",
    "E3nn.C34_values"
   ],
   "note": ""
  },
  {
   "property": "C35",
   "status": "proved",
   "theorems": [
    "E3nn.C35_tensor_product",
    "E3nn.C35_elementwise",
    "E3nn.C35_tensor_square",
    "E3nn.C35_concrete"
   ],
   "note": "The intertwining property of the Clebsch-Gordan tensors is the hypothesis of the property itself."
  },
  {
   "property": "C36",
   "status": "proved",
   "theorems": [
    "E3nn.Rot.C36_rotation",
    "E3nn.Rot.C36_factors",
    "E3nn.Rot.C36_round_trip",
    "E3nn.Rot.C36_ranges",
    "E3nn.Rot.C36_angles_recovered",
    "E3nn.Rot.C36_inverse",
    "E3nn.Rot.C36_compose",
    "E3nn.Rot.C36_identity",
    "E3nn.Rot.C36_xyz",
    "E3nn.Rot.C36_rotation_angle",
    "E3nn.Rot.C36_angle_between",
    "E3nn.Rot.C36_concrete"
   ],
   "note": "Real arithmetic; leading axes are not modelled (rotation_angle_from_angles uses .T, which is only right without leading axes)."
  },
  {
   "property": "C37",
   "status": "proved",
   "theorems": [
    "E3nn.Rot.C37_compose",
    "E3nn.Rot.C37_rotation",
    "E3nn.Rot.C37_inverse",
    "E3nn.Rot.C37_monoid",
    "E3nn.Rot.C37_double_cover",
    "E3nn.Rot.C37_conversions",
    "E3nn.Rot.C37_to_angles",
    "E3nn.Rot.C37_rotation_angle",
    "E3nn.Rot.C37_concrete"
   ],
   "note": ""
  },
  {
   "property": "C38",
   "status": "proved",
   "theorems": [
    "E3nn.Rot.C38_turns",
    "E3nn.Rot.C38_add",
    "E3nn.Rot.C38_recovered",
    "E3nn.Rot.C38_round_trip",
    "E3nn.Rot.C38_half_turn",
    "E3nn.Rot.C38_half_turn_witness",
    "E3nn.Rot.C38_compose",
    "E3nn.Rot.C38_angles",
    "E3nn.Rot.C38_rotation_angle",
    "E3nn.Rot.C38_concrete"
   ],
   "note": "At half turns the round trip is false of the code: C38_half_turn proves what happens for every half turn."
  },
  {
   "property": "C39",
   "status": "proved",
   "theorems": [
    "E3nn.Wig.C39_homomorphism",
    "E3nn.Wig.C39_identity",
    "E3nn.Wig.C39_orthogonal",
    "E3nn.Wig.C39_defining",
    "E3nn.Wig.C39_inversion",
    "E3nn.Wig.C39_angles",
    "E3nn.Wig.C39_quaternion",
    "E3nn.Wig.C39_log",
    "E3nn.Wig.C39_axis_angle",
    "E3nn.Wig.C39_axis_not_normalised",
    "E3nn.Wig.C39_one_parameter",
    "E3nn.Wig.C39_clebsch_gordan",
    "E3nn.Wig.C39_irreducible",
    "E3nn.Wig.C39_inequivalent",
    "E3nn.Wig.C39_example"
   ],
   "note": "Real arithmetic, expm exact; the J tables of J.py are used literally (l<12) and related to the generators by exact integer witnesses. D_from_axis_angle needs a unit axis (witness theorem C39_axis_not_normalised)."
  },
  {
   "property": "C40",
   "status": "proved",
   "theorems": [
    "E3nn.C40_commutators",
    "E3nn.C40_anti_hermitian",
    "E3nn.C40_casimir",
    "E3nn.C40_irreducible",
    "E3nn.C40_spin_half_example"
   ],
   "note": ""
  },
  {
   "property": "C41",
   "status": "proved",
   "theorems": [
    "E3nn.C41_unitary",
    "E3nn.C41_real",
    "E3nn.C41_commutators",
    "E3nn.C41_antisymmetric",
    "E3nn.C41_casimir",
    "E3nn.C41_irreducible",
    "E3nn.C41_vector"
   ],
   "note": ""
  },
  {
   "property": "C42",
   "status": "proved",
   "theorems": [
    "E3nn.Scatter.C42_sum",
    "E3nn.Scatter.C42_total",
    "E3nn.Scatter.C42_order",
    "E3nn.Scatter.C42_additive",
    "E3nn.Scatter.C42_drop",
    "E3nn.Scatter.C42_nel",
    "E3nn.Scatter.C42_nel_short_witness",
    "E3nn.Scatter.C42_mean",
    "E3nn.Scatter.C42_mean_nel",
    "E3nn.Scatter.C42_map_back",
    "E3nn.Scatter.C42_mean_map_back",
    "E3nn.Scatter.C42_nel_map_back",
    "E3nn.Scatter.C42_mean_nel_map_back",
    "E3nn.Scatter.C42_max",
    "E3nn.Scatter.C42_refusals",
    "E3nn.Scatter.C42_concrete"
   ],
   "note": ""
  },
  {
   "property": "C43",
   "status": "proved",
   "theorems": [
    "E3nn.Radius.C43_edges",
    "E3nn.Radius.C43_size",
    "E3nn.Radius.C43_symmetric",
    "E3nn.Radius.C43_loops",
    "E3nn.Radius.C43_coincident_witness",
    "E3nn.Radius.C43_invariant",
    "E3nn.Radius.C43_batch",
    "E3nn.Radius.C43_batch_padding",
    "E3nn.Radius.C43_concrete"
   ],
   "note": ""
  },
  {
   "property": "C44",
   "status": "proved",
   "theorems": [
    "E3nn.C44_scalar_activation",
    "E3nn.C44_default",
    "E3nn.C44_refuses",
    "E3nn.C44_parity_function",
    "E3nn.C44_aliasing_witness",
    "E3nn.C44_equivariant",
    "E3nn.C44_normalize_function",
    "E3nn.C44_norm_activation",
    "E3nn.C44_norm_equivariant"
   ],
   "note": ""
  },
  {
   "property": "C45",
   "status": "proved",
   "theorems": [
    "E3nn.C45_gate",
    "E3nn.C45_equivariant"
   ],
   "note": ""
  },
  {
   "property": "C46",
   "status": "proved",
   "theorems": [
    "E3nn.C46_rechunk",
    "E3nn.C46_simplify_unify",
    "E3nn.C46_sort_regroup",
    "E3nn.C46_filter",
    "E3nn.C46_slice_by_chunk",
    "E3nn.C46_index_irreps",
    "E3nn.C46_concatenate",
    "E3nn.C46_slice_by_mul",
    "E3nn.C46_transform",
    "E3nn.C46_linear",
    "E3nn.C46_tensor_product",
    "E3nn.C46_elementwise",
    "E3nn.C46_norm_activation",
    "E3nn.C46_scalar_activation",
    "E3nn.C46_activation_witness",
    "E3nn.C46_tensor_square",
    "E3nn.C46_gate"
   ],
   "note": ""
  },
  {
   "property": "C47",
   "status": "proved",
   "theorems": [
    "E3nn.Basic.C47_norm",
    "E3nn.Basic.C47_norm_total",
    "E3nn.Basic.C47_dot",
    "E3nn.Basic.C47_dot_total",
    "E3nn.Basic.C47_dot_error",
    "E3nn.Basic.C47_invariant",
    "E3nn.Basic.C47_O3"
   ],
   "note": ""
  },
  {
   "property": "C48",
   "status": "proved",
   "theorems": [
    "E3nn.SH.C48_unique",
    "E3nn.SH.C48_exists",
    "E3nn.SH.C48_norm",
    "E3nn.SH.C48_value",
    "E3nn.SH.C48_degrees",
    "E3nn.SH.C48_raw",
    "E3nn.SH.C48_refuse",
    "E3nn.SH.C48_sh",
    "E3nn.SH.C48_equivariant"
   ],
   "note": "Real arithmetic. The recursive algorithm (dense and sparse evaluate the same sums) and the Legendre algorithm are modelled; lpmn_values is taken by its documentation (associated Legendre functions)."
  },
  {
   "property": "C49",
   "status": "proved",
   "theorems": [
    "E3nn.Radial.C49_sus",
    "E3nn.Radial.C49_soft_envelope",
    "E3nn.Radial.C49_one_hot",
    "E3nn.Radial.C49_cutoff",
    "E3nn.Radial.C49_refuse",
    "E3nn.Radial.C49_support",
    "E3nn.Radial.C49_gaussian_never_zero",
    "E3nn.Radial.C49_smooth",
    "E3nn.Radial.C49_cosine_squares",
    "E3nn.Radial.C49_fourier",
    "E3nn.Radial.C49_bessel",
    "E3nn.Radial.C49_poly_envelope",
    "E3nn.Radial.C49_u"
   ],
   "note": "Real arithmetic; np.linalg.solve is the exact solution; fewer than two linspace points (division by a zero step) is excluded."
  },
  {
   "property": "C50",
   "status": "proved",
   "theorems": [
    "E3nn.LimDen.C50_limit_denominator",
    "E3nn.LimDen.C50_equal_denominator_witness"
   ],
   "note": "Integers are unbounded in the model (numpy int64 in the code). The defect at reduced denominator = max is proved: C50_equal_denominator_witness."
  },
  {
   "property": "C51",
   "status": "proved",
   "theorems": [
    "E3nn.JX.C51_remove_deadcode",
    "E3nn.JX.C51_well_formed",
    "E3nn.JX.C51_nothing_dead"
   ],
   "note": ""
  },
  {
   "property": "C52",
   "status": "proved",
   "theorems": [
    "E3nn.JX.C52_remove_duplicate_constants",
    "E3nn.JX.C52_remove_duplicate_equations",
    "E3nn.JX.C52_no_duplicates_left",
    "E3nn.JX.C52_optimize",
    "E3nn.JX.C52_literal_dtype_witness",
    "E3nn.JX.C52_negative_zero_witness",
    "E3nn.JX.C52_closed_constants_witness"
   ],
   "note": ""
  },
  {
   "property": "C53",
   "status": "proved",
   "theorems": [
    "E3nn.Config.C53_config",
    "E3nn.Config.C53_set_get"
   ],
   "note": "The value None cannot be set (it means reading), as in the code."
  },
  {
   "property": "C54",
   "status": "proved",
   "theorems": [
    "E3nn.Dropout.C54_dropout",
    "E3nn.Dropout.C54_identity",
    "E3nn.Dropout.C54_equivariant",
    "E3nn.Dropout.C54_shared_mask_witness",
    "E3nn.Dropout.C54_empty"
   ],
   "note": ""
  },
  {
   "property": "C55",
   "status": "proved",
   "theorems": [
    "E3nn.PermRepr.C55_formula_refusals",
    "E3nn.PermRepr.C55_formula_group",
    "E3nn.PermRepr.C55_formula_basis",
    "E3nn.PermRepr.C55_subgroup_basis",
    "E3nn.PermRepr.C55_symmetric_basis",
    "E3nn.PermRepr.C55_antisymmetric_basis"
   ],
   "note": "The subset of indices is taken sorted; the code iterates a frozenset of ints, which is sorted only when all ints are smaller than the hash table (fewer than 9 indices). The matrix check is exact, not within a tolerance."
  },
  {
   "property": "C56",
   "status": "proved",
   "theorems": [
    "E3nn.Tuples.C56_tuples",
    "E3nn.Tuples.C56_length_zero"
   ],
   "note": "Length 0 with a positive sum never terminates in the code: C56_length_zero."
  },
  {
   "property": "C57",
   "status": "proved",
   "theorems": [
    "E3nn.Rot.C57_matrix",
    "E3nn.Rot.C57_conversions",
    "E3nn.Rot.C57_compose_inverse",
    "E3nn.Rot.C57_round_trip",
    "E3nn.Rot.C57_recovered",
    "E3nn.Rot.C57_concrete"
   ],
   "note": "expm is the exact matrix exponential."
  },
  {
   "property": "C58",
   "status": "proved",
   "theorems": [
    "E3nn.SU2.C58_factorials_defined",
    "E3nn.SU2.C58_real",
    "E3nn.SU2.C58_generators",
    "E3nn.SU2.C58_rotations",
    "E3nn.SU2.C58_orthogonal",
    "E3nn.SU2.C58_norm",
    "E3nn.SU2.C58_zero",
    "E3nn.SU2.C58_scalar",
    "E3nn.SU2.C58_selection"
   ],
   "note": ""
  },
  {
   "property": "C59",
   "status": "proved",
   "theorems": [
    "E3nn.C59_transform",
    "E3nn.C59_compose",
    "E3nn.C59_identity",
    "E3nn.C59_angles",
    "E3nn.C59_log",
    "E3nn.C59_quaternion",
    "E3nn.C59_axis_angle",
    "E3nn.C59_structural",
    "E3nn.C59_tensor_product",
    "E3nn.C59_elementwise",
    "E3nn.C59_tensor_square",
    "E3nn.C59_linear",
    "E3nn.C59_irreps_D",
    "E3nn.C59_irreps_D_empty",
    "E3nn.C59_vector",
    "E3nn.C59_concrete"
   ],
   "note": "Real arithmetic; the rotation itself has no leading axes."
  },
  {
   "property": "C60",
   "status": "proved",
   "theorems": [
    "E3nn.C60_soft_normalization",
    "E3nn.C60_equivariant",
    "E3nn.C60_key_value"
   ],
   "note": ""
  },
  {
   "property": "C61",
   "status": "proved",
   "theorems": [
    "E3nn.Basic.C61_cross",
    "E3nn.Basic.C61_refuses",
    "E3nn.Basic.C61_equivariant",
    "E3nn.Basic.C61_zero_multiplicity_witness"
   ],
   "note": ""
  },
  {
   "property": "C62",
   "status": "proved",
   "theorems": [
    "E3nn.Basic.C62_sum_mean",
    "E3nn.Basic.C62_equivariant",
    "E3nn.Basic.C62_leading"
   ],
   "note": ""
  },
  {
   "property": "C63",
   "status": "proved",
   "theorems": [
    "E3nn.Basic.C63_stack",
    "E3nn.Basic.C63_refuses"
   ],
   "note": ""
  },
  {
   "property": "C64",
   "status": "proved",
   "theorems": [
    "E3nn.SH.C64_orthogonal"
   ],
   "note": "The measure is the surface measure of Mathlib (volume.toSphere), total 4 pi."
  },
  {
   "property": "C65",
   "status": "proved",
   "theorems": [
    "E3nn.SH.C65_jvp",
    "E3nn.SH.C65_jvp_refuse",
    "E3nn.SH.C65_recursion",
    "E3nn.SH.C65_harmonic"
   ],
   "note": "legendre without dense/sparse under custom_jvp raises when differentiated: C65_jvp_refuse."
  },
  {
   "property": "C66",
   "status": "proved",
   "theorems": [
    "E3nn.SH.C66_algorithms",
    "E3nn.SH.C66_standard"
   ],
   "note": "Real arithmetic; lpmn_values is taken by its documentation."
  },
  {
   "property": "C67",
   "status": "proved",
   "theorems": [
    "E3nn.C67_tensor_product",
    "E3nn.C67_elementwise",
    "E3nn.C67_tensor_square"
   ],
   "note": "Random arrays are functions on a probability space (or any measure space with the stated moments); tensor_square needs isotropic fourth moments, stated in Spec/Normalisation."
  },
  {
   "property": "C68",
   "status": "proved",
   "theorems": [
    "E3nn.C68_normal",
    "E3nn.C68_refuses",
    "E3nn.C68_tensor_square",
    "E3nn.C68_tensor_product"
   ],
   "note": "The pseudo-random generator is not modelled: the draws are exact independent standard Gaussians (Mathlib gaussianReal), all different coordinates."
  },
  {
   "property": "C69",
   "status": "proved",
   "theorems": [
    "E3nn.C69_isometry",
    "E3nn.C69_exchange",
    "E3nn.C69_odd_vanish",
    "E3nn.C69_scalar"
   ],
   "note": "Real algebra as column type, so uniformly in the leading axes."
  },
  {
   "property": "C70",
   "status": "proved",
   "theorems": [
    "E3nn.Basic.C70_where",
    "E3nn.Basic.C70_refuses",
    "E3nn.Basic.C70_equivariant"
   ],
   "note": "Mask with last dimension 1 as a function of the leading indices."
  },
  {
   "property": "C71",
   "status": "proved",
   "theorems": [
    "E3nn.TPSH.C71_value",
    "E3nn.TPSH.C71_documented",
    "E3nn.TPSH.C71_zero",
    "E3nn.TPSH.C71_equivariant",
    "E3nn.TPSH.C71_zero_differs",
    "E3nn.TPSH.C71_refuses"
   ],
   "note": "One element (the code maps over the leading axes with vmap). Real numbers: the tolerance of allclose in is_diag is exact equality. The documented expression agrees only for regrouped irreps and nonzero vectors; the difference at zero is a theorem."
  },
  {
   "property": "C72",
   "status": "proved",
   "theorems": [
    "E3nn.Grad.C72_equivariant",
    "E3nn.Grad.C72_scalar",
    "E3nn.Grad.C72_norm",
    "E3nn.Grad.C72_flagged",
    "E3nn.Grad.C72_argument",
    "E3nn.Grad.C72_half_norm"
   ],
   "note": "jax.jacobian is the Frechet derivative over the reals; one argument is differentiated, the others are part of the function; the auxiliary output is not represented. The function is assumed to return unflagged arrays of fixed irreps (otherwise C72_flagged: TypeError)."
  },
  {
   "property": "C73",
   "status": "proved",
   "theorems": [
    "E3nn.BN.C73_value",
    "E3nn.BN.C73_equivariant",
    "E3nn.BN.C73_normalised",
    "E3nn.BN.C73_local",
    "E3nn.BN.C73_mask",
    "E3nn.BN.C73_refuse",
    "E3nn.BN.C73_options",
    "E3nn.BN.C73_flags"
   ],
   "note": "Axes between batch and channel flattened to one nonempty sample axis; rsqrt is the inverse square root, 0 at 0 where the code has infinity. Too short parameters raise in the model at the final assertion, in the code possibly earlier."
  },
  {
   "property": "C74",
   "status": "proved",
   "theorems": [
    "E3nn.BN.C74_haiku_fresh",
    "E3nn.BN.C74_flax_fresh",
    "E3nn.BN.C74_haiku_history",
    "E3nn.BN.C74_flax_writes",
    "E3nn.BN.C74_flax_frozen",
    "E3nn.BN.C74_flax_init",
    "E3nn.BN.C74_flax_instance",
    "E3nn.BN.C74_flax_history",
    "E3nn.BN.C74_weights",
    "E3nn.BN.C74_converge",
    "E3nn.BN.C74_flax_eval_witness"
   ],
   "note": "init/apply of haiku and flax are represented by the statistics passed in and returned; the histories are for arrays without zero-flagged terms (C73_flags shows what flags do)."
  },
  {
   "property": "C75",
   "status": "proved",
   "theorems": [
    "E3nn.S2.C75_soft",
    "E3nn.S2.C75_gauss",
    "E3nn.S2.C75_unit",
    "E3nn.S2.C75_integrate",
    "E3nn.S2.C75_constant"
   ],
   "note": "leggauss is a parameter with its documented contract (exactness up to degree 2n-1), proved satisfiable for every n. Exact real numbers."
  },
  {
   "property": "C76",
   "status": "proved",
   "theorems": [
    "E3nn.S2.C76_to_s2grid",
    "E3nn.S2.C76_refuse",
    "E3nn.S2.C76_fft_witness"
   ],
   "note": "use_s2fft=False. The discrete Fourier transforms are given by their definition; leading axes as an index type."
  },
  {
   "property": "C77",
   "status": "proved",
   "theorems": [
    "E3nn.S2.C77_from_s2grid",
    "E3nn.S2.C77_band_limited",
    "E3nn.S2.C77_round_trip",
    "E3nn.S2.C77_lmax_in_ignored",
    "E3nn.S2.C77_s2_irreps",
    "E3nn.S2.C77_resample",
    "E3nn.S2.C77_refuse"
   ],
   "note": "use_s2fft=False. lmax_in ignored by component is a theorem (C77_lmax_in_ignored)."
  },
  {
   "property": "C78",
   "status": "proved",
   "theorems": [
    "E3nn.S2.C78_to_s2point",
    "E3nn.S2.C78_scrambled",
    "E3nn.S2.C78_refuse",
    "E3nn.S2.C78_point_equivariant",
    "E3nn.S2.C78_transform",
    "E3nn.S2.C78_parametrisations"
   ],
   "note": "The shape (*shape1, *shape2) documented by to_s2point is only right when one of the two is a single element; C78_scrambled is the counterexample for two and two."
  },
  {
   "property": "C79",
   "status": "proved",
   "theorems": [
    "E3nn.S2.C79_dirac",
    "E3nn.S2.C79_refuse"
   ],
   "note": "Integrals are over the unit sphere with the area measure (Mathlib toSphere). C79_refuse records that the documented p_val = -1 never works."
  },
  {
   "property": "C80",
   "status": "proved",
   "theorems": [
    "E3nn.S2.C80_transform",
    "E3nn.S2.C80_mul",
    "E3nn.S2.C80_add",
    "E3nn.S2.C80_number",
    "E3nn.S2.C80_refuse",
    "E3nn.S2.C80_apply",
    "E3nn.S2.C80_apply_witness",
    "E3nn.S2.C80_from_function"
   ],
   "note": "C80_apply is restricted to even signals or odd functions; C80_apply_witness shows the restriction is needed (new_p_val is computed and dropped in apply)."
  },
  {
   "property": "C81",
   "status": "proved",
   "theorems": [
    "E3nn.S2.C81_m0",
    "E3nn.S2.C81_to",
    "E3nn.S2.C81_axial",
    "E3nn.S2.C81_from",
    "E3nn.S2.C81_round_trip"
   ],
   "note": "Without a leading axis m0_values_to_irrepsarray raises IndexError although the documented shape is (..., lmax+1)."
  },
  {
   "property": "C82",
   "status": "proved",
   "theorems": [
    "E3nn.SO3.C82_haar",
    "E3nn.SO3.C82_integrate",
    "E3nn.SO3.C82_orthogonal",
    "E3nn.SO3.C82_degenerate",
    "E3nn.SO3.C82_arithmetic",
    "E3nn.SO3.C82_refuse",
    "E3nn.SO3.C82_argmax"
   ],
   "note": "The uniform distribution is characterised by invariance (Spec/SO3.lean) and shown to exist. With res_theta <= 2 the integral is zero for every signal (C82_degenerate). Quotients do not check that the quadratures agree (C82_refuse)."
  },
  {
   "property": "C83",
   "status": "proved",
   "theorems": [
    "E3nn.S2.C83_sample",
    "E3nn.S2.C83_mean",
    "E3nn.S2.C83_sphere",
    "E3nn.SO3.C83_so3",
    "E3nn.SO3.C83_batched",
    "E3nn.SO3.C83_uniform_witness"
   ],
   "note": "Uniform numbers are arguments of the model; the distribution is Lebesgue measure. jax.random.choice is modelled as its implementation (inverse of the cumulated sums), jax.random.categorical by its documented distribution. C83_uniform_witness: for the constant signal the mean trace of SO3Signal.sample is 1 + 2/res_theta, not 0."
  },
  {
   "property": "C84",
   "status": "proved",
   "theorems": [
    "E3nn.C84_complete",
    "E3nn.C84_sound",
    "E3nn.C84_complete_flat",
    "E3nn.C84_num_weights",
    "E3nn.C84_concrete"
   ],
   "note": "Commuting is stated with transform_by_matrix on both sides. Uses C39_irreducible and C39_inequivalent (proved for the matrices the code computes)."
  },
  {
   "property": "C85",
   "status": "proved",
   "theorems": [
    "E3nn.LTP.C85_left_right",
    "E3nn.LTP.C85_fused",
    "E3nn.LTP.C85_equivariant",
    "E3nn.LTP.C85_fused_eq",
    "E3nn.LTP.C85_output_mask",
    "E3nn.LTP.C85_fully_connected",
    "E3nn.LTP.C85_empty_term_witness",
    "E3nn.LTP.C85_fused_witness"
   ],
   "note": "Without fused, the terms of every instruction must have copies: C85_empty_term_witness shows that a term of multiplicity 0 shifts the results (the output is then wrong and not equivariant). C85_fused_witness: fused=True does not check the multiplicities. Mode uvw is the only one of the fully connected product. custom_einsum_jvp and sparse are not modelled."
  },
  {
   "property": "C86",
   "status": "proved",
   "theorems": [
    "E3nn.LTP.C86_share",
    "E3nn.LTP.C86_component",
    "E3nn.LTP.C86_norm",
    "E3nn.LTP.C86_second_moment",
    "E3nn.LTP.C86_fully_connected"
   ],
   "note": "C86_second_moment states it for the output of left_right and any linear functional for which the entries are uncorrelated and centred (exists_independent: such families exist); C86_share, C86_component and C86_norm as sums of squares of coefficients, also for instructions without weight."
  },
  {
   "property": "C87",
   "status": "proved",
   "theorems": [
    "E3nn.LTP.C87_complete",
    "E3nn.LTP.C87_sound",
    "E3nn.LTP.C87_flat",
    "E3nn.LTP.C87_num_weights",
    "E3nn.LTP.C87_concrete"
   ],
   "note": "C87_complete, C87_sound, C87_flat, C87_num_weights."
  },
  {
   "property": "C88",
   "status": "proved",
   "theorems": [
    "E3nn.FCTP.C88_call",
    "E3nn.FCTP.C88_equivariant",
    "E3nn.FCTP.C88_complete",
    "E3nn.FCTP.C88_zero_chunk_witness"
   ],
   "note": "C88_call, C88_equivariant, C88_complete; C88_zero_chunk_witness: marking a zero term as zero changes the output (by the path normalisation)."
  },
  {
   "property": "C89",
   "status": "proved",
   "theorems": [
    "E3nn.LinM.C89_call",
    "E3nn.LinM.C89_sources",
    "E3nn.LinM.C89_equivariant",
    "E3nn.LinM.C89_equivariant_per_channel",
    "E3nn.LinM.C89_channel_call",
    "E3nn.LinM.C89_channel_equivariant",
    "E3nn.LinM.C89_complete",
    "E3nn.LinM.C89_refuse",
    "E3nn.LinM.C89_channel_irreps_in_refused",
    "E3nn.LinM.C89_zero_chunk_refused",
    "E3nn.LinM.C89_instruction_shift_witness"
   ],
   "note": "C89_call, C89_sources, C89_equivariant, C89_equivariant_per_channel, C89_channel_call, C89_channel_equivariant, C89_complete, C89_refuse. Disagreements: C89_channel_irreps_in_refused (irreps_in with channel_out always raises when the number of channels is not 1), C89_zero_chunk_refused (irreps_in and a zero-marked term raise), C89_instruction_shift_witness (instructions are applied to the filtered irreps_out, so valid instructions can break equivariance). An index out of range (clamped by JAX) is not modelled."
  },
  {
   "property": "C90",
   "status": "proved",
   "theorems": [
    "E3nn.MLP.C90_call",
    "E3nn.MLP.C90_irreps",
    "E3nn.MLP.C90_refuse",
    "E3nn.MLP.C90_invariant",
    "E3nn.MLP.C90_normalised"
   ],
   "note": "C90_call (the recursion of Spec/MLP.lean, IsOutput.unique shows it determines the result), C90_irreps, C90_refuse, C90_invariant, C90_normalised."
  },
  {
   "property": "C91",
   "status": "proved",
   "theorems": [
    "E3nn.MPC.C91_equivariant",
    "E3nn.MPC.C91_local",
    "E3nn.MPC.C91_returns",
    "E3nn.MPC.C91_refuse",
    "E3nn.MPC.C91_relabel"
   ],
   "note": "C91_equivariant, C91_local, C91_relabel, C91_returns, C91_refuse. Real numbers; avg_num_neighbors = 0 divides to zero in the model."
  },
  {
   "property": "C92",
   "status": "proved",
   "theorems": [
    "E3nn.MPC.C92_rearrange",
    "E3nn.MPC.C92_arithmetic",
    "E3nn.MPC.C92_concatenate",
    "E3nn.MPC.C92_products",
    "E3nn.MPC.C92_layers",
    "E3nn.MPC.C92_scalar_activation",
    "E3nn.MPC.C92_spherical_harmonics",
    "E3nn.MPC.C92_tensor_square",
    "E3nn.MPC.C92_gate"
   ],
   "note": "C92_rearrange, C92_arithmetic, C92_concatenate, C92_products, C92_layers, C92_scalar_activation, C92_spherical_harmonics. The model has one leading index of any type. For the perceptron the model itself applies the layers per row, so that part only adds the irreps and flags."
  },
  {
   "property": "C93",
   "status": "proved",
   "theorems": [
    "E3nn.LinAlg.C93_gram_schmidt",
    "E3nn.LinAlg.C93_intersection"
   ],
   "note": "Exact real arithmetic; np.linalg.eigh is a parameter assumed to return orthonormal eigenvectors of symmetric matrices (such functions exist: exists_eigh). round_fn is the identity, its default and only use."
  },
  {
   "property": "C94",
   "status": "proved",
   "theorems": [
    "E3nn.RTP.C94_equivariant",
    "E3nn.RTP.C94_total",
    "E3nn.RTP.C94_empty"
   ],
   "note": "The general algorithm (_use_optimized_implementation=False, or fewer than two irreps per index, or other symmetries than the full symmetric group). Exact arithmetic, _rounding left out."
  },
  {
   "property": "C95",
   "status": "proved",
   "theorems": [
    "E3nn.RTP.C95_basis",
    "E3nn.RTP.C95_total",
    "E3nn.RTP.C95_dim",
    "E3nn.RTP.C95_one_index"
   ],
   "note": "The general algorithm with keep_ir=None; one-index formulas with a sign are excluded because the code ignores the symmetry there (C95_one_index). Exact arithmetic, _rounding left out; eigh is any function returning orthonormal eigenvectors with their eigenvalues."
  },
  {
   "property": "C96",
   "status": "proved",
   "theorems": [
    "E3nn.RTP.C96_irreps",
    "E3nn.RTP.C96_formula",
    "E3nn.RTP.C96_list",
    "E3nn.RTP.C96_symmetric",
    "E3nn.RTP.C96_antisymmetric"
   ],
   "note": "General algorithm (_use_optimized_implementation=False), keep_ir=None; one-index formulas with a minus sign excluded (see C95_one_index)."
  },
  {
   "property": "C97",
   "status": "proved",
   "theorems": [
    "E3nn.RTP.C97_equivariant",
    "E3nn.RTP.C97_basis",
    "E3nn.RTP.C97_same_dim",
    "E3nn.RTP.C97_formula",
    "E3nn.RTP.C97_symmetric"
   ],
   "note": "The condition 4 * (product of the dimensions) * eps^2 < 1 on the tolerance is the one of C95. keep_ir: only equivariance of what is returned (with a keep_ir that matches nothing the optimized path raises ValueError in concatenate)."
  },
  {
   "property": "C98",
   "status": "proved",
   "theorems": [
    "E3nn.SymTP.C98_value",
    "E3nn.SymTP.C98_total",
    "E3nn.SymTP.C98_equivariant",
    "E3nn.SymTP.C98_refused"
   ],
   "note": "C98_value, C98_total (no keep_irrep_out; x.irreps.dim ≠ 0 and epsilon small against the dimension, as in C97), C98_equivariant (any keep, whenever the module returns), C98_refused. One batch element; haiku's parameters are an arbitrary function of (order, irrep, copy, channel)."
  },
  {
   "property": "C99",
   "status": "proved",
   "theorems": [
    "E3nn.LSH.C99_shtp_equivariant",
    "E3nn.LSH.C99_linear_equivariant",
    "E3nn.LSH.C99_refused",
    "E3nn.LSH.C99_direction",
    "E3nn.LSH.C99_shtp_irreps",
    "E3nn.LSH.C99_mix_irreps",
    "E3nn.LSH.C99_complete",
    "E3nn.LSH.C99_mix_value"
   ],
   "note": "Exact real arithmetic. A zero direction is normalised to itself and then treated as the z axis: equivariance is stated for nonzero directions. If all path multiplicities are 0 the code divides by zero (nan), represented by an error. The value theorem is for one output term and a direction along the second axis; with equivariance and the dependence on the direction only it determines all values."
  },
  {
   "property": "C100",
   "status": "proved",
   "theorems": [
    "E3nn.Transf.C100_equivariant",
    "E3nn.Transf.C100_local",
    "E3nn.Transf.C100_cutoff",
    "E3nn.Transf.C100_relabel",
    "E3nn.Transf.C100_attention"
   ],
   "note": "Real numbers; indices of nodes in range; normalisations component and norm for (4), all three valid ones otherwise. Props/C100Example.lean: a call with two heads, vector targets and one edge returns."
  },
  {
   "property": "C101",
   "status": "proved",
   "theorems": [
    "E3nn.Zoom.C101_nearest_unique",
    "E3nn.Zoom.C101_linear",
    "E3nn.Zoom.C101_line_unique",
    "E3nn.Zoom.C101_nearest",
    "E3nn.Zoom.C101_rate",
    "E3nn.Zoom.C101_refuse",
    "E3nn.Zoom.C101_same_size",
    "E3nn.Zoom.C101_linear_maps",
    "E3nn.Zoom.C101_convex",
    "E3nn.Zoom.C101_transpose",
    "E3nn.Zoom.C101_flip",
    "E3nn.Zoom.C101_flip_nearest_fails",
    "E3nn.Zoom.C101_affine",
    "E3nn.Zoom.C101_halve",
    "E3nn.Zoom.C101_odd"
   ],
   "note": "Exact real arithmetic (floating point floor/round at the borders not represented); positive input sizes; rates giving negative sizes not represented."
  },
  {
   "property": "C102",
   "status": "proved",
   "theorems": [
    "E3nn.LTP.C102_right",
    "E3nn.LTP.C102_left_right",
    "E3nn.LTP.C102_equivariant",
    "E3nn.LTP.C102_unsupported"
   ],
   "note": "None chunks of x2 (refused by einsum with a TypeError) are excluded by a hypothesis; C102_equivariant also asks that no term is empty, as C85."
  },
  {
   "property": "C103",
   "status": "proved",
   "theorems": [
    "E3nn.Voxel.C103_kernel",
    "E3nn.Voxel.C103_cutoff",
    "E3nn.Voxel.C103_value",
    "E3nn.Voxel.C103_equivariant",
    "E3nn.Voxel.C103_translation",
    "E3nn.Voxel.C103_quarter_turn"
   ],
   "note": "Only padding SAME; the convolution with strides one is modelled by its definition as a finite sum (lax.conv_general_dilated is trusted); relations between x and its moved copy are stated between the images padded with zeros (no loss at the border)."
  },
  {
   "property": "C104",
   "status": "proved",
   "theorems": [
    "E3nn.LinEqx.C104_init",
    "E3nn.LinEqx.C104_init_refuse",
    "E3nn.LinEqx.C104_value",
    "E3nn.LinEqx.C104_channel",
    "E3nn.LinEqx.C104_equivariant",
    "E3nn.LinEqx.C104_channel_equivariant",
    "E3nn.LinEqx.C104_refuse",
    "E3nn.LinEqx.C104_zero_chunk_refused",
    "E3nn.LinEqx.C104_flax"
   ],
   "note": "One element of the leading axes (the layer is mapped over them); training is any change of the parameters that keeps names and sizes; the path and gradient normalisations are those of C28-C32. C104_zero_chunk_refused is a quirk: terms are removed after the irreps are compared."
  },
  {
   "property": "C105",
   "status": "proved",
   "theorems": [
    "E3nn.RTP.C105_keep",
    "E3nn.RTP.C105_count",
    "E3nn.RTP.C105_total",
    "E3nn.RTP.C105_optimized",
    "E3nn.RTP.C105_raises"
   ],
   "note": "C105_keep (specification KeptBasis), C105_count, C105_total, C105_optimized, C105_raises. Real arithmetic, eigh returns exact eigenvectors, as C95/C97."
  },
  {
   "property": "C106",
   "status": "proved",
   "theorems": [
    "E3nn.SO3.C106_matrix",
    "E3nn.SO3.C106_unique",
    "E3nn.SO3.C106_forms",
    "E3nn.SO3.C106_uniform",
    "E3nn.SO3.C106_ranges",
    "E3nn.SO3.C106_direction",
    "E3nn.SO3.C106_concrete"
   ],
   "note": "The generator is modelled as three independent uniform real numbers."
  },
  {
   "property": "C107",
   "status": "proved",
   "theorems": [
    "E3nn.EqTest.C107_sound",
    "E3nn.EqTest.C107_tolerance",
    "E3nn.EqTest.C107_complete",
    "E3nn.EqTest.C107_detects",
    "E3nn.EqTest.C107_zeros",
    "E3nn.EqTest.C107_concrete"
   ],
   "note": "Arrays without leading axes, default irrep normalization; the random numbers are independent uniform and normal real numbers."
  },
  {
   "property": "C108",
   "status": "proved",
   "theorems": [
    "E3nn.C108_tensor_product",
    "E3nn.C108_tensor_square",
    "E3nn.C108_elementwise",
    "E3nn.C108_scalar_activation",
    "E3nn.C108_gate",
    "E3nn.C108_elementwise_announced",
    "E3nn.C108_activation_announced"
   ],
   "note": "eval_shape is modelled by running the function on zeros that went through the pytree registration. irrep_normalization is one of the three documented values. For gate the scalars of the array are not zero-flagged (a flagged scalar may make gate fail, see C45)."
  },
  {
   "property": "C109",
   "status": "proved",
   "theorems": [
    "E3nn.Vmap.C109_vmap",
    "E3nn.Vmap.C109_vmap2",
    "E3nn.Vmap.C109_shared",
    "E3nn.Vmap.C109_tensor_product",
    "E3nn.Vmap.C109_shared_tensor_product",
    "E3nn.Vmap.C109_scalar_activation",
    "E3nn.Vmap.C109_jax_vmap",
    "E3nn.Vmap.C109_gate",
    "E3nn.Vmap.C109_tensor_square"
   ],
   "note": "in_axes=out_axes=0 (or None for the second argument); the mapped axis is not empty; JAX's tracing is modelled by running the function on every row."
  },
  {
   "property": "C110",
   "status": "proved",
   "theorems": [
    "E3nn.Gen.C110_shape",
    "E3nn.Gen.C110_algebra",
    "E3nn.Gen.C110_exp",
    "E3nn.Gen.C110_derivative",
    "E3nn.Gen.C110_equivariant"
   ],
   "note": "Over the reals, without leading axes."
  },
  {
   "property": "C111",
   "status": "proved",
   "theorems": [
    "E3nn.Compare.C111_arrays",
    "E3nn.Compare.C111_all",
    "E3nn.Compare.C111_number",
    "E3nn.Compare.C111_invariant",
    "E3nn.Compare.C111_number_invariant",
    "E3nn.Compare.C111_odd_witness"
   ],
   "note": "Leading axes already broadcast; exact reals (no rounding). x == number is also accepted for odd scalars, where the result is not equivariant (C111_odd_witness)."
  },
  {
   "property": "C112",
   "status": "proved",
   "theorems": [
    "E3nn.Shp.C112_order",
    "E3nn.Shp.C112_transform_rows",
    "E3nn.Shp.C112_reshape",
    "E3nn.Shp.C112_reshape_ok",
    "E3nn.Shp.C112_reshape_back",
    "E3nn.Shp.C112_broadcast",
    "E3nn.Shp.C112_axis_to_irreps",
    "E3nn.Shp.C112_reshape_equivariant",
    "E3nn.Shp.C112_broadcast_equivariant",
    "E3nn.Shp.C112_axis_equivariant",
    "E3nn.Shp.C112_axis_witness"
   ],
   "note": "For other axes axis_to_irreps reshapes to the wrong leading shape, and it accepts the irreps axis itself (C112_axis_witness). Inferring -1 when the known sizes multiply to zero depends on the backend and is left undefined in the model."
  },
  {
   "property": "C113",
   "status": "proved",
   "theorems": [
    "E3nn.Pow.C113_pow",
    "E3nn.Pow.C113_refused",
    "E3nn.Pow.C113_equivariant"
   ],
   "note": "Exact reals: a negative power of zero is zero in the model. With a cached None chunk the result is not coherent (also C14_pow_witness)."
  },
  {
   "property": "C114",
   "status": "proved",
   "theorems": [
    "E3nn.C114_lookup_iff",
    "E3nn.C114_every_irrep",
    "E3nn.C114_attribute_error",
    "E3nn.C114_empty_name",
    "E3nn.C114_injective"
   ],
   "note": "getattr(irrep, '') raises ValueError and not AttributeError (C114_empty_name)."
  },
  {
   "property": "C115",
   "status": "proved",
   "theorems": [
    "E3nn.C115_normalspace",
    "E3nn.C115_order",
    "E3nn.C115_soft_odd",
    "E3nn.C115_normalspace_bound",
    "E3nn.C115_odd_act_of_size",
    "E3nn.C115_default_odd_act"
   ],
   "note": "Exact real numbers; erfinv is any right inverse of the error function on (-1,1), and one is shown to exist."
  },
  {
   "property": "C116",
   "status": "proved",
   "theorems": [
    "E3nn.LimDen.C116_round",
    "E3nn.LimDen.C116_fixed",
    "E3nn.LimDen.C116_complex",
    "E3nn.LimDen.C116_docstring_witness",
    "E3nn.LimDen.C116_too_large"
   ],
   "note": "Exact real numbers and unbounded integers (int64 overflow is not modelled)."
  },
  {
   "property": "C117",
   "status": "proved",
   "theorems": [
    "E3nn.S2.C117_find_peaks",
    "E3nn.S2.C117_values",
    "E3nn.S2.C117_local_max",
    "E3nn.S2.C117_constant",
    "E3nn.S2.C117_example"
   ],
   "note": "Exact real numbers; the order in which the peaks of one grid are listed is a parameter. ValueError for a signal without an inner peak (C117_constant)."
  },
  {
   "property": "C118",
   "status": "proved",
   "theorems": [
    "E3nn.S2.C118_pad_to_plot"
   ],
   "note": "Exact real numbers; the signal zero with normalize_radius_by_max_amplitude gives NaN in the code and is excluded."
  },
  {
   "property": "C119",
   "status": "proved",
   "theorems": [
    "E3nn.S2.C119_to_s2grid",
    "E3nn.S2.C119_from_s2grid",
    "E3nn.S2.C119_round_trip",
    "E3nn.S2.C119_refuse",
    "E3nn.S2.C119_from_refuse",
    "E3nn.S2.C119_package_exists",
    "E3nn.S2.C119_parity_witness",
    "E3nn.S2.C119_missing_witness"
   ],
   "note": "The package s2fft is a parameter specified by its documentation (Spec/S2fft.lean); C119_package_exists shows that the specification can be met. C119_parity_witness and C119_missing_witness are the two deviations."
  },
  {
   "property": "C120",
   "status": "proved",
   "theorems": [
    "E3nn.Ein.C120_defined",
    "E3nn.Ein.C120_value",
    "E3nn.Ein.C120_jvp",
    "E3nn.Ein.C120_linear",
    "E3nn.Ein.C120_refuse",
    "E3nn.Ein.C120_matmul"
   ],
   "note": "Exact reals; equations already split at the commas and with an explicit output, no ellipsis; axes of length one are not broadcast. C120_matmul shows the hypotheses met and the rule as the product rule of matrices."
  },
  {
   "property": "C121",
   "status": "proved",
   "theorems": [
    "E3nn.C121_rand",
    "E3nn.C121_invariant"
   ],
   "note": "random.randint is uniform on its closed interval (Python documentation); n is a natural number."
  },
  {
   "property": "C122",
   "status": "proved",
   "theorems": [
    "E3nn.Shp.C122_axis_to_mul",
    "E3nn.Shp.C122_mul_to_axis",
    "E3nn.Shp.C122_mul_to_axis_refuse",
    "E3nn.Shp.C122_axis_to_mul_refuse",
    "E3nn.Shp.C122_factor_refuse",
    "E3nn.Shp.C122_round_trip",
    "E3nn.Shp.C122_default",
    "E3nn.Shp.C122_axis_witness",
    "E3nn.Shp.C122_last_axis_witness"
   ],
   "note": "The documented behaviour for every axis fails: C122_axis_witness (axis_to_mul(axis=0) of shape (2,3,1) mixes both axes), C122_last_axis_witness (mul_to_axis(2, axis=-1) of 4x0e is accepted and reorders the copies)."
  },
  {
   "property": "C123",
   "status": "proved",
   "theorems": [
    "E3nn.RDiv.C123_number",
    "E3nn.RDiv.C123_array",
    "E3nn.RDiv.C123_inverse",
    "E3nn.RDiv.C123_refused",
    "E3nn.RDiv.C123_equivariant",
    "E3nn.RDiv.C123_rows_witness"
   ],
   "note": "Exact reals: a quotient by zero is zero in the model. C123_rows_witness shows the difference to x / array."
  },
  {
   "property": "C124",
   "status": "proved",
   "theorems": [
    "E3nn.Sym.C124_recognised",
    "E3nn.Sym.C124_bound",
    "E3nn.Sym.C124_array",
    "E3nn.Sym.C124_contract"
   ],
   "note": "Fraction.limit_denominator is a parameter with its documented contract (C124_contract: it can be met); the floating point square is a parameter; sympy expressions are represented by their values."
  },
  {
   "property": "C125",
   "status": "proved",
   "theorems": [
    "E3nn.Pt.C125_tree_map",
    "E3nn.Pt.C125_structure",
    "E3nn.Pt.C125_compose",
    "E3nn.Pt.C125_round_trip",
    "E3nn.Pt.C125_same",
    "E3nn.Pt.C125_witness"
   ],
   "note": "jax.tree_util is modelled by its documented behaviour. C125_witness: an array reduced to a number is accepted as the array of an IrrepsArray, because arrays without axes are not checked."
  },
  {
   "property": "C126",
   "status": "proved",
   "theorems": [
    "E3nn.Ndx.C126_index",
    "E3nn.Ndx.C126_irreps",
    "E3nn.Ndx.C126_refuse",
    "E3nn.Ndx.C126_iter",
    "E3nn.Ndx.C126_witness",
    "E3nn.Ndx.C126_irreps_witness",
    "E3nn.Ndx.C126_none_witness"
   ],
   "note": "Indexing of numpy is modelled by its documented behaviour (basic indexing, positive steps; no index arrays). Slices of the irreps axis with bounds are C16; here they are a parameter. C126_none_witness: x[None, 0] is refused, x[None, 0:1] cuts the irreps axis, x[None, :, 0] can return components of different rows labelled with the irreps of x."
  },
  {
   "property": "C127",
   "status": "proved",
   "theorems": [
    "E3nn.Ndx.C127_select",
    "E3nn.Ndx.C127_int",
    "E3nn.Ndx.C127_refuse",
    "E3nn.Ndx.C127_grid_witness"
   ],
   "note": "Basic indexing of numpy by its documented behaviour. C127_grid_witness: indexing the grid is not always refused."
  },
  {
   "property": "C128",
   "status": "proved",
   "theorems": [
    "E3nn.Ndx.C128_update",
    "E3nn.Ndx.C128_refuse",
    "E3nn.Ndx.C128_irreps",
    "E3nn.Ndx.C128_witness"
   ],
   "note": "Values have the shape of x[index] (no broadcasting); values.rechunk is a parameter with the result of C13; indices without None, with ..., shorter than the number of axes or ending in ':' (others are miscounted as in C126)."
  }
 ]
}