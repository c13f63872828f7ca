{
 "claims": [
  {
   "property": "C01",
   "status": "proved",
   "theorems": [
    "Funpy.Props.C01_inverse",
    "Funpy.Props.C01_onto",
    "Funpy.Props.C01_der",
    "Funpy.Props.C01_call",
    "Funpy.Props.C01_call_value"
   ],
   "note": ""
  },
  {
   "property": "C02",
   "status": "proved",
   "theorems": [
    "Funpy.Props.C02_eval",
    "Funpy.Props.C02_paths_agree",
    "Funpy.Props.C02_fun_call"
   ],
   "note": ""
  },
  {
   "property": "C03",
   "status": "proved",
   "theorems": [
    "Funpy.Props.C03_lval",
    "Funpy.Props.C03_rval"
   ],
   "note": ""
  },
  {
   "property": "C04",
   "status": "proved",
   "theorems": [
    "Funpy.Props.C04_flipud",
    "Funpy.Props.C04_flipud_involutive",
    "Funpy.Props.C04_fliplr"
   ],
   "note": ""
  },
  {
   "property": "C05",
   "status": "proved",
   "theorems": [
    "Funpy.Props.C05_shape",
    "Funpy.Props.C05_pad_preserves",
    "Funpy.Props.C05_truncate",
    "Funpy.Props.C05_roundtrip",
    "Funpy.Props.C05_same"
   ],
   "note": ""
  },
  {
   "property": "C06",
   "status": "proved",
   "theorems": [
    "Funpy.Props.C06_values",
    "Funpy.Props.C06_points"
   ],
   "note": ""
  },
  {
   "property": "C07",
   "status": "proved",
   "theorems": [
    "Funpy.Props.C07_fit_val",
    "Funpy.Props.C07_val_fit",
    "Funpy.Props.C07_interpolates"
   ],
   "note": ""
  },
  {
   "property": "C08",
   "status": "proved",
   "theorems": [
    "Funpy.Props.C08_tech",
    "Funpy.Props.C08_exact",
    "Funpy.Props.C08_fun"
   ],
   "note": ""
  },
  {
   "property": "C09",
   "status": "partial",
   "theorems": [
    "Funpy.Props.C09_order_zero_is_first",
    "Funpy.Props.C09_order_zero_raises",
    "Funpy.Props.C09_order_zero_fails",
    "Funpy.Props.C09_attributes_partial"
   ],
   "note": "The property is false of the code in general; refuted on concrete inputs by C09_order_zero_fails. Proved under the restrictions stated in the docstrings of C09_attributes_partial."
  },
  {
   "property": "C10",
   "status": "proved",
   "theorems": [
    "Funpy.Props.C10_tech",
    "Funpy.Props.C10_fun"
   ],
   "note": ""
  },
  {
   "property": "C11",
   "status": "proved",
   "theorems": [
    "Funpy.Props.C11_left_zero",
    "Funpy.Props.C11_exact",
    "Funpy.Props.C11_error",
    "Funpy.Props.C11_fun"
   ],
   "note": ""
  },
  {
   "property": "C12",
   "status": "proved",
   "theorems": [
    "Funpy.Props.C12_add",
    "Funpy.Props.C12_add_exact",
    "Funpy.Props.C12_neg",
    "Funpy.Props.C12_sub",
    "Funpy.Props.C12_addConst",
    "Funpy.Props.C12_mulNum",
    "Funpy.Props.C12_divNum",
    "Funpy.Props.C12_iadd"
   ],
   "note": ""
  },
  {
   "property": "C13",
   "status": "proved",
   "theorems": [
    "Funpy.Props.C13_product",
    "Funpy.Props.C13_mul",
    "Funpy.Props.C13_square_nonneg",
    "Funpy.Props.C13_square_exact"
   ],
   "note": ""
  },
  {
   "property": "C14",
   "status": "partial",
   "theorems": [
    "Funpy.Props.C14_array_constant_fails",
    "Funpy.Props.C14_scalar_partial",
    "Funpy.Props.C14_constant_constant"
   ],
   "note": "The property is false of the code in general; refuted on concrete inputs by C14_array_constant_fails. Proved under the restrictions stated in the docstrings of C14_scalar_partial."
  },
  {
   "property": "C15",
   "status": "proved",
   "theorems": [
    "Funpy.Props.C15_integral",
    "Funpy.Props.C15_symm",
    "Funpy.Props.C15_bilinear",
    "Funpy.Props.C15_pos_def",
    "Funpy.Props.C15_fun"
   ],
   "note": ""
  },
  {
   "property": "C16",
   "status": "proved",
   "theorems": [
    "Funpy.Props.C16_exact",
    "Funpy.Props.C16_sum"
   ],
   "note": ""
  },
  {
   "property": "C17",
   "status": "proved",
   "theorems": [
    "Funpy.Props.C17_tech",
    "Funpy.Props.C17_diag_nonneg",
    "Funpy.Props.C17_fun",
    "Funpy.Props.C17_dot"
   ],
   "note": ""
  },
  {
   "property": "C18",
   "status": "proved",
   "theorems": [
    "Funpy.Props.C18_hstack",
    "Funpy.Props.C18_hstack_empty",
    "Funpy.Props.C18_getItem",
    "Funpy.Props.C18_getSlice",
    "Funpy.Props.C18_fun"
   ],
   "note": ""
  },
  {
   "property": "C19",
   "status": "proved",
   "theorems": [
    "Funpy.Props.C19_from_flatten",
    "Funpy.Props.C19_flatten_from",
    "Funpy.Props.C19_refused"
   ],
   "note": ""
  },
  {
   "property": "C20",
   "status": "proved",
   "theorems": [
    "Funpy.Props.C20_range",
    "Funpy.Props.C20_scan_total",
    "Funpy.Props.C20_special"
   ],
   "note": ""
  },
  {
   "property": "C21",
   "status": "partial",
   "theorems": [
    "Funpy.Props.C21_scale_invariance_fails",
    "Funpy.Props.C21_normalisation",
    "Funpy.Props.C21_normalised_partial"
   ],
   "note": "The property is false of the code in general; refuted on concrete inputs by C21_scale_invariance_fails. Proved under the restrictions stated in the docstrings of C21_normalised_partial."
  },
  {
   "property": "C22",
   "status": "proved",
   "theorems": [
    "Funpy.Props.C22_prefix",
    "Funpy.Props.C22_error",
    "Funpy.Props.C22_lossless"
   ],
   "note": ""
  },
  {
   "property": "C23",
   "status": "partial",
   "theorems": [
    "Funpy.Props.C23_lengthens",
    "Funpy.Props.C23_at_most_one_partial"
   ],
   "note": "Proved under the restrictions stated in the docstrings of C23_at_most_one_partial. The property is false in general: C23_lengthens."
  },
  {
   "property": "C24",
   "status": "proved",
   "theorems": [
    "Funpy.Props.C24_resample_sizes",
    "Funpy.Props.C24_grids_nested",
    "Funpy.Props.C24_nested_step",
    "Funpy.Props.C24_terminates",
    "Funpy.Props.C24_too_short",
    "Funpy.Props.C24_constructor",
    "Funpy.Props.C24_giveup_interpolates",
    "Funpy.Props.C24_happy_error"
   ],
   "note": ""
  },
  {
   "property": "C25",
   "status": "partial",
   "theorems": [
    "Funpy.Props.C25_mismatch_accepted",
    "Funpy.Props.C25_detected_partial",
    "Funpy.Props.C25_one_order_partial",
    "Funpy.Props.C25_same_domain",
    "Funpy.Props.C25_add_values"
   ],
   "note": "Proved under the restrictions stated in the docstrings of C25_detected_partial, C25_one_order_partial. The property is false in general: C25_mismatch_accepted."
  },
  {
   "property": "C26",
   "status": "partial",
   "theorems": [
    "Funpy.Props.C26_constructed_recorded",
    "Funpy.Props.C26_copy",
    "Funpy.Props.C26_fun_copy",
    "Funpy.Props.C26_deepcopy_partial",
    "Funpy.Props.C26_deepcopy_hscale_lost",
    "Funpy.Props.C26_no_shared_storage"
   ],
   "note": "Proved under the restrictions stated in the docstrings of C26_deepcopy_partial. The property is false in general: C26_deepcopy_hscale_lost."
  },
  {
   "property": "C27",
   "status": "proved",
   "theorems": [
    "Funpy.Props.C27_roundtrip",
    "Funpy.Props.C27_data"
   ],
   "note": ""
  },
  {
   "property": "C28",
   "status": "proved",
   "theorems": [
    "Funpy.Props.C28_pencil",
    "Funpy.Props.C28_eigSpec_satisfiable",
    "Funpy.Props.C28_truncation",
    "Funpy.Props.C28_truncation_error",
    "Funpy.Props.C28_base",
    "Funpy.Props.C28_linear",
    "Funpy.Props.C28_split",
    "Funpy.Props.C28_recursion",
    "Funpy.Props.C28_splitPoint",
    "Funpy.Props.C28_fun"
   ],
   "note": ""
  },
  {
   "property": "C29",
   "status": "partial",
   "theorems": [
    "Funpy.Props.C29_reports_outside",
    "Funpy.Props.C29_linear_partial"
   ],
   "note": "Proved under the restrictions stated in the docstrings of C29_linear_partial. The property is false in general: C29_reports_outside."
  },
  {
   "property": "C30",
   "status": "proved",
   "theorems": [
    "Funpy.Props.C30_series",
    "Funpy.Props.C30_all",
    "Funpy.Props.C30_tolerance",
    "Funpy.Props.C30_fun"
   ],
   "note": ""
  },
  {
   "property": "C31",
   "status": "proved",
   "theorems": [
    "Funpy.Props.C31_inverse",
    "Funpy.Props.C31_values",
    "Funpy.Props.C31_interpolates",
    "Funpy.Props.C31_unique"
   ],
   "note": ""
  },
  {
   "property": "C32",
   "status": "partial",
   "theorems": [
    "Funpy.Props.C32_column",
    "Funpy.Props.C32_prolong",
    "Funpy.Props.C32_chop_odd",
    "Funpy.Props.C32_chop_even",
    "Funpy.Props.C32_prolong_coeffs_wrong_length",
    "Funpy.Props.C32_prolong_coeffs_partial"
   ],
   "note": "Proved under the restrictions stated in the docstrings of C32_prolong_coeffs_partial. The property is false in general: C32_prolong_coeffs_wrong_length."
  },
  {
   "property": "C33",
   "status": "proved",
   "theorems": [
    "Funpy.Props.C33_tech",
    "Funpy.Props.C33_fun"
   ],
   "note": ""
  },
  {
   "property": "C34",
   "status": "partial",
   "theorems": [
    "Funpy.Props.C34_tech_partial",
    "Funpy.Props.C34_fun_partial",
    "Funpy.Props.C34_even_length_fails"
   ],
   "note": "The property is false of the code in general; refuted on concrete inputs by C34_even_length_fails. Proved under the restrictions stated in the docstrings of C34_tech_partial, C34_fun_partial."
  },
  {
   "property": "C35",
   "status": "partial",
   "theorems": [
    "Funpy.Props.C35_mean_refused",
    "Funpy.Props.C35_modes_partial",
    "Funpy.Props.C35_fails",
    "Funpy.Props.C35_mutates_argument"
   ],
   "note": "The property is false of the code in general; refuted on concrete inputs by C35_fails. Proved under the restrictions stated in the docstrings of C35_modes_partial."
  },
  {
   "property": "C36",
   "status": "partial",
   "theorems": [
    "Funpy.Props.C36_tech_partial",
    "Funpy.Props.C36_fun_partial",
    "Funpy.Props.C36_length_two_partial",
    "Funpy.Props.C36_domain_fails",
    "Funpy.Props.C36_even_length_fails"
   ],
   "note": "The property is false of the code in general; refuted on concrete inputs by C36_domain_fails, C36_even_length_fails. Proved under the restrictions stated in the docstrings of C36_tech_partial, C36_fun_partial, C36_length_two_partial."
  },
  {
   "property": "C37",
   "status": "partial",
   "theorems": [
    "Funpy.Props.C37_imag",
    "Funpy.Props.C37_real_partial",
    "Funpy.Props.C37_real_fails",
    "Funpy.Props.C37_conj_fails",
    "Funpy.Props.C37_conj_partial"
   ],
   "note": "The property is false of the code in general; refuted on concrete inputs by C37_real_fails, C37_conj_fails. Proved under the restrictions stated in the docstrings of C37_real_partial, C37_conj_partial."
  },
  {
   "property": "C38",
   "status": "partial",
   "theorems": [
    "Funpy.Props.C38_swapped_partial",
    "Funpy.Props.C38_fails"
   ],
   "note": "The property is false of the code in general; refuted on concrete inputs by C38_fails. Proved under the restrictions stated in the docstrings of C38_swapped_partial."
  },
  {
   "property": "C39",
   "status": "proved",
   "theorems": [
    "Funpy.Props.C39_spconvert",
    "Funpy.Props.C39_convertmat",
    "Funpy.Props.C39_unique"
   ],
   "note": ""
  },
  {
   "property": "C40",
   "status": "proved",
   "theorems": [
    "Funpy.Props.C40_diffmat",
    "Funpy.Props.C40_interval"
   ],
   "note": ""
  },
  {
   "property": "C41",
   "status": "partial",
   "theorems": [
    "Funpy.Props.C41_product_partial",
    "Funpy.Props.C41_truncated_partial",
    "Funpy.Props.C41_chopped_partial",
    "Funpy.Props.C41_large_fails",
    "Funpy.Props.C41_section_partial"
   ],
   "note": "The property is false of the code in general; refuted on concrete inputs by C41_large_fails. Proved under the restrictions stated in the docstrings of C41_product_partial, C41_truncated_partial, C41_chopped_partial, C41_section_partial."
  },
  {
   "property": "C42",
   "status": "proved",
   "theorems": [
    "Funpy.Props.C42_spconvert_inv",
    "Funpy.Props.C42_convertmat_inv",
    "Funpy.Props.C42_series"
   ],
   "note": ""
  },
  {
   "property": "C43",
   "status": "partial",
   "theorems": [
    "Funpy.Props.C43_delete_col",
    "Funpy.Props.C43_delete_col_raises",
    "Funpy.Props.C43_delete_cols",
    "Funpy.Props.C43_delete_rows",
    "Funpy.Props.C43_delete_rows_raises",
    "Funpy.Props.C43_delete_row_partial",
    "Funpy.Props.C43_delete_row_fails",
    "Funpy.Props.C43_delete_cols_repeated"
   ],
   "note": "The property is false of the code in general; refuted on concrete inputs by C43_delete_row_fails. Proved under the restrictions stated in the docstrings of C43_delete_row_partial."
  },
  {
   "property": "C44",
   "status": "partial",
   "theorems": [
    "Funpy.Props.C44_solve",
    "Funpy.Props.C44_solve_adj",
    "Funpy.Props.C44_solve_zero",
    "Funpy.Props.C44_det",
    "Funpy.Props.C44_null_partial",
    "Funpy.Props.C44_null_adj_partial",
    "Funpy.Props.C44_null_singular",
    "Funpy.Props.C44_nullspace",
    "Funpy.Props.C44_null_adj_singular",
    "Funpy.Props.C44_nullspace_adj",
    "Funpy.Props.C44_update_row",
    "Funpy.Props.C44_update_col",
    "Funpy.Props.C44_min_norm",
    "Funpy.Props.C44_null_singular_fails"
   ],
   "note": "The property is false of the code in general; refuted on concrete inputs by C44_null_singular_fails. Proved under the restrictions stated in the docstrings of C44_null_partial, C44_null_adj_partial."
  },
  {
   "property": "C45",
   "status": "partial",
   "theorems": [
    "Funpy.Props.C45_tangent",
    "Funpy.Props.C45_solve_partial",
    "Funpy.Props.C45_orthogonality",
    "Funpy.Props.C45_solve_fails"
   ],
   "note": "The property is false of the code in general; refuted on concrete inputs by C45_solve_fails. Proved under the restrictions stated in the docstrings of C45_solve_partial."
  },
  {
   "property": "C46",
   "status": "proved",
   "theorems": [
    "Funpy.Props.C46_swaps",
    "Funpy.Props.C46_minimum",
    "Funpy.Props.C46_sign"
   ],
   "note": ""
  },
  {
   "property": "C47",
   "status": "partial",
   "theorems": [
    "Funpy.Props.C47_detH_partial",
    "Funpy.Props.C47_detH_small",
    "Funpy.Props.C47_tiny_fails",
    "Funpy.Props.C47_fails"
   ],
   "note": "The property is false of the code in general; refuted on concrete inputs by C47_tiny_fails, C47_fails. Proved under the restrictions stated in the docstrings of C47_detH_partial."
  },
  {
   "property": "C48",
   "status": "proved",
   "theorems": [
    "Funpy.Props.C48_pow2",
    "Funpy.Props.C48_pow2_small",
    "Funpy.Props.C48_pow2_terminates",
    "Funpy.Props.C48_round_up",
    "Funpy.Props.C48_secant",
    "Funpy.Props.C48_secant_affine",
    "Funpy.Props.C48_nearest_idx",
    "Funpy.Props.C48_nearest",
    "Funpy.Props.C48_moving_average"
   ],
   "note": ""
  },
  {
   "property": "C49",
   "status": "partial",
   "theorems": [
    "Funpy.Props.C49_binary",
    "Funpy.Props.C49_scalar",
    "Funpy.Props.C49_raises",
    "Funpy.Props.C49_inplace",
    "Funpy.Props.C49_inplace_scalar",
    "Funpy.Props.C49_dot",
    "Funpy.Props.C49_dot_symm_partial",
    "Funpy.Props.C49_dot_additive_partial",
    "Funpy.Props.C49_fails",
    "Funpy.Props.C49_dot_integral",
    "Funpy.Props.C49_norm",
    "Funpy.Props.C49_normalize",
    "Funpy.Props.C49_norm_odd_fails",
    "Funpy.Props.C49_innerw_fails"
   ],
   "note": "The property is false of the code in general; refuted on concrete inputs by C49_fails, C49_norm_odd_fails, C49_innerw_fails. Proved under the restrictions stated in the docstrings of C49_dot_symm_partial, C49_dot_additive_partial."
  },
  {
   "property": "C50",
   "status": "partial",
   "theorems": [
    "Funpy.Props.C50_componentwise_partial",
    "Funpy.Props.C50_fails",
    "Funpy.Props.C50_classes",
    "Funpy.Props.C50_conj"
   ],
   "note": "The property is false of the code in general; refuted on concrete inputs by C50_fails. Proved under the restrictions stated in the docstrings of C50_componentwise_partial."
  },
  {
   "property": "C51",
   "status": "partial",
   "theorems": [
    "Funpy.Props.C51_roundtrip_partial",
    "Funpy.Props.C51_fails"
   ],
   "note": "The property is false of the code in general; refuted on concrete inputs by C51_fails. Proved under the restrictions stated in the docstrings of C51_roundtrip_partial."
  },
  {
   "property": "C52",
   "status": "partial",
   "theorems": [
    "Funpy.Props.C52_standard",
    "Funpy.Props.C52_standard_complete",
    "Funpy.Props.C52_standard_fails",
    "Funpy.Props.C52_qnerr_called",
    "Funpy.Props.C52_qnerr_alone",
    "Funpy.Props.C52_qnerr_alone_fails",
    "Funpy.Props.C52_qnerr_tuple_fails",
    "Funpy.Props.C52_nleq",
    "Funpy.Props.C52_nleq_terminates",
    "Funpy.Props.C52_nleq_count_fails",
    "Funpy.Props.C52_giant_partial",
    "Funpy.Props.C52_giant_terminates",
    "Funpy.Props.C52_giant_fails"
   ],
   "note": "The property is false of the code in general; refuted on concrete inputs by C52_standard_fails, C52_qnerr_alone_fails, C52_qnerr_tuple_fails, C52_nleq_count_fails, C52_giant_fails. Proved under the restrictions stated in the docstrings of C52_giant_partial."
  },
  {
   "property": "C53",
   "status": "proved",
   "theorems": [
    "Funpy.Props.C53_lower",
    "Funpy.Props.C53_pos",
    "Funpy.Props.C53_zeros",
    "Funpy.Props.C53_blowup",
    "Funpy.Props.C53_derivative",
    "Funpy.Props.C53_none"
   ],
   "note": ""
  },
  {
   "property": "C54",
   "status": "partial",
   "theorems": [
    "Funpy.Props.C54_linear",
    "Funpy.Props.C54_derivative",
    "Funpy.Props.C54_residual_fails",
    "Funpy.Props.C54_matvec_fails",
    "Funpy.Props.C54_precond_none",
    "Funpy.Props.C54_precond_iff_partial",
    "Funpy.Props.C54_precond_fails"
   ],
   "note": "The property is false of the code in general; refuted on concrete inputs by C54_residual_fails, C54_matvec_fails, C54_precond_fails. Proved under the restrictions stated in the docstrings of C54_precond_iff_partial."
  },
  {
   "property": "C55",
   "status": "proved",
   "theorems": [
    "Funpy.Props.C55_barymat",
    "Funpy.Props.C55_eval_operator"
   ],
   "note": ""
  },
  {
   "property": "C56",
   "status": "partial",
   "theorems": [
    "Funpy.Props.C56_jac2jac",
    "Funpy.Props.C56_noninteger",
    "Funpy.Props.C56_ultra2ultra",
    "Funpy.Props.C56_from_ultra",
    "Funpy.Props.C56_input_fails",
    "Funpy.Props.C56_input_same"
   ],
   "note": "The property is false of the code in general; refuted on concrete inputs by C56_input_fails."
  },
  {
   "property": "C57",
   "status": "partial",
   "theorems": [
    "Funpy.Props.C57_type2_partial",
    "Funpy.Props.C57_type2_one",
    "Funpy.Props.C57_counterexample_single",
    "Funpy.Props.C57_counterexample_type1",
    "Funpy.Props.C57_type2_nodes"
   ],
   "note": "Proved under the restrictions stated in the docstrings of C57_type2_partial. The property is false in general: C57_counterexample_single, C57_counterexample_type1."
  },
  {
   "property": "C58",
   "status": "proved",
   "theorems": [
    "Funpy.Props.C58_diffmat"
   ],
   "note": ""
  },
  {
   "property": "C59",
   "status": "partial",
   "theorems": [
    "Funpy.Props.C59_evaluation_mutates",
    "Funpy.Props.C59_unchanged_partial"
   ],
   "note": "Proved under the restrictions stated in the docstrings of C59_unchanged_partial. The property is false in general: C59_evaluation_mutates."
  },
  {
   "property": "C60",
   "status": "proved",
   "theorems": [
    "Funpy.Props.C60_tech",
    "Funpy.Props.C60_fun"
   ],
   "note": ""
  },
  {
   "property": "C61",
   "status": "proved",
   "theorems": [
    "Funpy.Props.C61_negative",
    "Funpy.Props.C61_times_number",
    "Funpy.Props.C61_divide_number",
    "Funpy.Props.C61_plus_number",
    "Funpy.Props.C61_add",
    "Funpy.Props.C61_sub",
    "Funpy.Props.C61_values",
    "Funpy.Props.C61_sub_real"
   ],
   "note": ""
  },
  {
   "property": "C62",
   "status": "partial",
   "theorems": [
    "Funpy.Props.C62_square_raises",
    "Funpy.Props.C62_constant",
    "Funpy.Props.C62_product_partial",
    "Funpy.Props.C62_even_fails"
   ],
   "note": "The property is false of the code in general; refuted on concrete inputs by C62_even_fails. Proved under the restrictions stated in the docstrings of C62_product_partial."
  },
  {
   "property": "C63",
   "status": "proved",
   "theorems": [
    "Funpy.Props.C63_simplify",
    "Funpy.Props.C63_lossless",
    "Funpy.Props.C63_error"
   ],
   "note": ""
  },
  {
   "property": "C64",
   "status": "partial",
   "theorems": [
    "Funpy.Props.C64_tech_partial",
    "Funpy.Props.C64_fun_partial",
    "Funpy.Props.C64_symmetric_partial",
    "Funpy.Props.C64_refused",
    "Funpy.Props.C64_even_fails"
   ],
   "note": "The property is false of the code in general; refuted on concrete inputs by C64_even_fails. Proved under the restrictions stated in the docstrings of C64_tech_partial, C64_fun_partial, C64_symmetric_partial."
  },
  {
   "property": "C65",
   "status": "partial",
   "theorems": [
    "Funpy.Props.C65_large_fails",
    "Funpy.Props.C65_quasi2diffmat_partial",
    "Funpy.Props.C65_adjoint_partial"
   ],
   "note": "The property is false of the code in general; refuted on concrete inputs by C65_large_fails. Proved under the restrictions stated in the docstrings of C65_quasi2diffmat_partial, C65_adjoint_partial."
  },
  {
   "property": "C66",
   "status": "proved",
   "theorems": [
    "Funpy.Props.C66_vappend",
    "Funpy.Props.C66_flip",
    "Funpy.Props.C66_eliminate_zeros"
   ],
   "note": ""
  },
  {
   "property": "C67",
   "status": "proved",
   "theorems": [
    "Funpy.Props.C67_reduceOne"
   ],
   "note": ""
  },
  {
   "property": "C68",
   "status": "proved",
   "theorems": [
    "Funpy.Props.C68_solve",
    "Funpy.Props.C68_solve_adj",
    "Funpy.Props.C68_pivots",
    "Funpy.Props.C68_min_norm"
   ],
   "note": ""
  },
  {
   "property": "C69",
   "status": "proved",
   "theorems": [
    "Funpy.Props.C69_bif"
   ],
   "note": ""
  },
  {
   "property": "C70",
   "status": "partial",
   "theorems": [
    "Funpy.Props.C70_logabs",
    "Funpy.Props.C70_sign_actual",
    "Funpy.Props.C70_logdet_partial",
    "Funpy.Props.C70_fails",
    "Funpy.Props.C70_umfpack"
   ],
   "note": "The property is false of the code in general; refuted on concrete inputs by C70_fails. Proved under the restrictions stated in the docstrings of C70_logdet_partial."
  },
  {
   "property": "C71",
   "status": "proved",
   "theorems": [
    "Funpy.Props.C71_givens",
    "Funpy.Props.C71_givens_scaling",
    "Funpy.Props.C71_slogdet"
   ],
   "note": ""
  },
  {
   "property": "C72",
   "status": "proved",
   "theorems": [
    "Funpy.Props.C72_solve",
    "Funpy.Props.C72_solve_adj",
    "Funpy.Props.C72_det",
    "Funpy.Props.C72_det_sign",
    "Funpy.Props.C72_det_wide",
    "Funpy.Props.C72_null",
    "Funpy.Props.C72_particular",
    "Funpy.Props.C72_particular_raises",
    "Funpy.Props.C72_particular_adj",
    "Funpy.Props.C72_correct",
    "Funpy.Props.C72_bordered"
   ],
   "note": ""
  },
  {
   "property": "C73",
   "status": "partial",
   "theorems": [
    "Funpy.Props.C73_least_squares",
    "Funpy.Props.C73_pinv_partial",
    "Funpy.Props.C73_pinv_fails",
    "Funpy.Props.C73_tangent",
    "Funpy.Props.C73_detH",
    "Funpy.Props.C73_pseudo_rank",
    "Funpy.Props.C73_scaled_identity_fails",
    "Funpy.Props.C73_zero_matrix_fails"
   ],
   "note": "The property is false of the code in general; refuted on concrete inputs by C73_pinv_fails, C73_scaled_identity_fails, C73_zero_matrix_fails. Proved under the restrictions stated in the docstrings of C73_pinv_partial."
  },
  {
   "property": "C74",
   "status": "proved",
   "theorems": [
    "Funpy.Props.C74_perm",
    "Funpy.Props.C74_exact",
    "Funpy.Props.C74_bound",
    "Funpy.Props.C74_multipliers"
   ],
   "note": ""
  },
  {
   "property": "C75",
   "status": "partial",
   "theorems": [
    "Funpy.Props.C75_hat",
    "Funpy.Props.C75_null_partial",
    "Funpy.Props.C75_fails"
   ],
   "note": "The property is false of the code in general; refuted on concrete inputs by C75_fails. Proved under the restrictions stated in the docstrings of C75_null_partial."
  },
  {
   "property": "C76",
   "status": "partial",
   "theorems": [
    "Funpy.Props.C76_solve_fails",
    "Funpy.Props.C76_solve_adj_fails"
   ],
   "note": "The property is false of the code in general; refuted on concrete inputs by C76_solve_fails, C76_solve_adj_fails. The property is false for every input: both methods raise."
  },
  {
   "property": "C77",
   "status": "partial",
   "theorems": [
    "Funpy.Props.C77_mul_out",
    "Funpy.Props.C77_imul",
    "Funpy.Props.C77_mul_num",
    "Funpy.Props.C77_idiv",
    "Funpy.Props.C77_iadd_const",
    "Funpy.Props.C77_fails",
    "Funpy.Props.C77_add_out_actual"
   ],
   "note": "The property is false of the code in general; refuted on concrete inputs by C77_fails."
  },
  {
   "property": "C78",
   "status": "partial",
   "theorems": [
    "Funpy.Props.C78_from_state_partial",
    "Funpy.Props.C78_fails",
    "Funpy.Props.C78_arithmetic",
    "Funpy.Props.C78_synced_partial",
    "Funpy.Props.C78_synced_fails",
    "Funpy.Props.C78_alias_fails",
    "Funpy.Props.C78_deepcopy_independent"
   ],
   "note": "The property is false of the code in general; refuted on concrete inputs by C78_fails, C78_synced_fails, C78_alias_fails. Proved under the restrictions stated in the docstrings of C78_from_state_partial, C78_synced_partial."
  },
  {
   "property": "C79",
   "status": "proved",
   "theorems": [
    "Funpy.Props.C79_roundtrip"
   ],
   "note": ""
  },
  {
   "property": "C80",
   "status": "proved",
   "theorems": [
    "Funpy.Props.C80_mp"
   ],
   "note": ""
  },
  {
   "property": "C81",
   "status": "partial",
   "theorems": [
    "Funpy.Props.C81_qnerr_secant",
    "Funpy.Props.C81_alone_fails"
   ],
   "note": "The property is false of the code in general; refuted on concrete inputs by C81_alone_fails."
  },
  {
   "property": "C82",
   "status": "partial",
   "theorems": [
    "Funpy.Props.C82_seeker",
    "Funpy.Props.C82_nleq_fails"
   ],
   "note": "The property is false of the code in general; refuted on concrete inputs by C82_nleq_fails."
  },
  {
   "property": "C83",
   "status": "partial",
   "theorems": [
    "Funpy.Props.C83_terminates",
    "Funpy.Props.C83_success",
    "Funpy.Props.C83_broyden",
    "Funpy.Props.C83_exact_precond",
    "Funpy.Props.C83_simple_fails"
   ],
   "note": "The property is false of the code in general; refuted on concrete inputs by C83_simple_fails."
  },
  {
   "property": "C84",
   "status": "proved",
   "theorems": [
    "Funpy.Props.C84_normh",
    "Funpy.Props.C84_weighted",
    "Funpy.Props.C84_rejects",
    "Funpy.Props.C84_definite",
    "Funpy.Props.C84_cauchy_schwarz"
   ],
   "note": ""
  },
  {
   "property": "C85",
   "status": "partial",
   "theorems": [
    "Funpy.Props.C85_power",
    "Funpy.Props.C85_norm_even_partial",
    "Funpy.Props.C85_norm_fails",
    "Funpy.Props.C85_abs_long_fails",
    "Funpy.Props.C85_norm_one_partial"
   ],
   "note": "The property is false of the code in general; refuted on concrete inputs by C85_norm_fails, C85_abs_long_fails. Proved under the restrictions stated in the docstrings of C85_norm_even_partial, C85_norm_one_partial."
  },
  {
   "property": "C86",
   "status": "partial",
   "theorems": [
    "Funpy.Props.C86_candidates",
    "Funpy.Props.C86_extrema_partial",
    "Funpy.Props.C86_infnorm_partial",
    "Funpy.Props.C86_quadratic_partial",
    "Funpy.Props.C86_fails"
   ],
   "note": "The property is false of the code in general; refuted on concrete inputs by C86_fails. Proved under the restrictions stated in the docstrings of C86_extrema_partial, C86_infnorm_partial, C86_quadratic_partial."
  },
  {
   "property": "C87",
   "status": "proved",
   "theorems": [
    "Funpy.Props.C87_near_best",
    "Funpy.Props.C87_polynomial"
   ],
   "note": ""
  },
  {
   "property": "C88",
   "status": "proved",
   "theorems": [
    "Funpy.Props.C88_ufunc",
    "Funpy.Props.C88_ufunc2"
   ],
   "note": ""
  },
  {
   "property": "C89",
   "status": "partial",
   "theorems": [
    "Funpy.Props.C89_shifted",
    "Funpy.Props.C89_unit_partial",
    "Funpy.Props.C89_raises_fails",
    "Funpy.Props.C89_fails",
    "Funpy.Props.C89_two_shifted",
    "Funpy.Props.C89_two_unit_partial",
    "Funpy.Props.C89_two_raises_fails"
   ],
   "note": "The property is false of the code in general; refuted on concrete inputs by C89_raises_fails, C89_fails, C89_two_raises_fails. Proved under the restrictions stated in the docstrings of C89_unit_partial, C89_two_unit_partial."
  },
  {
   "property": "C90",
   "status": "partial",
   "theorems": [
    "Funpy.Props.C90_truncates",
    "Funpy.Props.C90_short_partial",
    "Funpy.Props.C90_fails",
    "Funpy.Props.C90_two_truncates",
    "Funpy.Props.C90_two_short_partial",
    "Funpy.Props.C90_two_fails"
   ],
   "note": "The property is false of the code in general; refuted on concrete inputs by C90_fails, C90_two_fails. Proved under the restrictions stated in the docstrings of C90_short_partial, C90_two_short_partial."
  },
  {
   "property": "C91",
   "status": "partial",
   "theorems": [
    "Funpy.Props.C91_restrict_partial",
    "Funpy.Props.C91_rejects",
    "Funpy.Props.C91_scalar_fails",
    "Funpy.Props.C91_pieces_fails"
   ],
   "note": "The property is false of the code in general; refuted on concrete inputs by C91_scalar_fails, C91_pieces_fails. Proved under the restrictions stated in the docstrings of C91_restrict_partial."
  },
  {
   "property": "C92",
   "status": "partial",
   "theorems": [
    "Funpy.Props.C92_quadrature",
    "Funpy.Props.C92_exact_partial",
    "Funpy.Props.C92_fails",
    "Funpy.Props.C92_weighted_fails"
   ],
   "note": "The property is false of the code in general; refuted on concrete inputs by C92_fails, C92_weighted_fails. Proved under the restrictions stated in the docstrings of C92_exact_partial."
  },
  {
   "property": "C93",
   "status": "partial",
   "theorems": [
    "Funpy.Props.C93_qr_partial",
    "Funpy.Props.C93_one_column_fails",
    "Funpy.Props.C93_zero_fails"
   ],
   "note": "The property is false of the code in general; refuted on concrete inputs by C93_one_column_fails, C93_zero_fails. Proved under the restrictions stated in the docstrings of C93_qr_partial."
  },
  {
   "property": "C94",
   "status": "partial",
   "theorems": [
    "Funpy.Props.C94_assemble_partial",
    "Funpy.Props.C94_truncated_series_partial",
    "Funpy.Props.C94_dropped_entries",
    "Funpy.Props.C94_even_fails",
    "Funpy.Props.C94_integrand_fails",
    "Funpy.Props.C94_agg_derivative_fails"
   ],
   "note": "The property is false of the code in general; refuted on concrete inputs by C94_even_fails, C94_integrand_fails, C94_agg_derivative_fails. Proved under the restrictions stated in the docstrings of C94_assemble_partial, C94_truncated_series_partial."
  },
  {
   "property": "C96",
   "status": "proved",
   "theorems": [
    "Funpy.Props.C96_diff",
    "Funpy.Props.C96_call",
    "Funpy.Props.C96_outside",
    "Funpy.Props.C96_single_fails"
   ],
   "note": "Proved as stated; limits of the code outside the statement are recorded by C96_single_fails."
  },
  {
   "property": "C97",
   "status": "proved",
   "theorems": [
    "Funpy.Props.C97_row",
    "Funpy.Props.C97_correction",
    "Funpy.Props.C97_constant_raises",
    "Funpy.Props.C97_outside",
    "Funpy.Props.C97_residual"
   ],
   "note": ""
  },
  {
   "property": "C98",
   "status": "partial",
   "theorems": [
    "Funpy.Props.C98_large_fails",
    "Funpy.Props.C98_shape",
    "Funpy.Props.C98_rows",
    "Funpy.Props.C98_solution_partial",
    "Funpy.Props.C98_consistent_partial",
    "Funpy.Props.C98_step_bcs"
   ],
   "note": "The property is false of the code in general; refuted on concrete inputs by C98_large_fails. Proved under the restrictions stated in the docstrings of C98_solution_partial, C98_consistent_partial."
  },
  {
   "property": "C100",
   "status": "proved",
   "theorems": [
    "Funpy.Props.C100_sizes",
    "Funpy.Props.C100_upper",
    "Funpy.Props.C100_run",
    "Funpy.Props.C100_success",
    "Funpy.Props.C100_constant",
    "Funpy.Props.C100_gives_up",
    "Funpy.Props.C100_inplace_fails",
    "Funpy.Props.C100_lost_success_fails",
    "Funpy.Props.C100_unresolved_fails"
   ],
   "note": "Proved as stated; limits of the code outside the statement are recorded by C100_inplace_fails, C100_lost_success_fails, C100_unresolved_fails."
  },
  {
   "property": "C103",
   "status": "partial",
   "theorems": [
    "Funpy.Props.C103_expandTerms",
    "Funpy.Props.C103_linearize_partial",
    "Funpy.Props.C103_scalar_partial",
    "Funpy.Props.C103_differential",
    "Funpy.Props.C103_system_fails",
    "Funpy.Props.C103_repeated_fails",
    "Funpy.Props.C103_integrand_fails"
   ],
   "note": "The property is false of the code in general; refuted on concrete inputs by C103_system_fails, C103_repeated_fails, C103_integrand_fails. Proved under the restrictions stated in the docstrings of C103_linearize_partial, C103_scalar_partial."
  },
  {
   "property": "C101",
   "status": "partial",
   "theorems": [
    "Funpy.Props.C101_sound_partial",
    "Funpy.Props.C101_nonsquare",
    "Funpy.Props.C101_complete_partial"
   ],
   "note": "Proved under the restrictions stated in the docstrings of C101_sound_partial, C101_complete_partial. Missing: eigenvalues whose QZ weight is not larger than the tolerance are dropped by eigs."
  },
  {
   "property": "C105",
   "status": "proved",
   "theorems": [
    "Funpy.Props.C105_diffmat",
    "Funpy.Props.C105_interpolant",
    "Funpy.Props.C105_third_fails",
    "Funpy.Props.C105_third_wrong",
    "Funpy.Props.C105_one_point",
    "Funpy.Props.C105_undefined"
   ],
   "note": "Proved as stated; limits of the code outside the statement are recorded by C105_third_fails."
  },
  {
   "property": "C95",
   "status": "proved",
   "theorems": [
    "Funpy.Props.C95_flags",
    "Funpy.Props.C95_add",
    "Funpy.Props.C95_neg",
    "Funpy.Props.C95_sub",
    "Funpy.Props.C95_add_fails",
    "Funpy.Props.C95_neg_fails",
    "Funpy.Props.C95_order_fails",
    "Funpy.Props.C95_mul_fails"
   ],
   "note": "Proved as stated; limits of the code outside the statement are recorded by C95_add_fails, C95_neg_fails, C95_order_fails, C95_mul_fails."
  },
  {
   "property": "C106",
   "status": "partial",
   "theorems": [
    "Funpy.Props.C106_loop",
    "Funpy.Props.C106_list",
    "Funpy.Props.C106_nested",
    "Funpy.Props.C106_exhausted_fails",
    "Funpy.Props.C106_nested_fails",
    "Funpy.Props.C106_break_fails",
    "Funpy.Props.C106_zip",
    "Funpy.Props.C106_zip_fails",
    "Funpy.Props.C106_fun",
    "Funpy.Props.C106_state",
    "Funpy.Props.C106_state_fails"
   ],
   "note": "The property is false of the code in general; refuted on concrete inputs by C106_exhausted_fails, C106_nested_fails, C106_break_fails, C106_zip_fails, C106_state_fails."
  },
  {
   "property": "C99",
   "status": "partial",
   "theorems": [
    "Funpy.Props.C99_too_many",
    "Funpy.Props.C99_call",
    "Funpy.Props.C99_exact",
    "Funpy.Props.C99_error",
    "Funpy.Props.C99_fails",
    "Funpy.Props.C99_arith",
    "Funpy.Props.C99_rmul_fails",
    "Funpy.Props.C99_forgets_fails",
    "Funpy.Props.C99_constraints",
    "Funpy.Props.C99_residual",
    "Funpy.Props.C99_residual_zero"
   ],
   "note": "The property is false of the code in general; refuted on concrete inputs by C99_fails, C99_rmul_fails, C99_forgets_fails."
  },
  {
   "property": "C104",
   "status": "partial",
   "theorems": [
    "Funpy.Props.C104_at_most_two",
    "Funpy.Props.C104_uncompiled",
    "Funpy.Props.C104_equations_partial",
    "Funpy.Props.C104_frozen_fails",
    "Funpy.Props.C104_eqn_fails",
    "Funpy.Props.C104_discretize_params",
    "Funpy.Props.C104_call_free",
    "Funpy.Props.C104_param_kept",
    "Funpy.Props.C104_stale_fails",
    "Funpy.Props.C104_size",
    "Funpy.Props.C104_size_residual_fails",
    "Funpy.Props.C104_residual_fails"
   ],
   "note": "The property is false of the code in general; refuted on concrete inputs by C104_frozen_fails, C104_eqn_fails, C104_stale_fails, C104_size_residual_fails, C104_residual_fails. Proved under the restrictions stated in the docstrings of C104_equations_partial."
  },
  {
   "property": "C107",
   "status": "partial",
   "theorems": [
    "Funpy.Props.C107_mat",
    "Funpy.Props.C107_nonsingular",
    "Funpy.Props.C107_singular",
    "Funpy.Props.C107_backward",
    "Funpy.Props.C107_solve",
    "Funpy.Props.C107_null_partial",
    "Funpy.Props.C107_null_singular",
    "Funpy.Props.C107_null_fails"
   ],
   "note": "The property is false of the code in general; refuted on concrete inputs by C107_null_fails. Proved under the restrictions stated in the docstrings of C107_null_partial."
  },
  {
   "property": "C108",
   "status": "partial",
   "theorems": [
    "Funpy.Props.C108_solve",
    "Funpy.Props.C108_nonsing",
    "Funpy.Props.C108_adjoint",
    "Funpy.Props.C108_null_partial",
    "Funpy.Props.C108_negative_fails",
    "Funpy.Props.C108_nullvector",
    "Funpy.Props.C108_simp_partial",
    "Funpy.Props.C108_sing_partial",
    "Funpy.Props.C108_lucp_fails"
   ],
   "note": "The property is false of the code in general; refuted on concrete inputs by C108_negative_fails, C108_lucp_fails. Proved under the restrictions stated in the docstrings of C108_null_partial, C108_simp_partial, C108_sing_partial."
  },
  {
   "property": "C109",
   "status": "partial",
   "theorems": [
    "Funpy.Props.C109_interpolates",
    "Funpy.Props.C109_outcome",
    "Funpy.Props.C109_sizes",
    "Funpy.Props.C109_real",
    "Funpy.Props.C109_trigpoly",
    "Funpy.Props.C109_highest_mode_fails",
    "Funpy.Props.C109_negative_modes_fails"
   ],
   "note": "The property is false of the code in general; refuted on concrete inputs by C109_highest_mode_fails, C109_negative_modes_fails."
  },
  {
   "property": "C110",
   "status": "partial",
   "theorems": [
    "Funpy.Props.C110_expandTerms",
    "Funpy.Props.C110_second",
    "Funpy.Props.C110_second_scalar",
    "Funpy.Props.C110_fold_fails",
    "Funpy.Props.C110_integral_fails",
    "Funpy.Props.C110_adjoint_formula",
    "Funpy.Props.C110_adjoint_partial",
    "Funpy.Props.C110_adjoint_fails",
    "Funpy.Props.C110_dp_partial",
    "Funpy.Props.C110_dp_absent_fails",
    "Funpy.Props.C110_dxdp",
    "Funpy.Props.C110_pname_fails"
   ],
   "note": "The property is false of the code in general; refuted on concrete inputs by C110_fold_fails, C110_integral_fails, C110_adjoint_fails, C110_dp_absent_fails, C110_pname_fails. Proved under the restrictions stated in the docstrings of C110_adjoint_partial, C110_dp_partial."
  },
  {
   "property": "C111",
   "status": "partial",
   "theorems": [
    "Funpy.Props.C111_sobolev_partial",
    "Funpy.Props.C111_vector_partial",
    "Funpy.Props.C111_vector_fails",
    "Funpy.Props.C111_even_fails",
    "Funpy.Props.C111_bases_fails"
   ],
   "note": "The property is false of the code in general; refuted on concrete inputs by C111_vector_fails, C111_even_fails, C111_bases_fails. Proved under the restrictions stated in the docstrings of C111_sobolev_partial, C111_vector_partial."
  },
  {
   "property": "C112",
   "status": "partial",
   "theorems": [
    "Funpy.Props.C112_operator",
    "Funpy.Props.C112_info",
    "Funpy.Props.C112_residual",
    "Funpy.Props.C112_system_partial",
    "Funpy.Props.C112_names_fails",
    "Funpy.Props.C112_info_text",
    "Funpy.Props.C112_text"
   ],
   "note": "The property is false of the code in general; refuted on concrete inputs by C112_names_fails. Proved under the restrictions stated in the docstrings of C112_system_partial."
  },
  {
   "property": "C113",
   "status": "partial",
   "theorems": [
    "Funpy.Props.C113_code",
    "Funpy.Props.C113_unlisted",
    "Funpy.Props.C113_names_fails",
    "Funpy.Props.C113_limits_fails",
    "Funpy.Props.C113_limits_nonlinear_fails"
   ],
   "note": "The property is false of the code in general; refuted on concrete inputs by C113_names_fails, C113_limits_fails, C113_limits_nonlinear_fails."
  },
  {
   "property": "C114",
   "status": "proved",
   "theorems": [
    "Funpy.Props.C114_converges_lu",
    "Funpy.Props.C114_converges_qnerr",
    "Funpy.Props.C114_converges_nleq",
    "Funpy.Props.C114_dispatch",
    "Funpy.Props.C114_names_fails"
   ],
   "note": "Proved as stated; limits of the code outside the statement are recorded by C114_names_fails."
  },
  {
   "property": "C115",
   "status": "partial",
   "theorems": [
    "Funpy.Props.C115_fourier_partial",
    "Funpy.Props.C115_fourier_shape",
    "Funpy.Props.C115_one_mode_fails",
    "Funpy.Props.C115_solution_partial",
    "Funpy.Props.C115_consistent_partial",
    "Funpy.Props.C115_shape",
    "Funpy.Props.C115_bcs_fails",
    "Funpy.Props.C115_bcs_scalar"
   ],
   "note": "The property is false of the code in general; refuted on concrete inputs by C115_one_mode_fails, C115_bcs_fails. Proved under the restrictions stated in the docstrings of C115_fourier_partial, C115_solution_partial, C115_consistent_partial."
  },
  {
   "property": "C116",
   "status": "partial",
   "theorems": [
    "Funpy.Props.C116_copy_partial",
    "Funpy.Props.C116_copy_options",
    "Funpy.Props.C116_copy_fails",
    "Funpy.Props.C116_file_partial",
    "Funpy.Props.C116_no_parameter_fails",
    "Funpy.Props.C116_types_fails",
    "Funpy.Props.C116_colloc_fails",
    "Funpy.Props.C116_operators_fails",
    "Funpy.Props.C116_append_fails",
    "Funpy.Props.C116_long_fails"
   ],
   "note": "The property is false of the code in general; refuted on concrete inputs by C116_copy_fails, C116_no_parameter_fails, C116_types_fails, C116_colloc_fails, C116_operators_fails, C116_append_fails, C116_long_fails. Proved under the restrictions stated in the docstrings of C116_copy_partial, C116_file_partial."
  },
  {
   "property": "C117",
   "status": "partial",
   "theorems": [
    "Funpy.Props.C117_history_partial",
    "Funpy.Props.C117_add_parameter",
    "Funpy.Props.C117_systems_fails",
    "Funpy.Props.C117_stale_fails",
    "Funpy.Props.C117_exception_fails"
   ],
   "note": "The property is false of the code in general; refuted on concrete inputs by C117_systems_fails, C117_stale_fails, C117_exception_fails. Proved under the restrictions stated in the docstrings of C117_history_partial."
  },
  {
   "property": "C102",
   "status": "proved",
   "theorems": [
    "Funpy.Props.C102_remove",
    "Funpy.Props.C102_get",
    "Funpy.Props.C102_replace",
    "Funpy.Props.C102_complete"
   ],
   "note": ""
  },
  {
   "property": "C118",
   "status": "proved",
   "theorems": [
    "Funpy.Props.C118_qr",
    "Funpy.Props.C118_isQR",
    "Funpy.Props.C118_decreasing",
    "Funpy.Props.C118_rank",
    "Funpy.Props.C118_solver",
    "Funpy.Props.C118_least_squares",
    "Funpy.Props.C118_pinv",
    "Funpy.Props.C118_complex_fails",
    "Funpy.Props.C118_complex_actual"
   ],
   "note": "Proved as stated; limits of the code outside the statement are recorded by C118_complex_fails. The claim is about real matrices and is proved for all of them; C118_complex_fails records that the same count is wrong for complex matrices. LAPACK's documented algorithm in exact arithmetic, any legal pivot choice."
  },
  {
   "property": "C119",
   "status": "partial",
   "theorems": [
    "Funpy.Props.C119_wave",
    "Funpy.Props.C119_mirror",
    "Funpy.Props.C119_one_fails",
    "Funpy.Props.C119_domain_fails",
    "Funpy.Props.C119_half_fails"
   ],
   "note": "The property is false of the code in general; refuted on concrete inputs by C119_one_fails, C119_domain_fails, C119_half_fails."
  },
  {
   "property": "C120",
   "status": "proved",
   "theorems": [
    "Funpy.Props.C120_operator",
    "Funpy.Props.C120_jacobian",
    "Funpy.Props.C120_step",
    "Funpy.Props.C120_step_section"
   ],
   "note": ""
  },
  {
   "property": "C121",
   "status": "proved",
   "theorems": [
    "Funpy.Props.C121_assemble",
    "Funpy.Props.C121_residual",
    "Funpy.Props.C121_eigs",
    "Funpy.Props.C121_sharp"
   ],
   "note": ""
  },
  {
   "property": "C122",
   "status": "proved",
   "theorems": [
    "Funpy.Props.C122_diffmat",
    "Funpy.Props.C122_interpolant",
    "Funpy.Props.C122_even_fails",
    "Funpy.Props.C122_wrong_fails"
   ],
   "note": "Proved as stated; limits of the code outside the statement are recorded by C122_even_fails, C122_wrong_fails. Proved for exactly the cases the statement names; C122_even_fails and C122_wrong_fails record that it is false outside them (even n, even k >= 4)."
  },
  {
   "property": "C123",
   "status": "proved",
   "theorems": [
    "Funpy.Props.C123_linear",
    "Funpy.Props.C123_one_iteration",
    "Funpy.Props.C123_bvp"
   ],
   "note": ""
  },
  {
   "property": "C124",
   "status": "proved",
   "theorems": [
    "Funpy.Props.C124_regular",
    "Funpy.Props.C124_solution",
    "Funpy.Props.C124_dirichlet"
   ],
   "note": ""
  },
  {
   "property": "C125",
   "status": "proved",
   "theorems": [
    "Funpy.Props.C125_nonlocal",
    "Funpy.Props.C125_uniform",
    "Funpy.Props.C125_truncates",
    "Funpy.Props.C125_even_fails"
   ],
   "note": "Proved as stated; limits of the code outside the statement are recorded by C125_even_fails. Proved for exactly the cases the statement names; C125_even_fails records that it is false for equally many coefficients of an even number."
  },
  {
   "property": "C126",
   "status": "proved",
   "theorems": [
    "Funpy.Props.C126_regular",
    "Funpy.Props.C126_residual",
    "Funpy.Props.C126_converges"
   ],
   "note": "Hypothesis SecFits: exact multiplication matrices, see C41; C127_large_fails shows that it cannot be dropped."
  },
  {
   "property": "C127",
   "status": "proved",
   "theorems": [
    "Funpy.Props.C127_large_fails",
    "Funpy.Props.C127_stable",
    "Funpy.Props.C127_solves",
    "Funpy.Props.C127_initial",
    "Funpy.Props.C127_dirichlet",
    "Funpy.Props.C127_small"
   ],
   "note": "Proved as stated; limits of the code outside the statement are recorded by C127_large_fails. The last sentence of the statement is C127_large_fails."
  },
  {
   "property": "C128",
   "status": "proved",
   "theorems": [
    "Funpy.Props.C128_regular",
    "Funpy.Props.C128_converges",
    "Funpy.Props.C128_elliptic"
   ],
   "note": ""
  },
  {
   "property": "C129",
   "status": "proved",
   "theorems": [
    "Funpy.Props.C129_solves",
    "Funpy.Props.C129_elliptic",
    "Funpy.Props.C129_singular"
   ],
   "note": ""
  },
  {
   "property": "C130",
   "status": "partial",
   "theorems": [
    "Funpy.Props.C130_represents",
    "Funpy.Props.C130_linop",
    "Funpy.Props.C130_duality_partial",
    "Funpy.Props.C130_constant_iff",
    "Funpy.Props.C130_matrix_partial",
    "Funpy.Props.C130_selfadjoint_fails",
    "Funpy.Props.C130_no_constraints_fails",
    "Funpy.Props.C130_rmatvec_fails"
   ],
   "note": "The property is false of the code in general; refuted on concrete inputs by C130_selfadjoint_fails, C130_no_constraints_fails, C130_rmatvec_fails. Proved under the restrictions stated in the docstrings of C130_duality_partial, C130_matrix_partial."
  },
  {
   "property": "C131",
   "status": "partial",
   "theorems": [
    "Funpy.Props.C131_no_spurious",
    "Funpy.Props.C131_limit",
    "Funpy.Props.C131_discrete",
    "Funpy.Props.C131_every_eigenvalue_partial",
    "Funpy.Props.C131_every_eigenvalue",
    "Funpy.Props.C131_all_eigenvalues",
    "Funpy.Props.C131_found_partial",
    "Funpy.Props.C131_close",
    "Funpy.Props.C131_laplace",
    "Funpy.Props.C131_laplace_eigs_partial"
   ],
   "note": "Proved under the restrictions stated in the docstrings of C131_every_eigenvalue_partial, C131_found_partial, C131_laplace_eigs_partial. The only exception is an eigenvalue whose QZ weight is not larger than the tolerance, which eigs drops; for tolerance zero nothing is missing (C131_every_eigenvalue)."
  },
  {
   "property": "C132",
   "status": "partial",
   "theorems": [
    "Funpy.Props.C132_translate",
    "Funpy.Props.C132_real",
    "Funpy.Props.C132_scale_fails",
    "Funpy.Props.C132_armstrong",
    "Funpy.Props.C132_even_local",
    "Funpy.Props.C132_even_agg_fails",
    "Funpy.Props.C132_unique_iff",
    "Funpy.Props.C132_is_solution",
    "Funpy.Props.C132_symbol",
    "Funpy.Props.C132_diagonal",
    "Funpy.Props.C132_regular_iff",
    "Funpy.Props.C132_solvable_iff",
    "Funpy.Props.C132_eigenvalues",
    "Funpy.Props.C132_exact",
    "Funpy.Props.C132_residual"
   ],
   "note": "The property is false of the code in general; refuted on concrete inputs by C132_scale_fails, C132_even_agg_fails."
  },
  {
   "property": "C133",
   "status": "proved",
   "theorems": [
    "Funpy.Props.C133_adaptive",
    "Funpy.Props.C133_exact",
    "Funpy.Props.C133_unresolved_fails"
   ],
   "note": "Proved as stated; limits of the code outside the statement are recorded by C133_unresolved_fails."
  },
  {
   "property": "C134",
   "status": "proved",
   "theorems": [
    "Funpy.Props.C134_adaptive",
    "Funpy.Props.C134_clipped_grid_even"
   ],
   "note": ""
  },
  {
   "property": "C135",
   "status": "partial",
   "theorems": [
    "Funpy.Props.C135_first",
    "Funpy.Props.C135_second_partial",
    "Funpy.Props.C135_single_fails",
    "Funpy.Props.C135_zeros_fails",
    "Funpy.Props.C135_rejects"
   ],
   "note": "The property is false of the code in general; refuted on concrete inputs by C135_single_fails, C135_zeros_fails. Proved under the restrictions stated in the docstrings of C135_second_partial."
  },
  {
   "property": "C136",
   "status": "partial",
   "theorems": [
    "Funpy.Props.C136_params",
    "Funpy.Props.C136_path",
    "Funpy.Props.C136_solution",
    "Funpy.Props.C136_failure_fails",
    "Funpy.Props.C136_lists_fails"
   ],
   "note": "The property is false of the code in general; refuted on concrete inputs by C136_failure_fails, C136_lists_fails."
  },
  {
   "property": "C137",
   "status": "partial",
   "theorems": [
    "Funpy.Props.C137_matrix_partial",
    "Funpy.Props.C137_integral_partial",
    "Funpy.Props.C137_length_fails",
    "Funpy.Props.C137_item_fails",
    "Funpy.Props.C137_nonconstant_fails"
   ],
   "note": "The property is false of the code in general; refuted on concrete inputs by C137_length_fails, C137_item_fails, C137_nonconstant_fails. Proved under the restrictions stated in the docstrings of C137_matrix_partial, C137_integral_partial."
  },
  {
   "property": "C138",
   "status": "partial",
   "theorems": [
    "Funpy.Props.C138_close_partial",
    "Funpy.Props.C138_accurate_fails",
    "Funpy.Props.C138_linear_fails",
    "Funpy.Props.C138_exact_fails"
   ],
   "note": "The property is false of the code in general; refuted on concrete inputs by C138_accurate_fails, C138_linear_fails, C138_exact_fails. Proved under the restrictions stated in the docstrings of C138_close_partial."
  },
  {
   "property": "C139",
   "status": "partial",
   "theorems": [
    "Funpy.Props.C139_returns",
    "Funpy.Props.C139_guess",
    "Funpy.Props.C139_error",
    "Funpy.Props.C139_arguments_fails",
    "Funpy.Props.C139_residual_fails",
    "Funpy.Props.C139_bvp_partial"
   ],
   "note": "The property is false of the code in general; refuted on concrete inputs by C139_arguments_fails, C139_residual_fails. Proved under the restrictions stated in the docstrings of C139_bvp_partial."
  },
  {
   "property": "C140",
   "status": "partial",
   "theorems": [
    "Funpy.Props.C140_solves",
    "Funpy.Props.C140_odd_order_fails",
    "Funpy.Props.C140_adaptive"
   ],
   "note": "The property is false of the code in general; refuted on concrete inputs by C140_odd_order_fails."
  },
  {
   "property": "C141",
   "status": "proved",
   "theorems": [
    "Funpy.Props.C141_dominant",
    "Funpy.Props.C141_symbol",
    "Funpy.Props.C141_adaptive",
    "Funpy.Props.C141_solves"
   ],
   "note": ""
  },
  {
   "property": "C142",
   "status": "proved",
   "theorems": [
    "Funpy.Props.C142_regular",
    "Funpy.Props.C142_residual",
    "Funpy.Props.C142_stable",
    "Funpy.Props.C142_solves",
    "Funpy.Props.C142_adaptive",
    "Funpy.Props.C142_rank_one",
    "Funpy.Props.C142_mean",
    "Funpy.Props.C142_initial_singular"
   ],
   "note": "Hypothesis Ide.Fits: exact multiplication matrices, see C41. The last sentence of the statement is C142_initial_singular."
  },
  {
   "property": "C143",
   "status": "proved",
   "theorems": [
    "Funpy.Props.C143_solves",
    "Funpy.Props.C143_newton",
    "Funpy.Props.C143_linearisation",
    "Funpy.Props.C143_iterates",
    "Funpy.Props.C143_inexact",
    "Funpy.Props.C143_run"
   ],
   "note": ""
  },
  {
   "property": "C144",
   "status": "proved",
   "theorems": [
    "Funpy.Props.C144_solve"
   ],
   "note": ""
  },
  {
   "property": "C145",
   "status": "proved",
   "theorems": [
    "Funpy.Props.C145_adaptive"
   ],
   "note": ""
  },
  {
   "property": "C146",
   "status": "partial",
   "theorems": [
    "Funpy.Props.C146_code_partial",
    "Funpy.Props.C146_integral_partial",
    "Funpy.Props.C146_integral_fails",
    "Funpy.Props.C146_derivative_fails",
    "Funpy.Props.C146_settings_fails"
   ],
   "note": "The property is false of the code in general; refuted on concrete inputs by C146_integral_fails, C146_derivative_fails, C146_settings_fails. Proved under the restrictions stated in the docstrings of C146_code_partial, C146_integral_partial."
  },
  {
   "property": "C147",
   "status": "partial",
   "theorems": [
    "Funpy.Props.C147_constants",
    "Funpy.Props.C147_like",
    "Funpy.Props.C147_random",
    "Funpy.Props.C147_decay_fails"
   ],
   "note": "The property is false of the code in general; refuted on concrete inputs by C147_decay_fails."
  },
  {
   "property": "C148",
   "status": "partial",
   "theorems": [
    "Funpy.Props.C148_pointwise_partial",
    "Funpy.Props.C148_succeeds_partial",
    "Funpy.Props.C148_independent_partial",
    "Funpy.Props.C148_alias_fails",
    "Funpy.Props.C148_rpower_fails",
    "Funpy.Props.C148_rpower_value_fails",
    "Funpy.Props.C148_number_fails",
    "Funpy.Props.C148_eq_fails",
    "Funpy.Props.C148_ne_fails"
   ],
   "note": "The property is false of the code in general; refuted on concrete inputs by C148_alias_fails, C148_rpower_fails, C148_rpower_value_fails, C148_number_fails, C148_eq_fails, C148_ne_fails. Proved under the restrictions stated in the docstrings of C148_pointwise_partial, C148_succeeds_partial, C148_independent_partial."
  },
  {
   "property": "C149",
   "status": "partial",
   "theorems": [
    "Funpy.Props.C149_history",
    "Funpy.Props.C149_range",
    "Funpy.Props.C149_singular",
    "Funpy.Props.C149_shared_fails",
    "Funpy.Props.C149_caller_fails"
   ],
   "note": "The property is false of the code in general; refuted on concrete inputs by C149_shared_fails, C149_caller_fails."
  }
 ]
}