{
 "claims": [
  {
   "property": "C01",
   "status": "proved",
   "theorems": [
    "GA.C01_blades_by_grade",
    "GA.C01_blades_flat",
    "GA.C01_index_maps"
   ],
   "note": "all n; index tuples, blades, bijections and grade map"
  },
  {
   "property": "C02",
   "status": "proved",
   "theorems": [
    "GA.C02_geometric_product_ortho",
    "GA.C02_ga_mul_ortho"
   ],
   "note": ""
  },
  {
   "property": "C03",
   "status": "proved",
   "theorems": [
    "GA.C03_geometric_product",
    "GA.C03_ga_mul"
   ],
   "note": ""
  },
  {
   "property": "C04",
   "status": "proved",
   "theorems": [
    "GA.C04_reduce_basis"
   ],
   "note": ""
  },
  {
   "property": "C05",
   "status": "proved",
   "theorems": [
    "GA.C05_assoc",
    "GA.C05_distrib",
    "GA.C05_one",
    "GA.C05_smul",
    "GA.C05_add_group"
   ],
   "note": ""
  },
  {
   "property": "C06",
   "status": "proved",
   "theorems": [
    "GA.C06_eq_iff",
    "GA.C06_blade_coefs_iff",
    "GA.C06_representable",
    "GA.C06_coefs_free",
    "GA.C06_is_zero"
   ],
   "note": ""
  },
  {
   "property": "C07",
   "status": "proved",
   "theorems": [
    "GA.C07_vector_square",
    "GA.C07_vector_products"
   ],
   "note": ""
  },
  {
   "property": "C08",
   "status": "proved",
   "theorems": [
    "GA.C08_wedge",
    "GA.C08_metric_free"
   ],
   "note": ""
  },
  {
   "property": "C09",
   "status": "proved",
   "theorems": [
    "GA.C09_assoc",
    "GA.C09_bilinear",
    "GA.C09_graded",
    "GA.C09_vector"
   ],
   "note": ""
  },
  {
   "property": "C10",
   "status": "proved",
   "theorems": [
    "GA.C10_inner_products_ortho"
   ],
   "note": ""
  },
  {
   "property": "C11",
   "status": "proved",
   "theorems": [
    "GA.C11_inner_products",
    "GA.C11_homogeneous"
   ],
   "note": ""
  },
  {
   "property": "C12",
   "status": "proved",
   "theorems": [
    "GA.C12_paths_agree"
   ],
   "note": ""
  },
  {
   "property": "C13",
   "status": "proved",
   "theorems": [
    "GA.C13_meaning",
    "GA.C13_round_trip"
   ],
   "note": ""
  },
  {
   "property": "C14",
   "status": "proved",
   "theorems": [
    "GA.C14_get_grade",
    "GA.C14_projection",
    "GA.C14_grade_decomposition",
    "GA.C14_grades"
   ],
   "note": ""
  },
  {
   "property": "C15",
   "status": "proved",
   "theorems": [
    "GA.C15_reverse",
    "GA.C15_reverse_product",
    "GA.C15_reverse_meaning"
   ],
   "note": ""
  },
  {
   "property": "C16",
   "status": "proved",
   "theorems": [
    "GA.C16_even_odd",
    "GA.C16_parity",
    "GA.C16_g_invol",
    "GA.C16_base_rep_raises"
   ],
   "note": ""
  },
  {
   "property": "C17",
   "status": "proved",
   "theorems": [
    "GA.C17_ccon"
   ],
   "note": ""
  },
  {
   "property": "C18",
   "status": "proved",
   "theorems": [
    "GA.C18_dual",
    "GA.C18_product",
    "GA.C18_norm",
    "GA.C18_table",
    "GA.C18_sides"
   ],
   "note": ""
  },
  {
   "property": "C19",
   "status": "partial",
   "theorems": [
    "GA.C19_last_request",
    "GA.C19_default",
    "GA.C19_documented",
    "GA.C19_invalid",
    "GA.C19_valid",
    "GA.C19_failed_constructor_counterexample"
   ],
   "note": "Proved for constructors that return or fail validation before their dual mode is set. C19_failed_constructor_counterexample: a constructor that raises after setting the mode has already changed it, so the full claim is false of the code."
  },
  {
   "property": "C20",
   "status": "proved",
   "theorems": [
    "GA.C20_pseudoscalar_square",
    "GA.C20_normalised",
    "GA.C20_normalisable",
    "GA.C20_degenerate",
    "GA.C20_commute",
    "GA.C20_center",
    "GA.C20_orientation"
   ],
   "note": ""
  },
  {
   "property": "C21",
   "status": "proved",
   "theorems": [
    "GA.C21_reciprocal_basis",
    "GA.C21_mvr_norm",
    "GA.C21_exists",
    "GA.C21_components",
    "GA.C21_expansion"
   ],
   "note": ""
  },
  {
   "property": "C22",
   "status": "partial",
   "theorems": [
    "GA.C22_inverse_metric",
    "GA.C22_defined",
    "GA.C22_metric_partial",
    "GA.C22_metric_gsym",
    "GA.C22_metric_counterexample"
   ],
   "note": "Fully proved for Ga.g_inv. For objects of class Metric (C22_metric_partial, C22_metric_gsym) proved if the metric is not orthogonal; for orthogonal ones the code raises an exception (C22_metric_counterexample)."
  },
  {
   "property": "C23",
   "status": "proved",
   "theorems": [
    "GA.C23_inverse",
    "GA.C23_inverse_exists"
   ],
   "note": ""
  },
  {
   "property": "C24",
   "status": "proved",
   "theorems": [
    "GA.C24_hitzer",
    "GA.C24_hitzer_eq",
    "GA.C24_not_implemented"
   ],
   "note": ""
  },
  {
   "property": "C25",
   "status": "partial",
   "theorems": [
    "GA.C25_shirokov_partial",
    "GA.C25_shirokov_eq_partial",
    "GA.C25_dimension_zero_counterexample",
    "GA.Ex.C25_base_representation_counterexample"
   ],
   "note": "Proved in full for every n >= 1, every symmetric metric (degenerate and non-orthogonal included) and every multivector in blade representation, in exact arithmetic over a field of characteristic 0: what is returned is a two-sided inverse, and ValueError is raised exactly when there is none. The unrestricted claim is false of the code: C25_dimension_zero_counterexample (n = 0 raises UnboundLocalError) and C25_base_representation_counterexample (a base-representation multivector is given a wrong inverse)."
  },
  {
   "property": "C26",
   "status": "proved",
   "theorems": [
    "GA.C26_negative_power",
    "GA.C26_nonneg_power",
    "GA.C26_powers"
   ],
   "note": ""
  },
  {
   "property": "C27",
   "status": "proved",
   "theorems": [
    "GA.C27_commutator",
    "GA.C27_jacobi",
    "GA.C27_derivation",
    "GA.C27_bivector_grade",
    "GA.C27_bivector_derivation",
    "GA.C27_bivector_vector"
   ],
   "note": ""
  },
  {
   "property": "C28",
   "status": "proved",
   "theorems": [
    "GA.C28_is_blade_complete",
    "GA.C28_defined",
    "GA.C28_linear",
    "GA.C28_idempotent",
    "GA.C28_vector",
    "GA.C28_non_blade_accepted",
    "GA.C28_outermorphism"
   ],
   "note": ""
  },
  {
   "property": "C29",
   "status": "proved",
   "theorems": [
    "GA.C29_defined",
    "GA.C29_linear",
    "GA.C29_multiplicative",
    "GA.C29_involutive",
    "GA.C29_vector",
    "GA.C29_documented_formula_counterexample",
    "GA.C29_products"
   ],
   "note": ""
  },
  {
   "property": "C30",
   "status": "proved",
   "theorems": [
    "GA.C30_defined",
    "GA.C30_value",
    "GA.C30_add",
    "GA.C30_inverse",
    "GA.C30_rotate_defined",
    "GA.C30_rotate_mul",
    "GA.C30_rotate_linear",
    "GA.C30_rotate_scalar",
    "GA.C30_rotate_vector",
    "GA.C30_rotate_grade",
    "GA.C30_rotate_products"
   ],
   "note": ""
  },
  {
   "property": "C31",
   "status": "proved",
   "theorems": [
    "GA.C31_qform",
    "GA.C31_nonneg",
    "GA.C31_positive_definite",
    "GA.C31_norm2",
    "GA.C31_norm2_defined",
    "GA.C31_qform_grades",
    "GA.C31_mag2",
    "GA.C31_norm2_le_mag2",
    "GA.C31_norm",
    "GA.C31_mag",
    "GA.C31_versor"
   ],
   "note": ""
  },
  {
   "property": "C32",
   "status": "proved",
   "theorems": [
    "GA.C32_lookups",
    "GA.C32_once",
    "GA.C32_products"
   ],
   "note": ""
  },
  {
   "property": "C33",
   "status": "partial",
   "theorems": [
    "GA.C33_linear",
    "GA.C33_wedge",
    "GA.C33_scalar",
    "GA.C33_vector",
    "GA.C33_grades",
    "GA.C33_base_rep_counterexample"
   ],
   "note": "Proved for every input form except multivectors held in base (geometric product) representation over non-orthogonal metrics. C33_base_rep_counterexample: there the code reads the wrong coefficients, so the full claim is false."
  },
  {
   "property": "C34",
   "status": "proved",
   "theorems": [
    "GA.C34_composition",
    "GA.C34_pointwise",
    "GA.C34_matrices",
    "GA.C34_closed"
   ],
   "note": ""
  },
  {
   "property": "C35",
   "status": "proved",
   "theorems": [
    "GA.C35_matrix",
    "GA.C35_dictionary",
    "GA.C35_lists",
    "GA.C35_vectors",
    "GA.C35_function",
    "GA.C35_function_raises"
   ],
   "note": ""
  },
  {
   "property": "C36",
   "status": "proved",
   "theorems": [
    "GA.C36_det",
    "GA.C36_det_mul",
    "GA.C36_pseudoscalar"
   ],
   "note": ""
  },
  {
   "property": "C37",
   "status": "proved",
   "theorems": [
    "GA.C37_adjoint",
    "GA.C37_unique",
    "GA.C37_involution",
    "GA.C37_product",
    "GA.C37_modes",
    "GA.C37_multivectors"
   ],
   "note": ""
  },
  {
   "property": "C38",
   "status": "partial",
   "theorems": [
    "GA.C38_is_singular",
    "GA.C38_inverse_raises",
    "GA.C38_inverse",
    "GA.C38_trace_value",
    "GA.C38_trace_partial",
    "GA.C38_trace_mul_comm_partial",
    "GA.C38_trace_norm_counterexample",
    "GA.C38_trace_coordinates_counterexample"
   ],
   "note": "is_singular and inverse are proved in full. The trace is proved for transformations with constant entries over an un-normalised basis (C38_trace_partial, C38_trace_mul_comm_partial). The full claim is false: C38_trace_norm_counterexample (norm=True gives sum M_kk/N_k) and C38_trace_coordinates_counterexample (coordinate dependent entries are differentiated)."
  },
  {
   "property": "C39",
   "status": "partial",
   "theorems": [
    "GA.C39_application_partial",
    "GA.C39_composition_partial",
    "GA.C39_matrix_raises",
    "GA.C39_display_counterexample",
    "GA.C39_sum_counterexample",
    "GA.C39_product_counterexample"
   ],
   "note": "The claim is false of the code. Proved: application and composition read missing images as 0 (C39_application_partial, C39_composition_partial) and matrix() raises (C39_matrix_raises). Counterexamples: display shows e_i for a missing image, + and * treat it inconsistently."
  },
  {
   "property": "C40",
   "status": "partial",
   "theorems": [
    "GA.C40_consolidate",
    "GA.C40_consolidate_distinct",
    "GA.C40_consolidate_no_zero_partial",
    "GA.C40_consolidate_zero_counterexample",
    "GA.C40_add",
    "GA.C40_sub",
    "GA.C40_add_normal",
    "GA.C40_neg",
    "GA.C40_smul",
    "GA.C40_scalar",
    "GA.C40_wf",
    "GA.C40_eq_sound",
    "GA.C40_eq",
    "GA.C40_order_zero_counterexample"
   ],
   "note": "Actions of consolidation, sums, differences, negation and scalar multiples, distinctness of derivatives and equality are proved. 'No zero terms' holds for results of + and - but not for consolidate_coefs itself (C40_consolidate_zero_counterexample), and Pdop({x:0}) differs from Pdop({}) (C40_order_zero_counterexample)."
  },
  {
   "property": "C41",
   "status": "proved",
   "theorems": [
    "GA.C41_mul",
    "GA.C41_pdop_mul",
    "GA.C41_pdop_eq",
    "GA.C41_diff",
    "GA.C41_leibniz"
   ],
   "note": ""
  },
  {
   "property": "C42",
   "status": "partial",
   "theorems": [
    "GA.C42_commuting_of_basis",
    "GA.C42_commuting_of_constant",
    "GA.C42_mul",
    "GA.C42_mul_left",
    "GA.C42_mv_mul",
    "GA.C42_mul_mv",
    "GA.C42_add",
    "GA.C42_add_left",
    "GA.C42_add_mv",
    "GA.C42_eq_sound",
    "GA.C42_incompatible_raises",
    "GA.C42_curved_counterexample",
    "GA.C42_mul_scalar",
    "GA.C42_mul_scalar_left"
   ],
   "note": "Fully proved for every operator when derivatives of fields commute (all constant metrics, C42_commuting_of_constant; flat curvilinear coordinates, C42_commuting_of_basis), and for scalar fields in every space, flat or curved (C42_mul_scalar, C42_mul_scalar_left). Fails for other fields in curved spaces: C42_curved_counterexample."
  },
  {
   "property": "C43",
   "status": "proved",
   "theorems": [
    "GA.C43_add",
    "GA.C43_smul",
    "GA.C43_wedge",
    "GA.C43_vector",
    "GA.C43_scalar",
    "GA.C43_grade",
    "GA.C43_blade_derivation",
    "GA.C43_orders",
    "GA.C43_not_a_coordinate_raises"
   ],
   "note": ""
  },
  {
   "property": "C44",
   "status": "partial",
   "theorems": [
    "GA.C44_metric_partial",
    "GA.C44_metric_counterexample",
    "GA.C44_first_kind",
    "GA.C44_unique",
    "GA.C44_none",
    "GA.C44_second_kind",
    "GA.C44_derivatives",
    "GA.C44_normalized_counterexample"
   ],
   "note": "Fully proved for algebras without norm=True (also: the derivatives of the basis vectors have these components). With norm=True symmetry and lowering with Ga.g still hold, but C44_normalized_counterexample: the returned second kind symbols belong neither to the given basis nor to the normalised one. Christoffel_symbols of objects of class Metric: the same (C44_metric_partial), but mode=2 raises an exception for orthogonal metrics (C44_metric_counterexample)."
  },
  {
   "property": "C45",
   "status": "partial",
   "theorems": [
    "GA.C45_accepts",
    "GA.C45_wrong_length",
    "GA.C45_vector_map_counterexample",
    "GA.C45_pullback",
    "GA.C45_symmetric",
    "GA.C45_positive",
    "GA.C45_inner_product",
    "GA.C45_point_partial",
    "GA.C45_shared_coordinates_counterexample",
    "GA.C45_chain"
   ],
   "note": "Pull-back, symmetry and positivity are proved for every map given as a list of functions, where the base metric is taken after SymPy's sequential substitution. That this is the base metric at the image point is proved for polynomial maps whose functions do not contain the base coordinates (C45_point_partial); otherwise it is false (C45_shared_coordinates_counterexample). A map given as a vector always raises (C45_vector_map_counterexample). Submanifolds of submanifolds are proved for polynomial maps that share no coordinates (C45_chain)."
  },
  {
   "property": "C46",
   "status": "proved",
   "theorems": [
    "GA.C46_identity",
    "GA.C46_mixing"
   ],
   "note": ""
  },
  {
   "property": "C47",
   "status": "partial",
   "theorems": [
    "GA.C47_cl",
    "GA.C47_kingdon_partial",
    "GA.C47_kingdon_counterexample",
    "GA.C47_numbering_counterexample"
   ],
   "note": "Cl(p,q,r) of interop/_cl.py is fully proved. For kingdon.Cl the claim is proved for p+q+r != 1; C47_kingdon_counterexample shows it is false for p+q+r = 1, and C47_numbering_counterexample shows that Cl(1) numbers its vector from 0."
  },
  {
   "property": "C48",
   "status": "partial",
   "theorems": [
    "GA.C48_grades",
    "GA.C48_terms",
    "GA.C48_grade_too_large",
    "GA.C48_distinct_iff",
    "GA.C48_distinct_partial",
    "GA.C48_equal_length",
    "GA.C48_default_numbers",
    "GA.C48_generic",
    "GA.C48_collision_counterexample",
    "GA.C48_twelve_counterexample"
   ],
   "note": "Proved: the exact terms and names (C48_terms), an exact criterion for distinct names (C48_distinct_iff), distinctness and genericity for prefix-free super scripts (C48_distinct_partial, C48_generic), which covers different coordinate names of equal length and up to nine numbered basis vectors. False in general: C48_collision_counterexample, C48_twelve_counterexample."
  },
  {
   "property": "C49",
   "status": "partial",
   "theorems": [
    "GA.C49_only_parentheses_partial",
    "GA.C49_raises_counterexample",
    "GA.C49_value_counterexample",
    "GA.C49_chain_counterexample",
    "GA.C49_grouping_partial",
    "GA.C49_balanced_partial",
    "GA.C49_unbalanced_counterexample",
    "GA.C49_minus_partial",
    "GA.C49_zero_minus",
    "GA.C49_precedence_partial",
    "GA.C49_meaning_partial",
    "GA.C49_repeat_counterexample",
    "GA.C49_chain_meaning_counterexample"
   ],
   "note": "Proved for every string, operator order and history: a returned string differs only in parentheses and blanks (C49_only_parentheses_partial). For every well-formed expression with any nesting of parentheses and any operator order the right parentheses are inserted (C49_precedence_partial), so that Python reads the result as the operator order reads the input (C49_meaning_partial), if no part occurs twice, inner products are not chained and no expression or sum in parentheses both begins and ends with a product. Outside these restrictions the claim is false of the code: C49_raises_counterexample, C49_value_counterexample, C49_chain_meaning_counterexample, C49_repeat_counterexample. Expressions that begin with a minus sign are rewritten like those that do not (C49_minus_partial, C49_zero_minus). Missing: expressions with repeated parts that are nevertheless rewritten correctly, and a minus sign after an operator or an opening parenthesis."
  },
  {
   "property": "C50",
   "status": "partial",
   "theorems": [
    "GA.C50_questions_partial",
    "GA.C50_repeat_partial",
    "GA.C50_questions_keep_value",
    "GA.C50_set_coef_value",
    "GA.C50_direct_tests",
    "GA.C50_set_coef_counterexample"
   ],
   "note": "Proved for every history of questions (C50_questions_partial, C50_repeat_partial); set_coef writes the right coefficient after any history (C50_set_coef_value) and the questions that are not cached are right after every history (C50_direct_tests). The claim is false with updates: C50_set_coef_counterexample."
  },
  {
   "property": "C51",
   "status": "partial",
   "theorems": [
    "GA.C51_first_call_partial",
    "GA.C51_repeat_counterexample",
    "GA.C51_blade_derivation",
    "GA.C51_value"
   ],
   "note": "The claim is false: C51_repeat_counterexample shows that every repeated call of connection raises UnboundLocalError. Proved: the value of the first call of each key after every history (C51_first_call_partial, C51_value) and that blade_derivation is repeatable in every history (C51_blade_derivation)."
  },
  {
   "property": "C52",
   "status": "partial",
   "theorems": [
    "GA.C52_value_partial",
    "GA.C52_complete_partial",
    "GA.C52_documented_counterexample"
   ],
   "note": "Proved: when compare returns c != 0 then A = c*B, and it is complete for proportional operands. C52_documented_counterexample: the docstring promises B = c*A, which is false of the code."
  },
  {
   "property": "C53",
   "status": "proved",
   "theorems": [
    "GA.C53_defined",
    "GA.C53_laws",
    "GA.C53_components",
    "GA.C53_triple",
    "GA.C53_double",
    "GA.C53_lagrange",
    "GA.C53_jacobi"
   ],
   "note": ""
  },
  {
   "property": "C54",
   "status": "proved",
   "theorems": [
    "GA.C54_append",
    "GA.C54_norm",
    "GA.C54_square",
    "GA.C54_defined",
    "GA.C54_frame",
    "GA.C54_expansion",
    "GA.C54_twice",
    "GA.C54_independent"
   ],
   "note": ""
  },
  {
   "property": "C55",
   "status": "proved",
   "theorems": [
    "GA.C55_blade_reduce",
    "GA.C55_sorting_permutation_exists",
    "GA.C55_blade_reduce_concat"
   ],
   "note": "all index lists; sign stated with Mathlib's Equiv.Perm.sign"
  },
  {
   "property": "C56",
   "status": "proved",
   "theorems": [
    "GA.C56_single_row",
    "GA.C56_rows",
    "GA.C56_accepted_only",
    "GA.C56_symmetric",
    "GA.C56_default",
    "GA.C56_asymmetric_accepted",
    "GA.C56_dimension_zero_counterexample",
    "GA.C56_general_metric_counterexample"
   ],
   "note": "SymPy's Rational is a parameter. Also proved: asymmetric strings are accepted, dimension zero without a metric raises, and the special general metric g='g' is not symmetric (C56_general_metric_counterexample)."
  },
  {
   "property": "C57",
   "status": "proved",
   "theorems": [
    "GA.C57_reciprocal_blades"
   ],
   "note": ""
  },
  {
   "property": "C58",
   "status": "proved",
   "theorems": [
    "GA.C58_isometry",
    "GA.C58_versor",
    "GA.C58_versor_isometry",
    "GA.C58_sandwich",
    "GA.C58_versor_returns"
   ],
   "note": ""
  },
  {
   "property": "C59",
   "status": "proved",
   "theorems": [
    "GA.C59_mul",
    "GA.C59_inner"
   ],
   "note": ""
  },
  {
   "property": "C60",
   "status": "proved",
   "theorems": [
    "GA.C60_vpds",
    "GA.C60_exists",
    "GA.C60_reciprocal",
    "GA.C60_scalar_field",
    "GA.C60_scalar_mul",
    "GA.C60_add",
    "GA.C60_split",
    "GA.C60_rgrad",
    "GA.C60_curl_curl",
    "GA.C60_curl_grad",
    "GA.C60_directional",
    "GA.C60_directional_product",
    "GA.C60_directional_grade",
    "GA.C60_curl_values",
    "GA.C60_curl_product",
    "GA.C60_grad_dot",
    "GA.C60_bracket"
   ],
   "note": ""
  },
  {
   "property": "C61",
   "status": "partial",
   "theorems": [
    "GA.C61_pure",
    "GA.C61_zero",
    "GA.C61_mixed_partial",
    "GA.C61_mixed_counterexample"
   ],
   "note": "Single grade and zero are proved in full. For mixed grades the answer is minus a grade that occurs (C61_mixed_partial) but not the largest one: C61_mixed_counterexample."
  },
  {
   "property": "C62",
   "status": "proved",
   "theorems": [
    "GA.C62_entry",
    "GA.C62_symmetric",
    "GA.C62_positive",
    "GA.C62_dot_orthogonal"
   ],
   "note": ""
  },
  {
   "property": "C63",
   "status": "partial",
   "theorems": [
    "GA.C63_call_partial",
    "GA.C63_call_factor",
    "GA.C63_vector",
    "GA.C63_lt",
    "GA.C63_generic_partial",
    "GA.C63_function",
    "GA.C63_add",
    "GA.C63_sub",
    "GA.C63_smul",
    "GA.C63_mul_partial",
    "GA.C63_multilinear_partial",
    "GA.C63_nonorthogonal_counterexample",
    "GA.C63_generic_counterexample",
    "GA.C63_generic_call_counterexample"
   ],
   "note": "Proved for scalar valued functions in orthogonal algebras, and for generic functions when no function with more arguments was made before. The full claim is false: C63_nonorthogonal_counterexample (calls multiply every argument by E^2 in other algebras; C63_call_factor gives the exact value) and C63_generic_counterexample, C63_generic_call_counterexample (Mlt('T', 1) after a function of two arguments)."
  },
  {
   "property": "C64",
   "status": "partial",
   "theorems": [
    "GA.C64_pdiff_counterexample",
    "GA.C64_contract_counterexample",
    "GA.C64_remove_slot",
    "GA.C64_cderiv_partial",
    "GA.C64_history_partial",
    "GA.C64_history_counterexample",
    "GA.C64_cderiv_connection_partial",
    "GA.C64_cderiv_metric",
    "GA.C64_tensor_partial",
    "GA.C64_cderiv_factor",
    "GA.C64_nonorthogonal_counterexample"
   ],
   "note": "Proved: cderiv satisfies the product rule for all vector fields, in orthogonal algebras with every connection, and is zero for the metric tensor; every function made with the constructors is a tensor field; derivatives of multivectors are unchanged by histories without pdiff and contract. The rest of the claim is false: C64_nonorthogonal_counterexample (basis vectors that are not orthogonal; C64_cderiv_factor gives the exact value), C64_pdiff_counterexample and C64_contract_counterexample (both are 0 for constant components because the code differentiates by the coordinates), C64_history_counterexample (afterwards all derivatives ignore the connection)."
  },
  {
   "property": "C65",
   "status": "partial",
   "theorems": [
    "GA.C65_coefs_unique",
    "GA.C65_blade_coefs",
    "GA.C65_list",
    "GA.C65_blade_coefs_rejects",
    "GA.C65_get_coefs",
    "GA.C65_proj",
    "GA.C65_components",
    "GA.C65_components_sum",
    "GA.C65_subs",
    "GA.C65_simplify",
    "GA.C65_simplify_eq",
    "GA.C65_collect",
    "GA.C65_base_rep_counterexample"
   ],
   "note": "Proved in full for multivectors in blade representation and for orthogonal algebras; simplify and collect preserve the value in every representation. False for base representation in non-orthogonal algebras: C65_base_rep_counterexample."
  },
  {
   "property": "C66",
   "status": "partial",
   "theorems": [
    "GA.C66_hash_partial",
    "GA.C66_scalar",
    "GA.C66_base_rep_counterexample"
   ],
   "note": "Proved for pairs in blade representation (C66_hash_partial) and for scalars (C66_scalar). False between representations: C66_base_rep_counterexample."
  },
  {
   "property": "C67",
   "status": "partial",
   "theorems": [
    "GA.C67_coordinate_partial",
    "GA.C67_connection_counterexample",
    "GA.C67_parameter_partial",
    "GA.C67_parametric_accepts",
    "GA.C67_parametric",
    "GA.C67_parameter_counterexample"
   ],
   "note": "Derivatives by coordinates are proved for algebras without connection (C67_coordinate_partial); with connection diff and pdiff always raise, because the SymPy expression and not the multivector is passed to Ga.pDiff (C67_connection_counterexample). The claim for parameters is false: C67_parameter_counterexample, the chain rule is never applied; C67_parameter_partial gives what is computed instead."
  },
  {
   "property": "C68",
   "status": "partial",
   "theorems": [
    "GA.C68_orthogonal",
    "GA.C68_nondegenerate",
    "GA.C68_hint",
    "GA.C68_sign",
    "GA.C68_orthogonal_not_computed",
    "GA.C68_degenerate_counterexample",
    "GA.C68_hint_counterexample",
    "GA.C68_negative_hint_counterexample"
   ],
   "note": "signature() is proved for orthogonal non-degenerate numeric metrics (C68_nondegenerate), and e_sq_sgn follows whenever q is right (C68_sign). Otherwise false: orthogonal metrics never get a signature at construction (C68_orthogonal_not_computed), zero squares are counted as negative (C68_degenerate_counterexample), hints are not checked (C68_hint_counterexample, C68_negative_hint_counterexample)."
  },
  {
   "property": "C69",
   "status": "proved",
   "theorems": [
    "GA.C69_lengths",
    "GA.C69_unnormalised",
    "GA.C69_normalised",
    "GA.C69_same_space",
    "GA.C69_length_sign_counterexample"
   ],
   "note": "Square roots and square-free factorisations of SymPy are parameters with stated laws (RootFuns.Laws), satisfied by the reals. The lengths can be negative, against the comment in the code: C69_length_sign_counterexample. Zero squares, which divide by zero, are excluded."
  },
  {
   "property": "C70",
   "status": "partial",
   "theorems": [
    "GA.C70_exists",
    "GA.C70_vector_product",
    "GA.C70_left_acting",
    "GA.C70_vector_outer",
    "GA.C70_vector_inner",
    "GA.C70_square",
    "GA.C70_scalar_product",
    "GA.C70_scalar_product_grade",
    "GA.C70_gradient",
    "GA.C70_connection_counterexample"
   ],
   "note": "Proved in full for constant metrics. False with a connection, where the derivative by a symbol that is not a coordinate raises: C70_connection_counterexample."
  },
  {
   "property": "C71",
   "status": "partial",
   "theorems": [
    "GA.C71_of_sdops",
    "GA.C71_of_sdops_left",
    "GA.C71_components_partial",
    "GA.C71_is_scalar",
    "GA.C71_left_counterexample"
   ],
   "note": "Proved in full for operators on the right. False for operators on the left: the components lose the complement flag, C71_left_counterexample. C71_of_sdops and C71_of_sdops_left cover both sides."
  },
  {
   "property": "C72",
   "status": "partial",
   "theorems": [
    "GA.C72_general",
    "GA.C72_symmetric",
    "GA.C72_antisymmetric",
    "GA.C72_errors",
    "GA.C72_general_all",
    "GA.C72_symmetric_all",
    "GA.C72_antisymmetric_all",
    "GA.C72_brace_counterexample",
    "GA.C72_lt_general",
    "GA.C72_lt_symmetric",
    "GA.C72_lt_antisymmetric",
    "GA.C72_mode_partial",
    "GA.C72_mode_antisymmetric_partial",
    "GA.C72_mode_counterexample"
   ],
   "note": "Everything about Symbolic_Matrix and the string constructor is proved, for general matrices under the hypothesis that coordinate names are distinct and have no '}' (C72_brace_counterexample). The property mode gives the mode back only in Euclidean algebras (C72_mode_partial, C72_mode_counterexample)."
  },
  {
   "property": "C73",
   "status": "partial",
   "theorems": [
    "GA.C73_scalar_right",
    "GA.C73_scalar_left",
    "GA.C73_base_rep_counterexample",
    "GA.C73_divide"
   ],
   "note": "Proved in full for blade representation, and in base representation for all operators but A < c and c > A, where the code is wrong: C73_base_rep_counterexample."
  },
  {
   "property": "C74",
   "status": "proved",
   "theorems": [
    "GA.C74_text",
    "GA.C74_same"
   ],
   "note": "The text of a single term, which SymPy makes, is a parameter: any non-empty text without line breaks that negates by a leading minus sign. In formats 2 and 3 a text of one symbol has a leading blank exactly if the term was split, so C74_same is for format 1; C74_text is for all formats."
  },
  {
   "property": "C75",
   "status": "partial",
   "theorems": [
    "GA.C75_wedge",
    "GA.C75_base",
    "GA.C75_no_wedge_returns_iff",
    "GA.C75_no_wedge_partial",
    "GA.C75_bases_dict_iff",
    "GA.C75_bases_dict_partial",
    "GA.C75_bases_dict_no_wedge_iff",
    "GA.C75_bases_dict_no_wedge_partial",
    "GA.C75_numbered",
    "GA.C75_twelve_counterexample",
    "GA.C75_letters_counterexample"
   ],
   "note": "Texts with wedges are proved different for all names. Without wedges, and for bases_dict, proved for subscripts none of which begins another one (such as e_1 ... e_9); false otherwise: with twelve vectors e_1^e_2 and e_12 are both e_12, and for e_x, e_y, e_z bases_dict has the pseudoscalar only."
  },
  {
   "property": "C76",
   "status": "partial",
   "theorems": [
    "GA.Capture.C76_capture_partial",
    "GA.Capture.C76_hidden",
    "GA.Capture.C76_tex_without_format",
    "GA.Capture.C76_second_tex_raises",
    "GA.Capture.C76_repeated_text",
    "GA.Capture.C76_nested_counterexample"
   ],
   "note": "Proved for programs with one document made with Format and tex, with any prints and further calls of Format before, between and after (C76_capture_partial, C76_hidden). Otherwise false, with exact descriptions for all histories of the kind: a second tex after Format always raises (C76_second_tex_raises), documents made with LatexFormat begin with the text of the document before (C76_repeated_text), LatexFormat twice loses text and terminal (C76_nested_counterexample)."
  },
  {
   "property": "C77",
   "status": "partial",
   "theorems": [
    "GA.Tex.C77_readable",
    "GA.Tex.C77_operators",
    "GA.Tex.C77_no_operator_left",
    "GA.Tex.C77_each_line",
    "GA.Tex.C77_verbatim",
    "GA.Tex.C77_raw",
    "GA.Tex.C77_unconverted",
    "GA.Tex.C77_equation",
    "GA.Tex.C77_no_equation",
    "GA.Tex.C77_align_counterexample",
    "GA.Tex.C77_empty_lines_counterexample"
   ],
   "note": "Proved for every captured text: lines are independent (C77_each_line), listings are verbatim except for empty lines, which are lost (C77_verbatim, C77_empty_lines_counterexample), and the form of each kind of line. False for an align* environment with an equation in it: its own beginning is translated (C77_align_counterexample)."
  },
  {
   "property": "C78",
   "status": "partial",
   "theorems": [
    "GA.Heap.C78_construct",
    "GA.Heap.C78_lists",
    "GA.Heap.C78_argument_partial",
    "GA.Heap.C78_matrix_partial",
    "GA.Heap.C78_norm_counterexample",
    "GA.Heap.C78_assign_counterexample",
    "GA.Heap.C78_immutable_counterexample",
    "GA.Heap.C78_again_counterexample"
   ],
   "note": "Proved for lists of rows and lists of squares in full (C78_construct, C78_lists), and for matrices that the program neither assigns to nor uses again with norm=True (C78_matrix_partial, C78_argument_partial). False otherwise: norm=True writes the normalised metric into the caller's matrix (C78_norm_counterexample), so the same call again gives an algebra without connection (C78_again_counterexample); an assignment to the matrix changes the metric of the algebra and nothing else of it (C78_assign_counterexample); an immutable matrix is taken for the list of its first entries (C78_immutable_counterexample)."
  },
  {
   "property": "C79",
   "status": "partial",
   "theorems": [
    "GA.C79_partial_text",
    "GA.C79_partial_injective",
    "GA.C79_order_zero_counterexample",
    "GA.C79_scalar_text",
    "GA.C79_scalar_latex",
    "GA.C79_latex_canonical",
    "GA.C79_canonical_counterexample",
    "GA.C79_text",
    "GA.C79_latex_partial",
    "GA.C79_latex_counterexample"
   ],
   "note": "Proved: the plain texts of Pdop, Sdop and Dop and the LaTeX texts of Pdop and Sdop (C79_partial_text, C79_scalar_text, C79_scalar_latex, C79_text), injectivity for partial derivatives without entries of order zero (C79_partial_injective), equal LaTeX texts of equal scalar operators (C79_latex_canonical), the LaTeX text of a Dop except where a scalar operator is 1 (C79_latex_partial). False: a blade with operator 1 is written twice in LaTeX (C79_latex_counterexample); equal scalar operators have different plain texts (C79_canonical_counterexample); an entry of order zero is written like one of order one (C79_order_zero_counterexample)."
  },
  {
   "property": "C80",
   "status": "proved",
   "theorems": [
    "GA.C80_latex",
    "GA.C80_tokens",
    "GA.C80_same"
   ],
   "note": ""
  },
  {
   "property": "C81",
   "status": "partial",
   "theorems": [
    "GA.C81_text",
    "GA.C81_no_leak",
    "GA.C81_object_format",
    "GA.C81_global_format",
    "GA.C81_enhance_none",
    "GA.C81_colour_counterexample",
    "GA.C81_object_layout",
    "GA.C81_global_layout",
    "GA.C81_latex_list_partial",
    "GA.C81_latex_list_counterexample",
    "GA.C81_string_format_counterexample"
   ],
   "note": "The settings of every text are proved for all programs. The claim about colours is false of the code (C81_colour_counterexample: SymPy ignores settings that are None), the documented call A.Fmt('2', 'A') has no effect (C81_string_format_counterexample), and GaLatexPrinter.latex of a list does not use the settings of the call (C81_latex_list_counterexample; the rest of it is C81_latex_list_partial)."
  },
  {
   "property": "C82",
   "status": "proved",
   "theorems": [
    "GA.C82_symbols_list",
    "GA.C82_unambiguous",
    "GA.C82_basis",
    "GA.C82_root",
    "GA.C82_single_index"
   ],
   "note": ""
  },
  {
   "property": "C83",
   "status": "partial",
   "theorems": [
    "GA.C83_names_partial",
    "GA.C83_orthogonal_partial",
    "GA.C83_connection_partial",
    "GA.C83_plain_names_counterexample",
    "GA.C83_norm_counterexample"
   ],
   "note": "False of the code for names without underscore: the reciprocal symbols are then the basis vectors themselves, and the substitution of the reciprocal vectors, made one after another, replaces basis vectors in its own results (C83_plain_names_counterexample, not orthogonal; C83_norm_counterexample, norm=True with a negative square). Proved for all names with an underscore and without a double one, and for all names without a double underscore if the basis is orthogonal and not normalised or has positive squares."
  },
  {
   "property": "C84",
   "status": "partial",
   "theorems": [
    "GA.C84_components_partial",
    "GA.C84_zero_counterexample",
    "GA.C84_product_counterexample",
    "GA.C84_text_partial",
    "GA.C84_latex_partial",
    "GA.C84_control_word_counterexample",
    "GA.C84_no_terms_on_a_line"
   ],
   "note": "False of the code in four cases: the function zero raises an exception (C84_zero_counterexample), an expression that is a single product is printed without the symbols of its arguments (C84_product_counterexample), a coefficient that ends in a control word runs into the next symbol (C84_control_word_counterexample), and lines have a trailing line break when lcnt divides the number of terms and is neither 1 nor that number (stated in tokensFrom). Proved for all expressions that are sums and all coefficients that do not end in a control word."
  },
  {
   "property": "C85",
   "status": "proved",
   "theorems": [
    "GA.C85_subs_coefs",
    "GA.C85_calculation",
    "GA.C85_terms",
    "GA.C85_same_algebra",
    "GA.C85_identity",
    "GA.C85_identity_converse"
   ],
   "note": ""
  },
  {
   "property": "C86",
   "status": "partial",
   "theorems": [
    "GA.C86_result",
    "GA.C86_simplify",
    "GA.C86_simp_apply",
    "GA.C86_eq_sound",
    "GA.C86_eq_complete",
    "GA.C86_incomplete_counterexample",
    "GA.C86_scalar_counterexample",
    "GA.C86_hash_counterexample"
   ],
   "note": "False of the code for the last two statements: == with a number compares without simplification (C86_scalar_counterexample), and the hash is taken of the unsimplified expression (C86_hash_counterexample). The rest is proved for all inputs; that == needs a good simplification is C86_incomplete_counterexample."
  },
  {
   "property": "C87",
   "status": "partial",
   "theorems": [
    "GA.C87_names",
    "GA.C87_coeffs",
    "GA.C87_coeffs_errors",
    "GA.C87_names_errors",
    "GA.C87_values",
    "GA.C87_unknown_category",
    "GA.C87_needs_name",
    "GA.C87_negative_grade",
    "GA.C87_scalar_keyword_counterexample",
    "GA.C87_basis",
    "GA.C87_single",
    "GA.C87_several",
    "GA.C87_several_kinds",
    "GA.C87_several_grade_counterexample"
   ],
   "note": "False of the code in three cases: a negative grade -j is taken as the grade n+1-j (C87_negative_grade), the value of a scalar is accepted with any keyword (C87_scalar_keyword_counterexample), and several names with an integer grade raise TypeError (C87_several_grade_counterexample). The rest is proved for all arguments."
  },
  {
   "property": "C88",
   "status": "proved",
   "theorems": [
    "GA.C88_div_wedge",
    "GA.C88_laplacian_product",
    "GA.C88_div",
    "GA.C88_div_root",
    "GA.C88_laplacian",
    "GA.C88_div_div",
    "GA.C88_laplacian_split"
   ],
   "note": ""
  },
  {
   "property": "C89",
   "status": "partial",
   "theorems": [
    "GA.C89_name_partial",
    "GA.C89_name_injective_partial",
    "GA.C89_control_word_partial",
    "GA.C89_symbol_partial",
    "GA.C89_derivative_flat",
    "GA.C89_derivative_fraction",
    "GA.C89_plain_partial",
    "GA.C89_plain_counterexample",
    "GA.C89_ten_glyphs_counterexample",
    "GA.C89_control_word_counterexample",
    "GA.C89_capital_counterexample"
   ],
   "note": "False of the code for names with ten or more glyphs (C89_ten_glyphs_counterexample), for control words that contain the name of a glyph, such as \\\\varphi and \\\\Theta (C89_control_word_counterexample), for capital Greek letters whose end is a glyph, such as Theta (C89_capital_counterexample: the text still spells the name, but with the wrong letter), and for the plain text of a derivative of a sum, which has no parentheses (C89_plain_counterexample). Proved for all names without question mark and backslash with at most nine glyphs, for names with one control word, and for all derivatives in LaTeX."
  },
  {
   "property": "C90",
   "status": "proved",
   "theorems": [
    "GA.C90_symmetric",
    "GA.C90_calculation",
    "GA.C90_terms",
    "GA.C90_scalar",
    "GA.C90_equation",
    "GA.C90_equation_iff",
    "GA.C90_selected_metric",
    "GA.C90_normalised_metric",
    "GA.C90_submanifold_metric",
    "GA.C90_submanifold",
    "GA.C90_dependent"
   ],
   "note": ""
  },
  {
   "property": "C91",
   "status": "partial",
   "theorems": [
    "GA.GPrint.C91_escape",
    "GA.GPrint.C91_latex",
    "GA.GPrint.C91_plain_partial",
    "GA.GPrint.C91_notebook_partial",
    "GA.GPrint.C91_flag",
    "GA.GPrint.C91_document",
    "GA.GPrint.C91_names_partial",
    "GA.GPrint.C91_header",
    "GA.GPrint.C91_commands",
    "GA.GPrint.C91_percent_object_counterexample",
    "GA.GPrint.C91_percent_counterexample",
    "GA.GPrint.C91_percent_sure_counterexample",
    "GA.GPrint.C91_plain_counterexample",
    "GA.GPrint.C91_notebook_counterexample",
    "GA.GPrint.C91_failed_write_counterexample",
    "GA.GPrint.C91_names_counterexample",
    "GA.GPrint.C91_remove_counterexample"
   ],
   "note": "Proved for all arguments and histories if percent signs in strings are written twice. False of the code for a single percent sign (C91_percent_counterexample), for two backslashes when LaTeX is off (C91_plain_counterexample), for the sign @ in a notebook (C91_notebook_counterexample), for file names with .tex or .py in a directory name (C91_names_counterexample), and if the file cannot be opened, which loses everything printed (C91_failed_write_counterexample)."
  },
  {
   "property": "C92",
   "status": "partial",
   "theorems": [
    "GA.FmtList.C92_row_partial",
    "GA.FmtList.C92_column_partial",
    "GA.FmtList.C92_cells",
    "GA.FmtList.C92_dict_lines",
    "GA.FmtList.C92_empty_counterexample",
    "GA.FmtList.C92_one_counterexample",
    "GA.FmtList.C92_dict_counterexample",
    "GA.FmtList.C92_oprint",
    "GA.FmtList.C92_last_title_counterexample",
    "GA.FmtList.C92_untitled"
   ],
   "note": "Proved for rows of at least one and columns of at least two elements and for oprint. False of the code for empty lists in format 1 (C92_empty_counterexample), for empty lists and lists of one element in the other format, which are never closed (C92_one_counterexample), for dictionaries in the other format, whose values are not printed (C92_dict_counterexample), and for a title without object at the end of oprint (C92_last_title_counterexample)."
  },
  {
   "property": "C93",
   "status": "partial",
   "theorems": [
    "GA.C93_mul",
    "GA.C93_add",
    "GA.C93_sub",
    "GA.C93_addable",
    "GA.C93_mul_defined",
    "GA.C93_left",
    "GA.C93_outer",
    "GA.C93_number_right",
    "GA.C93_number_left",
    "GA.C93_contraction_counterexample",
    "GA.C93_sides_counterexample"
   ],
   "note": "Proved for +, -, * and ^ and for numbers in * ^ |. False of the code for c < D and c > D with a number c, which apply D to c (C93_contraction_counterexample), and for an Sdop times an operator that acts to the left, which is a multivector instead of an exception (C93_sides_counterexample)."
  },
  {
   "property": "C94",
   "status": "partial",
   "theorems": [
    "GA.C94_value_partial",
    "GA.C94_minus_partial",
    "GA.C94_legal",
    "GA.C94_illegal",
    "GA.C94_pure",
    "GA.C94_unset",
    "GA.C94_integers_counterexample"
   ],
   "note": "The value is proved for the expressions of C49_precedence_partial (C49 has counterexamples for others), with or without a minus sign in front, in which ^, |, < and > are not used between two numbers; GAeval('2^3') is 1 (C94_integers_counterexample). The other theorems have no restriction."
  },
  {
   "property": "C95",
   "status": "proved",
   "theorems": [
    "GA.C95_script",
    "GA.C95_square",
    "GA.C95_script_dual",
    "GA.C95_script_real",
    "GA.C95_dual_reversed",
    "GA.C95_tests"
   ],
   "note": ""
  },
  {
   "property": "C96",
   "status": "proved",
   "theorems": [
    "GA.C96_program",
    "GA.C96_chain_rule",
    "GA.C96_convert",
    "GA.C96_equal",
    "GA.C96_scalar",
    "GA.C96_exists"
   ],
   "note": ""
  },
  {
   "property": "C97",
   "status": "proved",
   "theorems": [
    "GA.C97_series",
    "GA.C97_flow",
    "GA.C97_rotation"
   ],
   "note": ""
  },
  {
   "property": "C98",
   "status": "proved",
   "theorems": [
    "GA.C98_flat",
    "GA.C98_curved",
    "GA.C98_gradient",
    "GA.C98_sm_flat",
    "GA.C98_sm_curved"
   ],
   "note": ""
  },
  {
   "property": "C99",
   "status": "proved",
   "theorems": [
    "GA.C99_kind",
    "GA.C99_value",
    "GA.C99_identity",
    "GA.C99_inverses",
    "GA.C99_exceptions"
   ],
   "note": ""
  },
  {
   "property": "C100",
   "status": "partial",
   "theorems": [
    "GA.C100_pearson_partial",
    "GA.C100_range",
    "GA.C100_affine",
    "GA.C100_extreme",
    "GA.C100_row_counterexample"
   ],
   "note": "Proved for column vectors. False of the code for row vectors, whose first entry only is centred (C100_row_counterexample)."
  },
  {
   "property": "C101",
   "status": "proved",
   "theorems": [
    "GA.C101_apply",
    "GA.C101_exists",
    "GA.C101_operations",
    "GA.C101_det",
    "GA.C101_inverse",
    "GA.C101_adjoint",
    "GA.C101_trace",
    "GA.C101_versor"
   ],
   "note": ""
  },
  {
   "property": "C102",
   "status": "partial",
   "theorems": [
    "GA.C102_read_back_partial",
    "GA.C102_raises_counterexample",
    "GA.C102_wrong_counterexample",
    "GA.C102_power_counterexample",
    "GA.C102_float_counterexample"
   ],
   "note": "Proved for coefficients that are positive integers, symbols, products of these and sums in parentheses, with a sign. False of the code for multivectors of more than one term whose text begins with a blade of two or more vectors with coefficient 1 and ends with a product (C102_raises_counterexample), for sums in parentheses that begin and end with a product (C102_wrong_counterexample: a wrong value without an exception), for powers (C102_power_counterexample) and for decimal fractions (C102_float_counterexample). Missing: coefficients with quotients, functions or a minus sign after a parenthesis, and the same parenthesised sum in two coefficients."
  },
  {
   "property": "C103",
   "status": "proved",
   "theorems": [
    "GA.C103_contractions",
    "GA.C103_reverse",
    "GA.C103_vector",
    "GA.C103_antiderivation",
    "GA.C103_pseudoscalar",
    "GA.C103_scalar",
    "GA.C103_gram",
    "GA.C103_dual"
   ],
   "note": ""
  },
  {
   "property": "C104",
   "status": "partial",
   "theorems": [
    "GA.C104_call_partial",
    "GA.C104_function",
    "GA.C104_sum_partial",
    "GA.C104_sum_error",
    "GA.C104_product_partial",
    "GA.C104_product_error",
    "GA.C104_operand_partial",
    "GA.C104_multiple_partial",
    "GA.C104_sum_counterexample",
    "GA.C104_operand_counterexample",
    "GA.C104_dd"
   ],
   "note": "False of the code when the sum or product is always a vector (C104_sum_counterexample), for factors that are not multilinear functions (C104_operand_counterexample: F*X, F^X and F|X are X*F), and for ^ and | of scalar valued functions, which raise (C104_product_error). Calls in non-orthogonal algebras: see C63."
  },
  {
   "property": "C105",
   "status": "proved",
   "theorems": [
    "GA.C105_pseudoscalar",
    "GA.C105_diff",
    "GA.C105_gradient",
    "GA.C105_div_curl"
   ],
   "note": ""
  },
  {
   "property": "C106",
   "status": "partial",
   "theorems": [
    "GA.C106_metric",
    "GA.C106_metric_text",
    "GA.C106_metric_counterexample",
    "GA.C106_algebra",
    "GA.C106_attributes",
    "GA.C106_returned",
    "GA.C106_grad_partial",
    "GA.C106_mixing",
    "GA.C106_setup_metric",
    "GA.C106_curv_counterexample",
    "GA.C106_grad_counterexample"
   ],
   "note": "Proved for multivectors, MV.I, MV.metric, mixing and the returned gradient. False of the code for MV.grad, which stays that of an earlier algebra when setup is called without coordinates (C106_grad_counterexample; C106_grad_partial says to which algebra it belongs), for metric='' and '[]', which raise (C106_metric_counterexample), and for a metric given together with the second element of curv, which is dropped (C106_curv_counterexample)."
  },
  {
   "property": "C107",
   "status": "partial",
   "theorems": [
    "GA.C107_versor_complete",
    "GA.C107_versor_sound_partial",
    "GA.C107_versor_iff_partial",
    "GA.C107_reflections",
    "GA.C107_versor_counterexample",
    "GA.C107_blade_complete",
    "GA.C107_blade_sound_partial",
    "GA.C107_blade_iff_partial",
    "GA.C107_versor_blade",
    "GA.C107_blade_counterexample",
    "GA.C107_versor_mul",
    "GA.C107_versor_rev",
    "GA.C107_versor_inv",
    "GA.C107_versor_qform",
    "GA.C107_versor_parity"
   ],
   "note": "is_versor: True for all products of non-null vectors in every metric (C107_versor_complete), and only for those if the metric is not degenerate (C107_versor_sound_partial, C107_reflections); false of the code for degenerate metrics (C107_versor_counterexample). The multivectors that pass form a group in every metric (C107_versor_mul, C107_versor_rev, C107_versor_inv, C107_versor_qform). is_blade: True for all non-zero blades (C107_blade_complete); right for grades up to 2 and from n-1 on, and for versors, in every metric, so always right up to dimension 4 (C107_blade_sound_partial, C107_blade_iff_partial); false of the code for every other grade and every metric (C107_blade_counterexample)."
  },
  {
   "property": "C108",
   "status": "proved",
   "theorems": [
    "GA.C108_bilinear",
    "GA.C108_adjoint",
    "GA.C108_expand",
    "GA.C108_vector_split",
    "GA.C108_versor",
    "GA.C108_projection",
    "GA.C108_cauchy_schwarz",
    "GA.C108_norm",
    "GA.C108_shorter",
    "GA.C108_hadamard",
    "GA.C108_gram",
    "GA.C108_gram_ne",
    "GA.C108_volume",
    "GA.C108_volume_lt",
    "GA.C108_hadamard_eq"
   ],
   "note": ""
  },
  {
   "property": "C109",
   "status": "partial",
   "theorems": [
    "GA.C109_mul_mode",
    "GA.C109_dot_mode",
    "GA.C109_basis_blades",
    "GA.C109_dot_basis_blades_partial",
    "GA.C109_non_ortho_dot_basis_blades",
    "GA.C109_non_ortho_raises",
    "GA.C109_not_orthogonal_counterexample"
   ],
   "note": "Ga.Mul, Ga.dot and the products of basis blades are proved for all algebras and modes. The deprecated dot_product_basis_blades is proved for orthogonal algebras; for others it is false of the code (C109_not_orthogonal_counterexample). non_orthogonal_dot_product_basis_blades is proved for algebras that are not orthogonal; in orthogonal ones it raises for products that the grades do not make zero (C109_non_ortho_raises)."
  },
  {
   "property": "C110",
   "status": "proved",
   "theorems": [
    "GA.C110_span",
    "GA.C110_exists",
    "GA.C110_unique",
    "GA.C110_subset",
    "GA.C110_orthogonal",
    "GA.C110_join",
    "GA.C110_image",
    "GA.C110_blade_iff",
    "GA.C110_qform",
    "GA.C110_projection",
    "GA.C110_dual",
    "GA.C110_meet",
    "GA.C110_left",
    "GA.C110_right",
    "GA.C110_dot"
   ],
   "note": ""
  },
  {
   "property": "C111",
   "status": "proved",
   "theorems": [
    "GA.C111_reflection",
    "GA.C111_every_isometry",
    "GA.C111_rotation",
    "GA.C111_unique",
    "GA.C111_compose",
    "GA.C111_det",
    "GA.C111_adjoint",
    "GA.C111_subspace"
   ],
   "note": ""
  },
  {
   "property": "C112",
   "status": "partial",
   "theorems": [
    "GA.C112_power_partial",
    "GA.C112_exponent_partial",
    "GA.C112_name_counterexample",
    "GA.C112_cdot_counterexample",
    "GA.C112_fold_counterexample",
    "GA.C112_percent_counterexample",
    "GA.C112_frac_counterexample",
    "GA.C112_function_partial",
    "GA.C112_omitted",
    "GA.C112_folded_partial",
    "GA.C112_inverse_names",
    "GA.C112_inverse_power_partial",
    "GA.C112_function_exponent_partial",
    "GA.C112_percent_doubled_counterexample"
   ],
   "note": "Proved for bases that are functions, get brackets, have an index or are printed as one part, and for names without percent sign that are no commands of TeX with arguments. Otherwise false of the code: C112_name_counterexample (names of several letters), C112_cdot_counterexample, C112_fold_counterexample, C112_percent_counterexample, C112_frac_counterexample."
  },
  {
   "property": "C113",
   "status": "partial",
   "theorems": [
    "GA.DopHeap.C113_pdop",
    "GA.DopHeap.C113_diff",
    "GA.DopHeap.C113_stable_partial",
    "GA.DopHeap.C113_own",
    "GA.DopHeap.C113_alias_counterexample",
    "GA.DopHeap.C113_sdop_symbol",
    "GA.DopHeap.C113_sdop_terms",
    "GA.DopHeap.C113_sdop_errors",
    "GA.DopHeap.C113_sdop_stable_partial"
   ],
   "note": "The constructors are proved for all arguments. Stability is proved for all histories that do not assign to the dictionary an operator was made from; otherwise it is false of the code (C113_alias_counterexample)."
  },
  {
   "property": "C114",
   "status": "partial",
   "theorems": [
    "GA.C114_calculation",
    "GA.C114_application",
    "GA.C114_eq_sound",
    "GA.C114_compare",
    "GA.C114_compare_complete",
    "GA.C114_dop_simplify",
    "GA.C114_tsimplify_counterexample",
    "GA.C114_eq_counterexample"
   ],
   "note": "Proved for scalar operators and for Dop.simplify. False of Dop.TSimplify, which raises for every operator with a term (C114_tsimplify_counterexample). == confirms only equal operators (C114_eq_sound) but does not find all (C114_eq_counterexample)."
  },
  {
   "property": "C115",
   "status": "partial",
   "theorems": [
    "GA.C115_derivative",
    "GA.C115_derivative_flat",
    "GA.C115_pdop_partial",
    "GA.C115_sdop_partial",
    "GA.C115_superscript_counterexample"
   ],
   "note": "Proved for derivatives, and for operators whose variables are printed as one part, without superscript if they occur more than once. False of other variables (C115_superscript_counterexample). Multivector operators: their text is in C79."
  },
  {
   "property": "C116",
   "status": "proved",
   "theorems": [
    "GA.C116_inv_iff",
    "GA.C116_agree",
    "GA.C116_others_return",
    "GA.C116_products",
    "GA.C116_divide_unique",
    "GA.C116_power_add",
    "GA.C116_power_mul",
    "GA.C116_powers_exist",
    "GA.C116_inv_counterexample",
    "GA.C116_power_counterexample"
   ],
   "note": ""
  },
  {
   "property": "C117",
   "status": "partial",
   "theorems": [
    "GA.C117_solutions_partial",
    "GA.C117_variables",
    "GA.C117_sum_counterexample",
    "GA.C117_column_counterexample"
   ],
   "note": "Proved for matrices with at least two columns and entries whose text has no blanks, like numbers. False for sums (C117_sum_counterexample) and for one column (C117_column_counterexample). That SymPy's rref comes from the matrix by row operations is a hypothesis."
  },
  {
   "property": "C118",
   "status": "partial",
   "theorems": [
    "GA.C118_tuple",
    "GA.C118_lines",
    "GA.C118_values_partial",
    "GA.C118_determines_partial",
    "GA.C118_scalar_counterexample",
    "GA.C118_nonorthogonal_counterexample"
   ],
   "note": "The lines, their order and that they hold the values of calls are proved for all functions with arguments in all algebras (C118_lines). That these are the components, and that they determine the function, is proved for orthogonal algebras; false otherwise (C118_nonorthogonal_counterexample). Functions without arguments raise (C118_scalar_counterexample)."
  },
  {
   "property": "C119",
   "status": "partial",
   "theorems": [
    "GA.C119_unknown",
    "GA.C119_preset_counterexample",
    "GA.C119_needs",
    "GA.C119_grad_sqr_counterexample"
   ],
   "note": "ValueError for unknown names is proved. The rest of the claim is false of the code: Ga.preset raises for every argument (C119_preset_counterexample), and so do Ga.grad_sqr, Mv.Grad and Simp.applymv (C119_grad_sqr_counterexample). C119_needs says which names are missing."
  },
  {
   "property": "C120",
   "status": "proved",
   "theorems": [
    "GA.C120_gs",
    "GA.C120_gs_empty",
    "GA.C120_eigen",
    "GA.C120_gs_determines"
   ],
   "note": ""
  },
  {
   "property": "C121",
   "status": "proved",
   "theorems": [
    "GA.C121_eigenvalue",
    "GA.C121_blade",
    "GA.C121_det_eigenvalues",
    "GA.C121_orthogonal",
    "GA.C121_det",
    "GA.C121_cayley_hamilton",
    "GA.C121_characteristic"
   ],
   "note": ""
  },
  {
   "property": "C122",
   "status": "proved",
   "theorems": [
    "GA.C122_linear",
    "GA.C122_scalar",
    "GA.C122_product",
    "GA.C122_grade",
    "GA.C122_swap",
    "GA.C122_skew",
    "GA.C122_bianchi_second",
    "GA.C122_bianchi",
    "GA.C122_pairs",
    "GA.C122_components",
    "GA.C122_bivector",
    "GA.C122_bivector_bianchi",
    "GA.C122_flat_iff",
    "GA.C122_dual",
    "GA.C122_surface"
   ],
   "note": ""
  }
 ]
}