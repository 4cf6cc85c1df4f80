# Axioms of every property theorem

Output of `#print axioms` (tools/axioms.py).

| Property | Theorem | Axioms |
|---|---|---|
| C01 | `GA.C01_blades_by_grade` | propext, Classical.choice, Quot.sound |
| C01 | `GA.C01_blades_flat` | propext, Classical.choice, Quot.sound |
| C01 | `GA.C01_index_maps` | propext, Classical.choice, Quot.sound |
| C02 | `GA.C02_geometric_product_ortho` | propext, Classical.choice, Quot.sound |
| C02 | `GA.C02_ga_mul_ortho` | propext, Classical.choice, Quot.sound |
| C03 | `GA.C03_geometric_product` | propext, Classical.choice, Quot.sound |
| C03 | `GA.C03_ga_mul` | propext, Classical.choice, Quot.sound |
| C04 | `GA.C04_reduce_basis` | propext, Classical.choice, Quot.sound |
| C05 | `GA.C05_assoc` | propext, Classical.choice, Quot.sound |
| C05 | `GA.C05_distrib` | propext, Classical.choice, Quot.sound |
| C05 | `GA.C05_one` | propext, Classical.choice, Quot.sound |
| C05 | `GA.C05_smul` | propext, Classical.choice, Quot.sound |
| C05 | `GA.C05_add_group` | propext, Classical.choice, Quot.sound |
| C06 | `GA.C06_eq_iff` | propext, Classical.choice, Quot.sound |
| C06 | `GA.C06_blade_coefs_iff` | propext, Classical.choice, Quot.sound |
| C06 | `GA.C06_representable` | propext, Classical.choice, Quot.sound |
| C06 | `GA.C06_coefs_free` | propext, Classical.choice, Quot.sound |
| C06 | `GA.C06_is_zero` | propext, Classical.choice, Quot.sound |
| C07 | `GA.C07_vector_square` | propext, Classical.choice, Quot.sound |
| C07 | `GA.C07_vector_products` | propext, Classical.choice, Quot.sound |
| C08 | `GA.C08_wedge` | propext, Classical.choice, Quot.sound |
| C08 | `GA.C08_metric_free` | propext, Classical.choice, Quot.sound |
| C09 | `GA.C09_assoc` | propext, Classical.choice, Quot.sound |
| C09 | `GA.C09_bilinear` | propext, Classical.choice, Quot.sound |
| C09 | `GA.C09_graded` | propext, Classical.choice, Quot.sound |
| C09 | `GA.C09_vector` | propext, Classical.choice, Quot.sound |
| C10 | `GA.C10_inner_products_ortho` | propext, Classical.choice, Quot.sound |
| C11 | `GA.C11_inner_products` | propext, Classical.choice, Quot.sound |
| C11 | `GA.C11_homogeneous` | propext, Classical.choice, Quot.sound |
| C12 | `GA.C12_paths_agree` | propext, Classical.choice, Quot.sound |
| C13 | `GA.C13_meaning` | propext, Classical.choice, Quot.sound |
| C13 | `GA.C13_round_trip` | propext, Classical.choice, Quot.sound |
| C14 | `GA.C14_get_grade` | propext, Classical.choice, Quot.sound |
| C14 | `GA.C14_projection` | propext, Classical.choice, Quot.sound |
| C14 | `GA.C14_grade_decomposition` | propext, Classical.choice, Quot.sound |
| C14 | `GA.C14_grades` | propext, Classical.choice, Quot.sound |
| C15 | `GA.C15_reverse` | propext, Classical.choice, Quot.sound |
| C15 | `GA.C15_reverse_product` | propext, Classical.choice, Quot.sound |
| C15 | `GA.C15_reverse_meaning` | propext, Classical.choice, Quot.sound |
| C16 | `GA.C16_even_odd` | propext, Classical.choice, Quot.sound |
| C16 | `GA.C16_parity` | propext, Classical.choice, Quot.sound |
| C16 | `GA.C16_g_invol` | propext, Classical.choice, Quot.sound |
| C16 | `GA.C16_base_rep_raises` | propext, Classical.choice, Quot.sound |
| C17 | `GA.C17_ccon` | propext, Classical.choice, Quot.sound |
| C18 | `GA.C18_dual` | propext, Classical.choice, Quot.sound |
| C18 | `GA.C18_product` | propext, Classical.choice, Quot.sound |
| C18 | `GA.C18_norm` | propext, Classical.choice, Quot.sound |
| C18 | `GA.C18_table` | propext, Classical.choice, Quot.sound |
| C18 | `GA.C18_sides` | propext, Classical.choice, Quot.sound |
| C19 | `GA.C19_last_request` | propext, Quot.sound |
| C19 | `GA.C19_default` | propext, Quot.sound |
| C19 | `GA.C19_documented` | propext, Classical.choice, Quot.sound |
| C19 | `GA.C19_invalid` | propext |
| C19 | `GA.C19_valid` | propext |
| C19 | `GA.C19_failed_constructor_counterexample` | propext |
| C20 | `GA.C20_pseudoscalar_square` | propext, Classical.choice, Quot.sound |
| C20 | `GA.C20_normalised` | propext, Classical.choice, Quot.sound |
| C20 | `GA.C20_normalisable` | propext, Classical.choice, Quot.sound |
| C20 | `GA.C20_degenerate` | propext, Classical.choice, Quot.sound |
| C20 | `GA.C20_commute` | propext, Classical.choice, Quot.sound |
| C20 | `GA.C20_center` | propext, Classical.choice, Quot.sound |
| C20 | `GA.C20_orientation` | propext, Classical.choice, Quot.sound |
| C21 | `GA.C21_reciprocal_basis` | propext, Classical.choice, Quot.sound |
| C21 | `GA.C21_mvr_norm` | propext, Classical.choice, Quot.sound |
| C21 | `GA.C21_exists` | propext, Classical.choice, Quot.sound |
| C21 | `GA.C21_components` | propext, Classical.choice, Quot.sound |
| C21 | `GA.C21_expansion` | propext, Classical.choice, Quot.sound |
| C22 | `GA.C22_inverse_metric` | propext, Classical.choice, Quot.sound |
| C22 | `GA.C22_defined` | propext, Classical.choice, Quot.sound |
| C22 | `GA.C22_metric_partial` | propext, Classical.choice, Quot.sound |
| C22 | `GA.C22_metric_gsym` | propext, Classical.choice, Quot.sound |
| C22 | `GA.C22_metric_counterexample` | propext, Classical.choice, Quot.sound |
| C23 | `GA.C23_inverse` | propext, Classical.choice, Quot.sound |
| C23 | `GA.C23_inverse_exists` | propext, Classical.choice, Quot.sound |
| C24 | `GA.C24_hitzer` | propext, Classical.choice, Quot.sound |
| C24 | `GA.C24_hitzer_eq` | propext, Classical.choice, Quot.sound |
| C24 | `GA.C24_not_implemented` | propext, Classical.choice, Quot.sound |
| C25 | `GA.C25_shirokov_partial` | propext, Classical.choice, Quot.sound |
| C25 | `GA.C25_shirokov_eq_partial` | propext, Classical.choice, Quot.sound |
| C25 | `GA.C25_dimension_zero_counterexample` | propext, Classical.choice, Quot.sound |
| C25 | `GA.Ex.C25_base_representation_counterexample` | propext, Classical.choice, Quot.sound |
| C26 | `GA.C26_negative_power` | propext, Classical.choice, Quot.sound |
| C26 | `GA.C26_nonneg_power` | propext, Classical.choice, Quot.sound |
| C26 | `GA.C26_powers` | propext, Classical.choice, Quot.sound |
| C27 | `GA.C27_commutator` | propext, Classical.choice, Quot.sound |
| C27 | `GA.C27_jacobi` | propext, Classical.choice, Quot.sound |
| C27 | `GA.C27_derivation` | propext, Classical.choice, Quot.sound |
| C27 | `GA.C27_bivector_grade` | propext, Classical.choice, Quot.sound |
| C27 | `GA.C27_bivector_derivation` | propext, Classical.choice, Quot.sound |
| C27 | `GA.C27_bivector_vector` | propext, Classical.choice, Quot.sound |
| C28 | `GA.C28_is_blade_complete` | propext, Classical.choice, Quot.sound |
| C28 | `GA.C28_defined` | propext, Classical.choice, Quot.sound |
| C28 | `GA.C28_linear` | propext, Classical.choice, Quot.sound |
| C28 | `GA.C28_idempotent` | propext, Classical.choice, Quot.sound |
| C28 | `GA.C28_vector` | propext, Classical.choice, Quot.sound |
| C28 | `GA.C28_non_blade_accepted` | propext, Classical.choice, Quot.sound |
| C28 | `GA.C28_outermorphism` | propext, Classical.choice, Quot.sound |
| C29 | `GA.C29_defined` | propext, Classical.choice, Quot.sound |
| C29 | `GA.C29_linear` | propext, Classical.choice, Quot.sound |
| C29 | `GA.C29_multiplicative` | propext, Classical.choice, Quot.sound |
| C29 | `GA.C29_involutive` | propext, Classical.choice, Quot.sound |
| C29 | `GA.C29_vector` | propext, Classical.choice, Quot.sound |
| C29 | `GA.C29_documented_formula_counterexample` | propext, Classical.choice, Quot.sound |
| C29 | `GA.C29_products` | propext, Classical.choice, Quot.sound |
| C30 | `GA.C30_defined` | propext, Classical.choice, Quot.sound |
| C30 | `GA.C30_value` | propext, Classical.choice, Quot.sound |
| C30 | `GA.C30_add` | propext, Classical.choice, Quot.sound |
| C30 | `GA.C30_inverse` | propext, Classical.choice, Quot.sound |
| C30 | `GA.C30_rotate_defined` | propext, Classical.choice, Quot.sound |
| C30 | `GA.C30_rotate_mul` | propext, Classical.choice, Quot.sound |
| C30 | `GA.C30_rotate_linear` | propext, Classical.choice, Quot.sound |
| C30 | `GA.C30_rotate_scalar` | propext, Classical.choice, Quot.sound |
| C30 | `GA.C30_rotate_vector` | propext, Classical.choice, Quot.sound |
| C30 | `GA.C30_rotate_grade` | propext, Classical.choice, Quot.sound |
| C30 | `GA.C30_rotate_products` | propext, Classical.choice, Quot.sound |
| C31 | `GA.C31_qform` | propext, Classical.choice, Quot.sound |
| C31 | `GA.C31_nonneg` | propext, Classical.choice, Quot.sound |
| C31 | `GA.C31_positive_definite` | propext, Classical.choice, Quot.sound |
| C31 | `GA.C31_norm2` | propext, Classical.choice, Quot.sound |
| C31 | `GA.C31_norm2_defined` | propext, Classical.choice, Quot.sound |
| C31 | `GA.C31_qform_grades` | propext, Classical.choice, Quot.sound |
| C31 | `GA.C31_mag2` | propext, Classical.choice, Quot.sound |
| C31 | `GA.C31_norm2_le_mag2` | propext, Classical.choice, Quot.sound |
| C31 | `GA.C31_norm` | propext, Classical.choice, Quot.sound |
| C31 | `GA.C31_mag` | propext, Classical.choice, Quot.sound |
| C31 | `GA.C31_versor` | propext, Classical.choice, Quot.sound |
| C32 | `GA.C32_lookups` | propext, Classical.choice, Quot.sound |
| C32 | `GA.C32_once` | propext, Classical.choice, Quot.sound |
| C32 | `GA.C32_products` | propext, Classical.choice, Quot.sound |
| C33 | `GA.C33_linear` | propext, Classical.choice, Quot.sound |
| C33 | `GA.C33_wedge` | propext, Classical.choice, Quot.sound |
| C33 | `GA.C33_scalar` | propext, Classical.choice, Quot.sound |
| C33 | `GA.C33_vector` | propext, Classical.choice, Quot.sound |
| C33 | `GA.C33_grades` | propext, Classical.choice, Quot.sound |
| C33 | `GA.C33_base_rep_counterexample` | propext, Classical.choice, Quot.sound |
| C34 | `GA.C34_composition` | propext, Classical.choice, Quot.sound |
| C34 | `GA.C34_pointwise` | propext, Classical.choice, Quot.sound |
| C34 | `GA.C34_matrices` | propext, Classical.choice, Quot.sound |
| C34 | `GA.C34_closed` | propext, Classical.choice, Quot.sound |
| C35 | `GA.C35_matrix` | propext, Classical.choice, Quot.sound |
| C35 | `GA.C35_dictionary` | propext, Classical.choice, Quot.sound |
| C35 | `GA.C35_lists` | propext, Classical.choice, Quot.sound |
| C35 | `GA.C35_vectors` | propext, Classical.choice, Quot.sound |
| C35 | `GA.C35_function` | propext, Classical.choice, Quot.sound |
| C35 | `GA.C35_function_raises` | propext, Classical.choice, Quot.sound |
| C36 | `GA.C36_det` | propext, Classical.choice, Quot.sound |
| C36 | `GA.C36_det_mul` | propext, Classical.choice, Quot.sound |
| C36 | `GA.C36_pseudoscalar` | propext, Classical.choice, Quot.sound |
| C37 | `GA.C37_adjoint` | propext, Classical.choice, Quot.sound |
| C37 | `GA.C37_unique` | propext, Classical.choice, Quot.sound |
| C37 | `GA.C37_involution` | propext, Classical.choice, Quot.sound |
| C37 | `GA.C37_product` | propext, Classical.choice, Quot.sound |
| C37 | `GA.C37_modes` | propext, Classical.choice, Quot.sound |
| C37 | `GA.C37_multivectors` | propext, Classical.choice, Quot.sound |
| C38 | `GA.C38_is_singular` | propext, Classical.choice, Quot.sound |
| C38 | `GA.C38_inverse_raises` | propext, Classical.choice, Quot.sound |
| C38 | `GA.C38_inverse` | propext, Classical.choice, Quot.sound |
| C38 | `GA.C38_trace_value` | propext, Classical.choice, Quot.sound |
| C38 | `GA.C38_trace_partial` | propext, Classical.choice, Quot.sound |
| C38 | `GA.C38_trace_mul_comm_partial` | propext, Classical.choice, Quot.sound |
| C38 | `GA.C38_trace_norm_counterexample` | propext, Classical.choice, Quot.sound |
| C38 | `GA.C38_trace_coordinates_counterexample` | propext, Classical.choice, Quot.sound |
| C39 | `GA.C39_application_partial` | propext, Classical.choice, Quot.sound |
| C39 | `GA.C39_composition_partial` | propext, Classical.choice, Quot.sound |
| C39 | `GA.C39_matrix_raises` | propext, Quot.sound |
| C39 | `GA.C39_display_counterexample` | propext, Classical.choice, Quot.sound |
| C39 | `GA.C39_sum_counterexample` | propext, Classical.choice, Quot.sound |
| C39 | `GA.C39_product_counterexample` | propext, Classical.choice, Quot.sound |
| C40 | `GA.C40_consolidate` | propext, Quot.sound |
| C40 | `GA.C40_consolidate_distinct` | propext, Quot.sound |
| C40 | `GA.C40_consolidate_no_zero_partial` | propext, Quot.sound |
| C40 | `GA.C40_consolidate_zero_counterexample` | propext, Classical.choice, Quot.sound |
| C40 | `GA.C40_add` | propext, Quot.sound |
| C40 | `GA.C40_sub` | propext, Quot.sound |
| C40 | `GA.C40_add_normal` | propext, Quot.sound |
| C40 | `GA.C40_neg` | propext, Quot.sound |
| C40 | `GA.C40_smul` | propext, Quot.sound |
| C40 | `GA.C40_scalar` | propext, Quot.sound |
| C40 | `GA.C40_wf` | propext, Quot.sound |
| C40 | `GA.C40_eq_sound` | propext, Quot.sound |
| C40 | `GA.C40_eq` | propext, Classical.choice, Quot.sound |
| C40 | `GA.C40_order_zero_counterexample` | propext, Classical.choice, Quot.sound |
| C41 | `GA.C41_mul` | propext, Quot.sound |
| C41 | `GA.C41_pdop_mul` | propext, Quot.sound |
| C41 | `GA.C41_pdop_eq` | propext, Quot.sound |
| C41 | `GA.C41_diff` | propext, Quot.sound |
| C41 | `GA.C41_leibniz` | propext, Classical.choice, Quot.sound |
| C42 | `GA.C42_commuting_of_basis` | propext, Classical.choice, Quot.sound |
| C42 | `GA.C42_commuting_of_constant` | propext, Classical.choice, Quot.sound |
| C42 | `GA.C42_mul` | propext, Classical.choice, Quot.sound |
| C42 | `GA.C42_mul_left` | propext, Classical.choice, Quot.sound |
| C42 | `GA.C42_mv_mul` | propext, Classical.choice, Quot.sound |
| C42 | `GA.C42_mul_mv` | propext, Classical.choice, Quot.sound |
| C42 | `GA.C42_add` | propext, Classical.choice, Quot.sound |
| C42 | `GA.C42_add_left` | propext, Classical.choice, Quot.sound |
| C42 | `GA.C42_add_mv` | propext, Classical.choice, Quot.sound |
| C42 | `GA.C42_eq_sound` | propext, Classical.choice, Quot.sound |
| C42 | `GA.C42_incompatible_raises` | propext, Classical.choice, Quot.sound |
| C42 | `GA.C42_curved_counterexample` | propext, Classical.choice, Quot.sound |
| C42 | `GA.C42_mul_scalar` | propext, Classical.choice, Quot.sound |
| C42 | `GA.C42_mul_scalar_left` | propext, Classical.choice, Quot.sound |
| C43 | `GA.C43_add` | propext, Classical.choice, Quot.sound |
| C43 | `GA.C43_smul` | propext, Classical.choice, Quot.sound |
| C43 | `GA.C43_wedge` | propext, Classical.choice, Quot.sound |
| C43 | `GA.C43_vector` | propext, Classical.choice, Quot.sound |
| C43 | `GA.C43_scalar` | propext, Classical.choice, Quot.sound |
| C43 | `GA.C43_grade` | propext, Classical.choice, Quot.sound |
| C43 | `GA.C43_blade_derivation` | propext, Classical.choice, Quot.sound |
| C43 | `GA.C43_orders` | propext, Classical.choice, Quot.sound |
| C43 | `GA.C43_not_a_coordinate_raises` | propext, Classical.choice, Quot.sound |
| C44 | `GA.C44_metric_partial` | propext, Classical.choice, Quot.sound |
| C44 | `GA.C44_metric_counterexample` | propext, Classical.choice, Quot.sound |
| C44 | `GA.C44_first_kind` | propext, Classical.choice, Quot.sound |
| C44 | `GA.C44_unique` | propext, Classical.choice, Quot.sound |
| C44 | `GA.C44_none` | propext, Classical.choice, Quot.sound |
| C44 | `GA.C44_second_kind` | propext, Classical.choice, Quot.sound |
| C44 | `GA.C44_derivatives` | propext, Classical.choice, Quot.sound |
| C44 | `GA.C44_normalized_counterexample` | propext, Classical.choice, Quot.sound |
| C45 | `GA.C45_accepts` | propext, Quot.sound |
| C45 | `GA.C45_wrong_length` | propext, Quot.sound |
| C45 | `GA.C45_vector_map_counterexample` | propext, Quot.sound |
| C45 | `GA.C45_pullback` | propext, Classical.choice, Quot.sound |
| C45 | `GA.C45_symmetric` | propext, Classical.choice, Quot.sound |
| C45 | `GA.C45_positive` | propext, Classical.choice, Quot.sound |
| C45 | `GA.C45_inner_product` | propext, Classical.choice, Quot.sound |
| C45 | `GA.C45_point_partial` | propext, Classical.choice, Quot.sound |
| C45 | `GA.C45_shared_coordinates_counterexample` | propext, Classical.choice, Quot.sound |
| C45 | `GA.C45_chain` | propext, Classical.choice, Quot.sound |
| C46 | `GA.C46_identity` | propext, Classical.choice, Quot.sound |
| C46 | `GA.C46_mixing` | propext, Classical.choice, Quot.sound |
| C47 | `GA.C47_cl` | propext, Classical.choice, Quot.sound |
| C47 | `GA.C47_kingdon_partial` | propext, Classical.choice, Quot.sound |
| C47 | `GA.C47_kingdon_counterexample` | propext, Classical.choice, Quot.sound |
| C47 | `GA.C47_numbering_counterexample` | propext |
| C48 | `GA.C48_grades` | propext, Classical.choice, Quot.sound |
| C48 | `GA.C48_terms` | propext, Classical.choice, Quot.sound |
| C48 | `GA.C48_grade_too_large` | propext, Classical.choice, Quot.sound |
| C48 | `GA.C48_distinct_iff` | propext, Classical.choice, Quot.sound |
| C48 | `GA.C48_distinct_partial` | propext, Classical.choice, Quot.sound |
| C48 | `GA.C48_equal_length` | propext, Quot.sound |
| C48 | `GA.C48_default_numbers` | propext, Classical.choice, Quot.sound |
| C48 | `GA.C48_generic` | propext, Classical.choice, Quot.sound |
| C48 | `GA.C48_collision_counterexample` | propext, Classical.choice, Quot.sound |
| C48 | `GA.C48_twelve_counterexample` | propext, Classical.choice, Quot.sound |
| C49 | `GA.C49_only_parentheses_partial` | propext, Classical.choice, Quot.sound |
| C49 | `GA.C49_raises_counterexample` | propext, Classical.choice, Quot.sound |
| C49 | `GA.C49_value_counterexample` | propext, Classical.choice, Quot.sound |
| C49 | `GA.C49_chain_counterexample` | propext, Classical.choice, Quot.sound |
| C49 | `GA.C49_grouping_partial` | propext, Classical.choice, Quot.sound |
| C49 | `GA.C49_balanced_partial` | propext, Classical.choice, Quot.sound |
| C49 | `GA.C49_unbalanced_counterexample` | propext, Classical.choice, Quot.sound |
| C49 | `GA.C49_minus_partial` | propext, Classical.choice, Quot.sound |
| C49 | `GA.C49_zero_minus` | propext, Classical.choice, Quot.sound |
| C49 | `GA.C49_precedence_partial` | propext, Classical.choice, Quot.sound |
| C49 | `GA.C49_meaning_partial` | propext, Classical.choice, Quot.sound |
| C49 | `GA.C49_repeat_counterexample` | propext, Classical.choice, Quot.sound |
| C49 | `GA.C49_chain_meaning_counterexample` | propext, Classical.choice, Quot.sound |
| C50 | `GA.C50_questions_partial` | propext, Classical.choice, Quot.sound |
| C50 | `GA.C50_repeat_partial` | propext, Classical.choice, Quot.sound |
| C50 | `GA.C50_questions_keep_value` | propext, Classical.choice, Quot.sound |
| C50 | `GA.C50_set_coef_value` | propext, Classical.choice, Quot.sound |
| C50 | `GA.C50_direct_tests` | propext, Classical.choice, Quot.sound |
| C50 | `GA.C50_set_coef_counterexample` | propext, Classical.choice, Quot.sound |
| C51 | `GA.C51_first_call_partial` | propext, Classical.choice, Quot.sound |
| C51 | `GA.C51_repeat_counterexample` | propext, Classical.choice, Quot.sound |
| C51 | `GA.C51_blade_derivation` | propext, Classical.choice, Quot.sound |
| C51 | `GA.C51_value` | propext, Classical.choice, Quot.sound |
| C52 | `GA.C52_value_partial` | propext, Classical.choice, Quot.sound |
| C52 | `GA.C52_complete_partial` | propext, Classical.choice, Quot.sound |
| C52 | `GA.C52_documented_counterexample` | propext, Classical.choice, Quot.sound |
| C53 | `GA.C53_defined` | propext, Classical.choice, Quot.sound |
| C53 | `GA.C53_laws` | propext, Classical.choice, Quot.sound |
| C53 | `GA.C53_components` | propext, Classical.choice, Quot.sound |
| C53 | `GA.C53_triple` | propext, Classical.choice, Quot.sound |
| C53 | `GA.C53_double` | propext, Classical.choice, Quot.sound |
| C53 | `GA.C53_lagrange` | propext, Classical.choice, Quot.sound |
| C53 | `GA.C53_jacobi` | propext, Classical.choice, Quot.sound |
| C54 | `GA.C54_append` | propext, Classical.choice, Quot.sound |
| C54 | `GA.C54_norm` | propext, Classical.choice, Quot.sound |
| C54 | `GA.C54_square` | propext, Classical.choice, Quot.sound |
| C54 | `GA.C54_defined` | propext, Classical.choice, Quot.sound |
| C54 | `GA.C54_frame` | propext, Classical.choice, Quot.sound |
| C54 | `GA.C54_expansion` | propext, Classical.choice, Quot.sound |
| C54 | `GA.C54_twice` | propext, Classical.choice, Quot.sound |
| C54 | `GA.C54_independent` | propext, Classical.choice, Quot.sound |
| C55 | `GA.C55_blade_reduce` | propext, Classical.choice, Quot.sound |
| C55 | `GA.C55_sorting_permutation_exists` | propext, Classical.choice, Quot.sound |
| C55 | `GA.C55_blade_reduce_concat` | propext, Classical.choice, Quot.sound |
| C56 | `GA.C56_single_row` | propext, Quot.sound |
| C56 | `GA.C56_rows` | propext, Quot.sound |
| C56 | `GA.C56_accepted_only` | propext, Classical.choice, Quot.sound |
| C56 | `GA.C56_symmetric` | propext, Quot.sound |
| C56 | `GA.C56_default` | propext, Quot.sound |
| C56 | `GA.C56_asymmetric_accepted` | propext, Classical.choice, Quot.sound |
| C56 | `GA.C56_dimension_zero_counterexample` | propext, Quot.sound |
| C56 | `GA.C56_general_metric_counterexample` | propext |
| C57 | `GA.C57_reciprocal_blades` | propext, Classical.choice, Quot.sound |
| C58 | `GA.C58_isometry` | propext, Classical.choice, Quot.sound |
| C58 | `GA.C58_versor` | propext, Classical.choice, Quot.sound |
| C58 | `GA.C58_versor_isometry` | propext, Classical.choice, Quot.sound |
| C58 | `GA.C58_sandwich` | propext, Classical.choice, Quot.sound |
| C58 | `GA.C58_versor_returns` | propext, Classical.choice, Quot.sound |
| C59 | `GA.C59_mul` | propext, Classical.choice, Quot.sound |
| C59 | `GA.C59_inner` | propext, Classical.choice, Quot.sound |
| C60 | `GA.C60_vpds` | propext, Classical.choice, Quot.sound |
| C60 | `GA.C60_exists` | propext, Classical.choice, Quot.sound |
| C60 | `GA.C60_reciprocal` | propext, Classical.choice, Quot.sound |
| C60 | `GA.C60_scalar_field` | propext, Classical.choice, Quot.sound |
| C60 | `GA.C60_scalar_mul` | propext, Classical.choice, Quot.sound |
| C60 | `GA.C60_add` | propext, Classical.choice, Quot.sound |
| C60 | `GA.C60_split` | propext, Classical.choice, Quot.sound |
| C60 | `GA.C60_rgrad` | propext, Classical.choice, Quot.sound |
| C60 | `GA.C60_curl_curl` | propext, Classical.choice, Quot.sound |
| C60 | `GA.C60_curl_grad` | propext, Classical.choice, Quot.sound |
| C60 | `GA.C60_directional` | propext, Classical.choice, Quot.sound |
| C60 | `GA.C60_directional_product` | propext, Classical.choice, Quot.sound |
| C60 | `GA.C60_directional_grade` | propext, Classical.choice, Quot.sound |
| C60 | `GA.C60_curl_values` | propext, Classical.choice, Quot.sound |
| C60 | `GA.C60_curl_product` | propext, Classical.choice, Quot.sound |
| C60 | `GA.C60_grad_dot` | propext, Classical.choice, Quot.sound |
| C60 | `GA.C60_bracket` | propext, Classical.choice, Quot.sound |
| C61 | `GA.C61_pure` | propext, Classical.choice, Quot.sound |
| C61 | `GA.C61_zero` | propext, Classical.choice, Quot.sound |
| C61 | `GA.C61_mixed_partial` | propext, Classical.choice, Quot.sound |
| C61 | `GA.C61_mixed_counterexample` | propext, Classical.choice, Quot.sound |
| C62 | `GA.C62_entry` | propext, Classical.choice, Quot.sound |
| C62 | `GA.C62_symmetric` | propext, Classical.choice, Quot.sound |
| C62 | `GA.C62_positive` | propext, Classical.choice, Quot.sound |
| C62 | `GA.C62_dot_orthogonal` | propext, Classical.choice, Quot.sound |
| C63 | `GA.C63_call_partial` | propext, Classical.choice, Quot.sound |
| C63 | `GA.C63_call_factor` | propext, Classical.choice, Quot.sound |
| C63 | `GA.C63_vector` | propext, Classical.choice, Quot.sound |
| C63 | `GA.C63_lt` | propext, Classical.choice, Quot.sound |
| C63 | `GA.C63_generic_partial` | propext, Classical.choice, Quot.sound |
| C63 | `GA.C63_function` | propext, Classical.choice, Quot.sound |
| C63 | `GA.C63_add` | propext, Classical.choice, Quot.sound |
| C63 | `GA.C63_sub` | propext, Classical.choice, Quot.sound |
| C63 | `GA.C63_smul` | propext, Classical.choice, Quot.sound |
| C63 | `GA.C63_mul_partial` | propext, Classical.choice, Quot.sound |
| C63 | `GA.C63_multilinear_partial` | propext, Classical.choice, Quot.sound |
| C63 | `GA.C63_nonorthogonal_counterexample` | propext, Classical.choice, Quot.sound |
| C63 | `GA.C63_generic_counterexample` | propext, Classical.choice, Quot.sound |
| C63 | `GA.C63_generic_call_counterexample` | propext, Classical.choice, Quot.sound |
| C64 | `GA.C64_pdiff_counterexample` | propext, Classical.choice, Quot.sound |
| C64 | `GA.C64_contract_counterexample` | propext, Classical.choice, Quot.sound |
| C64 | `GA.C64_remove_slot` | propext, Classical.choice, Quot.sound |
| C64 | `GA.C64_cderiv_partial` | propext, Classical.choice, Quot.sound |
| C64 | `GA.C64_history_partial` | propext, Classical.choice, Quot.sound |
| C64 | `GA.C64_history_counterexample` | propext, Classical.choice, Quot.sound |
| C64 | `GA.C64_cderiv_connection_partial` | propext, Classical.choice, Quot.sound |
| C64 | `GA.C64_cderiv_metric` | propext, Classical.choice, Quot.sound |
| C64 | `GA.C64_tensor_partial` | propext, Classical.choice, Quot.sound |
| C64 | `GA.C64_cderiv_factor` | propext, Classical.choice, Quot.sound |
| C64 | `GA.C64_nonorthogonal_counterexample` | propext, Classical.choice, Quot.sound |
| C65 | `GA.C65_coefs_unique` | propext, Classical.choice, Quot.sound |
| C65 | `GA.C65_blade_coefs` | propext, Classical.choice, Quot.sound |
| C65 | `GA.C65_list` | propext, Classical.choice, Quot.sound |
| C65 | `GA.C65_blade_coefs_rejects` | propext, Classical.choice, Quot.sound |
| C65 | `GA.C65_get_coefs` | propext, Classical.choice, Quot.sound |
| C65 | `GA.C65_proj` | propext, Classical.choice, Quot.sound |
| C65 | `GA.C65_components` | propext, Classical.choice, Quot.sound |
| C65 | `GA.C65_components_sum` | propext, Classical.choice, Quot.sound |
| C65 | `GA.C65_subs` | propext, Classical.choice, Quot.sound |
| C65 | `GA.C65_simplify` | propext, Classical.choice, Quot.sound |
| C65 | `GA.C65_simplify_eq` | propext, Classical.choice, Quot.sound |
| C65 | `GA.C65_collect` | propext, Classical.choice, Quot.sound |
| C65 | `GA.C65_base_rep_counterexample` | propext, Classical.choice, Quot.sound |
| C66 | `GA.C66_hash_partial` | propext, Classical.choice, Quot.sound |
| C66 | `GA.C66_scalar` | propext, Classical.choice, Quot.sound |
| C66 | `GA.C66_base_rep_counterexample` | propext, Classical.choice, Quot.sound |
| C67 | `GA.C67_coordinate_partial` | propext, Classical.choice, Quot.sound |
| C67 | `GA.C67_connection_counterexample` | propext, Classical.choice, Quot.sound |
| C67 | `GA.C67_parameter_partial` | propext, Classical.choice, Quot.sound |
| C67 | `GA.C67_parametric_accepts` | propext, Quot.sound |
| C67 | `GA.C67_parametric` | propext, Classical.choice, Quot.sound |
| C67 | `GA.C67_parameter_counterexample` | propext, Classical.choice, Quot.sound |
| C68 | `GA.C68_orthogonal` | propext, Classical.choice, Quot.sound |
| C68 | `GA.C68_nondegenerate` | propext, Classical.choice, Quot.sound |
| C68 | `GA.C68_hint` | propext, Classical.choice, Quot.sound |
| C68 | `GA.C68_sign` | propext, Classical.choice, Quot.sound |
| C68 | `GA.C68_orthogonal_not_computed` | propext, Quot.sound |
| C68 | `GA.C68_degenerate_counterexample` | propext, Classical.choice, Quot.sound |
| C68 | `GA.C68_hint_counterexample` | propext, Classical.choice, Quot.sound |
| C68 | `GA.C68_negative_hint_counterexample` | propext, Classical.choice, Quot.sound |
| C69 | `GA.C69_lengths` | propext, Classical.choice, Quot.sound |
| C69 | `GA.C69_unnormalised` | propext, Quot.sound |
| C69 | `GA.C69_normalised` | propext, Classical.choice, Quot.sound |
| C69 | `GA.C69_same_space` | propext, Classical.choice, Quot.sound |
| C69 | `GA.C69_length_sign_counterexample` | propext, Classical.choice, Quot.sound |
| C70 | `GA.C70_exists` | propext, Classical.choice, Quot.sound |
| C70 | `GA.C70_vector_product` | propext, Classical.choice, Quot.sound |
| C70 | `GA.C70_left_acting` | propext, Classical.choice, Quot.sound |
| C70 | `GA.C70_vector_outer` | propext, Classical.choice, Quot.sound |
| C70 | `GA.C70_vector_inner` | propext, Classical.choice, Quot.sound |
| C70 | `GA.C70_square` | propext, Classical.choice, Quot.sound |
| C70 | `GA.C70_scalar_product` | propext, Classical.choice, Quot.sound |
| C70 | `GA.C70_scalar_product_grade` | propext, Classical.choice, Quot.sound |
| C70 | `GA.C70_gradient` | propext, Classical.choice, Quot.sound |
| C70 | `GA.C70_connection_counterexample` | propext, Classical.choice, Quot.sound |
| C71 | `GA.C71_of_sdops` | propext, Classical.choice, Quot.sound |
| C71 | `GA.C71_of_sdops_left` | propext, Classical.choice, Quot.sound |
| C71 | `GA.C71_components_partial` | propext, Classical.choice, Quot.sound |
| C71 | `GA.C71_is_scalar` | propext, Classical.choice, Quot.sound |
| C71 | `GA.C71_left_counterexample` | propext, Classical.choice, Quot.sound |
| C72 | `GA.C72_general` | propext, Quot.sound |
| C72 | `GA.C72_symmetric` | propext, Classical.choice, Quot.sound |
| C72 | `GA.C72_antisymmetric` | propext, Classical.choice, Quot.sound |
| C72 | `GA.C72_errors` | propext, Classical.choice, Quot.sound |
| C72 | `GA.C72_general_all` | propext, Classical.choice, Quot.sound |
| C72 | `GA.C72_symmetric_all` | propext, Classical.choice, Quot.sound |
| C72 | `GA.C72_antisymmetric_all` | propext, Classical.choice, Quot.sound |
| C72 | `GA.C72_brace_counterexample` | propext, Classical.choice, Quot.sound |
| C72 | `GA.C72_lt_general` | propext, Classical.choice, Quot.sound |
| C72 | `GA.C72_lt_symmetric` | propext, Classical.choice, Quot.sound |
| C72 | `GA.C72_lt_antisymmetric` | propext, Classical.choice, Quot.sound |
| C72 | `GA.C72_mode_partial` | propext, Classical.choice, Quot.sound |
| C72 | `GA.C72_mode_antisymmetric_partial` | propext, Classical.choice, Quot.sound |
| C72 | `GA.C72_mode_counterexample` | propext, Classical.choice, Quot.sound |
| C73 | `GA.C73_scalar_right` | propext, Classical.choice, Quot.sound |
| C73 | `GA.C73_scalar_left` | propext, Classical.choice, Quot.sound |
| C73 | `GA.C73_base_rep_counterexample` | propext, Classical.choice, Quot.sound |
| C73 | `GA.C73_divide` | propext, Classical.choice, Quot.sound |
| C74 | `GA.C74_text` | propext, Classical.choice, Quot.sound |
| C74 | `GA.C74_same` | propext, Classical.choice, Quot.sound |
| C75 | `GA.C75_wedge` | propext, Quot.sound |
| C75 | `GA.C75_base` | propext, Quot.sound |
| C75 | `GA.C75_no_wedge_returns_iff` | propext, Classical.choice, Quot.sound |
| C75 | `GA.C75_no_wedge_partial` | propext, Classical.choice, Quot.sound |
| C75 | `GA.C75_bases_dict_iff` | propext, Classical.choice, Quot.sound |
| C75 | `GA.C75_bases_dict_partial` | propext, Classical.choice, Quot.sound |
| C75 | `GA.C75_bases_dict_no_wedge_iff` | propext, Classical.choice, Quot.sound |
| C75 | `GA.C75_bases_dict_no_wedge_partial` | propext, Classical.choice, Quot.sound |
| C75 | `GA.C75_numbered` | propext, Classical.choice, Quot.sound |
| C75 | `GA.C75_twelve_counterexample` | propext, Classical.choice, Quot.sound |
| C75 | `GA.C75_letters_counterexample` | propext, Classical.choice, Quot.sound |
| C76 | `GA.Capture.C76_capture_partial` | propext, Quot.sound |
| C76 | `GA.Capture.C76_hidden` | propext, Quot.sound |
| C76 | `GA.Capture.C76_tex_without_format` | propext, Quot.sound |
| C76 | `GA.Capture.C76_second_tex_raises` | propext, Quot.sound |
| C76 | `GA.Capture.C76_repeated_text` | propext, Quot.sound |
| C76 | `GA.Capture.C76_nested_counterexample` | propext, Quot.sound |
| C77 | `GA.Tex.C77_readable` | propext, Classical.choice, Quot.sound |
| C77 | `GA.Tex.C77_operators` | propext, Classical.choice, Quot.sound |
| C77 | `GA.Tex.C77_no_operator_left` | propext, Classical.choice, Quot.sound |
| C77 | `GA.Tex.C77_each_line` | propext, Classical.choice, Quot.sound |
| C77 | `GA.Tex.C77_verbatim` | propext, Classical.choice, Quot.sound |
| C77 | `GA.Tex.C77_raw` | propext, Classical.choice, Quot.sound |
| C77 | `GA.Tex.C77_unconverted` | propext, Classical.choice, Quot.sound |
| C77 | `GA.Tex.C77_equation` | propext, Classical.choice, Quot.sound |
| C77 | `GA.Tex.C77_no_equation` | propext, Classical.choice, Quot.sound |
| C77 | `GA.Tex.C77_align_counterexample` | propext, Classical.choice, Quot.sound |
| C77 | `GA.Tex.C77_empty_lines_counterexample` | propext, Classical.choice, Quot.sound |
| C78 | `GA.Heap.C78_construct` | propext, Classical.choice, Quot.sound |
| C78 | `GA.Heap.C78_lists` | propext, Classical.choice, Quot.sound |
| C78 | `GA.Heap.C78_argument_partial` | propext, Classical.choice, Quot.sound |
| C78 | `GA.Heap.C78_matrix_partial` | propext, Classical.choice, Quot.sound |
| C78 | `GA.Heap.C78_norm_counterexample` | propext, Classical.choice, Quot.sound |
| C78 | `GA.Heap.C78_assign_counterexample` | propext, Classical.choice, Quot.sound |
| C78 | `GA.Heap.C78_immutable_counterexample` | propext, Classical.choice, Quot.sound |
| C78 | `GA.Heap.C78_again_counterexample` | propext, Classical.choice, Quot.sound |
| C79 | `GA.C79_partial_text` | propext, Quot.sound |
| C79 | `GA.C79_partial_injective` | propext, Classical.choice, Quot.sound |
| C79 | `GA.C79_order_zero_counterexample` | propext, Quot.sound |
| C79 | `GA.C79_scalar_text` | propext, Classical.choice, Quot.sound |
| C79 | `GA.C79_scalar_latex` | propext, Classical.choice, Quot.sound |
| C79 | `GA.C79_latex_canonical` | propext, Classical.choice, Quot.sound |
| C79 | `GA.C79_canonical_counterexample` | propext, Classical.choice, Quot.sound |
| C79 | `GA.C79_text` | propext, Classical.choice, Quot.sound |
| C79 | `GA.C79_latex_partial` | propext, Classical.choice, Quot.sound |
| C79 | `GA.C79_latex_counterexample` | propext, Classical.choice, Quot.sound |
| C80 | `GA.C80_latex` | propext, Classical.choice, Quot.sound |
| C80 | `GA.C80_tokens` | propext, Classical.choice, Quot.sound |
| C80 | `GA.C80_same` | propext, Classical.choice, Quot.sound |
| C81 | `GA.C81_text` | propext, Classical.choice, Quot.sound |
| C81 | `GA.C81_no_leak` | propext, Classical.choice, Quot.sound |
| C81 | `GA.C81_object_format` | propext, Classical.choice, Quot.sound |
| C81 | `GA.C81_global_format` | propext, Classical.choice, Quot.sound |
| C81 | `GA.C81_enhance_none` | propext, Classical.choice, Quot.sound |
| C81 | `GA.C81_colour_counterexample` | propext, Classical.choice, Quot.sound |
| C81 | `GA.C81_object_layout` | propext, Classical.choice, Quot.sound |
| C81 | `GA.C81_global_layout` | propext, Classical.choice, Quot.sound |
| C81 | `GA.C81_latex_list_partial` | propext, Classical.choice, Quot.sound |
| C81 | `GA.C81_latex_list_counterexample` | propext, Classical.choice, Quot.sound |
| C81 | `GA.C81_string_format_counterexample` | propext |
| C82 | `GA.C82_symbols_list` | propext, Classical.choice, Quot.sound |
| C82 | `GA.C82_unambiguous` | propext, Classical.choice, Quot.sound |
| C82 | `GA.C82_basis` | propext, Classical.choice, Quot.sound |
| C82 | `GA.C82_root` | propext, Quot.sound |
| C82 | `GA.C82_single_index` | propext, Quot.sound |
| C83 | `GA.C83_names_partial` | propext, Classical.choice, Quot.sound |
| C83 | `GA.C83_orthogonal_partial` | propext, Classical.choice, Quot.sound |
| C83 | `GA.C83_connection_partial` | propext, Classical.choice, Quot.sound |
| C83 | `GA.C83_plain_names_counterexample` | propext, Classical.choice, Quot.sound |
| C83 | `GA.C83_norm_counterexample` | propext, Classical.choice, Quot.sound |
| C84 | `GA.C84_components_partial` | propext, Classical.choice, Quot.sound |
| C84 | `GA.C84_zero_counterexample` | propext, Classical.choice, Quot.sound |
| C84 | `GA.C84_product_counterexample` | propext, Classical.choice, Quot.sound |
| C84 | `GA.C84_text_partial` | propext, Classical.choice, Quot.sound |
| C84 | `GA.C84_latex_partial` | propext, Classical.choice, Quot.sound |
| C84 | `GA.C84_control_word_counterexample` | propext, Classical.choice, Quot.sound |
| C84 | `GA.C84_no_terms_on_a_line` | propext, Classical.choice, Quot.sound |
| C85 | `GA.C85_subs_coefs` | propext, Quot.sound |
| C85 | `GA.C85_calculation` | propext, Classical.choice, Quot.sound |
| C85 | `GA.C85_terms` | propext, Classical.choice, Quot.sound |
| C85 | `GA.C85_same_algebra` | propext, Classical.choice, Quot.sound |
| C85 | `GA.C85_identity` | propext, Classical.choice, Quot.sound |
| C85 | `GA.C85_identity_converse` | propext, Classical.choice, Quot.sound |
| C86 | `GA.C86_result` | propext, Classical.choice, Quot.sound |
| C86 | `GA.C86_simplify` | propext, Classical.choice, Quot.sound |
| C86 | `GA.C86_simp_apply` | propext, Classical.choice, Quot.sound |
| C86 | `GA.C86_eq_sound` | propext, Classical.choice, Quot.sound |
| C86 | `GA.C86_eq_complete` | propext, Classical.choice, Quot.sound |
| C86 | `GA.C86_incomplete_counterexample` | propext, Classical.choice, Quot.sound |
| C86 | `GA.C86_scalar_counterexample` | propext, Classical.choice, Quot.sound |
| C86 | `GA.C86_hash_counterexample` | propext, Classical.choice, Quot.sound |
| C87 | `GA.C87_names` | propext, Classical.choice, Quot.sound |
| C87 | `GA.C87_coeffs` | propext, Classical.choice, Quot.sound |
| C87 | `GA.C87_coeffs_errors` | propext, Classical.choice, Quot.sound |
| C87 | `GA.C87_names_errors` | propext, Classical.choice, Quot.sound |
| C87 | `GA.C87_values` | propext, Classical.choice, Quot.sound |
| C87 | `GA.C87_unknown_category` | propext, Classical.choice, Quot.sound |
| C87 | `GA.C87_needs_name` | propext, Classical.choice, Quot.sound |
| C87 | `GA.C87_negative_grade` | propext, Classical.choice, Quot.sound |
| C87 | `GA.C87_scalar_keyword_counterexample` | propext, Classical.choice, Quot.sound |
| C87 | `GA.C87_basis` | propext, Classical.choice, Quot.sound |
| C87 | `GA.C87_single` | propext, Classical.choice, Quot.sound |
| C87 | `GA.C87_several` | propext, Classical.choice, Quot.sound |
| C87 | `GA.C87_several_kinds` | propext, Classical.choice, Quot.sound |
| C87 | `GA.C87_several_grade_counterexample` | propext, Quot.sound |
| C88 | `GA.C88_div_wedge` | propext, Classical.choice, Quot.sound |
| C88 | `GA.C88_laplacian_product` | propext, Classical.choice, Quot.sound |
| C88 | `GA.C88_div` | propext, Classical.choice, Quot.sound |
| C88 | `GA.C88_div_root` | propext, Classical.choice, Quot.sound |
| C88 | `GA.C88_laplacian` | propext, Classical.choice, Quot.sound |
| C88 | `GA.C88_div_div` | propext, Classical.choice, Quot.sound |
| C88 | `GA.C88_laplacian_split` | propext, Classical.choice, Quot.sound |
| C89 | `GA.C89_name_partial` | propext, Classical.choice, Quot.sound |
| C89 | `GA.C89_name_injective_partial` | propext, Classical.choice, Quot.sound |
| C89 | `GA.C89_control_word_partial` | propext, Classical.choice, Quot.sound |
| C89 | `GA.C89_symbol_partial` | propext, Classical.choice, Quot.sound |
| C89 | `GA.C89_derivative_flat` | propext, Classical.choice, Quot.sound |
| C89 | `GA.C89_derivative_fraction` | propext, Classical.choice, Quot.sound |
| C89 | `GA.C89_plain_partial` | propext, Classical.choice, Quot.sound |
| C89 | `GA.C89_plain_counterexample` | propext, Classical.choice, Quot.sound |
| C89 | `GA.C89_ten_glyphs_counterexample` | propext, Classical.choice, Quot.sound |
| C89 | `GA.C89_control_word_counterexample` | propext, Classical.choice, Quot.sound |
| C89 | `GA.C89_capital_counterexample` | propext, Classical.choice, Quot.sound |
| C90 | `GA.C90_symmetric` | propext, Classical.choice, Quot.sound |
| C90 | `GA.C90_calculation` | propext, Classical.choice, Quot.sound |
| C90 | `GA.C90_terms` | propext, Classical.choice, Quot.sound |
| C90 | `GA.C90_scalar` | propext, Classical.choice, Quot.sound |
| C90 | `GA.C90_equation` | propext, Classical.choice, Quot.sound |
| C90 | `GA.C90_equation_iff` | propext, Classical.choice, Quot.sound |
| C90 | `GA.C90_selected_metric` | propext, Classical.choice, Quot.sound |
| C90 | `GA.C90_normalised_metric` | propext, Classical.choice, Quot.sound |
| C90 | `GA.C90_submanifold_metric` | propext, Classical.choice, Quot.sound |
| C90 | `GA.C90_submanifold` | propext, Classical.choice, Quot.sound |
| C90 | `GA.C90_dependent` | propext, Classical.choice, Quot.sound |
| C91 | `GA.GPrint.C91_escape` | propext |
| C91 | `GA.GPrint.C91_latex` | propext, Classical.choice, Quot.sound |
| C91 | `GA.GPrint.C91_plain_partial` | propext, Classical.choice, Quot.sound |
| C91 | `GA.GPrint.C91_notebook_partial` | propext, Classical.choice, Quot.sound |
| C91 | `GA.GPrint.C91_flag` | propext, Classical.choice, Quot.sound |
| C91 | `GA.GPrint.C91_document` | propext, Classical.choice, Quot.sound |
| C91 | `GA.GPrint.C91_names_partial` | propext, Classical.choice, Quot.sound |
| C91 | `GA.GPrint.C91_header` | propext, Classical.choice, Quot.sound |
| C91 | `GA.GPrint.C91_commands` | propext, Classical.choice, Quot.sound |
| C91 | `GA.GPrint.C91_percent_object_counterexample` | propext, Classical.choice, Quot.sound |
| C91 | `GA.GPrint.C91_percent_counterexample` | propext, Classical.choice, Quot.sound |
| C91 | `GA.GPrint.C91_percent_sure_counterexample` | propext, Classical.choice, Quot.sound |
| C91 | `GA.GPrint.C91_plain_counterexample` | propext, Classical.choice, Quot.sound |
| C91 | `GA.GPrint.C91_notebook_counterexample` | propext, Classical.choice, Quot.sound |
| C91 | `GA.GPrint.C91_failed_write_counterexample` | propext, Classical.choice, Quot.sound |
| C91 | `GA.GPrint.C91_names_counterexample` | propext, Classical.choice, Quot.sound |
| C91 | `GA.GPrint.C91_remove_counterexample` | propext, Classical.choice, Quot.sound |
| C92 | `GA.FmtList.C92_row_partial` | propext, Classical.choice, Quot.sound |
| C92 | `GA.FmtList.C92_column_partial` | propext, Classical.choice, Quot.sound |
| C92 | `GA.FmtList.C92_cells` | propext, Classical.choice, Quot.sound |
| C92 | `GA.FmtList.C92_dict_lines` | propext, Classical.choice, Quot.sound |
| C92 | `GA.FmtList.C92_empty_counterexample` | propext, Classical.choice, Quot.sound |
| C92 | `GA.FmtList.C92_one_counterexample` | propext, Classical.choice, Quot.sound |
| C92 | `GA.FmtList.C92_dict_counterexample` | propext, Classical.choice, Quot.sound |
| C92 | `GA.FmtList.C92_oprint` | propext, Classical.choice, Quot.sound |
| C92 | `GA.FmtList.C92_last_title_counterexample` | propext, Classical.choice, Quot.sound |
| C92 | `GA.FmtList.C92_untitled` | propext, Classical.choice, Quot.sound |
| C93 | `GA.C93_mul` | propext, Classical.choice, Quot.sound |
| C93 | `GA.C93_add` | propext, Classical.choice, Quot.sound |
| C93 | `GA.C93_sub` | propext, Classical.choice, Quot.sound |
| C93 | `GA.C93_addable` | propext, Classical.choice, Quot.sound |
| C93 | `GA.C93_mul_defined` | propext, Classical.choice, Quot.sound |
| C93 | `GA.C93_left` | propext, Classical.choice, Quot.sound |
| C93 | `GA.C93_outer` | propext, Classical.choice, Quot.sound |
| C93 | `GA.C93_number_right` | propext, Classical.choice, Quot.sound |
| C93 | `GA.C93_number_left` | propext, Classical.choice, Quot.sound |
| C93 | `GA.C93_contraction_counterexample` | propext, Classical.choice, Quot.sound |
| C93 | `GA.C93_sides_counterexample` | propext, Classical.choice, Quot.sound |
| C94 | `GA.C94_value_partial` | propext, Classical.choice, Quot.sound |
| C94 | `GA.C94_minus_partial` | propext, Classical.choice, Quot.sound |
| C94 | `GA.C94_legal` | propext, Classical.choice, Quot.sound |
| C94 | `GA.C94_illegal` | propext, Classical.choice, Quot.sound |
| C94 | `GA.C94_pure` | propext, Classical.choice, Quot.sound |
| C94 | `GA.C94_unset` | propext, Classical.choice, Quot.sound |
| C94 | `GA.C94_integers_counterexample` | propext, Classical.choice, Quot.sound |
| C95 | `GA.C95_script` | propext, Classical.choice, Quot.sound |
| C95 | `GA.C95_square` | propext, Classical.choice, Quot.sound |
| C95 | `GA.C95_script_dual` | propext, Classical.choice, Quot.sound |
| C95 | `GA.C95_script_real` | propext, Classical.choice, Quot.sound |
| C95 | `GA.C95_dual_reversed` | propext, Classical.choice, Quot.sound |
| C95 | `GA.C95_tests` | propext, Classical.choice, Quot.sound |
| C96 | `GA.C96_program` | propext, Classical.choice, Quot.sound |
| C96 | `GA.C96_chain_rule` | propext, Classical.choice, Quot.sound |
| C96 | `GA.C96_convert` | propext, Classical.choice, Quot.sound |
| C96 | `GA.C96_equal` | propext, Classical.choice, Quot.sound |
| C96 | `GA.C96_scalar` | propext, Classical.choice, Quot.sound |
| C96 | `GA.C96_exists` | propext, Classical.choice, Quot.sound |
| C97 | `GA.C97_series` | propext, Classical.choice, Quot.sound |
| C97 | `GA.C97_flow` | propext, Classical.choice, Quot.sound |
| C97 | `GA.C97_rotation` | propext, Classical.choice, Quot.sound |
| C98 | `GA.C98_flat` | propext, Classical.choice, Quot.sound |
| C98 | `GA.C98_curved` | propext, Classical.choice, Quot.sound |
| C98 | `GA.C98_gradient` | propext, Classical.choice, Quot.sound |
| C98 | `GA.C98_sm_flat` | propext, Classical.choice, Quot.sound |
| C98 | `GA.C98_sm_curved` | propext, Classical.choice, Quot.sound |
| C99 | `GA.C99_kind` | propext, Classical.choice, Quot.sound |
| C99 | `GA.C99_value` | propext, Classical.choice, Quot.sound |
| C99 | `GA.C99_identity` | propext, Classical.choice, Quot.sound |
| C99 | `GA.C99_inverses` | propext, Classical.choice, Quot.sound |
| C99 | `GA.C99_exceptions` | propext, Classical.choice, Quot.sound |
| C100 | `GA.C100_pearson_partial` | propext, Classical.choice, Quot.sound |
| C100 | `GA.C100_range` | propext, Classical.choice, Quot.sound |
| C100 | `GA.C100_affine` | propext, Classical.choice, Quot.sound |
| C100 | `GA.C100_extreme` | propext, Classical.choice, Quot.sound |
| C100 | `GA.C100_row_counterexample` | propext, Classical.choice, Quot.sound |
| C101 | `GA.C101_apply` | propext, Classical.choice, Quot.sound |
| C101 | `GA.C101_exists` | propext, Classical.choice, Quot.sound |
| C101 | `GA.C101_operations` | propext, Classical.choice, Quot.sound |
| C101 | `GA.C101_det` | propext, Classical.choice, Quot.sound |
| C101 | `GA.C101_inverse` | propext, Classical.choice, Quot.sound |
| C101 | `GA.C101_adjoint` | propext, Classical.choice, Quot.sound |
| C101 | `GA.C101_trace` | propext, Classical.choice, Quot.sound |
| C101 | `GA.C101_versor` | propext, Classical.choice, Quot.sound |
| C102 | `GA.C102_read_back_partial` | propext, Classical.choice, Quot.sound |
| C102 | `GA.C102_raises_counterexample` | propext, Classical.choice, Quot.sound |
| C102 | `GA.C102_wrong_counterexample` | propext, Classical.choice, Quot.sound |
| C102 | `GA.C102_power_counterexample` | propext, Classical.choice, Quot.sound |
| C102 | `GA.C102_float_counterexample` | propext, Classical.choice, Quot.sound |
| C103 | `GA.C103_contractions` | propext, Classical.choice, Quot.sound |
| C103 | `GA.C103_reverse` | propext, Classical.choice, Quot.sound |
| C103 | `GA.C103_vector` | propext, Classical.choice, Quot.sound |
| C103 | `GA.C103_antiderivation` | propext, Classical.choice, Quot.sound |
| C103 | `GA.C103_pseudoscalar` | propext, Classical.choice, Quot.sound |
| C103 | `GA.C103_scalar` | propext, Classical.choice, Quot.sound |
| C103 | `GA.C103_gram` | propext, Classical.choice, Quot.sound |
| C103 | `GA.C103_dual` | propext, Classical.choice, Quot.sound |
| C104 | `GA.C104_call_partial` | propext, Classical.choice, Quot.sound |
| C104 | `GA.C104_function` | propext, Classical.choice, Quot.sound |
| C104 | `GA.C104_sum_partial` | propext, Classical.choice, Quot.sound |
| C104 | `GA.C104_sum_error` | propext, Classical.choice, Quot.sound |
| C104 | `GA.C104_product_partial` | propext, Classical.choice, Quot.sound |
| C104 | `GA.C104_product_error` | propext, Classical.choice, Quot.sound |
| C104 | `GA.C104_operand_partial` | propext, Classical.choice, Quot.sound |
| C104 | `GA.C104_multiple_partial` | propext, Classical.choice, Quot.sound |
| C104 | `GA.C104_sum_counterexample` | propext, Classical.choice, Quot.sound |
| C104 | `GA.C104_operand_counterexample` | propext, Classical.choice, Quot.sound |
| C104 | `GA.C104_dd` | propext, Classical.choice, Quot.sound |
| C105 | `GA.C105_pseudoscalar` | propext, Classical.choice, Quot.sound |
| C105 | `GA.C105_diff` | propext, Classical.choice, Quot.sound |
| C105 | `GA.C105_gradient` | propext, Classical.choice, Quot.sound |
| C105 | `GA.C105_div_curl` | propext, Classical.choice, Quot.sound |
| C106 | `GA.C106_metric` | propext, Classical.choice, Quot.sound |
| C106 | `GA.C106_metric_text` | propext |
| C106 | `GA.C106_metric_counterexample` | propext, Classical.choice, Quot.sound |
| C106 | `GA.C106_algebra` | propext, Quot.sound |
| C106 | `GA.C106_attributes` | propext, Quot.sound |
| C106 | `GA.C106_returned` | propext, Quot.sound |
| C106 | `GA.C106_grad_partial` | propext, Quot.sound |
| C106 | `GA.C106_mixing` | propext, Classical.choice, Quot.sound |
| C106 | `GA.C106_setup_metric` | propext |
| C106 | `GA.C106_curv_counterexample` | propext |
| C106 | `GA.C106_grad_counterexample` | propext, Classical.choice, Quot.sound |
| C107 | `GA.C107_versor_complete` | propext, Classical.choice, Quot.sound |
| C107 | `GA.C107_versor_sound_partial` | propext, Classical.choice, Quot.sound |
| C107 | `GA.C107_versor_iff_partial` | propext, Classical.choice, Quot.sound |
| C107 | `GA.C107_reflections` | propext, Classical.choice, Quot.sound |
| C107 | `GA.C107_versor_counterexample` | propext, Classical.choice, Quot.sound |
| C107 | `GA.C107_blade_complete` | propext, Classical.choice, Quot.sound |
| C107 | `GA.C107_blade_sound_partial` | propext, Classical.choice, Quot.sound |
| C107 | `GA.C107_blade_iff_partial` | propext, Classical.choice, Quot.sound |
| C107 | `GA.C107_versor_blade` | propext, Classical.choice, Quot.sound |
| C107 | `GA.C107_blade_counterexample` | propext, Classical.choice, Quot.sound |
| C107 | `GA.C107_versor_mul` | propext, Classical.choice, Quot.sound |
| C107 | `GA.C107_versor_rev` | propext, Classical.choice, Quot.sound |
| C107 | `GA.C107_versor_inv` | propext, Classical.choice, Quot.sound |
| C107 | `GA.C107_versor_qform` | propext, Classical.choice, Quot.sound |
| C107 | `GA.C107_versor_parity` | propext, Classical.choice, Quot.sound |
| C108 | `GA.C108_bilinear` | propext, Classical.choice, Quot.sound |
| C108 | `GA.C108_adjoint` | propext, Classical.choice, Quot.sound |
| C108 | `GA.C108_expand` | propext, Classical.choice, Quot.sound |
| C108 | `GA.C108_vector_split` | propext, Classical.choice, Quot.sound |
| C108 | `GA.C108_versor` | propext, Classical.choice, Quot.sound |
| C108 | `GA.C108_projection` | propext, Classical.choice, Quot.sound |
| C108 | `GA.C108_cauchy_schwarz` | propext, Classical.choice, Quot.sound |
| C108 | `GA.C108_norm` | propext, Classical.choice, Quot.sound |
| C108 | `GA.C108_shorter` | propext, Classical.choice, Quot.sound |
| C108 | `GA.C108_hadamard` | propext, Classical.choice, Quot.sound |
| C108 | `GA.C108_gram` | propext, Classical.choice, Quot.sound |
| C108 | `GA.C108_gram_ne` | propext, Classical.choice, Quot.sound |
| C108 | `GA.C108_volume` | propext, Classical.choice, Quot.sound |
| C108 | `GA.C108_volume_lt` | propext, Classical.choice, Quot.sound |
| C108 | `GA.C108_hadamard_eq` | propext, Classical.choice, Quot.sound |
| C109 | `GA.C109_mul_mode` | propext, Classical.choice, Quot.sound |
| C109 | `GA.C109_dot_mode` | propext, Classical.choice, Quot.sound |
| C109 | `GA.C109_basis_blades` | propext, Classical.choice, Quot.sound |
| C109 | `GA.C109_dot_basis_blades_partial` | propext, Classical.choice, Quot.sound |
| C109 | `GA.C109_non_ortho_dot_basis_blades` | propext, Classical.choice, Quot.sound |
| C109 | `GA.C109_non_ortho_raises` | propext, Classical.choice, Quot.sound |
| C109 | `GA.C109_not_orthogonal_counterexample` | propext, Classical.choice, Quot.sound |
| C110 | `GA.C110_span` | propext, Classical.choice, Quot.sound |
| C110 | `GA.C110_exists` | propext, Classical.choice, Quot.sound |
| C110 | `GA.C110_unique` | propext, Classical.choice, Quot.sound |
| C110 | `GA.C110_subset` | propext, Classical.choice, Quot.sound |
| C110 | `GA.C110_orthogonal` | propext, Classical.choice, Quot.sound |
| C110 | `GA.C110_join` | propext, Classical.choice, Quot.sound |
| C110 | `GA.C110_image` | propext, Classical.choice, Quot.sound |
| C110 | `GA.C110_blade_iff` | propext, Classical.choice, Quot.sound |
| C110 | `GA.C110_qform` | propext, Classical.choice, Quot.sound |
| C110 | `GA.C110_projection` | propext, Classical.choice, Quot.sound |
| C110 | `GA.C110_dual` | propext, Classical.choice, Quot.sound |
| C110 | `GA.C110_meet` | propext, Classical.choice, Quot.sound |
| C110 | `GA.C110_left` | propext, Classical.choice, Quot.sound |
| C110 | `GA.C110_right` | propext, Classical.choice, Quot.sound |
| C110 | `GA.C110_dot` | propext, Classical.choice, Quot.sound |
| C111 | `GA.C111_reflection` | propext, Classical.choice, Quot.sound |
| C111 | `GA.C111_every_isometry` | propext, Classical.choice, Quot.sound |
| C111 | `GA.C111_rotation` | propext, Classical.choice, Quot.sound |
| C111 | `GA.C111_unique` | propext, Classical.choice, Quot.sound |
| C111 | `GA.C111_compose` | propext, Classical.choice, Quot.sound |
| C111 | `GA.C111_det` | propext, Classical.choice, Quot.sound |
| C111 | `GA.C111_adjoint` | propext, Classical.choice, Quot.sound |
| C111 | `GA.C111_subspace` | propext, Classical.choice, Quot.sound |
| C112 | `GA.C112_power_partial` | propext, Classical.choice, Quot.sound |
| C112 | `GA.C112_exponent_partial` | propext, Classical.choice, Quot.sound |
| C112 | `GA.C112_name_counterexample` | propext, Classical.choice, Quot.sound |
| C112 | `GA.C112_cdot_counterexample` | propext, Classical.choice, Quot.sound |
| C112 | `GA.C112_fold_counterexample` | propext, Classical.choice, Quot.sound |
| C112 | `GA.C112_percent_counterexample` | propext, Classical.choice, Quot.sound |
| C112 | `GA.C112_frac_counterexample` | propext, Classical.choice, Quot.sound |
| C112 | `GA.C112_function_partial` | propext, Classical.choice, Quot.sound |
| C112 | `GA.C112_omitted` | propext, Classical.choice, Quot.sound |
| C112 | `GA.C112_folded_partial` | propext, Classical.choice, Quot.sound |
| C112 | `GA.C112_inverse_names` | propext, Classical.choice, Quot.sound |
| C112 | `GA.C112_inverse_power_partial` | propext, Classical.choice, Quot.sound |
| C112 | `GA.C112_function_exponent_partial` | propext, Classical.choice, Quot.sound |
| C112 | `GA.C112_percent_doubled_counterexample` | propext, Classical.choice, Quot.sound |
| C113 | `GA.DopHeap.C113_pdop` | propext |
| C113 | `GA.DopHeap.C113_diff` | propext, Quot.sound |
| C113 | `GA.DopHeap.C113_stable_partial` | propext, Classical.choice, Quot.sound |
| C113 | `GA.DopHeap.C113_own` | propext |
| C113 | `GA.DopHeap.C113_alias_counterexample` | propext, Classical.choice, Quot.sound |
| C113 | `GA.DopHeap.C113_sdop_symbol` | propext, Classical.choice, Quot.sound |
| C113 | `GA.DopHeap.C113_sdop_terms` | propext, Quot.sound |
| C113 | `GA.DopHeap.C113_sdop_errors` | propext, Classical.choice, Quot.sound |
| C113 | `GA.DopHeap.C113_sdop_stable_partial` | propext, Classical.choice, Quot.sound |
| C114 | `GA.C114_calculation` | propext, Quot.sound |
| C114 | `GA.C114_application` | propext, Quot.sound |
| C114 | `GA.C114_eq_sound` | propext, Quot.sound |
| C114 | `GA.C114_compare` | propext, Quot.sound |
| C114 | `GA.C114_compare_complete` | propext, Classical.choice, Quot.sound |
| C114 | `GA.C114_dop_simplify` | propext, Classical.choice, Quot.sound |
| C114 | `GA.C114_tsimplify_counterexample` | propext |
| C114 | `GA.C114_eq_counterexample` | propext, Classical.choice, Quot.sound |
| C115 | `GA.C115_derivative` | propext, Classical.choice, Quot.sound |
| C115 | `GA.C115_derivative_flat` | propext, Classical.choice, Quot.sound |
| C115 | `GA.C115_pdop_partial` | propext, Classical.choice, Quot.sound |
| C115 | `GA.C115_sdop_partial` | propext, Classical.choice, Quot.sound |
| C115 | `GA.C115_superscript_counterexample` | propext, Classical.choice, Quot.sound |
| C116 | `GA.C116_inv_iff` | propext, Classical.choice, Quot.sound |
| C116 | `GA.C116_agree` | propext, Classical.choice, Quot.sound |
| C116 | `GA.C116_others_return` | propext, Classical.choice, Quot.sound |
| C116 | `GA.C116_products` | propext, Classical.choice, Quot.sound |
| C116 | `GA.C116_divide_unique` | propext, Classical.choice, Quot.sound |
| C116 | `GA.C116_power_add` | propext, Classical.choice, Quot.sound |
| C116 | `GA.C116_power_mul` | propext, Classical.choice, Quot.sound |
| C116 | `GA.C116_powers_exist` | propext, Classical.choice, Quot.sound |
| C116 | `GA.C116_inv_counterexample` | propext, Classical.choice, Quot.sound |
| C116 | `GA.C116_power_counterexample` | propext, Classical.choice, Quot.sound |
| C117 | `GA.C117_solutions_partial` | propext, Classical.choice, Quot.sound |
| C117 | `GA.C117_variables` | propext, Classical.choice, Quot.sound |
| C117 | `GA.C117_sum_counterexample` | propext, Classical.choice, Quot.sound |
| C117 | `GA.C117_column_counterexample` | propext, Classical.choice, Quot.sound |
| C118 | `GA.C118_tuple` | propext, Classical.choice, Quot.sound |
| C118 | `GA.C118_lines` | propext, Classical.choice, Quot.sound |
| C118 | `GA.C118_values_partial` | propext, Classical.choice, Quot.sound |
| C118 | `GA.C118_determines_partial` | propext, Classical.choice, Quot.sound |
| C118 | `GA.C118_scalar_counterexample` | propext, Classical.choice, Quot.sound |
| C118 | `GA.C118_nonorthogonal_counterexample` | propext, Classical.choice, Quot.sound |
| C119 | `GA.C119_unknown` | propext, Classical.choice, Quot.sound |
| C119 | `GA.C119_preset_counterexample` | propext, Classical.choice, Quot.sound |
| C119 | `GA.C119_needs` | propext, Classical.choice, Quot.sound |
| C119 | `GA.C119_grad_sqr_counterexample` | propext, Classical.choice, Quot.sound |
| C120 | `GA.C120_gs` | propext, Classical.choice, Quot.sound |
| C120 | `GA.C120_gs_empty` | propext, Classical.choice, Quot.sound |
| C120 | `GA.C120_eigen` | propext, Classical.choice, Quot.sound |
| C120 | `GA.C120_gs_determines` | propext, Classical.choice, Quot.sound |
| C121 | `GA.C121_eigenvalue` | propext, Classical.choice, Quot.sound |
| C121 | `GA.C121_blade` | propext, Classical.choice, Quot.sound |
| C121 | `GA.C121_det_eigenvalues` | propext, Classical.choice, Quot.sound |
| C121 | `GA.C121_orthogonal` | propext, Classical.choice, Quot.sound |
| C121 | `GA.C121_det` | propext, Classical.choice, Quot.sound |
| C121 | `GA.C121_cayley_hamilton` | propext, Classical.choice, Quot.sound |
| C121 | `GA.C121_characteristic` | propext, Classical.choice, Quot.sound |
| C122 | `GA.C122_linear` | propext, Classical.choice, Quot.sound |
| C122 | `GA.C122_scalar` | propext, Classical.choice, Quot.sound |
| C122 | `GA.C122_product` | propext, Classical.choice, Quot.sound |
| C122 | `GA.C122_grade` | propext, Classical.choice, Quot.sound |
| C122 | `GA.C122_swap` | propext, Classical.choice, Quot.sound |
| C122 | `GA.C122_skew` | propext, Classical.choice, Quot.sound |
| C122 | `GA.C122_bianchi_second` | propext, Classical.choice, Quot.sound |
| C122 | `GA.C122_bianchi` | propext, Classical.choice, Quot.sound |
| C122 | `GA.C122_pairs` | propext, Classical.choice, Quot.sound |
| C122 | `GA.C122_components` | propext, Classical.choice, Quot.sound |
| C122 | `GA.C122_bivector` | propext, Classical.choice, Quot.sound |
| C122 | `GA.C122_bivector_bianchi` | propext, Classical.choice, Quot.sound |
| C122 | `GA.C122_flat_iff` | propext, Classical.choice, Quot.sound |
| C122 | `GA.C122_dual` | propext, Classical.choice, Quot.sound |
| C122 | `GA.C122_surface` | propext, Classical.choice, Quot.sound |
