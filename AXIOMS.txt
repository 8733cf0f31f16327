none (12 theorems)
  Engabra.C07_mulRes_comm
  Engabra.C08_dual_dual_exact
  Engabra.C08_dual_types
  Engabra.C09_promote_comps
  Engabra.C09_ctor8
  Engabra.C10_null_mv
  Engabra.C10_one_odd
  Engabra.C19_from_cast
  Engabra.C19_cast_from
  Engabra.C28_missing
  Engabra.C55_documented_rows
  Engabra.C55_symmetric
propext (224 theorems)
  Engabra.C01_mul_add
  Engabra.C01_add_mul
  Engabra.C01_one_mul
  Engabra.C01_mul_one
  Engabra.C01_e0_mul
  Engabra.C01_mul_e0
  Engabra.C01_zero_mul
  Engabra.C01_mul_zero
  Engabra.C02_vec_sq
  Engabra.C02_vec_anticomm
  Engabra.C02_e1_e2
  Engabra.C02_e2_e3
  Engabra.C02_e3_e1
  Engabra.C02_e1_e2_e3
  Engabra.C03_mul_Dub_Sca
  Engabra.C03_mul_Dub_Vec
  Engabra.C03_mul_Dub_Biv
  Engabra.C03_mul_Dub_Tri
  Engabra.C03_mul_Dub_Spin
  Engabra.C03_mul_Dub_Imsp
  Engabra.C03_mul_Dub_Cplx
  Engabra.C03_mul_Dub_Dplx
  Engabra.C03_mul_Dub_Mv
  Engabra.C03_mul_Sca_Dub
  Engabra.C03_mul_Sca_Sca
  Engabra.C03_mul_Sca_Vec
  Engabra.C03_mul_Sca_Biv
  Engabra.C03_mul_Sca_Tri
  Engabra.C03_mul_Sca_Spin
  Engabra.C03_mul_Sca_Imsp
  Engabra.C03_mul_Sca_Cplx
  Engabra.C03_mul_Sca_Dplx
  Engabra.C03_mul_Sca_Mv
  Engabra.C03_mul_Vec_Dub
  Engabra.C03_mul_Vec_Sca
  Engabra.C03_mul_Vec_Vec
  Engabra.C03_mul_Vec_Biv
  Engabra.C03_mul_Vec_Tri
  Engabra.C03_mul_Vec_Spin
  Engabra.C03_mul_Vec_Imsp
  Engabra.C03_mul_Vec_Cplx
  Engabra.C03_mul_Vec_Dplx
  Engabra.C03_mul_Vec_Mv
  Engabra.C03_mul_Biv_Dub
  Engabra.C03_mul_Biv_Sca
  Engabra.C03_mul_Biv_Vec
  Engabra.C03_mul_Biv_Biv
  Engabra.C03_mul_Biv_Spin
  Engabra.C03_mul_Biv_Dplx
  Engabra.C03_mul_Tri_Dub
  Engabra.C03_mul_Tri_Sca
  Engabra.C03_mul_Tri_Vec
  Engabra.C03_mul_Spin_Dub
  Engabra.C03_mul_Spin_Sca
  Engabra.C03_mul_Spin_Vec
  Engabra.C03_mul_Spin_Biv
  Engabra.C03_mul_Spin_Spin
  Engabra.C03_mul_Spin_Dplx
  Engabra.C03_mul_Imsp_Dub
  Engabra.C03_mul_Imsp_Sca
  Engabra.C03_mul_Imsp_Vec
  Engabra.C03_mul_Cplx_Dub
  Engabra.C03_mul_Cplx_Sca
  Engabra.C03_mul_Cplx_Vec
  Engabra.C03_mul_Cplx_Cplx
  Engabra.C03_mul_Dplx_Dub
  Engabra.C03_mul_Dplx_Sca
  Engabra.C03_mul_Dplx_Spin
  Engabra.C03_mul_Dplx_Dplx
  Engabra.C03_mul_Mv_Dub
  Engabra.C03_mul_Mv_Sca
  Engabra.C03_mul_Mv_Vec
  Engabra.C03_mul_Mv_Mv
  Engabra.C04_add_Sca_Sca
  Engabra.C04_add_Sca_Biv
  Engabra.C04_add_Sca_Tri
  Engabra.C04_add_Sca_Spin
  Engabra.C04_add_Sca_Cplx
  Engabra.C04_add_Sca_Mv
  Engabra.C04_add_Vec_Vec
  Engabra.C04_add_Vec_Biv
  Engabra.C04_add_Vec_Tri
  Engabra.C04_add_Vec_Imsp
  Engabra.C04_add_Vec_Dplx
  Engabra.C04_add_Vec_Mv
  Engabra.C04_add_Biv_Sca
  Engabra.C04_add_Biv_Vec
  Engabra.C04_add_Biv_Biv
  Engabra.C04_add_Biv_Spin
  Engabra.C04_add_Biv_Dplx
  Engabra.C04_add_Biv_Mv
  Engabra.C04_add_Tri_Sca
  Engabra.C04_add_Tri_Vec
  Engabra.C04_add_Tri_Tri
  Engabra.C04_add_Tri_Imsp
  Engabra.C04_add_Tri_Cplx
  Engabra.C04_add_Tri_Mv
  Engabra.C04_add_Spin_Sca
  Engabra.C04_add_Spin_Biv
  Engabra.C04_add_Spin_Spin
  Engabra.C04_add_Spin_Imsp
  Engabra.C04_add_Spin_Mv
  Engabra.C04_add_Imsp_Vec
  Engabra.C04_add_Imsp_Tri
  Engabra.C04_add_Imsp_Spin
  Engabra.C04_add_Imsp_Imsp
  Engabra.C04_add_Imsp_Mv
  Engabra.C04_add_Cplx_Sca
  Engabra.C04_add_Cplx_Tri
  Engabra.C04_add_Cplx_Cplx
  Engabra.C04_add_Cplx_Dplx
  Engabra.C04_add_Cplx_Mv
  Engabra.C04_add_Dplx_Vec
  Engabra.C04_add_Dplx_Biv
  Engabra.C04_add_Dplx_Cplx
  Engabra.C04_add_Dplx_Dplx
  Engabra.C04_add_Dplx_Mv
  Engabra.C04_add_Mv_Sca
  Engabra.C04_add_Mv_Vec
  Engabra.C04_add_Mv_Biv
  Engabra.C04_add_Mv_Tri
  Engabra.C04_add_Mv_Spin
  Engabra.C04_add_Mv_Imsp
  Engabra.C04_add_Mv_Cplx
  Engabra.C04_add_Mv_Dplx
  Engabra.C04_add_Mv_Mv
  Engabra.C04_typed_sum_agrees
  Engabra.C04_add_self_type
  Engabra.C04_add_neg
  Engabra.C05_sub_Sca_Sca
  Engabra.C05_sub_Sca_Biv
  Engabra.C05_sub_Sca_Tri
  Engabra.C05_sub_Sca_Spin
  Engabra.C05_sub_Sca_Cplx
  Engabra.C05_sub_Sca_Mv
  Engabra.C05_sub_Vec_Vec
  Engabra.C05_sub_Vec_Biv
  Engabra.C05_sub_Vec_Tri
  Engabra.C05_sub_Vec_Imsp
  Engabra.C05_sub_Vec_Dplx
  Engabra.C05_sub_Vec_Mv
  Engabra.C05_sub_Biv_Sca_reversed
  Engabra.C05_sub_Biv_Vec_reversed
  Engabra.C05_sub_Biv_Biv
  Engabra.C05_sub_Biv_Spin
  Engabra.C05_sub_Biv_Dplx
  Engabra.C05_sub_Biv_Mv
  Engabra.C05_sub_Tri_Sca_reversed
  Engabra.C05_sub_Tri_Vec_reversed
  Engabra.C05_sub_Tri_Tri
  Engabra.C05_sub_Tri_Imsp
  Engabra.C05_sub_Tri_Cplx
  Engabra.C05_sub_Tri_Mv
  Engabra.C05_sub_Spin_Sca_reversed
  Engabra.C05_sub_Spin_Biv_reversed
  Engabra.C05_sub_Spin_Spin
  Engabra.C05_sub_Spin_Imsp
  Engabra.C05_sub_Spin_Mv
  Engabra.C05_sub_Imsp_Vec
  Engabra.C05_sub_Imsp_Tri
  Engabra.C05_sub_Imsp_Spin
  Engabra.C05_sub_Imsp_Imsp
  Engabra.C05_sub_Imsp_Mv
  Engabra.C05_sub_Cplx_Sca
  Engabra.C05_sub_Cplx_Tri
  Engabra.C05_sub_Cplx_Cplx
  Engabra.C05_sub_Cplx_Dplx
  Engabra.C05_sub_Cplx_Mv
  Engabra.C05_sub_Dplx_Vec
  Engabra.C05_sub_Dplx_Biv
  Engabra.C05_sub_Dplx_Cplx
  Engabra.C05_sub_Dplx_Dplx
  Engabra.C05_sub_Dplx_Mv
  Engabra.C05_sub_Mv_Sca
  Engabra.C05_sub_Mv_Vec
  Engabra.C05_sub_Mv_Biv
  Engabra.C05_sub_Mv_Tri
  Engabra.C05_sub_Mv_Spin
  Engabra.C05_sub_Mv_Imsp
  Engabra.C05_sub_Mv_Cplx
  Engabra.C05_sub_Mv_Dplx
  Engabra.C05_sub_Mv_Mv
  Engabra.C05_typed_difference_partial
  Engabra.C05_six_are_reversed
  Engabra.C05_six_order_irrelevant
  Engabra.C05_exists_iff_add
  Engabra.C06_reverse_reverse
  Engabra.C06_oddverse_oddverse
  Engabra.C06_dirverse_dirverse
  Engabra.C06_reverse_oddverse
  Engabra.C06_oddverse_reverse
  Engabra.C06_reverse_dirverse
  Engabra.C06_dirverse_reverse
  Engabra.C06_oddverse_dirverse
  Engabra.C06_dirverse_oddverse
  Engabra.C07_reverse_add
  Engabra.C07_oddverse_add
  Engabra.C07_dirverse_add
  Engabra.C08_dual_eq_left
  Engabra.C08_dual_eq_right
  Engabra.C08_dual_dual
  Engabra.C09_ctor_cplx_dplx
  Engabra.C09_comps_injective
  Engabra.C10_add_zero
  Engabra.C10_one_mul
  Engabra.C11_array
  Engabra.C11_first_components
  Engabra.C13_magSq_sum_of_squares
  Engabra.C13_magSq_smul
  Engabra.C14_not_for_all
  Engabra.C15_ampSq_central
  Engabra.C22_one
  Engabra.C28_componentwise
  Engabra.C35_split
  Engabra.C35_symm
  Engabra.C35_antisymm
  Engabra.C36_decompose
  Engabra.C38_basis_volume
  Engabra.C38_basis_dual
  Engabra.C38_basis_span
  Engabra.C55_documented_types
  Engabra.C55_closed
  Engabra.C55_named_tests_exclusive
  Engabra.C91_magSq
propext, Classical.choice, Quot.sound (660 theorems)
  Engabra.C02_equiv_apply
  Engabra.C02_equiv_vector
  Engabra.C02_universal
  Engabra.C02_blade_rule
  Engabra.C02_reverse_is_reversal
  Engabra.C02_oddverse_is_involute
  Engabra.C02_dirverse_is_conjugation
  Engabra.C05_fails_for_six
  Engabra.C05_six_wrong_unless_equal
  Engabra.C08_readme_sca_vec
  Engabra.C08_readme_biv_tri
  Engabra.C09_index
  Engabra.C09_mv_index
  Engabra.C09_mv_assign
  Engabra.C09_mv_assign_index
  Engabra.C10_null_invalid
  Engabra.C10_zero_valid
  Engabra.C10_one_valid
  Engabra.C10_add_zero_ieee
  Engabra.C10_add_zero_negzero
  Engabra.C10_one_scale_ieee
  Engabra.C10_one_mul_ieee
  Engabra.C10_one_mul_ieee_even
  Engabra.C11_double
  Engabra.C11_fails
  Engabra.C11_fails_vector
  Engabra.C12_product
  Engabra.C12_product_invalid
  Engabra.C12_typed_product
  Engabra.C12_sum
  Engabra.C12_difference
  Engabra.C12_unary
  Engabra.C12_fails_typed_validity
  Engabra.C13_magSq_nonneg
  Engabra.C13_magSq_eq_zero_iff
  Engabra.C13_magnitude
  Engabra.C13_magnitude_smul
  Engabra.C13_triangle
  Engabra.C13_magnitude_triangle
  Engabra.C15_amplitude_sq
  Engabra.C15_amplitude_mv
  Engabra.C15_amplitude_principal
  Engabra.C16_pair_fst
  Engabra.C16_unit
  Engabra.C16_product
  Engabra.C16_null
  Engabra.C16_scale
  Engabra.C16_neg
  Engabra.C17_inverse
  Engabra.C17_zero
  Engabra.C18_complex_inverse
  Engabra.C18_complex_null
  Engabra.C18_complex_mul
  Engabra.C18_mv_inverse
  Engabra.C18_mv_null
  Engabra.C18_invertible_iff
  Engabra.C18_null_although_invertible
  Engabra.C19_complex_apply
  Engabra.C19_complex_rest
  Engabra.C19_quaternion_apply
  Engabra.C19_quaternion_rest
  Engabra.C20_exp_bivector_partial
  Engabra.C20_exp_spinor_partial
  Engabra.C20_series_unique
  Engabra.C20_unit
  Engabra.C20_neg
  Engabra.C20_exp_scalar_factor
  Engabra.C20_add_in_plane
  Engabra.C20_exp_rotates
  Engabra.C20_unity_outside
  Engabra.C20_null_if_first_invalid
  Engabra.C20_fails
  Engabra.C20_nan_gives_unity
  Engabra.C21_exp_spinor_valued_partial
  Engabra.C21_exp_spinor_small
  Engabra.C21_fails_for_every_vector
  Engabra.C21_vector_value
  Engabra.C21_fails_for_every_trivector
  Engabra.C21_null
  Engabra.C22_rodrigues
  Engabra.C23_exp_log_partial
  Engabra.C23_log_exp_partial
  Engabra.C23_near_identity
  Engabra.C23_near_minus_identity
  Engabra.C23_null
  Engabra.C23_fails
  Engabra.C24_sqrt_partial
  Engabra.C24_near_positive
  Engabra.C24_near_negative
  Engabra.C24_principal
  Engabra.C24_zero_below
  Engabra.C24_fails_below
  Engabra.C24_null
  Engabra.C25_array_defined
  Engabra.C25_array_empty_ub
  Engabra.C25_defined
  Engabra.C25_array_valid
  Engabra.C25_valid
  Engabra.C25_double_valid
  Engabra.C25_array_tolerance
  Engabra.C25_double_tolerance
  Engabra.C25_tolerance
  Engabra.C26_double
  Engabra.C26_array
  Engabra.C26_reflexive
  Engabra.C27_range_accepts
  Engabra.C27_range_rejects_partial
  Engabra.C27_zero_reference
  Engabra.C27_type_accepts
  Engabra.C27_type_accepted_partial
  Engabra.C27_exact
  Engabra.C27_exact_small
  Engabra.C27_double_rejects
  Engabra.C27_double_accepts
  Engabra.C27_fails_overflow
  Engabra.C27_fails_underflow
  Engabra.C27_fails_twice
  Engabra.C27_fails_tiny
  Engabra.C27_fails_symmetry
  Engabra.C28_double
  Engabra.C28_symmetric
  Engabra.C28_transitive
  Engabra.C28_reflexive_iff
  Engabra.C28_fails_bitwise
  Engabra.C29_array
  Engabra.C29_blades
  Engabra.C29_all_or_null
  Engabra.C29_ignores_old
  Engabra.C29_failed_stream
  Engabra.C29_isValid_iff
  Engabra.C29_rejects_only_subnormal
  Engabra.C29_valid_stream
  Engabra.C29_suffix
  Engabra.C29_fails_misaligned
  Engabra.C30_fixed_number
  Engabra.C30_enote_number
  Engabra.C30_fixed_width
  Engabra.C30_enote_width
  Engabra.C30_fails_enote_width
  Engabra.C30_fixed_object
  Engabra.C30_enote_object
  Engabra.C30_insert_text
  Engabra.C30_insert_width
  Engabra.C30_insert_state
  Engabra.C30_insert_appends
  Engabra.C30_put_changes_state
  Engabra.C30_fixed_words
  Engabra.C30_enote_words
  Engabra.C30_insert_words
  Engabra.C30_fixed_special
  Engabra.C30_enote_special
  Engabra.C30_insert_null
  Engabra.C31_double
  Engabra.C31_object
  Engabra.C31_accuracy
  Engabra.C31_fails_default
  Engabra.C31_fails_max
  Engabra.C31_nonfinite
  Engabra.C31_insert
  Engabra.C31_fixed
  Engabra.C32_add_comm
  Engabra.C32_neg_neg
  Engabra.C32_involutions
  Engabra.C32_central_comm
  Engabra.C32_complex_comm
  Engabra.C32_sub_anti
  Engabra.C32_distribute
  Engabra.C32_fails_distribute_bitwise
  Engabra.C32_neg_mul
  Engabra.C32_product_signs
  Engabra.C32_fails_product_signs_bitwise
  Engabra.C33_error
  Engabra.C33_no_overflow
  Engabra.C33_product
  Engabra.C33_nearest
  Engabra.C33_sum
  Engabra.C33_difference
  Engabra.C34_fails_underflow
  Engabra.C34_fails_overflow
  Engabra.C34_magnitude
  Engabra.C34_direction
  Engabra.C34_unit
  Engabra.C34_valid_partial
  Engabra.C34_fails_subnormal
  Engabra.C34_magnitude_contracted
  Engabra.C34_magnitude_wide
  Engabra.C34_direction_partial
  Engabra.C34_unit_partial
  Engabra.C34_null_or_bounded
  Engabra.C34_null_iff
  Engabra.C34_overflow
  Engabra.C34_magnitude_total
  Engabra.C34_direction_total
  Engabra.C34_unit_total
  Engabra.C35_anticommute_iff
  Engabra.C35_commute_iff
  Engabra.C36_centre
  Engabra.C37_exp_prints
  Engabra.C37_exp_silent_partial
  Engabra.C38_pi_rounded
  Engabra.C38_pi_nearest
  Engabra.C38_angles_rounded
  Engabra.C38_angles_exact
  Engabra.C38_pi_below
  Engabra.C39_magnitude_even
  Engabra.C39_scale_commutes
  Engabra.C39_direction_odd
  Engabra.C39_direction_mv
  Engabra.C39_inverse_odd
  Engabra.C39_dual_magnitude
  Engabra.C40_isValid_even
  Engabra.C40_nearlyEqualsArr_even
  Engabra.C40_nearlyEquals_even
  Engabra.C40_nearlyEquals_dual
  Engabra.C40_nearlyEqualsArr_mono
  Engabra.C40_nearlyEquals_mono
  Engabra.C41_loop_unique
  Engabra.C41_sequence
  Engabra.C41_loop
  Engabra.C41_insert
  Engabra.C41_insert_state
  Engabra.C43_nan_never_lost
  Engabra.C43_valid_inputs
  Engabra.C44_expression_error
  Engabra.C44_sums
  Engabra.C44_sum_loop
  Engabra.C44_sum_loop_defined
  Engabra.C45_product_loop
  Engabra.C45_unit_loop
  Engabra.C45_rotate_loop
  Engabra.C46_exp
  Engabra.C46_exp_spinor
  Engabra.C46_unit
  Engabra.C46_turns
  Engabra.C46_tiny
  Engabra.C46_fails_overflow
  Engabra.C46_fails_subnormal
  Engabra.C46_exp_total
  Engabra.C46_exp_spinor_total
  Engabra.C46_unit_total
  Engabra.C46_one
  Engabra.C46_fails_ratio
  Engabra.C46_overflow
  Engabra.C47_wrong_algebra
  Engabra.C47_wrong_algebra_bound
  Engabra.C47_series
  Engabra.C47_exists_unique
  Engabra.C47_without_vector
  Engabra.C47_without_bivector
  Engabra.C48_inverse
  Engabra.C48_product
  Engabra.C48_nearly
  Engabra.C48_fails_default
  Engabra.C49_exact
  Engabra.C49_integers
  Engabra.C49_small_integers
  Engabra.C49_identities
  Engabra.C49_bound_sharp
  Engabra.C50_product
  Engabra.C50_sum
  Engabra.C50_difference
  Engabra.C50_unary
  Engabra.C50_expression
  Engabra.C50_equal
  Engabra.C50_finite_needed
  Engabra.C51_log
  Engabra.C51_log_unique
  Engabra.C51_exp_log
  Engabra.C51_sqrt
  Engabra.C52_magnitude
  Engabra.C52_direction
  Engabra.C52_direction_pow2
  Engabra.C52_direction_axis
  Engabra.C52_direction_twice
  Engabra.C52_direction_49
  Engabra.C53_log_dominant_pos
  Engabra.C53_log_dominant_neg
  Engabra.C53_exp_log
  Engabra.C53_sqrt
  Engabra.C53_exp_log_lost
  Engabra.C54_expression
  Engabra.C54_scale
  Engabra.C54_product
  Engabra.C54_sum
  Engabra.C54_difference
  Engabra.C54_magnitude
  Engabra.C54_direction
  Engabra.C54_inverse
  Engabra.C54_array_nearlyEquals
  Engabra.C54_nearlyEquals
  Engabra.C54_fails_zero_reference
  Engabra.C55_type_holds_its_grades
  Engabra.C55_product_type_exact
  Engabra.C55_sum_type_exact
  Engabra.C55_difference_type_exact
  Engabra.C55_double_sums
  Engabra.C55_dual_type_exact
  Engabra.C55_blade_trait
  Engabra.C55_double_not_blade
  Engabra.C55_named_tests
  Engabra.C56_inverse_complex
  Engabra.C56_inverse_mv
  Engabra.C56_product
  Engabra.C56_fails_cancellation
  Engabra.C57_expression
  Engabra.C57_uncontracted
  Engabra.C57_two_builds
  Engabra.C57_product
  Engabra.C57_integers
  Engabra.C57_small_integers
  Engabra.C57_bounded_operands
  Engabra.C57_magSq_nonneg
  Engabra.C57_magSq
  Engabra.C57_fails_square
  Engabra.C58_angle
  Engabra.C58_readme_types
  Engabra.C58_vector
  Engabra.C58_moment
  Engabra.C58_position
  Engabra.C58_rigid
  Engabra.C58_turn_axis
  Engabra.C58_turn_plane
  Engabra.C59_root
  Engabra.C59_exact
  Engabra.C59_rotor
  Engabra.C60_array
  Engabra.C60_zero_signs
  Engabra.C60_equal_args
  Engabra.C60_equal_accepts
  Engabra.C60_promote
  Engabra.C60_close
  Engabra.C60_close_double
  Engabra.C60_close_all
  Engabra.C60_polar_near
  Engabra.C60_polar
  Engabra.C60_unit
  Engabra.C60_text
  Engabra.C60_inverse_twice
  Engabra.C61_square
  Engabra.C61_root
  Engabra.C61_principal
  Engabra.C61_axis
  Engabra.C61_fails_branch
  Engabra.C62_fails_type
  Engabra.C62_same_partial
  Engabra.C62_off_cut_partial
  Engabra.C63_exp_mv
  Engabra.C63_spinor_valued
  Engabra.C63_two_exps
  Engabra.C63_odd_grades
  Engabra.C63_vector_wrong
  Engabra.C64_sq_compiles
  Engabra.C64_cube_compiles
  Engabra.C64_magnitude
  Engabra.C64_de_moivre
  Engabra.C64_complex_roots
  Engabra.C64_spinor_roots
  Engabra.C64_mv_square_iff
  Engabra.C64_mv_cube_iff
  Engabra.C64_mv_magnitude
  Engabra.C64_even
  Engabra.C64_odd
  Engabra.C65_solve_blade
  Engabra.C65_solve_mv
  Engabra.C65_solve_complex
  Engabra.C65_left_binary64
  Engabra.C65_right_binary64
  Engabra.C65_put_back
  Engabra.C65_mv_binary64
  Engabra.C65_header_product_fails
  Engabra.C65_header_equation
  Engabra.C66_turn_binary64
  Engabra.C66_project_line
  Engabra.C66_reject_line
  Engabra.C66_reflect
  Engabra.C66_half_turn
  Engabra.C66_project_plane
  Engabra.C66_reject_plane
  Engabra.C66_reflect_plane
  Engabra.C66_squares
  Engabra.C66_angle
  Engabra.C66_plane
  Engabra.C66_volume
  Engabra.C66_mirror_binary64
  Engabra.C66_mirror_plane_binary64
  Engabra.C66_project_line_binary64
  Engabra.C66_reject_line_binary64
  Engabra.C66_project_plane_binary64
  Engabra.C66_reject_plane_binary64
  Engabra.C66_every_isometry
  Engabra.C66_every_rotation
  Engabra.C66_rotation_unique
  Engabra.C66_spinor_rotates
  Engabra.C66_orthogonal
  Engabra.C66_parallel
  Engabra.C66_orthogonal_triple
  Engabra.C66_vector_equation
  Engabra.C67_unit
  Engabra.C67_drift
  Engabra.C67_rigid
  Engabra.C67_steady_unit
  Engabra.C67_steady_turns
  Engabra.C67_plain_diverges
  Engabra.C68_solve
  Engabra.C68_iff
  Engabra.C68_vectors
  Engabra.C68_same
  Engabra.C68_null
  Engabra.C69_sums
  Engabra.C69_mul
  Engabra.C69_mul_finite
  Engabra.C69_fails_infinite
  Engabra.C69_fails_abs
  Engabra.C70_loop
  Engabra.C70_guarded
  Engabra.C70_guarded_unique
  Engabra.C70_prefix
  Engabra.C70_silent
  Engabra.C71_insert
  Engabra.C71_after_failure
  Engabra.C71_records
  Engabra.C71_recover
  Engabra.C72_array
  Engabra.C72_object
  Engabra.C72_quiet
  Engabra.C72_failbit
  Engabra.C72_eof_throws
  Engabra.C72_mixture
  Engabra.C73_local
  Engabra.C73_progress
  Engabra.C73_ends
  Engabra.C73_guarded_prefix
  Engabra.C73_plain_prefix
  Engabra.C73_newline
  Engabra.C73_whole
  Engabra.C73_concat
  Engabra.C73_whole_unique
  Engabra.C73_records
  Engabra.C74_every
  Engabra.C74_unique
  Engabra.C74_rotation
  Engabra.C74_gimbal
  Engabra.C74_recover
  Engabra.C75_slerp
  Engabra.C75_ends
  Engabra.C75_even
  Engabra.C75_rate
  Engabra.C75_steps
  Engabra.C75_back
  Engabra.C75_middle
  Engabra.C75_frame
  Engabra.C75_between
  Engabra.C76_line_plane
  Engabra.C76_two_lines
  Engabra.C76_lines_meet
  Engabra.C76_independent
  Engabra.C76_coordinates
  Engabra.C76_three_planes
  Engabra.C76_sphere
  Engabra.C77_one
  Engabra.C77_add
  Engabra.C77_zero_neg
  Engabra.C77_root
  Engabra.C77_power
  Engabra.C78_slerp_power
  Engabra.C78_interp
  Engabra.C78_moderate
  Engabra.C79_angle
  Engabra.C79_angle_binary64
  Engabra.C80_polar
  Engabra.C80_polar_binary64
  Engabra.C81_sampled
  Engabra.C81_midpoint
  Engabra.C81_constant
  Engabra.C81_sampled_binary64
  Engabra.C81_midpoint_binary64
  Engabra.C82_object
  Engabra.C82_broken
  Engabra.C82_stays_broken
  Engabra.C82_loop
  Engabra.C82_no_wrong_object
  Engabra.C82_records
  Engabra.C82_contrast
  Engabra.C83_text
  Engabra.C83_round_trip
  Engabra.C83_insert
  Engabra.C83_mismatch
  Engabra.C83_silent
  Engabra.C84_mode_meaning
  Engabra.C84_modes
  Engabra.C84_expression
  Engabra.C84_size
  Engabra.C84_two
  Engabra.C84_product
  Engabra.C84_covers
  Engabra.C84_integers
  Engabra.C84_magSq_enclosed
  Engabra.C84_magSq
  Engabra.C84_magnitude
  Engabra.C84_magnitude_enclosed
  Engabra.C84_small_integers
  Engabra.C85_reference_accuracy
  Engabra.C85_rounds
  Engabra.C85_vectors_fail
  Engabra.C85_trivectors_fail
  Engabra.C85_reference_returns
  Engabra.C85_reference_hangs
  Engabra.C85_reference_nan
  Engabra.C86_check
  Engabra.C86_verdict
  Engabra.C86_pass_valid
  Engabra.C86_default
  Engabra.C86_inverse_verdict
  Engabra.C86_inverse_text
  Engabra.C86_inverse_blades
  Engabra.C86_inverse_default
  Engabra.C86_inverse_misses
  Engabra.C86_report_same
  Engabra.C87_fixed_number
  Engabra.C87_fixed_object
  Engabra.C87_enote_text
  Engabra.C87_no_separator
  Engabra.C87_round_trip
  Engabra.C87_insert
  Engabra.C87_fixed
  Engabra.C87_groups
  Engabra.C87_groups_short
  Engabra.C87_long_group
  Engabra.C87_stray
  Engabra.C87_foreign
  Engabra.C87_thousand
  Engabra.C87_fails_width
  Engabra.C88_fixed_number
  Engabra.C88_enote_number
  Engabra.C88_object
  Engabra.C88_in_range
  Engabra.C88_default
  Engabra.C88_round_trip
  Engabra.C88_fails_round_trip
  Engabra.C88_fixed
  Engabra.C89_values
  Engabra.C89_finite_iff
  Engabra.C89_null
  Engabra.C89_invalid_iff
  Engabra.C89_bounded
  Engabra.C89_direction_values
  Engabra.C89_direction
  Engabra.C89_direction_invalid
  Engabra.C89_inverse_values
  Engabra.C89_inverse
  Engabra.C89_compare_values
  Engabra.C89_compare_null
  Engabra.C89_compare
  Engabra.C89_direction_null
  Engabra.C90_symmetric
  Engabra.C90_transitive
  Engabra.C90_chain
  Engabra.C90_chain_linear
  Engabra.C90_never_transitive
  Engabra.C90_double_symmetric
  Engabra.C90_double_chain
  Engabra.C91_magnitude
  Engabra.C91_direction
  Engabra.C91_inverse
  Engabra.C91_ampSq
  Engabra.C91_inverse_cplx
  Engabra.C91_inverse_mv
  Engabra.C91_exp
  Engabra.C91_exp_biv
  Engabra.C91_exp_mv
  Engabra.C91_log
  Engabra.C91_amplitude
  Engabra.C91_amplitude_mirror
  Engabra.C91_exp_depends
  Engabra.C91_nearly
  Engabra.C91_nearly_zero_depends
  Engabra.C91_flip_expr
  Engabra.C91_flip_magSq
  Engabra.C91_flip_magnitude
  Engabra.C91_flip_direction
  Engabra.C91_flip_inverse
  Engabra.C91_flip_nearly
  Engabra.C91_turn_rounds
  Engabra.C92_magnitude
  Engabra.C92_real
  Engabra.C92_vector
  Engabra.C92_trivector
  Engabra.C92_imspin
  Engabra.C92_even
  Engabra.C92_rejects
  Engabra.C92_differ
  Engabra.C93_always
  Engabra.C93_rejects
  Engabra.C93_accepts
  Engabra.C93_accepts_example
  Engabra.C94_datum_of_word
  Engabra.C94_word_of_datum
  Engabra.C94_one_word
  Engabra.C94_sign
  Engabra.C94_isnormal
  Engabra.C94_rounding
  Engabra.C94_rounding_unique
  Engabra.C94_add
  Engabra.C94_sub
  Engabra.C94_mul
  Engabra.C94_div
  Engabra.C94_sqrt
  Engabra.C94_fma
  Engabra.C94_literal
  Engabra.C94_compare
  Engabra.C94_pi_word
  Engabra.C95_read
  Engabra.C95_read_only
  Engabra.C95_token
  Engabra.C95_fixed
  Engabra.C95_scientific
  Engabra.C95_general
  Engabra.C96_div
  Engabra.C96_sqrt
  Engabra.C96_inverse
  Engabra.C96_magnitude
  Engabra.C96_direction
  Engabra.C96_function_values
  Engabra.C96_sticky_div
  Engabra.C96_direction_axis
  Engabra.C96_direction_iff
  Engabra.C96_add
  Engabra.C96_mul
  Engabra.C96_values
  Engabra.C96_exact
  Engabra.C96_sticky
  Engabra.C96_underflow_inexact
  Engabra.C96_integers
  Engabra.C96_not_conversely
  Engabra.C96_inverse_iff
  Engabra.C97_numerals
  Engabra.C97_word
  Engabra.C97_object
  Engabra.C98_three
  Engabra.C98_sizes
  Engabra.C98_fixed_number
  Engabra.C98_fixed_object
  Engabra.C98_enote_text
  Engabra.C98_no_separator
  Engabra.C98_round_trip
  Engabra.C98_insert
  Engabra.C98_fixed
  Engabra.C98_groups
  Engabra.C98_india
  Engabra.C99_blank
  Engabra.C99_first
  Engabra.C99_written
  Engabra.C99_enote
  Engabra.C99_same
  Engabra.C100_number
  Engabra.C100_longest
  Engabra.C100_numerals
  Engabra.C100_stop
  Engabra.C100_signs
  Engabra.C100_no_skip
propext, Quot.sound (99 theorems)
  Engabra.C01_mul_assoc
  Engabra.C01_smul_mul
  Engabra.C01_mul_smul
  Engabra.C02_e123_sq
  Engabra.C03_mul_Biv_Tri
  Engabra.C03_mul_Biv_Imsp
  Engabra.C03_mul_Biv_Cplx
  Engabra.C03_mul_Biv_Mv
  Engabra.C03_mul_Tri_Biv
  Engabra.C03_mul_Tri_Tri
  Engabra.C03_mul_Tri_Spin
  Engabra.C03_mul_Tri_Imsp
  Engabra.C03_mul_Tri_Cplx
  Engabra.C03_mul_Tri_Dplx
  Engabra.C03_mul_Tri_Mv
  Engabra.C03_mul_Spin_Tri
  Engabra.C03_mul_Spin_Imsp
  Engabra.C03_mul_Spin_Cplx
  Engabra.C03_mul_Spin_Mv
  Engabra.C03_mul_Imsp_Biv
  Engabra.C03_mul_Imsp_Tri
  Engabra.C03_mul_Imsp_Spin
  Engabra.C03_mul_Imsp_Imsp
  Engabra.C03_mul_Imsp_Cplx
  Engabra.C03_mul_Imsp_Dplx
  Engabra.C03_mul_Imsp_Mv
  Engabra.C03_mul_Cplx_Biv
  Engabra.C03_mul_Cplx_Tri
  Engabra.C03_mul_Cplx_Spin
  Engabra.C03_mul_Cplx_Imsp
  Engabra.C03_mul_Cplx_Dplx
  Engabra.C03_mul_Cplx_Mv
  Engabra.C03_mul_Dplx_Vec
  Engabra.C03_mul_Dplx_Biv
  Engabra.C03_mul_Dplx_Tri
  Engabra.C03_mul_Dplx_Imsp
  Engabra.C03_mul_Dplx_Cplx
  Engabra.C03_mul_Dplx_Mv
  Engabra.C03_mul_Mv_Biv
  Engabra.C03_mul_Mv_Tri
  Engabra.C03_mul_Mv_Spin
  Engabra.C03_mul_Mv_Imsp
  Engabra.C03_mul_Mv_Cplx
  Engabra.C03_mul_Mv_Dplx
  Engabra.C03_typed_product_agrees
  Engabra.C04_add_comm
  Engabra.C04_add_assoc
  Engabra.C05_anticommutes_partial
  Engabra.C07_mv_reverse_mul
  Engabra.C07_mv_oddverse_mul
  Engabra.C07_mv_dirverse_mul
  Engabra.C07_reverse_mul
  Engabra.C07_oddverse_mul
  Engabra.C07_dirverse_mul
  Engabra.C07_reverse_smul
  Engabra.C07_oddverse_smul
  Engabra.C07_dirverse_smul
  Engabra.C08_dual_mul
  Engabra.C10_null_comps
  Engabra.C10_zero_comps
  Engabra.C11_valid_partial
  Engabra.C11_invalid_sound
  Engabra.C11_scalar_types
  Engabra.C13_magSq_scalar_part
  Engabra.C13_magSq_unary
  Engabra.C14_magSq_mul
  Engabra.C15_ampSq
  Engabra.C15_ampSq_mul
  Engabra.C22_grade
  Engabra.C22_add
  Engabra.C22_smul
  Engabra.C22_dot_general
  Engabra.C22_dot
  Engabra.C22_length
  Engabra.C22_cross_general
  Engabra.C22_det
  Engabra.C22_comp
  Engabra.C22_inverse
  Engabra.C22_double_cover
  Engabra.C35_lagrange
  Engabra.C36_even_even
  Engabra.C36_odd_odd
  Engabra.C36_even_odd
  Engabra.C36_odd_even
  Engabra.C38_basis_squares
  Engabra.C38_basis_bivectors
  Engabra.C42_static_types
  Engabra.C42_expression
  Engabra.C42_rewrite
  Engabra.C45_compose
  Engabra.C45_length
  Engabra.C64_value
  Engabra.C64_cube_fits
  Engabra.C64_turns
  Engabra.C91_spinor
  Engabra.C91_product
  Engabra.C91_dual
  Engabra.C91_expr
  Engabra.C98_unique
