{
 "claims": [
  {
   "property": "C01",
   "status": "proved",
   "theorems": [
    "Engabra.C01_mul_assoc",
    "Engabra.C01_mul_add",
    "Engabra.C01_add_mul",
    "Engabra.C01_smul_mul",
    "Engabra.C01_mul_smul",
    "Engabra.C01_one_mul",
    "Engabra.C01_mul_one",
    "Engabra.C01_e0_mul",
    "Engabra.C01_mul_e0",
    "Engabra.C01_zero_mul",
    "Engabra.C01_mul_zero"
   ],
   "note": "Any commutative ring; the ring structure of the library product."
  },
  {
   "property": "C02",
   "status": "proved",
   "theorems": [
    "Engabra.C02_vec_sq",
    "Engabra.C02_vec_anticomm",
    "Engabra.C02_equiv_apply",
    "Engabra.C02_equiv_vector",
    "Engabra.C02_universal",
    "Engabra.C02_blade_rule",
    "Engabra.C02_e1_e2",
    "Engabra.C02_e2_e3",
    "Engabra.C02_e3_e1",
    "Engabra.C02_e1_e2_e3",
    "Engabra.C02_e123_sq",
    "Engabra.C02_reverse_is_reversal",
    "Engabra.C02_oddverse_is_involute",
    "Engabra.C02_dirverse_is_conjugation"
   ],
   "note": "Isomorphism with Mathlib's CliffordAlgebra; blade table."
  },
  {
   "property": "C03",
   "status": "proved",
   "theorems": [
    "Engabra.C03_mul_Dub_Sca",
    "Engabra.C03_mul_Dub_Vec",
    "Engabra.C03_mul_Dub_Biv",
    "Engabra.C03_mul_Dub_Tri",
    "Engabra.C03_mul_Dub_Spin",
    "Engabra.C03_mul_Dub_Imsp",
    "Engabra.C03_mul_Dub_Cplx",
    "Engabra.C03_mul_Dub_Dplx",
    "Engabra.C03_mul_Dub_Mv",
    "Engabra.C03_mul_Sca_Dub",
    "Engabra.C03_mul_Sca_Sca",
    "Engabra.C03_mul_Sca_Vec",
    "Engabra.C03_mul_Sca_Biv",
    "Engabra.C03_mul_Sca_Tri",
    "Engabra.C03_mul_Sca_Spin",
    "Engabra.C03_mul_Sca_Imsp",
    "Engabra.C03_mul_Sca_Cplx",
    "Engabra.C03_mul_Sca_Dplx",
    "Engabra.C03_mul_Sca_Mv",
    "Engabra.C03_mul_Vec_Dub",
    "Engabra.C03_mul_Vec_Sca",
    "Engabra.C03_mul_Vec_Vec",
    "Engabra.C03_mul_Vec_Biv",
    "Engabra.C03_mul_Vec_Tri",
    "Engabra.C03_mul_Vec_Spin",
    "Engabra.C03_mul_Vec_Imsp",
    "Engabra.C03_mul_Vec_Cplx",
    "Engabra.C03_mul_Vec_Dplx",
    "Engabra.C03_mul_Vec_Mv",
    "Engabra.C03_mul_Biv_Dub",
    "Engabra.C03_mul_Biv_Sca",
    "Engabra.C03_mul_Biv_Vec",
    "Engabra.C03_mul_Biv_Biv",
    "Engabra.C03_mul_Biv_Tri",
    "Engabra.C03_mul_Biv_Spin",
    "Engabra.C03_mul_Biv_Imsp",
    "Engabra.C03_mul_Biv_Cplx",
    "Engabra.C03_mul_Biv_Dplx",
    "Engabra.C03_mul_Biv_Mv",
    "Engabra.C03_mul_Tri_Dub",
    "Engabra.C03_mul_Tri_Sca",
    "Engabra.C03_mul_Tri_Vec",
    "Engabra.C03_mul_Tri_Biv",
    "Engabra.C03_mul_Tri_Tri",
    "Engabra.C03_mul_Tri_Spin",
    "Engabra.C03_mul_Tri_Imsp",
    "Engabra.C03_mul_Tri_Cplx",
    "Engabra.C03_mul_Tri_Dplx",
    "Engabra.C03_mul_Tri_Mv",
    "Engabra.C03_mul_Spin_Dub",
    "Engabra.C03_mul_Spin_Sca",
    "Engabra.C03_mul_Spin_Vec",
    "Engabra.C03_mul_Spin_Biv",
    "Engabra.C03_mul_Spin_Tri",
    "Engabra.C03_mul_Spin_Spin",
    "Engabra.C03_mul_Spin_Imsp",
    "Engabra.C03_mul_Spin_Cplx",
    "Engabra.C03_mul_Spin_Dplx",
    "Engabra.C03_mul_Spin_Mv",
    "Engabra.C03_mul_Imsp_Dub",
    "Engabra.C03_mul_Imsp_Sca",
    "Engabra.C03_mul_Imsp_Vec",
    "Engabra.C03_mul_Imsp_Biv",
    "Engabra.C03_mul_Imsp_Tri",
    "Engabra.C03_mul_Imsp_Spin",
    "Engabra.C03_mul_Imsp_Imsp",
    "Engabra.C03_mul_Imsp_Cplx",
    "Engabra.C03_mul_Imsp_Dplx",
    "Engabra.C03_mul_Imsp_Mv",
    "Engabra.C03_mul_Cplx_Dub",
    "Engabra.C03_mul_Cplx_Sca",
    "Engabra.C03_mul_Cplx_Vec",
    "Engabra.C03_mul_Cplx_Biv",
    "Engabra.C03_mul_Cplx_Tri",
    "Engabra.C03_mul_Cplx_Spin",
    "Engabra.C03_mul_Cplx_Imsp",
    "Engabra.C03_mul_Cplx_Cplx",
    "Engabra.C03_mul_Cplx_Dplx",
    "Engabra.C03_mul_Cplx_Mv",
    "Engabra.C03_mul_Dplx_Dub",
    "Engabra.C03_mul_Dplx_Sca",
    "Engabra.C03_mul_Dplx_Vec",
    "Engabra.C03_mul_Dplx_Biv",
    "Engabra.C03_mul_Dplx_Tri",
    "Engabra.C03_mul_Dplx_Spin",
    "Engabra.C03_mul_Dplx_Imsp",
    "Engabra.C03_mul_Dplx_Cplx",
    "Engabra.C03_mul_Dplx_Dplx",
    "Engabra.C03_mul_Dplx_Mv",
    "Engabra.C03_mul_Mv_Dub",
    "Engabra.C03_mul_Mv_Sca",
    "Engabra.C03_mul_Mv_Vec",
    "Engabra.C03_mul_Mv_Biv",
    "Engabra.C03_mul_Mv_Tri",
    "Engabra.C03_mul_Mv_Spin",
    "Engabra.C03_mul_Mv_Imsp",
    "Engabra.C03_mul_Mv_Cplx",
    "Engabra.C03_mul_Mv_Dplx",
    "Engabra.C03_mul_Mv_Mv",
    "Engabra.C03_typed_product_agrees"
   ],
   "note": "All pairs of types that have an operator*."
  },
  {
   "property": "C04",
   "status": "proved",
   "theorems": [
    "Engabra.C04_add_Sca_Sca",
    "Engabra.C04_add_Sca_Biv",
    "Engabra.C04_add_Sca_Tri",
    "Engabra.C04_add_Sca_Spin",
    "Engabra.C04_add_Sca_Cplx",
    "Engabra.C04_add_Sca_Mv",
    "Engabra.C04_add_Vec_Vec",
    "Engabra.C04_add_Vec_Biv",
    "Engabra.C04_add_Vec_Tri",
    "Engabra.C04_add_Vec_Imsp",
    "Engabra.C04_add_Vec_Dplx",
    "Engabra.C04_add_Vec_Mv",
    "Engabra.C04_add_Biv_Sca",
    "Engabra.C04_add_Biv_Vec",
    "Engabra.C04_add_Biv_Biv",
    "Engabra.C04_add_Biv_Spin",
    "Engabra.C04_add_Biv_Dplx",
    "Engabra.C04_add_Biv_Mv",
    "Engabra.C04_add_Tri_Sca",
    "Engabra.C04_add_Tri_Vec",
    "Engabra.C04_add_Tri_Tri",
    "Engabra.C04_add_Tri_Imsp",
    "Engabra.C04_add_Tri_Cplx",
    "Engabra.C04_add_Tri_Mv",
    "Engabra.C04_add_Spin_Sca",
    "Engabra.C04_add_Spin_Biv",
    "Engabra.C04_add_Spin_Spin",
    "Engabra.C04_add_Spin_Imsp",
    "Engabra.C04_add_Spin_Mv",
    "Engabra.C04_add_Imsp_Vec",
    "Engabra.C04_add_Imsp_Tri",
    "Engabra.C04_add_Imsp_Spin",
    "Engabra.C04_add_Imsp_Imsp",
    "Engabra.C04_add_Imsp_Mv",
    "Engabra.C04_add_Cplx_Sca",
    "Engabra.C04_add_Cplx_Tri",
    "Engabra.C04_add_Cplx_Cplx",
    "Engabra.C04_add_Cplx_Dplx",
    "Engabra.C04_add_Cplx_Mv",
    "Engabra.C04_add_Dplx_Vec",
    "Engabra.C04_add_Dplx_Biv",
    "Engabra.C04_add_Dplx_Cplx",
    "Engabra.C04_add_Dplx_Dplx",
    "Engabra.C04_add_Dplx_Mv",
    "Engabra.C04_add_Mv_Sca",
    "Engabra.C04_add_Mv_Vec",
    "Engabra.C04_add_Mv_Biv",
    "Engabra.C04_add_Mv_Tri",
    "Engabra.C04_add_Mv_Spin",
    "Engabra.C04_add_Mv_Imsp",
    "Engabra.C04_add_Mv_Cplx",
    "Engabra.C04_add_Mv_Dplx",
    "Engabra.C04_add_Mv_Mv",
    "Engabra.C04_typed_sum_agrees",
    "Engabra.C04_add_comm",
    "Engabra.C04_add_assoc",
    "Engabra.C04_add_self_type",
    "Engabra.C04_add_neg"
   ],
   "note": "All pairs of types that have an operator+."
  },
  {
   "property": "C05",
   "status": "partial",
   "theorems": [
    "Engabra.C05_sub_Sca_Sca",
    "Engabra.C05_sub_Sca_Biv",
    "Engabra.C05_sub_Sca_Tri",
    "Engabra.C05_sub_Sca_Spin",
    "Engabra.C05_sub_Sca_Cplx",
    "Engabra.C05_sub_Sca_Mv",
    "Engabra.C05_sub_Vec_Vec",
    "Engabra.C05_sub_Vec_Biv",
    "Engabra.C05_sub_Vec_Tri",
    "Engabra.C05_sub_Vec_Imsp",
    "Engabra.C05_sub_Vec_Dplx",
    "Engabra.C05_sub_Vec_Mv",
    "Engabra.C05_sub_Biv_Sca_reversed",
    "Engabra.C05_sub_Biv_Vec_reversed",
    "Engabra.C05_sub_Biv_Biv",
    "Engabra.C05_sub_Biv_Spin",
    "Engabra.C05_sub_Biv_Dplx",
    "Engabra.C05_sub_Biv_Mv",
    "Engabra.C05_sub_Tri_Sca_reversed",
    "Engabra.C05_sub_Tri_Vec_reversed",
    "Engabra.C05_sub_Tri_Tri",
    "Engabra.C05_sub_Tri_Imsp",
    "Engabra.C05_sub_Tri_Cplx",
    "Engabra.C05_sub_Tri_Mv",
    "Engabra.C05_sub_Spin_Sca_reversed",
    "Engabra.C05_sub_Spin_Biv_reversed",
    "Engabra.C05_sub_Spin_Spin",
    "Engabra.C05_sub_Spin_Imsp",
    "Engabra.C05_sub_Spin_Mv",
    "Engabra.C05_sub_Imsp_Vec",
    "Engabra.C05_sub_Imsp_Tri",
    "Engabra.C05_sub_Imsp_Spin",
    "Engabra.C05_sub_Imsp_Imsp",
    "Engabra.C05_sub_Imsp_Mv",
    "Engabra.C05_sub_Cplx_Sca",
    "Engabra.C05_sub_Cplx_Tri",
    "Engabra.C05_sub_Cplx_Cplx",
    "Engabra.C05_sub_Cplx_Dplx",
    "Engabra.C05_sub_Cplx_Mv",
    "Engabra.C05_sub_Dplx_Vec",
    "Engabra.C05_sub_Dplx_Biv",
    "Engabra.C05_sub_Dplx_Cplx",
    "Engabra.C05_sub_Dplx_Dplx",
    "Engabra.C05_sub_Dplx_Mv",
    "Engabra.C05_sub_Mv_Sca",
    "Engabra.C05_sub_Mv_Vec",
    "Engabra.C05_sub_Mv_Biv",
    "Engabra.C05_sub_Mv_Tri",
    "Engabra.C05_sub_Mv_Spin",
    "Engabra.C05_sub_Mv_Imsp",
    "Engabra.C05_sub_Mv_Cplx",
    "Engabra.C05_sub_Mv_Dplx",
    "Engabra.C05_sub_Mv_Mv",
    "Engabra.C05_typed_difference_partial",
    "Engabra.C05_six_are_reversed",
    "Engabra.C05_fails_for_six",
    "Engabra.C05_six_wrong_unless_equal",
    "Engabra.C05_six_order_irrelevant",
    "Engabra.C05_anticommutes_partial",
    "Engabra.C05_exists_iff_add"
   ],
   "note": "Proved for all but six overloads, which compute b-a: C05_six_are_reversed, C05_fails_for_six."
  },
  {
   "property": "C06",
   "status": "proved",
   "theorems": [
    "Engabra.C06_reverse_reverse",
    "Engabra.C06_oddverse_oddverse",
    "Engabra.C06_dirverse_dirverse",
    "Engabra.C06_reverse_oddverse",
    "Engabra.C06_oddverse_reverse",
    "Engabra.C06_reverse_dirverse",
    "Engabra.C06_dirverse_reverse",
    "Engabra.C06_oddverse_dirverse",
    "Engabra.C06_dirverse_oddverse"
   ],
   "note": "For every number type with -(-x)=x, hence for IEEE doubles bit for bit."
  },
  {
   "property": "C07",
   "status": "proved",
   "theorems": [
    "Engabra.C07_mv_reverse_mul",
    "Engabra.C07_mv_oddverse_mul",
    "Engabra.C07_mv_dirverse_mul",
    "Engabra.C07_reverse_mul",
    "Engabra.C07_oddverse_mul",
    "Engabra.C07_dirverse_mul",
    "Engabra.C07_mulRes_comm",
    "Engabra.C07_reverse_add",
    "Engabra.C07_oddverse_add",
    "Engabra.C07_dirverse_add",
    "Engabra.C07_reverse_smul",
    "Engabra.C07_oddverse_smul",
    "Engabra.C07_dirverse_smul"
   ],
   "note": "All typed products."
  },
  {
   "property": "C08",
   "status": "proved",
   "theorems": [
    "Engabra.C08_dual_eq_left",
    "Engabra.C08_dual_eq_right",
    "Engabra.C08_dual_dual",
    "Engabra.C08_dual_dual_exact",
    "Engabra.C08_dual_mul",
    "Engabra.C08_dual_types",
    "Engabra.C08_readme_sca_vec",
    "Engabra.C08_readme_biv_tri"
   ],
   "note": ""
  },
  {
   "property": "C09",
   "status": "proved",
   "theorems": [
    "Engabra.C09_index",
    "Engabra.C09_mv_index",
    "Engabra.C09_mv_assign",
    "Engabra.C09_mv_assign_index",
    "Engabra.C09_promote_comps",
    "Engabra.C09_ctor8",
    "Engabra.C09_ctor_cplx_dplx",
    "Engabra.C09_comps_injective"
   ],
   "note": "Includes the out-of-range aliasing of MultiVector::operator[]."
  },
  {
   "property": "C10",
   "status": "proved",
   "theorems": [
    "Engabra.C10_null_invalid",
    "Engabra.C10_zero_valid",
    "Engabra.C10_one_valid",
    "Engabra.C10_null_comps",
    "Engabra.C10_null_mv",
    "Engabra.C10_zero_comps",
    "Engabra.C10_add_zero",
    "Engabra.C10_one_mul",
    "Engabra.C10_one_odd",
    "Engabra.C10_add_zero_ieee",
    "Engabra.C10_add_zero_negzero",
    "Engabra.C10_one_scale_ieee",
    "Engabra.C10_one_mul_ieee",
    "Engabra.C10_one_mul_ieee_even"
   ],
   "note": "Null, zero and one of every type; exact identities over any ring and for finite operands in binary64 (up to the sign of a zero). null<MultiVector> is NaN in the scalar component only; null of the other composites is shown component by component."
  },
  {
   "property": "C11",
   "status": "partial",
   "theorems": [
    "Engabra.C11_double",
    "Engabra.C11_array",
    "Engabra.C11_first_components",
    "Engabra.C11_valid_partial",
    "Engabra.C11_invalid_sound",
    "Engabra.C11_scalar_types",
    "Engabra.C11_fails",
    "Engabra.C11_fails_vector"
   ],
   "note": "Proved for double and for arrays of every length, and the direction 'reported invalid implies some invalid component' for all types. The documented equivalence is false for Vector, BiVector and every composite holding one: C11_fails and C11_fails_vector give the counterexample; C11_first_components says exactly what the code tests."
  },
  {
   "property": "C12",
   "status": "proved",
   "theorems": [
    "Engabra.C12_product",
    "Engabra.C12_product_invalid",
    "Engabra.C12_typed_product",
    "Engabra.C12_sum",
    "Engabra.C12_difference",
    "Engabra.C12_unary",
    "Engabra.C12_fails_typed_validity"
   ],
   "note": "Binary64. NaN in any operand component; all typed products, sums, differences, negation and involutions. C12_fails_typed_validity records that isValid does not always notice the NaN."
  },
  {
   "property": "C13",
   "status": "proved",
   "theorems": [
    "Engabra.C13_magSq_sum_of_squares",
    "Engabra.C13_magSq_scalar_part",
    "Engabra.C13_magSq_unary",
    "Engabra.C13_magSq_smul",
    "Engabra.C13_magSq_nonneg",
    "Engabra.C13_magSq_eq_zero_iff",
    "Engabra.C13_magnitude",
    "Engabra.C13_magnitude_smul",
    "Engabra.C13_triangle",
    "Engabra.C13_magnitude_triangle"
   ],
   "note": "magSq in any ordered field, magnitude in ideal arithmetic."
  },
  {
   "property": "C14",
   "status": "proved",
   "theorems": [
    "Engabra.C14_magSq_mul",
    "Engabra.C14_not_for_all"
   ],
   "note": "Includes the counterexample for general multivectors."
  },
  {
   "property": "C15",
   "status": "proved",
   "theorems": [
    "Engabra.C15_ampSq",
    "Engabra.C15_ampSq_central",
    "Engabra.C15_ampSq_mul",
    "Engabra.C15_amplitude_sq",
    "Engabra.C15_amplitude_mv",
    "Engabra.C15_amplitude_principal"
   ],
   "note": ""
  },
  {
   "property": "C16",
   "status": "proved",
   "theorems": [
    "Engabra.C16_pair_fst",
    "Engabra.C16_unit",
    "Engabra.C16_product",
    "Engabra.C16_null",
    "Engabra.C16_scale",
    "Engabra.C16_neg"
   ],
   "note": "Ideal arithmetic; the IEEE counterpart is C34."
  },
  {
   "property": "C17",
   "status": "proved",
   "theorems": [
    "Engabra.C17_inverse",
    "Engabra.C17_zero"
   ],
   "note": "Ideal arithmetic."
  },
  {
   "property": "C18",
   "status": "proved",
   "theorems": [
    "Engabra.C18_complex_inverse",
    "Engabra.C18_complex_null",
    "Engabra.C18_complex_mul",
    "Engabra.C18_mv_inverse",
    "Engabra.C18_mv_null",
    "Engabra.C18_invertible_iff",
    "Engabra.C18_null_although_invertible"
   ],
   "note": "Ideal arithmetic; includes the invertible elements for which null is returned."
  },
  {
   "property": "C19",
   "status": "proved",
   "theorems": [
    "Engabra.C19_from_cast",
    "Engabra.C19_cast_from",
    "Engabra.C19_complex_apply",
    "Engabra.C19_complex_rest",
    "Engabra.C19_quaternion_apply",
    "Engabra.C19_quaternion_rest"
   ],
   "note": ""
  },
  {
   "property": "C20",
   "status": "partial",
   "theorems": [
    "Engabra.C20_exp_bivector_partial",
    "Engabra.C20_exp_spinor_partial",
    "Engabra.C20_series_unique",
    "Engabra.C20_unit",
    "Engabra.C20_neg",
    "Engabra.C20_exp_scalar_factor",
    "Engabra.C20_add_in_plane",
    "Engabra.C20_exp_rotates",
    "Engabra.C20_unity_outside",
    "Engabra.C20_null_if_first_invalid",
    "Engabra.C20_fails",
    "Engabra.C20_nan_gives_unity"
   ],
   "note": "The series, except for bivectors whose direction has an invalid first component (then exp(B) is 1: C20_fails) or whose own first component is invalid (then null)."
  },
  {
   "property": "C21",
   "status": "partial",
   "theorems": [
    "Engabra.C21_exp_spinor_valued_partial",
    "Engabra.C21_exp_spinor_small",
    "Engabra.C21_fails_for_every_vector",
    "Engabra.C21_vector_value",
    "Engabra.C21_fails_for_every_trivector",
    "Engabra.C21_null"
   ],
   "note": "Series on spinor-valued arguments; false for every non-zero vector and every non-zero trivector. C47 says what the function computes instead."
  },
  {
   "property": "C22",
   "status": "proved",
   "theorems": [
    "Engabra.C22_grade",
    "Engabra.C22_add",
    "Engabra.C22_smul",
    "Engabra.C22_dot_general",
    "Engabra.C22_dot",
    "Engabra.C22_length",
    "Engabra.C22_cross_general",
    "Engabra.C22_det",
    "Engabra.C22_comp",
    "Engabra.C22_one",
    "Engabra.C22_inverse",
    "Engabra.C22_double_cover",
    "Engabra.C22_rodrigues"
   ],
   "note": "The rotation by exp((theta/2) dual n) is about -n."
  },
  {
   "property": "C23",
   "status": "partial",
   "theorems": [
    "Engabra.C23_exp_log_partial",
    "Engabra.C23_log_exp_partial",
    "Engabra.C23_near_identity",
    "Engabra.C23_near_minus_identity",
    "Engabra.C23_null",
    "Engabra.C23_fails"
   ],
   "note": "Main branch; outside it the exact result and an error bound are proved, and C23_fails."
  },
  {
   "property": "C24",
   "status": "partial",
   "theorems": [
    "Engabra.C24_sqrt_partial",
    "Engabra.C24_near_positive",
    "Engabra.C24_near_negative",
    "Engabra.C24_principal",
    "Engabra.C24_zero_below",
    "Engabra.C24_fails_below",
    "Engabra.C24_null"
   ],
   "note": "Main branch and scalars; elsewhere the exact result and an error bound; zero below 4 epsilon (C24_fails_below)."
  },
  {
   "property": "C25",
   "status": "proved",
   "theorems": [
    "Engabra.C25_array_defined",
    "Engabra.C25_array_empty_ub",
    "Engabra.C25_defined",
    "Engabra.C25_array_valid",
    "Engabra.C25_valid",
    "Engabra.C25_double_valid",
    "Engabra.C25_array_tolerance",
    "Engabra.C25_double_tolerance",
    "Engabra.C25_tolerance"
   ],
   "note": "Binary64, all types that have nearlyEquals. Also: the reads of the array version stay in bounds for the arrays the library uses, and the empty array is an out-of-bounds read."
  },
  {
   "property": "C26",
   "status": "proved",
   "theorems": [
    "Engabra.C26_double",
    "Engabra.C26_array",
    "Engabra.C26_reflexive"
   ],
   "note": "Binary64, all types that have nearlyEquals, all valid values including those whose squares overflow or underflow."
  },
  {
   "property": "C27",
   "status": "partial",
   "theorems": [
    "Engabra.C27_range_accepts",
    "Engabra.C27_range_rejects_partial",
    "Engabra.C27_zero_reference",
    "Engabra.C27_type_accepts",
    "Engabra.C27_type_accepted_partial",
    "Engabra.C27_exact",
    "Engabra.C27_exact_small",
    "Engabra.C27_double_rejects",
    "Engabra.C27_double_accepts",
    "Engabra.C27_fails_overflow",
    "Engabra.C27_fails_underflow",
    "Engabra.C27_fails_twice",
    "Engabra.C27_fails_tiny",
    "Engabra.C27_fails_symmetry"
   ],
   "note": "Exact arithmetic: the array test is characterised for every length (C27_exact, C27_exact_small). Binary64: the double version rejects and accepts as expected up to rounding. Arrays and the nine types in binary64: away from overflow and underflow (components up to 2^500, reference norm at least 2^-440, fewer than 1001 elements) the comparison accepts whenever the distance is at most tol*norm*(1-(2n+6)u) and rejects above tol*norm*(1+(2n+6)u), u = 2^-53 (C27_range_accepts, C27_range_rejects_partial, C27_type_accepts, C27_type_accepted_partial); a zero reference is compared componentwise (C27_zero_reference). Outside that range the expected property is false: C27_fails_overflow, C27_fails_underflow, C27_fails_twice, C27_fails_tiny; symmetry is false: C27_fails_symmetry."
  },
  {
   "property": "C28",
   "status": "proved",
   "theorems": [
    "Engabra.C28_double",
    "Engabra.C28_componentwise",
    "Engabra.C28_missing",
    "Engabra.C28_symmetric",
    "Engabra.C28_transitive",
    "Engabra.C28_reflexive_iff",
    "Engabra.C28_fails_bitwise"
   ],
   "note": "Binary64, all types with operator==; ComPlex and DirPlex have none (C28_missing). C28_fails_bitwise: the documented bit-wise identity is false for signed zeros."
  },
  {
   "property": "C29",
   "status": "proved",
   "theorems": [
    "Engabra.C29_array",
    "Engabra.C29_blades",
    "Engabra.C29_all_or_null",
    "Engabra.C29_ignores_old",
    "Engabra.C29_failed_stream",
    "Engabra.C29_isValid_iff",
    "Engabra.C29_rejects_only_subnormal",
    "Engabra.C29_valid_stream",
    "Engabra.C29_suffix",
    "Engabra.C29_fails_misaligned"
   ],
   "note": "Every type, every stream state, every text: each blade is the next numbers of the text, all valid, or all NaN; failed or exhausted stream gives all NaN and consumes nothing; isValid is exact after extraction; previous contents are ignored; no undefined behaviour. Recorded weakness: a subnormal number nulls a blade without failing the stream and the next blade is read from the wrong place (C29_fails_misaligned). Stream extraction of double itself is a model of libstdc++ num_get (Model/Text.lean)."
  },
  {
   "property": "C30",
   "status": "proved",
   "theorems": [
    "Engabra.C30_fixed_number",
    "Engabra.C30_enote_number",
    "Engabra.C30_fixed_width",
    "Engabra.C30_enote_width",
    "Engabra.C30_fails_enote_width",
    "Engabra.C30_fixed_object",
    "Engabra.C30_enote_object",
    "Engabra.C30_insert_text",
    "Engabra.C30_insert_width",
    "Engabra.C30_insert_state",
    "Engabra.C30_insert_appends",
    "Engabra.C30_put_changes_state",
    "Engabra.C30_fixed_words",
    "Engabra.C30_enote_words",
    "Engabra.C30_insert_words",
    "Engabra.C30_fixed_special",
    "Engabra.C30_enote_special",
    "Engabra.C30_insert_null"
   ],
   "note": "Text of fixed, enote and operator<< for every type, value, precision, width; one word per component; alignment; operator<< preserves the formatting state. Limits proved: negative numbers with three-digit exponents overflow the enote field; put(double) changes the caller's stream; no fixed/enote for ComPlex and DirPlex. printf formatting is a model of the standard library (Model/Text.lean)."
  },
  {
   "property": "C31",
   "status": "proved",
   "theorems": [
    "Engabra.C31_double",
    "Engabra.C31_object",
    "Engabra.C31_accuracy",
    "Engabra.C31_fails_default",
    "Engabra.C31_fails_max",
    "Engabra.C31_nonfinite",
    "Engabra.C31_insert",
    "Engabra.C31_fixed"
   ],
   "note": "Bit-exact round trip for 16 or more decimals for every finite double and every object with valid components; accuracy 10^-d for any d; default precision violated (C31_fails_default, C31_fails_max). operator<< / fixed read back within 10^-a."
  },
  {
   "property": "C32",
   "status": "proved",
   "theorems": [
    "Engabra.C32_add_comm",
    "Engabra.C32_neg_neg",
    "Engabra.C32_involutions",
    "Engabra.C32_central_comm",
    "Engabra.C32_complex_comm",
    "Engabra.C32_sub_anti",
    "Engabra.C32_distribute",
    "Engabra.C32_fails_distribute_bitwise",
    "Engabra.C32_neg_mul",
    "Engabra.C32_product_signs",
    "Engabra.C32_fails_product_signs_bitwise"
   ],
   "note": "Binary64. Distribution of the involutions over sums holds up to the sign of a zero only; C32_fails_distribute_bitwise is the counterexample to the bitwise form."
  },
  {
   "property": "C33",
   "status": "proved",
   "theorems": [
    "Engabra.C33_error",
    "Engabra.C33_no_overflow",
    "Engabra.C33_product",
    "Engabra.C33_nearest",
    "Engabra.C33_sum",
    "Engabra.C33_difference"
   ],
   "note": "Binary64, all hundred typed products, all typed sums and the non-reversed differences. C33_nearest says what correctly rounded means, without the model's rounding function."
  },
  {
   "property": "C34",
   "status": "partial",
   "theorems": [
    "Engabra.C34_fails_underflow",
    "Engabra.C34_fails_overflow",
    "Engabra.C34_magnitude",
    "Engabra.C34_direction",
    "Engabra.C34_unit",
    "Engabra.C34_valid_partial",
    "Engabra.C34_fails_subnormal",
    "Engabra.C34_magnitude_contracted",
    "Engabra.C34_magnitude_wide",
    "Engabra.C34_direction_partial",
    "Engabra.C34_unit_partial",
    "Engabra.C34_null_or_bounded",
    "Engabra.C34_null_iff",
    "Engabra.C34_overflow",
    "Engabra.C34_magnitude_total",
    "Engabra.C34_direction_total",
    "Engabra.C34_unit_total"
   ],
   "note": "Binary64, all ten types. C34_magnitude_wide: for all finite components with exact sum of squares at most 2^1022 the magnitude is finite and within 7 units roundoff plus 2^-529 of the length (C34_magnitude_contracted: the same however magSq is contracted, C57). C34_direction_partial and C34_unit_partial: for lengths of at least 2^-520 the direction is accurate to 10 units roundoff plus 2^-528 relative to the length, and of unit length. Sharper constants and validity of the result in the central range (C34_magnitude, C34_direction, C34_unit, C34_valid_partial). The unrestricted expectation is false: C34_fails_underflow and C34_fails_overflow for whole regions, C34_fails_subnormal by a witness. C34_overflow, C34_magnitude_total, C34_direction_total, C34_unit_total, C34_null_or_bounded and C34_null_iff close the bands between: the magnitude of any finite non-zero object is infinite, with sum of squares above 2^1024(1-9u), or within 6u of the length plus 2^-1070/length; the direction is accurate from length 2^-530 up to overflow; it is null exactly when every squared component is at most 2^-1075, and otherwise every component of it is finite and at most 5/4."
  },
  {
   "property": "C35",
   "status": "proved",
   "theorems": [
    "Engabra.C35_split",
    "Engabra.C35_symm",
    "Engabra.C35_antisymm",
    "Engabra.C35_lagrange",
    "Engabra.C35_anticommute_iff",
    "Engabra.C35_commute_iff"
   ],
   "note": ""
  },
  {
   "property": "C36",
   "status": "proved",
   "theorems": [
    "Engabra.C36_centre",
    "Engabra.C36_even_even",
    "Engabra.C36_odd_odd",
    "Engabra.C36_even_odd",
    "Engabra.C36_odd_even",
    "Engabra.C36_decompose"
   ],
   "note": ""
  },
  {
   "property": "C37",
   "status": "partial",
   "theorems": [
    "Engabra.C37_exp_prints",
    "Engabra.C37_exp_silent_partial"
   ],
   "note": "Violated: exp(MultiVector) writes ten lines to std::cout for every valid argument."
  },
  {
   "property": "C38",
   "status": "proved",
   "theorems": [
    "Engabra.C38_pi_rounded",
    "Engabra.C38_pi_nearest",
    "Engabra.C38_angles_rounded",
    "Engabra.C38_angles_exact",
    "Engabra.C38_pi_below",
    "Engabra.C38_basis_squares",
    "Engabra.C38_basis_volume",
    "Engabra.C38_basis_bivectors",
    "Engabra.C38_basis_dual",
    "Engabra.C38_basis_span"
   ],
   "note": "The value of the literal 3.141592653589793 is rounded by the model of binary64; pi bounds from Mathlib. The basis relations hold over any commutative ring."
  },
  {
   "property": "C39",
   "status": "proved",
   "theorems": [
    "Engabra.C39_magnitude_even",
    "Engabra.C39_scale_commutes",
    "Engabra.C39_direction_odd",
    "Engabra.C39_direction_mv",
    "Engabra.C39_inverse_odd",
    "Engabra.C39_dual_magnitude"
   ],
   "note": "direction of a MultiVector without a direction is excluded: null<MultiVector>() has zeros whose sign would change."
  },
  {
   "property": "C40",
   "status": "proved",
   "theorems": [
    "Engabra.C40_isValid_even",
    "Engabra.C40_nearlyEqualsArr_even",
    "Engabra.C40_nearlyEquals_even",
    "Engabra.C40_nearlyEquals_dual",
    "Engabra.C40_nearlyEqualsArr_mono",
    "Engabra.C40_nearlyEquals_mono"
   ],
   "note": "At binary64, all special values included."
  },
  {
   "property": "C41",
   "status": "proved",
   "theorems": [
    "Engabra.C41_loop_unique",
    "Engabra.C41_sequence",
    "Engabra.C41_loop",
    "Engabra.C41_insert",
    "Engabra.C41_insert_state"
   ],
   "note": "The reading programs are specified by the relations ReadSeq and ReadLoop; the latter is proved deterministic. Standard library number input and output are modelled, see DESIGN.md."
  },
  {
   "property": "C42",
   "status": "proved",
   "theorems": [
    "Engabra.C42_static_types",
    "Engabra.C42_expression",
    "Engabra.C42_rewrite"
   ],
   "note": "The excluded subtractions are the known defect recorded under C05."
  },
  {
   "property": "C43",
   "status": "proved",
   "theorems": [
    "Engabra.C43_nan_never_lost",
    "Engabra.C43_valid_inputs"
   ],
   "note": "About components. The library's isValid(object) itself looks at fewer components (C11), so this is stated with the component-wise check."
  },
  {
   "property": "C44",
   "status": "proved",
   "theorems": [
    "Engabra.C44_expression_error",
    "Engabra.C44_sums",
    "Engabra.C44_sum_loop",
    "Engabra.C44_sum_loop_defined"
   ],
   "note": "Round to nearest even without contraction or extended precision, as in the F64 model. Sub-expressions using the six subtractions of C05 are excluded."
  },
  {
   "property": "C45",
   "status": "proved",
   "theorems": [
    "Engabra.C45_product_loop",
    "Engabra.C45_unit_loop",
    "Engabra.C45_rotate_loop",
    "Engabra.C45_compose",
    "Engabra.C45_length"
   ],
   "note": "Round to nearest even, no contraction. rounded_unit shows that every exactly unit spinor rounded to binary64 meets the unit hypothesis."
  },
  {
   "property": "C46",
   "status": "proved",
   "theorems": [
    "Engabra.C46_exp",
    "Engabra.C46_exp_spinor",
    "Engabra.C46_unit",
    "Engabra.C46_turns",
    "Engabra.C46_tiny",
    "Engabra.C46_fails_overflow",
    "Engabra.C46_fails_subnormal",
    "Engabra.C46_exp_total",
    "Engabra.C46_exp_spinor_total",
    "Engabra.C46_unit_total",
    "Engabra.C46_one",
    "Engabra.C46_fails_ratio",
    "Engabra.C46_overflow"
   ],
   "note": "The libm is a hypothesis on accuracy (refLibM, correctly rounded, meets it); round to nearest even, no contraction. C46_exp_total covers every finite bivector up to the overflow threshold; a subnormal first component of the direction loses the rotation (C46_fails_ratio, C20)."
  },
  {
   "property": "C47",
   "status": "proved",
   "theorems": [
    "Engabra.C47_wrong_algebra",
    "Engabra.C47_wrong_algebra_bound",
    "Engabra.C47_series",
    "Engabra.C47_exists_unique",
    "Engabra.C47_without_vector",
    "Engabra.C47_without_bivector"
   ],
   "note": "Ideal arithmetic. Arguments that have both a vector and a bivector part are covered by the identity with the other algebra's series, not by an exact criterion for agreement."
  },
  {
   "property": "C48",
   "status": "proved",
   "theorems": [
    "Engabra.C48_inverse",
    "Engabra.C48_product",
    "Engabra.C48_nearly",
    "Engabra.C48_fails_default"
   ],
   "note": "Binary64 model. C48_fails_default shows that the tolerance in C48_nearly cannot be lowered to the default epsilon."
  },
  {
   "property": "C49",
   "status": "proved",
   "theorems": [
    "Engabra.C49_exact",
    "Engabra.C49_integers",
    "Engabra.C49_small_integers",
    "Engabra.C49_identities",
    "Engabra.C49_bound_sharp"
   ],
   "note": "Binary64 model. C49_bound_sharp: 2^53 + 1 is not exact."
  },
  {
   "property": "C50",
   "status": "proved",
   "theorems": [
    "Engabra.C50_product",
    "Engabra.C50_sum",
    "Engabra.C50_difference",
    "Engabra.C50_unary",
    "Engabra.C50_expression",
    "Engabra.C50_equal",
    "Engabra.C50_finite_needed"
   ],
   "note": "Binary64 model; C50_product is an equivalence: agreement for all finite operands iff the pair is not in the list of 27. Infinite operands: C50_finite_needed."
  },
  {
   "property": "C51",
   "status": "proved",
   "theorems": [
    "Engabra.C51_log",
    "Engabra.C51_log_unique",
    "Engabra.C51_exp_log",
    "Engabra.C51_sqrt"
   ],
   "note": "The libm is a hypothesis on accuracy (refLibLog, correctly rounded, meets it). Off the real axis: |w| <= (1 - 2^-49)|S|. Round trip and root need a first bivector component that is zero or at least 2^-300 of the bivector (a subnormal direction component is taken for invalid, C46)."
  },
  {
   "property": "C52",
   "status": "proved",
   "theorems": [
    "Engabra.C52_magnitude",
    "Engabra.C52_direction",
    "Engabra.C52_direction_pow2",
    "Engabra.C52_direction_axis",
    "Engabra.C52_direction_twice",
    "Engabra.C52_direction_49"
   ],
   "note": "The range keeps the squares clear of overflow and underflow."
  },
  {
   "property": "C53",
   "status": "proved",
   "theorems": [
    "Engabra.C53_log_dominant_pos",
    "Engabra.C53_log_dominant_neg",
    "Engabra.C53_exp_log",
    "Engabra.C53_sqrt",
    "Engabra.C53_exp_log_lost"
   ],
   "note": "D central and, like the bivector part of S, with first component zero or at least 2^-300 of its magnitude (see C46)."
  },
  {
   "property": "C54",
   "status": "proved",
   "theorems": [
    "Engabra.C54_expression",
    "Engabra.C54_scale",
    "Engabra.C54_product",
    "Engabra.C54_sum",
    "Engabra.C54_difference",
    "Engabra.C54_magnitude",
    "Engabra.C54_direction",
    "Engabra.C54_inverse",
    "Engabra.C54_array_nearlyEquals",
    "Engabra.C54_nearlyEquals",
    "Engabra.C54_fails_zero_reference"
   ],
   "note": "The counterexample C54_fails_zero_reference shows that the condition on the reference grades is needed."
  },
  {
   "property": "C55",
   "status": "proved",
   "theorems": [
    "Engabra.C55_documented_rows",
    "Engabra.C55_documented_types",
    "Engabra.C55_symmetric",
    "Engabra.C55_closed",
    "Engabra.C55_type_holds_its_grades",
    "Engabra.C55_product_type_exact",
    "Engabra.C55_sum_type_exact",
    "Engabra.C55_difference_type_exact",
    "Engabra.C55_double_sums",
    "Engabra.C55_dual_type_exact",
    "Engabra.C55_blade_trait",
    "Engabra.C55_double_not_blade",
    "Engabra.C55_named_tests",
    "Engabra.C55_named_tests_exclusive"
   ],
   "note": "Over the real numbers."
  },
  {
   "property": "C56",
   "status": "proved",
   "theorems": [
    "Engabra.C56_inverse_complex",
    "Engabra.C56_inverse_mv",
    "Engabra.C56_product",
    "Engabra.C56_fails_cancellation"
   ],
   "note": "The complex library is a parameter with the stated accuracy (LibcOk); the schoolbook product with rounded quotient and norm (refLibC) satisfies it with 2^-48."
  },
  {
   "property": "C57",
   "status": "proved",
   "theorems": [
    "Engabra.C57_expression",
    "Engabra.C57_uncontracted",
    "Engabra.C57_two_builds",
    "Engabra.C57_product",
    "Engabra.C57_integers",
    "Engabra.C57_small_integers",
    "Engabra.C57_bounded_operands",
    "Engabra.C57_magSq_nonneg",
    "Engabra.C57_magSq",
    "Engabra.C57_fails_square"
   ],
   "note": "Contracted (Model/Fused.lean) lists the allowed evaluations of an arithmetic term: each sum or difference with a product (possibly negated) as an operand may be fused. No reassociation and no value-changing optimisations."
  },
  {
   "property": "C58",
   "status": "proved",
   "theorems": [
    "Engabra.C58_angle",
    "Engabra.C58_readme_types",
    "Engabra.C58_vector",
    "Engabra.C58_moment",
    "Engabra.C58_position",
    "Engabra.C58_rigid",
    "Engabra.C58_turn_axis",
    "Engabra.C58_turn_plane"
   ],
   "note": "The README's Vector{ spinor * v * reverse(spinor) } is read as the vector part of the ImSpin result (no such converting constructor exists in the headers). Angles as in `Angle`: each component is zero or has magnitude from 2^-399 to 2^501."
  },
  {
   "property": "C59",
   "status": "proved",
   "theorems": [
    "Engabra.C59_root",
    "Engabra.C59_exact",
    "Engabra.C59_rotor"
   ],
   "note": "Valid, OffAxis and FirstFair (first bivector component zero or at least 2^-300 of the bivector's length) are conditions on the computed product b*a. Near the axis the root falls under C24 and C53."
  },
  {
   "property": "C60",
   "status": "proved",
   "theorems": [
    "Engabra.C60_array",
    "Engabra.C60_zero_signs",
    "Engabra.C60_equal_args",
    "Engabra.C60_equal_accepts",
    "Engabra.C60_promote",
    "Engabra.C60_close",
    "Engabra.C60_close_double",
    "Engabra.C60_close_all",
    "Engabra.C60_polar_near",
    "Engabra.C60_polar",
    "Engabra.C60_unit",
    "Engabra.C60_text",
    "Engabra.C60_inverse_twice"
   ],
   "note": "The thresholds are sufficient, not claimed to be the least possible. The double overload compares by another rule, so promotion of double is left out."
  },
  {
   "property": "C61",
   "status": "proved",
   "theorems": [
    "Engabra.C61_square",
    "Engabra.C61_root",
    "Engabra.C61_principal",
    "Engabra.C61_axis",
    "Engabra.C61_fails_branch"
   ],
   "note": "Every type, under the specification LibcSqrtOk of std::sqrt(std::complex<double>), which a reference library is proved to meet. C61_fails_branch: on the cut the other root may be returned."
  },
  {
   "property": "C62",
   "status": "partial",
   "theorems": [
    "Engabra.C62_fails_type",
    "Engabra.C62_same_partial",
    "Engabra.C62_off_cut_partial"
   ],
   "note": "False of the code: C62_fails_type shows that amplitude of every vector v stored as DirPlex{v, zero} is -|v| e123, but +|v| e123 as Vector or MultiVector. Proved: agreement up to rounding and up to the choice of the root (C62_same_partial), and of the root off the branch cut (C62_off_cut_partial)."
  },
  {
   "property": "C63",
   "status": "proved",
   "theorems": [
    "Engabra.C63_exp_mv",
    "Engabra.C63_spinor_valued",
    "Engabra.C63_two_exps",
    "Engabra.C63_odd_grades",
    "Engabra.C63_vector_wrong"
   ],
   "note": "Under the specifications LibmOk and LibmExpOk of std::sin, std::cos, std::exp, which a correctly rounded library is proved to meet. The series is that of the other algebra (C47); C63_vector_wrong shows what this costs."
  },
  {
   "property": "C64",
   "status": "proved",
   "theorems": [
    "Engabra.C64_value",
    "Engabra.C64_cube_fits",
    "Engabra.C64_sq_compiles",
    "Engabra.C64_cube_compiles",
    "Engabra.C64_magnitude",
    "Engabra.C64_turns",
    "Engabra.C64_de_moivre",
    "Engabra.C64_complex_roots",
    "Engabra.C64_spinor_roots",
    "Engabra.C64_mv_square_iff",
    "Engabra.C64_mv_cube_iff",
    "Engabra.C64_mv_magnitude",
    "Engabra.C64_even",
    "Engabra.C64_odd"
   ],
   "note": "Real arithmetic, the last claim in binary64. cube(Vector), cube(BiVector), cube(DirPlex) do not compile though their values fit (C64_cube_fits)."
  },
  {
   "property": "C65",
   "status": "proved",
   "theorems": [
    "Engabra.C65_solve_blade",
    "Engabra.C65_solve_mv",
    "Engabra.C65_solve_complex",
    "Engabra.C65_left_binary64",
    "Engabra.C65_right_binary64",
    "Engabra.C65_put_back",
    "Engabra.C65_mv_binary64",
    "Engabra.C65_header_product_fails",
    "Engabra.C65_header_equation"
   ],
   "note": "The header's product example is refuted (C65_header_product_fails); everything else holds."
  },
  {
   "property": "C66",
   "status": "proved",
   "theorems": [
    "Engabra.C66_turn_binary64",
    "Engabra.C66_project_line",
    "Engabra.C66_reject_line",
    "Engabra.C66_reflect",
    "Engabra.C66_half_turn",
    "Engabra.C66_project_plane",
    "Engabra.C66_reject_plane",
    "Engabra.C66_reflect_plane",
    "Engabra.C66_squares",
    "Engabra.C66_angle",
    "Engabra.C66_plane",
    "Engabra.C66_volume",
    "Engabra.C66_mirror_binary64",
    "Engabra.C66_mirror_plane_binary64",
    "Engabra.C66_project_line_binary64",
    "Engabra.C66_reject_line_binary64",
    "Engabra.C66_project_plane_binary64",
    "Engabra.C66_reject_plane_binary64",
    "Engabra.C66_every_isometry",
    "Engabra.C66_every_rotation",
    "Engabra.C66_rotation_unique",
    "Engabra.C66_spinor_rotates",
    "Engabra.C66_orthogonal",
    "Engabra.C66_parallel",
    "Engabra.C66_orthogonal_triple",
    "Engabra.C66_vector_equation"
   ],
   "note": "Euclidean space, projections, reflections, angles, determinants and volume are Mathlib's own."
  },
  {
   "property": "C67",
   "status": "proved",
   "theorems": [
    "Engabra.C67_unit",
    "Engabra.C67_drift",
    "Engabra.C67_rigid",
    "Engabra.C67_steady_unit",
    "Engabra.C67_steady_turns",
    "Engabra.C67_plain_diverges"
   ],
   "note": "The loops are client code written with the modelled direction, exp, reverse and products; the library itself has no such loop."
  },
  {
   "property": "C68",
   "status": "proved",
   "theorems": [
    "Engabra.C68_solve",
    "Engabra.C68_iff",
    "Engabra.C68_vectors",
    "Engabra.C68_same",
    "Engabra.C68_null"
   ],
   "note": "Exact arithmetic (the guards of inverse are kept). The expression is client code; the library does not provide the function named in its README."
  },
  {
   "property": "C69",
   "status": "proved",
   "theorems": [
    "Engabra.C69_sums",
    "Engabra.C69_mul",
    "Engabra.C69_mul_finite",
    "Engabra.C69_fails_infinite",
    "Engabra.C69_fails_abs"
   ],
   "note": "The specification of std::complex is written out in the file (Annex G.5.1 product); the sign of a NaN is not modelled. The README's 'same behavior' does not extend to infinities and std::abs, which is proved (C69_fails_infinite, C69_fails_abs)."
  },
  {
   "property": "C70",
   "status": "proved",
   "theorems": [
    "Engabra.C70_loop",
    "Engabra.C70_guarded",
    "Engabra.C70_guarded_unique",
    "Engabra.C70_prefix",
    "Engabra.C70_silent"
   ],
   "note": "Stream state is modelled as in C29/C31 (eofbit, failbit; num_get accumulation and strtod as in libstdc++). The writer and reading loops are client code; the library only supplies enote and operator>>."
  },
  {
   "property": "C71",
   "status": "proved",
   "theorems": [
    "Engabra.C71_insert",
    "Engabra.C71_after_failure",
    "Engabra.C71_records",
    "Engabra.C71_recover"
   ],
   "note": "Device failure is modelled as in libstdc++: a formatted insertion writes the characters that fit and sets badbit if some do not; insertion into a stream that is not good does nothing. The width reset by the insertion that fails is that of the unlimited device."
  },
  {
   "property": "C72",
   "status": "proved",
   "theorems": [
    "Engabra.C72_array",
    "Engabra.C72_object",
    "Engabra.C72_quiet",
    "Engabra.C72_failbit",
    "Engabra.C72_eof_throws",
    "Engabra.C72_mixture"
   ],
   "note": "basic_ios::clear is modelled as in libstdc++: the value is stored, then the state is set, then ios_base::failure is thrown; badbit (device errors on input) is not modelled."
  },
  {
   "property": "C73",
   "status": "proved",
   "theorems": [
    "Engabra.C73_local",
    "Engabra.C73_progress",
    "Engabra.C73_ends",
    "Engabra.C73_guarded_prefix",
    "Engabra.C73_plain_prefix",
    "Engabra.C73_newline",
    "Engabra.C73_whole",
    "Engabra.C73_concat",
    "Engabra.C73_whole_unique",
    "Engabra.C73_records"
   ],
   "note": "Text to number as in libstdc++ (C29). The loops are client code. The exception for the last object of the plain loop is real: C70_silent."
  },
  {
   "property": "C74",
   "status": "proved",
   "theorems": [
    "Engabra.C74_every",
    "Engabra.C74_unique",
    "Engabra.C74_rotation",
    "Engabra.C74_gimbal",
    "Engabra.C74_recover"
   ],
   "note": "Real arithmetic; the rounding errors of attitude computations are C58. The half of an angle below the smallest normal double in magnitude is treated as zero by the code, hence the condition on the angles."
  },
  {
   "property": "C75",
   "status": "proved",
   "theorems": [
    "Engabra.C75_slerp",
    "Engabra.C75_ends",
    "Engabra.C75_even",
    "Engabra.C75_rate",
    "Engabra.C75_steps",
    "Engabra.C75_back",
    "Engabra.C75_middle",
    "Engabra.C75_frame",
    "Engabra.C75_between"
   ],
   "note": "Real arithmetic; the conditions on the relative attitude are those of logG2 and exp (C20, C23), whose validity test looks at the first component of the bivector. Rounding errors of the pieces are C46 and C51."
  },
  {
   "property": "C76",
   "status": "proved",
   "theorems": [
    "Engabra.C76_line_plane",
    "Engabra.C76_two_lines",
    "Engabra.C76_lines_meet",
    "Engabra.C76_independent",
    "Engabra.C76_coordinates",
    "Engabra.C76_three_planes",
    "Engabra.C76_sphere"
   ],
   "note": "Exact real arithmetic. Points, inner products, distances and linear independence are those of Mathlib's Euclidean space."
  },
  {
   "property": "C77",
   "status": "proved",
   "theorems": [
    "Engabra.C77_one",
    "Engabra.C77_add",
    "Engabra.C77_zero_neg",
    "Engabra.C77_root",
    "Engabra.C77_power"
   ],
   "note": "Extends C51 (t = 1/2 and t = 1) to every real exponent including negative ones."
  },
  {
   "property": "C78",
   "status": "proved",
   "theorems": [
    "Engabra.C78_slerp_power",
    "Engabra.C78_interp",
    "Engabra.C78_moderate"
   ],
   "note": "Binary64 counterpart of C75. Uses that powers with exponent in [0,1] do not increase the distance of two rotations in the same half of the sphere."
  },
  {
   "property": "C79",
   "status": "proved",
   "theorems": [
    "Engabra.C79_angle",
    "Engabra.C79_angle_binary64"
   ],
   "note": "The answer for pairs within the tolerance of parallel is that of C23/C53 (real branch); the bound needs the computed product off the axis."
  },
  {
   "property": "C80",
   "status": "proved",
   "theorems": [
    "Engabra.C80_polar",
    "Engabra.C80_polar_binary64"
   ],
   "note": "Follows the definition of amplitude and phase in math/PolarForm.lyx."
  },
  {
   "property": "C81",
   "status": "proved",
   "theorems": [
    "Engabra.C81_sampled",
    "Engabra.C81_midpoint",
    "Engabra.C81_constant",
    "Engabra.C81_sampled_binary64",
    "Engabra.C81_midpoint_binary64"
   ],
   "note": "C81_sampled, C81_midpoint and C81_constant are about the exact rotations `turns` of C58; C81_sampled_binary64 and C81_midpoint_binary64 are about the loop itself in double precision with an abstract math library."
  },
  {
   "property": "C82",
   "status": "proved",
   "theorems": [
    "Engabra.C82_object",
    "Engabra.C82_broken",
    "Engabra.C82_stays_broken",
    "Engabra.C82_loop",
    "Engabra.C82_no_wrong_object",
    "Engabra.C82_records",
    "Engabra.C82_contrast"
   ],
   "note": "Model of badbit: Model/Device.lean, with libstdc++ behaviour (the stream buffer throws on a read error). A single double is covered by C82_object, C82_loop, C82_no_wrong_object."
  },
  {
   "property": "C83",
   "status": "proved",
   "theorems": [
    "Engabra.C83_text",
    "Engabra.C83_round_trip",
    "Engabra.C83_insert",
    "Engabra.C83_mismatch",
    "Engabra.C83_silent"
   ],
   "note": "Digit grouping (thousands separators) is not modelled; locales without grouping only. The silent misreading is a consequence of the library's code (C83_silent), stated as a fact and not a violation of a documented claim."
  },
  {
   "property": "C84",
   "status": "proved",
   "theorems": [
    "Engabra.C84_mode_meaning",
    "Engabra.C84_modes",
    "Engabra.C84_expression",
    "Engabra.C84_size",
    "Engabra.C84_two",
    "Engabra.C84_product",
    "Engabra.C84_covers",
    "Engabra.C84_integers",
    "Engabra.C84_magSq_enclosed",
    "Engabra.C84_magSq",
    "Engabra.C84_magnitude",
    "Engabra.C84_magnitude_enclosed",
    "Engabra.C84_small_integers"
   ],
   "note": "The difference of types that the library subtracts in the wrong order (C11) is excluded by hypothesis, as in C57. Overflow is excluded by describing results without an upper bound of the exponent; C84_size bounds all values."
  },
  {
   "property": "C85",
   "status": "proved",
   "theorems": [
    "Engabra.C85_reference_accuracy",
    "Engabra.C85_rounds",
    "Engabra.C85_vectors_fail",
    "Engabra.C85_trivectors_fail",
    "Engabra.C85_reference_returns",
    "Engabra.C85_reference_hangs",
    "Engabra.C85_reference_nan"
   ],
   "note": "The two theorems on vectors and trivectors show why the repository's tests of exp(MultiVector) are disabled: the reference is right and the library's function is not (C21, C47)."
  },
  {
   "property": "C86",
   "status": "proved",
   "theorems": [
    "Engabra.C86_check",
    "Engabra.C86_verdict",
    "Engabra.C86_pass_valid",
    "Engabra.C86_default",
    "Engabra.C86_inverse_verdict",
    "Engabra.C86_inverse_text",
    "Engabra.C86_inverse_blades",
    "Engabra.C86_inverse_default",
    "Engabra.C86_inverse_misses",
    "Engabra.C86_report_same"
   ],
   "note": "checkGotExp, checkInverse and main are modelled with their text; the inverse is an argument of the model of checkInverse, so that wrong inverses can be put in."
  },
  {
   "property": "C87",
   "status": "proved",
   "theorems": [
    "Engabra.C87_fixed_number",
    "Engabra.C87_fixed_object",
    "Engabra.C87_enote_text",
    "Engabra.C87_no_separator",
    "Engabra.C87_round_trip",
    "Engabra.C87_insert",
    "Engabra.C87_fixed",
    "Engabra.C87_groups",
    "Engabra.C87_groups_short",
    "Engabra.C87_long_group",
    "Engabra.C87_stray",
    "Engabra.C87_foreign",
    "Engabra.C87_thousand",
    "Engabra.C87_fails_width"
   ],
   "note": "The streams are those of libstdc++; only groups of three are modelled (numpunct::grouping() = \"\\3\"); the violation of the documented width is C87_fails_width."
  },
  {
   "property": "C88",
   "status": "proved",
   "theorems": [
    "Engabra.C88_fixed_number",
    "Engabra.C88_enote_number",
    "Engabra.C88_object",
    "Engabra.C88_in_range",
    "Engabra.C88_default",
    "Engabra.C88_round_trip",
    "Engabra.C88_fails_round_trip",
    "Engabra.C88_fixed"
   ],
   "note": "Violates the expectation that more decimals are at least as accurate: C88_fails_round_trip. Reading back of io::fixed up to 306 decimals. Memory is assumed to suffice."
  },
  {
   "property": "C89",
   "status": "proved",
   "theorems": [
    "Engabra.C89_values",
    "Engabra.C89_finite_iff",
    "Engabra.C89_null",
    "Engabra.C89_invalid_iff",
    "Engabra.C89_bounded",
    "Engabra.C89_direction_values",
    "Engabra.C89_direction",
    "Engabra.C89_direction_invalid",
    "Engabra.C89_inverse_values",
    "Engabra.C89_inverse",
    "Engabra.C89_compare_values",
    "Engabra.C89_compare_null",
    "Engabra.C89_compare",
    "Engabra.C89_direction_null"
   ],
   "note": "Flags inexact and underflow, contraction, and the library functions other than sqrt are not covered."
  },
  {
   "property": "C90",
   "status": "proved",
   "theorems": [
    "Engabra.C90_symmetric",
    "Engabra.C90_transitive",
    "Engabra.C90_chain",
    "Engabra.C90_chain_linear",
    "Engabra.C90_never_transitive",
    "Engabra.C90_double_symmetric",
    "Engabra.C90_double_chain"
   ],
   "note": "Grades that are zero in one object only are excluded in (1)-(3); exact symmetry is refuted by C27_fails_symmetry."
  },
  {
   "property": "C91",
   "status": "proved",
   "theorems": [
    "Engabra.C91_spinor",
    "Engabra.C91_product",
    "Engabra.C91_dual",
    "Engabra.C91_expr",
    "Engabra.C91_magSq",
    "Engabra.C91_magnitude",
    "Engabra.C91_direction",
    "Engabra.C91_inverse",
    "Engabra.C91_ampSq",
    "Engabra.C91_inverse_cplx",
    "Engabra.C91_inverse_mv",
    "Engabra.C91_exp",
    "Engabra.C91_exp_biv",
    "Engabra.C91_exp_mv",
    "Engabra.C91_log",
    "Engabra.C91_amplitude",
    "Engabra.C91_amplitude_mirror",
    "Engabra.C91_exp_depends",
    "Engabra.C91_nearly",
    "Engabra.C91_nearly_zero_depends",
    "Engabra.C91_flip_expr",
    "Engabra.C91_flip_magSq",
    "Engabra.C91_flip_magnitude",
    "Engabra.C91_flip_direction",
    "Engabra.C91_flip_inverse",
    "Engabra.C91_flip_nearly",
    "Engabra.C91_turn_rounds"
   ],
   "note": "Parts (1)-(4) over a commutative ring or the reals; the binary64 part covers reversed axes, where it is exact. C91_exp_depends, C91_nearly_zero_depends, C91_amplitude_mirror and C91_turn_rounds are the exceptions."
  },
  {
   "property": "C92",
   "status": "proved",
   "theorems": [
    "Engabra.C92_magnitude",
    "Engabra.C92_real",
    "Engabra.C92_vector",
    "Engabra.C92_trivector",
    "Engabra.C92_imspin",
    "Engabra.C92_even",
    "Engabra.C92_rejects",
    "Engabra.C92_differ"
   ],
   "note": "ComPlex and DirPlex are in (1) and (2) only; see C61 and C62 for these types. C92_rejects and C92_differ are the negative results."
  },
  {
   "property": "C93",
   "status": "proved",
   "theorems": [
    "Engabra.C93_always",
    "Engabra.C93_rejects",
    "Engabra.C93_accepts",
    "Engabra.C93_accepts_example"
   ],
   "note": "C93_rejects is the negative result; the operands of the test program itself (decimal fractions) are not evaluated."
  },
  {
   "property": "C94",
   "status": "proved",
   "theorems": [
    "Engabra.C94_datum_of_word",
    "Engabra.C94_word_of_datum",
    "Engabra.C94_one_word",
    "Engabra.C94_sign",
    "Engabra.C94_isnormal",
    "Engabra.C94_rounding",
    "Engabra.C94_rounding_unique",
    "Engabra.C94_add",
    "Engabra.C94_sub",
    "Engabra.C94_mul",
    "Engabra.C94_div",
    "Engabra.C94_sqrt",
    "Engabra.C94_fma",
    "Engabra.C94_literal",
    "Engabra.C94_compare",
    "Engabra.C94_pi_word"
   ],
   "note": "The platform (IEEE 754 words, roundTiesToEven) is still assumed; C94 shows that the model is what the standard defines, except that all NaN are one."
  },
  {
   "property": "C95",
   "status": "proved",
   "theorems": [
    "Engabra.C95_read",
    "Engabra.C95_read_only",
    "Engabra.C95_token",
    "Engabra.C95_fixed",
    "Engabra.C95_scientific",
    "Engabra.C95_general"
   ],
   "note": "The stream functions are of the C++ library, so the theorems are on the model of that library (Model/Text.lean) against a specification of the C standard; that the library of the platform conforms is assumed."
  },
  {
   "property": "C96",
   "status": "proved",
   "theorems": [
    "Engabra.C96_div",
    "Engabra.C96_sqrt",
    "Engabra.C96_inverse",
    "Engabra.C96_magnitude",
    "Engabra.C96_direction",
    "Engabra.C96_function_values",
    "Engabra.C96_sticky_div",
    "Engabra.C96_direction_axis",
    "Engabra.C96_direction_iff",
    "Engabra.C96_add",
    "Engabra.C96_mul",
    "Engabra.C96_values",
    "Engabra.C96_exact",
    "Engabra.C96_sticky",
    "Engabra.C96_underflow_inexact",
    "Engabra.C96_integers",
    "Engabra.C96_not_conversely",
    "Engabra.C96_inverse_iff"
   ],
   "note": "Operators + - * and unary minus, inverse of blades, magnitude and direction. Underflow is the one for results tiny before rounding; an implementation may raise it for those tiny after rounding only, which are fewer."
  },
  {
   "property": "C97",
   "status": "proved",
   "theorems": [
    "Engabra.C97_numerals",
    "Engabra.C97_word",
    "Engabra.C97_object"
   ],
   "note": "NaN has no sign in the number model; the text -nan is covered by (2). Subnormal numerals are C29 (rejected without failure of the stream), overflowing ones C31 and C95."
  },
  {
   "property": "C98",
   "status": "proved",
   "theorems": [
    "Engabra.C98_three",
    "Engabra.C98_sizes",
    "Engabra.C98_fixed_number",
    "Engabra.C98_fixed_object",
    "Engabra.C98_enote_text",
    "Engabra.C98_no_separator",
    "Engabra.C98_round_trip",
    "Engabra.C98_insert",
    "Engabra.C98_fixed",
    "Engabra.C98_unique",
    "Engabra.C98_groups",
    "Engabra.C98_india"
   ],
   "note": "A locale whose first size is zero or at least 127 does not group: that is C83."
  },
  {
   "property": "C99",
   "status": "proved",
   "theorems": [
    "Engabra.C99_blank",
    "Engabra.C99_first",
    "Engabra.C99_written",
    "Engabra.C99_enote",
    "Engabra.C99_same"
   ],
   "note": ""
  },
  {
   "property": "C100",
   "status": "proved",
   "theorems": [
    "Engabra.C100_number",
    "Engabra.C100_longest",
    "Engabra.C100_numerals",
    "Engabra.C100_stop",
    "Engabra.C100_signs",
    "Engabra.C100_no_skip"
   ],
   "note": ""
  }
 ]
}