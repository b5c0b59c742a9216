{
 "claims": [
  {
   "property": "C01",
   "status": "proved",
   "theorems": [
    "Props.DivInt.C01_unsigned_div",
    "Props.DivInt.C01_unsigned_div_any_width",
    "Props.DivInt.C01_unsigned_div3"
   ],
   "note": "All widths and values; also the exact behaviour for narrow outputs and the three-argument overload."
  },
  {
   "property": "C02",
   "status": "proved",
   "theorems": [
    "Props.DivInt.C02_signed_div_any_width",
    "Props.DivInt.C02_signed_div",
    "Props.DivInt.C02_signed_div_overflow",
    "Props.DivInt.C02_signed_div3"
   ],
   "note": "All widths and values; the single overflowing case is characterised separately."
  },
  {
   "property": "C03",
   "status": "proved",
   "theorems": [
    "Props.DivInt.C03_div_by_zero_unsigned",
    "Props.DivInt.C03_div_by_zero_signed"
   ],
   "note": "All widths and dividends."
  },
  {
   "property": "C04",
   "status": "partial",
   "theorems": [
    "Props.DivFixed.C04_unsigned_partial",
    "Props.DivFixed.C04_unsigned_stale",
    "Props.DivFixed.C04_unsigned_wrong",
    "Props.DivFixed.C04_unsigned_zero_partial",
    "Props.DivFixed.C04_signed_sat",
    "Props.DivFixed.C04_signed_wrap_partial",
    "Props.DivFixed.C04_signed_junk",
    "Props.DivFixed.C04_signed_zero"
   ],
   "note": "Unsigned and signed, every format, rounding and overflow mode and operand, except instantiations in which no quotient bit can reach the output (unsigned) or that also wrap (signed); there the code leaves the quotient stale or uninitialized (proved with witnesses). Signed saturating outputs are covered completely."
  },
  {
   "property": "C05",
   "status": "proved",
   "theorems": [
    "Props.IntAlgos.C05_div_v2_any_width",
    "Props.IntAlgos.C05_div_v2",
    "Props.IntAlgos.C05_div_v2_rejects",
    "Props.IntAlgos.C05_div_v2_signed"
   ],
   "note": "Every width and every pair of operands, unsigned and signed; the iterative divider returns the truncated quotient and remainder."
  },
  {
   "property": "C06",
   "status": "proved",
   "theorems": [
    "Props.IntAlgos.C06_sqrt_floor",
    "Props.IntAlgos.C06_sqrt_output"
   ],
   "note": "Every input and output width."
  },
  {
   "property": "C07",
   "status": "proved",
   "theorems": [
    "Props.SqrtFixed.C07_correctly_rounded",
    "Props.SqrtFixed.C07_monotone",
    "Props.SqrtFixed.C07_exact"
   ],
   "note": "Every input and output format, every mode, every input word."
  },
  {
   "property": "C08",
   "status": "proved",
   "theorems": [
    "Props.IntAlgos.C08_abs_unsigned",
    "Props.IntAlgos.C08_abs_signed",
    "Props.IntAlgos.C08_abs_fixed"
   ],
   "note": "ac_int and ac_fixed; the float and complex overloads are not modelled."
  },
  {
   "property": "C09",
   "status": "proved",
   "theorems": [
    "Props.IntAlgos.C09_barrel_rotates",
    "Props.IntAlgos.C09_barrel_compose",
    "Props.IntAlgos.C09_barrel_inverse"
   ],
   "note": "Every width, every shift amount below the width."
  },
  {
   "property": "C10",
   "status": "partial",
   "theorems": [
    "Props.IntAlgos.C10_flag_partial",
    "Props.IntAlgos.C10_index_partial",
    "Props.IntAlgos.C10_index_wrong",
    "Props.IntAlgos.C10_index_wrong_witness"
   ],
   "note": "True for N <= 4; false for every N >= 5 (proved, with a witness). The flag output is right for every N."
  },
  {
   "property": "C11",
   "status": "proved",
   "theorems": [
    "Props.IntAlgos.C11_search_unsigned",
    "Props.IntAlgos.C11_search_signed"
   ],
   "note": "All four searches, unsigned and signed, every width and value."
  },
  {
   "property": "C12",
   "status": "partial",
   "theorems": [
    "Props.Normalize.C12_lossless_partial",
    "Props.Normalize.C12_range_partial",
    "Props.Normalize.C12_zero",
    "Props.Normalize.C12_lossless_wrong",
    "Props.Normalize.C12_complex_partial"
   ],
   "note": "Every format and input, real and complex, except AC_SAT_SYM signed inputs equal to a negative power of two, where losslessness is false (proved for every such format and power)."
  },
  {
   "property": "C13",
   "status": "partial",
   "theorems": [
    "Props.Shift.C13_right_unsigned",
    "Props.Shift.C13_right_signed",
    "Props.Shift.C13_right_unsigned_int",
    "Props.Shift.C13_right_signed_int",
    "Props.Shift.C13_left_unsigned",
    "Props.Shift.C13_left_unsigned_int",
    "Props.Shift.C13_left_signed_int",
    "Props.Shift.C13_left_signed_partial",
    "Props.Shift.C13_left_signed_wrong",
    "Props.Shift.C13_left_signed_versions_differ"
   ],
   "note": "All eight ac_fixed overloads, every format and mode, except the signed left shift with unsigned count into a wrapping output whose rounding mode looks at the sign; there the property is false (proved with a witness). The complex overloads apply these componentwise."
  },
  {
   "property": "C14",
   "status": "proved",
   "theorems": [
    "Props.Relu.C14_relu",
    "Props.Relu.C14_relu_nonneg",
    "Props.Relu.C14_relu_wrap_negative",
    "Props.Relu.C14_relu_mono",
    "Props.Relu.C14_relu_idem",
    "Props.Relu.C14_relu_id",
    "Props.Relu.C14_leakyrelu",
    "Props.Relu.C14_prelu",
    "Props.Relu.C14_leakyrelu_max",
    "Props.Relu.C14_leakyrelu_mono"
   ],
   "note": "Every format and mode; nonnegativity, monotonicity and idempotence for saturating outputs, with the wrapping counterexample."
  },
  {
   "property": "C15",
   "status": "partial",
   "theorems": [
    "Props.Matrix.C15_add",
    "Props.Matrix.C15_sub",
    "Props.Matrix.C15_pwisemult",
    "Props.Matrix.C15_mul_wrapped",
    "Props.Matrix.C15_mul_exact_iff",
    "Props.Matrix.C15_mul_partial",
    "Props.Matrix.C15_mul_signed_partial",
    "Props.Matrix.C15_mul_signed_wrong",
    "Props.Matrix.C15_mul_unsigned_wrong",
    "Props.Matrix.C15_mul_unsigned_two_wrong"
   ],
   "note": "+, - and pwisemult exact for all sizes and formats. operator* accumulates in a type with room for N-1 terms: exact for every inner dimension with the same carry bits, and for signed operands from inner dimension 3 on; proved wrong for signed inner dimension 2 at every width and for unsigned operands meeting the overflow condition."
  },
  {
   "property": "C16",
   "status": "proved",
   "theorems": [
    "Props.Matrix.C16_transpose",
    "Props.Matrix.C16_transpose_involutive",
    "Props.Matrix.C16_transpose_mul",
    "Props.Matrix.C16_eq",
    "Props.Matrix.C16_ne",
    "Props.Matrix.C16_ne_shape",
    "Props.Matrix.C16_submatrix",
    "Props.Matrix.C16_sum",
    "Props.Matrix.C16_scale",
    "Props.Matrix.C16_addAssign",
    "Props.Matrix.C16_subAssign",
    "Props.Matrix.C16_initialize",
    "Props.Matrix.C16_copy",
    "Props.Matrix.C16_det2",
    "Props.Matrix.C16_det3"
   ],
   "note": "All dimensions and contents. sum is characterised for wrapping element types."
  },
  {
   "property": "C17",
   "status": "partial",
   "theorems": [
    "Props.Matrix.C17_square_partial",
    "Props.Matrix.C17_square_short_partial",
    "Props.Matrix.C17_wide_out_of_bounds",
    "Props.Matrix.C17_tall_unwritten"
   ],
   "note": "The code indexes m_data[index / M][index % N]: correct for square matrices (proved), writes out of bounds for M < N and leaves rows unwritten for M > N (both proved)."
  },
  {
   "property": "C18",
   "status": "proved",
   "theorems": [
    "Props.Matrix.C18_matrixmul",
    "Props.Matrix.C18_frame"
   ],
   "note": "ac_fixed element types; the complex overload instantiates the same template over ac_complex and is not modelled. Input and output arrays are distinct objects."
  },
  {
   "property": "C19",
   "status": "proved",
   "theorems": [
    "Props.Determinant.C19_exact",
    "Props.Determinant.C19_one",
    "Props.Determinant.C19_two",
    "Props.Determinant.C19_signed_one",
    "Props.Determinant.C19_signed_two",
    "Props.Determinant.C19_signed_three_exact",
    "Props.Determinant.C19_signed_three",
    "Props.Determinant.C19_bounded",
    "Props.Determinant.C19_unsigned_one_wrong",
    "Props.Determinant.C19_unsigned_two_wrong",
    "Props.Determinant.C19_signed_four_wrong",
    "Props.Determinant.C19_output_type_wrong",
    "Props.Determinant.C19_negative_I_wrong"
   ],
   "note": "ac_fixed inputs, default internal types or the user's. Exact for every size when the intermediate values fit; unconditionally for signed 1x1, 2x2, 3x3 inputs with 0 <= I <= W; bounded entries for every size. Also proved: saturation for unsigned inputs, signed 4x4, negative I, and loss through the conversion of minors to the output type."
  },
  {
   "property": "C20",
   "status": "proved",
   "theorems": [
    "Props.Chol.C20_bijective",
    "Props.Chol.C20_offset"
   ],
   "note": "All sizes: bijection onto the packed array."
  },
  {
   "property": "C21",
   "status": "proved",
   "theorems": [
    "Props.Chol.C21_output",
    "Props.Chol.C21_fixed_first"
   ],
   "note": "All sizes, all element arithmetics (parameter), all inputs."
  },
  {
   "property": "C22",
   "status": "proved",
   "theorems": [
    "Props.Chol.C22_factor",
    "Props.Chol.C22_accepts_iff",
    "Props.Chol.C22_real"
   ],
   "note": "Exact real and complex arithmetic, all sizes; accepted exactly when positive definite."
  },
  {
   "property": "C23",
   "status": "partial",
   "theorems": [
    "Props.CholInv.C23_inverse_partial",
    "Props.CholInv.C23_rejected",
    "Props.CholInv.C23_not_posdef_wrong"
   ],
   "note": "Inverse proved in exact arithmetic for all sizes; the documented zero result for other matrices is false (C23_rejected, C23_not_posdef_wrong)."
  },
  {
   "property": "C24",
   "status": "partial",
   "theorems": [
    "Props.Qrd.C24_decomposition_partial",
    "Props.Qrd.C24_zero_pair_wrong",
    "Props.Qrd.C24_identity_wrong",
    "Props.Qrd.C24_two"
   ],
   "note": "Exact arithmetic, all sizes: proved for runs without division by zero; false otherwise (C24_zero_pair_wrong, C24_identity_wrong)."
  },
  {
   "property": "C25",
   "status": "partial",
   "theorems": [
    "Props.AddTree.C25_block",
    "Props.AddTree.C25_block_zero",
    "Props.AddTree.C25_block_plain",
    "Props.AddTree.C25_block_order",
    "Props.AddTree.C25_block_bound",
    "Props.AddTree.C25_tree",
    "Props.AddTree.C25_tree_exact",
    "Props.AddTree.C25_tree_order_matters",
    "Props.AddTree.C25_fixed_output",
    "Props.AddTreeCut.C25_cut_block",
    "Props.AddTreeCut.C25_cut_block_order",
    "Props.AddTreeCut.C25_cut_block_bound",
    "Props.AddTreeCut.C25_cut_tree",
    "Props.AddTreeCut.C25_float_block",
    "Props.AddTreeCut.C25_float_tree"
   ],
   "note": "Proved in full for block_add_tree (common exponent, exact integer sum, order independence, accuracy, fixed output), for AccExtraLSBs of either sign. For add_tree the claim is false as stated: pairwise truncation makes the order matter (C25_tree_order_matters); what holds (exponent of a non-zero operand, one-sided error of N-1 units, 2N-1 with negative AccExtraLSBs, exactness when exponents differ by at most AccExtraLSBs) is proved. For ac_float outputs the bounds hold for the mantissa and exponent given to the ac_float constructor, which is external and a parameter (C25_float_block, C25_float_tree)."
  },
  {
   "property": "C26",
   "status": "partial",
   "theorems": [
    "Props.StdAddTree.C26_nan",
    "Props.StdAddTree.C26_inf",
    "Props.StdAddTree.C26_overflow_wrong",
    "Props.StdAddTree.C26_subnormal_wrong",
    "Props.StdAddTree.C26_rounding_wrong",
    "Props.StdAddTree.C26_no_extra_bits_wrong",
    "Props.StdAddTreeValue.C26_overflow_partial"
   ],
   "note": "NaN and infinity handling proved for every operand count, format and mode. Overflow of two operands, or of more operands by less than a binade, is right (C26_overflow_partial). Otherwise the finite part of the claim is refuted by witnesses: overflow of three or more operands wraps (C26_overflow_wrong), subnormal results of three or more operands are scaled (C26_subnormal_wrong), the sticky bit is lost when the sum keeps its top bit (C26_rounding_wrong), AccExtraLSBs = 0 drops mantissa bits (C26_no_extra_bits_wrong)."
  },
  {
   "property": "C27",
   "status": "partial",
   "theorems": [
    "Props.FlfxMul.C27_float_subnormals",
    "Props.FlfxMul.C27_float_normal",
    "Props.FlfxMul.C27_float_not_normal_partial",
    "Props.FlfxMul.C27_float_not_normal_wrong",
    "Props.FlfxMul.C27_float_zero_partial",
    "Props.FlfxMul.C27_float_zero_wrong",
    "Props.FlfxMul.C27_swap",
    "Props.FlfxMul.C27_fixed",
    "Props.FlfxMul.C27_fixed_swap",
    "Props.FlfxMul.C27_floats"
   ],
   "note": "Proved: fixed output equals one conversion of the exact product; float output with subnormal support is the exact product rounded down and saturated; without it the same for normal products and zero below the normal range; operand order is irrelevant. Refuted: zero times a number can be the largest output value when the unsigned fixed operand has width 2^k-1 (C27_float_zero_wrong); subnormal operands can saturate (C27_float_not_normal_wrong)."
  },
  {
   "property": "C28",
   "status": "proved",
   "theorems": [
    "Props.Array.C28_read",
    "Props.Array.C28_write",
    "Props.Array.C28_setAll",
    "Props.Array.C28_setAt",
    "Props.Array.C28_clear",
    "Props.Array.C28_clearAll",
    "Props.Array.C28_eq",
    "Props.Array.C28_ne",
    "Props.Array.C28_history"
   ],
   "note": "Any number of dimensions, every write history."
  },
  {
   "property": "C29",
   "status": "proved",
   "theorems": [
    "Props.Reciprocal.C29_in_table",
    "Props.Reciprocal.C29_reciprocal",
    "Props.Reciprocal.C29_output",
    "Props.Reciprocal.C29_zero",
    "Props.Reciprocal.C29_output_mono"
   ],
   "note": "Fixed-point version, every input and output format. Relative error of the value before the output conversion at most 1/512; a signed output carries the sign of the input."
  },
  {
   "property": "C30",
   "status": "proved",
   "theorems": [
    "Props.SqrtPwl.C30_in_table",
    "Props.SqrtPwl.C30_zero",
    "Props.SqrtPwl.C30_sqrt",
    "Props.SqrtPwl.C30_error",
    "Props.SqrtPwl.C30_output_mono"
   ],
   "note": "Fixed-point version, normalized or not. The square of the value before the output conversion is within 1/440 of the input (relative error of the root at most 1/800)."
  },
  {
   "property": "C31",
   "status": "proved",
   "theorems": [
    "Props.IsqrtPwl.C31_in_table",
    "Props.IsqrtPwl.C31_zero",
    "Props.IsqrtPwl.C31_inverse_sqrt",
    "Props.IsqrtPwl.C31_error",
    "Props.IsqrtPwl.C31_output_mono"
   ],
   "note": "Fixed-point version, normalized or not. Relative error of the value before the output conversion at most 1/1300."
  },
  {
   "property": "C32",
   "status": "partial",
   "theorems": [
    "Props.Sigmoid.C32_in_table",
    "Props.Sigmoid.C32_symmetry_partial",
    "Props.Sigmoid.C32_symmetry_zero_wrong",
    "Props.Sigmoid.C32_range",
    "Props.Sigmoid.C32_mono",
    "Props.Sigmoid.C32_saturate",
    "Props.Sigmoid.C32_error",
    "Props.Sigmoid.C32_output_mono",
    "Props.Sigmoid.C32_output_wrap_wrong"
   ],
   "note": "All formats and inputs; error bound against the logistic function added. The exact symmetry is false at the input 0 (witness C32_symmetry_zero_wrong), so it is proved for nonzero inputs. The ac_float version is C66."
  },
  {
   "property": "C33",
   "status": "partial",
   "theorems": [
    "Props.Tanh.C33_table_partial",
    "Props.Tanh.C33_table_wrong",
    "Props.Tanh.C33_discarded",
    "Props.Tanh.C33_odd_partial",
    "Props.Tanh.C33_odd_zero_wrong",
    "Props.Tanh.C33_range",
    "Props.Tanh.C33_mono",
    "Props.Tanh.C33_saturate",
    "Props.Tanh.C33_error",
    "Props.Tanh.C33_output_mono"
   ],
   "note": "All formats and inputs; error bound against tanh added. Table safety is false for 3 <= |x| < 4 (C33_table_wrong), oddness is false at 0 (C33_odd_zero_wrong)."
  },
  {
   "property": "C34",
   "status": "proved",
   "theorems": [
    "Props.LogPwl.C34_in_table",
    "Props.LogPwl.C34_zero",
    "Props.LogPwl.C34_log2",
    "Props.LogPwl.C34_shift",
    "Props.LogPwl.C34_ln",
    "Props.LogPwl.C34_output_mono"
   ],
   "note": "Fixed-point versions of log2 (error at most 1/600, exact under shifts) and ln (error at most 1/800 + |ln x|/20000)."
  },
  {
   "property": "C35",
   "status": "proved",
   "theorems": [
    "Props.PowPwl.C35_in_table",
    "Props.PowPwl.C35_pow2",
    "Props.PowPwl.C35_double",
    "Props.PowPwl.C35_exp",
    "Props.PowPwl.C35_exp_error",
    "Props.PowPwl.C35_output_mono"
   ],
   "note": "Fixed-point versions. pow2: relative error at most 1/400, exact under integer shifts of the input. exp: relative error at most 1/256 for inputs up to 64 in magnitude, a bound in terms of the exponent beyond."
  },
  {
   "property": "C36",
   "status": "proved",
   "theorems": [
    "Props.Softmax.C36_order_total",
    "Props.Softmax.C36_error"
   ],
   "note": "ac_softmax_pwl_new_ptr for every K, type and vector: order, total within 1/500, error 1/100 against the real softmax of the scaled inputs."
  },
  {
   "property": "C37",
   "status": "partial",
   "theorems": [
    "Props.Sincos.C37_error",
    "Props.Sincos.C37_periodic",
    "Props.Sincos.C37_half_turn_partial",
    "Props.Sincos.C37_parity_partial",
    "Props.Sincos.C37_symmetry_wrong",
    "Props.Sincos.C37_wrap_wrong"
   ],
   "note": "Error bound against the real cosine and sine, table safety and periodicity hold for every input type; half-turn symmetry for every input type and parity up to 12 fraction bits. Partial: with a truncating output type both symmetries fail at the odd eighths of a turn (C37_symmetry_wrong), which are proved for sign-symmetric rounding only; a wrapping output type with one integer bit flips the sign of 1 (C37_wrap_wrong)."
  },
  {
   "property": "C38",
   "status": "proved",
   "theorems": [
    "Props.Cordic.C38_converges",
    "Props.Cordic.C38_error",
    "Props.Cordic.C38_sin_cos",
    "Props.Cordic.C38_periodic",
    "Props.Cordic.C38_wide_wrong",
    "Props.Cordic.C38_scale_wrong"
   ],
   "note": "Convergence of the angle and error of both outputs for every angle, every signed output type of up to 68 bits and every scaling factor with two units to spare; the functions with scale 1 need two integer bits. Beyond 68 bits both outputs are proved to be always zero, and with one integer bit and wrapping the sign is proved wrong."
  },
  {
   "property": "C39",
   "status": "partial",
   "theorems": [
    "Props.PowGeneral.C39_in_table",
    "Props.PowGeneral.C39_error_partial",
    "Props.PowGeneral.C39_base_mono_partial",
    "Props.PowGeneral.C39_zero_wrong"
   ],
   "note": "Positive bases only: a zero base has no special case and 0 to a small positive power is refuted (C39_zero_wrong)."
  },
  {
   "property": "C40",
   "status": "partial",
   "theorems": [
    "Props.SoftmaxOld.C40_order_partial",
    "Props.SoftmaxOld.C40_total_partial",
    "Props.SoftmaxOld.C40_error_partial",
    "Props.SoftmaxOld.C40_total_wrong"
   ],
   "note": "Order for all vectors; total if some logit is at least -7, error 1/75 if some logit is nonnegative. Refuted beyond: logits -8, -9 give outputs 0, 0."
  },
  {
   "property": "C41",
   "status": "proved",
   "theorems": [
    "Props.ReciprocalHa.C41_in_table",
    "Props.ReciprocalHa.C41_ha",
    "Props.ReciprocalHa.C41_vha",
    "Props.ReciprocalHa.C41_output",
    "Props.ReciprocalHa.C41_output_mono"
   ],
   "note": "all formats and values; without normalization for normalized inputs"
  },
  {
   "property": "C42",
   "status": "proved",
   "theorems": [
    "Props.IsqrtVha.C42_in_table",
    "Props.IsqrtVha.C42_zero",
    "Props.IsqrtVha.C42_inverse_sqrt",
    "Props.IsqrtVha.C42_error",
    "Props.IsqrtVha.C42_output_mono"
   ],
   "note": "all formats and values; without normalization for normalized inputs"
  },
  {
   "property": "C43",
   "status": "proved",
   "theorems": [
    "Props.Atan.C43_in_table",
    "Props.Atan.C43_pwl",
    "Props.Atan.C43_ha",
    "Props.Atan.C43_vha",
    "Props.Atan.C43_output",
    "Props.Atan.C43_output_mono"
   ],
   "note": "all three functions, all unsigned formats and values"
  },
  {
   "property": "C44",
   "status": "partial",
   "theorems": [
    "Props.Tan.C44_in_table",
    "Props.Tan.C44_tan_partial",
    "Props.Tan.C44_small_partial",
    "Props.Tan.C44_saturation",
    "Props.Tan.C44_output_mono_partial",
    "Props.Tan.C44_wrap_wrong"
   ],
   "note": "proved for input types whose intermediate type does not wrap; refuted for the others"
  },
  {
   "property": "C45",
   "status": "partial",
   "theorems": [
    "Props.Elu.C45_in_table",
    "Props.Elu.C45_elu",
    "Props.Elu.C45_elu_order",
    "Props.Elu.C45_elu_output_mono",
    "Props.Elu.C45_selu_pos",
    "Props.Elu.C45_selu_neg_partial",
    "Props.Elu.C45_selu_wrong"
   ],
   "note": "ELU in full; SELU of negative inputs for signed outputs with 2 integer and 4 fraction bits, refuted for coarser outputs (C45_selu_wrong)"
  },
  {
   "property": "C46",
   "status": "partial",
   "theorems": [
    "Props.Softplus.C46_in_table",
    "Props.Softplus.C46_softplus_partial",
    "Props.Softplus.C46_output_mono_partial",
    "Props.Softplus.C46_wrong"
   ],
   "note": "table safety in full; error, order and sign for up to 6 integer bits (4 unsigned), refuted beyond (C46_wrong)"
  },
  {
   "property": "C47",
   "status": "partial",
   "theorems": [
    "Props.Softsign.C47_in_table",
    "Props.Softsign.C47_odd",
    "Props.Softsign.C47_softsign_partial",
    "Props.Softsign.C47_vanish",
    "Props.Softsign.C47_wrap_wrong"
   ],
   "note": "table safety and symmetry in full; the error bound grows with the input, and must (C47_vanish); the magnitude can reach one (C47_wrap_wrong)"
  },
  {
   "property": "C48",
   "status": "partial",
   "theorems": [
    "Props.Gelu.C48_table_partial",
    "Props.Gelu.C48_table_wrong",
    "Props.Gelu.C48_discarded",
    "Props.Gelu.C48_gelu_partial",
    "Props.Gelu.C48_range",
    "Props.Gelu.C48_large",
    "Props.Gelu.C48_unsigned_wrong"
   ],
   "note": "error, range and large inputs for the types whose tanh argument fits; table safety up to 11/4 and refuted from 14/5 to 33/10 (C48_table_wrong); unsigned to signed refuted (C48_unsigned_wrong)"
  },
  {
   "property": "C49",
   "status": "partial",
   "theorems": [
    "Props.Atan2.C49_in_table",
    "Props.Atan2.C49_axes",
    "Props.Atan2.C49_angle_partial",
    "Props.Atan2.C49_error_partial",
    "Props.Atan2.C49_short_wrong",
    "Props.Atan2.C49_wide_wrong"
   ],
   "note": "Table safety for all arguments; on the axes within 1/64 unit plus 2^-52 for all vectors; elsewhere within 2/5 unit plus 1/(40 |z|) unit plus 2^-51 before the assignment to the output (one unit more after it) for vectors no shorter than a quarter unit. False for shorter vectors and for outputs of more than about 52 fraction bits; witnesses proved."
  },
  {
   "property": "C50",
   "status": "partial",
   "theorems": [
    "Props.Arcsin.C50_in_table",
    "Props.Arcsin.C50_odd",
    "Props.Arcsin.C50_angle",
    "Props.Arcsin.C50_angle_wide",
    "Props.Arcsin.C50_angle_narrow",
    "Props.Arcsin.C50_error_partial",
    "Props.Arcsin.C50_error_wide",
    "Props.Arcsin.C50_one_bit_wrong"
   ],
   "note": "Error proved for every output with 1 to 64 fraction bits. Refuted: output of one fraction and one integer bit that rounds and wraps (C50_one_bit_wrong)."
  },
  {
   "property": "C51",
   "status": "proved",
   "theorems": [
    "Props.Arccos.C51_in_table",
    "Props.Arccos.C51_angle",
    "Props.Arccos.C51_error",
    "Props.Arccos.C51_supplement"
   ],
   "note": "All unsigned outputs with an integer bit and 1 to 64 fraction bits."
  },
  {
   "property": "C52",
   "status": "partial",
   "theorems": [
    "Props.HcordicLog.C52_in_table",
    "Props.HcordicLog.C52_log2_partial",
    "Props.HcordicLog.C52_log2_unsigned_partial",
    "Props.HcordicLog.C52_log_partial",
    "Props.HcordicLog.C52_log_unsigned_partial",
    "Props.HcordicLog.C52_saturation_wrong",
    "Props.HcordicLog.C52_round_wrong",
    "Props.HcordicLog.C52_zero"
   ],
   "note": "Error of both logarithms proved for every positive argument, all types the static assertions admit, signed and unsigned outputs, whenever the output type holds the result. Refuted: saturation of signed outputs, rounded temporaries, zero."
  },
  {
   "property": "C53",
   "status": "partial",
   "theorems": [
    "Props.HcordicExp.C53_in_table",
    "Props.HcordicExp.C53_exp2_partial",
    "Props.HcordicExp.C53_expErr",
    "Props.HcordicExp.C53_exp",
    "Props.HcordicExp.C53_round_wrong",
    "Props.HcordicExp.C53_whole"
   ],
   "note": "Relative error proved for all arguments, widths and rounding modes for base e; for base 2 with truncated temporaries, or arguments of no more fraction bits than the temporaries, or not just below an integer; including saturation. Refuted for base 2 otherwise: rounded temporaries just below an integer give zero (C53_round_wrong)."
  },
  {
   "property": "C54",
   "status": "partial",
   "theorems": [
    "Props.HcordicPow.C54_in_table",
    "Props.HcordicPow.C54_error_partial",
    "Props.HcordicPow.C54_round_wrong",
    "Props.HcordicPow.C54_zero_wrong",
    "Props.HcordicPow.C54_error_wrong"
   ],
   "note": "Relative error as a function of the declared types proved for positive bases and temporaries of every width. Refuted: base zero, an error of a few units of the output, rounded temporaries (overridden or default)."
  },
  {
   "property": "C55",
   "status": "proved",
   "theorems": [
    "Props.Random.C55_ac_uniform",
    "Props.Random.C55_builtin_uniform",
    "Props.Random.C55_systemc_uniform",
    "Props.Random.C55_no_memory",
    "Props.Random.C55_float_reach",
    "Props.Random.C55_short_rand_wrong"
   ],
   "note": "Counted for every width and value; the condition on rand() fails if RAND_MAX is 32767 (C55_short_rand_wrong). Of ac_float the bits of mantissa and exponent before normalization are modelled."
  },
  {
   "property": "C56",
   "status": "proved",
   "theorems": [
    "Props.ComplexRec.C56_in_table",
    "Props.ComplexRec.C56_abs",
    "Props.ComplexRec.C56_reciprocal",
    "Props.ComplexRec.C56_reciprocal_ha",
    "Props.ComplexRec.C56_zero"
   ],
   "note": "all formats whose squared modulus type holds the exact value"
  },
  {
   "property": "C57",
   "status": "proved",
   "theorems": [
    "Props.ComplexSqrt.C57_in_table",
    "Props.ComplexSqrt.C57_sqrt",
    "Props.ComplexSqrt.C57_zero",
    "Props.ComplexSqrt.C57_negative_real",
    "Props.ComplexSqrt.C57_tiny_wrong"
   ],
   "note": "signed inputs of integer width at least -26; refuted for integer width -80 (C57_tiny_wrong); the real part of the root of a negative number is not zero (C57_negative_real)"
  },
  {
   "property": "C58",
   "status": "proved",
   "theorems": [
    "Props.ComplexIsqrt.C58_in_table",
    "Props.ComplexIsqrt.C58_inverse_sqrt"
   ],
   "note": "signed inputs of integer width at least -26"
  },
  {
   "property": "C59",
   "status": "partial",
   "theorems": [
    "Props.ComplexDiv.C59_quotient_partial",
    "Props.ComplexDiv.C59_zero_divisor",
    "Props.ComplexDiv.C59_wide_dividend",
    "Props.ComplexDiv.C59_fine_dividend"
   ],
   "note": "exact when the dividend type is no wider than the quotient type on either side of the binary point; false otherwise, with witnesses"
  },
  {
   "property": "C60",
   "status": "proved",
   "theorems": [
    "Props.FloatRec.C60_reciprocal",
    "Props.FloatRec.C60_reciprocal_ha",
    "Props.FloatRec.C60_reciprocal_vha",
    "Props.FloatRec.C60_zero",
    "Props.FloatRec.C60_output"
   ],
   "note": "Conversion to the output type is a parameter; FFmt.dst is the one of ac_float. ac_float itself is in the trusted base."
  },
  {
   "property": "C61",
   "status": "partial",
   "theorems": [
    "Props.FloatSqrt.C61_sqrt_partial",
    "Props.FloatSqrt.C61_inverse_sqrt_partial",
    "Props.FloatSqrt.C61_inverse_sqrt_vha",
    "Props.FloatSqrt.C61_zero",
    "Props.FloatSqrt.C61_subnormal_counterexample",
    "Props.FloatSqrt.C61_output_partial"
   ],
   "note": "normalised inputs only for ac_sqrt_pwl and ac_inverse_sqrt_pwl: false otherwise (C61_subnormal_counterexample); ac_inverse_sqrt_pwl_vha is complete"
  },
  {
   "property": "C62",
   "status": "partial",
   "theorems": [
    "Props.FloatLog.C62_log_partial",
    "Props.FloatLog.C62_zero",
    "Props.FloatLog.C62_in_table",
    "Props.FloatLog.C62_subnormal_counterexample"
   ],
   "note": "normalised inputs only: false otherwise (C62_subnormal_counterexample)"
  },
  {
   "property": "C63",
   "status": "proved",
   "theorems": [
    "Props.FloatPow.C63_pow2",
    "Props.FloatPow.C63_exp",
    "Props.FloatPow.C63_range"
   ],
   "note": "All input and output types; the mantissa need not be normalised. The base e bound is stated up to |x| = 800, beyond which the stored log2(e) makes it larger."
  },
  {
   "property": "C64",
   "status": "partial",
   "theorems": [
    "Props.FloatDiv.C64_abs",
    "Props.FloatDiv.C64_abs_exact",
    "Props.FloatDiv.C64_div_value_partial",
    "Props.FloatDiv.C64_div_partial",
    "Props.FloatDiv.C64_div_ulp",
    "Props.FloatDiv.C64_div_output",
    "Props.FloatDiv.C64_div_counterexample",
    "Props.FloatDiv.C64_div_overflow_counterexample",
    "Props.FloatDiv.C64_div_zero",
    "Props.FloatDiv.C64_sqrt_partial",
    "Props.FloatDiv.C64_sqrt_wrap_counterexample",
    "Props.FloatDiv.C64_sqrt_precision_counterexample",
    "Props.FloatDiv.C64_sqrt_order_counterexample"
   ],
   "note": "ac_abs is fully proved. Division and square root: exact description, error bounds and flag for all types; the bound of a unit in the last place is false for types with many integer bits, one overflowing pair of mantissas and the rounding modes of the root are excluded, and the root does not keep the order (counterexamples)."
  },
  {
   "property": "C65",
   "status": "proved",
   "theorems": [
    "Props.FloatTrig.C65_sin_cos",
    "Props.FloatTrig.C65_sin_cos_output",
    "Props.FloatTrig.C65_sin_counterexample",
    "Props.FloatTrig.C65_arcsin",
    "Props.FloatTrig.C65_arccos",
    "Props.FloatTrig.C65_arc_counterexample"
   ],
   "note": "The errors are absolute; counterexamples show that no relative precision holds."
  },
  {
   "property": "C66",
   "status": "partial",
   "theorems": [
    "Props.FloatAct.C66_sigmoid",
    "Props.FloatAct.C66_tanh",
    "Props.FloatAct.C66_tanh_table_partial",
    "Props.FloatAct.C66_tanh_table_counterexample",
    "Props.FloatAct.C66_tan",
    "Props.FloatAct.C66_small_counterexample"
   ],
   "note": "tanh reads outside its table for inputs from 3 to 4 (proved), so its table safety is proved below 3 only; errors and order are proved for any value read there"
  },
  {
   "property": "C67",
   "status": "proved",
   "theorems": [
    "Props.FloatAtan.C67_pwl",
    "Props.FloatAtan.C67_ha",
    "Props.FloatAtan.C67_vha",
    "Props.FloatAtan.C67_output",
    "Props.FloatAtan.C67_step_counterexample"
   ],
   "note": "errors, range, order and table safety; the step of the internal type of ac_atan_pwl is part of the statement and shown to be needed"
  },
  {
   "property": "C68",
   "status": "partial",
   "theorems": [
    "Props.FloatHcordicLog.C68_in_table",
    "Props.FloatHcordicLog.C68_log2_partial",
    "Props.FloatHcordicLog.C68_log_partial",
    "Props.FloatHcordicLog.C68_log2_output_partial",
    "Props.FloatHcordicLog.C68_log_output_partial",
    "Props.FloatHcordicLog.C68_integer_mantissa_wrong",
    "Props.FloatHcordicLog.C68_near_one_wrong",
    "Props.FloatHcordicLog.C68_round_wrong",
    "Props.FloatHcordicLog.C68_zero_wrong"
   ],
   "note": "Table safety for all inputs; errors for all widths of the temporaries. Refuted: relative precision near one, integer mantissas of the output, rounding of overridden temporaries, log of zero."
  },
  {
   "property": "C69",
   "status": "proved",
   "theorems": [
    "Props.FloatHcordicExp.C69_in_table",
    "Props.FloatHcordicExp.C69_exp2",
    "Props.FloatHcordicExp.C69_exp",
    "Props.FloatHcordicExp.C69_range",
    "Props.FloatHcordicExp.C69_exp_range",
    "Props.FloatHcordicExp.C69_few_fraction_bits_wrong",
    "Props.FloatHcordicExp.C69_error_grows",
    "Props.FloatHcordicExp.C69_exact_wrong"
   ],
   "note": "Table safety; relative error for all rounding modes and all widths of the static assertions, bases 2 and e; saturation and underflow. Refuted: precision of the mantissa width, exact powers of two, an error that does not grow with the argument."
  },
  {
   "property": "C70",
   "status": "partial",
   "theorems": [
    "Props.FloatHcordicPow.C70_in_table",
    "Props.FloatHcordicPow.C70_zero",
    "Props.FloatHcordicPow.C70_pole_wrong",
    "Props.FloatHcordicPow.C70_error_partial",
    "Props.FloatHcordicPow.C70_large",
    "Props.FloatHcordicPow.C70_small",
    "Props.FloatHcordicPow.C70_error_grows",
    "Props.FloatHcordicPow.C70_few_fraction_bits_wrong",
    "Props.FloatHcordicPow.C70_round_wrong",
    "Props.FloatHcordicPow.C70_negative_wrong"
   ],
   "note": "Table safety and special cases for all inputs; relative error, saturation and underflow for positive bases. Refuted: an error that does not grow with the exponent, rounding of overridden temporaries, pole at zero, negative bases."
  },
  {
   "property": "C71",
   "status": "partial",
   "theorems": [
    "Props.CholRound.C71_factor",
    "Props.CholRound.C71_residual_partial",
    "Props.CholRound.C71_reject_partial",
    "Props.CholRound.C71_small_pivot_wrong",
    "Props.CholRound.C71_small_pivot_accepted",
    "Props.CholRound.C71_wrap_wrong"
   ],
   "note": "Factorization with error bound for positive definite matrices (all modes); residual of every accepted matrix and rejection of indefinite ones for saturating intermediate types; use_pwl = true and complex elements are in C72. Missing: outputs whose diagonal elements have reciprocals that overflow the intermediate type, where it is false (C71_small_pivot_wrong, C71_small_pivot_accepted), and wrapping intermediate types, where it is false (C71_wrap_wrong)."
  },
  {
   "property": "C72",
   "status": "proved",
   "theorems": [
    "Props.CholAny.C72_any",
    "Props.CholAny.C72_real",
    "Props.CholAny.C72_complex"
   ],
   "note": "Stated for any arithmetic with given error bounds and then for ac_fixed and ac_complex<ac_fixed> elements, each with the exact and the PWL functions; the hypotheses are that the exact results fit the types and that the smallest eigenvalue exceeds the errors."
  },
  {
   "property": "C73",
   "status": "proved",
   "theorems": [
    "Props.QrdRound.C73_any",
    "Props.QrdRound.C73_real",
    "Props.QrdRound.C73_complex",
    "Props.QrdRound.C73_small_pivot_wrong",
    "Props.QrdRound.C73_large_wrong",
    "Props.QrdRound.C73_few_bits_wrong"
   ],
   "note": "C73_any for any arithmetic, C73_real and C73_complex for the types of the code. real_diag = true is not covered. Outside the stated bounds the claim fails: C73_small_pivot_wrong, C73_large_wrong, C73_few_bits_wrong."
  },
  {
   "property": "C74",
   "status": "proved",
   "theorems": [
    "Props.CholInvRound.C74_any",
    "Props.CholInvRound.C74_real",
    "Props.CholInvRound.C74_complex",
    "Props.CholInvRound.C74_large_wrong",
    "Props.CholInvRound.C74_small_wrong"
   ],
   "note": "Bound proved for any accurate arithmetic, and for the ac_fixed and ac_complex<ac_fixed> versions with signed types and all four combinations of the PWL switches; counterexamples outside the stated ranges."
  },
  {
   "property": "C75",
   "status": "proved",
   "theorems": [
    "Props.QrdDiag.C75_any",
    "Props.QrdDiag.C75_complex",
    "Props.QrdDiag.C75_small_wrong",
    "Props.QrdDiag.C75_singular_wrong"
   ],
   "note": "Rounding errors of ac_qrd with real_diag = true; counterexamples for tiny and zero bottom right elements."
  },
  {
   "property": "C76",
   "status": "proved",
   "theorems": [
    "Props.StdAddTreeValue.C76_error",
    "Props.StdAddTreeValue.C76_exact",
    "Props.StdAddTreeValue.C76_aligned",
    "Props.StdAddTreeValue.C76_zero",
    "Props.StdAddTreeValue.C76_subnormal_two",
    "Props.StdAddTreeValue.C76_order",
    "Props.StdAddTreeValue.C76_neg",
    "Props.StdAddTreeValue.C76_many_extra_bits_wrong"
   ],
   "note": "AccExtraLSBs at least 1 and at most what the saturated alignment shift can remove; beyond that refuted by C76_many_extra_bits_wrong. Subnormal sums of three or more numbers are the subject of C26."
  },
  {
   "property": "C77",
   "status": "proved",
   "theorems": [
    "Props.ComplexIsqrtVha.C77_in_table",
    "Props.ComplexIsqrtVha.C77_inverse_sqrt"
   ],
   "note": ""
  },
  {
   "property": "C78",
   "status": "partial",
   "theorems": [
    "Props.FloatComplex.C78_in_table",
    "Props.FloatComplex.C78_reciprocal",
    "Props.FloatComplex.C78_reciprocal_ha",
    "Props.FloatComplex.C78_reciprocal_vha_partial",
    "Props.FloatComplex.C78_output",
    "Props.FloatComplex.C78_zero",
    "Props.FloatComplex.C78_vha_small_wrong"
   ],
   "note": "ac_reciprocal_pwl and ac_reciprocal_pwl_ha for all numbers; ac_reciprocal_pwl_vha if 2W+2 <= 3*2^E or the number is not too small, refuted otherwise (C78_vha_small_wrong)."
  },
  {
   "property": "C79",
   "status": "proved",
   "theorems": [
    "Props.CholFloat.C79_factor",
    "Props.CholFloat.C79_integer_bits_wrong",
    "Props.CholFloat.C79_matrix",
    "Props.CholFloat.C79_matrix_delta_e_wrong"
   ],
   "note": "Explicit bound for every size and type that holds the results; it is not small for types with many integer bits (C79_integer_bits_wrong)."
  },
  {
   "property": "C80",
   "status": "partial",
   "theorems": [
    "Props.StdFloat.C80_types",
    "Props.StdFloat.C80_reciprocal",
    "Props.StdFloat.C80_reciprocal_zero",
    "Props.StdFloat.C80_roots_partial",
    "Props.StdFloat.C80_subnormal_wrong",
    "Props.StdFloat.C80_sqrt_partial",
    "Props.StdFloat.C80_sqrt_special",
    "Props.StdFloat.C80_sqrt_round_wrong",
    "Props.StdFloatFns.C80_log_pwl_partial",
    "Props.StdFloatFns.C80_pow2_pwl",
    "Props.StdFloatFns.C80_exp_pwl",
    "Props.StdFloatFns.C80_exp_pwl_nan",
    "Props.StdFloatFns.C80_activation",
    "Props.StdFloatFns.C80_sin_cos",
    "Props.StdFloatFns.C80_arcsin_arccos",
    "Props.StdFloatFns.C80_atan",
    "Props.StdFloatFns.C80_atan_pwl",
    "Props.StdFloatFns.C80_tan",
    "Props.StdFloatFns.C80_log_cordic_partial",
    "Props.StdFloatFns.C80_log_cordic_nan",
    "Props.StdFloatFns.C80_log_minus_zero_wrong",
    "Props.StdFloatFns.C80_exp_cordic",
    "Props.StdFloatFns.C80_exp_cordic_nan",
    "Props.StdFloatFns.C80_pow_cordic_partial",
    "Props.StdFloatFns.C80_pow_zero"
   ],
   "note": "Proved for every finite number for the reciprocals, exponentials, activation, trigonometric and arc functions, and for positive numbers for the hyperbolic CORDIC logarithms. The piecewise linear roots and logarithms and ac_sqrt are proved from a quarter of the smallest normal number on; below that the roots are refuted (C80_subnormal_wrong). The behaviour of the conversions between ac_float and ac_std_float, whose source is not in /repo, is a hypothesis (Ok) with an instance. log(-0) is refuted (C80_log_minus_zero_wrong)."
  },
  {
   "property": "C81",
   "status": "proved",
   "theorems": [
    "Props.StdChol.C81_factor",
    "Props.StdChol.C81_matrix",
    "Props.StdChol.C81_delta_e_wrong"
   ],
   "note": "For positive definite matrices of finite numbers, every size and format that holds the results. The conversions between ac_float and the standard formats are hypotheses (Ok) with an instance. Also proved: the ac_matrix versions ignore delta_e (C81_delta_e_wrong)."
  },
  {
   "property": "C82",
   "status": "proved",
   "theorems": [
    "Props.DetComplex.C82_exact",
    "Props.DetComplex.C82_exact_complex",
    "Props.DetComplex.C82_base_signed",
    "Props.DetComplex.C82_signed_two",
    "Props.DetComplex.C82_signed_one",
    "Props.DetComplex.C82_bounded",
    "Props.DetComplex.C82_unsigned_two_wrong",
    "Props.DetComplex.C82_signed_two_wrong"
   ],
   "note": "ac_complex inputs, default internal types or the user's. Exact for every size when the intermediate values fit, bounded parts for every size; unconditional for signed 1x1 up to the output conversion and signed 2x2 up to the d_type and output conversions. Also proved: overflow of the base type for unsigned inputs and of d_type for signed 2x2 inputs."
  },
  {
   "property": "C83",
   "status": "partial",
   "theorems": [
    "Props.RoundTrip.C83_log2_pow2",
    "Props.RoundTrip.C83_log_exp",
    "Props.RoundTrip.C83_recip_recip",
    "Props.RoundTrip.C83_sincos_squares",
    "Props.RoundTrip.C83_cordic_squares",
    "Props.RoundTrip.C83_tan_atan_partial",
    "Props.RoundTrip.C83_arcsin_sin",
    "Props.RoundTrip.C83_cordic_log2_exp2_partial"
   ],
   "note": "All arguments and formats for the piecewise linear logarithms, exponentials and reciprocals, the sines and cosines and the arc sine. Missing: ac_tan_pwl for input types whose intermediate type wraps, where it is false (C44_wrap_wrong), and the hyperbolic CORDIC functions with overridden rounding of the logarithm or rounding of the exponential of an argument with more fraction bits (refuted: C52_round_wrong, C53_round_wrong)."
  },
  {
   "property": "C84",
   "status": "partial",
   "theorems": [
    "Props.MatrixComplex.C84_matrixmul",
    "Props.MatrixComplex.C84_matrixmul_complex",
    "Props.MatrixComplex.C84_frame",
    "Props.MatrixComplex.C84_add",
    "Props.MatrixComplex.C84_sub",
    "Props.MatrixComplex.C84_addAssign",
    "Props.MatrixComplex.C84_subAssign",
    "Props.MatrixComplex.C84_pwisemult",
    "Props.MatrixComplex.C84_scale",
    "Props.MatrixComplex.C84_sum",
    "Props.MatrixComplex.C84_det2",
    "Props.MatrixComplex.C84_det3",
    "Props.MatrixComplex.C84_mul_wrapped",
    "Props.MatrixComplex.C84_mul_partial",
    "Props.MatrixComplex.C84_mul_signed_partial",
    "Props.MatrixComplex.C84_mul_two_wrong"
   ],
   "note": "All sizes and types for ac_matrixmul and for +, -, +=, -=, pwisemult, scale, sum and the determinants. operator* of ac_matrix is exact where N-1 and N products need the same carry bits, and for signed parts from inner dimension 3 on; false for inner dimension 2 (C84_mul_two_wrong)."
  },
  {
   "property": "C85",
   "status": "partial",
   "theorems": [
    "Props.Scaling.C85_reciprocal",
    "Props.Scaling.C85_reciprocalHa",
    "Props.Scaling.C85_reciprocalVha",
    "Props.Scaling.C85_sqrt_partial",
    "Props.Scaling.C85_sqrt_wrong",
    "Props.Scaling.C85_inverseSqrt",
    "Props.Scaling.C85_inverseSqrtVha",
    "Props.Scaling.C85_log2",
    "Props.Scaling.C85_log",
    "Props.Scaling.C85_pow2",
    "Props.Scaling.C85_exp_partial",
    "Props.Scaling.C85_exp_wrong",
    "Props.Scaling.C85_atan",
    "Props.Scaling.C85_sigmoid",
    "Props.Scaling.C85_tanh"
   ],
   "note": "Refuted: the square root depends on the width of the input type below 15 bits (C85_sqrt_wrong), the exponential with fewer than 12 temporary bits depends on the input type (C85_exp_wrong). Everything else of the statement is proved."
  },
  {
   "property": "C86",
   "status": "partial",
   "theorems": [
    "Props.Identities.C86_cordic_partial",
    "Props.Identities.C86_cordic_range_wrong",
    "Props.Identities.C86_lut_range",
    "Props.Identities.C86_lut_squares",
    "Props.Identities.C86_cordic_lut",
    "Props.Identities.C86_arc",
    "Props.Identities.C86_sqrt_inverse",
    "Props.Identities.C86_pow2_sum",
    "Props.Identities.C86_pow2_neg",
    "Props.Identities.C86_log2_mul",
    "Props.Identities.C86_tanh_sigmoid",
    "Props.Identities.C86_atan2_partial",
    "Props.Identities.C86_log2_methods",
    "Props.Identities.C86_pow2_methods"
   ],
   "note": "All identities are proved within the sums of the error bounds; that sine and cosine by CORDIC stay within [-1, 1] is refuted (C86_cordic_range_wrong), and atan2 excludes short vectors, as in C49."
  },
  {
   "property": "C87",
   "status": "partial",
   "theorems": [
    "Props.InPlace.C87_left",
    "Props.InPlace.C87_right",
    "Props.InPlace.C87_left_partial",
    "Props.InPlace.C87_right_partial",
    "Props.InPlace.C87_left_wrong",
    "Props.InPlace.C87_right_wrong",
    "Props.InPlace.C87_square_wrong",
    "Props.InPlace.C87_left_complex",
    "Props.InPlace.C87_right_complex",
    "Props.InPlace.C87_add",
    "Props.InPlace.C87_sub",
    "Props.InPlace.C87_chol",
    "Props.InPlace.C87_cholinv",
    "Props.InPlace.C87_qrd"
   ],
   "note": "Proved for ac_chol_d, ac_cholinv, ac_qrd, += and -=. For ac_matrixmul the elements are characterised for every input; the result is the product if the other factor is triangular (lower for A, upper for B), and refuted otherwise."
  },
  {
   "property": "C88",
   "status": "partial",
   "theorems": [
    "Props.Order.C88_lut_cos",
    "Props.Order.C88_lut_sin",
    "Props.Order.C88_lut_wrong",
    "Props.Order.C88_lut_dip_wrong",
    "Props.Order.C88_cordic_partial",
    "Props.Order.C88_cordic_wrong",
    "Props.Order.C88_arcsin_partial",
    "Props.Order.C88_arcsin_wrong",
    "Props.Order.C88_arccos_partial",
    "Props.Order.C88_arccos_wrong",
    "Props.Order.C88_log2_partial",
    "Props.Order.C88_log2_unsigned",
    "Props.Order.C88_log2_range_wrong",
    "Props.Order.C88_log2_round_wrong",
    "Props.Order.C88_log_partial",
    "Props.Order.C88_log_wrong",
    "Props.Order.C88_exp2_partial",
    "Props.Order.C88_exp2_wrong"
   ],
   "note": "Table lookup: order proved for every angle type and every output type outside an explicit list, refuted for every member of the list. Logarithm to base 2: exact order proved whenever the output type holds the results (unsigned outputs: always), refuted for signed types that do not and for temporaries that round up. CORDIC sine, cosine, arcsine, arccosine, power of two and natural logarithm: order refuted, proved up to the errors."
  },
  {
   "property": "C89",
   "status": "partial",
   "theorems": [
    "Props.Exact.C89_lut",
    "Props.Exact.C89_div",
    "Props.Exact.C89_reciprocal",
    "Props.Exact.C89_reciprocal_partial",
    "Props.Exact.C89_reciprocal_wrong",
    "Props.Exact.C89_inverseSqrt",
    "Props.Exact.C89_inverseSqrt_partial",
    "Props.Exact.C89_log",
    "Props.Exact.C89_log_partial",
    "Props.Exact.C89_pow",
    "Props.Exact.C89_pow_partial",
    "Props.Exact.C89_zero",
    "Props.Exact.C89_gelu",
    "Props.Exact.C89_tan",
    "Props.Exact.C89_zero_wrong",
    "Props.Exact.C89_cordic_wrong",
    "Props.Exact.C89_cordic_zero_wrong",
    "Props.Exact.C89_arc_wrong",
    "Props.Exact.C89_hcordic_wrong",
    "Props.Exact.C89_hcordic_log2",
    "Props.Exact.C89_hcordic_exp2_wrong"
   ],
   "note": "Proved exact for all types: sine and cosine by table lookup at quarter turns, quotients that the type can hold, ELU, SELU, softsign, GELU, tangent and the two accurate arctangents at zero. Closed forms proved for reciprocals, inverse square root, logarithms and powers at powers of two: exact in types that round to nearest with a coarse unit, refuted in every type that holds the number computed. Hyperbolic CORDIC: the logarithm of a power of two characterised for every type (exact unless the width is in a list), the power of two of a whole number refuted for every output with 9 or more fraction bits. Refuted for arctangent, hyperbolic tangent and sigmoid at zero and, with witnesses, for CORDIC sine, cosine and arc functions."
  },
  {
   "property": "C90",
   "status": "partial",
   "theorems": [
    "Props.DivLaws.C90_order_unsigned",
    "Props.DivLaws.C90_order_dividend",
    "Props.DivLaws.C90_order_divisor",
    "Props.DivLaws.C90_order_wrong",
    "Props.DivLaws.C90_sign_partial",
    "Props.DivLaws.C90_sign_wrong",
    "Props.DivLaws.C90_value",
    "Props.DivLaws.C90_one"
   ],
   "note": "Order proved for saturating types, signed and unsigned, and refuted for wrapping ones; change of sign proved for the five symmetric rounding modes with symmetric saturation or a quotient within the range, and refuted for truncation and asymmetric saturation; dependence on values only and division by one proved, for the types for which C04 holds."
  },
  {
   "property": "C91",
   "status": "partial",
   "theorems": [
    "Props.ShiftLaws.C91_opposite",
    "Props.ShiftLaws.C91_count_right",
    "Props.ShiftLaws.C91_count_left_partial",
    "Props.ShiftLaws.C91_count_left_wrong",
    "Props.ShiftLaws.C91_twice",
    "Props.ShiftLaws.C91_undo",
    "Props.ShiftLaws.C91_twice_truncated",
    "Props.ShiftLaws.C91_twice_rounded_wrong",
    "Props.ShiftLaws.C91_order",
    "Props.ShiftLaws.C91_order_wrap_wrong",
    "Props.ShiftLaws.C91_none",
    "Props.ShiftLaws.C91_gone"
   ],
   "note": "All laws proved at full strength except that the kind of the count matters for left shifts into signed wrapping outputs whose rounding mode looks at the sign (C91_count_left_wrong), rounding to nearest between two right shifts changes the result (C91_twice_rounded_wrong) and wrapping outputs lose the order (C91_order_wrap_wrong)."
  },
  {
   "property": "C92",
   "status": "proved",
   "theorems": [
    "Props.SqrtLaws.C92_type",
    "Props.SqrtLaws.C92_scale",
    "Props.SqrtLaws.C92_square",
    "Props.SqrtLaws.C92_nested",
    "Props.SqrtLaws.C92_nested_round_wrong",
    "Props.SqrtLaws.C92_integer",
    "Props.SqrtLaws.C92_int_laws",
    "Props.SqrtLaws.C92_order_wrong"
   ],
   "note": "Every input and output format and mode; the conditions of the nested and order laws are needed (C92_nested_round_wrong, C92_order_wrong)."
  },
  {
   "property": "C93",
   "status": "proved",
   "theorems": [
    "Props.IntDivLaws.C93_v2_unsigned",
    "Props.IntDivLaws.C93_v2_signed",
    "Props.IntDivLaws.C93_fixed_unsigned",
    "Props.IntDivLaws.C93_fixed_signed",
    "Props.IntDivLaws.C93_fixed_signed_wrong",
    "Props.IntDivLaws.C93_signed_unsigned",
    "Props.IntDivLaws.C93_signs",
    "Props.IntDivLaws.C93_twice",
    "Props.IntDivLaws.C93_cancel",
    "Props.IntDivLaws.C93_multiple",
    "Props.IntDivLaws.C93_order"
   ],
   "note": "All widths and operands. That the signed fixed-point output truncates toward zero is needed (C93_fixed_signed_wrong)."
  },
  {
   "property": "C94",
   "status": "proved",
   "theorems": [
    "Props.NormalizeLaws.C94_unique",
    "Props.NormalizeLaws.C94_type",
    "Props.NormalizeLaws.C94_scale",
    "Props.NormalizeLaws.C94_again",
    "Props.NormalizeLaws.C94_opposite",
    "Props.NormalizeLaws.C94_exponent",
    "Props.NormalizeLaws.C94_order",
    "Props.NormalizeLaws.C94_leading",
    "Props.NormalizeLaws.C94_complex_real",
    "Props.NormalizeLaws.C94_type_sym_wrong"
   ],
   "note": "All types and numbers, apart from the negatives of powers of two under AC_SAT_SYM, for which the laws fail (C94_type_sym_wrong, C12_lossless_wrong)."
  },
  {
   "property": "C95",
   "status": "proved",
   "theorems": [
    "Props.MatrixLaws.C95_sums",
    "Props.MatrixLaws.C95_assoc",
    "Props.MatrixLaws.C95_distrib",
    "Props.MatrixLaws.C95_distrib_right",
    "Props.MatrixLaws.C95_matrixmul_agrees",
    "Props.MatrixLaws.C95_matrixmul_transpose",
    "Props.MatrixLaws.C95_matrixmul_identity",
    "Props.MatrixLaws.C95_matrixmul_assoc",
    "Props.MatrixLaws.C95_det_transpose",
    "Props.MatrixLaws.C95_det_permute",
    "Props.MatrixLaws.C95_det_equal_rows",
    "Props.MatrixLaws.C95_det_triangular",
    "Props.MatrixLaws.C95_det_product",
    "Props.MatrixLaws.C95_det_agree",
    "Props.MatrixLaws.C95_det_agree_two",
    "Props.MatrixLaws.C95_assoc_wrong",
    "Props.MatrixLaws.C95_det_permute_wrong"
   ],
   "note": "All shapes, types and contents under the stated conditions. Without room the laws fail (C95_assoc_wrong, C95_det_permute_wrong)."
  },
  {
   "property": "C96",
   "status": "proved",
   "theorems": [
    "Props.AbsLaws.C96_abs_opposite",
    "Props.AbsLaws.C96_abs_again",
    "Props.AbsLaws.C96_abs_order",
    "Props.AbsLaws.C96_abs_order_wrong",
    "Props.AbsLaws.C96_abs_int",
    "Props.AbsLaws.C96_relu_abs",
    "Props.AbsLaws.C96_prelu_leakyrelu",
    "Props.AbsLaws.C96_slopes",
    "Props.AbsLaws.C96_inverse",
    "Props.AbsLaws.C96_compose",
    "Props.AbsLaws.C96_compose_wrong"
   ],
   "note": "All types and numbers. The order is lost in outputs that wrap (C96_abs_order_wrong) and negative slopes do not compose (C96_compose_wrong)."
  },
  {
   "property": "C97",
   "status": "proved",
   "theorems": [
    "Props.SoftmaxLaws.C97_new_permute",
    "Props.SoftmaxLaws.C97_new_shares",
    "Props.SoftmaxLaws.C97_new_shift",
    "Props.SoftmaxLaws.C97_permute",
    "Props.SoftmaxLaws.C97_shares",
    "Props.SoftmaxLaws.C97_shift",
    "Props.SoftmaxLaws.C97_shift_wrong"
   ],
   "note": "All vectors under the stated conditions. The conditions for ac_softmax_pwl are needed (C97_shift_wrong)."
  },
  {
   "property": "C98",
   "status": "proved",
   "theorems": [
    "Props.CholLaws.C98_lower",
    "Props.CholLaws.C98_leading",
    "Props.CholLaws.C98_reject",
    "Props.CholLaws.C98_reject_wrong",
    "Props.CholLaws.C98_unique"
   ],
   "note": "For every arithmetic of the elements, including the rounding of ac_fixed. C98_reject_wrong shows that the condition on the root is needed."
  },
  {
   "property": "C99",
   "status": "proved",
   "theorems": [
    "Props.CholInvLaws.C99_lower",
    "Props.CholInvLaws.C99_symmetric",
    "Props.CholInvLaws.C99_complex",
    "Props.CholInvLaws.C99_hermitian_wrong",
    "Props.CholInvLaws.C99_again"
   ],
   "note": "For signed result types. C99_hermitian_wrong shows that the result for a Hermitian matrix need not be Hermitian when it is truncated."
  },
  {
   "property": "C100",
   "status": "proved",
   "theorems": [
    "Props.ComplexDivLaws.C100_value",
    "Props.ComplexDivLaws.C100_real",
    "Props.ComplexDivLaws.C100_real_divisor",
    "Props.ComplexDivLaws.C100_self",
    "Props.ComplexDivLaws.C100_back",
    "Props.ComplexDivLaws.C100_conj",
    "Props.ComplexDivLaws.C100_conj_wrong",
    "Props.ComplexDivLaws.C100_turn"
   ],
   "note": "For the types of C59. C100_conj_wrong shows that with truncation conjugated operands need not give the opposite imaginary part."
  },
  {
   "property": "C101",
   "status": "proved",
   "theorems": [
    "Props.ComplexLaws.C101_abs",
    "Props.ComplexLaws.C101_abs_order",
    "Props.ComplexLaws.C101_reciprocal",
    "Props.ComplexLaws.C101_reciprocal_sign",
    "Props.ComplexLaws.C101_sqrt"
   ],
   "note": "For signed input types in the square root. The order of absolute values needs an output type that saturates."
  },
  {
   "property": "C102",
   "status": "proved",
   "theorems": [
    "Props.AddTreeLaws.C102_tree_scale",
    "Props.AddTreeLaws.C102_tree_scale_cut",
    "Props.AddTreeLaws.C102_block_scale",
    "Props.AddTreeLaws.C102_tree_mirror",
    "Props.AddTreeLaws.C102_tree_comm",
    "Props.AddTreeLaws.C102_agree"
   ],
   "note": "On the mantissa and exponent before the output conversion, for exponents that fit their type. For three operands the opposite order can give another sum (C25_tree_order_matters)."
  },
  {
   "property": "C103",
   "status": "proved",
   "theorems": [
    "Props.QrdLaws.C103_gram",
    "Props.QrdLaws.C103_det",
    "Props.QrdLaws.C103_positive",
    "Props.QrdLaws.C103_chol",
    "Props.QrdLaws.C103_unique",
    "Props.QrdLaws.C103_rotate",
    "Props.QrdLaws.C103_scale",
    "Props.QrdLaws.C103_real_diag",
    "Props.QrdLaws.C103_two"
   ],
   "note": "Exact real and complex arithmetic, for runs that meet no division by zero, as in C24 (C103_two: for size two every invertible matrix); rounding of fixed-point types is not covered by these laws."
  },
  {
   "property": "C104",
   "status": "proved",
   "theorems": [
    "Props.FlfxMulLaws.C104_order",
    "Props.FlfxMulLaws.C104_value",
    "Props.FlfxMulLaws.C104_exact",
    "Props.FlfxMulLaws.C104_one",
    "Props.FlfxMulLaws.C104_sign",
    "Props.FlfxMulLaws.C104_zero",
    "Props.FlfxMulLaws.C104_agree",
    "Props.FlfxMulLaws.C104_order_normal",
    "Props.FlfxMulLaws.C104_order_zero_wrong",
    "Props.FlfxMulLaws.C104_fixed_order",
    "Props.FlfxMulLaws.C104_fixed_floats"
   ],
   "note": "Proved as stated; for a zero fixed-point operand without subnormal support the order fails (C104_order_zero_wrong, the defect of C27_float_zero_wrong)."
  },
  {
   "property": "C105",
   "status": "proved",
   "theorems": [
    "Props.StdAddTreeLaws.C105_zeros",
    "Props.StdAddTreeLaws.C105_equal",
    "Props.StdAddTreeLaws.C105_opposite",
    "Props.StdAddTreeLaws.C105_difference",
    "Props.StdAddTreeLaws.C105_scale"
   ],
   "note": "Proved as stated. For subnormal operands the first law fails from three operands on (C26_subnormal_wrong)."
  }
 ]
}