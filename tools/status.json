{
 "C01": [
  "proved",
  "All widths and values; also the exact behaviour for narrow outputs and the three-argument overload."
 ],
 "C02": [
  "proved",
  "All widths and values; the single overflowing case is characterised separately."
 ],
 "C03": [
  "proved",
  "All widths and dividends."
 ],
 "C04": [
  "partial",
  "Unsigned and signed, every format, rounding and overflow mode and operand, except instantiations in which no quotient bit can reach the output (unsigned) or that also wrap (signed); there the code leaves the quotient stale or uninitialized (proved with witnesses). Signed saturating outputs are covered completely."
 ],
 "C05": [
  "proved",
  "Every width and every pair of operands, unsigned and signed; the iterative divider returns the truncated quotient and remainder."
 ],
 "C06": [
  "proved",
  "Every input and output width."
 ],
 "C07": [
  "proved",
  "Every input and output format, every mode, every input word."
 ],
 "C08": [
  "proved",
  "ac_int and ac_fixed; the float and complex overloads are not modelled."
 ],
 "C09": [
  "proved",
  "Every width, every shift amount below the width."
 ],
 "C10": [
  "partial",
  "True for N <= 4; false for every N >= 5 (proved, with a witness). The flag output is right for every N."
 ],
 "C100": [
  "proved",
  "For the types of C59. C100_conj_wrong shows that with truncation conjugated operands need not give the opposite imaginary part."
 ],
 "C101": [
  "proved",
  "For signed input types in the square root. The order of absolute values needs an output type that saturates."
 ],
 "C102": [
  "proved",
  "On the mantissa and exponent before the output conversion, for exponents that fit their type. For three operands the opposite order can give another sum (C25_tree_order_matters)."
 ],
 "C103": [
  "proved",
  "Exact real and complex arithmetic, for runs that meet no division by zero, as in C24 (C103_two: for size two every invertible matrix); rounding of fixed-point types is not covered by these laws."
 ],
 "C104": [
  "proved",
  "Proved as stated; for a zero fixed-point operand without subnormal support the order fails (C104_order_zero_wrong, the defect of C27_float_zero_wrong)."
 ],
 "C105": [
  "proved",
  "Proved as stated. For subnormal operands the first law fails from three operands on (C26_subnormal_wrong)."
 ],
 "C11": [
  "proved",
  "All four searches, unsigned and signed, every width and value."
 ],
 "C12": [
  "partial",
  "Every format and input, real and complex, except AC_SAT_SYM signed inputs equal to a negative power of two, where losslessness is false (proved for every such format and power)."
 ],
 "C13": [
  "partial",
  "All eight ac_fixed overloads, every format and mode, except the signed left shift with unsigned count into a wrapping output whose rounding mode looks at the sign; there the property is false (proved with a witness). The complex overloads apply these componentwise."
 ],
 "C14": [
  "proved",
  "Every format and mode; nonnegativity, monotonicity and idempotence for saturating outputs, with the wrapping counterexample."
 ],
 "C15": [
  "partial",
  "+, - and pwisemult exact for all sizes and formats. operator* accumulates in a type with room for N-1 terms: exact for every inner dimension with the same carry bits, and for signed operands from inner dimension 3 on; proved wrong for signed inner dimension 2 at every width and for unsigned operands meeting the overflow condition."
 ],
 "C16": [
  "proved",
  "All dimensions and contents. sum is characterised for wrapping element types."
 ],
 "C17": [
  "partial",
  "The code indexes m_data[index / M][index % N]: correct for square matrices (proved), writes out of bounds for M < N and leaves rows unwritten for M > N (both proved)."
 ],
 "C18": [
  "proved",
  "ac_fixed element types; the complex overload instantiates the same template over ac_complex and is not modelled. Input and output arrays are distinct objects."
 ],
 "C19": [
  "proved",
  "ac_fixed inputs, default internal types or the user's. Exact for every size when the intermediate values fit; unconditionally for signed 1x1, 2x2, 3x3 inputs with 0 <= I <= W; bounded entries for every size. Also proved: saturation for unsigned inputs, signed 4x4, negative I, and loss through the conversion of minors to the output type."
 ],
 "C20": [
  "proved",
  "All sizes: bijection onto the packed array."
 ],
 "C21": [
  "proved",
  "All sizes, all element arithmetics (parameter), all inputs."
 ],
 "C22": [
  "proved",
  "Exact real and complex arithmetic, all sizes; accepted exactly when positive definite."
 ],
 "C23": [
  "partial",
  "Inverse proved in exact arithmetic for all sizes; the documented zero result for other matrices is false (C23_rejected, C23_not_posdef_wrong)."
 ],
 "C24": [
  "partial",
  "Exact arithmetic, all sizes: proved for runs without division by zero; false otherwise (C24_zero_pair_wrong, C24_identity_wrong)."
 ],
 "C25": [
  "partial",
  "Proved in full for block_add_tree (common exponent, exact integer sum, order independence, accuracy, fixed output), for AccExtraLSBs of either sign. For add_tree the claim is false as stated: pairwise truncation makes the order matter (C25_tree_order_matters); what holds (exponent of a non-zero operand, one-sided error of N-1 units, 2N-1 with negative AccExtraLSBs, exactness when exponents differ by at most AccExtraLSBs) is proved. For ac_float outputs the bounds hold for the mantissa and exponent given to the ac_float constructor, which is external and a parameter (C25_float_block, C25_float_tree)."
 ],
 "C26": [
  "partial",
  "NaN and infinity handling proved for every operand count, format and mode. Overflow of two operands, or of more operands by less than a binade, is right (C26_overflow_partial). Otherwise the finite part of the claim is refuted by witnesses: overflow of three or more operands wraps (C26_overflow_wrong), subnormal results of three or more operands are scaled (C26_subnormal_wrong), the sticky bit is lost when the sum keeps its top bit (C26_rounding_wrong), AccExtraLSBs = 0 drops mantissa bits (C26_no_extra_bits_wrong)."
 ],
 "C27": [
  "partial",
  "Proved: fixed output equals one conversion of the exact product; float output with subnormal support is the exact product rounded down and saturated; without it the same for normal products and zero below the normal range; operand order is irrelevant. Refuted: zero times a number can be the largest output value when the unsigned fixed operand has width 2^k-1 (C27_float_zero_wrong); subnormal operands can saturate (C27_float_not_normal_wrong)."
 ],
 "C28": [
  "proved",
  "Any number of dimensions, every write history."
 ],
 "C29": [
  "proved",
  "Fixed-point version, every input and output format. Relative error of the value before the output conversion at most 1/512; a signed output carries the sign of the input."
 ],
 "C30": [
  "proved",
  "Fixed-point version, normalized or not. The square of the value before the output conversion is within 1/440 of the input (relative error of the root at most 1/800)."
 ],
 "C31": [
  "proved",
  "Fixed-point version, normalized or not. Relative error of the value before the output conversion at most 1/1300."
 ],
 "C32": [
  "partial",
  "All formats and inputs; error bound against the logistic function added. The exact symmetry is false at the input 0 (witness C32_symmetry_zero_wrong), so it is proved for nonzero inputs. The ac_float version is C66."
 ],
 "C33": [
  "partial",
  "All formats and inputs; error bound against tanh added. Table safety is false for 3 <= |x| < 4 (C33_table_wrong), oddness is false at 0 (C33_odd_zero_wrong)."
 ],
 "C34": [
  "proved",
  "Fixed-point versions of log2 (error at most 1/600, exact under shifts) and ln (error at most 1/800 + |ln x|/20000)."
 ],
 "C35": [
  "proved",
  "Fixed-point versions. pow2: relative error at most 1/400, exact under integer shifts of the input. exp: relative error at most 1/256 for inputs up to 64 in magnitude, a bound in terms of the exponent beyond."
 ],
 "C36": [
  "proved",
  "ac_softmax_pwl_new_ptr for every K, type and vector: order, total within 1/500, error 1/100 against the real softmax of the scaled inputs."
 ],
 "C37": [
  "partial",
  "Error bound against the real cosine and sine, table safety and periodicity hold for every input type; half-turn symmetry for every input type and parity up to 12 fraction bits. Partial: with a truncating output type both symmetries fail at the odd eighths of a turn (C37_symmetry_wrong), which are proved for sign-symmetric rounding only; a wrapping output type with one integer bit flips the sign of 1 (C37_wrap_wrong)."
 ],
 "C38": [
  "proved",
  "Convergence of the angle and error of both outputs for every angle, every signed output type of up to 68 bits and every scaling factor with two units to spare; the functions with scale 1 need two integer bits. Beyond 68 bits both outputs are proved to be always zero, and with one integer bit and wrapping the sign is proved wrong."
 ],
 "C39": [
  "partial",
  "Positive bases only: a zero base has no special case and 0 to a small positive power is refuted (C39_zero_wrong)."
 ],
 "C40": [
  "partial",
  "Order for all vectors; total if some logit is at least -7, error 1/75 if some logit is nonnegative. Refuted beyond: logits -8, -9 give outputs 0, 0."
 ],
 "C41": [
  "proved",
  "all formats and values; without normalization for normalized inputs"
 ],
 "C42": [
  "proved",
  "all formats and values; without normalization for normalized inputs"
 ],
 "C43": [
  "proved",
  "all three functions, all unsigned formats and values"
 ],
 "C44": [
  "partial",
  "proved for input types whose intermediate type does not wrap; refuted for the others"
 ],
 "C45": [
  "partial",
  "ELU in full; SELU of negative inputs for signed outputs with 2 integer and 4 fraction bits, refuted for coarser outputs (C45_selu_wrong)"
 ],
 "C46": [
  "partial",
  "table safety in full; error, order and sign for up to 6 integer bits (4 unsigned), refuted beyond (C46_wrong)"
 ],
 "C47": [
  "partial",
  "table safety and symmetry in full; the error bound grows with the input, and must (C47_vanish); the magnitude can reach one (C47_wrap_wrong)"
 ],
 "C48": [
  "partial",
  "error, range and large inputs for the types whose tanh argument fits; table safety up to 11/4 and refuted from 14/5 to 33/10 (C48_table_wrong); unsigned to signed refuted (C48_unsigned_wrong)"
 ],
 "C49": [
  "partial",
  "Table safety for all arguments; on the axes within 1/64 unit plus 2^-52 for all vectors; elsewhere within 2/5 unit plus 1/(40 |z|) unit plus 2^-51 before the assignment to the output (one unit more after it) for vectors no shorter than a quarter unit. False for shorter vectors and for outputs of more than about 52 fraction bits; witnesses proved."
 ],
 "C50": [
  "partial",
  "Error proved for every output with 1 to 64 fraction bits. Refuted: output of one fraction and one integer bit that rounds and wraps (C50_one_bit_wrong)."
 ],
 "C51": [
  "proved",
  "All unsigned outputs with an integer bit and 1 to 64 fraction bits."
 ],
 "C52": [
  "partial",
  "Error of both logarithms proved for every positive argument, all types the static assertions admit, signed and unsigned outputs, whenever the output type holds the result. Refuted: saturation of signed outputs, rounded temporaries, zero."
 ],
 "C53": [
  "partial",
  "Relative error proved for all arguments, widths and rounding modes for base e; for base 2 with truncated temporaries, or arguments of no more fraction bits than the temporaries, or not just below an integer; including saturation. Refuted for base 2 otherwise: rounded temporaries just below an integer give zero (C53_round_wrong)."
 ],
 "C54": [
  "partial",
  "Relative error as a function of the declared types proved for positive bases and temporaries of every width. Refuted: base zero, an error of a few units of the output, rounded temporaries (overridden or default)."
 ],
 "C55": [
  "proved",
  "Counted for every width and value; the condition on rand() fails if RAND_MAX is 32767 (C55_short_rand_wrong). Of ac_float the bits of mantissa and exponent before normalization are modelled."
 ],
 "C56": [
  "proved",
  "all formats whose squared modulus type holds the exact value"
 ],
 "C57": [
  "proved",
  "signed inputs of integer width at least -26; refuted for integer width -80 (C57_tiny_wrong); the real part of the root of a negative number is not zero (C57_negative_real)"
 ],
 "C58": [
  "proved",
  "signed inputs of integer width at least -26"
 ],
 "C59": [
  "partial",
  "exact when the dividend type is no wider than the quotient type on either side of the binary point; false otherwise, with witnesses"
 ],
 "C60": [
  "proved",
  "Conversion to the output type is a parameter; FFmt.dst is the one of ac_float. ac_float itself is in the trusted base."
 ],
 "C61": [
  "partial",
  "normalised inputs only for ac_sqrt_pwl and ac_inverse_sqrt_pwl: false otherwise (C61_subnormal_counterexample); ac_inverse_sqrt_pwl_vha is complete"
 ],
 "C62": [
  "partial",
  "normalised inputs only: false otherwise (C62_subnormal_counterexample)"
 ],
 "C63": [
  "proved",
  "All input and output types; the mantissa need not be normalised. The base e bound is stated up to |x| = 800, beyond which the stored log2(e) makes it larger."
 ],
 "C64": [
  "partial",
  "ac_abs is fully proved. Division and square root: exact description, error bounds and flag for all types; the bound of a unit in the last place is false for types with many integer bits, one overflowing pair of mantissas and the rounding modes of the root are excluded, and the root does not keep the order (counterexamples)."
 ],
 "C65": [
  "proved",
  "The errors are absolute; counterexamples show that no relative precision holds."
 ],
 "C66": [
  "partial",
  "tanh reads outside its table for inputs from 3 to 4 (proved), so its table safety is proved below 3 only; errors and order are proved for any value read there"
 ],
 "C67": [
  "proved",
  "errors, range, order and table safety; the step of the internal type of ac_atan_pwl is part of the statement and shown to be needed"
 ],
 "C68": [
  "partial",
  "Table safety for all inputs; errors for all widths of the temporaries. Refuted: relative precision near one, integer mantissas of the output, rounding of overridden temporaries, log of zero."
 ],
 "C69": [
  "proved",
  "Table safety; relative error for all rounding modes and all widths of the static assertions, bases 2 and e; saturation and underflow. Refuted: precision of the mantissa width, exact powers of two, an error that does not grow with the argument."
 ],
 "C70": [
  "partial",
  "Table safety and special cases for all inputs; relative error, saturation and underflow for positive bases. Refuted: an error that does not grow with the exponent, rounding of overridden temporaries, pole at zero, negative bases."
 ],
 "C71": [
  "partial",
  "Factorization with error bound for positive definite matrices (all modes); residual of every accepted matrix and rejection of indefinite ones for saturating intermediate types; use_pwl = true and complex elements are in C72. Missing: outputs whose diagonal elements have reciprocals that overflow the intermediate type, where it is false (C71_small_pivot_wrong, C71_small_pivot_accepted), and wrapping intermediate types, where it is false (C71_wrap_wrong)."
 ],
 "C72": [
  "proved",
  "Stated for any arithmetic with given error bounds and then for ac_fixed and ac_complex<ac_fixed> elements, each with the exact and the PWL functions; the hypotheses are that the exact results fit the types and that the smallest eigenvalue exceeds the errors."
 ],
 "C73": [
  "proved",
  "C73_any for any arithmetic, C73_real and C73_complex for the types of the code. real_diag = true is not covered. Outside the stated bounds the claim fails: C73_small_pivot_wrong, C73_large_wrong, C73_few_bits_wrong."
 ],
 "C74": [
  "proved",
  "Bound proved for any accurate arithmetic, and for the ac_fixed and ac_complex<ac_fixed> versions with signed types and all four combinations of the PWL switches; counterexamples outside the stated ranges."
 ],
 "C75": [
  "proved",
  "Rounding errors of ac_qrd with real_diag = true; counterexamples for tiny and zero bottom right elements."
 ],
 "C76": [
  "proved",
  "AccExtraLSBs at least 1 and at most what the saturated alignment shift can remove; beyond that refuted by C76_many_extra_bits_wrong. Subnormal sums of three or more numbers are the subject of C26."
 ],
 "C77": [
  "proved",
  ""
 ],
 "C78": [
  "partial",
  "ac_reciprocal_pwl and ac_reciprocal_pwl_ha for all numbers; ac_reciprocal_pwl_vha if 2W+2 <= 3*2^E or the number is not too small, refuted otherwise (C78_vha_small_wrong)."
 ],
 "C79": [
  "proved",
  "Explicit bound for every size and type that holds the results; it is not small for types with many integer bits (C79_integer_bits_wrong)."
 ],
 "C80": [
  "partial",
  "Proved for every finite number for the reciprocals, exponentials, activation, trigonometric and arc functions, and for positive numbers for the hyperbolic CORDIC logarithms. The piecewise linear roots and logarithms and ac_sqrt are proved from a quarter of the smallest normal number on; below that the roots are refuted (C80_subnormal_wrong). The behaviour of the conversions between ac_float and ac_std_float, whose source is not in /repo, is a hypothesis (Ok) with an instance. log(-0) is refuted (C80_log_minus_zero_wrong)."
 ],
 "C81": [
  "proved",
  "For positive definite matrices of finite numbers, every size and format that holds the results. The conversions between ac_float and the standard formats are hypotheses (Ok) with an instance. Also proved: the ac_matrix versions ignore delta_e (C81_delta_e_wrong)."
 ],
 "C82": [
  "proved",
  "ac_complex inputs, default internal types or the user's. Exact for every size when the intermediate values fit, bounded parts for every size; unconditional for signed 1x1 up to the output conversion and signed 2x2 up to the d_type and output conversions. Also proved: overflow of the base type for unsigned inputs and of d_type for signed 2x2 inputs."
 ],
 "C83": [
  "partial",
  "All arguments and formats for the piecewise linear logarithms, exponentials and reciprocals, the sines and cosines and the arc sine. Missing: ac_tan_pwl for input types whose intermediate type wraps, where it is false (C44_wrap_wrong), and the hyperbolic CORDIC functions with overridden rounding of the logarithm or rounding of the exponential of an argument with more fraction bits (refuted: C52_round_wrong, C53_round_wrong)."
 ],
 "C84": [
  "partial",
  "All sizes and types for ac_matrixmul and for +, -, +=, -=, pwisemult, scale, sum and the determinants. operator* of ac_matrix is exact where N-1 and N products need the same carry bits, and for signed parts from inner dimension 3 on; false for inner dimension 2 (C84_mul_two_wrong)."
 ],
 "C85": [
  "partial",
  "Refuted: the square root depends on the width of the input type below 15 bits (C85_sqrt_wrong), the exponential with fewer than 12 temporary bits depends on the input type (C85_exp_wrong). Everything else of the statement is proved."
 ],
 "C86": [
  "partial",
  "All identities are proved within the sums of the error bounds; that sine and cosine by CORDIC stay within [-1, 1] is refuted (C86_cordic_range_wrong), and atan2 excludes short vectors, as in C49."
 ],
 "C87": [
  "partial",
  "Proved for ac_chol_d, ac_cholinv, ac_qrd, += and -=. For ac_matrixmul the elements are characterised for every input; the result is the product if the other factor is triangular (lower for A, upper for B), and refuted otherwise."
 ],
 "C88": [
  "partial",
  "Table lookup: order proved for every angle type and every output type outside an explicit list, refuted for every member of the list. Logarithm to base 2: exact order proved whenever the output type holds the results (unsigned outputs: always), refuted for signed types that do not and for temporaries that round up. CORDIC sine, cosine, arcsine, arccosine, power of two and natural logarithm: order refuted, proved up to the errors."
 ],
 "C89": [
  "partial",
  "Proved exact for all types: sine and cosine by table lookup at quarter turns, quotients that the type can hold, ELU, SELU, softsign, GELU, tangent and the two accurate arctangents at zero. Closed forms proved for reciprocals, inverse square root, logarithms and powers at powers of two: exact in types that round to nearest with a coarse unit, refuted in every type that holds the number computed. Hyperbolic CORDIC: the logarithm of a power of two characterised for every type (exact unless the width is in a list), the power of two of a whole number refuted for every output with 9 or more fraction bits. Refuted for arctangent, hyperbolic tangent and sigmoid at zero and, with witnesses, for CORDIC sine, cosine and arc functions."
 ],
 "C90": [
  "partial",
  "Order proved for saturating types, signed and unsigned, and refuted for wrapping ones; change of sign proved for the five symmetric rounding modes with symmetric saturation or a quotient within the range, and refuted for truncation and asymmetric saturation; dependence on values only and division by one proved, for the types for which C04 holds."
 ],
 "C91": [
  "partial",
  "All laws proved at full strength except that the kind of the count matters for left shifts into signed wrapping outputs whose rounding mode looks at the sign (C91_count_left_wrong), rounding to nearest between two right shifts changes the result (C91_twice_rounded_wrong) and wrapping outputs lose the order (C91_order_wrap_wrong)."
 ],
 "C92": [
  "proved",
  "Every input and output format and mode; the conditions of the nested and order laws are needed (C92_nested_round_wrong, C92_order_wrong)."
 ],
 "C93": [
  "proved",
  "All widths and operands. That the signed fixed-point output truncates toward zero is needed (C93_fixed_signed_wrong)."
 ],
 "C94": [
  "proved",
  "All types and numbers, apart from the negatives of powers of two under AC_SAT_SYM, for which the laws fail (C94_type_sym_wrong, C12_lossless_wrong)."
 ],
 "C95": [
  "proved",
  "All shapes, types and contents under the stated conditions. Without room the laws fail (C95_assoc_wrong, C95_det_permute_wrong)."
 ],
 "C96": [
  "proved",
  "All types and numbers. The order is lost in outputs that wrap (C96_abs_order_wrong) and negative slopes do not compose (C96_compose_wrong)."
 ],
 "C97": [
  "proved",
  "All vectors under the stated conditions. The conditions for ac_softmax_pwl are needed (C97_shift_wrong)."
 ],
 "C98": [
  "proved",
  "For every arithmetic of the elements, including the rounding of ac_fixed. C98_reject_wrong shows that the condition on the root is needed."
 ],
 "C99": [
  "proved",
  "For signed result types. C99_hermitian_wrong shows that the result for a Hermitian matrix need not be Hermitian when it is truncated."
 ]
}