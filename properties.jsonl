{"id": "C01", "title": "Unsigned integer division is Euclidean division", "statement": "ac_div(dividend, divisor, quotient, remainder) on unsigned ac_int with a nonzero divisor and output types wide enough returns quotient*divisor + remainder = dividend with 0 <= remainder < divisor, and the boolean result is true exactly when the remainder is nonzero.", "quantifier": "every dividend width, divisor width, output widths at least as wide as needed, every dividend and every nonzero divisor", "why_tests_cant": "the input space is 2^(NW+DW) for every pair of template widths; tests sample a few widths and values", "anchors": ["include/ac_math/ac_div.h: ac_div(ac_int<NW,false>, ac_int<DW,false>, ac_int<QW,false>&, ac_int<RW,false>&)"]}
{"id": "C02", "title": "Signed integer division truncates toward zero", "statement": "ac_div on signed ac_int with a nonzero divisor returns the C quotient and remainder: quotient is dividend/divisor rounded toward zero, remainder has the sign of the dividend and magnitude below |divisor|, quotient*divisor+remainder = dividend. The most negative dividend divided by -1 wraps in a quotient that is not wider than the dividend.", "quantifier": "every width and every signed dividend and nonzero divisor", "why_tests_cant": "sign combinations at the extreme values of every width form an unbounded family", "anchors": ["include/ac_math/ac_div.h: ac_div(ac_int<NW,true>, ac_int<DW,true>, ...)"]}
{"id": "C03", "title": "Division by zero saturates the quotient", "statement": "Without AC_DIV_DISABLE_SATURATION_IF_INPUT_IS_ZERO, integer ac_div with divisor 0 writes the largest quotient for a non-negative dividend and the smallest quotient for a negative dividend, for any width.", "quantifier": "every width and every dividend, divisor zero", "why_tests_cant": "a statement about all widths and all dividends", "anchors": ["include/ac_math/ac_div.h: saturation blocks"]}
{"id": "C04", "title": "Fixed-point division is correctly rounded", "statement": "ac_fixed ac_div (unsigned or signed) with a nonzero divisor writes to quotient the exact rational dividend/divisor converted once to the quotient type with its rounding and overflow modes, for every format; the result flag tells whether it is inexact.", "quantifier": "every dividend, divisor and quotient format, every rounding and overflow mode, every value", "why_tests_cant": "double rounding errors appear only on rare ties that depend on the formats", "anchors": ["include/ac_math/ac_div.h: ac_div(ac_fixed<NW,NI,false>, ...)"]}
{"id": "C05", "title": "ac_div_v2 divides correctly under its documented precondition", "statement": "ac_div_v2 on unsigned integers returns the Euclidean quotient and remainder for every dividend and every divisor accepted by its assertion (divisor >= 2^(DW-PW)).", "quantifier": "all widths NW, DW, all PW, all dividends, all divisors accepted by the assertion", "why_tests_cant": "unbounded widths and a precision parameter PW", "anchors": ["include/ac_math/ac_div_v2.h: ac_div_v2"]}
{"id": "C06", "title": "Integer square root is the floor square root", "statement": "ac_sqrt on an unsigned ac_int returns r with r*r <= x < (r+1)*(r+1), and no intermediate register loses bits.", "quantifier": "every input width and every value", "why_tests_cant": "digit-recurrence overflows would show only for special widths and values", "anchors": ["include/ac_math/ac_sqrt.h: ac_sqrt(ac_int<XW,false>, ac_int<OW,false>&)"]}
{"id": "C07", "title": "Fixed-point square root is correctly rounded", "statement": "ac_sqrt on unsigned ac_fixed writes the exact real square root of the input converted once to the output type, for every format and rounding mode.", "quantifier": "every input and output format, rounding mode and value", "why_tests_cant": "the result depends on a sticky bit whose effect is visible only near ties", "anchors": ["include/ac_math/ac_sqrt.h: ac_sqrt(ac_fixed<XW,XI,false>, ...)"]}
{"id": "C08", "title": "Absolute value is exact", "statement": "ac_abs from a signed ac_int of width W to an unsigned one of width >= W is exactly |x|, including x = -2^(W-1); a signed output of the same width wraps only for x = -2^(W-1).", "quantifier": "every width and every value", "why_tests_cant": "the corner case exists once per width", "anchors": ["include/ac_math/ac_abs.h: ac_abs(ac_int), ac_abs(ac_fixed)"]}
{"id": "C09", "title": "Barrel shift is rotation", "statement": "ac_barrel_shift(x, s) rotates the N-bit word x right by s positions for every N (not only powers of two): output bit i is input bit (i+s) mod N; rotating by s then by t equals rotating by s+t mod N and the operation is a bijection.", "quantifier": "every word width N, every word and every shift amount representable in the shift type", "why_tests_cant": "N is unbounded and non-power-of-two widths take a different layering", "anchors": ["include/ac_math/ac_barrel_shift.h: ac_barrel_shift"]}
{"id": "C10", "title": "Template leading-one detector returns the top set bit", "statement": "leading_ones returns through its flag whether any bit of the word is set and through its index the position of the most significant set bit.", "quantifier": "every width N and every N-bit word", "why_tests_cant": "the recursion depth grows with N; an indexing defect may appear only above a certain width", "anchors": ["include/ac_math/ac_leading_ones_tmpl.h: leading_ones, leading1"]}
{"id": "C11", "title": "Leading/trailing bit searches return the extreme position", "statement": "leading1, trailing1, leading0 and trailing0 set flag exactly when a bit of the requested value exists in the searched bits, and then return the highest (lowest) such position.", "quantifier": "every width, both signednesses, every word", "why_tests_cant": "all words of all widths", "anchors": ["include/ac_math/ac_leading.h: leading1, leading0, trailing1, trailing0"]}
{"id": "C12", "title": "Normalization is lossless and in range", "statement": "ac_normalize returns a normalized value and exponent with input = normalized * 2^exponent exactly; for nonzero input the normalized value is in [0.5,1) (unsigned), [-1,-0.5) or [0.5,1) (signed); for zero input both are 0. The complex version uses a common exponent and normalizes the larger part.", "quantifier": "every format and every value", "why_tests_cant": "all widths, all integer-bit settings including negative ones", "anchors": ["include/ac_math/ac_normalize.h: ac_normalize"]}
{"id": "C13", "title": "ac_shift_left/right convert once", "statement": "ac_shift_left(x,n,y) and ac_shift_right(x,n,y) write into y the exact value x*2^n (x*2^-n) converted once to y's type with y's rounding and overflow modes; no intermediate overflow or double rounding, for any shift amount of either sign.", "quantifier": "every input and output format, both signednesses, all eight rounding and four overflow modes, every shift amount with |n| < 2^31, every value", "why_tests_cant": "requires all tie patterns combined with all shift amounts and modes", "anchors": ["include/ac_math/ac_shift.h: ac_shift_left, ac_shift_right"]}
{"id": "C14", "title": "relu / leaky relu / prelu are piecewise linear", "statement": "ac_relu writes max(input,0) and ac_leakyrelu/ac_prelu write input for positive inputs and alpha*input otherwise, each converted once to the output type; relu of a representable output is monotone, nonnegative and idempotent.", "quantifier": "every format, every input, every alpha", "why_tests_cant": "all formats and values", "anchors": ["include/ac_math/ac_relu.h: ac_relu", "include/ac_math/ac_leakyrelu.h: ac_leakyrelu", "include/ac_math/ac_prelu.h: ac_prelu"]}
{"id": "C15", "title": "Matrix sum, difference and product are exact", "statement": "ac_matrix operator+, operator-, operator* and pwisemult with the library's result types hold the exact mathematical result: no element or running sum overflows.", "quantifier": "every dimension, element width and content", "why_tests_cant": "worst-case growth is attained only by extreme matrices of large dimension", "anchors": ["include/ac_matrix.h: operator+, operator-, operator*, pwisemult"]}
{"id": "C16", "title": "Matrix structural laws", "statement": "transpose is an involution and reverses products; operator== holds exactly when all elements agree and operator!= is its negation; submatrix(r,c) returns the window at that offset; sum and scale act on every element once.", "quantifier": "every dimension and content", "why_tests_cant": "all dimensions", "anchors": ["include/ac_matrix.h: transpose, operator==, operator!=, submatrix, sum, scale"]}
{"id": "C17", "title": "Matrix initializer lists fill in row-major order", "statement": "constructing an M x N ac_matrix from an initializer list stores the k-th list element at row k/N, column k%N and never writes outside the matrix.", "quantifier": "every M, N and list of M*N values", "why_tests_cant": "a defect that cancels for square matrices is invisible to square tests", "anchors": ["include/ac_matrix.h: ac_matrix(std::initializer_list)"]}
{"id": "C18", "title": "ac_matrixmul is the exact product, rounded once", "statement": "ac_matrixmul writes, for every element, the exact inner product of row and column converted once to the output type.", "quantifier": "every dimension, all widths, all matrices", "why_tests_cant": "accumulator growth matters only for extreme inputs and large inner dimension", "anchors": ["include/ac_math/ac_matrixmul.h: ac_matrixmul"]}
{"id": "C19", "title": "Determinant is the determinant", "statement": "ac_determinant equals the mathematical determinant (Leibniz sum) of the input for every matrix size when no intermediate saturates.", "quantifier": "every matrix size M >= 1 and every matrix whose intermediate minors fit the internal types", "why_tests_cant": "cofactor recursion over all sizes", "anchors": ["include/ac_math/ac_determinant.h: ac_determinant"]}
{"id": "C20", "title": "Packed triangular storage never aliases", "statement": "the packed lower-triangular storage used by Cholesky maps distinct positions (i,j), j<=i<M to distinct offsets, all within M(M+1)/2, and covers every offset.", "quantifier": "every M and every pair of positions", "why_tests_cant": "all matrix sizes", "anchors": ["include/ac_math/ac_chol_d.h: ind_conv"]}
{"id": "C21", "title": "Cholesky output shape and rejection", "statement": "ac_chol_d writes zero above the diagonal for every input, writes the all-zero matrix whenever a pivot is not positive, and never reads an element it has not written.", "quantifier": "every size and input matrix, fixed and complex variants", "why_tests_cant": "all matrices, including ill-conditioned ones", "anchors": ["include/ac_math/ac_chol_d.h: ac_chol_d"]}
{"id": "C22", "title": "Cholesky factor reproduces the matrix", "statement": "with exact arithmetic, for a symmetric (Hermitian) matrix accepted by ac_chol_d, L * L^T (L*L^H) = A, L is lower triangular with positive diagonal; a symmetric matrix is accepted exactly when it is positive definite.", "quantifier": "every size M and every symmetric matrix", "why_tests_cant": "unbounded matrix size; sample matrices say nothing about the accept/reject boundary", "anchors": ["include/ac_math/ac_chol_d.h: ac_chol_d"]}
{"id": "C23", "title": "Cholesky inverse is the inverse", "statement": "with exact arithmetic, ac_cholinv of a positive definite matrix returns its inverse; for a matrix that is not positive definite it returns zeros as documented.", "quantifier": "every size and every symmetric matrix", "why_tests_cant": "unbounded sizes", "anchors": ["include/ac_math/ac_cholinv.h: ac_cholinv"]}
{"id": "C24", "title": "QR decomposition reproduces the matrix", "statement": "with exact arithmetic ac_qrd returns orthogonal Q and upper triangular R with A = Q*R for every real square matrix.", "quantifier": "every size and every matrix", "why_tests_cant": "zero pivots need special matrices; sizes are unbounded", "anchors": ["include/ac_math/ac_qrd.h: ac_qrd"]}
{"id": "C25", "title": "Float adder tree: order independence and exact sum of aligned mantissas", "statement": "block_add_tree and add_tree align every operand to the largest exponent and return the exact integer sum of the aligned mantissas; the tree shape does not change the result and operands with zero mantissa never raise the common exponent.", "quantifier": "every number of operands and all operand values", "why_tests_cant": "N is unbounded, tree recursion splits unevenly", "anchors": ["include/ac_float_add_tree.h: add_tree, block_add_tree, add_r, max_r, exp_equalizer"]}
{"id": "C26", "title": "IEEE adder tree special values", "statement": "fadd_tree returns NaN exactly when some operand is NaN or both infinities occur, the infinity of the right sign when infinities of one sign occur, and an overflowing finite sum gives infinity (or the largest finite value under truncation), never a small finite number.", "quantifier": "every operand count, every format, every operand array", "why_tests_cant": "overflow by more than one binade needs at least three huge operands", "anchors": ["include/ac_std_float_add_tree.h: fadd_tree_core"]}
{"id": "C27", "title": "Mixed float/fixed multiplication is commutative and exact up to one conversion", "statement": "ac_flfx_mul gives the same result for swapped operands, gives zero when an operand is zero, and equals the exact product converted once to the output type, saturating on exponent overflow.", "quantifier": "every format and operand pair", "why_tests_cant": "all formats", "anchors": ["include/ac_math/ac_flfx_mul.h: ac_flfx_mul"]}
{"id": "C28", "title": "ac_array element access", "statement": "ac_array of one, two or three dimensions: reading an element after set/operator[] returns the last value stored, other elements are unchanged; set and clearAll affect every element; operator== is elementwise equality and operator!= its negation.", "quantifier": "every shape, every index and every write history", "why_tests_cant": "histories and shapes are unbounded", "anchors": ["include/ac_array.h: ac_array"]}
{"id": "C29", "title": "PWL reciprocal error bound, sign and saturation", "statement": "ac_reciprocal_pwl never indexes outside its table, for nonzero input its value before output conversion is within a fixed relative error of 1/input for every input format, keeps the sign of the input, is monotone on positive inputs, and a zero input writes the largest output.", "quantifier": "every input format and every value", "why_tests_cant": "error of a piecewise approximation over all widths", "anchors": ["include/ac_math/ac_reciprocal_pwl.h: ac_reciprocal_pwl"]}
{"id": "C30", "title": "PWL square root error bound", "statement": "ac_sqrt_pwl never indexes outside its table and its value before output conversion is within a fixed relative error of the real square root for every input format; sqrt of 0 is 0.", "quantifier": "every input format and value", "why_tests_cant": "error over all widths and both exponent parities", "anchors": ["include/ac_math/ac_sqrt_pwl.h: ac_sqrt_pwl"]}
{"id": "C31", "title": "PWL inverse square root error bound", "statement": "ac_inverse_sqrt_pwl is within a fixed relative error of 1/sqrt(x) before output conversion for every format; zero input writes the largest output.", "quantifier": "every input format and value", "why_tests_cant": "error over all widths and both exponent parities", "anchors": ["include/ac_math/ac_inverse_sqrt_pwl.h: ac_inverse_sqrt_pwl"]}
{"id": "C32", "title": "PWL sigmoid: symmetry, monotonicity, range", "statement": "ac_sigmoid_pwl never indexes outside its table; before output conversion sigmoid(-x) = 1 - sigmoid(x) exactly, values stay in [0,1), the function is nondecreasing, and saturates for |x| >= 5.", "quantifier": "every input format and every pair of inputs", "why_tests_cant": "monotonicity is a property of pairs over all widths", "anchors": ["include/ac_math/ac_sigmoid_pwl.h: ac_sigmoid_pwl"]}
{"id": "C33", "title": "PWL tanh: odd symmetry, monotonicity, range, table safety", "statement": "ac_tanh_pwl before output conversion is odd, nondecreasing, stays within (-1,1), saturates for |x| >= 3, and never reads outside its 12-entry table.", "quantifier": "every input format and every pair of inputs", "why_tests_cant": "an out-of-range table read whose value is later discarded is invisible to output checks", "anchors": ["include/ac_math/ac_tanh_pwl.h: ac_tanh_pwl"]}
{"id": "C34", "title": "PWL log2 and ln", "statement": "ac_log2_pwl is nondecreasing, shifting the input by one binary place changes the result by exactly one, its value before output conversion is within a fixed absolute error of log2, and zero input writes the smallest output.", "quantifier": "every input format and value", "why_tests_cant": "error and monotonicity over all widths", "anchors": ["include/ac_math/ac_log_pwl.h: ac_log2_pwl, ac_log_pwl"]}
{"id": "C35", "title": "PWL pow2 and exp", "statement": "ac_pow2_pwl is nondecreasing, adding 1 to the input doubles the unrounded result exactly, and its value before output conversion is within a fixed relative error of 2^x.", "quantifier": "every input format and value", "why_tests_cant": "error and monotonicity over all widths", "anchors": ["include/ac_math/ac_pow_pwl.h: ac_pow2_pwl, ac_exp_pwl"]}
{"id": "C36", "title": "Softmax preserves order and total", "statement": "ac_softmax_pwl_new: the internal sum never overflows and is never zero, so the reciprocal never saturates; a larger logit never gets a smaller output; outputs before conversion are nonnegative and sum to 1 within 1/500; each is within 1/100 of the softmax (of the inputs scaled by a factor that differs from 1 by no more than the precision of the constant log2(e)) when the exponentials have fraction bits enough for K classes.", "quantifier": "every number of classes K and every input vector", "why_tests_cant": "K and the vectors are unbounded", "anchors": ["include/ac_math/ac_softmax_pwl_new.h: ac_softmax_pwl_new, ac_softmax_pwl_new_ptr"]}
{"id": "C37", "title": "Sine/cosine table lookup symmetries", "statement": "ac_sincos_lut never indexes outside its table, is periodic in full turns, and satisfies sin(x+1/2) = -sin(x), cos(x+1/2) = -cos(x), sin(-x) = -sin(x), cos(-x) = cos(x) for inputs of up to 12 fractional bits.", "quantifier": "every input format and value", "why_tests_cant": "periodicity over all integer widths; octant boundaries", "anchors": ["include/ac_math/ac_sincos_lut.h: ac_sincos_lut"]}
{"id": "C38", "title": "CORDIC sine/cosine converges", "statement": "ac_sincos_cordic: after its iterations the accumulated angle is within 2^-OW half turns (plus 2^-64, the accuracy of the stored angles) of the requested one for every angle, up to whole turns, and sin and cos of the result are within two output units plus the scaling factor times a bound that shrinks as 2^-OW, down to the accuracy of the stored tables (2^-50).", "quantifier": "every angle, every signed output type whose width is within the table (up to 68 bits), every scaling factor the output type can hold with two units to spare", "why_tests_cant": "convergence must hold for every angle and every iteration count", "anchors": ["include/ac_math/ac_sincos_cordic.h: ac_sincos_cordic"]}
{"id": "C39", "title": "PWL power error bound", "statement": "ac_pow_pwl(base, expon) never indexes outside its tables; its value before output conversion is within a relative error of (1 + |expon|)/400 of base to the power expon; a larger base gives a result that is not smaller for a nonnegative exponent and not larger for a nonpositive one; a zero base with a positive exponent gives zero.", "quantifier": "every base and exponent format and value", "why_tests_cant": "two inputs and their formats; the error of the logarithm is multiplied by the exponent", "anchors": ["include/ac_math/ac_pow_pwl.h: ac_pow_pwl"]}
{"id": "C40", "title": "First softmax: order, total and error", "statement": "ac_softmax_pwl with its default internal types: a larger logit never gets a smaller output; outputs before conversion are nonnegative and sum to 1 within the reciprocal's error; each is close to the softmax.", "quantifier": "every number of classes K and every input vector", "why_tests_cant": "K and the vectors are unbounded; exponentials of very negative logits are truncated away", "anchors": ["include/ac_math/ac_softmax_pwl.h: ac_softmax_pwl"]}
{"id": "C41", "title": "High accuracy PWL reciprocals: error, order, sign and zero", "statement": "ac_reciprocal_pwl_ha and ac_reciprocal_pwl_vha never index outside their tables; for a nonzero input the value before output conversion is within a relative error of 1/8192 (1/30000) of 1/input for every format, keeps the sign, is monotone on positive inputs; zero writes the largest output; without normalization the same holds for normalized inputs, signed or not.", "quantifier": "every input and output format, every value, with and without normalization", "why_tests_cant": "error of a piecewise approximation over all widths", "anchors": ["include/ac_math/ac_reciprocal_pwl_ha.h: ac_reciprocal_pwl_ha", "include/ac_math/ac_reciprocal_pwl_vha.h: ac_reciprocal_pwl_vha"]}
{"id": "C42", "title": "High accuracy PWL inverse square root", "statement": "ac_inverse_sqrt_pwl_vha never indexes outside its table, is within a relative error of 1/19000 of 1/sqrt(x) before output conversion for every format, never larger for a larger input, and zero writes the largest output.", "quantifier": "every unsigned input and output format, every value, with and without normalization", "why_tests_cant": "error over all widths and both exponent parities", "anchors": ["include/ac_math/ac_inverse_sqrt_pwl_vha.h: ac_inverse_sqrt_pwl_vha"]}
{"id": "C43", "title": "PWL arctangents: table safety, error, order and range", "statement": "ac_atan_pwl, ac_atan_pwl_ha and ac_atan_pwl_vha never index outside their tables; for every unsigned input the value before output conversion is within a fixed absolute error of atan(x), at most pi/2, and a larger input never gets a smaller value, also across 1 where the reciprocal is used.", "quantifier": "every unsigned input and output format and every value", "why_tests_cant": "error over all widths, and order where two approximations meet", "anchors": ["include/ac_math/ac_atan_pwl.h: ac_atan_pwl", "include/ac_math/ac_atan_pwl_ha.h: ac_atan_pwl_ha", "include/ac_math/ac_atan_pwl_vha.h: ac_atan_pwl_vha"]}
{"id": "C44", "title": "PWL tangent: table safety, error in the angle, order and saturation", "statement": "ac_tan_pwl never indexes outside its tables; for every unsigned input below about 89.2 degrees the value before output conversion is the tangent of an angle within a fixed distance of the input, from there on the output is the largest value, and a larger input never gets a smaller value, also where the doubled-angle formula takes over.", "quantifier": "every unsigned input and output format and every value", "why_tests_cant": "error and order over all widths and through a reciprocal; intermediate types derived from the input type", "anchors": ["include/ac_math/ac_tan_pwl.h: ac_tan_pwl"]}
{"id": "C45", "title": "PWL ELU and SELU: table safety, error, order and range", "statement": "ac_elu_pwl and ac_selu_pwl never index outside their tables; ELU of a non-negative input is the input itself, and of a negative input within |alpha|(e^x/256 + 2^-20) of alpha(e^x - 1) and between -alpha and 0; a larger input never gets a smaller value, also across 0; SELU is within a small bound of the real function whenever the output type has the range.", "quantifier": "every input and output format, every alpha and every input value", "why_tests_cant": "error and order over all widths and every alpha, and at the meeting point of two branches", "anchors": ["include/ac_math/ac_elu_pwl.h: ac_elu_pwl", "include/ac_math/ac_selu_pwl.h: ac_selu_pwl"]}
{"id": "C46", "title": "PWL softplus: table safety, error, order and positivity", "statement": "ac_softplus_pwl never indexes outside its tables; the value before output conversion is positive, within a fixed error of ln(1 + e^x), and a larger input never gets a smaller value.", "quantifier": "every input and output format and every input value", "why_tests_cant": "composition of two approximations with an intermediate type derived from the input type; wide inputs", "anchors": ["include/ac_math/ac_softplus_pwl.h: ac_softplus_pwl"]}
{"id": "C47", "title": "PWL softsign: table safety, odd symmetry, error", "statement": "ac_softsign_pwl never indexes outside its tables; the value before output conversion is odd in the input, has its sign, and is within a fixed error of x/(1+|x|), of magnitude below one.", "quantifier": "every input and output format and every input value", "why_tests_cant": "product of the input with a rounded reciprocal: the error grows with the input; wide inputs", "anchors": ["include/ac_math/ac_softsign_pwl.h: ac_softsign_pwl"]}
{"id": "C48", "title": "PWL GELU: table safety, error, range and large inputs", "statement": "ac_gelu_pwl never indexes outside its tables; the value before output conversion is within a small multiple of |x| of the tanh form of GELU, lies between 0 and x, and is x (or 0) up to 2^-21 |x| for large inputs.", "quantifier": "every input and output format and every input value", "why_tests_cant": "composition with tanh through a cubic argument whose type is derived from the input type", "anchors": ["include/ac_math/ac_gelu_pwl.h: ac_gelu_pwl"]}
{"id": "C49", "title": "CORDIC arctangent of two arguments", "statement": "ac_atan2_cordic returns the angle of the vector (x, y) in radians, in all four quadrants and on the axes, within a few units of the output type, for every pair of signed arguments, and never reads outside its table.", "quantifier": "All signed argument types and values, all signed output types with up to 124 fraction bits.", "why_tests_cant": "The error depends on the two argument types, the output type and the length of the vector; the tests compare a grid of vectors of moderate length in a few types with a double reference.", "anchors": ["include/ac_math/ac_atan2_cordic.h:ac_atan2_cordic", "include/ac_math/ac_atan2_cordic.h:atan_2mi"]}
{"id": "C50", "title": "CORDIC arcsine", "statement": "ac_arcsin_cordic returns the arcsine divided by pi within a few units of the output type for every argument in [-1, 1], gives opposite angles for opposite arguments, and never reads outside its table.", "quantifier": "All signed argument types and values in [-1, 1], all signed output types with up to 64 fraction bits.", "why_tests_cant": "The direction of every rotation is decided from rounded variables that grow by a different factor at each step, and a wrong decision near a quarter turn is only repaired by a comparison that is left out for narrow outputs; the tests try a few types.", "anchors": ["include/ac_math/ac_arcsin_cordic.h:ac_arcsin_cordic", "include/ac_math/ac_arcsin_cordic.h:x2_asin_pi_2mi"]}
{"id": "C51", "title": "CORDIC arccosine", "statement": "ac_arccos_cordic returns the arccosine divided by pi within a few units of the output type for every argument in [-1, 1], gives supplementary angles for opposite arguments, and never reads outside its table.", "quantifier": "All signed argument types and values in [-1, 1], all unsigned output types with up to 64 fraction bits.", "why_tests_cant": "Near arguments of size one the angle is as sensitive as a square root, so that the error depends on the guard bits in a way a grid of arguments in a few types does not show.", "anchors": ["include/ac_math/ac_arccos_cordic.h:ac_arccos_cordic", "include/ac_math/ac_arccos_cordic.h:x2_acos_pi_2mi"]}
{"id": "C52", "title": "Logarithms by hyperbolic CORDIC", "statement": "ac_log_cordic and ac_log2_cordic return the logarithm of every positive argument within a few units of the output type, saturate where the output type cannot hold it, and never read outside their tables.", "quantifier": "All unsigned argument types of up to 44 bits and their positive values, all output types of up to 44 fraction bits, with and without overridden widths of the temporaries.", "why_tests_cant": "The number of iterations, the repeated ones and the widths of all variables depend on the types, and the error of every step is carried through up to forty shifts and additions; the tests use a few types.", "anchors": ["include/ac_math/ac_hcordic.h:ac_log_cordic", "include/ac_math/ac_hcordic.h:ac_log2_cordic", "include/ac_math/ac_hcordic.h:ac_log_rr"]}
{"id": "C53", "title": "Exponentials by hyperbolic CORDIC", "statement": "ac_exp2_cordic and ac_exp_cordic return the exponential of every argument within a relative error of a few units of the temporaries, saturate if the output type does, and never read outside their tables.", "quantifier": "All argument types of up to 45 fraction bits, all unsigned output types of up to 44 fraction bits, all arguments.", "why_tests_cant": "The rotation converges only on an interval that depends on the repeated iterations; an error of the range reduction is multiplied by the exponential. Tests try some arguments of some types.", "anchors": ["include/ac_math/ac_hcordic.h:ac_exp_cordic", "include/ac_math/ac_hcordic.h:ac_exp2_cordic", "include/ac_math/ac_hcordic.h:ac_exp2_rr"]}
{"id": "C54", "title": "Powers by hyperbolic CORDIC", "statement": "ac_pow_cordic returns the power of every positive base within an error that follows from the widths of its logarithm and product types, and never reads outside its tables.", "quantifier": "All unsigned base types, exponent types and unsigned output types of up to 44 bits, all positive bases and all exponents.", "why_tests_cant": "The error of the logarithm is multiplied by the exponent and then exponentiated, so it depends on both arguments and all three types.", "anchors": ["include/ac_math/ac_hcordic.h:ac_pow_cordic"]}
{"id": "C55", "title": "Random values", "statement": "ac_random generates every value of the type equally often, if the low sixteen bits of the results of rand() are uniform and independent, whatever the variable held before; it uses as many results as needed and no more.", "quantifier": "All widths of ac_int, ac_fixed, C and SystemC types, all earlier contents, all sequences of results of rand().", "why_tests_cant": "Uniformity is a count over all sequences of results, beyond reach for more than 16 bits.", "anchors": ["include/ac_math/ac_random.h:ac_random", "include/ac_math/ac_random.h:ac_random_ac_s", "include/ac_math/ac_random.h:ac_systemc_builtin_it", "include/ac_math/ac_random.h:ac_random_c_builtin_s"]}
{"id": "C56", "title": "Absolute value and reciprocal of complex numbers", "statement": "ac_abs of a complex number is within 1/800 of its modulus; ac_reciprocal_pwl gives c times the conjugate with c within 3/1024 (relative) of the inverse of the squared modulus, the _ha and _vha versions within 1/7000 and 1/24000; the reciprocal of zero is the largest value in both parts; no table is read out of bounds.", "quantifier": "All input and output formats whose squared modulus type holds the exact value, all inputs, all internal rounding modes.", "why_tests_cant": "Two independent parts and all formats: the space of inputs is the square of that of the real function.", "anchors": ["include/ac_math/ac_abs.h:ac_abs", "include/ac_math/ac_reciprocal_pwl.h:ac_reciprocal_pwl", "include/ac_math/ac_reciprocal_pwl_ha.h:ac_reciprocal_pwl_ha", "include/ac_math/ac_reciprocal_pwl_vha.h:ac_reciprocal_pwl_vha"]}
{"id": "C57", "title": "Square root of complex numbers", "statement": "ac_sqrt_pwl of a complex number with modulus M gives the root in the right half-plane, on the side of the sign of the imaginary part, with the squares of the parts within M/340 of the exact ones; the root of zero is zero; no table is read out of bounds.", "quantifier": "All signed input formats with integer width at least -26, all output formats, all inputs.", "why_tests_cant": "Cancellation between modulus and real part happens only for particular pairs of parts.", "anchors": ["include/ac_math/ac_sqrt_pwl.h:ac_sqrt_pwl", "include/ac_math/ac_sqrt_pwl.h:find_rt_sqrt_pwl"]}
{"id": "C58", "title": "Inverse square root of complex numbers", "statement": "ac_inverse_sqrt_pwl of a nonzero complex number with modulus M gives the inverse of the root in the right half-plane, the squares of the parts within 1/(220 M) of the exact ones; zero gives the largest value in both parts; no table is read out of bounds.", "quantifier": "All signed input formats with integer width at least -26, all output formats, all inputs.", "why_tests_cant": "The same as for the root; the result depends on four declared intermediate types.", "anchors": ["include/ac_math/ac_inverse_sqrt_pwl.h:ac_inverse_sqrt_pwl"]}
{"id": "C59", "title": "Division of complex numbers", "statement": "ac_div of complex numbers gives in each part the exact quotient converted once to the quotient type, and its flag says whether a part is inexact; a zero divisor gives saturated parts.", "quantifier": "All dividend, divisor and signed quotient formats, all dividends and nonzero divisors, all contents of uninitialized variables.", "why_tests_cant": "Four operands; the failing formats are those in which the quotient type is narrower than the dividend type.", "anchors": ["include/ac_math/ac_div.h:ac_div"]}
{"id": "C60", "title": "PWL reciprocals of floating-point numbers", "statement": "For a nonzero ac_float input, normalised or not, the three PWL reciprocals give the conversion to the output type of one function of the value of the input, the same for every input type: odd, decreasing on the positive numbers, and within 1/512, 1/8192 and 1/30000 of the reciprocal. Zero gives the largest value of the output type. If the reciprocal is in the normal range of an ac_float output, the relative error of the output is that bound plus less than two units in the last place.", "quantifier": "all mantissas and exponents of all ac_float input types of at least 2 mantissa bits, all output types, all rounding modes", "why_tests_cant": "The widths of the intermediate types depend on the input type and the shift on the input; tests compare a few types with double arithmetic within a percentage.", "anchors": ["include/ac_math/ac_reciprocal_pwl.h:ac_reciprocal_pwl", "include/ac_math/ac_reciprocal_pwl_ha.h:ac_reciprocal_pwl_ha", "include/ac_math/ac_reciprocal_pwl_vha.h:ac_reciprocal_pwl_vha"]}
{"id": "C61", "title": "PWL square roots of floating-point numbers", "statement": "For a positive ac_float input the PWL square root is right up to 1/850, the PWL inverse square root up to 1/1100 and the very-high-accuracy one up to 1/17000, relative to the exact result, before the conversion to the output type. If the result is in the normal range of an ac_float output, the relative error of the output is that bound plus less than two units in the last place. Zero gives zero and the largest value of the output type.", "quantifier": "all positive ac_float values of all input types, all output types, all rounding modes", "why_tests_cant": "The parity of the exponent, the parity of the integer bits and the widths of the intermediate types all change the computation; tests compare a few types with double arithmetic within a percentage.", "anchors": ["include/ac_math/ac_sqrt_pwl.h:ac_sqrt_pwl", "include/ac_math/ac_inverse_sqrt_pwl.h:ac_inverse_sqrt_pwl", "include/ac_math/ac_inverse_sqrt_pwl_vha.h:ac_inverse_sqrt_pwl_vha"]}
{"id": "C62", "title": "PWL logarithms of floating-point numbers", "statement": "For a positive ac_float input the PWL base 2 logarithm is the conversion to the output type of one function of the value of the input, the same for every input type: increasing and within 1/600 of the logarithm. The natural logarithm is a constant times it, within 1/860 plus a part in 450000 of the result. Zero gives the smallest value of the output type, and no input reads outside the table.", "quantifier": "all positive ac_float values of all input types, all output types, all rounding modes", "why_tests_cant": "The order has to hold across exponents and types; tests sample each type separately.", "anchors": ["include/ac_math/ac_log_pwl.h:ac_log2_pwl", "include/ac_math/ac_log_pwl.h:ac_log_pwl"]}
{"id": "C63", "title": "PWL exponentials of floating-point numbers", "statement": "For each output type, the PWL base 2 exponential of an ac_float input is the conversion to the output type of one positive increasing function of the value of the input, the same for every input type, with a relative error of at most 1/350 for all arguments in the range of the output type. The base e exponential is one too, with an error that grows with the argument: 1/256 up to 64 and 1/80 up to 800. Arguments whose power is too large give the largest number of the output type; those whose power is too small give less than the smallest positive number before its conversion. No input reads outside the table.", "quantifier": "all ac_float values of all input types, normalised or not, all output types, all rounding modes", "why_tests_cant": "The argument is cut to a fixed-point number whose width follows from the output type; tests sample a few pairs of types and arguments.", "anchors": ["include/ac_math/ac_pow_pwl.h:ac_pow2_pwl", "include/ac_math/ac_pow_pwl.h:ac_exp_pwl"]}
{"id": "C64", "title": "Division, square root and absolute value of floating-point numbers", "statement": "ac_abs of an ac_float number is the conversion of its absolute value, exact if the output type has that number. ac_div of ac_float numbers gives the quotient up to a unit in the last place of the output type before its conversion, never above the quotient, and its flag says whether it is inexact; a zero divisor gives the smallest or largest value by the sign of the dividend. ac_sqrt gives the root up to a unit in the last place, and keeps the order.", "quantifier": "all normalised ac_float operands of all types, all output types", "why_tests_cant": "The precision depends on the numbers of integer bits of three types together; tests use one type for all.", "anchors": ["include/ac_math/ac_div.h:ac_div", "include/ac_math/ac_sqrt.h:ac_sqrt", "include/ac_math/ac_abs.h:ac_abs"]}
{"id": "C65", "title": "Sine, cosine, arcsine and arccosine of floating-point numbers", "statement": "For an ac_float input of any magnitude, the CORDIC sine and cosine (angle in half turns) are the conversion to the output type of a number within 2^-24 of the sine and cosine. For inputs in [-1, 1] the CORDIC arcsine and arccosine are the conversion of a number within 1/1023 of a half turn of the angle, and within 2^-27 for inputs that are multiples of 2^-18.", "quantifier": "all ac_float values of all input types, all output types; inputs in [-1, 1] for the inverse functions", "why_tests_cant": "The angle is cut to a fixed-point number that drops most of the integer bits of large angles, and the arcsine amplifies the rounding of its argument near 1; tests sample small angles.", "anchors": ["include/ac_math/ac_sincos_cordic.h:ac_sin_cordic", "include/ac_math/ac_sincos_cordic.h:ac_cos_cordic", "include/ac_math/ac_arcsin_cordic.h:ac_arcsin_cordic", "include/ac_math/ac_arccos_cordic.h:ac_arccos_cordic"]}
{"id": "C66", "title": "Sigmoid, hyperbolic tangent and tangent of floating-point numbers", "statement": "For every ac_float input the PWL sigmoid is the conversion to the output type of a nondecreasing function of the input, strictly between 0 and 1 and within 1/140 of the logistic function (1/248 up to magnitude 5); the PWL tanh, where it stays inside its table, that of a nondecreasing function within 1/182 of tanh. For inputs from 0 to pi/2 the PWL tangent is the conversion of a nondecreasing function whose arctangent is within 1/127 of the input.", "quantifier": "all ac_float values of all input types, all output types and rounding modes; inputs from 0 to pi/2 for the tangent", "why_tests_cant": "The input is cut to a fixed-point number before the table is read; the error and the order must hold for every mantissa and exponent, including those that saturate.", "anchors": ["include/ac_math/ac_sigmoid_pwl.h:ac_sigmoid_pwl", "include/ac_math/ac_tanh_pwl.h:ac_tanh_pwl", "include/ac_math/ac_tan_pwl.h:ac_tan_pwl"]}
{"id": "C67", "title": "Arctangents of floating-point numbers", "statement": "For every nonnegative ac_float input the three PWL arctangents never read outside their tables, and the output is the conversion to the output type of a nondecreasing function of the input between 0 and pi/2. Its error is at most 1/15000 (ac_atan_pwl_ha) and 1/8000 (ac_atan_pwl_vha) below 1, and 1/5000 and 1/5400 from 1 on, for all input types. For ac_atan_pwl it is at most 1/311 below 1 and 1/177 from 1 on (mantissas of at least 14 bits; 1/162 for all), plus the smallest step of a floating-point type with the integer and exponent bits of the input and a mantissa of 22 bits (13 for all).", "quantifier": "all nonnegative ac_float values of all input types, all output types and rounding modes", "why_tests_cant": "The reciprocal goes through a temporary floating-point type whose precision depends on the input type; for each of the unboundedly many types the error must hold for all mantissas and exponents.", "anchors": ["include/ac_math/ac_atan_pwl.h:ac_atan_pwl", "include/ac_math/ac_atan_pwl_ha.h:ac_atan_pwl_ha", "include/ac_math/ac_atan_pwl_vha.h:ac_atan_pwl_vha"]}
{"id": "C68", "title": "Logarithms of floating-point numbers by CORDIC", "statement": "For every positive ac_float input, normalised or not, ac_log2_cordic and ac_log_cordic never read outside their tables, and the value they convert to the output type differs from the logarithm by at most a fixed number of units of the temporaries (growing with the exponent for base e); the output adds only the rounding of the output type.", "quantifier": "all formats within the static assertions, all rounding modes of the temporaries, all inputs", "why_tests_cant": "Widths, exponents, rounding modes and override widths are template parameters, and the errors hold over a continuum of inputs up to exponent 2^(E-1); a test samples a few types and inputs.", "anchors": ["include/ac_math/ac_hcordic.h:ac_log_", "include/ac_math/ac_hcordic.h:ac_log_cordic", "include/ac_math/ac_hcordic.h:ac_log2_cordic"]}
{"id": "C69", "title": "Exponentials of floating-point numbers by CORDIC", "statement": "For every ac_float input ac_exp2_cordic and ac_exp_cordic never read outside their tables. Inside the range of the output type the relative error is at most a fixed number of units of the temporaries (growing with the argument for base e); above it the output is the largest number, below it the value that is converted is positive and at most about the smallest number.", "quantifier": "all formats within the static assertions, all rounding modes of the temporaries, all inputs", "why_tests_cant": "Widths, exponents, rounding modes and override widths are template parameters, and the errors hold over a continuum of inputs up to exponent 2^(E-1); a test samples a few types and inputs.", "anchors": ["include/ac_math/ac_hcordic.h:ac_exp_float_", "include/ac_math/ac_hcordic.h:ac_exp_cordic", "include/ac_math/ac_hcordic.h:ac_exp2_cordic"]}
{"id": "C70", "title": "Powers of floating-point numbers by CORDIC", "statement": "For every nonnegative ac_float base and every ac_float exponent ac_pow_cordic never reads outside its tables. If the output type holds the power, the relative error of the value that is converted is at most a few units of the temporaries and grows only with the exponent; too large powers give the largest number, too small ones at most about the smallest one; a base of one gives one, zero to the power zero is one, and other powers of zero are zero.", "quantifier": "all formats within the static assertions, all bases and exponents", "why_tests_cant": "Widths, exponents, rounding modes and override widths are template parameters, and the errors hold over a continuum of inputs up to exponent 2^(E-1); a test samples a few types and inputs.", "anchors": ["include/ac_math/ac_hcordic.h:ac_pow_cordic"]}
{"id": "C71", "title": "Rounding errors of the fixed-point Cholesky decomposition", "statement": "For a symmetric ac_fixed matrix that is positive definite by more than the rounding errors, ac_chol_d returns a lower triangular matrix with positive diagonal whose product with its transpose differs from the input, in every element, by at most a few units of the intermediate and output types times the size and the magnitude of the elements. A matrix that is indefinite by more than that bound is never returned as factored.", "quantifier": "all sizes, all symmetric matrices, all widths, rounding and overflow modes, all template arguments for the intermediate type", "why_tests_cant": "Size, types and modes are template parameters and the matrices range over a continuum; the errors of earlier columns feed the later pivots, so that only an induction over the columns bounds them.", "anchors": ["include/ac_math/ac_chol_d.h:ac_chol_d"]}
{"id": "C72", "title": "Errors of the Cholesky decomposition with complex elements and with the PWL functions", "statement": "For a symmetric ac_fixed matrix, or a Hermitian ac_complex<ac_fixed> matrix, that is positive definite by more than the errors of the operations, ac_chol_d, with or without use_pwl, returns a lower triangular matrix with real positive diagonal, and no element of the difference between the input and the product of the output with its conjugate transpose exceeds a bound given by the units of the types, the size, the largest element and, with use_pwl, the errors of the PWL square root and inverse square root.", "quantifier": "all sizes, all symmetric and Hermitian matrices with a sufficiently large smallest eigenvalue, both values of use_pwl, all widths and rounding modes in which the exact results fit", "why_tests_cant": "Size, types, modes and use_pwl are template parameters and the matrices range over a continuum; the PWL errors of earlier columns feed the later pivots, so that only an induction over the columns shows that no positive definite matrix is rejected.", "anchors": ["include/ac_math/ac_chol_d.h:ac_chol_d", "include/ac_math/ac_sqrt_pwl.h:ac_sqrt_pwl", "include/ac_math/ac_inverse_sqrt_pwl.h:ac_inverse_sqrt_pwl"]}
{"id": "C73", "title": "Rounding errors of the fixed-point QR decomposition", "statement": "For ac_fixed matrices, and complex ones with real_diag = false, ac_qrd returns Q and R such that every element of A - Q*R and of Q*Q^H - 1 and every element of R below the diagonal is within an explicit bound computed from the number of rotations, the size of the elements, the smallest pair of pivots and the output resolution, with the accurate and with the PWL functions, provided the bounds on the columns fit the intermediate and output types and no pair of pivots met is smaller than 2^-14. The diagonal elements of R except the last one are real and nonnegative up to a few units of the resolutions. For smaller pairs, elements above 2^32 and types of few integer bits the result is wrong.", "quantifier": "every size M below 2^31, every input and output type, rounding and overflow mode of the outputs, both values of ispwl, all matrices within the stated bounds, any previous content of the outputs", "why_tests_cant": "The errors of all rotations add up and depend on every element; tests compare a few random matrices against a tolerance.", "anchors": ["include/ac_math/ac_qrd.h:ac_qrd", "include/ac_math/ac_qrd.h:diagonal_PE", "include/ac_math/ac_qrd.h:rotate", "include/ac_math/ac_qrd.h:offdiagonal_PE"]}
{"id": "C74", "title": "Rounding errors of the matrix inverse by Cholesky decomposition", "statement": "For fixed-point matrices, real or complex, ac_cholinv returns a matrix each element of which is within an explicit bound of that of the exact inverse. The bound is computed from the size of the matrix, the largest element, the smallest eigenvalue and the resolutions of the types, with the accurate and with the PWL functions. It holds for symmetric or Hermitian matrices that are positive definite by more than the errors, if the factor, its inverse and the result fit the types. Nothing outside the output matrix is written. With the default template arguments the factor is stored in a type as wide as the output, so matrices whose inverse fits but whose factor does not are inverted wrongly.", "quantifier": "every size M, every input, signed output and intermediate type, every rounding and overflow mode, all four combinations of use_pwl1 and use_pwl2, all matrices within the stated bounds, any previous content of the arrays", "why_tests_cant": "The errors of the decomposition, the substitution and the product build up and are amplified by the condition of the matrix; tests compare a few random matrices against a tolerance.", "anchors": ["include/ac_math/ac_cholinv.h:ac_cholinv", "include/ac_math/ac_cholinv.h:ac_matrix_cholinv"]}
{"id": "C75", "title": "Rounding errors of the complex QR decomposition with a real diagonal", "statement": "For complex fixed-point matrices with real_diag = true, ac_qrd returns Q and R such that every element of A - Q*R and of Q*Q^H - 1 and every element of R below the diagonal is within an explicit bound, and the diagonal of R is real and nonnegative: exactly for the last element, up to a few units of the resolutions for the others. It holds with the accurate and with the PWL functions, provided the bounds on the columns fit the types, and neither a pair of pivots nor the bottom right element before the extra stage is smaller than 2^-14. For a smaller bottom right element, or a singular matrix, the last column of Q is wrong although it is right with real_diag = false.", "quantifier": "every size M from 1 to below 2^31, every input and output type, rounding and overflow mode of the outputs, both values of ispwl, all complex matrices within the stated bounds, any previous content of the outputs", "why_tests_cant": "The extra stage multiplies a column of Q by a computed phase whose error depends on all earlier roundings; tests check a few random matrices, none nearly singular.", "anchors": ["include/ac_math/ac_qrd.h:ac_qrd", "include/ac_math/ac_qrd.h:qr_separate"]}
{"id": "C76", "title": "IEEE adder tree sums", "statement": "For finite operands, at least one extra accumulator bit and no more than the alignment shifter can remove, fadd_tree returns a finite number within one accumulator unit per operand plus one rounding of the exact sum, as long as that sum lies between the smallest normal and the largest finite number; sums that need no alignment loss and fit the format are exact, subnormal sums of two numbers are exact (or zero when subnormal numbers are switched off), exact cancellation gives zero, the result does not depend on the operand order, and negating all operands negates the sum.", "quantifier": "every operand count, every format, rounding mode, subnormal setting and extra-bit count, every finite operand array", "why_tests_cant": "the operands span all exponents and the error depends on the alignment of every operand", "anchors": ["include/ac_std_float_add_tree.h: fadd_tree_core"]}
{"id": "C77", "title": "More accurate inverse square root of complex numbers", "statement": "ac_inverse_sqrt_pwl_vha of a nonzero complex number with modulus M gives the inverse of the root in the right half-plane, the squares of the parts within 1/(320 M) of the exact ones; zero gives the largest value in both parts; no table is read out of bounds.", "quantifier": "All signed input formats with integer width at least -26, all output formats, all inputs.", "why_tests_cant": "The result depends on four declared intermediate types, one of which drops bits and is just wide enough at the top.", "anchors": ["include/ac_math/ac_inverse_sqrt_pwl_vha.h:ac_inverse_sqrt_pwl_vha"]}
{"id": "C78", "title": "PWL reciprocals of complex floating-point numbers", "statement": "For a nonzero ac_complex<ac_float> input, normalised or not, ac_reciprocal_pwl and its two more accurate versions give the conversion to the output type of the conjugate times one real number, which is the reciprocal of the squared magnitude within 1/500, 1/8100 and 1/24000 and the error of the addition of ac_float. If the output type holds the result, each part of the output is within that error and less than two units in the last place of the exact one. Zero gives the largest value of the output type in both parts.", "quantifier": "all numbers of all ac_float types of at least 2 mantissa bits and 1 exponent bit, all output types, all rounding modes, every addition with a relative error below one", "why_tests_cant": "The three intermediate types are computed from the input type, and the reciprocal of the squared magnitude spans twice the exponent range; tests sample a few types with wide exponents.", "anchors": ["include/ac_math/ac_reciprocal_pwl.h:ac_reciprocal_pwl", "include/ac_math/ac_reciprocal_pwl_ha.h:ac_reciprocal_pwl_ha", "include/ac_math/ac_reciprocal_pwl_vha.h:ac_reciprocal_pwl_vha"]}
{"id": "C79", "title": "Errors of the Cholesky decomposition of ac_float matrices", "statement": "For a symmetric ac_float matrix that is positive definite by more than the errors of the operations, ac_chol_d, with or without use_pwl, returns a lower triangular matrix with positive diagonal, and no element of the difference between the input and the product of the output with its transpose exceeds an explicit bound. The bound follows from the size of the matrix, its largest element and the widths of the types.", "quantifier": "all symmetric positive definite matrices of every size, all output and intermediate ac_float types that hold the results, use_pwl true and false, every subtraction with a bounded error", "why_tests_cant": "errors build up along the columns and depend on type widths and matrix size; tests try a few matrices of one size and type", "anchors": ["include/ac_math/ac_chol_d.h: ac_chol_d (ac_float)", "include/ac_math/ac_sqrt.h", "include/ac_math/ac_div.h", "include/ac_math/ac_sqrt_pwl.h", "include/ac_math/ac_inverse_sqrt_pwl.h"]}
{"id": "C80", "title": "Scalar functions of standard floating-point numbers", "statement": "Applied to a finite ac_std_float or ac_ieee_float number, the scalar functions (reciprocals, roots, logarithms, exponentials, activation functions, trigonometric functions and their inverses) return a finite number of the output type that differs from the mathematical value by no more than the error of the ac_float algorithm and that of the conversion to the output type. With NaN support enabled a NaN gives a NaN with its sign, and the logarithm of a negative number gives a NaN.", "quantifier": "all mantissa and exponent widths, all bit patterns of finite numbers, subnormal ones included, all quantization modes of the temporaries", "why_tests_cant": "65536 patterns for the smallest type alone, and any type may be chosen; the tests compare samples of binary16 and binary32", "anchors": ["include/ac_math/ac_sqrt.h: ac_sqrt (ac_std_float, ac_ieee_float)", "include/ac_math/ac_reciprocal_pwl.h", "include/ac_math/ac_reciprocal_pwl_ha.h", "include/ac_math/ac_reciprocal_pwl_vha.h", "include/ac_math/ac_sqrt_pwl.h", "include/ac_math/ac_inverse_sqrt_pwl.h", "include/ac_math/ac_inverse_sqrt_pwl_vha.h", "include/ac_math/ac_log_pwl.h", "include/ac_math/ac_pow_pwl.h", "include/ac_math/ac_sigmoid_pwl.h", "include/ac_math/ac_tanh_pwl.h", "include/ac_math/ac_tan_pwl.h", "include/ac_math/ac_atan_pwl.h", "include/ac_math/ac_sincos_cordic.h", "include/ac_math/ac_arcsin_cordic.h", "include/ac_math/ac_arccos_cordic.h", "include/ac_math/ac_hcordic.h"]}
{"id": "C81", "title": "Cholesky decomposition of matrices of standard floating-point numbers", "statement": "For a symmetric matrix of finite ac_std_float or ac_ieee_float numbers that is positive definite by more than the errors of the operations, ac_chol_d returns a lower triangular matrix of finite numbers with a positive diagonal, and no element of the difference between the input and the product of the output with its transpose exceeds an explicit bound.", "quantifier": "all matrices of every size, all mantissa and exponent widths that hold the results, use_pwl true and false, arrays and ac_matrix objects", "why_tests_cant": "the error depends on all elements and on the widths; tests try a few matrices in one or two formats", "anchors": ["include/ac_math/ac_chol_d.h: ac_chol_d (ac_std_float, ac_ieee_float)", "include/ac_math/ac_chol_d.h: indirect_chol_d_float"]}
{"id": "C82", "title": "Determinant of complex matrices", "statement": "ac_determinant of a matrix of complex fixed-point numbers equals the mathematical determinant for every matrix size when no intermediate value overflows; for signed inputs the 2x2 step never overflows, whatever the rounding and overflow modes of the input type.", "quantifier": "every matrix size M >= 1, every complex matrix whose intermediate minors fit the internal types, default and user-given internal types", "why_tests_cant": "cofactor recursion over all sizes with complex products, and types that depend on the size", "anchors": ["include/ac_math/ac_determinant.h: ac_determinant (ac_complex<ac_fixed>)", "include/ac_math/ac_determinant.h: types_params (ac_complex)"]}
{"id": "C83", "title": "Functions undo their inverses", "statement": "Applying a function to the result of its inverse gives back the argument within an explicit error: the power of 2 of the base 2 logarithm and the exponential of the natural logarithm (piecewise linear), the reciprocal of a reciprocal, the arc tangent of the tangent, the CORDIC sine of the CORDIC arc sine, and the CORDIC power of 2 of the CORDIC logarithm; and the squares of the sine and the cosine of one angle add up to one, for the table and for CORDIC.", "quantifier": "all arguments and all formats of the argument, of the intermediate value and of the result whose ranges hold the values", "why_tests_cant": "the intermediate value is rounded to a type chosen by the user, so that the error depends on three formats and the argument", "anchors": ["include/ac_math/ac_log_pwl.h: ac_log2_pwl, ac_log_pwl", "include/ac_math/ac_pow_pwl.h: ac_pow2_pwl, ac_exp_pwl", "include/ac_math/ac_reciprocal_pwl.h: ac_reciprocal_pwl", "include/ac_math/ac_sincos_lut.h: ac_sincos_lut", "include/ac_math/ac_sincos_cordic.h: ac_sin_cordic, ac_cos_cordic", "include/ac_math/ac_tan_pwl.h: ac_tan_pwl", "include/ac_math/ac_atan_pwl.h: ac_atan_pwl", "include/ac_math/ac_arcsin_cordic.h: ac_arcsin_cordic", "include/ac_math/ac_hcordic.h: ac_log2_cordic, ac_exp2_cordic"]}
{"id": "C84", "title": "Matrices of complex numbers", "statement": "ac_matrixmul of complex matrices gives every element of the exact product converted once to the output type and writes nothing else; for ac_matrix of complex numbers, +, -, pwisemult and * are exact, +=, -=, scale, sum and the 2x2 and 3x3 determinant convert the exact value once.", "quantifier": "all sizes, element types and matrices, and every type of the parts of a product that holds the products", "why_tests_cant": "overflow of an accumulator depends on the inner dimension, both element types and the signs of all elements", "anchors": ["include/ac_math/ac_matrixmul.h: ac_matrixmul", "include/ac_matrix.h: ac_matrix"]}
{"id": "C85", "title": "PWL results depend on the value, not the type, and follow powers of two", "statement": "The piecewise linear reciprocals, square root, inverse square roots, logarithms, exponentials, arctangents, sigmoid and hyperbolic tangent return, for every input type that holds the argument, one and the same number, converted once to the output type. Multiplying the argument by a power of two changes the unconverted result exactly as the mathematical function does: 1/x is divided by it, log2 grows by its exponent, square roots of 4^k x are 2^k times as large, and adding an integer n to the argument of 2^x multiplies the result by 2^n.", "quantifier": "every argument, every input and output type that can hold it, every rounding mode and every power of two", "why_tests_cant": "Tests fix a few types and compare with a tolerance; that two types give the same bits, and that the result scales exactly, ranges over all pairs of types and all powers of two.", "anchors": ["include/ac_math/ac_reciprocal_pwl.h: ac_reciprocal_pwl", "include/ac_math/ac_sqrt_pwl.h: ac_sqrt_pwl", "include/ac_math/ac_log_pwl.h: ac_log2_pwl", "include/ac_math/ac_pow_pwl.h: ac_pow2_pwl", "include/ac_math/ac_inverse_sqrt_pwl.h: ac_inverse_sqrt_pwl", "include/ac_math/ac_atan_pwl.h: ac_atan_pwl", "include/ac_math/ac_sigmoid_pwl.h: ac_sigmoid_pwl", "include/ac_math/ac_tanh_pwl.h: ac_tanh_pwl"]}
{"id": "C86", "title": "Identities between the functions, and their ranges", "statement": "The functions keep, within the sum of their stated errors, the identities their users build on: sine and cosine of one angle lie in [-1, 1] and their squares add up to 1, by CORDIC and by table lookup, and the two methods agree with each other; arcsine plus arccosine is a quarter turn; the square root times the inverse square root is 1; the power of two of a sum is the product of the powers, and opposite powers multiply to 1; the logarithm of a product is the sum of the logarithms; tanh(x) is 2 sigmoid(2x) - 1; atan2(y, x) is atan(y/x) for positive x; the hyperbolic CORDIC and the piecewise linear logarithm and power of two agree.", "quantifier": "Every argument (or pair of arguments), every type of arguments and outputs that the error bounds of the functions cover, every rounding and overflow mode of the outputs.", "why_tests_cant": "An identity ties together several functions and argument types; a test of one function at a time does not exercise it, and the pairs of arguments and types are far too many to enumerate. That the sine leaves [-1, 1] shows only at single angles and for some widths.", "anchors": ["include/ac_math/ac_sincos_cordic.h: ac_sincos_cordic", "include/ac_math/ac_sincos_lut.h: ac_sincos_lut", "include/ac_math/ac_arcsin_cordic.h: ac_arcsin_cordic", "include/ac_math/ac_arccos_cordic.h: ac_arccos_cordic", "include/ac_math/ac_sqrt_pwl.h: ac_sqrt_pwl", "include/ac_math/ac_inverse_sqrt_pwl.h: ac_inverse_sqrt_pwl", "include/ac_math/ac_pow_pwl.h: ac_pow2_pwl", "include/ac_math/ac_log_pwl.h: ac_log2_pwl", "include/ac_math/ac_tanh_pwl.h: ac_tanh_pwl", "include/ac_math/ac_sigmoid_pwl.h: ac_sigmoid_pwl", "include/ac_math/ac_atan2_cordic.h: ac_atan2_cordic", "include/ac_math/ac_hcordic.h: ac_log2_cordic"]}
{"id": "C87", "title": "Calls whose output is one of the inputs", "statement": "Passing the same array as an input and as the output of ac_matrixmul, ac_chol_d, ac_cholinv or ac_qrd, or the same matrix on both sides of += or -=, gives the result that separate arrays would give.", "quantifier": "Every size, every content, every element type; for ac_matrixmul every position of the repeated array.", "why_tests_cant": "A test that compares with a reference product uses separate arrays; whether a call in place is wrong depends on the order of the writes and on which elements are zero, over all sizes and contents.", "anchors": ["include/ac_math/ac_matrixmul.h: arraymultiply", "include/ac_matrix.h: operator+=", "include/ac_math/ac_chol_d.h: ac_chol_d", "include/ac_math/ac_cholinv.h: ac_cholinv", "include/ac_math/ac_qrd.h: ac_qrd"]}
{"id": "C88", "title": "Order of the results of trigonometric functions, logarithms and powers", "statement": "A function that rises (falls) on an interval gives outputs in rising (falling) order there: for arguments x <= y, the cosine by table lookup falls over the first half of each turn and rises over the second, the sine likewise from quarter to three quarters, and the sine and cosine, arcsine, arccosine, logarithm and power by CORDIC keep the order of their functions.", "quantifier": "Every pair of arguments in order on an interval of the function, every argument type and every output type.", "why_tests_cant": "The order can fail at any pair of neighbouring arguments; with 16 bit arguments and all combinations of width, rounding and overflow mode the pairs cannot be enumerated, and the failures sit at single arguments.", "anchors": ["include/ac_math/ac_sincos_lut.h: ac_sincos_lut", "include/ac_math/ac_sincos_cordic.h: ac_sin_cordic", "include/ac_math/ac_sincos_cordic.h: ac_cos_cordic", "include/ac_math/ac_arcsin_cordic.h: ac_arcsin_cordic", "include/ac_math/ac_arccos_cordic.h: ac_arccos_cordic", "include/ac_math/ac_hcordic.h: ac_log2_cordic", "include/ac_math/ac_hcordic.h: ac_exp2_cordic"]}
{"id": "C89", "title": "Exact values at special arguments", "statement": "Where the value of a function is a number of the output type, the function returns that number: sine and cosine at whole numbers of quarter turns, quotients that the type can hold, the reciprocal and logarithm of a power of two, the inverse square root of a power of four, powers with whole exponents, and the functions that pass through zero at zero.", "quantifier": "Every argument of the named kind, every argument type and every output type that holds the result.", "why_tests_cant": "Tests compare with a tolerance, so that a result one unit beside an exact value passes; and the special values differ for every combination of types and rounding modes.", "anchors": ["include/ac_math/ac_sincos_lut.h: ac_sincos_lut", "include/ac_math/ac_div.h: ac_div", "include/ac_math/ac_reciprocal_pwl.h: ac_reciprocal_pwl", "include/ac_math/ac_reciprocal_pwl_ha.h: ac_reciprocal_pwl_ha", "include/ac_math/ac_reciprocal_pwl_vha.h: ac_reciprocal_pwl_vha", "include/ac_math/ac_inverse_sqrt_pwl.h: ac_inverse_sqrt_pwl", "include/ac_math/ac_log_pwl.h: ac_log2_pwl", "include/ac_math/ac_log_pwl.h: ac_log_pwl", "include/ac_math/ac_pow_pwl.h: ac_pow2_pwl", "include/ac_math/ac_pow_pwl.h: ac_exp_pwl", "include/ac_math/ac_atan_pwl.h: ac_atan_pwl", "include/ac_math/ac_tan_pwl.h: ac_tan_pwl", "include/ac_math/ac_tanh_pwl.h: ac_tanh_pwl", "include/ac_math/ac_sigmoid_pwl.h: ac_sigmoid_pwl", "include/ac_math/ac_elu_pwl.h: ac_elu_pwl", "include/ac_math/ac_selu_pwl.h: ac_selu_pwl", "include/ac_math/ac_softsign_pwl.h: ac_softsign_pwl", "include/ac_math/ac_gelu_pwl.h: ac_gelu_pwl", "include/ac_math/ac_sincos_cordic.h: ac_sin_cordic", "include/ac_math/ac_arcsin_cordic.h: ac_arcsin_cordic", "include/ac_math/ac_hcordic.h: ac_log2_cordic"]}
{"id": "C90", "title": "Laws of the fixed-point quotient", "statement": "The quotient of the fixed-point division keeps the order of the dividends and reverses that of divisors of one sign, changes its sign with the sign of either operand, depends on the ratio of the values of the operands and not on their types, and equals the converted dividend when the divisor is one.", "quantifier": "Every pair of operands of every combination of operand and quotient types.", "why_tests_cant": "They relate two calls for all pairs of operands and types; a test fixes the types and a few operands.", "anchors": ["include/ac_math/ac_div.h: ac_div"]}
{"id": "C91", "title": "Laws of the bidirectional shifts", "statement": "ac_shift_left by n is ac_shift_right by -n; the kind of the count (int or unsigned int) does not change the result; after a shift whose output holds the exact value, a second shift gives what one shift by the sum gives and the opposite shift restores the input; with truncation the digits dropped between two right shifts do not matter; a larger input gives no smaller result in saturating outputs; a count of zero is an assignment; a long enough right shift leaves zero, or the smallest negative value for a negative input, in truncating outputs.", "quantifier": "every input, intermediate and output format, every rounding and overflow mode where no mode is named, every word, every count of either sign", "why_tests_cant": "needs all pairs of counts, triples of formats and tie patterns", "anchors": ["include/ac_math/ac_shift.h: ac_shift_left, ac_shift_right"]}
{"id": "C92", "title": "Laws of the square roots", "statement": "The output of ac_sqrt depends on the value of its argument and not on its type; an argument that is 4^k times as large gives a root 2^k times as large in an output type whose point is moved by k; the truncated root is the largest number of the output type whose square is at most the argument; the integer and the fixed-point version agree on whole numbers; a truncated root of a truncated root is the truncated fourth root; integer roots keep the order of their arguments, grow by at most one from an argument to the next, are subadditive up to one and submultiplicative.", "quantifier": "All unsigned input and output types, all arguments; for the nested roots intermediate types with at least twice the fraction bits of the output.", "why_tests_cant": "The laws relate outputs for several arguments and several types; tests compare single outputs with a reference.", "anchors": ["include/ac_math/ac_sqrt.h:ac_sqrt"]}
{"id": "C93", "title": "Laws of the integer quotients and agreement of the divisions", "statement": "ac_div of integers, ac_div_v2 and ac_div of fixed-point types without fraction bits give the same quotient (signed fixed-point outputs if they truncate toward zero), and the signed and unsigned versions agree on operands that are not negative. Dividing twice gives the quotient by the product of the divisors, a common factor cancels and multiplies the remainder, a multiple of the divisor in the dividend comes out whole, larger dividends give no smaller and larger divisors no larger quotients, and a change of sign of an operand changes the signs of quotient and remainder as in C.", "quantifier": "All widths of operands and outputs, all operands with a divisor that is not zero (for ac_div_v2 those its assertion accepts).", "why_tests_cant": "The laws relate several divisions of several types and four implementations; tests compare single quotients with a reference.", "anchors": ["include/ac_math/ac_div.h:ac_div", "include/ac_math/ac_div_v2.h:ac_div_v2"]}
{"id": "C94", "title": "Laws of normalization", "statement": "The significand and exponent ac_normalize returns are the only normalized ones that represent the number. They depend on the number and not on its type, multiplying by a power of two changes only the exponent, and normalizing the significand again returns it with exponent zero. Opposite numbers have opposite significands and the same exponent, except powers of two. For positive numbers the exponent is the position of the leading one, as returned by leading1, and the pairs of exponent and significand are ordered like the numbers. A complex number with a zero part, or with two equal parts, is normalized like a real one. (Not for the negatives of powers of two under AC_SAT_SYM, whose significand is not representable.)", "quantifier": "All types, signed and unsigned, all rounding modes and overflow modes, and all numbers of these types, apart from the negatives of powers of two under AC_SAT_SYM.", "why_tests_cant": "The laws relate the results for numbers of two types, over unboundedly many pairs of types; tests check single numbers in a few types.", "anchors": ["include/ac_math/ac_normalize.h:ac_normalize", "include/ac_math/ac_leading.h:leading1"]}
{"id": "C95", "title": "Laws of matrix arithmetic and of determinants", "statement": "Sums and differences of ac_matrix objects do not depend on order or grouping, and a subtraction undoes an addition. Where operator* has room for the sums, products do not depend on grouping and distribute over sums, and ac_matrixmul gives the same product converted to its output type. ac_matrixmul of transposed factors in the opposite order gives the transposed product, the identity matrix leaves the other factor as it is, and two calls give the same result in either grouping if the intermediate types hold the products. Where its internal types have room, ac_determinant does not change under transposition, changes by the sign of a permutation of rows or columns, is zero for equal rows, is the product of the diagonal for triangular matrices, and is multiplicative. It agrees with the determinant of ac_matrix for signed 2x2 and, with saturating types, 3x3 matrices.", "quantifier": "All shapes, all element types and contents; products with room for the sum (C15), determinants of every size from 3 with entries bounded so that the internal types have room (C19).", "why_tests_cant": "The laws relate the results of several operations in several types for every matrix; tests compare single results with a reference.", "anchors": ["include/ac_matrix.h:operator+", "include/ac_matrix.h:operator*", "include/ac_math/ac_matrixmul.h:ac_matrixmul", "include/ac_math/ac_determinant.h:ac_determinant"]}
{"id": "C96", "title": "Laws of the absolute value and of the rectifiers", "statement": "ac_abs depends only on the magnitude of the number, not on its sign or type, and leaves an absolute value as it is. In saturating outputs it keeps the order of magnitudes, and for integers it turns full products into products and full sums into at most sums. The rectified number and the rectified opposite add up to the absolute value and differ by the number. ac_prelu and ac_leakyrelu are the same function; with slope 0 they are ac_relu and with slope 1 the conversion to the output type. Leaky rectifiers with slopes that are not negative compose by multiplying the slopes, and reciprocal slopes undo each other, if the types hold the intermediate results.", "quantifier": "All widths, all types and all numbers of these types.", "why_tests_cant": "The laws relate calls with several types and arguments; tests compare single results with a reference.", "anchors": ["include/ac_math/ac_abs.h:ac_abs", "include/ac_math/ac_relu.h:ac_relu", "include/ac_math/ac_leakyrelu.h:ac_leakyrelu", "include/ac_math/ac_prelu.h:ac_prelu"]}
{"id": "C97", "title": "Laws of softmax", "statement": "Permuting the inputs of ac_softmax_pwl or ac_softmax_pwl_new permutes the outputs, bit for bit. Equal inputs have equal outputs, the largest input has at least and the smallest at most the share 1/K up to 0.2 %, and adding a constant to all inputs changes no unrounded output by more than 0.02 (0.027 for ac_softmax_pwl). For ac_softmax_pwl the shares need an input of at least -7, and the shift an input that is not negative and at most 5 integer bits.", "quantifier": "All numbers of classes, all vectors of inputs of all types, all permutations and constants, all rounding modes and output types; for the shift at least 400*K steps to 1 in the type of the exponentials.", "why_tests_cant": "The laws compare calls with permuted and shifted vectors of every length; tests compare single vectors with a reference.", "anchors": ["include/ac_math/ac_softmax_pwl_new.h:ac_softmax_pwl_new", "include/ac_math/ac_softmax_pwl.h:ac_softmax_pwl"]}
{"id": "C98", "title": "Laws of the Cholesky decomposition", "statement": "ac_chol_d reads only the elements on and below the diagonal: two matrices that agree there have the same factor, bit for bit. Unless the whole matrix is rejected, the first N rows and columns of the factor are the factor of the first N rows and columns. If that block is rejected, so is the whole matrix, provided the root of a positive pivot does not round to zero. With exact arithmetic the factor is the only lower triangular one with positive diagonal.", "quantifier": "All sizes, all matrices, all element types and roundings, whatever the output array held; for uniqueness all real and complex matrices in exact arithmetic.", "why_tests_cant": "The laws compare calls on different matrices of every size and type; tests decompose single matrices of a few sizes and compare products within a tolerance.", "anchors": ["include/ac_math/ac_chol_d.h: ac_chol_d"]}
{"id": "C99", "title": "Laws of the matrix inverse", "statement": "ac_cholinv reads only the elements on and below the diagonal: two matrices that agree there have the same inverse, bit for bit. The result for real elements is symmetric, bit for bit, whatever the input. For complex elements the real parts are symmetric and the diagonal is real. With exact arithmetic the inverse of the inverse of a positive definite matrix is the matrix.", "quantifier": "All sizes, all matrices, all element types and roundings, exact and PWL functions, whatever the arrays held; for the inverse of the inverse all positive definite real and complex matrices in exact arithmetic.", "why_tests_cant": "The laws compare elements and calls for matrices of every size and type; tests invert single matrices of a few sizes and compare within a tolerance.", "anchors": ["include/ac_math/ac_cholinv.h: ac_cholinv"]}
{"id": "C100", "title": "Laws of the quotient of complex numbers", "statement": "Equal fractions of complex numbers have equal quotients and flags, bit for bit, whatever their operand types. The quotient of real numbers is that of the real division, with no imaginary part, and a real divisor divides the parts. A number divided by itself is one. If the flag says the quotient is exact and the type holds it, the quotient times the divisor is the dividend. Conjugated operands give the same real part and, when rounding treats both signs alike, the opposite imaginary part; a quarter turn of the dividend moves the real part to the imaginary part.", "quantifier": "All operands other than a zero divisor, all operand and quotient types with a signed quotient type no narrower than the dividend type on either side of the binary point, all rounding modes.", "why_tests_cant": "The laws compare calls on different operands and of different functions; tests compare single quotients with a reference.", "anchors": ["include/ac_math/ac_div.h:ac_div"]}
{"id": "C101", "title": "Laws of the functions of complex numbers", "statement": "Complex numbers that differ by the signs or the order of their parts have the same absolute value, bit for bit, and a number with a larger absolute value has no smaller result. The reciprocal of the conjugate has the same real part and the imaginary part of the reciprocal of the opposite; a quarter turn of the number turns the imaginary part of the reciprocal into the real part; with symmetric rounding and saturation the reciprocal of the conjugate is the conjugate of the reciprocal. The square root of the conjugate has the same real part, and for a nonnegative imaginary part changing the sign of the real part swaps the parts of the root.", "quantifier": "All complex numbers, all types, all rounding modes of the output and of the PWL segments; the three reciprocals (ac_reciprocal_pwl, _ha, _vha).", "why_tests_cant": "The laws compare calls on different operands for all types; tests compare single results with a reference within a tolerance.", "anchors": ["include/ac_math/ac_abs.h:ac_abs", "include/ac_math/ac_reciprocal_pwl.h:ac_reciprocal_pwl", "include/ac_math/ac_reciprocal_pwl_ha.h:ac_reciprocal_pwl_ha", "include/ac_math/ac_reciprocal_pwl_vha.h:ac_reciprocal_pwl_vha", "include/ac_math/ac_sqrt_pwl.h:ac_sqrt_pwl"]}
{"id": "C102", "title": "Laws of the adder trees of ac_float numbers", "statement": "Multiplying all operands of add_tree or block_add_tree by a power of two multiplies the sum by it, with the same mantissa, bit for bit. For a power of two of operands the tree gives the same sum for the operands in the opposite order; in particular two operands may be exchanged. The two adders differ by less than one unit in the last place at the largest exponent for each operand.", "quantifier": "All numbers of operands, all operands and mantissa and exponent widths, any number of extra bits (also negative for the scaling of the tree); for block_add_tree with the treatment of zeros at least one nonzero operand.", "why_tests_cant": "The laws compare calls on different operands and of different functions for every number of operands; tests compare single sums with a reference within a tolerance.", "anchors": ["include/ac_float_add_tree.h:add_tree", "include/ac_float_add_tree.h:block_add_tree"]}
{"id": "C103", "title": "Laws of the QR decomposition", "statement": "For every decomposition that ac_qrd completes in exact arithmetic: R has the same Gram matrix as the input; the absolute value of the determinant of the input is that of the product of the diagonal of R. For an invertible input with a real diagonal requested, the diagonal of R is positive, Q and R are the only factors of this form, R is the conjugate transpose of the factor that the Cholesky decomposition computes for the Gram matrix, multiplying the input by a unitary matrix from the left leaves R unchanged, and a positive factor of the input becomes a factor of R. Requesting the real diagonal changes only the last element of R and the last column of Q and never causes a division by zero.", "quantifier": "All sizes (2M < 2^32), all real and complex matrices (invertible where said) for which the run meets no division by zero, in exact arithmetic; all previous contents of the outputs.", "why_tests_cant": "The laws relate calls on different inputs and calls of different functions for every size; tests multiply Q and R for a few random matrices of fixed sizes.", "anchors": ["include/ac_math/ac_qrd.h:ac_qrd"]}
{"id": "C104", "title": "Laws of the product of floating-point and fixed-point numbers", "statement": "With subnormal support, the ac_float result of ac_flfx_mul depends only on the product of the values of the operands, not on their types or on the pair of mantissa and exponent that represents the float operand; it keeps order and sign, is exact whenever the output type holds the product, multiplying by one returns the float operand and by zero zero. For a normalized float operand and a nonzero fixed-point operand the version without subnormal support agrees unless the product is below the normalized numbers, and keeps order. With a fixed-point output, order is kept by saturating types, and a float operand may take the place of a fixed-point operand of the same value.", "quantifier": "All operand and output types, all operands; without subnormal support normalized float operands and nonzero fixed-point operands.", "why_tests_cant": "The laws compare calls on different operands and different instantiations for every type; tests compare single products with a reference.", "anchors": ["include/ac_math/ac_flfx_mul.h:ac_flfx_mul"]}
{"id": "C105", "title": "Laws of the IEEE adder tree", "statement": "fadd_tree returns the one operand that is not zero if all others are zeros; the sum of a power of two of equal numbers is exact unless it overflows; a number plus its negative is positive zero; the difference of two normal numbers whose quotient lies between one half and two is exact, also if it is subnormal; multiplying all operands by a power of two multiplies the sum by it and changes only its exponent bits, as long as the sum lies in the normal range before and after.", "quantifier": "Every operand count, format, rounding mode, subnormal setting (for differences: subnormal numbers supported) and number of extra bits from one to what the alignment can shift out; normal operands (all finite ones for opposite numbers).", "why_tests_cant": "The laws hold for every number and every operand count; tests add a few arrays.", "anchors": ["include/ac_std_float_add_tree.h: fadd_tree_core"]}
