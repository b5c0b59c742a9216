# Formal model of hlslibs/ac_math: design

## Layout

    lean/Verif/Ac/*.lean      semantics of ac_int / ac_fixed used by the model, and lemmas about it
    lean/Verif/Model/*.lean   model of the functions in /repo/include (computable definitions, each citing file:lines)
    lean/Verif/Spec/*.lean    small specifications that do not mention the model
    lean/Verif/Proof/*.lean   helper lemmas
    lean/Verif/Props/*.lean   the property theorems only, each beside an `example` that meets its hypotheses

## Trusted base

* Lean 4.33.0's kernel. Axioms allowed: `propext`, `Classical.choice`, `Quot.sound`. No `sorry`, no
  `native_decide`, no `bv_decide`, no own axioms.
* The fidelity of `Verif/Model` to the C++ text in /repo (by reading; each definition cites its lines).
* The ac_types library is **not** part of /repo. Its semantics are modelled in `Verif/Ac` from its reference
  manual: `ac_int` arithmetic is exact and assignment wraps to the target width; `ac_fixed` `+ - *` are exact
  and assignment performs one quantization (8 modes) followed by one overflow step (4 modes); `<<`/`>>` keep the
  type of the left operand; `slc`/`set_slc`; `leading_sign`; `nbits`, `log2_ceil`; `set_val`.
  For `ac_complex`, the result types of `mag_sqr` and `conj` are parameters (C56 to C58) that must hold the exact value
  (`Holds`: if `mag_sqr` of a signed type has no bit for `2 min²`, that corner is excluded); a complex product of the types
  `<W1,I1>` and `<W2,I2>` has the type `<W1+W2+1,I1+I2+1>` (C59).
  `ac_float` is assumed, not checked, to behave as follows (its source is not at hand): a number is a mantissa of type
  `ac_fixed<W,I,true>` and an exponent of `E` bits, not necessarily normalised; the constructor from a mantissa and an exponent
  with normalisation, the assignment from another ac_float and from ac_fixed depend on the exact value only; normalisation shifts
  the mantissa by its `leading_sign`, no further than the exponent range allows. The conversion of an exact value to the output
  type is a parameter `Dst` of the theorems, so they hold for any such conversion; theorems about `FFmt.dst` assume that it
  normalises, quantises once with the mode of the type and saturates. For ac_chol_d (C79) stored numbers are assumed normalised and
  products exact. For ac_std_float and ac_ieee_float (C80) the conversions are a parameter with the properties `Ok` (Spec/StdConv.lean):
  a finite number becomes the normalised ac_float of the same value; an ac_float that has a bit pattern becomes a pattern of the same
  value; one of at most the smallest normal number becomes a number at most that far away; `nan()` is a NaN without the sign bit.
* C++ template parameters (widths, dimensions, modes) become ordinary universally quantified arguments.
  `#pragma`, debug printing and the synthesis-only branches are not modelled.

## Value model

* `ac_int<W,S>`: an `Int` with `wrap W S` on assignment.
* `ac_fixed<W,I,S,Q,O>`: its rational value (`Rat`); format record `Fmt`; assignment is `Fmt.cvt : Rat -> Rat`
  (quantize to a multiple of 2^(I-W), then apply the overflow mode). Bit-level operations are
  expressed on the raw integer `value * 2^(W-I)`.
* Out-of-bounds table or array access is a distinct outcome (`none`), never a default value.

## Findings in the code (properties that are false as stated)

See the section "Findings" below; each one has a theorem with a concrete witness, and what does hold is proved beside it.

## Per-property plan

| id | modelled | method |
|----|----------|--------|
| C01 | non-restoring loop of `ac_div` unsigned, bit by bit | loop invariant, induction on the remaining bits |
| C02 | sign-magnitude wrapper | from C01, equality with `Int.tdiv`/`Int.tmod` |
| C03 | zero-divisor branch | case split; loop result irrelevant |
| C04 | fixed-point wrapper (RBIT, sticky bit, final shift) | sticky-rounding lemma, from C01 and C13; early-return defect as a witness |
| C05 | restoring loop of `ac_div_v2` | loop invariant |
| C06 | digit recurrence of `ac_sqrt` | loop invariant with register bounds |
| C07 | fixed-point wrapper of `ac_sqrt` | sticky-rounding lemma, from C06 |
| C08 | xor/add formulation of `ac_abs` | case split on sign, arithmetic mod 2^W |
| C09 | layered rotation of `ac_barrel_shift` | induction on layers, `Nat.testBit` |
| C10 | recursive `leading_ones` | induction on N for the flag; witness for the index defect |
| C11 | the four searches | `testBit` characterisation |
| C12 | `ac_normalize` real and complex | leading-sign characterisation |
| C13 | all overloads of `ac_shift_*` incl. sticky and overflow bits | conversion-commutes-with-guarded-shift lemma |
| C14 | relu family | direct, plus order facts about `cvt` |
| C15, C16, C18 | matrices as functions on `Fin`, explicit loops and accumulator widths | bounds by induction over the inner dimension; agreement with `Matrix` |
| C17 | initializer-list constructor writing a memory with bounds checks | witness, and proof for M = N |
| C19 | Laplace recursion as in the code over a commutative ring, and with internal saturating types | induction, `Matrix.det_succ_row_zero` |
| C20 | `ind_conv` | arithmetic |
| C21, C22, C23 | Cholesky-Crout loops with packed storage; exact ordered-field arithmetic with an exact square root for C22, C23 | loop invariants |
| C24 | Givens loops on the augmented matrix, exact real arithmetic | invariants; zero pivot witness |
| C25 | tree recursions, also with fewer fractional bits (negative AccExtraLSBs); the ac_float output up to its constructor from mantissa and exponent, which is a parameter | induction on N |
| C26 | `fadd_tree_core` on the bit level | case analysis; exponent wrap witness |
| C27 | `ac_flfx_mul` helpers | direct |
| C28 | `ac_array` as nested arrays | direct |
| C29-C31 | PWL tables as exact rationals, index with bounds check | per-segment polynomial inequalities |
| C32, C33 | PWL sigmoid/tanh | table facts by kernel evaluation over the whole table, lifted to all inputs |
| C34, C35 | PWL log2/pow2 | same, plus real-analysis bounds |
| C36 | softmax loops over K | induction on K |
| C39 | ac_pow_pwl | composition of the log2 and pow2 theorems; refuted for base 0 |
| C40 | ac_softmax_pwl | as C36; total refuted by a witness |
| C37 | octant logic for an arbitrary table | case analysis on the octant |
| C38 | CORDIC iteration with the code's table | convergence induction |
| C41 | ac_reciprocal_pwl_ha and _vha as one function of the table | error per segment from the two ends of the segment (the product is quadratic there) |
| C42 | ac_inverse_sqrt_pwl_vha | error per segment; the odd exponent by the constant |
| C43 | ac_atan_pwl, _ha, _vha as one function of the table and reciprocal | 64 cells with series bounds of the arctangent, concavity inside a cell, reciprocal error of C29/C41 |
| C44 | ac_tan_pwl with its intermediate input type | the 8192 places of the table against bounds of the arctangent, error of the doubled angle measured in the angle |
| C45 | ac_elu_pwl, ac_selu_pwl on the exponential of C35 | the exponential is below 1 for negative inputs and fits its type; error and order carried over |
| C46 | ac_softplus_pwl: log of 1 + exp | exponential fits its type for up to 6 integer bits; errors of C34 and C35 composed; wider inputs refuted |
| C47 | ac_softsign_pwl: product with the reciprocal of 1 + abs x | error of C28 times the input; vanishing for large inputs proved for all types |
| C48 | ac_gelu_pwl: tanh of the cubic | tanh error of C33 plus the slope of tanh times the error of the argument; witness for the types that wrap |
| C49 | Model/Atan2.lean: the loop, its table, the quadrant correction | loop invariant in the complex plane: the integer vector is a rotated, stretched copy of the argument up to one unit per coordinate and step, so its angle moves by at most `√2/(ρ - √2(N+1))` a step; the remaining angle at least halves; table against the arctangent series; quadrants by `Complex.arg` of the conjugate; witnesses by evaluation |
| C50 | Model/Arcsin.lean: the table, the double rotation, both selections | loop invariant in the complex plane with `6/5` units per step for the vector and `2/5` for the argument; a decision is wrong by at most `π√((p+1)/2^(p+2))`; the angle is kept on one side of the quarter turn because no signed sum of table entries comes close to zero (enumeration of the sums that can, by the kernel); for 6 to 10 fraction bits a path argument at step six; for 1 to 5 the loop is run, in integers and by the kernel, for every truncated argument and compared with a table of sines |
| C51 | Model/Arcsin.lean | the same invariant for the angle up to its sign; the wrong sign of the sine costs at most its own size; for 1 to 4 fraction bits the loop is run for every truncated argument |
| C52 | Model/Hcordic.lean: argument normalised, vectoring loop with its repeated steps, range reduction | from 13 iteration bits on, loop invariant: the accumulated angle is the logarithm of what is left, up to one unit per step; below, all of the at most 4096 normalised arguments by kernel evaluation between consecutive bounds of the logarithm |
| C53 | Model/Hcordic.lean: rotating loop on the fraction, shift by the integer part | the product of the steps is the exponential of the sum of the table, the rest is below the last step; small widths by kernel evaluation; range reduction for base e by the error of 1/ln 2 |
| C54 | Model/Hcordic.lean | composition of C52 and C53 with the declared types in between |
| C55 | Model/Random.lean: the slices, for a given sequence of results of rand() | the bits are the base 2^16 number of the results modulo 2^W; counted by a bijection with the numbers below 2^(16 n) |
| C56 | Model/Complex.lean: ac_abs, ac_reciprocal_pwl, _ha, _vha of ac_complex; the type of mag_sqr is a parameter that holds the exact sum | the error of the real reciprocal or root of `a² + b²` carries over; the declared type of the reciprocal is wide enough |
| C57 | Model/Complex.lean: ac_sqrt_pwl of ac_complex with all its declared types | the error of the real root three times over; no declared type loses a bit for integer widths from -26 on |
| C58 | Model/Complex.lean: ac_inverse_sqrt_pwl of ac_complex | root of the conjugate times the inverse root of `a² + b²`; the product type is exact |
| C59 | Model/Complex.lean: ac_div of ac_complex | the product with the conjugate fits if the dividend type is no wider than the quotient type; then C04 for both parts |
| C60 | Model/Float.lean: ac_reciprocal_pwl, _ha, _vha of ac_float; normalisation, declared type of the reciprocal of the mantissa, exponent; output conversion as a parameter | the declared type stores the value of the table without rounding; the result is a function of the value of the input only; error and order of C29 and C41 |
| C61 | Model/Float.lean: ac_sqrt_pwl, ac_inverse_sqrt_pwl, ac_inverse_sqrt_pwl_vha of ac_float; output conversion as a parameter | the declared types hold the result up to a part in 2^20 for both parities; error of C30, C31, C42; counterexample for numbers that are not normalised |
| C62 | Model/Float.lean: ac_log2_pwl, ac_log_pwl of ac_float | the sum of table value and exponent is exact and a function of the value; error and order of C34; counterexample for numbers that are not normalised |
| C63 | Model/Float.lean: ac_pow2_pwl, ac_exp_pwl of ac_float | the fixed-point argument is a monotone rounding of the value of the input, saturated at the range of the output; error and order of C35; saturation at powers of two |
| C64 | Model/Float.lean: ac_div, ac_sqrt, ac_abs of ac_float | quotient and root of the mantissas by C04 and C07, shown to fit their types; counterexamples for integer mantissas, a wrapping root, an overflowing quotient and the order of roots |
| C65 | Model/FloatTrig.lean: ac_sin_cordic, ac_cos_cordic, ac_arcsin_cordic, ac_arccos_cordic of ac_float | the fixed-point argument is the input up to rounding and, for angles, whole turns; errors of C38, C50, C51; a modulus of continuity of the arcsine; the error of the output conversion |
| C66 | Model/FloatTrig.lean: ac_sigmoid_pwl, ac_tanh_pwl, ac_tan_pwl of ac_float | the fixed-point argument is the input up to rounding or saturation; the table errors and orders of C41, C42, C44; Lipschitz bounds of the logistic function, tanh and the arctangent |
| C67 | Model/FloatAtan.lean: ac_atan_pwl, ac_atan_pwl_ha, ac_atan_pwl_vha of ac_float | the reciprocal of C60 through the temporary type, whose error is bounded with its step; the table errors of C43; order across 1 because twice the table stays below pi/2 |
| C68 | Model/FloatHcordic.lean: ac_log_cordic, ac_log2_cordic of ac_float | normalization and reduced logarithm of C52, offset by the exponent; counterexamples for integer mantissas of the output, near one, rounding and zero |
| C69 | Model/FloatHcordic.lean: ac_exp_cordic, ac_exp2_cordic of ac_float | the fixed-point argument is the input up to rounding and saturation; reduced exponential of C53, checked by table not to round up to two for arguments with the bits of the result; one to three fraction bits by evaluation of all arguments and rounding modes |
| C70 | Model/FloatHcordic.lean: ac_pow_cordic of ac_float | the logarithm as in C68, exact sum, exact product and shift, exponential as in C69; special cases by evaluation |
| C71 | The ac_fixed `chol` with the exact functions (`fixedOps`). Each sum is within (n+1) units of the exact one while it does not overflow (induction over the loop); root and reciprocal are within a unit by C07 and C04; so the residual of each element is bounded once the pivots are known to be in range. For a matrix with smallest eigenvalue at least `lam` they are: induction over the columns, each step by solving the triangular system of the columns done so far for a vector that the computed factor annihilates, whose quadratic form is the remaining pivot up to the residuals. For a saturating intermediate type a positive pivot shows by monotonicity that nothing overflowed, which gives the bound for any accepted matrix and the rejection of indefinite ones. |
| C72 | `chol` with the operations of the four versions: ac_fixed or ac_complex<ac_fixed> elements (`realOps`, `complexOps`), exact or PWL functions (`fns`). First for any arithmetic whose operations meet a list of error bounds over the complex numbers (`Spec.CholArith.Accurate`): induction over the columns as in C71, with Hermitian forms. Then the four versions meet that list: sums by the conversion errors, the exact functions by C07 and C04, the PWL ones by C30 and C31 (their product with each other is within 1/500 of one). |
| C73 | `Model.QrdFixed.qrd`: the loops of `ac_qrd` over operations on elements, with the fixed-point types of the code (`realOps`, `complexOps`). First for any operations that meet a list of error bounds (`Spec.QrdArith.Accurate`): induction over the rotations on the inner products of all pairs of columns of the array `[A I]`, which an exact rotation keeps; they give A - QR and QQᴴ - 1 at once, and bound the norms, so nothing overflows. Then the types of the code meet that list: C07 and C04 for root and reciprocal, C31 for the PWL inverse root, conversion errors for the rest. That no pair of pivots is tiny is a hypothesis on the run (`pairs`), as C24 shows that it has to be. |
| C74 | `Model.CholInv.cholinv` with the fixed-point arithmetic of the code (`realOps`, `complexOps` in `Model/CholInvFns`), after C72 for the factor. First for any arithmetic that meets a list of error bounds (`Spec.CholInvArith.Accurate`): induction over the rows of each column of the inverted factor N, in which the rows of LN - 1 bound the norm of the column found so far (a lower bound on the smallest singular value of L follows from the eigenvalue and C72) and this norm bounds the next row; then NᴴN is compared with the inverse of A. The types of the code meet that list: C04 and C29 or C56 for the reciprocal. |
| C75 | `Model.QrdFixed.qrdDiag`: as C73, followed by the extra stage for `real_diag` (`complexDiag`: root and inverse root of the squared magnitude of the bottom right element, the coefficient, `qr_separate<true>`). First for any operations that meet `Spec.QrdArith.Accurate` and `DiagAccurate`: only one term of each sum in QR and QQᴴ changes, and by a known amount. Then the types of the code meet the list, with C07 and C04, or C31 and the PWL root. That each rotation leaves a nonnegative diagonal element is one more item of `Accurate`. |
| C76 | values of bit patterns (Spec/StdFloat), `fadd_tree_core` | accumulator = sum of aligned operands, one unit each; normalization and rounding of the magnitude |
| C77 | complex `ac_inverse_sqrt_pwl_vha` | as C58 with the error of C42; the product of root and inverse magnitude is exact |
| C78 | Model/FloatComplex.lean: the three PWL reciprocals of ac_complex<ac_float>; the addition of ac_float as a parameter with a relative error | the sum of squares and its reciprocal fit their types (for the third version under a condition on the widths); errors of C60, of storing the reciprocal, of the sum; counterexample for the third version |
| C79 | Model/CholFloat.lean: the element arithmetic of ac_chol_d for ac_float, normalised numbers given by their values, the subtraction of ac_float as a parameter with an error `u` | relative errors of the root and the reciprocal from C61 and C64, numbers of a type and their normalised representation, then C72_any; witness for types with many integer bits |
| C80 | Model/StdFloat.lean: the ac_std_float and ac_ieee_float overloads of the scalar functions: conversion to ac_float, the function of C61 to C69, conversion back, sign and NaN handling; numbers are the bit patterns of Spec/StdFloat.lean | every finite pattern is a number of the ac_float type and every number of it in the range of the normal ones is one of the patterns; one lemma for relative and one for absolute errors through the conversions; witnesses for subnormal roots, a rounding mode and log(-0) |
| C81 | Model/StdChol.lean: the ac_std_float and ac_ieee_float versions of ac_chol_d for arrays and ac_matrix objects, with the conversions of C80 | every output of the ac_float version is a number of its type; the conversion costs at most the smallest normal number per element, then C79_factor; witness for `delta_e` |
| C82 | Model/DetComplex.lean: the recursion of C19 for ac_complex, with the internal types of the ac_complex version; numbers `re + im*i` with rational parts | induction over the size with `Matrix.det_succ_row_zero`; interval bounds of the 2x2 step; bound `k!*2^(k-1)*K^k` of the parts of a determinant for entries of parts up to `K`; ring homomorphism to the complex numbers |
| C83 | the models of C29, C34, C35, C37, C38, C43, C44, C50, C52, C53, applied one after the other | the error theorems of the two functions, joined by the rounding of the intermediate value, with `2^d - 1` and `exp d - 1` bounded near 0 and arctan and sin Lipschitz |
| C84 | Model/MatrixComplex.lean: the loops of ac_matrixmul and ac_matrix for ac_complex<ac_fixed>; the type of the parts of a product is a parameter that holds every product (`ProdOk`) | the real and the imaginary part of the loops are the loops of C15, C16 and C18; bounds of the parts of a product for the carry bits |
| C85 | the models of C29-C35 and C41-C43; nothing new | mantissa and exponent of the argument are unique, so the value before the output conversion is a function of the argument alone; multiplication by a power of two changes only the exponent |
| C86 | the models of C30-C35, C37, C38, C43, C49-C53; nothing new | from the error bounds of the functions by the identity of the real functions and the triangle inequality; the range of the lookup from the table and the output conversion; the range of CORDIC refuted |
| C87 | `arraymultiply`, `+=` and `-=` with reads that see the elements already written (Model/InPlace.lean); the models of ac_chol_d, ac_cholinv and ac_qrd with the input as old contents of the output | induction over the double loop: every element is computed from new values at the positions passed and old ones elsewhere; ac_matrixmul is right for triangular factors and refuted otherwise |
| C88 | the models of C37, C38 and C50–C53 | table lookup: rows of the table and of the keys of the circle checked once (kernel), the index of an angle proved monotone for every argument type, the constant of the odd eighths compared with its neighbours for every rounding mode and number of fraction bits (finitely many small ones, a margin for the rest); CORDIC functions: order up to the proved errors; logarithm to base 2: exact order, from a bound of the angle left after the last iteration that is below half the step between neighbouring arguments (per-iteration bounds checked for every width of at least 13 bits, all inputs of fewer bits in the kernel) |
| C89 | the models of C04, C37, C38, C43–C48, C50–C53 and the PWL models | table lookup: index of a quarter turn is a multiple of 1024, entries of the four keys; division from C04; closed form at powers of two from the scaling laws of C85, then a lemma that rounding to nearest takes a number less than half a unit away to the number of the type, and a refutation for every type that holds the closed form; zero by evaluation; CORDIC refuted with witnesses |
| C90 | the model of C04 | from C04: the quotient is the exact one converted once; conversion is monotone in saturating types and odd for rounding modes that treat both signs alike; refuted for wrapping types (order) and for truncation or asymmetric saturation (sign) |
| C91 | the shift models of C13; `left` and `right` choose the overload by signedness | each law follows from C13 by the algebra of powers of two; nested floors for truncated shifts in a row; bounds of the word for the long right shift; refuted: the kind of the count (signed wrapping outputs), two roundings to nearest, order in wrapping outputs |
| C92 | the models of C06 and C07; nothing new | from the correctly rounded root: equal values, a power of four moves the point, the floor of the integer version is that of the real root; nested truncations by comparing squares on the finer grid; sums and products by the defining inequalities of the floor root; rounding in between and wrapping outputs refuted with witnesses |
| C93 | the models of C01, C02, C04 and C05; nothing new | every quotient is the Euclidean or truncating one reduced to its type, so the versions agree and the laws are those of the integers; the floor and the rounding toward zero of a rational are the two integer divisions; the default rounding of the signed fixed-point version refuted |
| C94 | the models of C11 and C12; nothing new | two normalized significands with equal products differ by no power of two, so the representation C12 gives is unique and the laws follow from it; the negatives of powers of two under AC_SAT_SYM refuted |
| C95 | the models of C15, C16, C18 and C19; nothing new | the results are the exact ones of Mathlib's matrices, converted once, so the laws of matrices carry over through the result types; the cases without room refuted |
| C96 | the models of C08 and C14; nothing new | each result is one conversion of the exact absolute value or piecewise linear function, whose laws carry over; wrapping outputs and negative slopes refuted |
| C97 | the models of C36 and C40; nothing new | the largest integer part and the sum of the truncated exponentials do not depend on the order, so the reciprocal is the same; shares from the order and the total, the shift from the error bounds; very negative inputs refuted |
| C98 | the model of C21 and C22; nothing new | the recurrences of C21 determine the first rows from the elements on and below the diagonal (strong induction on the column), for every arithmetic; for uniqueness any factor satisfies the recurrences; a root that rounds to zero refutes the law of rejection without its condition |
| C99 | the models of C23 and C74; nothing new | C98 for the decomposition, then the recurrences of forward substitution determine the inverse factor (strong induction on the row) and the product is symmetric term by term; involution from C23 |
| C100 | the model of C59; nothing new | from the exact quotient of C59: identities of complex numbers under a single conversion; truncation refutes the law of conjugates |
| C101 | the models of C56 and C57; nothing new | all functions depend on the parts through the sum of their squares, then through products with the parts; order from that of the PWL root (C30) |
| C102 | the model of C25; nothing new | the sum of two numbers commutes with shifts of the exponent and, up to the exponent of zero, with exchange; induction over the tree; agreement from the bounds of C25 |
| C103 | the models of C24 and C21 (exact arithmetic); nothing new | consequences of Q R = A, unitary Q and triangular R (C24) and of the uniqueness of the Cholesky factor (C98) |
| C104 | the model of C27; nothing new | rounding down (C27) is monotone and fixes representable values; without subnormal support the flushed range lies between the negative and the positive results |
| C105 | the model of C26 and C76; nothing new | the operands need no alignment loss and the sum fits the mantissa, so C76_exact applies; subnormal differences by C76_subnormal_two; scaling: the aligned terms stay the same and normalization depends on the exponent only through the result's exponent |

## Findings

Each row is a property that a user would expect and that is false of the code as modelled; the theorem named proves it.

| header | what happens | theorem |
|--------|--------------|---------|
| ac_div.h | fixed-point, unsigned: when no quotient bit can reach the output the function returns without writing `quotient` | `C04_unsigned_stale`, `C04_unsigned_wrong` |
| ac_div.h | the same early exit in the signed wrapping version reads an uninitialized local | `C04_signed_junk` |
| ac_leading_ones_tmpl.h | the index is wrong for some word at every width from 5 on | `C10_index_wrong` |
| ac_normalize.h | AC_SAT_SYM signed inputs equal to a negative power of two are not recovered | `C12_lossless_wrong` |
| ac_shift.h | signed left shift by an unsigned count into a wrapping output whose rounding looks at the sign | `C13_left_signed_wrong` |
| ac_relu.h | a wrapping output type makes the result negative | `C14_relu_wrap_negative` |
| ac_matrix.h | `operator*` has carry bits for N-1 products only | `C15_mul_signed_wrong`, `C15_mul_unsigned_wrong` |
| ac_matrix.h | the same for complex matrices of inner dimension 2 | `C84_mul_two_wrong` |
| ac_sqrt_pwl.h | the square root depends on the width of the input type below 15 bits: 1 gives different results from types of 4 and 16 bits | `C85_sqrt_wrong` |
| ac_pow_pwl.h | with fewer than 12 temporary fraction bits the exponential depends on the input type | `C85_exp_wrong` |
| PWL functions | values at exact points are off: 2^n is 511/512 2^n for every integer n, log2(2^k) is k + 3/2048, 1/2^k is 2045/2048 2^-k, sigmoid(0) is 513/1024, tanh(0) and atan(0) are 1/1024 | `C85_pow2`, `C85_log2`, `C85_reciprocal`, `C85_sigmoid`, `C85_tanh`, `C85_atan` |
| ac_sincos_cordic.h | sine and cosine leave [-1, 1] by one unit of the output, at minus a quarter turn and half a turn among others | `C86_cordic_range_wrong` |
| ac_matrixmul.h | with the output array equal to an input array the product is wrong: exchanging two columns or rows in place duplicates one of them | `C87_left_wrong`, `C87_right_wrong`, `C87_square_wrong` |
| ac_sincos_lut.h | the table entries are rounded but the constant for the odd eighths of a turn is converted with the rounding of the output type: with truncation and 0–6 or 8 fraction bits (toward zero: 0, 2, 3, 5) the cosine dips or rises there, e.g. 3/4, 1/2, 3/4 around an eighth of a turn | `C88_lut_wrong`, `C88_lut_dip_wrong` |
| ac_sincos_cordic.h, ac_hcordic.h | sine, cosine, power of two and natural logarithm do not keep the order of their arguments; the logarithm to base 2 does, unless the signed output type is too narrow (it wraps even with saturation) or overridden temporaries round up | `C88_cordic_wrong`, `C88_exp2_wrong`, `C88_log_wrong`, `C88_log2_range_wrong`, `C88_log2_round_wrong` |
| ac_arcsin_cordic.h, ac_arccos_cordic.h | the arcsine of 1 is less than that of a number just below 1, and the arccosine of a small negative number less than that of 0 | `C88_arcsin_wrong`, `C88_arccos_wrong` |
| ac_reciprocal_pwl.h, _ha, _vha, ac_inverse_sqrt_pwl.h, ac_log_pwl.h, ac_pow_pwl.h | at powers of two (four), where the result is representable, the output is a fixed factor or offset away (2045/2048, 131057/131072, 32767/32768, 1047809/1048576, +3/2048, 511/512), in every type fine enough to show it | `C89_reciprocal_wrong`, `C89_inverseSqrt_partial`, `C89_log_partial`, `C89_pow_partial` |
| ac_atan_pwl.h, ac_tanh_pwl.h, ac_sigmoid_pwl.h | at 0 they give 1/1024, 1/1024 and 513/1024 instead of 0, 0 and 1/2 | `C89_zero_wrong` |
| ac_sincos_cordic.h, ac_arcsin_cordic.h, ac_arccos_cordic.h, ac_hcordic.h | with truncating output types cosine and sine fall below -1, arcsine of 1 and arccosine of 0 and -1 are one unit short, the sine of 0 can be negative; log2(1) is negative and exp2(0) below 1 even with rounding | `C89_cordic_wrong`, `C89_cordic_zero_wrong`, `C89_arc_wrong`, `C89_hcordic_wrong`; for every type: `C89_hcordic_log2` (one unit short for an explicit list of widths), `C89_hcordic_exp2_wrong` |
| ac_shift.h 379 (`ac_shift_left`, signed input, unsigned count) | into a signed wrapping output that truncates toward zero the result depends on whether the count is `int` or `unsigned int`: 1.25 shifted left by 1 is -2 or -1 | `C91_count_left_wrong` |
| ac_matrix.h | the initializer list constructor indexes `[index / M][index % N]`: out of bounds for M < N, unwritten rows for M > N | `C17_wide_out_of_bounds`, `C17_tall_unwritten` |
| ac_determinant.h | minors are converted to the caller's output type at every level | `C19_output_type_wrong` |
| ac_determinant.h | the default internal types saturate: unsigned 1x1 and 2x2, signed 4x4 near full scale, negative I | `C19_unsigned_one_wrong`, `C19_unsigned_two_wrong`, `C19_signed_four_wrong`, `C19_negative_I_wrong` |
| ac_determinant.h | complex matrices: the base type takes the overflow mode of the input, so that unsigned inputs of size 2 wrap around; signed inputs of size 2 saturate `d_type` | `C82_unsigned_two_wrong`, `C82_signed_two_wrong` |
| ac_cholinv.h | a matrix that is not positive definite gives saturated values on the diagonal, not zeros | `C23_not_posdef_wrong` |
| ac_cholinv.h | the computed inverse of a Hermitian matrix need not be Hermitian: the imaginary parts of opposite elements are truncated in the same direction | `C99_hermitian_wrong` |
| ac_qrd.h | a pivot pair of zeros gives a singular Q, also for the identity matrix | `C24_zero_pair_wrong`, `C24_identity_wrong` |
| ac_float_add_tree.h | `add_tree` truncates pairwise, so the order of the operands matters | `C25_tree_order_matters` |
| ac_std_float_add_tree.h | overflow wraps, subnormal results are scaled, the sticky bit can be lost, AccExtraLSBs = 0 drops bits | `C26_overflow_wrong`, `C26_subnormal_wrong`, `C26_rounding_wrong`, `C26_no_extra_bits_wrong` |
| ac_flfx_mul.h | zero times a number can be the largest output value | `C27_float_zero_wrong` |
| ac_flfx_mul.h | without subnormal support a subnormal operand can saturate the output | `C27_float_not_normal_wrong` |
| ac_sigmoid_pwl.h | sigmoid(0) is 513/1024, so the symmetry fails at 0; a rounding wrapping output turns values near 1 into 0 | `C32_symmetry_zero_wrong`, `C32_output_wrap_wrong` |
| ac_tanh_pwl.h | the table is read out of bounds for 3 <= abs(x) < 4 (the value read is discarded: `C33_discarded`); tanh(0) is 1/1024 | `C33_table_wrong`, `C33_odd_zero_wrong` |
| ac_sincos_lut.h | truncating outputs break sin(x + half turn) = -sin(x) at the odd eighths; sin(quarter turn) = -1 for a wrapping type with one integer bit | `C37_symmetry_wrong`, `C37_wrap_wrong` |
| ac_sincos_cordic.h | outputs of 69 bits and more are always 0; one integer bit and wrapping gives the wrong sign | `C38_wide_wrong`, `C38_scale_wrong` |
| ac_pow_pwl.h | a base of 0 has no special case: 0^(1/16) is about 0.70 | `C39_zero_wrong` |
| ac_tan_pwl.h | a rounding, wrapping input type without integer bits and with 20 or more fraction bits: the largest inputs wrap to 0 | `C44_wrap_wrong` |
| ac_selu_pwl.h | the intermediate value is rounded in the output type before it is scaled: with 2 integer bits and 1 fraction bit selu(-8) is 3/2 | `C45_selu_wrong` |
| ac_softplus_pwl.h | the exponential wraps in its declared type for signed inputs of 7 integer bits and more, unsigned of 5 and more: softplus(100) is about 0.001 | `C46_wrong` |
| ac_softsign_pwl.h | the reciprocal has at most 20 fraction bits: the output is 0 for every large input; the value reaches 1, so an output of one integer bit wraps | `C47_vanish`, `C47_wrap_wrong` |
| ac_gelu_pwl.h | inherits the out of bounds read of tanh for 2.8 <= abs(x) <= 3.3; unsigned input with signed output: gelu(3/2) is 0.31 | `C48_table_wrong`, `C48_unsigned_wrong` |
| ac_atan2_cordic.h | The vector is kept with a fixed number of fraction bits and is not normalised: for arguments `(2^-26, 2^-26)` of type `<32,2>` and an output `<16,3>` the result is 1.743 instead of 0.785. `M_PI` is a double, so outputs with more than about 52 fraction bits are wrong by hundreds of units on the negative axis | `C49_short_wrong`, `C49_wide_wrong` |
| ac_hcordic.h | a signed saturating output of the logarithms wraps, because the intermediate `z_inter` is declared without saturation for signed types: log2(32) is -3 for an output that ends at 4 | `C52_saturation_wrong` |
| ac_hcordic.h | rounded temporaries: with overridden widths an argument whose normalised value rounds up to one wraps to zero; with any widths a power of two whose mantissa rounds up to two wraps to zero (2^(2 - 2^-16) is 0 for an output of 8 fraction bits) | `C52_round_wrong`, `C53_round_wrong`, `C54_round_wrong`, `C70_round_wrong` |
| ac_hcordic.h | zero has no special case: log(0) is -0.24, 0^(3/2) is 2.24 | `C52_zero`, `C54_zero_wrong` |
| ac_hcordic.h | `ac_pow_cordic` passes the number of fraction bits of the logarithm as the width of its type, so its integer bits are lost from the fraction: (5/2)^(9/2) is 60 instead of 61.76 for an output of 4 fraction bits | `C54_error_wrong` |
| ac_random.h | takes 16 bits from each result of rand(): if RAND_MAX is 32767, every sixteenth bit is always 0 | `C55_short_rand_wrong` |
| ac_div.h | complex: the product with the conjugated divisor is declared with the quotient type (`QT`) instead of the dividend type (`NT`): 16384 / 16384 is 0 for 2 integer bits in the quotient, (1/2) / (1/256) is 0 for an integer quotient | `C59_wide_dividend`, `C59_fine_dividend` |
| ac_div.h | complex: a zero divisor gives the largest value in both parts; the comment promises a sign, but the product it looks at is zero | `C59_zero_divisor` |
| ac_sqrt_pwl.h | complex: the root of a negative real number has a real part (about 1/45 of the imaginary one); the type of the parts is computed from a width instead of a number of fraction bits, so tiny types lose everything | `C57_negative_real`, `C57_tiny_wrong` |
| ac_inverse_sqrt_pwl.h | complex: zero gives the largest value in the imaginary part too, the comment says zero | `C58_in_table` |
| ac_sqrt_pwl.h, ac_inverse_sqrt_pwl.h | ac_float: the mantissa is assumed to be normalised, so subnormal numbers give wrong results: sqrt(2^-12) is 0.064 instead of 0.0156 (ac_inverse_sqrt_pwl_vha and the reciprocals normalise first) | `C61_subnormal_counterexample` |
| ac_log_pwl.h | ac_float: the same assumption: log2(2^-12) is -7.9 for a subnormal input | `C62_subnormal_counterexample` |
| ac_div.h | ac_float: the quotient of the mantissas has only the fraction bits of the output type, so with integer mantissas 1/3 = 0 | `C64_div_counterexample` |
| ac_div.h | ac_float: the quotient of the least mantissa and minus the last bit wraps, -2 / (-1/64) = -128 | `C64_div_overflow_counterexample` |
| ac_sqrt.h | ac_float: with a rounding TQ the root of the mantissa can wrap to 0; with integer mantissas half of the bits are lost; the root of a number just below 2 can exceed that of 2 | `C64_sqrt_wrap_counterexample`, `C64_sqrt_precision_counterexample`, `C64_sqrt_order_counterexample` |
| ac_sincos_cordic.h, ac_arcsin_cordic.h, ac_arccos_cordic.h | ac_float: inputs are cut to 25 or 18 fraction bits, so small inputs give 0 and arccos(1 - 2^-20) = 0 (instead of 0.00044) in every type | `C65_sin_counterexample`, `C65_arc_counterexample` |
| ac_tanh_pwl.h | ac_float: an input from 3 up to 4 - 2^-11 reads the table beyond its last entry | `C66_tanh_table_counterexample` |
| ac_tan_pwl.h, ac_tanh_pwl.h | ac_float: small inputs lose their relative precision: tan(2^-24) = 0 and tanh(2^-24) = 1/1024 in every type | `C66_small_counterexample` |
| ac_atan_pwl.h | ac_float: the temporary for the reciprocal has 22 mantissa bits and the integer and exponent bits of the input, which may leave no fraction bits: atan(3/2) = 1.569 for ac_float<32,24,2> | `C67_step_counterexample` |
| ac_hcordic.h | ac_float logarithms: an output type with an integer mantissa gives temporaries without fraction bits: log(5/4 * 2^100) = 49.5 instead of 69.5 | `C68_integer_mantissa_wrong` |
| ac_hcordic.h | ac_float logarithms: near one the output has few correct bits and may have the wrong sign; log(0) is an ordinary number; with rounding of overridden temporaries log2(2 - 2^-38) = 1.77 | `C68_near_one_wrong`, `C68_zero_wrong`, `C68_round_wrong` |
| ac_hcordic.h | ac_float exponentials and power: the precision is that of the fraction bits of the mantissa type, not of its width: e^8 = 384 for ac_float<24,23,8>; 2^4 and e^0 are not exact; errors grow with argument and exponent | `C69_few_fraction_bits_wrong`, `C69_exact_wrong`, `C69_error_grows`, `C70_few_fraction_bits_wrong`, `C70_error_grows` |
| ac_hcordic.h | ac_float power: 0 to a negative power is 0, also for ac_std_float and ac_ieee_float; a negative base is read as an unsigned mantissa | `C70_pole_wrong`, `C80_pow_zero`, `C70_negative_wrong` |
| ac_chol_d.h | ac_fixed, default modes: the reciprocal of a diagonal element is stored in a type as wide as the intermediate one and saturates for a small pivot. `ac_fixed<28,8,true>`: the positive definite [[2^-20,2^-7],[2^-7,100]] gives [[2^-10,0],[2-2^-20,9.8]] instead of [[2^-10,0],[8,6]], and the indefinite [[2^-20,2^-5],[2^-5,100]] is accepted | `C71_small_pivot_wrong`, `C71_small_pivot_accepted` |
| ac_chol_d.h | ac_fixed with `imd_O = AC_WRAP`: a negative pivot can wrap to a positive one; `ac_fixed<16,8,true>` accepts [[4,28],[28,3]] | `C71_wrap_wrong` |
| ac_qrd.h | a pivot pair of magnitude 2^-16 or less: the inverse root wraps or saturates; Q = 0 for 2^-16 | `C73_small_pivot_wrong` |
| ac_qrd.h | elements above 2^32: the inverse root truncates to zero, Q = R = 0 | `C73_large_wrong` |
| ac_qrd.h | `real_diag` with a bottom right element of 2^-17: its inverse wraps, the last column of Q vanishes | `C75_small_wrong` |
| ac_qrd.h | `real_diag` with PWL functions and a singular matrix: the last column of Q is 0 | `C75_singular_wrong` |
| ac_qrd.h | few integer bits: the unit matrix saturates in the intermediate type, Q is not orthogonal | `C73_few_bits_wrong` |
| ac_cholinv.h | the factor is stored in the type of the inverse: with the defaults, elements too large or too small for that type are inverted wrongly although the inverse fits | `C74_large_wrong`, `C74_small_wrong` |
| ac_arcsin_cordic.h | an output with one fraction bit, one integer bit, AC_RND and AC_WRAP: the arcsine of 1 is -1 half turns instead of 1/2 | `C50_one_bit_wrong` |
| ac_std_float_add_tree.h | with more extra bits than the saturated shift can align (witness: 40 for binary32; the theorems allow up to 7) small operands are added too large | `C76_many_extra_bits_wrong` |
| ac_reciprocal_pwl_vha.h | ac_complex<ac_float>: the type of the reciprocal of the squared magnitude has too few exponent bits for small numbers: 1/2^-20 = 0.0039 for parts of type ac_float<20,2,2> | `C78_vha_small_wrong` |
| ac_reciprocal_pwl.h, _ha, _vha | ac_complex<ac_float>: the reciprocal of zero has the largest value in both parts; the comment promises zero for the imaginary part | `C78_zero` |
| ac_chol_d.h | ac_float: the reciprocal of a diagonal element from ac_div has only the fraction bits of the intermediate type. `ac_float<16,8,6>`: [[2,1/2],[1/2,2]] gets 1/4 below the diagonal instead of 0.3535; `ac_float<16,16,6>`: 0 | `C79_integer_bits_wrong` |
| ac_sqrt_pwl.h, ac_inverse_sqrt_pwl.h | ac_std_float and ac_ieee_float: subnormal inputs below a quarter of the smallest normal number are not normalised: in binary16 the root of 2^-24 is more than 16 times too large, its inverse root less than a sixteenth of the right one | `C80_subnormal_wrong` |
| ac_sqrt.h | ac_std_float and ac_ieee_float with AC_RND for the temporaries: sqrt(4 - 2^-13) = 0 | `C80_sqrt_round_wrong` |
| ac_hcordic.h | ac_std_float and ac_ieee_float with AC_HCORDIC_NAN_SUPPORTED: the logarithm of -0 is NaN, not minus infinity as in math.h, which the comment says is mirrored | `C80_log_minus_zero_wrong` |
| ac_chol_d.h | the versions for ac_matrix objects of ac_float, ac_std_float and ac_ieee_float ignore their template parameter `delta_e`: with `ac_float<16,2,3>` and `delta_e` = 1 the factor of the 1x1 matrix 64 is less than 5, with arrays it is 8 | `C79_matrix_delta_e_wrong`, `C81_delta_e_wrong` |
| ac_softmax_pwl.h | all logits far below zero: the outputs are all zero, or one takes everything | `C40_total_wrong` |

Smaller remarks that are not theorems: the factorial enumeration of ac_determinant.h does not compile beyond M = 12; the
N = 1 matrix product does not compile; ac_log_pwl.h declares its ln 2 constant with 12 bits and so truncates the literal to
2839/4096; ac_pow_pwl.h truncates log2(e) to 14 fraction bits; ac_sincos_lut.h computes `1 << (F-12)` in `int`.

## What is modelled and what is not

Modelled (see the comments of each definition for the lines): the ac_fixed and ac_int versions of ac_div, ac_div_v2, ac_sqrt,
ac_abs, ac_barrel_shift, ac_leading, ac_leading_ones_tmpl, ac_normalize (and complex), ac_shift, ac_relu, ac_leakyrelu, ac_prelu,
ac_matrix and ac_matrixmul (real and complex), ac_array, ac_determinant (real and complex), ac_chol_d, ac_cholinv, ac_qrd (the three factorizations in exact
arithmetic and in that of their ac_fixed types),
ac_float_add_tree, ac_std_float_add_tree, ac_flfx_mul, ac_reciprocal_pwl, ac_sqrt_pwl, ac_inverse_sqrt_pwl, ac_log_pwl,
ac_pow_pwl, ac_sigmoid_pwl, ac_tanh_pwl, ac_softmax_pwl, ac_softmax_pwl_new, ac_sincos_lut, ac_sincos_cordic,
ac_reciprocal_pwl_ha, ac_reciprocal_pwl_vha, ac_inverse_sqrt_pwl_vha, ac_atan_pwl, ac_atan_pwl_ha, ac_atan_pwl_vha, ac_tan_pwl,
ac_elu_pwl, ac_selu_pwl, ac_softplus_pwl, ac_softsign_pwl, ac_gelu_pwl, ac_atan2_cordic,
ac_arcsin_cordic, ac_arccos_cordic, and the ac_fixed functions of ac_hcordic (ac_log_cordic, ac_log2_cordic, ac_exp_cordic,
ac_exp2_cordic, ac_pow_cordic); ac_random; the ac_complex versions of ac_abs, ac_reciprocal_pwl, ac_reciprocal_pwl_ha,
ac_reciprocal_pwl_vha, ac_sqrt_pwl, ac_inverse_sqrt_pwl, ac_inverse_sqrt_pwl_vha and ac_div (signed quotient); the ac_float versions of
ac_reciprocal_pwl, ac_reciprocal_pwl_ha, ac_reciprocal_pwl_vha, ac_sqrt_pwl, ac_inverse_sqrt_pwl, ac_inverse_sqrt_pwl_vha,
ac_log2_pwl, ac_log_pwl, ac_pow2_pwl, ac_exp_pwl, ac_div, ac_sqrt, ac_abs, ac_sin_cordic,
ac_cos_cordic, ac_arcsin_cordic, ac_arccos_cordic, ac_sigmoid_pwl, ac_tanh_pwl, ac_tan_pwl,
the three ac_atan_pwl functions, the five functions of ac_hcordic.h and ac_chol_d, with the subtraction of ac_float as a parameter;
the ac_complex<ac_float> versions of the three
reciprocals, with the addition of ac_float as a parameter; the ac_std_float and ac_ieee_float versions of ac_reciprocal_pwl,
ac_reciprocal_pwl_ha, ac_reciprocal_pwl_vha, ac_sqrt_pwl, ac_inverse_sqrt_pwl, ac_inverse_sqrt_pwl_vha, ac_log2_pwl, ac_log_pwl,
ac_pow2_pwl, ac_exp_pwl, ac_sigmoid_pwl, ac_tanh_pwl, ac_tan_pwl, the three ac_atan_pwl functions, ac_sin_cordic, ac_cos_cordic,
ac_arcsin_cordic, ac_arccos_cordic, ac_sqrt, the five functions of ac_hcordic.h and ac_chol_d, with the conversions as parameters.

Not modelled: the debug and error output, the _WIN32 variants and the remaining ac_complex overloads, which depend on the arithmetic of classes outside /repo.

## Axioms

Every theorem depends on at most `propext`, `Classical.choice` and `Quot.sound` (`#print axioms`; vcheck repeats the check).
