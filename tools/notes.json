{
 "C01": [
  "proved",
  "Any commutative ring; the ring structure of the library product."
 ],
 "C02": [
  "proved",
  "Isomorphism with Mathlib's CliffordAlgebra; blade table."
 ],
 "C03": [
  "proved",
  "All pairs of types that have an operator*."
 ],
 "C04": [
  "proved",
  "All pairs of types that have an operator+."
 ],
 "C05": [
  "partial",
  "Proved for all but six overloads, which compute b-a: C05_six_are_reversed, C05_fails_for_six."
 ],
 "C06": [
  "proved",
  "For every number type with -(-x)=x, hence for IEEE doubles bit for bit."
 ],
 "C07": [
  "proved",
  "All typed products."
 ],
 "C08": [
  "proved",
  ""
 ],
 "C09": [
  "proved",
  "Includes the out-of-range aliasing of MultiVector::operator[]."
 ],
 "C13": [
  "proved",
  "magSq in any ordered field, magnitude in ideal arithmetic."
 ],
 "C14": [
  "proved",
  "Includes the counterexample for general multivectors."
 ],
 "C15": [
  "proved",
  ""
 ],
 "C16": [
  "proved",
  "Ideal arithmetic; the IEEE counterpart is C34."
 ],
 "C17": [
  "proved",
  "Ideal arithmetic."
 ],
 "C18": [
  "proved",
  "Ideal arithmetic; includes the invertible elements for which null is returned."
 ],
 "C19": [
  "proved",
  ""
 ],
 "C20": [
  "partial",
  "The series, except for bivectors whose direction has an invalid first component (then exp(B) is 1: C20_fails) or whose own first component is invalid (then null)."
 ],
 "C21": [
  "partial",
  "Series on spinor-valued arguments; false for every non-zero vector and every non-zero trivector. C47 says what the function computes instead."
 ],
 "C22": [
  "proved",
  "The rotation by exp((theta/2) dual n) is about -n."
 ],
 "C23": [
  "partial",
  "Main branch; outside it the exact result and an error bound are proved, and C23_fails."
 ],
 "C24": [
  "partial",
  "Main branch and scalars; elsewhere the exact result and an error bound; zero below 4 epsilon (C24_fails_below)."
 ],
 "C35": [
  "proved",
  ""
 ],
 "C36": [
  "proved",
  ""
 ],
 "C37": [
  "partial",
  "Violated: exp(MultiVector) writes ten lines to std::cout for every valid argument."
 ],
 "C10": [
  "proved",
  "Null, zero and one of every type; exact identities over any ring and for finite operands in binary64 (up to the sign of a zero). null<MultiVector> is NaN in the scalar component only; null of the other composites is shown component by component."
 ],
 "C11": [
  "partial",
  "Proved for double and for arrays of every length, and the direction 'reported invalid implies some invalid component' for all types. The documented equivalence is false for Vector, BiVector and every composite holding one: C11_fails and C11_fails_vector give the counterexample; C11_first_components says exactly what the code tests."
 ],
 "C12": [
  "proved",
  "Binary64. NaN in any operand component; all typed products, sums, differences, negation and involutions. C12_fails_typed_validity records that isValid does not always notice the NaN."
 ],
 "C25": [
  "proved",
  "Binary64, all types that have nearlyEquals. Also: the reads of the array version stay in bounds for the arrays the library uses, and the empty array is an out-of-bounds read."
 ],
 "C26": [
  "proved",
  "Binary64, all types that have nearlyEquals, all valid values including those whose squares overflow or underflow."
 ],
 "C27": [
  "partial",
  "Exact arithmetic: the array test is characterised for every length (C27_exact, C27_exact_small). Binary64: the double version rejects and accepts as expected up to rounding. Arrays and the nine types in binary64: away from overflow and underflow (components up to 2^500, reference norm at least 2^-440, fewer than 1001 elements) the comparison accepts whenever the distance is at most tol*norm*(1-(2n+6)u) and rejects above tol*norm*(1+(2n+6)u), u = 2^-53 (C27_range_accepts, C27_range_rejects_partial, C27_type_accepts, C27_type_accepted_partial); a zero reference is compared componentwise (C27_zero_reference). Outside that range the expected property is false: C27_fails_overflow, C27_fails_underflow, C27_fails_twice, C27_fails_tiny; symmetry is false: C27_fails_symmetry."
 ],
 "C28": [
  "proved",
  "Binary64, all types with operator==; ComPlex and DirPlex have none (C28_missing). C28_fails_bitwise: the documented bit-wise identity is false for signed zeros."
 ],
 "C32": [
  "proved",
  "Binary64. Distribution of the involutions over sums holds up to the sign of a zero only; C32_fails_distribute_bitwise is the counterexample to the bitwise form."
 ],
 "C33": [
  "proved",
  "Binary64, all hundred typed products, all typed sums and the non-reversed differences. C33_nearest says what correctly rounded means, without the model's rounding function."
 ],
 "C34": [
  "partial",
  "Binary64, all ten types. C34_magnitude_wide: for all finite components with exact sum of squares at most 2^1022 the magnitude is finite and within 7 units roundoff plus 2^-529 of the length (C34_magnitude_contracted: the same however magSq is contracted, C57). C34_direction_partial and C34_unit_partial: for lengths of at least 2^-520 the direction is accurate to 10 units roundoff plus 2^-528 relative to the length, and of unit length. Sharper constants and validity of the result in the central range (C34_magnitude, C34_direction, C34_unit, C34_valid_partial). The unrestricted expectation is false: C34_fails_underflow and C34_fails_overflow for whole regions, C34_fails_subnormal by a witness. C34_overflow, C34_magnitude_total, C34_direction_total, C34_unit_total, C34_null_or_bounded and C34_null_iff close the bands between: the magnitude of any finite non-zero object is infinite, with sum of squares above 2^1024(1-9u), or within 6u of the length plus 2^-1070/length; the direction is accurate from length 2^-530 up to overflow; it is null exactly when every squared component is at most 2^-1075, and otherwise every component of it is finite and at most 5/4."
 ],
 "C29": [
  "proved",
  "Every type, every stream state, every text: each blade is the next numbers of the text, all valid, or all NaN; failed or exhausted stream gives all NaN and consumes nothing; isValid is exact after extraction; previous contents are ignored; no undefined behaviour. Recorded weakness: a subnormal number nulls a blade without failing the stream and the next blade is read from the wrong place (C29_fails_misaligned). Stream extraction of double itself is a model of libstdc++ num_get (Model/Text.lean)."
 ],
 "C30": [
  "proved",
  "Text of fixed, enote and operator<< for every type, value, precision, width; one word per component; alignment; operator<< preserves the formatting state. Limits proved: negative numbers with three-digit exponents overflow the enote field; put(double) changes the caller's stream; no fixed/enote for ComPlex and DirPlex. printf formatting is a model of the standard library (Model/Text.lean)."
 ],
 "C31": [
  "proved",
  "Bit-exact round trip for 16 or more decimals for every finite double and every object with valid components; accuracy 10^-d for any d; default precision violated (C31_fails_default, C31_fails_max). operator<< / fixed read back within 10^-a."
 ],
 "C38": [
  "proved",
  "The value of the literal 3.141592653589793 is rounded by the model of binary64; pi bounds from Mathlib. The basis relations hold over any commutative ring."
 ],
 "C39": [
  "proved",
  "direction of a MultiVector without a direction is excluded: null<MultiVector>() has zeros whose sign would change."
 ],
 "C40": [
  "proved",
  "At binary64, all special values included."
 ],
 "C41": [
  "proved",
  "The reading programs are specified by the relations ReadSeq and ReadLoop; the latter is proved deterministic. Standard library number input and output are modelled, see DESIGN.md."
 ],
 "C42": [
  "proved",
  "The excluded subtractions are the known defect recorded under C05."
 ],
 "C43": [
  "proved",
  "About components. The library's isValid(object) itself looks at fewer components (C11), so this is stated with the component-wise check."
 ],
 "C44": [
  "proved",
  "Round to nearest even without contraction or extended precision, as in the F64 model. Sub-expressions using the six subtractions of C05 are excluded."
 ],
 "C45": [
  "proved",
  "Round to nearest even, no contraction. rounded_unit shows that every exactly unit spinor rounded to binary64 meets the unit hypothesis."
 ],
 "C46": [
  "proved",
  "The libm is a hypothesis on accuracy (refLibM, correctly rounded, meets it); round to nearest even, no contraction. C46_exp_total covers every finite bivector up to the overflow threshold; a subnormal first component of the direction loses the rotation (C46_fails_ratio, C20)."
 ],
 "C47": [
  "proved",
  "Ideal arithmetic. Arguments that have both a vector and a bivector part are covered by the identity with the other algebra's series, not by an exact criterion for agreement."
 ],
 "C48": [
  "proved",
  "Binary64 model. C48_fails_default shows that the tolerance in C48_nearly cannot be lowered to the default epsilon."
 ],
 "C49": [
  "proved",
  "Binary64 model. C49_bound_sharp: 2^53 + 1 is not exact."
 ],
 "C50": [
  "proved",
  "Binary64 model; C50_product is an equivalence: agreement for all finite operands iff the pair is not in the list of 27. Infinite operands: C50_finite_needed."
 ],
 "C51": [
  "proved",
  "The libm is a hypothesis on accuracy (refLibLog, correctly rounded, meets it). Off the real axis: |w| <= (1 - 2^-49)|S|. Round trip and root need a first bivector component that is zero or at least 2^-300 of the bivector (a subnormal direction component is taken for invalid, C46)."
 ],
 "C52": [
  "proved",
  "The range keeps the squares clear of overflow and underflow."
 ],
 "C53": [
  "proved",
  "D central and, like the bivector part of S, with first component zero or at least 2^-300 of its magnitude (see C46)."
 ],
 "C54": [
  "proved",
  "The counterexample C54_fails_zero_reference shows that the condition on the reference grades is needed."
 ],
 "C55": [
  "proved",
  "Over the real numbers."
 ],
 "C56": [
  "proved",
  "The complex library is a parameter with the stated accuracy (LibcOk); the schoolbook product with rounded quotient and norm (refLibC) satisfies it with 2^-48."
 ],
 "C57": [
  "proved",
  "Contracted (Model/Fused.lean) lists the allowed evaluations of an arithmetic term: each sum or difference with a product (possibly negated) as an operand may be fused. No reassociation and no value-changing optimisations."
 ],
 "C58": [
  "proved",
  "The README's Vector{ spinor * v * reverse(spinor) } is read as the vector part of the ImSpin result (no such converting constructor exists in the headers). Angles as in `Angle`: each component is zero or has magnitude from 2^-399 to 2^501."
 ],
 "C59": [
  "proved",
  "Valid, OffAxis and FirstFair (first bivector component zero or at least 2^-300 of the bivector's length) are conditions on the computed product b*a. Near the axis the root falls under C24 and C53."
 ],
 "C60": [
  "proved",
  "The thresholds are sufficient, not claimed to be the least possible. The double overload compares by another rule, so promotion of double is left out."
 ],
 "C61": [
  "proved",
  "Every type, under the specification LibcSqrtOk of std::sqrt(std::complex<double>), which a reference library is proved to meet. C61_fails_branch: on the cut the other root may be returned."
 ],
 "C62": [
  "partial",
  "False of the code: C62_fails_type shows that amplitude of every vector v stored as DirPlex{v, zero} is -|v| e123, but +|v| e123 as Vector or MultiVector. Proved: agreement up to rounding and up to the choice of the root (C62_same_partial), and of the root off the branch cut (C62_off_cut_partial)."
 ],
 "C63": [
  "proved",
  "Under the specifications LibmOk and LibmExpOk of std::sin, std::cos, std::exp, which a correctly rounded library is proved to meet. The series is that of the other algebra (C47); C63_vector_wrong shows what this costs."
 ],
 "C64": [
  "proved",
  "Real arithmetic, the last claim in binary64. cube(Vector), cube(BiVector), cube(DirPlex) do not compile though their values fit (C64_cube_fits)."
 ],
 "C65": [
  "proved",
  "The header's product example is refuted (C65_header_product_fails); everything else holds."
 ],
 "C66": [
  "proved",
  "Euclidean space, projections, reflections, angles, determinants and volume are Mathlib's own."
 ],
 "C67": [
  "proved",
  "The loops are client code written with the modelled direction, exp, reverse and products; the library itself has no such loop."
 ],
 "C68": [
  "proved",
  "Exact arithmetic (the guards of inverse are kept). The expression is client code; the library does not provide the function named in its README."
 ],
 "C69": [
  "proved",
  "The specification of std::complex is written out in the file (Annex G.5.1 product); the sign of a NaN is not modelled. The README's 'same behavior' does not extend to infinities and std::abs, which is proved (C69_fails_infinite, C69_fails_abs)."
 ],
 "C70": [
  "proved",
  "Stream state is modelled as in C29/C31 (eofbit, failbit; num_get accumulation and strtod as in libstdc++). The writer and reading loops are client code; the library only supplies enote and operator>>."
 ],
 "C71": [
  "proved",
  "Device failure is modelled as in libstdc++: a formatted insertion writes the characters that fit and sets badbit if some do not; insertion into a stream that is not good does nothing. The width reset by the insertion that fails is that of the unlimited device."
 ],
 "C72": [
  "proved",
  "basic_ios::clear is modelled as in libstdc++: the value is stored, then the state is set, then ios_base::failure is thrown; badbit (device errors on input) is not modelled."
 ],
 "C73": [
  "proved",
  "Text to number as in libstdc++ (C29). The loops are client code. The exception for the last object of the plain loop is real: C70_silent."
 ],
 "C74": [
  "proved",
  "Real arithmetic; the rounding errors of attitude computations are C58. The half of an angle below the smallest normal double in magnitude is treated as zero by the code, hence the condition on the angles."
 ],
 "C75": [
  "proved",
  "Real arithmetic; the conditions on the relative attitude are those of logG2 and exp (C20, C23), whose validity test looks at the first component of the bivector. Rounding errors of the pieces are C46 and C51."
 ],
 "C76": [
  "proved",
  "Exact real arithmetic. Points, inner products, distances and linear independence are those of Mathlib's Euclidean space."
 ],
 "C77": [
  "proved",
  "Extends C51 (t = 1/2 and t = 1) to every real exponent including negative ones."
 ],
 "C78": [
  "proved",
  "Binary64 counterpart of C75. Uses that powers with exponent in [0,1] do not increase the distance of two rotations in the same half of the sphere."
 ],
 "C79": [
  "proved",
  "The answer for pairs within the tolerance of parallel is that of C23/C53 (real branch); the bound needs the computed product off the axis."
 ],
 "C80": [
  "proved",
  "Follows the definition of amplitude and phase in math/PolarForm.lyx."
 ],
 "C81": [
  "proved",
  "C81_sampled, C81_midpoint and C81_constant are about the exact rotations `turns` of C58; C81_sampled_binary64 and C81_midpoint_binary64 are about the loop itself in double precision with an abstract math library."
 ],
 "C82": [
  "proved",
  "Model of badbit: Model/Device.lean, with libstdc++ behaviour (the stream buffer throws on a read error). A single double is covered by C82_object, C82_loop, C82_no_wrong_object."
 ],
 "C83": [
  "proved",
  "Digit grouping (thousands separators) is not modelled; locales without grouping only. The silent misreading is a consequence of the library's code (C83_silent), stated as a fact and not a violation of a documented claim."
 ],
 "C84": [
  "proved",
  "The difference of types that the library subtracts in the wrong order (C11) is excluded by hypothesis, as in C57. Overflow is excluded by describing results without an upper bound of the exponent; C84_size bounds all values."
 ],
 "C85": [
  "proved",
  "The two theorems on vectors and trivectors show why the repository's tests of exp(MultiVector) are disabled: the reference is right and the library's function is not (C21, C47)."
 ],
 "C86": [
  "proved",
  "checkGotExp, checkInverse and main are modelled with their text; the inverse is an argument of the model of checkInverse, so that wrong inverses can be put in."
 ],
 "C87": [
  "proved",
  "The streams are those of libstdc++; only groups of three are modelled (numpunct::grouping() = \"\\3\"); the violation of the documented width is C87_fails_width."
 ],
 "C88": [
  "proved",
  "Violates the expectation that more decimals are at least as accurate: C88_fails_round_trip. Reading back of io::fixed up to 306 decimals. Memory is assumed to suffice."
 ],
 "C89": [
  "proved",
  "Flags inexact and underflow, contraction, and the library functions other than sqrt are not covered."
 ],
 "C90": [
  "proved",
  "Grades that are zero in one object only are excluded in (1)-(3); exact symmetry is refuted by C27_fails_symmetry."
 ],
 "C91": [
  "proved",
  "Parts (1)-(4) over a commutative ring or the reals; the binary64 part covers reversed axes, where it is exact. C91_exp_depends, C91_nearly_zero_depends, C91_amplitude_mirror and C91_turn_rounds are the exceptions."
 ],
 "C92": [
  "proved",
  "ComPlex and DirPlex are in (1) and (2) only; see C61 and C62 for these types. C92_rejects and C92_differ are the negative results."
 ],
 "C93": [
  "proved",
  "C93_rejects is the negative result; the operands of the test program itself (decimal fractions) are not evaluated."
 ],
 "C94": [
  "proved",
  "The platform (IEEE 754 words, roundTiesToEven) is still assumed; C94 shows that the model is what the standard defines, except that all NaN are one."
 ],
 "C95": [
  "proved",
  "The stream functions are of the C++ library, so the theorems are on the model of that library (Model/Text.lean) against a specification of the C standard; that the library of the platform conforms is assumed."
 ],
 "C96": [
  "proved",
  "Operators + - * and unary minus, inverse of blades, magnitude and direction. Underflow is the one for results tiny before rounding; an implementation may raise it for those tiny after rounding only, which are fewer."
 ],
 "C97": [
  "proved",
  "NaN has no sign in the number model; the text -nan is covered by (2). Subnormal numerals are C29 (rejected without failure of the stream), overflowing ones C31 and C95."
 ],
 "C98": [
  "proved",
  "A locale whose first size is zero or at least 127 does not group: that is C83."
 ],
 "C99": [
  "proved",
  ""
 ],
 "C100": [
  "proved",
  ""
 ]
}