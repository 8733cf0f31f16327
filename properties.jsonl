{"id": "C01", "title": "MultiVector product is an associative unital bilinear product", "statement": "For all MultiVectors A,B,C and doubles s (exact arithmetic): (A*B)*C = A*(B*C); A*(B+C)=A*B+A*C; (A+B)*C=A*C+B*C; (s*A)*B = s*(A*B) = A*(s*B); one<MultiVector>() and the basis constant e0 are two-sided units; zero<MultiVector>() annihilates.", "quantifier": "every triple of multivectors (24 real coordinates) and every scale factor", "why_tests_cant": "A wrong sign in one of the 64 terms of the hand written product shows up only for particular operand grades; tests try a handful of literal operands.", "anchors": ["include/g3opsMul_MultiVector.hpp: operator*(MultiVector,MultiVector)", "include/g3opsMul_double.hpp", "include/g3const.hpp: one, zero, e0"]}
{"id": "C02", "title": "The product is the Clifford algebra of Euclidean 3-space", "statement": "The MultiVector type with the library + and * is isomorphic, as a real algebra, to the Clifford algebra of R^3 with the standard dot product, by a map that sends Vector{x,y,z} to the generator of (x,y,z). In particular v*v = |v|^2, u*v+v*u = 2 u.v, and the product of any two basis blades (e0,e1,e2,e3,e23,e31,e12,e123) is the blade given by index symmetric difference with the permutation sign.", "quantifier": "every pair of multivectors, every pair of vectors, every pair of basis blades", "why_tests_cant": "Isomorphism with a universal object is a statement about all elements and all homomorphisms; no set of examples implies it.", "anchors": ["include/g3opsMul_MultiVector.hpp: operator*(MultiVector,MultiVector)", "include/g3const.hpp: e1..e123", "include/g3type.hpp: MultiVector ctors"]}
{"id": "C03", "title": "Every typed product agrees with the promoted MultiVector product", "statement": "For each pair of library types (double, Scalar, Vector, BiVector, TriVector, Spinor, ImSpin, ComPlex, DirPlex, MultiVector) having an operator*, promoting both operands to MultiVector and multiplying gives the promotion of the typed result (exact arithmetic).", "quantifier": "all 99 overloads and all operand values", "why_tests_cant": "99 overloads each with its own hand expanded formula; unit tests compare a single literal sample per overload.", "anchors": ["include/g3opsMul_*.hpp", "include/g3_private.hpp: prodComm, prodAnti"]}
{"id": "C04", "title": "Every typed sum agrees with the promoted sum and is commutative", "statement": "For every pair of types with an operator+, promotion(a+b) = promotion(a)+promotion(b), and a+b = b+a; same type sums are associative with zero<T>() neutral and -a the inverse (exact arithmetic).", "quantifier": "all addition overloads and all operand values", "why_tests_cant": "Mixed-grade overloads re-route fields by hand; an unlisted field or swapped field is visible only for particular values.", "anchors": ["include/g3opsAdd_*.hpp"]}
{"id": "C05", "title": "Every typed difference is the promoted difference and anti-commutes", "statement": "For every pair of types with an operator-, promotion(a-b) = promotion(a)-promotion(b) and a-b = -(b-a) (the documented law of g3opsSub). Violated by six overloads: BiVector-Scalar, BiVector-Vector, TriVector-Scalar, TriVector-Vector, Spinor-Scalar, Spinor-BiVector return b-a instead of a-b.", "quantifier": "all subtraction overloads and all operand values", "why_tests_cant": "The unit tests encode the wrong expectation for the six overloads, so they pass; the law is universally quantified.", "anchors": ["include/g3opsSub_*.hpp", "test/test_g3opsSub_other.cpp"]}
{"id": "C06", "title": "reverse, oddverse, dirverse are commuting involutions, each the composition of the other two", "statement": "For every type T and value x: f(f(x)) = x for f in {reverse, oddverse, dirverse}; any two commute; reverse(oddverse(x)) = dirverse(x) and cyclically. This holds for every bit pattern of the doubles involved, including signed zeros, infinities and NaN.", "quantifier": "all values of the nine types, including non-finite doubles", "why_tests_cant": "Claimed in documentation for all objects; tests use single samples.", "anchors": ["include/g3opsUni.hpp: reverse, oddverse, dirverse"]}
{"id": "C07", "title": "reverse and dirverse are anti-automorphisms, oddverse is an automorphism", "statement": "For all A,B of any types with a product: reverse(A*B) = reverse(B)*reverse(A); dirverse(A*B) = dirverse(B)*dirverse(A); oddverse(A*B)=oddverse(A)*oddverse(B); all three are linear.", "quantifier": "all operand pairs", "why_tests_cant": "Quantifies over all operand pairs and all overloads.", "anchors": ["include/g3opsUni.hpp", "include/g3opsMul_MultiVector.hpp"]}
{"id": "C08", "title": "dual is multiplication by the unit trivector", "statement": "For every type T with dual: dual(x) = e123*x = x*e123 (as MultiVector), dual(dual(x)) = -x, dual maps each type to its documented dual type, and dual(A*B)=dual(A)*B=A*dual(B).", "quantifier": "all values of the ten argument types", "why_tests_cant": "Universally quantified algebraic law over all overloads.", "anchors": ["include/g3opsUni.hpp: dual"]}
{"id": "C09", "title": "Construction, promotion and component access are lossless and mutually consistent", "statement": "Promoting any value to MultiVector and reading back its grades returns the original components with all other grades zero; operator[] reads component k in declaration order; writing component k through the non-const operator[] changes exactly that component; for every blade and two-grade type an out of range index reads as NaN. MultiVector differs: every index >= 7 reads (and, through the mutable form, writes) the trivector component.", "quantifier": "all values, all indices of type size_t", "why_tests_cant": "Indices range over all of size_t and values over all doubles; there are many constructor overloads.", "anchors": ["include/g3type.hpp: constructors, operator[]"]}
{"id": "C10", "title": "null<T>() is invalid, zero<T>() and one<T>() are valid, for every type", "statement": "isValid(null<T>()) is false for every T of the API; isValid(zero<T>()) and isValid(one<T>()) hold; x+zero = x; one<T>()*x = x for T in {Scalar, Spinor, ComPlex, MultiVector, double}. one<Vector>() and one<BiVector>() are the zero element.", "quantifier": "all types T, all x", "why_tests_cant": "Property of every type and of all operands.", "anchors": ["include/g3const.hpp: null, zero, one", "include/g3validity.hpp: isValid"]}
{"id": "C11", "title": "isValid is true exactly when every component is a valid number", "statement": "Documented: an object is valid iff all component data values are valid (normal or zero). For double and std::array this holds for every length. Violated for Vector and BiVector (and so for every composite containing them): isValid inspects only component 0, so objects with NaN in components 1 or 2 are reported valid. isValid=false does imply some component is invalid.", "quantifier": "all objects of all types, arrays of every length", "why_tests_cant": "Tests use null patterns whose component 0 is NaN; the failing patterns are an infinite family.", "anchors": ["include/g3validity.hpp: isValid"]}
{"id": "C12", "title": "Null propagates through arithmetic", "statement": "In IEEE arithmetic, if any component of either operand is NaN then: every component of A*B, for MultiVector operands, is NaN (so isValid is false); sums, differences, negations and involutions keep NaN in the same component; for the typed products some component of the result is NaN.", "quantifier": "all NaN positions and all other component values, including infinities", "why_tests_cant": "NaN positions combine with every value of the other components.", "anchors": ["include/g3opsMul_*.hpp", "include/g3opsAdd_same.hpp", "include/g3validity.hpp"]}
{"id": "C13", "title": "magSq and magnitude are the Euclidean norm", "statement": "For every type, magSq(x) is the sum of squares of the components, equals the scalar part of x*reverse(x), is >= 0 and is 0 only for x = 0; magnitude(s*x) = |s|*magnitude(x); magnitude(x+y) <= magnitude(x)+magnitude(y).", "quantifier": "all x, y of all types, all scale factors", "why_tests_cant": "Inequalities over a continuum.", "anchors": ["include/g3func.hpp: magSq, magnitude"]}
{"id": "C14", "title": "magnitude is multiplicative on blades, spinors and complex elements", "statement": "magSq(A*B) = magSq(A)*magSq(B) whenever A is a Scalar, Vector, TriVector, BiVector, Spinor, ImSpin or ComPlex within the even/odd or central subalgebras (Spinor*Spinor, Spinor*Vector, Vector*Vector, ImSpin*ImSpin, ComPlex*ComPlex ...); it is not multiplicative for general MultiVectors.", "quantifier": "all operand values", "why_tests_cant": "Polynomial identity in all coordinates.", "anchors": ["include/g3func.hpp: magSq", "include/g3opsMul_Spinor.hpp"]}
{"id": "C15", "title": "ampSq is x*dirverse(x), is a ComPlex, commutes with everything and is multiplicative; amplitude squares to it", "statement": "For every type, ampSq(x) = x*dirverse(x) = dirverse(x)*x as MultiVector; ampSq(A*B) = ampSq(A)*ampSq(B); amplitude(x)*amplitude(x) = ampSq(x).", "quantifier": "all x, A, B", "why_tests_cant": "Identity over all multivectors plus a complex square root branch.", "anchors": ["include/g3func.hpp: ampSq, amplitude"]}
{"id": "C16", "title": "direction/pairMagDirFrom factor a blade into magnitude and unit direction", "statement": "For blade x with magnitude(x) > denorm_min: magnitude(direction(x)) = 1, magnitude(x)*direction(x) = x, and pairMagDirFrom(x) returns exactly these (exact arithmetic); otherwise direction is null (invalid). direction(s*x)=direction(x) for s>0.", "quantifier": "all blades", "why_tests_cant": "Continuum of inputs with a guard branch.", "anchors": ["include/g3func.hpp: magnitude, pairMagDirFrom, direction"]}
{"id": "C17", "title": "Blade inverse is a two-sided inverse", "statement": "For every blade x with magSq(x) != 0, inverse(x)*x = x*inverse(x) = 1 (as MultiVector) in exact arithmetic, and inverse of the zero blade is invalid.", "quantifier": "all blades", "why_tests_cant": "All inputs.", "anchors": ["include/g3func.hpp: inverse"]}
{"id": "C18", "title": "ComPlex and MultiVector inverse: correct when returned, null exactly when not (numerically) invertible", "statement": "inverse<ComPlex>(z) and inverse<MultiVector>(M) return X with X*M = M*X = 1 in exact arithmetic whenever the documented amplitude guard is passed, and null otherwise; a multivector is algebraically invertible iff its ampSq is non-zero. Because of the fixed guard there are invertible (tiny) multivectors for which null is returned.", "quantifier": "all ComPlex and MultiVector values", "why_tests_cant": "Zero divisors form a 6-dimensional variety; guard boundaries cannot be sampled.", "anchors": ["include/g3func.hpp: inverse<ComPlex>, inverse<MultiVector>"]}
{"id": "C19", "title": "ComPlex is the complex field and Spinor the quaternions", "statement": "Conversion to and from std::complex is a bijection that preserves +, -, *; ComPlex is isomorphic to C as a ring; Spinor is isomorphic to the real quaternions as a ring (with reverse = conjugation and magSq = norm squared).", "quantifier": "all values", "why_tests_cant": "Isomorphism.", "anchors": ["include/g3type.hpp: ComPlex::from, std::complex cast", "include/g3opsMul_ComPlex.hpp", "include/g3opsMul_Spinor.hpp"]}
{"id": "C20", "title": "exp of a BiVector or Spinor is the exponential series", "statement": "exp(B) for BiVector B equals sum over n of B^n/n! computed with the library product, is a unit spinor, satisfies exp(-B) = reverse(exp(B)); exp(s+B) = e^s * exp(B), equal to the series for every Spinor (exact arithmetic, ideal sin/cos/exp). Violated for bivectors that are valid in every component but whose direction has a subnormal first component, such as {2^-1022, 4, 0}: the library returns 1. A NaN in component 1 or 2 also gives 1.", "quantifier": "all bivectors and spinors", "why_tests_cant": "Infinite series and all inputs.", "anchors": ["include/g3func.hpp: exp(BiVector), exp(Spinor)"]}
{"id": "C21", "title": "exp of a MultiVector is the exponential series", "statement": "exp(M) for MultiVector M should be the exponential series. Violated: exp(e1) is not cosh(1)+sinh(1) e1, and for the trivector pi*e123 the result is not -1. Agreement holds on the sub-cases identified in the theorem.", "quantifier": "all multivectors", "why_tests_cant": "Universally quantified; exp(MultiVector) tests are disabled in the repository.", "anchors": ["include/g3func.hpp: exp(MultiVector)"]}
{"id": "C22", "title": "Spinor sandwich is a rotation", "statement": "For unit spinor S and every vector v, the trivector part of S*v*reverse(S) is zero, and v -> (S*v*reverse(S)).theVec is linear, preserves dot products, lengths and orientation (triple product), and composition corresponds to spinor product; exp(theta/2 * B) with unit B rotates by angle theta in the plane of B (Rodrigues formula; the turn is about -n where B = dual(n)).", "quantifier": "all spinors, all vectors", "why_tests_cant": "Continuum of rotations.", "anchors": ["README.md", "include/g3opsMul_Spinor.hpp", "include/g3opsMul_ImSpin.hpp", "include/g3func.hpp: exp(BiVector)"]}
{"id": "C23", "title": "logG2 and exp are mutually inverse on spinors", "statement": "exp(logG2(S)) = S for every spinor S with magnitude > epsilon and bivector magnitude above the guard, in exact arithmetic; logG2(exp(s+B)) = s+B for |B| in the principal range above the guard. Between the guard limits (bivector magnitude <= the guard, non-zero) the bivector part is lost: the round trip error is non-zero.", "quantifier": "all spinors", "why_tests_cant": "Branch structure and continuum.", "anchors": ["include/g3func.hpp: logG2"]}
{"id": "C24", "title": "sqrtG2 squares back", "statement": "sqrtG2(S)*sqrtG2(S) = S for every spinor outside the guarded small-magnitude region, in exact arithmetic.", "quantifier": "all spinors", "why_tests_cant": "Branch structure and continuum.", "anchors": ["include/g3func.hpp: sqrtG2"]}
{"id": "C25", "title": "nearlyEquals never accepts invalid data and never accepts under a non-positive tolerance", "statement": "In IEEE arithmetic nearlyEquals(a,b,tol) is false whenever a component test of it involves NaN/infinity/subnormal first components, for all tol, and false for tol <= 0 or NaN tolerances.", "quantifier": "all operands, all tolerances, all array lengths", "why_tests_cant": "All doubles incl. special values, arrays of every length.", "anchors": ["include/g3compare.hpp: nearlyEquals*"]}
{"id": "C26", "title": "nearlyEquals is reflexive on valid data for positive tolerance", "statement": "For every valid x (of every type) and every positive valid tolerance, nearlyEquals(x,x,tol) holds in IEEE arithmetic, including values whose squares overflow or underflow.", "quantifier": "all valid doubles, arrays of every length, all positive tolerances", "why_tests_cant": "Includes overflow / underflow of intermediate squares.", "anchors": ["include/g3compare.hpp"]}
{"id": "C27", "title": "nearlyEquals rejects clearly different values", "statement": "Expected: arrays whose relative difference exceeds the tolerance are reported different. Violated in IEEE arithmetic: when the squared reference magnitude overflows (or all squares underflow) grossly different arrays are reported nearly equal; nearlyEqualsRel/array comparison is also not symmetric in its arguments. Holds in exact arithmetic.", "quantifier": "all operand pairs", "why_tests_cant": "The failing region is outside what tests sample.", "anchors": ["include/g3compare.hpp: nearlyEquals(array)"]}
{"id": "C28", "title": "operator== is component-wise equality", "statement": "operator== holds iff all components compare equal as doubles; it is symmetric and transitive, and reflexive exactly on NaN-free values. It is not bit-wise identity as documented: +0 and -0 compare equal.", "quantifier": "all operand pairs and triples", "why_tests_cant": "Equivalence laws over all values.", "anchors": ["include/g3compare.hpp: operator=="]}
{"id": "C29", "title": "Stream extraction is all-or-null per blade", "statement": "For every input text, stream state and previous contents, operator>> into a blade either stores the next numbers of the text, all of them valid, or stores NaN in every component; composite extraction is the sequence of blade extractions; extraction from a failed or exhausted stream yields an all-NaN object and consumes nothing; after extraction isValid is true iff every component is valid. (A subnormal number nulls its blade without failing the stream, and the rest of a composite is then read from the wrong place.)", "quantifier": "all input character sequences, all stream states, all blade sizes", "why_tests_cant": "Unbounded inputs.", "anchors": ["include/g3io.hpp: operator>>"]}
{"id": "C30", "title": "Formatted output has the documented shape", "statement": "io::fixed pads every component to the documented width when it fits; the output for an object is exactly one white-space separated word per component in declaration order; grades are separated as documented; operator<< only appends and leaves the target stream's float format, precision, fill and adjustment unchanged.", "quantifier": "all values (NaN and infinities included), all nine types, all precisions and widths, all stream states", "why_tests_cant": "All values and formats.", "anchors": ["include/g3io.hpp: fixed, enote, operator<<, put"]}
{"id": "C31", "title": "Text written by io::enote reads back to the same value", "statement": "Writing with io::enote with d >= 16 decimals and reading back with operator>> is the identity, bit for bit, on all finite doubles and on all objects whose components are valid; for any d the relative error is at most 10^-d. At the default d = 15 the identity is violated (1 + 2^-52 reads back as 1; the text of the largest double cannot be read back). Text of operator<< reads back to within 10^-6.", "quantifier": "all finite doubles", "why_tests_cant": "2^64 values.", "anchors": ["include/g3io.hpp: enote, operator>>"]}
{"id": "C32", "title": "IEEE-exact symmetries of the typed operations", "statement": "In IEEE arithmetic (not just in exact arithmetic): bit for bit, typed a+b = b+a; -(-a) = a; applying an involution twice gives the operand back; scaling by a double or scalar commutes; products of scalars and complex elements commute. Up to the sign of a zero component, a-b = -(b-a), and reverse, oddverse, dirverse distribute over the typed sum (bit for bit the last one is false).", "quantifier": "all doubles incl. special values", "why_tests_cant": "All bit patterns.", "anchors": ["include/g3opsAdd_*.hpp", "include/g3opsSub_same.hpp"]}
{"id": "C33", "title": "Rounding error of products is bounded", "statement": "Every component of every typed product computed in binary64 from finite operands differs from the exact product by at most 9*2^-53 times the sum of the absolute values of its terms, plus 2^-1059 for underflow, and is finite, provided that sum is at most 2^1022. Every finite component of a typed sum is the exact sum, correctly rounded; the same holds for the differences which are not reversed.", "quantifier": "all finite binary64 operands of all type pairs, including results that underflow", "why_tests_cant": "Error bound over all operands.", "anchors": ["include/g3opsMul_MultiVector.hpp", "include/g3_private.hpp: prodComm, prodAnti"]}
{"id": "C34", "title": "Range in which magnitude and direction are usable in IEEE arithmetic", "statement": "Expected: direction(x) of a valid non-zero object is valid and of unit length. In binary64 magnitude is finite and within 7 units roundoff plus 2^-529 of the length whenever the exact sum of squares is at most 2^1022; direction is finite, within 10 units roundoff plus 2^-528/length of the exact quotient and of unit length to the same accuracy whenever moreover the length is at least 2^-520. It is also valid when all components are at most 2^500 in absolute value, one is at least 2^-500 and the others are zero or at least 2^-400; there the errors are 6 and 8 units roundoff. Violated outside: if no component exceeds 2^-538 null is returned; if one is at least 2^512 the zero object is returned; a small first component next to a large one becomes subnormal, so that the direction is reported invalid. For every finite object: the magnitude overflows when the exact sum of squares is at least 2^1024(1+9u) and not when it is at most 2^1024(1-9u), u = 2^-53; when finite it is within 6u of the length plus 2^-1070/length; the direction is null exactly when no squared component exceeds 2^-1075 and otherwise has finite components of at most 5/4, accurate to 9u + 2^-1069/length^2 relative from length 2^-530 up.", "quantifier": "all finite binary64 objects of all ten types", "why_tests_cant": "Requires reasoning about overflow and underflow regions.", "anchors": ["include/g3func.hpp: magnitude, pairMagDirFrom, direction"]}
{"id": "C35", "title": "Vector product splits into dot and wedge", "statement": "For all vectors a,b: the scalar part of a*b is the dot product and symmetric, the bivector part is the dual of the cross product and antisymmetric; a*b=b*a iff parallel, a*b=-b*a iff orthogonal; |a*b| = |a||b| and Lagrange identity.", "quantifier": "all vectors", "why_tests_cant": "All inputs.", "anchors": ["include/g3opsMul_Vector.hpp"]}
{"id": "C36", "title": "Centre and grade structure", "statement": "ComPlex elements commute with every MultiVector, and only they do; product of even elements is even, of odd elements is even, mixed is odd; every MultiVector is the sum of its grades and of its Spinor+ImSpin and ComPlex+DirPlex parts.", "quantifier": "all multivectors", "why_tests_cant": "All inputs; an iff over the algebra.", "anchors": ["include/g3opsMul_ComPlex.hpp", "include/g3opsAdd_ComPlex.hpp", "include/g3opsAdd_Spinor.hpp"]}
{"id": "C37", "title": "Library functions do not write to standard output", "statement": "No function of the algebra API writes to the program's standard output. Violated by exp(MultiVector): each call with a valid argument writes ten labelled lines to std::cout; a call with an invalid argument writes nothing.", "quantifier": "all arguments", "why_tests_cant": "An absence of effects over all inputs; and the exp(MultiVector) tests are disabled.", "anchors": ["include/g3func.hpp: exp(MultiVector)"]}
{"id": "C38", "title": "The constants are the best doubles and satisfy their documented relations", "statement": "g3::pi is the double nearest to the real number pi; piHalf, piQtr, turnFull, turnHalf, turnQtr are the doubles nearest to pi/2, pi/4, 2 pi, pi, pi/2, and the relations between them (two half turns make a full turn, ...) are exact. The basis elements satisfy the documented relations: vectors square to 1, bivectors and the trivector to -1, e1*e2*e3 = e2*e3*e1 = e3*e1*e2 = e123, e23*e31*e12 (and cyclic) = 1, e23 = dual(e1) and cyclic; every MultiVector is the sum of its components times the basis elements.", "quantifier": "all doubles (nothing is nearer); all multivectors for the spanning statement", "why_tests_cant": "'Nearest' compares with every double and with an irrational number; tests compare with the same literal.", "anchors": ["include/g3const.hpp: pi, piHalf, piQtr, turnFull, turnHalf, turnQtr, e0..e123"]}
{"id": "C39", "title": "Magnitudes and directions ignore or follow signs exactly", "statement": "In IEEE arithmetic, bit for bit: magSq and magnitude are unchanged by negation, reverse, oddverse and dirverse; direction commutes with these four operations; scaling by a double commutes with them; inverse(-x) = -inverse(x) for blades; the magnitude of dual(x) is that of x (not claimed for MultiVector, whose partial sums are added in another order).", "quantifier": "all values of all ten types, including NaN, infinities, signed zeros, subnormals", "why_tests_cant": "Exactness over all bit patterns, including special values.", "anchors": ["include/g3func.hpp: magSq, magnitude, direction, pairMagDirFrom, inverse", "include/g3opsUni.hpp"]}
{"id": "C40", "title": "nearlyEquals is even and monotone in the tolerance", "statement": "nearlyEquals(a,b,tol) does not change when both arguments are negated, reversed, oddversed, dirversed or (for every type but double) replaced by their duals; a larger tolerance never turns acceptance into rejection; isValid ignores signs.", "quantifier": "all values of all ten types, arrays of any length, all tolerances including NaN and infinities", "why_tests_cant": "Two-run (relational) properties over all data and all pairs of tolerances.", "anchors": ["include/g3compare.hpp: nearlyEquals, nearlyEqualsAbs, nearlyEqualsRel", "include/g3validity.hpp: isValid"]}
{"id": "C41", "title": "A stream can carry any number of objects", "statement": "Any number of objects of any types (with an io::enote) with valid components, written one after another with 16 or more decimals and any white space between them, are read back by a chain of operator>> as exactly the same objects, bit for bit, and the stream stays good. The loop while (istrm >> x) over such a text of one type collects exactly the objects written: none lost, none invented, none changed, and it ends. Objects written one after another by operator<< with nothing in between do not run into each other: each is read back with every component valid and within 10^-6. A chain of insertions leaves the formatting state of the stream as it was and only appends.", "quantifier": "all lists of objects (any length, any mixture of types), all valid component values, all precisions of at least 16 decimals, all white-space separators, all previous contents of the variables", "why_tests_cant": "Histories of unbounded length over all values; where one object ends and the next begins depends on the text of every number.", "anchors": ["include/g3io.hpp: operator>>, operator<<", "include/g3io.hpp: enote, fixed"]}
{"id": "C42", "title": "Any expression of library operations has one static type and the algebra's value", "statement": "For every expression built from the library's operators * + - (binary and unary), reverse, oddverse, dirverse and dual over objects of any of the ten types: whether it compiles and the type of its result depend only on the types of its variables, and when it compiles its value is the value of the same expression evaluated on full multivectors. Hence an identity that holds for multivectors can be used to rewrite any typed expression. (Sub-expressions that use one of the six subtractions of C05 are excluded.)", "quantifier": "all expressions of any size and shape, all assignments of types to the variables, all component values over any commutative ring", "why_tests_cant": "The expressions are unbounded in size and each one goes through its own chain of overloads; tests cover single operators.", "anchors": ["include/g3opsMul.hpp: operator*", "include/g3opsAdd.hpp: operator+, operator-", "include/g3opsUni.hpp: operator-, reverse, oddverse, dirverse, dual"]}
{"id": "C43", "title": "A NaN in any variable of an expression reaches its result", "statement": "In binary64, if some variable that occurs in an expression of library operations has a NaN component, the result of the expression has a NaN component, however deep the variable occurs. So if every component of a result is valid, every variable used was free of NaN.", "quantifier": "all expressions of any size and shape, all types, all binary64 component values (infinities, zeros and subnormals included)", "why_tests_cant": "Unbounded expressions; zero factors, cancellations and grade selection could each swallow a NaN.", "anchors": ["include/g3opsMul.hpp: operator*", "include/g3opsAdd.hpp", "include/g3opsUni.hpp", "include/g3validity.hpp: isValid"]}
{"id": "C44", "title": "Rounding error of whole expressions and of summation loops", "statement": "In binary64 every component of an expression of library operations is finite and differs from the exact value of the expression by at most a bound computed from the magnitudes of the variables by a stated recursion, as long as that bound stays below 2^1022. For expressions without products the error is at most ((1+2^-53)^d - 1) times the same expression on absolute values, d being the depth of additions. A loop that adds n further objects to an accumulator gives every component within ((1+2^-53)^n - 1) times the sum of absolute values.", "quantifier": "all expressions of any size and shape, all list lengths, all finite binary64 values within the stated range", "why_tests_cant": "Errors accumulate over unboundedly many operations on 2^64 values each.", "anchors": ["include/g3opsMul.hpp: operator*", "include/g3opsAdd.hpp: operator+, operator-", "include/g3opsUni.hpp"]}
{"id": "C45", "title": "Long chains of products and rotations do not blow up", "statement": "Turning a vector by the spinors of a list one after another equals turning it once by their product, and unit spinors keep its length, for any number of spinors (exact arithmetic). In binary64, a loop that multiplies an object of any type, on either side, n times by objects of any type but DirPlex and MultiVector gives a finite result whose distance from the exact product is at most ((1+28*2^-53)^n - 1) times the product of the lengths, as long as the partial products stay between 2^-1000 and about 2^1022. With n factors whose length is one up to eta and n*(2^-48+eta) <= 1/128, the distance is at most 29*n*2^-53 and the drift of the length at most n*(29*2^-53 + 2*eta), relative. A loop v = (S*v*reverse(S)).theVec over n such spinors stays within 58*n*2^-53 of the exact position and within n*(58*2^-53 + 4*eta) of the original length, relative to the length.", "quantifier": "all list lengths n (with n*(2^-48+eta) <= 1/128 for the plain numbers), all factors and types, all finite binary64 values within the stated range", "why_tests_cant": "The drift builds up over arbitrarily many roundings; a test sees one sequence of values.", "anchors": ["include/g3opsMul.hpp: operator*", "include/g3opsUni.hpp: reverse", "include/g3type.hpp: Spinor, ImSpin, Vector"]}
{"id": "C46", "title": "Exponentials of bivectors and spinors in binary64", "statement": "With IEEE binary64 arithmetic and a mathematical library whose sin and cos are within eps (at most 1/100) of the true values at every finite argument, exp(B) of every BiVector B with components up to 2^500, some component at least 2^-500 and first component zero or at least 2^-400 is finite, and each component is within 1.1 eps + (10 + 6|B|) 2^-53 of the exponential series of B. Its length is one up to 2.02 eps + 20*2^-53 however large |B| is, so a vector turned by exp of n bivectors one after another drifts in length by at most n (140*2^-53 + 9 eps). exp(s + B) has the corresponding error relative to e^s when exp has relative error eps. For bivectors with no component above 2^-538 exp is exactly one, within 2^-537 of the series. More generally, for every finite BiVector whose sum of squares is below 2^1024 by nine units roundoff, and whose first component is zero or normal with a ratio to |B| that is below 2^-1076 or at least 2^-1021, exp(B) is finite, within 1.3 eps + (11 + 7|B|) 2^-53 of the series and of length one up to 2.6 eps + 21*2^-53. The others: exp(B) is exactly one when all squares underflow, and also when the first component is normal but its ratio to |B| is subnormal; all components are NaN when the sum of squares exceeds 2^1024 by nine units roundoff (with sin(inf) = cos(inf) = NaN), and when the first component is subnormal.", "quantifier": "all mathematical libraries of the stated accuracy, all finite BiVector arguments (except within nine units roundoff of the overflow threshold and within a factor of two of the two ratio thresholds), all Spinor arguments with e^s between 2^-1000 and 2^1000, all numbers of turns", "why_tests_cant": "The bound must hold for every bivector, every size of angle and every libm of the given accuracy; tests sample a few angles with one libm.", "anchors": ["include/g3func.hpp: exp(BiVector), exp(Spinor), pairMagDirFrom", "include/g3validity.hpp: isValid"]}
{"id": "C47", "title": "Which exponential exp(MultiVector) computes", "statement": "exp(MultiVector) returns the sum of the series of powers over factorials computed in a different algebra: the one whose three unit vectors square to -1 instead of +1 (exactly when the two lengths |v - *b| and |v + *b| are zero or at least 1e-4, and within 1e-31 e^s cosh t in every component otherwise). In the library's own algebra every multivector has exactly one exponential, e^(s + t e123) (cosh z + (sinh z / z)(v + b)) with z^2 = v.v - b.b + 2 (v.b) e123. For an argument without a vector part (and |b| zero or at least 1e-4) the returned value is that exponential exactly when the trivector part is zero; for an argument without a bivector part, exactly when the argument is a plain scalar.", "quantifier": "all MultiVector arguments with valid first components", "why_tests_cant": "The identity with the series of the other algebra, and the exact sets of arguments where the two exponentials agree, range over all real components and are limits of infinite series.", "anchors": ["include/g3func.hpp: exp(MultiVector), priv::sync"]}
{"id": "C48", "title": "The inverse of a blade in floating point", "statement": "In IEEE binary64, for a Scalar, Vector, BiVector or TriVector whose largest component lies between 2^-500 and 2^500, inverse returns finite components, each within 11 units roundoff (plus half the smallest subnormal) of the component of reverse(x) divided by the exact squared magnitude; x * inverse(x) and inverse(x) * x equal one up to 21 units roundoff in every component. If the non-zero components lie between 2^-200 and 2^200, nearlyEquals accepts both products as equal to one for every tolerance from 2^-48 up to 2^500. With the default tolerance it does not in general: it answers false for the Scalar 31.", "quantifier": "all blades with components in the stated ranges, all tolerances in the stated range", "why_tests_cant": "The error bound is over all 2^192 vectors of doubles; tests sample a few.", "anchors": ["include/g3func.hpp: inverse, magSq", "include/g3opsMul.hpp: operator* (and the g3opsMul_*.hpp files)", "include/g3compare.hpp: nearlyEquals"]}
{"id": "C49", "title": "Integer data are computed exactly", "statement": "In IEEE binary64, an expression of any size built from products, sums, differences, negation, involutions and dual, over variables of any types whose components are integers (or multiples of a power of two, possibly a different one per variable), is computed without any rounding as long as, in each subexpression, the sum of the absolute values of the terms of each component is at most 2^53 steps of its grid (2^53 for integers). For integers of absolute value at most M it is enough that the bound obtained by replacing each product by 8 times the product of the bounds and each sum by the sum of the bounds is at most 2^53. Identities of geometric algebra then hold with operator==. The bound 2^53 cannot be raised.", "quantifier": "all expressions, all operand types, all finite data on grids that fit (the six difference overloads with reversed sign, C05, excluded)", "why_tests_cant": "Ranges over all expressions and all integer data within the bound.", "anchors": ["include/g3opsMul.hpp: operator* (and the g3opsMul_*.hpp files)", "include/g3opsAdd.hpp, include/g3opsSub.hpp: operator+, operator- (and the files they include)", "include/g3opsUni.hpp: unary operator-, reverse, oddverse, dirverse, dual", "include/g3compare.hpp: operator=="]}
{"id": "C50", "title": "What promotion to MultiVector changes in floating point", "statement": "In IEEE binary64, promoting the operands to MultiVector before an operation gives the same eight components as promoting its result, up to the signs of zeros: for all sums, all differences (other than the six of C05), negation, involutions and dual on any data; and for products of finite operands for 73 of the 100 operand type pairs, also when the result overflows. The other 27 product overloads add their terms in a different order, and for each of them there are finite operands for which the results differ. For the 73 pairs the agreement extends to whole expressions.", "quantifier": "all operand types, all data (finite for products), all expressions", "why_tests_cant": "Agreement bit by bit over all pairs of doubles; the rounding differences of the 27 pairs show only on special data.", "anchors": ["include/g3opsMul.hpp: operator* (and the g3opsMul_*.hpp files)", "include/g3opsAdd.hpp, include/g3opsSub.hpp: operator+, operator- (and the files they include)", "include/g3opsUni.hpp: unary operator-, reverse, oddverse, dirverse, dual", "include/g3type.hpp: MultiVector constructors"]}
{"id": "C51", "title": "Accuracy of logG2, of exp(logG2(S)) and of sqrtG2 in binary64", "statement": "In IEEE binary64 with a mathematical library of relative accuracy e, for spinors off the real axis: logG2(S) is the principal logarithm (the only L with exp(L) = S and 0 < |bivector part| < pi) with error e*|log|S|| + 6u in the scalar part and relative error 1.1e + 64u in each bivector component (u = 2^-53), whatever the second argument; exp(logG2(S)) is within |S|*((1.01*|log|S|| + 9)*e + 380u) of S in each component; sqrtG2(S) is within sqrt|S|*((|log|S|| + 9)*e + 380u) of the root of S with positive scalar part. No component overflows or becomes NaN.", "quantifier": "all finite spinors in the central range with magnitude above the guard and off the real axis; all libraries of the given accuracy", "why_tests_cant": "A bound over all doubles and all admissible libraries; accuracy near the axis and near the overflow limits is lost only on special data.", "anchors": ["include/g3func.hpp: logG2, sqrtG2, exp(Spinor), magnitude, direction, pairMagDirFrom"]}
{"id": "C52", "title": "Objects along an axis: magnitude exact, direction within one last place", "statement": "In IEEE binary64, when one component of an object outweighs all others by a factor of 2^30 or more (for example when the others are zero), magnitude() returns the absolute value of that component, exactly. direction() multiplies every component by one double, and the dominant component becomes plus or minus 1 or plus or minus (1 - 2^-53), exactly plus or minus one when it is a power of two. For an object along an axis the direction lies on the same axis and the direction of the direction is exactly the signed unit object. The direction of 49*e1 is not e1.", "quantifier": "all nine grade types and every finite object with a dominant component between 2^-500 and 2^500", "why_tests_cant": "Exactness of sqrt(v*v) and of the rounded reciprocal for every double is a statement over 2^64 values in every component position.", "anchors": ["include/g3func.hpp: magnitude, direction, magSq", "include/g3opsAdd.hpp"]}
{"id": "C53", "title": "Round trips of logG2 and sqrtG2 for every spinor, the real axis included", "statement": "In IEEE binary64 with a mathematical library of relative accuracy e: for every valid spinor of the central range with magnitude at least 2^-51, whichever branch logG2 takes, exp(logG2(S, D)) has finite components within |S|*((1.01*|log|S|| + 9)*e + 380u + 2^-24) of those of S. For every valid spinor of the central range either sqrtG2(S, D) is zero and |S| <= 2^-49, or the exact square of its components is within |S|*((9*|log|S|| + 81)*e + 3500u + 2^-24) of S. If the scalar part outweighs the bivector part by 2^30, logG2 returns exactly log(w) without bivector part for w > 0, and log(-w) with half a turn in the plane of D for w < 0; so the bivector part is lost in the round trip there.", "quantifier": "all valid finite spinors in the central range, all fair planes D, all libraries of the given accuracy", "why_tests_cant": "The branch taken depends on a rounded cosine within an ulp of one; a bound that holds on both sides of the guard for all doubles cannot be sampled.", "anchors": ["include/g3func.hpp: logG2, sqrtG2, exp(Spinor), direction"]}
{"id": "C54", "title": "A change of units by a power of two changes no significand", "statement": "In IEEE binary64, if the variables of an expression (products, sums, differences, negation, the three involutions and the dual, of any nesting) are replaced by 2^(d i) times themselves, the value is multiplied by exactly the power of two that dimensional analysis predicts, component for component and including the signs of zeros, as long as every subexpression has a dimension, nothing drops below the subnormal grid in either unit, and both results are finite. For components between 2^-300 and 2^300 or zero and |k| <= 150: product, sum and difference of all type pairs scale exactly, magnitude(2^k x) == 2^k*magnitude(x) and direction(2^k x) == direction(x) bit for bit. For |k| <= 100: inverse(2^k x) == 2^-k*inverse(x) for blades, and nearlyEquals(2^k x, 2^k y, tol) == nearlyEquals(x, y, tol) for every tolerance, provided no grade of the reference is zero. Against a zero reference grade the verdict does depend on the unit.", "quantifier": "all types and type pairs, all expressions, all finite objects in the stated range, all tolerances, all exponents in the stated range", "why_tests_cant": "Invariance of every rounding under scaling, for arbitrarily nested expressions and all component values, cannot be sampled.", "anchors": ["include/g3opsMul.hpp", "include/g3opsAdd.hpp", "include/g3opsUni.hpp", "include/g3func.hpp: magnitude, direction, inverse", "include/g3compare.hpp: nearlyEquals"]}
{"id": "C55", "title": "Types are exact: grades of values, of products, of sums, and the blade trait", "statement": "Each library type holds exactly the multivectors whose components lie in its grades. The declared type of a product a*b, for all 100 pairs, is the smallest possible: a component belongs to it iff it is nonzero for some operands. For any two library types a+b, and likewise a-b, is declared exactly when some library type has the union of the two sets of grades, and the result then has exactly those grades; a plain double adds only to a double. The dual of a type has exactly the complementary grades. is::blade<T> is true of a library type iff every value of T is a blade (a product of mutually orthogonal vectors): every BiVector in 3D factors into two orthogonal vectors, while each composite type holds values of mixed grade; is::blade<double> is false although every number is a blade of grade 0. The named tests is::Scalar ... is::MultiVector are true of T exactly when T is a library type with the same values as the type named; of each library type exactly one is true, of double none. The product types are those of the table in math/MulTable.lyx, do not depend on the order of the factors, and the types closed under multiplication are exactly the ones marked there.", "quantifier": "all types and pairs of types, all values over the real numbers", "why_tests_cant": "That no product of two types ever has a component outside the declared type, and that every bivector factors into orthogonal vectors, ranges over all values; that no missing overload could have been typed ranges over all types.", "anchors": ["include/g3type.hpp", "include/g3traits.hpp: is::blade", "include/g3opsMul.hpp", "include/g3opsAdd.hpp", "include/g3opsSub.hpp", "include/g3opsUni.hpp: dual", "math/MulTable.lyx"]}
{"id": "C56", "title": "inverse<ComPlex> and inverse<MultiVector> in binary64", "statement": "With a complex library (operator*, 1/z and std::abs of std::complex<double>) of relative accuracy eps: for finite z with 2^-400 <= |z| <= 2^400, inverse<ComPlex>(z) is finite and within 4 eps of 1/z relative to |1/z|. For a finite multivector M with 2^-100 <= |M| <= 2^100 that has an exact inverse B with condition number k = |M||B| <= 2^45, inverse<MultiVector>(M) is finite and its distance from B is at most (5 eps + 53*2^-53*k)|B|; in both orders every component of the computed product of M and inverse(M) is within (5 eps + 90*2^-53*k)k of that of one. The bound on the condition number is needed: for (2^27+1) + 2^27 e1 + 2^14 e2, whose exact inverse exists and whose condition number is below 2^56, the computed amplitude cancels to zero and every component of the result is NaN.", "quantifier": "all finite complex and multivector values in the stated ranges, all complex libraries of the stated accuracy", "why_tests_cant": "An error bound over a continuum of inputs and over every library within the stated accuracy; testing samples finitely many inputs on one library.", "anchors": ["include/g3func.hpp: inverse", "include/g3func.hpp: ampSq", "include/g3_private.hpp"]}
{"id": "C57", "title": "Results do not depend, beyond rounding, on contraction to fused multiply-add", "statement": "A C++ compiler may evaluate a*b+c with a single rounding, anywhere in the inlined arithmetic of an expression (GCC does so by default). For every expression over the operators *, +, -, reverse, oddverse, dirverse, dual and typed finite operands, and for every choice of such contractions: if the a-priori bound does not overflow, every component of the result is finite and within that bound (C44's, plus an underflow term per sum) of the exact value, so two builds differ by at most twice the bound; on integers that fit in 53 bits in each subexpression every evaluation is exact; a single product of any of the 100 operand type pairs keeps the error bound of C33; magSq of every type keeps relative error 9*2^-53 and is never negative or NaN. Identities that hold bit for bit without contraction may be lost: for v = (2^27+1, 2^27+1, 0) the product v*v has a zero bivector part without contraction and may have the bivector part e12 with it.", "quantifier": "all expressions, all operand types and finite values in the stated ranges, all choices of contraction", "why_tests_cant": "The result depends on the compiler's choices, which differ with target, flags and inlining; a test binary shows one of them on finitely many inputs.", "anchors": ["include/g3opsMul.hpp", "include/g3opsAdd.hpp", "include/g3func.hpp: magSq", "CMakeLists.txt: compiler options"]}
{"id": "C58", "title": "The rigid body transformation of the README is a rotation, up to a stated rounding error", "statement": "For an attitude S = exp(.5*A1) * ... * exp(.5*An) built from any non-empty sequence of angle bivectors whose lengths are bounded by Theta, and a math library whose sin, cos have relative error eps: S*v*reverse(S) computed in double has finite components and its vector part differs from the exactly composed rotations (Rodrigues' formula, An applied first) of v by at most r*|v| + 2^-1055, where r = n*(5*eps + (160+13*Theta)*2^-53), for every finite vector v up to length 2^1000; the trivector part, which is zero in exact arithmetic and which has to be dropped by taking .theVec (the README initialises a Vector with the ImSpin, which does not compile), is below the same bound. The same holds for a moment (a bivector), and for S*(p-q)*reverse(S) with |p-q| in place of |v|, so distances between transformed points differ from the original distances by at most r times their distances from q. The 3D angle 2*logG2(S).theBiv of a valid S away from the poles and the negative axis names the same rotation within (2*r + 24*eps + 1400*2^-53)*|v|.", "quantifier": "all sequences of angle bivectors (each component zero or of magnitude 2^-399..2^501) with n*(5*eps+(160+13*Theta)*2^-53) <= 1/128, all finite vectors, bivectors and positions in the stated ranges, all math libraries within the assumed accuracy", "why_tests_cant": "A test evaluates a handful of attitudes; the bound grows with the number of factors and the angle, and must hold for every attitude and every position.", "anchors": ["README.md: Transform positions, forces, and moments between coordinate frames", "include/g3func.hpp: exp, logG2", "include/g3opsMul_Spinor.hpp, include/g3opsMul_ImSpin.hpp: operator*", "include/g3opsUni.hpp: reverse"]}
{"id": "C59", "title": "sqrtG2(b*a) is the rotor that turns a into the direction of b", "statement": "For vectors a and b whose product b*a is a valid spinor of length at least 4 epsilon and off the real axis, R = sqrtG2(b*a) satisfies R*a*reverse(R) = |a|^2 b with zero trivector part, in exact arithmetic. In double, for finite a, b of length at most 2^200 with |a||b| >= 2^-48 and a math library of relative error eps <= 2^-20, all components are finite, and the vector part differs from |a|^2 b, and the trivector part from zero, by at most ((5*|log(|a||b|)|+50)*eps + (1700+40/k)*2^-53) * |a|^2 |b|, where k >= 2^-23 is any lower bound of the cosine of half the angle between a and b.", "quantifier": "all pairs of vectors in the stated ranges, at every angle except within about 2^-24 of parallel or antiparallel, all math libraries within the assumed accuracy, every second argument of sqrtG2", "why_tests_cant": "The test squares the root of one product of vectors. It never applies the root as a rotor, and the error grows without bound as the vectors become opposite, which no sample of angles shows.", "anchors": ["include/g3func.hpp: sqrtG2, logG2, exp", "include/g3opsMul_Spinor.hpp, include/g3opsMul_ImSpin.hpp: operator*", "include/g3opsUni.hpp: reverse", "test/test_g3func_G2.cpp: a general case"]}
{"id": "C60", "title": "nearlyEquals agrees with ==, with promotion, and accepts the identities users check with it", "statement": "nearlyEquals gives the same answer for arguments that == takes as equal, and for both arguments promoted to MultiVector. It accepts a pair that == takes as equal, for valid data and tol > 0. It accepts any pair whose components agree to a relative error kappa if tol >= kappa + 4*2^-53. So it accepts magnitude(x)*direction(x) as x for tol >= 2^-50, magnitude(direction(x)) as 1 for tol >= 2^-48, inverse(inverse(x)) as x for a blade and tol >= 2^-47, and a value written with d decimals and read back for tol >= 10^-d + 4*2^-53.", "quantifier": "all ten types, all data for the first two parts (promotion: every type but double); components zero or of magnitude 2^-400 to 2^400 for the relative error, the polar form and the text; 2^-100 to 2^100 for the double inverse; all finite tolerances from the stated bound", "why_tests_cant": "The tests call nearlyEquals on a few values with the default tolerance of 2^-52. Whether a check passes depends on how the rounding of the operation, of the differences and sums and of the norms add up, for every value.", "anchors": ["include/g3compare.hpp: nearlyEquals", "include/g3compare.hpp: nearlyEqualsAbs, nearlyEqualsRel", "include/g3func.hpp: magnitude, direction, inverse", "include/g3io.hpp: enote, operator>>"]}
{"id": "C61", "title": "amplitude in binary64: a square root of x * dirverse(x), the principal one off the branch cut", "statement": "For every type T and every finite x of type T whose length is between 2^-500 and 2^499, amplitude(x) is finite and amplitude(x) * amplitude(x), worked out exactly, is x * dirverse(x) up to (3 eps + 20 * 2^-53) len(x)^2, where eps is the accuracy of std::sqrt(std::complex<double>). amplitude(x) is near one of the two square roots of x * dirverse(x), with relative error eps + 20 kappa 2^-53 where kappa = len(x)^2 / len(x * dirverse(x)). It is near the principal root unless x * dirverse(x) is within 19 * 2^-53 len(x)^2 of the negative real axis. For scalars, bivectors and spinors it is exactly magnitude(x), for vectors, trivectors and imaginary spinors exactly magnitude(x) times e123.", "quantifier": "every type, every finite operand of moderate length, every complex square root accurate to eps", "why_tests_cant": "The error depends on the cancellation in x * dirverse(x), and the choice of the root on the sign of a rounding error; a test sees a few operands away from both.", "anchors": ["include/g3func.hpp: ampSq", "include/g3func.hpp: amplitude", "include/g3type.hpp: ComPlex::from"]}
{"id": "C62", "title": "amplitude of one element stored in different types", "statement": "amplitude(x) depends on the element x only, not on the type that stores it: for x of any type T, amplitude(x) and amplitude(MultiVector(x)) agree up to rounding.", "quantifier": "every type, every finite operand of moderate length", "why_tests_cant": "The overloads of ampSq compute the same element by different operations; whether the results lie on the same side of the branch cut depends on the sign of a zero, which only shows at operands on the cut.", "anchors": ["include/g3func.hpp: ampSq(DirPlex)", "include/g3func.hpp: ampSq(MultiVector)", "include/g3func.hpp: amplitude"]}
{"id": "C63", "title": "exp(MultiVector) in binary64", "statement": "For a multivector A = s + v + B + t with finite components, vector and bivector components at most 2^500 in size, e^s and e^t between 2^-500 and 2^500, and the first component of every grade valid, exp(A) is finite and each of its eight components is within e^s cosh t (3.3 eps + (12 + 19 (|v| + |B|)) 2^-53) of the exponential series of A in the algebra whose unit vectors square to -1, where eps is the accuracy of std::sin, std::cos and std::exp. When A has scalar and bivector parts only, that series is the series of the library's own algebra, exp(A) agrees, in the range of C46, with exp(Spinor) up to the sum of the two bounds, and its vector and trivector parts are zeros. When A is a vector v, the scalar part is wrong by at least |v|^2/2 less the rounding.", "quantifier": "every multivector in the stated range, including the arguments for which the code replaces sin(x)/x by a polynomial, every library with the stated accuracy", "why_tests_cant": "Eight components, two exponentials, two lengths and a branch at 1e-4 with a division by a computed length on one side of it: the error near the branch, at lengths near zero and at cancelling terms cannot be sampled.", "anchors": ["include/g3func.hpp: exp(MultiVector)", "include/g3func.hpp: priv::sync", "include/g3func.hpp: exp(Spinor)"]}
{"id": "C64", "title": "sq and cube", "statement": "sq compiles exactly for the types which are closed under products, cube exactly for those closed under products of three, although the cube of a value of any type is again of that type. Where they compile, they are x*x and x*x*x in the algebra; magnitudes are squared and cubed except for MultiVector, where the magnitude of the square is at most sqrt 2 times the square of the magnitude. Turning with sq(S) is turning twice with S. sq(exp(S)) = exp(2S) and cube(exp(S)) = exp(3S). Every Spinor and every ComPlex is a square and a cube; a MultiVector is a square, and is a cube, if and only if it is zero or its square is not zero. In binary64 sq(-x) and sq(x) are the same bits and cube(-x) is -cube(x) up to the signs of zeros.", "quantifier": "all ten argument types and all values", "why_tests_cant": "Existence and non existence of roots, closure of a type and the bound on the magnitude are claims about all values; a test shows the square of a sample.", "anchors": ["include/g3func.hpp: sq", "include/g3func.hpp: cube", "README.md: Convenience functions"]}
{"id": "C65", "title": "Equations are solved by multiplying with inverse, exactly over the reals and to within 41 roundings in binary64", "statement": "There is no division operator; the header's recipe for solving an equation is to multiply by inverse on the appropriate side. For a non-zero blade a (Scalar, Vector, BiVector, TriVector), a ComPlex or a MultiVector above the guard of inverse, and a right-hand side b of any of the ten types, inverse(a)*b solves a*x = b, b*inverse(a) solves x*a = b, and each equation has no other solution of any type. In binary64, for a blade with components up to 2^500 and one of at least 2^-500, and b of length between 2^-400 and 2^400, both quotients are finite, leave a residual of at most 41 units roundoff of |b|, are within 41 units roundoff of the exact solution relative to its length, and putting the quotient back with the library's own product returns b to within 69 units roundoff. For a MultiVector of condition number k up to 2^45 the quotient is within 5 eps + 90 u k of the exact solution relative to |inverse| |b|. The header's example 10x+5=7 yields the double nearest to 1/5 and satisfies the equation exactly; its other example, Scalar{7}*(Scalar{3}+Scalar{5}) == Scalar{21}, is wrong: the product is 56.", "quantifier": "All coefficient types with an inverse, all right-hand side types, all values in the stated range; for uniqueness, all multivectors x.", "why_tests_cant": "A test solves a few equations; that the result is the only solution, and the size of the residual for every coefficient and right-hand side, is a statement about all of them.", "anchors": ["include/g3func.hpp: inverse, inverse<ComPlex>, inverse<MultiVector>", "include/g3opsMul.hpp: operator*", "include/g3type.hpp: Scalar documentation (lines 146-151)"]}
{"id": "C66", "title": "Products and inverses compute the projections, reflections, angles, areas and volumes of Euclidean space, and spinors are exactly its rotations", "statement": "Reading a Vector as a point of Euclidean 3-space and a BiVector as the plane with the dual vector as normal: the scalar and bivector parts of v*a times inverse(a) are the orthogonal projection of v onto the line of a and what is left of v; the vector and trivector parts of v*B times inverse(B) are the projection onto the plane of B and onto its normal; -a*v*inverse(a) and -B*v*inverse(B) are the mirror images of v in the plane orthogonal to a and in the plane of B, a*v*inverse(a) is the half turn about a. The scalar part of a*b is |a||b|cos of the angle between them and its bivector part has magnitude |a||b|sin; a and b are orthogonal exactly when they anticommute and parallel exactly when they commute; x lies in the plane of a and b exactly when x times the bivector part of a*b has no trivector part; the trivector part of a*b*c is the signed volume of the parallelepiped. Every isometry fixing the origin is a product of at most three mirror images; the maps v -> S*v*reverse(S) with |S| = 1 are exactly the rotations, and S is determined up to sign. The header's a*x + S = R has a vector solution exactly when inverse(a)*(R-S) has no trivector part, and then it is its vector part. In binary64 each of the six projections and mirror images is finite and within 67 units roundoff of |v| of the true one.", "quantifier": "All vectors and planes (non-zero where inverted), all isometries of Euclidean 3-space, all unit spinors; in binary64 all mirrors with components up to 2^500 and one of at least 2^-500, and all v with length between 2^-400 and 2^400.", "why_tests_cant": "Tests project and rotate a few vectors. That every isometry of space is reached, that nothing else is, that the spinor is unique up to sign, and the error bound for every mirror, are statements about infinitely many inputs.", "anchors": ["include/g3opsMul_Vector.hpp, include/g3opsMul_BiVector.hpp, include/g3opsMul_Spinor.hpp, include/g3opsMul_ImSpin.hpp: operator*", "include/g3func.hpp: inverse, reverse, magnitude, magSq", "include/g3type.hpp: Vector documentation (lines 204-236), BiVector, TriVector"]}
{"id": "C67", "title": "An attitude that is renormalised with direction after every update stays a unit spinor for ever, and its error grows only linearly", "statement": "Start from any finite spinor S and repeat S = direction(R*S) or S = direction(S*R), with other spinors R of length between 2^-240 and 2^240, any number of times in binary64. After every turn S is finite and its length is one to ten units roundoff, no matter how many turns. Its distance from the loop run without rounding grows by at most 75 units roundoff each turn. At every moment S*v*reverse(S) turns all vectors v by one and the same exact rotation up to 75 units roundoff. With R = exp(.5*A) the loop integrates angular increments: it stays a unit spinor for any number of increments, and turns every vector as the exact composition of the rotations does, with an error linear in the number of increments. Without direction the length is not kept: a factor too long by 40 units roundoff drives it beyond 2^240.", "quantifier": "All finite start spinors and factors of length between 2^-240 and 2^240, lists of any length with left and right factors in any order, all increments A of length up to 2^40 whose components are zero or at least 2^-399 in magnitude, all finite vectors with length up to 2^1000; any mathematical library accurate to a given epsilon.", "why_tests_cant": "A test runs the loop for a number of turns with a few factors. That the length is kept for every number of turns and every sequence of factors is an invariant of an unbounded loop.", "anchors": ["include/g3func.hpp: direction, magnitude, exp, reverse", "include/g3opsMul_Spinor.hpp: operator*", "include/g3opsMul_ImSpin.hpp: operator*"]}
{"id": "C68", "title": "The linear equation A*X + X*B = C is solved with sq, dirverse and inverse, and uniquely solvable exactly when its coefficient has an amplitude", "statement": "For multivectors A, B and C let M = sq(A) + A*(B + dirverse(B)) + B*dirverse(B). When M passes the guard of inverse, inverse(M)*(A*C + C*dirverse(B)) solves A*X + X*B = C, and no other multivector does (exact arithmetic). The equation has exactly one solution for every C if and only if the amplitude of M is not zero. For vectors a and b this means that they differ in length, and with the same factor A on both sides that A has an amplitude and a scalar or trivector part. When M does not pass the guard every component of the formula's value is NaN. (The README lists solutionOfLinear() for this equation; the function does not exist.)", "quantifier": "All real multivectors A, B and C.", "why_tests_cant": "Existence and uniqueness for all triples of multivectors, and the converse, that a singular coefficient always leaves some right-hand side without a unique solution.", "anchors": ["README.md: solutionOfLinear", "include/g3func.hpp: sq, inverse, ampSq", "include/g3opsUni.hpp: dirverse", "include/g3opsMul_MultiVector.hpp: operator*"]}
{"id": "C69", "title": "ComPlex arithmetic is std::complex<double> arithmetic bit for bit on all finite values, and where it differs", "statement": "In binary64 the cast to std::complex<double> turns the sums, differences, negation and reverse of ComPlex into those of std::complex (conj for reverse), and magSq into std::norm, for all data. Products of finite values are bit for bit those of std::complex (ISO C Annex G), also when they overflow: the two parts are never both NaN, so the recovery step of Annex G is never reached. It is reached for infinite values: one times (inf, inf) is (inf, inf) for std::complex and has two NaN parts for ComPlex. magnitude is not std::abs: for parts of 2^512 or more magnitude is infinite while std::abs is accurate.", "quantifier": "All pairs of ComPlex values, NaN and infinities included where stated; for std::abs any library accurate to epsilon.", "why_tests_cant": "Bit equality of two algorithms for all pairs of doubles, including all that overflow.", "anchors": ["README.md: ComPlex", "include/g3type.hpp: ComPlex", "include/g3opsMul_ComPlex.hpp: operator*", "include/g3func.hpp: magSq, magnitude"]}
{"id": "C70", "title": "A text of objects cut short at any character: what a reading loop recovers, and the one object it can get wrong", "statement": "A program writes any number of objects of one type with io::enote (16 or more decimals, white space after each) and stops after any character. A program that then reads with while (istrm >> x) always ends; it gets every complete record unchanged and at most one more object, all of whose components except the last are those written. That last component can be wrong without any failure being reported: the scalar 10 cut by one character reads as the valid scalar 1. A loop that in addition drops an object that ends with the text (while ((istrm >> x) && ! istrm.eof())) returns only objects that were written, unchanged and in order, and all whose record is complete.", "quantifier": "All lists of objects with valid components of each of the eight types with an enote (double included), all precisions from 16 up, all separators of white space, all cut positions.", "why_tests_cant": "Every crash point of every text: the position of the cut, the number of objects and the components are unbounded.", "anchors": ["include/g3io.hpp: enote, operator>>", "include/g3validity.hpp: isValid"]}
{"id": "C71", "title": "Output to a device that fills up: a prefix of the text, reported exactly when something is lost", "statement": "Any number of objects inserted with operator<< (any formatting state), or written with io::enote, into a stream whose device accepts only some number of characters: the device holds exactly that many leading characters of the text an unlimited device receives; the stream reports failure if and only if a character was lost; as long as it does not, stream and text are those of an unlimited device; after a failure nothing more is written. A reader using the guarded loop of C70 on the device afterwards gets an initial part of the objects unchanged, including every record that fits, and all of them if the writer's stream is still good.", "quantifier": "All lists of objects of all types (of one type with valid components for the reader), all stream states, all device capacities.", "why_tests_cant": "The capacity is a crash point that can fall at any character of an unbounded text, within an object, a separator or a number.", "anchors": ["include/g3io.hpp: operator<<, put, enote, operator>>"]}
{"id": "C72", "title": "Extraction from a stream told to throw: when it throws, and what the object then holds", "statement": "Extraction of any object from a stream with any combination of exceptions(eofbit | failbit) throws if and only if the extraction without exceptions ends in a state with one of these bits; if it does not throw, stream and object are those of the extraction without exceptions. When it throws, the blades before the one being read are as read, the blade being read holds the numbers read so far, the value stored by the failing conversion and then its old components, and the later blades keep their old values: nothing is set to null. So a caller that catches the exception can hold an object that is valid and a mixture of text and old values (4 x into a valid vector gives (4, 0, old), null without exceptions); and with eofbit an object at the very end of the text is read completely and still throws.", "quantifier": "All types, all stream states and texts, all previous contents, all exception masks.", "why_tests_cant": "The position of the failure, the text and the old contents are arbitrary; each combination leaves a different mixture.", "anchors": ["include/g3io.hpp: operator>>, isInputOkay", "include/g3validity.hpp: isValid"]}
{"id": "C73", "title": "Reading loops on any text: they end, a shorter file gives an initial part, files can be joined", "statement": "For every text, whatever wrote it: an extraction that does not reach the end of the text gives the same object, the same success or failure and the same remaining text however the text goes on; a successful extraction consumes at least one character, so the loops while (istrm >> x) and while ((istrm >> x) && ! istrm.eof()) always end, with at most as many objects as characters; the guarded loop on the beginning of a text returns an initial part of what it returns on the whole, the plain loop likewise except for its last object; on a text that ends with white space the two loops agree; two texts that consist of objects only can be joined and give the objects of the first and then those of the second; the records of io::enote are such texts.", "quantifier": "All types, all texts, all stream states, all previous contents; all cut positions and continuations.", "why_tests_cant": "The text and the place where it stops or is joined are arbitrary; a loop that does not end cannot be told from a slow one by testing.", "anchors": ["include/g3io.hpp: operator>>, isInputOkay, enote"]}
{"id": "C74", "title": "Azimuth, elevation and roll: every attitude, uniquely away from gimbal lock", "statement": "exp(.5*angRoll) * exp(.5*angElev) * exp(.5*angAzim), the README's way to state an attitude, reaches every unit spinor with an azimuth in (-2 pi, 2 pi], an elevation in [-pi/2, pi/2] and a roll in (-2 pi, 2 pi), and every rotation with azimuth and roll in (-pi, pi]. With the elevation strictly inside its interval two different triples of angles never give the same rotation, and the angles come back from the four components by arcsin and two arguments. Straight up only the sum of azimuth and roll matters, up to full turns; straight down only their difference.", "quantifier": "All unit spinors; all azimuth, elevation and roll angles in the stated intervals (zero or with half in the range of normal doubles).", "why_tests_cant": "Existence and uniqueness of angles range over a continuum of attitudes, and the exceptional ones (gimbal lock) form a set of measure zero.", "anchors": ["README.md: Transform positions, forces, and moments", "include/g3func.hpp: exp", "include/g3opsMul_Spinor.hpp: operator*"]}
{"id": "C75", "title": "Interpolation between attitudes: exp(t * logG2(T * reverse(S))) * S is spherical linear interpolation", "statement": "For two unit spinors S and T that logG2 can tell apart, exp(t * logG2(T * reverse(S))) * S equals (sin((1-t) a) S + sin(t a) T) / sin(a) with a the angle between S and T. It is S at t = 0 and T at t = 1, always a unit spinor, moves evenly (the angle between two intermediate attitudes is proportional to the difference of the parameters, and a further step is one more factor exp(u * logG2(...))), n equal steps lead exactly from S to T, the way back is the same way, half way is the normalised sum, the result does not depend on the frame on either side, and interpolating between two intermediate attitudes stays on the same path.", "quantifier": "All unit spinors S, T with |S . T| <= 1 - epsilon whose relative attitude is in the range of normal doubles; all t that are zero or of magnitude between 2^-60 and 2^60; all step counts up to 2^60; all frames.", "why_tests_cant": "The claims relate every parameter value and every pair of attitudes; evenness and frame independence are identities over a continuum.", "anchors": ["admin/exampIdeas.txt: Rotation Interpolation", "include/g3func.hpp: exp, logG2", "include/g3opsUni.hpp: reverse", "include/g3opsMul_Spinor.hpp: operator*"]}
{"id": "C76", "title": "Intersections: line with plane, two lines in space, three planes, coordinates, sphere through four points", "statement": "Written with the products and inverse of the library: -((p-q)*B).theTri * inverse((d*B).theTri) is the parameter of the one point where a line meets a plane; for two lines that are not parallel, with w = q-p and B = (d*e).theBiv, the scalar parts of (w*e).theBiv * inverse(B) and (w*d).theBiv * inverse(B) are the parameters of the two points nearest to each other, and of no others, (w*B).theTri * inverse(B) is the vector between them, and the lines meet exactly when (w*B).theTri is zero; three vectors are independent exactly when (a*b*c).theTri is not zero, and ratios of such trivectors are then the coordinates of any vector with respect to them; the point common to three planes and the centre of the sphere through four points are a sum of bivectors times inverse of a trivector, and are the only ones.", "quantifier": "All points, directions and normals of Euclidean 3-space for which the figure is not degenerate (line not parallel to the plane, lines not parallel, vectors independent).", "why_tests_cant": "Uniqueness and minimality compare the result with every other point of the lines or planes.", "anchors": ["admin/exampIdeas.txt: Survey, space intersection computation", "include/g3func.hpp: inverse, magSq", "include/g3opsMul_Vector.hpp: operator*", "include/g3opsMul_BiVector.hpp: operator*", "include/g3opsMul_TriVector.hpp: operator*"]}
{"id": "C77", "title": "Real powers of a spinor in double precision", "statement": "exp(t * logG2(S)) is the power S^t: over the reals the magnitude to the power t, the angle times t, in the same plane; this power is S for t = 1, one for t = 0, powers multiply by adding exponents, the power -t is the inverse, and the power 1/n is an n-th root. In binary64, for 2^-13 <= |t| <= 1, every component of the computed value is finite and within r^t ((1.1 |t log r| + 9) eps + (1.1 |t log r| + 390) u) of the exact power, where r is the magnitude of S, u = 2^-53 and eps is the relative accuracy of the C library's functions.", "quantifier": "All valid spinors of doubles in the central range and not within 2^-49 of a real number, whose first bivector component is zero or not below 2^-300 of the bivector's length; all exponents with 2^-13 <= |t| <= 1; all math libraries of accuracy eps <= 2^-20.", "why_tests_cant": "The bound covers every spinor, exponent and library; tests see a few roots.", "anchors": ["include/g3func.hpp: logG2, exp, sqrtG2"]}
{"id": "C78", "title": "Interpolation between attitudes in double precision", "statement": "exp(t * logG2(T * reverse(S))) * S computed in binary64, where S and T are within delta of exact unit spinors X and Y at most a right angle apart and 0 < t <= 1: the result is finite and within 4 delta + 22 eps + 1000 u of the textbook spherical linear interpolation of X and Y by t. So the interpolation does not magnify the errors of the attitudes.", "quantifier": "All finite spinors of doubles within delta <= 1/1000 of unit spinors; all fractions 2^-13 <= t <= 1; all math libraries of accuracy eps <= 2^-20. Conditions of logG2 on the relative spinor: valid, not within 2^-49 of a real number; a second theorem has conditions on the exact attitudes only.", "why_tests_cant": "It compares with the exact interpolation for all attitudes, fractions and libraries.", "anchors": ["include/g3func.hpp: logG2, exp, reverse", "include/g3opsMul_Spinor.hpp: operator*", "admin/exampIdeas.txt"]}
{"id": "C79", "title": "The angle between two directions", "statement": "For two vectors a and b, magnitude(logG2(b*a).theBiv) is the angle between them (in radians, between 0 and pi, acute or obtuse, whatever the lengths), and logG2(b*a).theSca is the logarithm of the product of their lengths. In binary64 the angle returned is finite and differs from the true angle between the two stored vectors by at most (1.2 e + 71 u) times the angle plus 44 u, where e is the relative accuracy of the library's log and atan2 and u = 2^-53.", "quantifier": "exact: all pairs of vectors whose product is valid, longer than the library's tolerance and not within it of a real number; binary64: all pairs of finite vectors with product of lengths between 2^-48 and 2^400, whose computed product is valid and not within 2^-49 of a real number", "why_tests_cant": "Tests measure a few angles; the bound covers every pair of doubles-valued vectors, including nearly parallel and nearly opposite ones, where an arccos of the scalar product would lose half the digits.", "anchors": ["include/g3func.hpp: logG2, magnitude", "include/g3opsMul.hpp: Vector * Vector"]}
{"id": "C80", "title": "The polar form of a multivector", "statement": "For every struct type and every element x whose x*dirverse(x) is not zero: with a = amplitude(x) and U = inverse(a)*x, a*U = x and U*dirverse(U) = dirverse(U)*U = 1, and no other pair (complex a, U with U*dirverse(U) = 1) has product x, apart from (-a, -U). In binary64, a and U are finite, a*U worked out exactly is x to within (4 e + 29 u) |x|, and U*dirverse(U) is 1 to within (30 e + 210 u) k, where k = |x|^2 / |x*dirverse(x)|, e is the relative accuracy of std::complex arithmetic and std::sqrt, and u = 2^-53.", "quantifier": "all nine struct types and all their elements with x*dirverse(x) above DBL_MIN in size (exact); all elements with finite components, length between 2^-100 and 2^100 and (3 e + 20 u) k at most 1/2 (binary64)", "why_tests_cant": "The claim is for every multivector, and includes a uniqueness statement; tests factor a few.", "anchors": ["math/PolarForm.lyx", "include/g3func.hpp: amplitude, inverse(ComPlex)", "include/g3opsMul_ComPlex.hpp: ComPlex * every type"]}
{"id": "C81", "title": "Attitude from angular rates: the loop S = direction(S * exp(.5*B))", "statement": "Let a body turn with a time-dependent angular rate w(t). The loop S = direction(S * exp(.5*B)), with an angle B within eta*h of -h*w(xi) for each step of length h, yields an attitude such that S*v*reverse(S) takes the coordinates, in the body at the end, of any direction fixed in space to its coordinates in the body at the beginning. The error is at most (L*H/2 + eta)*T times the length for rates with Lipschitz constant L sampled anywhere in each step of length at most H, and of the second order in H for rates taken in the middle of each step; in double precision the rounding error added grows only linearly with the number of steps. A constant rate is integrated exactly, whatever the steps.", "quantifier": "all rate functions that are Lipschitz (differentiable with Lipschitz derivative for the second order), all lists of steps of any lengths and number, all angles within the stated sensor error, all directions, all math libraries of accuracy epsilon", "why_tests_cant": "It is about all functions of time and all numbers of steps; a test integrates one motion.", "anchors": ["include/g3func.hpp: exp, direction", "include/g3opsMul_Spinor.hpp: operator*", "include/g3opsUni.hpp: reverse", "admin/exampIdeas.txt: Kinematics, integration of rotation sensors"]}
{"id": "C82", "title": "Reading objects from a device that breaks part-way", "statement": "If the input device delivers some characters and then reports an error, while(istrm >> x) collects an initial part of the objects it would have collected from the complete text, whatever that text would have been: no wrong object is ever collected (unlike a text that merely ends early). An object whose extraction needed more characters than were delivered has all its components from some blade on equal to NaN, its earlier blades are the true ones, isValid is false and badbit is set; further extractions change nothing but make everything NaN. For records written with io::enote every record delivered whole is collected.", "quantifier": "all object types, all delivered texts, all continuations the device did not deliver, all lists of objects and cut points for the records", "why_tests_cant": "It ranges over all texts and all points at which the device breaks.", "anchors": ["include/g3io.hpp: operator>> (array and all types), priv::isInputOkay, enote"]}
{"id": "C83", "title": "Text in locales with another decimal point", "statement": "If the decimal point of the global locale is the character p (not a digit, white space, sign or e/E), io::enote and io::fixed give the text of the \"C\" locale with each point replaced by p, and so does operator<< of every library type, whatever locale the destination stream is imbued with. Text written under p is read back exactly under p by operator>> (from io::enote with at least 16 decimals; within 1e-6 from operator<<). Read by a stream with another decimal point, an object of more than one component is never accepted: the stream fails and isValid is false. But a Scalar, TriVector or double is accepted, without any failure, as plus or minus the first digit of its text; so every value other than -9 .. 9 is silently replaced by another, valid, one.", "quantifier": "all decimal points of writer and reader, all object types, all valid components, all formats, all stream states for operator<<", "why_tests_cant": "It ranges over all locales' decimal points, all values and all numbers of decimals.", "anchors": ["include/g3io.hpp: put, priv::fixed, priv::enote, fixed, enote, operator<<, operator>>"]}
{"id": "C84", "title": "Any rounding mode, any contraction, any excess precision", "statement": "In a program that changes the rounding mode with std::fesetround, or is compiled for a target that keeps intermediate results in a wider format, or contracts expressions, in any combination, and without overflow: each component of any expression of the operators, reverse, oddverse, dirverse, dual and unary minus is within an explicit bound of its exact value (for one product: 9 * 2^-52 times the product of the absolute values, plus 2^-1058); two builds or modes differ by at most twice this; integer data whose absolute evaluation stays within 2^53 give the exact result; magSq has relative error at most 9 * 2^-52 (plus 2^-1058) and magnitude at most 7 * 2^-52 for norms from 2^-400; and magSq and magnitude computed with FE_DOWNWARD and with FE_UPWARD enclose the exact values.", "quantifier": "all expressions, all operand types and values, all rounding modes, contractions and precisions of each operation separately", "why_tests_cant": "It ranges over all expressions, values and all choices a compiler or a program may make about each single operation.", "anchors": ["include/g3opsAdd_*.hpp: operator+", "include/g3opsSub_*.hpp: operator-", "include/g3opsMul_*.hpp: operator*", "include/g3func.hpp: magSq, magnitude, reverse, oddverse, dirverse, dual"]}
{"id": "C85", "title": "The repository's own reference for exp(MultiVector)", "statement": "computeExp, the brute-force exponential the repository tests exp(MultiVector) against, in exact arithmetic returns for every multivector M whose first components are valid, after finitely many halvings and at most 17 rounds of its series loop, and its result is the sum of the exponential series of the library's algebra to within 18 * 2^-52 * max(1, 4|M|) * e^(sqrt(2)|M|). Measured with the repository's own check, the library's exp fails for every vector of length from 10^-4 to 4 (e1, e2, e3 among them) and for every trivector of that size (e123 and the documented exp(pi e123)). In binary64 computeExp returns for all finite components after at most 1027 halvings, returns the null multivector when any component is NaN, and never returns when a component that isValid does not look at is infinite and none is NaN.", "quantifier": "all multivectors with valid first components, in exact arithmetic; all multivectors of doubles", "why_tests_cant": "The tests that use the reference are commented out in main, and the claims range over all arguments, over convergence of a series for every argument, and over a loop that does not end.", "anchors": ["test/test_g3func_exp.cpp: computeExp, check, sSmallMag, test0, test1", "include/g3func.hpp: exp, magnitude", "include/g3validity.hpp: isValid", "include/g3compare.hpp: nearlyEquals"]}
{"id": "C86", "title": "The verdict of the repository's test programs, and what its inverse test does not see", "statement": "A test program built from checkGotExp returns 0 and writes nothing to std::cerr exactly when nearlyEquals(got, exp, tol) holds for every check of every test; otherwise it returns 1 and writes the file name and the reports of exactly the failed checks in order, each with the title and both values; the default tolerance is epsilon. A program that passes has compared valid data only, each with a positive tolerance. The report can show the same text for both values. checkInverse writes nothing exactly when fwd*inv is nearly one: the product inv*fwd, which it computes and prints, is never tested, and an inverse that is wrong from that side by more than 200000 times the repository's tolerance passes. With the library's inverse it is silent for every blade with components between 2^-200 and 2^200 (or zero) at tolerances from 2^-48 to 2^500, but at its default tolerance it reports the correct inverse of the Scalar 31.", "quantifier": "all numbers of tests and checks, all types, all values of all checks, all titles and tolerances; for the inverse test all values, all candidate inverses and tolerances, and for the silence all blades and tolerances of the ranges stated", "why_tests_cant": "It is about the tests themselves: which programs, values and errors they let pass, over all of them.", "anchors": ["test/checks.hpp: tst::CTest, tst::checkGotExp", "test/test_g3func_inv.cpp: checkInverse, main"]}
{"id": "C87", "title": "Text in locales with digit grouping: what is written, what is read back, and text of a locale with the points exchanged", "statement": "In a locale with a decimal point p, a separator s and groups of three digits: io::enote writes the same text as without grouping, and with 16 or more decimals it is read back to the same object; any text in which the separator does not occur is read as without grouping. io::fixed and operator<< write the digits before the point in groups of three from the right, in a field that is not made wider (so a negative number of four digits with digBefore = 4 exceeds the documented width), and the text is read back, whatever its size, to within 10^-6 (operator<<) or 10^-a (io::fixed with a decimals, up to 306). Groups of at most 127 digits (of a number that does not overflow) are accepted exactly if all but the first have three digits and the first at most three; longer ones as their sizes converted to char are, so that a group of 259 digits passes for one of three; a separator with no digit in front of it is not skipped. Text written by io::enote with at least one decimal where the point is w and read where the separator is w makes the stream fail and the object null, for every type and value, unless the number of decimals is three, or three more than a multiple of 256. With exactly three, for components of magnitude at most 2^1000, it is read without failure to a valid object each of whose components is a thousand times (between 999 and 1001 times) what was written.", "quantifier": "all points and separators that are no digit, sign, white space or e and differ; all types and objects with finite (valid) components; all numbers of decimals; all lists of groups", "why_tests_cant": "Tests run in the C locale with a few values; the claim is about every locale of the kind, every object and every format.", "anchors": ["include/g3io.hpp: put, fixed, enote, operator<<, operator>>"]}
{"id": "C88", "title": "Numbers of digits of any size: width and precision are converted to int", "statement": "For every two std::size_t numbers of digits b (before) and a (after the point), on a platform with 64 bit size_t and 32 bit int: io::fixed writes every component as a blank and the number with D(a) decimals right-aligned in a field of W(2+b+a) characters, and io::enote as the number in e-notation with D(a) decimals in a field of W(7+a), where D(n) is n modulo 2^32 if that is below 2^31 and else 6, and W(n) is n modulo 2^32 if that is below 2^31 and else 0; objects are laid out as for small numbers. So the texts are those documented exactly for the range 2+b+a < 2^31 (fixed) and 7+a < 2^31 (enote), which the defaults are in. Text of io::enote is read back to the same object for every valid object exactly if D(a) >= 16; whenever D(a) <= 15 (so for a = 2^32 or a = -1) the double next to 1 reads back as 1. Text of io::fixed is read back to within 10^-D(a).", "quantifier": "all pairs of 64 bit numbers of digits, all types and objects (for reading back: with valid or finite components)", "why_tests_cant": "Tests use a few small numbers of digits; the claim is about all 2^64 of them.", "anchors": ["include/g3io.hpp: priv::DoubleFormat::fieldWide, prepareFixed, prepareEnote, fixed, enote"]}
{"id": "C89", "title": "Floating-point exception flags", "statement": "On an IEEE-754 platform without contraction: (1) an expression of the operators +, -, *, reverse, oddverse, dirverse, dual on objects with finite components raises no floating-point exception (invalid, divide-by-zero, overflow) exactly if all components of its result are finite; (2) null data (NaN) pass silently: if the expression with zeros in place of the NaN components has a finite result no exception is raised, in particular if all other components are at most M and the bounds of all subexpressions are at most 2^1022; no NaN comes into being silently: if no operand component is NaN (infinite ones allowed) a component of the result is NaN exactly if computing it raised invalid; (3) pairMagDirFrom and direction never raise divide-by-zero, raise invalid exactly if some component is NaN or infinite (so also for null objects), and for finite objects overflow exactly if the magnitude is infinite; (4) inverse of a finite blade raises divide-by-zero exactly if every squared component is at most 2^-1075, and nothing exactly if the squared magnitude and the result are finite; (5) nearlyEquals of arrays raises nothing if a value is not valid, and for valid values never divide-by-zero, and invalid exactly if the tolerance is NaN or the sums of squares of the reference and of the differences both overflow. The numbers and answers are those of the model without flags.", "quantifier": "all expressions and types, all binary64 objects, arrays of any length, all tolerances", "why_tests_cant": "The flags depend on every intermediate result; a test observes them for a few inputs only.", "anchors": ["include/g3opsAdd.hpp, g3opsSub.hpp, g3opsMul.hpp, g3opsUni.hpp: operators", "include/g3func.hpp: magSq, pairMagDirFrom, direction, inverse", "include/g3compare.hpp: nearlyEquals(std::array)"]}
{"id": "C90", "title": "nearlyEquals can be turned round and chained at a stated price in the tolerance, and is transitive for no tolerance", "statement": "In binary64, for two objects of a library type with valid components of absolute value at most 2^500, each grade zero in both or of norm at least 2^-440 in both, and tolerances between 2^-60 and 2^500: (1) if nearlyEquals(x, y, tol) with tol <= 1/2 then nearlyEquals(y, x, tol') for every tol' >= tol/(1-tol) * (1 + 2^-47); (2) if nearlyEquals(x, y, s) and nearlyEquals(y, z, r) then nearlyEquals(x, z, tol) for every tol >= (s + r + s*r)*(1 + 2^-47); (3) in a chain of any number n of comparisons, each object accepted against the next with tolerance tol, the first is accepted against the last with any tolerance tol' with (1 + tol*(1 + 12*2^-53))^n - 1 <= tol'*(1 - 12*2^-53), so with any tol' >= 2*n*tol if n*tol <= 1/4; (4) corresponding bounds for doubles with |reference| >= 2^-970; (5) for no tolerance between 2^-52 (the default) and 1/8 is the comparison of Scalars transitive.", "quantifier": "all pairs, triples and chains of any length, all library types, all tolerances in the stated range", "why_tests_cant": "A chain can have any length; the price in the tolerance must hold for all data.", "anchors": ["include/g3compare.hpp: nearlyEquals, nearlyEqualsRel"]}
{"id": "C91", "title": "Results do not depend on the choice of axes, with stated exceptions", "statement": "For every change of orthonormal axes (proper or with opposite handedness): (1) any expression of +, -, *, unary minus, reverse, oddverse and dirverse (and dual, if handedness is kept) evaluated on the new components of its variables gives exactly the new components of its value, and compiles in the same cases; dual takes the sign of the handedness; (2) magSq and magnitude are unchanged; ampSq, direction and inverse (blades, ComPlex, MultiVector) follow the change, being null in the same cases; (3) exp of Spinor, BiVector and MultiVector and logG2 follow it when the components examined by the validity tests pass in both axes; amplitude is unchanged if handedness is kept; (4) nearlyEquals gives the same answer against references whose grades have norm at least 2^-1022. The exceptions are real: there is a bivector with null exp in one set of axes and not in another, a vector accepted against the zero vector in one set of axes only, and an amplitude which does not follow a mirror. In binary64: reversing the direction of any of the axes changes the value of no expression (with dual only if an even number of axes is reversed) by more than the signs that go with the axes and the sign of a zero, leaves magSq, magnitude and the answer of nearlyEquals as they are, and direction and the inverse of a blade follow exactly, for all inputs including infinities and NaN; but renaming the axes cyclically can change a product by rounding.", "quantifier": "all changes of axes, all expressions of any size, all library types, all values", "why_tests_cant": "There are infinitely many sets of axes and expressions; a test checks some.", "anchors": ["include/g3opsMul.hpp: operator*", "include/g3opsAdd.hpp: operator+, operator-", "include/g3opsUni.hpp: reverse, oddverse, dirverse, dual", "include/g3func.hpp: magSq, magnitude, ampSq, amplitude, direction, inverse, exp, logG2", "include/g3compare.hpp: nearlyEquals"]}
{"id": "C92", "title": "Magnitude and amplitude against the same object as a MultiVector", "statement": "(1) magnitude(x) and magnitude(MultiVector(x)) (the reference of the repository's tests) are the same double for every value of every type, including infinities and NaN. (2) Over the reals, amplitude(x) equals the tests' reference for amplitude, the principal square root of MultiVector(x)*dirverse(MultiVector(x)), for every type. (3) In binary64, for finite operands whose magSq does not overflow and a C library whose complex square root is exact on the real axis and symmetric under conjugation: for Scalar, BiVector and Spinor amplitude(x), amplitude(MultiVector(x)) and the reference have the scalar part magnitude(x) and a trivector part zero; for Vector all three are magnitude(x)*e123. (4) For TriVector and ImSpin amplitude(x) is +magnitude(x)*e123, but amplitude(MultiVector(x)) has the sign of the trivector component, and the reference has the minus sign for a negative TriVector, and for an ImSpin with negative trivector component only if no component of its vector has a minus sign. Hence the check of the test program fails for every negative TriVector of magnitude from 2^-400 to 2^400 at every tolerance from 2^-60 to 1, and there is a MultiVector on which the library and the reference have opposite signs.", "quantifier": "all types and values; every C library satisfying the stated specification; all tolerances in the stated range", "why_tests_cant": "The tests use one positive operand of each type; the sign of the trivector and the signs of zeros decide the branch of the square root.", "anchors": ["test/test_g3func_mag.cpp: expMag", "test/test_g3func_amp.cpp: expAmp", "include/g3func.hpp: magnitude, amplitude, ampSq, dirverse", "include/g3type.hpp: MultiVector constructors"]}
{"id": "C93", "title": "Products of two types against the product of MultiVectors, by nearlyEquals", "statement": "The check of the repository's product tests is: a*b and MultiVector(a)*MultiVector(b) are nearlyEquals. (1) For 73 of the 100 pairs of types it passes for all finite operands with a valid product, at every tolerance above zero. (2) For each of the other 27 pairs there are operands with integer components, and with valid components of both products, for which it fails at every finite tolerance up to 1: a whole grade of the product is lost in one of the two orders of summation. (3) For all pairs, it passes if both products are valid and below 2^500, the tolerance is from 2^-60 to 1/100, and in each grade either all terms are zero or the length of the exact grade is at least 2^-400 and at least 20*2^-53/tol times the sum of the absolute values of its terms (bounded cancellation).", "quantifier": "all pairs of types and all operands in the stated range; all tolerances in the stated range", "why_tests_cant": "The test has one pair of operands for each pair of types, with components near one, and one tolerance; agreement depends on cancellation in a grade.", "anchors": ["test/test_g3opsMulAll.cpp: check", "include/g3opsMul.hpp: operator*", "include/g3compare.hpp: nearlyEquals", "include/g3type.hpp: MultiVector constructors"]}
{"id": "C94", "title": "The doubles of the model are IEEE 754 binary64", "statement": "(1) The data of the number model are the 2^64 words of the binary64 interchange format: every word represents exactly one datum, every datum has a word, and only NaN has more than one; signbit, negation and abs act on bit 63 alone; isnormal holds exactly when the exponent field is neither all zeros nor all ones; the word of g3::pi is 400921FB54442D18. (2) Rounding is roundTiesToEven: from 2^1024-2^970 an infinity of the sign of the exact number, else the finite datum of that sign with none nearer and, on a tie, an even last bit; this determines the result. (3) x+y, x-y, x*y, x/y, sqrt and the fused multiply-add on every pair of operands give the result of the standard: NaN for NaN operands and the invalid operations, infinities and zeros with the sign rules, else the exact result rounded. (4) x<y and x==y are order and equality on the extended real line, false for NaN. (5) A decimal literal is the exact number rounded.", "quantifier": "all 64-bit words, all data, all exact real numbers", "why_tests_cant": "All other binary64 statements are about this number model; whether it is the double of the platform is a statement on all words and all operands.", "anchors": ["include/g3type.hpp: components of type double", "include/g3const.hpp: pi", "include/g3validity.hpp: isValid (std::isnormal)", "include/g3opsAdd.hpp, g3opsMul.hpp: arithmetic on double"]}
{"id": "C95", "title": "Numbers written and read are decimal numerals of the C standard, correctly rounded", "statement": "(1) Reading a double from white space, a decimal numeral (optional sign, digits, point, digits, exponent) and then white space or the end consumes exactly the white space and the numeral, sets eofbit exactly at the end, and gives a zero with the sign of the numeral for a zero, failure and the largest finite double from 2^1024-2^970, else the number the numeral denotes rounded to nearest, ties to even. (2) On any text, after white space the longest sequence of characters is consumed with which a numeral can begin; if that sequence is not a numeral, reading fails and the double becomes zero, so that whenever reading succeeds, the characters consumed are white space and a numeral. (3) A finite double written with std::fixed and precision p is a numeral with a minus sign exactly if the sign bit is set, no exponent, no superfluous leading zero, p digits after the point (no point if p is 0), and value within half a unit of the last digit, the last digit even on a tie. (4) With std::scientific: one digit before the point, zero only for zero, p digits after it, an exponent with a sign and at least two digits, and the value is the double rounded to p+1 significant digits, ties to even. (5) Without a format: rounded to p (at least 1) significant digits, no trailing zeros after the point, and an exponent exactly if the decimal exponent X of the written value is below -4 or at least p.", "quantifier": "all numerals of any length, all white space before and text after, all previous values, all finite doubles, all precisions", "why_tests_cant": "Every round trip of g3io rests on these conversions; numerals and precisions are unbounded, and rounding must be right for every digit sequence, ties included.", "anchors": ["include/g3io.hpp: operator>> (is >> components), fixed, enote (std::setprecision, std::fixed, std::scientific)"]}
{"id": "C96", "title": "Inexact and underflow: a clear flag certifies the exact value", "statement": "(1) A sum or difference of two finite doubles raises FE_INEXACT exactly if the exact result is not a double, and never raises FE_UNDERFLOW; a product raises FE_INEXACT exactly if the exact result is not a double, and FE_UNDERFLOW exactly if moreover it is below the smallest normal number. (2) The values of an expression of library operators do not depend on the flags; flags are sticky, and underflow is raised only together with inexact. (3) For any expression of library operators on finite data, every component whose computation has not raised FE_INEXACT is finite and equals the component of the same expression over the rational numbers. (4) If all components are integers of size at most M and the same expression with M for every component and every sign plus does not exceed 2^53, neither flag is raised. (5) A raised flag does not mean a wrong result: (x*x)*y with x = 2^-600 and y = 0 raises both, and is exact. (6) A quotient of finite doubles by a double other than zero raises FE_INEXACT exactly if the exact quotient is not a double; a square root of a finite double not less than zero exactly if no double has that number as its square. (7) If no component of inverse(x), x a scalar, vector, bivector or trivector other than zero, has raised FE_INEXACT, the result is the exact inverse; if magnitude(x) has not, its square is exactly the sum of the squares of the components, for every type; if moreover direction(x) has not, the squares of its components sum to exactly one. (8) direction of a vector or bivector other than zero raises no FE_INEXACT exactly if it is a power of two between 2^-537 and 2^511, or its negative, along an axis. (9) inverse of a vector or bivector other than zero raises no FE_INEXACT exactly if, up to signs, it is a power of two along an axis (2^-511 to 2^511), or has two components equal to one power of two (2^-512 to 2^511) and the third zero.", "quantifier": "all finite doubles, all expressions of any depth, of all operand types, all finite data", "why_tests_cant": "A program that tests the flag instead of bounding the error relies on its being raised for every rounding of every operation the overload chosen for the operand types performs.", "anchors": ["include/g3opsAdd_*.hpp: operator+", "include/g3opsSub_*.hpp: operator-", "include/g3opsMul_*.hpp: operator*", "include/g3opsUni.hpp: operator-", "include/g3func.hpp: inverse", "include/g3func.hpp: magnitude", "include/g3func.hpp: direction", "include/g3func.hpp: pairMagDirFrom"]}
{"id": "C97", "title": "Objects read from the text of other programs: numerals in any notation, and words such as nan", "statement": "(1) For each of the nine types: a text of as many decimal numerals (any notation of the C standard) as the type has components, separated by white space, followed by the end or white space and anything, is read as the object whose components are, in this order, the numbers the numerals denote, correctly rounded (zeros with their sign), provided none is subnormal or overflows; the stream is good and holds what follows. (2) If instead, after fewer numerals than components, there is a word - an optional sign and then a character that is not a digit, point, sign or white space, as in nan, -nan, inf, null - then the stream fails, the blades complete before the word are read, and the blade in which it stands and all blades after it are null, whatever follows. (3) So an object with a NaN or infinite component written with io::enote (16 digits after the point or more) and read back keeps the blades before that component, and the others become null.", "quantifier": "all types, all numerals of any length and notation, all white space, all positions of the word, all words, all text after it, all previous contents of the object", "why_tests_cant": "Files come from other programs with other notations; numerals, spacing, words and what follows them are unbounded.", "anchors": ["include/g3io.hpp: operator>> for Scalar, Vector, BiVector, TriVector, Spinor, ImSpin, ComPlex, DirPlex, MultiVector; enote"]}
{"id": "C98", "title": "Text in locales whose digit groups have other sizes, such as those of India", "statement": "In a locale with a decimal point p, a separator s and any list of group sizes (from the point to the left, the last one repeated; zero or at least 127 for all remaining digits): io::fixed and operator<< write the digits before the point in groups of exactly these sizes, the leftmost having at least one digit and at most its size; this determines the text. What they write is read back in the same locale to within 10^-6 (operator<<) or 10^-a (io::fixed with a decimals, up to 306), whatever the size of the numbers. io::enote writes the same text whatever the sizes, and with 16 or more decimals it is read back to the same object; any text without the separator is read as without grouping. A whole number in two or more groups of at most 126 digits (that does not overflow) is stored whatever the groups, and the stream stays good exactly if the groups have the sizes of the locale; so a number of six or more digits grouped as in India makes the stream fail where all groups have three digits. With the one size three everything is as in C87.", "quantifier": "all lists of sizes; all points and separators that are no digit, sign, white space or e and differ; all types and objects with finite (valid) components; all numbers of decimals; all lists of groups; all previous contents", "why_tests_cant": "Tests run in the C locale with a few values; the claim is about every grouping, every object and every format.", "anchors": ["include/g3io.hpp: put, fixed, enote, operator<<, operator>>"]}
{"id": "C99", "title": "Reading from a stream that does not skip white space (std::noskipws)", "statement": "With skipws cleared: (1) reading any object from a stream that is not good, or whose text begins with white space, fails, takes nothing from the text and makes the object null. (2) So nothing that operator<< or io::fixed writes can be read back, for any type and object. (3) A numeral (any notation of the C standard, not subnormal or overflowing) followed by white space or the end is read; an object with one component is complete; of any other a blade with one component in front is read, all other blades are null, and the stream fails; what follows the numeral stays in the stream. (4) What io::enote writes with 16 or more decimals of a valid object reads as null if it begins with a blank (the place of the sign), and otherwise as in (3). (5) A text without white space is read as by a stream that skips it.", "quantifier": "all types of the library, all objects, all texts, all states of the stream, all previous contents", "why_tests_cant": "The flag is state of the stream set elsewhere in the program; the tests never clear it, and texts and states are unbounded.", "anchors": ["include/g3io.hpp: operator>> for std::array, Scalar, Vector, BiVector, TriVector, Spinor, ImSpin, ComPlex, DirPlex, MultiVector; operator<<; fixed; enote"]}
{"id": "C100", "title": "Numbers need no white space between them", "statement": "A number in a text ends where the text can no longer be a number: (1) a decimal numeral (any notation of the C standard) followed by a text that does not continue it - the next character is not a digit, is not e or E unless the numeral has an exponent, and is not a point unless the numeral has a point or an exponent - is read as the number it denotes, rounded to nearest, and exactly the numeral and the white space before it are taken; a numeral that is continued by the next character is not what is taken. (2) For every type, as many such numerals as the type has components, with or without white space before each, are read as the object with these components in this order, and what follows is left in the stream. (3) In particular numerals with a sign can be written one after the other with nothing between, as in 1-2+3. (4) With std::noskipws a text without white space is read in the same way. (5) A character that cannot begin a number, with or without white space before it, stops the reading: the stream fails, the blades complete before it are read and all others are null, so 1,2,3 is not a vector.", "quantifier": "all types of the library, all numerals and amounts of white space, all texts after them, all previous contents of the object", "why_tests_cant": "The tests read only what the library has written; the texts a user may supply are unbounded.", "anchors": ["include/g3io.hpp: operator>> for std::array, Scalar, Vector, BiVector, TriVector, Spinor, ImSpin, ComPlex, DirPlex, MultiVector"]}
