# Formal model of Stellacore/Engabra in Lean 4

Source modelled: `/repo/include/*.hpp` (header only C++17 library, namespace
`engabra::g3`: geometric algebra of 3-space on `double`).

## 1. How the code is modelled

* Every C++ type becomes a structure *polymorphic in the number type* `α`
  (`Scalar α`, `Vector α`, ..., `MultiVector α`), with the same fields as the
  C++ aggregate (`theData`, `theSca`, `theVec`, ...).
* Every operator overload becomes one definition, written in the same order of
  evaluation as the C++ expression (so `a*b + c*d - e` is `(a*b + c*d) - e`, and
  `std::inner_product(.., 0.)` is `((0 + a0*b0) + a1*b1) + a2*b2`).
  The definitions only need `+ - * neg 0` on `α`.
* The same definitions are then instantiated at three kinds of number type:
  1. any commutative ring (or `ℝ`): exact arithmetic, for the algebraic laws.
  2. `XR` (`Model/XR.lean`): the reals with an absorbing `nan` value (`x/0`, `sqrt` of a
     negative, `log` of a non positive number are `nan`).  It keeps all comparisons,
     guards and limits of the code.  It carries the claims qualified "in exact
     arithmetic" about functions which use the null pattern (`direction`, `inverse`,
     `exp`, `logG2`, `sqrtG2`).
  3. `F64` (`Model/F64.lean`): IEEE-754 binary64 with signed zeros, subnormals,
     infinities and one NaN, round to nearest even: the claims about actual doubles
     (validity, comparison, null propagation, overflow, rounding error, text I/O).
* Functions needing more than `+ - *` take the operations through two classes:
  `Dbl` (comparison, division, square root, `isnormal`, literals: what IEEE-754 fixes)
  and `LibM` (`sin cos exp log atan2`, complex `sqrt / abs *`: what it does not fix).
  At `F64` `LibM` is arbitrary; a theorem which needs a bound on it lists the bound as
  a hypothesis.
* Undefined behaviour is a distinct outcome: `Run.ub` for the array templates
  (`Dim = 0`), `none` for a subscript outside an array.  Theorems state that the
  outcome does not occur.
* A missing overload is the outcome `none` of the overload tables `addTy`, `subTy`,
  `geqTy`, `fixedTy`, `enoteTy` (`Model/Overload.lean`, `Template.lean`, `IO.lean`).
* Text is `List Char`; output streams carry their formatting state, input streams the
  unread characters, `eofbit` and `failbit`.

| model file | code |
|---|---|
| `Types` | `g3type.hpp` (types, constructors, `operator[]`), `g3_private.hpp` |
| `Const`, `Angle` | `g3const.hpp` (`null`, `zero`, `one`, basis elements, angles) |
| `Uni`, `Add`, `Sub`, `Mul` | `g3opsUni.hpp`, `g3opsAdd_*.hpp`, `g3opsSub_*.hpp`, `g3opsMul_*.hpp` |
| `Validity` | `g3validity.hpp` |
| `Compare` | `g3compare.hpp` |
| `Func`, `Power` | `g3func.hpp` (`Power`: which calls of `sq` and `cube` compile) |
| `Traits` | `g3traits.hpp` |
| `Fused` | the products with any contraction to fused multiply-add (C57) |
| `IO` | `g3io.hpp` |
| `Overload`, `Template` | the overload sets and function templates, with the C++ type as a value `Ty` |
| `Num`, `XR`, `Round`, `F64` | `double`, `<cmath>`, `<limits>`, `<complex>` (not repository code) |
| `Text` | `<ostream>`, `<istream>`, `<iomanip>` for `double` and strings (not repository code) |

`Spec/` holds specifications which do not mention the model's functions (Clifford
algebra and blade sign rule, Euclidean norm, exponential series).  `Props/` holds the
property theorems, `Lemmas/` what they need.

## 2. Plan and outcome per property

| id | what is modelled | how it is proved | outcome |
|----|------------------|------------------|---------|
| C01 | MV `*`,`+`, scalings, `one`,`zero`,`e0` over any commutative ring | ring identities | proved |
| C02 | as C01 over ℝ | algebra maps in both directions to Mathlib `CliffordAlgebra` (universal property); blade table against a bitmask sign rule | proved |
| C03 | all 99 `operator*` overloads + promotion constructors | componentwise ring identities against the MV product | proved |
| C04 | all `operator+` overloads | componentwise | proved |
| C05 | all `operator-` overloads | componentwise | **violated by six overloads**; the rest proved (`_partial`) |
| C06 | `reverse/oddverse/dirverse` for all types | structural, over any `α` with `-(-x)=x`, so bit for bit | proved |
| C07 | as C06 with products | ring identities, lifted through C03 | proved |
| C08 | `dual` | ring identities | proved |
| C09 | constructors, `operator[]` | case analysis on the index | proved |
| C10 | `null/zero/one` | computation at `F64` and at rings | proved |
| C11 | `isValid` | induction on arrays | **violated for blades**; arrays and doubles proved |
| C12 | products at `F64` (and any nan-absorbing number type) | absorption lemma | proved |
| C13 | `magSq/magnitude` | real inequalities (Cauchy-Schwarz) | proved |
| C14 | as C13 | polynomial identities | proved |
| C15 | `ampSq/amplitude` | polynomial identities; complex square root | proved |
| C16 | `pairMagDirFrom/direction` at `XR` | field arithmetic | proved |
| C17,C18 | `inverse` at `XR` | field arithmetic, guard analysis | proved |
| C19 | `ComPlex`, `Spinor` | ring isomorphisms with Mathlib `ℂ`, `ℍ[ℝ]` | proved |
| C20 | `exp(BiVector)`, `exp(Spinor)` at `XR` | `HasSum` of the series | partial: **violated** where the direction has a subnormal first component |
| C21 | `exp(MultiVector)` at `XR` | `HasSum`; negation for whole families | partial: **violated** for every non-zero vector or trivector |
| C22 | sandwich product, `exp` | polynomial identities, trigonometry | proved |
| C23,C24 | `logG2`, `sqrtG2` at `XR` | polar form | partial: **violated** near the real axis, error bound proved |
| C25,C26 | `nearlyEquals*` at `F64` | decision logic, rounding | proved |
| C27 | `nearlyEquals*` at `F64` and `XR` | decision logic, rounding monotonicity | partial: **violated** by overflow/underflow of squares; exact arithmetic proved, and binary64 away from overflow and underflow |
| C28 | `operator==` at `F64` | decision logic | proved |
| C29-C31 | stream extraction and insertion over character lists | induction on input; decimal/binary rounding argument | proved, with recorded limits |
| C32,C33 | operations at `F64` | properties of rounding | proved |
| C34 | `magnitude`, `direction` at `F64` | rounding error analysis with underflow and overflow as part of the bound (Lemmas/SqNear.lean), so that every finite object is covered (C34_Total, C34_Null) | partial: **violated** outside a central range |
| C35,C36 | products over ℝ | polynomial identities | proved |
| C37 | `exp(MultiVector)` with its output | computation | **violated**: ten lines on `std::cout` |
| C38 | angle constants at `F64`; basis elements over any commutative ring | Mathlib's bounds for π, exactness of scaling by 2; ring identities | proved |
| C39 | `magSq`, `magnitude`, `direction`, blade `inverse` at `F64` | sign rules of IEEE multiplication, case analysis on the type | proved |
| C40 | `nearlyEquals*`, `isValid` at `F64` | induction on the arrays, sign rules, transitivity of `<` | proved |
| C41 | sequences of `extractTy` and `insertTy` on one stream | induction on the list of objects, from the round trip of one object in the middle of a text | proved |
| C42 | expression trees `Expr` evaluated with the overloads (`eval`) and on multivectors (`evalMV`) | induction on the expression from C03, C04, C05, C06-C08 | proved |
| C43 | `Expr.eval` over F64 | induction on the expression from C12 | proved |
| C44 | `Expr.eval` over F64 against `Expr.evalMV` over the rationals | induction on the expression; per-product bound from C33, per-sum bound from correct rounding | proved |
| C45 | loops over lists of objects with `mulTy` on F64 and on the rationals; `len` is the Euclidean length of all components | induction on the list; one product by C33 and Cauchy-Schwarz, lengths multiply by C14 | proved |
| C46 | `expBiv` and `expSpin` on F64 with an arbitrary `LibM F64` instance subject to `LibmOk`/`LibmExpOk` (accuracy of sin, cos, exp) | magnitude and direction from C34, then the error of the product sin(m)*d; sin and cos are 1-Lipschitz for the error of the angle; the length against the exactly unit (cos m, sin m n) by the triangle inequality in four dimensions; chains from C45 | proved; for every finite bivector C46_exp_total, C46_exp_spinor_total, C46_unit_total (from C34_Total), C46_one, C46_overflow; losses proved as C46_fails_overflow, C46_fails_subnormal, C46_fails_ratio |
| C47 | `expMv` on extended reals; `Spec.ClN` is Mathlib's Clifford algebra of -(x^2+y^2+z^2), `Spec.IsExpN` its exponential series in coordinates | ClN is split into two copies of the quaternions (e123 = +1 and -1), whose exponential Mathlib knows; in the library's algebra e123 is a central square root of -1, so (v+b)^2 is a complex number z^2 and the powers are split by the idempotents (1 +- (v+b)/z)/2, or nilpotent when z = 0 | proved: the function computes the exponential of the wrong algebra |
| C48 | `inverseTy`, `mulTy`, `nearlyEqualsTy` at `F64` | error of the computed squared magnitude (C34) carried through the reciprocal and the scaling; rounding bound of products (C33/C44) applied to x and its inverse; range theorem for nearlyEquals (C27) | proved, with the negation for the default tolerance |
| C49 | `Expr.eval` at `F64` against `Expr.evalMV` over the rationals | each of the 100 product overloads is exact on grids (Lemmas/ExactLattice.lean, partial sums stay on the grid and below 2^53 steps); induction over the expression | proved |
| C50 | `mulTy`, `addTy`, `subTy`, unary operations at `F64` against the `MultiVector` operation on promoted operands | the polymorphic model is run on symbolic terms (Lemmas/Terms.lean); a normal form proved sound for IEEE arithmetic up to the sign of zero decides the 73 pairs; integer witnesses with a proved evaluation for the 27 | proved |
| C51 | `logG2`, `sqrtG2`, `expSpin` at `F64` with the library functions constrained only by `LibmLogOk`, `LibmOk`, `LibmExpOk` | error propagation through magnitude, reciprocal, direction, `atan2` (Lemmas/LogEst.lean, Lemmas/LogF64.lean), perturbation of the exponential; the exact logarithm and root are those of C23/C24, unique by C51_log_unique | proved |
| C52 | `magnitudeTy`, `directionTy` at `F64` for all types, `Dominant` and `OnAxis` over the list of components | rounded square then rounded root of a double is exact (Lemmas/AxisF64.lean); small squares are absorbed whatever the order of the sum; two doubles lie in [1-2^-53, 1] | proved; 49*e1 is the witness that one unit in the last place can be missing |
| C53 | `logG2`, `sqrtG2`, `expSpin` at `F64`, library constrained as in C51 | case analysis on the computed cosine; a dominant scalar part forces the guarded branches (C52), hence the general branch has a bivector part of at least 2^-31; in the guarded branches the circle equation bounds the bivector part by 2^-24 | proved; C53_exp_log_lost shows that accuracy is really lost at the axis |
| C54 | `Expr`, `mulTy`/`addTy`/`subTy`, `magnitudeTy`, `directionTy`, `inverseTy`, `nearlyEqualsTy` at `F64` | rounding commutes with powers of two on a grid or among normal numbers (Lemmas/ScaleF64.lean); symbolic terms carry it through the 100 products; induction on expressions and arrays | proved; witness for the zero reference |
| C55 | `promote`, `mulRes`, `addTy`/`subTy`, `dualRes`, `isBladeTy` (Model/Traits.lean) | case analysis on types; integer witnesses carried to the reals; explicit factorisation of a bivector | proved |
| C56 | `inverseCplx`, `inverseMv`, `ampSq` at F64; complex library as a parameter (`LibcOk`) | norm estimates over the complex numbers; forward error of ampSq and of the last product; perturbation of the reciprocal; concrete witness for the cancellation | proved |
| C57 | terms of the whole expression obtained by running the polymorphic model on symbolic numbers; `Contracted`: all evaluations with any set of fused operations; `F64.fma` | naturality of the model (evaluation commutes with substitution); error induction with the invariant that both the rounded value and the unrounded product are near; monomials of each overload checked by the kernel; concrete witness for the loss of antisymmetry | proved |
| C58 | Spec/Rotation.lean: Rodrigues rotation of R^3 and composition, with no reference to the algebra; model: expBiv, the product, reverse and logG2 in binary64 | attitude within (1+c)^n - 1 of an exact unit spinor by induction on the sequence; the exact sandwich equals Rodrigues' formula; Cauchy-Schwarz for the product; logG2 by C51's estimates | proved |
| C59 | sqrtG2, the products and reverse, over the exact numbers and in binary64; Spec/Rotation.lean for lengths and distances | exact: a root with positive scalar part commutes past a up to reversal, because a lies in the plane of b*a. Binary64: C51's root estimate, the sandwich for a spinor of any length (Lemmas/RotorEst.lean), and the size of the scalar part of the root from the half angle | proved |
| C60 | nearlyEquals of all ten types in binary64, with magnitude, direction, inverse, enote and operator>> as already modelled | interchange of arguments: every step of the comparison is insensitive to the sign of a zero. Promotion: the grades the promotion adds compare as equal. Acceptance: an error estimate of the list norms in nearlyEqualsRel, then the error bounds of C34, C48 and C31 | proved |
| C61 | Model: `amplitude` and `ampSq` at `F64` (Model/Func.lean), dispatched over the types by `amplitudeTy`; `std::sqrt(std::complex<double>)` is `LibM.csqrt` under the specification `LibcSqrtOk`. | Proof: rounding error of both parts of `ampSq` at every type (Lemmas/AmpF64.lean), then `(s - r)(s + r) = s^2 - r^2` for the root `r` on the side of `s`; on the axes bit for bit from `NN`. | Found: `C61_fails_branch` gives a multivector with x * dirverse(x) = -rho < 0 whose computed square has a negative rounding error as imaginary part, so that amplitude is near -sqrt(rho) e123 instead of +sqrt(rho) e123. |
| C62 | Model: as C61. | Proof: two uses of C61_root or C61_principal; the failure from the final negation of ampSq(DirPlex), which turns +0. into -0., and the symmetry of csqrt under conjugation. | Found: amplitude(DirPlex{v, zero}) = -amplitude(v) for every vector v. |
| C63 | Model: `expMv` and `sync` at `F64` (Model/Func.lean), line for line; `std::sin`, `std::cos`, `std::exp` under `LibmOk`, `LibmExpOk`. | Proof: rounding error of `sync` in both branches against sin x / x (Lemmas/ExpMvF64.lean), of the two lengths from C34_magnitude_wide, of the sixteen terms, of their sums and of the factor in front; the exact formula is C47's. | Found: as C47, now in binary64: exp of a vector is wrong by at least |v|^2/2. |
| C64 | Model: `sq`, `cube` (Model/Func.lean), their overload sets `sqTy`, `cubeTy` (Model/Power.lean). | Proof: ring identities; closure from the exact result types (C55); roots through the complex numbers, one plane for spinors, four complex components for multivectors; signs from C32_product_signs. | Found: the comment lists the closed types; cube compiles for TriVector and ImSpin as well. |
| C65 | Model: inverseBlade, inverseCplx, inverseMv and the typed products, over XR for the exact statement and over F64 for rounding. | Proof: associativity and C17/C18 for existence and uniqueness; C48 per component turned into lengths (len_diff_le), the normwise product bound product_len of C45, and multiplicativity of lengths for versor types; C56 for multivectors. The header's examples are evaluated in F64. | Theorems: C65_solve_blade, C65_solve_mv, C65_solve_complex, C65_left_binary64, C65_right_binary64, C65_put_back, C65_mv_binary64, C65_header_equation, C65_header_product_fails. |
| C66 | Model: the typed products, inverseBlade, reverse, magnitude, magSq over XR / the reals and over F64. Specification: Mathlib's EuclideanSpace, Submodule.starProjection, Submodule.reflection, InnerProductGeometry.angle, MeasureTheory.volume, LinearIsometryEquiv and LinearMap.det. | Proof: coordinates and linear arithmetic for the exact statements; Cartan-Dieudonne (LinearIsometryEquiv.reflections_generate_dim) for every isometry and rotation; for binary64 the length bounds of C48 and C45 as in C65. | Theorems: C66_project_line, C66_reject_line, C66_reflect, C66_half_turn, C66_project_plane, C66_reject_plane, C66_reflect_plane, C66_squares, C66_angle, C66_plane, C66_volume, C66_orthogonal, C66_parallel, C66_orthogonal_triple, C66_vector_equation, C66_every_isometry, C66_every_rotation, C66_rotation_unique, C66_spinor_rotates, C66_turn_binary64, C66_mirror_binary64, C66_mirror_plane_binary64, C66_project_line_binary64, C66_reject_line_binary64, C66_project_plane_binary64, C66_reject_plane_binary64. |
| C67 | Model: direction, exp, reverse and the Spinor products over F64. Specification: unit spinors over the reals, the exact loop, and the rotations `turns` of C58. | Proof: one turn maps moderate spinors to unit spinors (relative error of the product and of direction); induction over the list of factors for the invariant and for the linear drift; C58's estimates for the increments; the lower bound 1+u per turn for divergence. | Theorems: C67_unit, C67_drift, C67_rigid, C67_steady_unit, C67_steady_turns, C67_plain_diverges. |
| C68 | Model: sq, dirverse, inverseMv, the MultiVector products and sums over the extended reals XR. Specification: the equation itself and ∃! over MultiVector ℝ. | Proof: the maps X ↦ A*X + X*B and X ↦ A*X + X*dirverse(B) compose to left multiplication by M, which commutes with A; when M is singular a kernel element of one map gives one of the other, through the commutators of the directed part of B with e1, e2, e3. | Theorems: C68_solve, C68_iff, C68_vectors, C68_same, C68_null. |
| C69 | Model: ComPlex operations and the cast over F64. Specification: stdMul, the Annex G product with its recovery step, written out; LibcOk for std::abs. | Proof: products of finite data are finite or infinities with the sign of the product; both parts NaN would need the signs of the four products to have even and odd parity at once. | Theorems: C69_sums, C69_mul, C69_mul_finite, C69_fails_infinite, C69_fails_abs. |
| C70 | Model: enoteTy, extractTy on an IStream. Specification: ReadLoop (C41) and GuardedLoop, the two loops as inductive relations; a cut is a list prefix. | Proof: any proper prefix of the e-notation of a number either fails to convert or gives a valid number with a one-digit integer part and an exponent of at most two digits, and always reaches the end of the text; induction over fields, blades and records. | Theorems: C70_loop, C70_guarded, C70_guarded_unique, C70_prefix, C70_silent. |
| C71 | Model: Model/Stream.lean, insertTyF (operator<< on a stream with capacity); put formats into a local ostringstream and inserts one string, so only the insertion can fail. Specification: the text of the unlimited device (insertSeq, enoteLines) and List.take. | Proof: invariant Follows between the limited and the unlimited stream, preserved by every insertion; the reader by C70_prefix. | Theorems: C71_insert, C71_after_failure, C71_records, C71_recover. |
| C72 | Model: Model/Stream.lean, extractTyX with outcome ok / threw (state of the caller's variables) / ub. Specification: Left and LeftTy describe the mixture from Reads (numbers accepted one after the other) and the old components. | Proof: eofbit and failbit are never cleared by an extraction, so a bit that stops the throwing extraction is still set at the end of the plain one; induction over the components, cases over the blades. | Theorems: C72_array, C72_object, C72_quiet, C72_failbit, C72_eof_throws, C72_mixture. |
| C73 | Model: extractTy on an IStream. Specification: IStream.more (text goes on), ReadLoop, GuardedLoop, Whole (a text made of objects only, inductive), EndsWs. | Proof: the scanner stops at a character it has seen, so if any is left the rest does not matter; through extractDub, readAll, readGroups to objects; induction over the loops; the number scanner never consumes white space. | Theorems: C73_local, C73_progress, C73_ends, C73_guarded_prefix, C73_plain_prefix, C73_newline, C73_whole, C73_concat, C73_whole_unique, C73_records. |
| C74 | Model: expBiv and the spinor product. Specification: azElRoll (the README expression), SameTurn (same effect on every vector), IsExp (power series). | Proof: closed form of the product; sums and differences of components separate into (cos e/2 + sin e/2) times a unit complex number of angle (a+r)/2 and (cos e/2 - sin e/2) times one of angle (a-r)/2; polar coordinates. | Theorems: C74_every, C74_rotation, C74_unique, C74_recover, C74_gimbal. |
| C75 | Model: expSpin, logG2, spinor product and reverse. Specification: slerp (textbook formula), arc (arccos of the inner product), Apart (the two attitudes), Frac (the parameter). | Proof: logG2_general gives angle and plane of T * reverse(S), expR_mul_plane the one-parameter group; slerp formula by components; the rest from sine and cosine addition formulas, steps by induction. | Theorems: C75_slerp, C75_ends, C75_even, C75_rate, C75_steps, C75_back, C75_middle, C75_frame, C75_between. |
| C76 | Model: typed products, differences, inverseBlade over XR. Specification: Mathlib's EuclideanSpace, inner, dist, LinearIndependent. | Proof: each expression evaluated to inner and cross products; nearest points by Pythagoras; Cramer's rule by ring identities. | Theorems: C76_line_plane, C76_two_lines, C76_lines_meet, C76_independent, C76_coordinates, C76_three_planes, C76_sphere. |
| C77 | Model: expSpin, logG2 and Double*Spinor over binary64 with an abstract math library (LibmOk, LibmLogOk, LibmExpOk). Specification: de Moivre's formula over the reals (deMoivre). | Proof: laws of deMoivre from expR_mul_plane; accuracy from logG2_est, the rounding of the product with t, and exp_of_log. | Theorems: C77_one, C77_add, C77_zero_neg, C77_root, C77_power. |
| C78 | Model: expSpin, logG2, reverse, products over binary64 with an abstract math library. Specification: slerp of C75. | Proof: slerp is the power of the relative spinor (C78_slerp_power); powers are contractions (deMoivre_near); product rounding (unit_product) and C77_power. | Theorems: C78_slerp_power, C78_interp, C78_moderate. |
| C79 | Model: logG2, magnitude and the vector product already modelled; no new code. | Specification: Mathlib's InnerProductGeometry.angle on EuclideanSpace. | Proof: logG2_general and arccos for the exact case; product_real, a bound on the difference of the angles of two spinors in terms of their distance, logG2_est, norm3_est and C34_magnitude for binary64. |
| C80 | Model: amplitude, inverse of ComPlex and the ComPlex products as already modelled; no new code. | Specification: a*U = x, U*dirverse(U) = 1 in the algebra, for the promoted elements. | Proof: exact by the principal complex root and centrality of ComPlex; uniqueness because squares of complex numbers determine them up to sign; binary64 from C61_square, C56_inverse_complex and product_real, and |AB| <= sqrt 2 |A||B|. |
| C81 | Model: direction, exp, Spinor products and reverse over binary64, as in C67; no new code. | Specification: FixedInSpace (p' = p x w, componentwise derivatives), Sampled and MidSampled (the angles of the steps), turns of C58. | Proof: derivative of turn(s*A) p(s); mean value estimates of first and second order; isometry of turn and induction over the steps; C67_steady_turns for binary64. |
| C82 | Model: Model/Device.lean, DStream (characters delivered, failbit, badbit), extractDubD .. extractTyD follow g3io.hpp:634-745 on it. | Specification: DReadLoop (the caller's loop) against ReadLoop/GuardedLoop of C41/C70 on ordinary texts; blades of C29. | Proof: simulation Sim between the text and the device through readAll and readGroups; induction over the loop; C73_local for continuations; C70_prefix for records. |
| C83 | Model: Model/Locale.lean follows g3io.hpp with a decimal point for the global locale (local string streams), for the destination and for the source stream. | Specification: point (replace '.' by p), firstDigit; the "C" locale functions of C29-C31. | Proof: output commutes with replacing characters; input under p is input under '.' of the text with p and '.' exchanged; scanning stops at a foreign point. |
| C84 | Model: Model/AnyRounding.lean: of a result it is only known that no binary64 number separates it from the exact result (Between); an inductive relation gives all evaluations of an arithmetic term under such a relation. | Specification: roundUp, roundDown, roundZero (C84_mode_meaning shows they are what the standard says), AnyBe, anyBound, MagSqAnyBe; C84_modes and C84_covers show that all rounding modes, fused operations, wider formats, double rounding and every finite result of C57 are covered. | Proof: the terms of the typed operators (C57), error bounds by induction over expressions, exactness for integers from representability, monotonicity of sums of squares for the enclosure. |
| C85 | Model: Model/RefExp.lean: the three loops of computeExp as recursions over any number type; the unbounded halving loop runs on an allowance of steps, none meaning that it is still running. check as the verdict of nearlyEquals. | Specification: IsExp (Spec/Exp), Euclidean length, comps. | Proof: multiplication lengthens by at most sqrt(2) times the length, so partial sums are bounded by e^c; (1 - A + A^2/2) times a partial sum is close to one, so partial sums shorten by at most .29, which makes the stopping test meaningful; tail by a geometric series; squaring by E^2 - F^2 = E(E-F) + (E-F)F; binary64 by exact halving bounds and propagation of infinities and NaN. |
| C86 | Model: Model/Harness.lean writes the functions of test/checks.hpp and test_g3func_inv.cpp on the stream model, in the Run monad of nearlyEquals. | Proof: on a stream with default formatting every insertion appends its text (C30), so a run of checks appends the reports of the failed ones (induction); the status is 0 iff that text is empty. Blades: C48 through the promotion of products (C50) and of nearlyEquals (C60). The wrong inverse is a perturbation by 2^-43 of the inverse of (2^10 P + 2^-10 Q), evaluated exactly. | Failing: C86_inverse_misses, C86_inverse_default and C86_report_same are concrete witnesses. |
| C87 | Model: Model/Grouping.lean follows g3io.hpp with decimal point and separator; num_put groups the digits before the point, num_get records the sizes of the groups, fails if they are not in order and stores the number nevertheless. | Specification: IsGrouped (groups of three from the right), PunctOk. Proof: a simulation between the reader with grouping and that of the C locale (ty_rel), over texts whose fields read the same; grouped digits scan to the digits (induction over the groups); without separators through the exchange of C83. | Failing: C87_fails_width, C87_thousand (text of another locale read a thousand times too large). |
| C88 | Model: Model/Counts.lean repeats the output functions with 64 bit words for the numbers of digits, wrapping sums, conversion to 32 bit int at std::setw and std::setprecision; negative widths and precisions as in libstdc++. | Specification: decimalsOf, widthOf in terms of natural numbers; text of a number and field from C30. Proof: arithmetic of the conversion, then as C30 and C31 (readback holds for any amount of padding). | Failing: C88_fails_round_trip (2^32 decimals are none, 2^31 are six). |
| C89 | Model: Model/Flags.lean, doubles paired with the flags raised so far; the operators, magSq and reverse of the model are applied to them as they are, functions with comparisons are repeated (ordered comparison of a NaN is invalid). | Specification: the flags of +, *, /, sqrt, < after IEEE 754; allFlags of the components of a result. | Proof: symbolic terms (FusedExpr) and induction on terms; sums of squares are never NaN for data without NaN; C34_null_or_bounded for the products in direction; C57 bounds for (2). |
| C90 | Model: nearlyEqualsTy and nearlyEqualsDub (Model/Compare.lean, Model/Template.lean) over F64. | Specification: relative Euclidean distance per grade (listDist, listNorm), Comparable, TolOk. | Proof: C27_type_accepted_partial and C27_range_accepts turn the answer into a bound on the distance and back; Minkowski's inequality for lists; induction on the chain. (5): the Scalars 7/4 + k*2^-j for k = 0..3. |
| C91 | Model: Expr.eval, mulTy, addTy and the functions of Model/Func.lean over commutative rings, reals with infinities, and F64. | Specification: AxisChange (a linear map of coordinates which keeps dot products and keeps cross products up to its sign), turnTy (new components of an object), dualFree (Spec/Axes.lean); flipTy for reversed axes in binary64. | Proof: orthogonal matrix identities from AxisChange, products through promotion to MultiVector, induction on the expression; exp and log through their closed forms; binary64 by signs of products and sums up to the sign of zero. |
| C92 | Model: expMag and expAmp of the test programs (Model/RefAmp.lean), amplitude, magnitude and promotion over F64 and over the reals with infinities. | Specification: RealCplx (a double beside a zero of either sign); LibcSqrtOk (C61). | Proof: sums of squares have no sign, so adding zeros does not change them; the scalar parts by symbolic evaluation up to the sign of zero; the trivector parts are sums of zeros whose signs are computed; then the two sides of the branch cut from LibcSqrtOk. |
| C93 | Model: check of test_g3opsMulAll.cpp (Model/RefMul.lean), operator* of all pairs, nearlyEquals over F64. | Specification: exactMul (the product of the exact values), termSum (sum of the absolute values of the terms). | Proof: (1) from C50 and C60; (2) witnesses evaluated symbolically in integers with rounding, then the rule for a zero reference (C27); (3) the forward error of each component (C33) and the triangle inequality, then C27_range_accepts. |
| C94 | Model: F64 and its operations (Model/F64.lean, Model/Round.lean), the fused operation (Model/Fused.lean). | Specification (Spec/Ieee.lean): fields of a 64-bit word and the datum it represents; RoundsTo by distances to all finite data and the last bit of the word; place on the extended real line. | Proof: normal form of a dyadic number and its word; neighbours on the grid of the unit in the last place; case analysis of the operations. |
| C95 | Model: numText, extractDub (Model/Text.lean). | Specification (Spec/Decimal.lean): a numeral as sign, digits, point and digits, exponent, with its text and its value by Nat.ofDigits; rounding to binary64 by Spec/Ieee.lean. | Proof: the scanner splits the text of a numeral in its parts, and any text it accepts is one; the digits written have the value rounded half even in units of the last digit. |
| C96 | Model: EV (Model/Inexact.lean), a binary64 number with the two flags raised while it was computed; the operators of the model apply to it as they are. | Specification: the same expression over the rational numbers; Cap, natural numbers in which minus is plus, bounds every intermediate result. | Proof: one operation by correct rounding of representable results (a tiny sum is on the grid of the subnormal numbers), expressions by induction on the symbolic terms of their components; directions by descent on a sum of three squares equal to a power of four. |
| C97 | Model: extractTy (Model/IO.lean), extractDub (Model/Text.lean). | Specification: Spaced, spacedText, Denotes on the numerals of Spec/Decimal.lean and the rounding of Spec/Ieee.lean; Word; recovered, which fills groups from a list of numbers. | Proof: C95 reads one numeral, a word fails; induction on the components of a blade, then on the blades (C29). |
| C98 | Model: Model/GroupSizes.lean, as Model/Grouping.lean (C87) with a list of sizes; C98_three: the two agree for the list with the one size three. | Specification: Sizes.Fit, Sizes.IsGrouped (Lemmas/GroupSizes.lean), PunctOk. | Proof: the digits from right to left by induction over the digits; then as C87. |
| C99 | Model: Model/NoSkip.lean, as Model/IO.lean with an extraction of double that does not skip white space. | Specification: Numeral, Blank (Spec/Decimal.lean), Denotes, recovered (C97). | Proof: a failed extraction leaves the array NaN and the stream failed; texts of the library begin with a blank (C30); without white space the two extractions agree as long as text is left (induction over the components). |
| C100 | Model: Model/IO.lean and Model/NoSkip.lean, as for C95, C97 and C99. | Specification: Numeral, Blank (Spec/Decimal.lean), Denotes (C97), Closed and Chained (C100): the condition on what follows each numeral. | Proof: the scanner stops at the end of the numeral under the weaker condition; induction over the numerals and over the blades. |

`MANIFEST.json` lists the theorems; it is generated by `tools/manifest.py` from the
theorem names (`Cxx_...`) and `tools/notes.json`.

### Violations of documented or expected behaviour found

Each is a theorem (`*_fails*` or named below) with a concrete witness or a whole family.

* C05: `BiVector-Scalar`, `BiVector-Vector`, `TriVector-Scalar`, `TriVector-Vector`,
  `Spinor-Scalar`, `Spinor-BiVector` return `b-a`.
* C10/C11: `null<MultiVector>()` has NaN in the scalar only; `isValid` of a blade looks
  at component 0 only.
* C20: `exp(BiVector)` is 1 when the direction's first component is subnormal.
* C21, C37: `exp(MultiVector)` is not the exponential series (it is, on even elements)
  and writes to standard output.
* C23, C24: `logG2` drops the bivector of a spinor within `epsilon` of the real axis;
  `sqrtG2` is zero below four epsilon.
* C27: `nearlyEquals` of arrays accepts grossly different values whose squares
  overflow or underflow; it is not symmetric.
* C28: `==` is not the documented bit-wise identity (signed zeros).
* C29: a subnormal number nulls a blade without failing the stream, and the rest of a
  composite is then read from the wrong place.
* C30: negative numbers with three-digit exponents overflow the `enote` field;
  `put(double)` changes the caller's stream state; no `fixed`/`enote` for `ComPlex`, `DirPlex`.
* C31: the default precision of `enote` does not round-trip; the text of the largest
  double cannot be read back.
* C34: `direction` is null for small, zero for large, and invalid for badly scaled
  valid objects.
* C08: the README's `dual(biv) = -e123*biv` and `dual(tri) = -e123*tri` have the wrong sign
  (`C08_readme_biv_tri`); its first description, multiplication by `e123`, is what the code does.
* C32: `a*(-b)` is `-(a*b)` up to the signs of zeros only (`C32_fails_product_signs_bitwise`).
* C47, C63: `exp(MultiVector)` is the exponential of the algebra whose vectors square to -1.
* C61, C62: `amplitude` can be the other square root on the branch cut, and depends on the
  type in which an element is stored.
* C85: `computeExp` of the repository's tests does not return for some arguments with infinities, and
  the library's `exp` fails the repository's own check for vectors and trivectors.
* C86: `checkInverse` of the repository's tests tests `fwd * inv` twice and `inv * fwd` never.
* C87: `io::enote(x, 3)` of the "C" locale read in a locale whose separator is `.` gives numbers a
  thousand times too large, without failure; the documented width of `io::fixed` does not provide for
  separators.  The library keeps the sizes of groups in a `char` (eight bits, signed), so that a group of
  259 digits is accepted (`C87_long_group`).
* C88: numbers of digits from `2^31` on are converted to `int`: `io::enote(x, 1ul << 32)` writes no
  decimals at all.
* `direction()` and `pairMagDirFrom()` of null data raise the floating-point exception invalid,
  because the magnitude is compared with `<` (`g3func.hpp:251`), while the operators and
  `nearlyEquals()` pass null data silently: a program run with trapping enabled stops there
  (`C89_direction_null`).
* Some results depend on the axes in which the data are given (C91).  `exp` of a bivector is null or
  not according to its first component alone, `nearlyEquals` against a zero reference compares
  component by component, the sign of `amplitude` does not follow a change of handedness, and in
  binary64 a cyclic change of the names of the axes can change a product by rounding.
* `amplitude` of a negative `TriVector`, and of an `ImSpin` with negative trivector component, has the
  opposite sign when the operand is first made a `MultiVector` (C92).  The reference `expAmp` of
  `test/test_g3func_amp.cpp` has this sign too, so the test passes because its operand is +23: it
  would fail for -23 (`C92_rejects`).  On some `MultiVector`s the reference and the library differ
  (`C92_differ`).
* The tests compare `a*b` with `MultiVector(a)*MultiVector(b)` by `nearlyEquals`. For 27 of the 100 pairs of
  types there are operands for which this fails at every tolerance up to 1 (`C93_rejects`), because a
  grade cancels in one order of summation and not in the other. It passes with bounded cancellation
  (`C93_accepts`).
* The README lists `solutionOfLinear()`, `dot()` and `wedge()`; the headers do not have them.
* C58: the README declares the transformed position and force as `Vector` and the transformed
  moment as `BiVector`; the products are an `ImSpin` and a `Spinor` and there is no conversion
  (`C58_readme_types`), so that `.theVec` and `.theBiv` have to be added.
* C65: the documentation of `Scalar` says that `7*(3+5)` is 21 (`C65_header_product_fails`).

## 3. Trusted base

* Lean's kernel and the axioms `propext`, `Classical.choice`, `Quot.sound`.  No other
  axiom; no `sorry`, `native_decide`, `bv_decide`.  `AXIOMS.txt` (written by
  `tools/axioms.py` from `#print axioms`) lists the axioms of every theorem in the
  manifest.
* Mathlib's definitions used in the statements (`ℝ`, `ℂ`, quaternions,
  `CliffordAlgebra`, `HasSum`, `Real.sqrt/sin/cos/exp/log`, `Complex.arg`).
* The reading of the C++: every definition cites file and lines.  The product, sum and
  difference overloads were transcribed one to one, in order of evaluation;
  `tools/conform.py` parses the C++ operators and the Lean definitions into expression
  trees and compares them (252 overloads, none missing on either side, none different;
  it checks the citations too).
* `F64` is IEEE-754 binary64 with round to nearest even (C94 proves this against the words and the
  rounding rule of the standard): assumed of the compiler and
  machine are no contraction to FMA (except in C57, which is about all contractions), no
  `-ffast-math`, no x87 excess precision, default
  rounding mode (except in C84, which is about all rounding modes and excess precisions), correctly rounded `+ - * / sqrt` and literals.  One NaN (no sign, no
  payload); exception flags (invalid, divide-by-zero,
  overflow) in `Model/Flags.lean` for C89, and inexact and underflow in `Model/Inexact.lean` for C96 (`+ - *`,
  and the division and square root in `inverse` of blades, `magnitude` and `direction`).
* `Text`: libstdc++/glibc behaviour of `>> double` and `<< double` (C95 proves the model of it against
  the decimal numerals of the C standard; "C" locale, except in
  `Model/Locale.lean` (C83), where the decimal points of the global locale and of the stream are
  arbitrary, and `Model/Grouping.lean` (C87), where there are also separators of groups of three
  digits (`Model/GroupSizes.lean`, C98: of any sizes); correctly rounded conversions, `skipws` set except in
  `Model/NoSkip.lean`, C99).  Output never fails and extraction never
  throws, except in `Model/Stream.lean` (C71, C72), where the device may be full and the stream may
  be told to throw, and in `Model/Device.lean` (C82), where the input device may break: the stream
  buffer throws when asked for more than was delivered, the library sets `badbit` and leaves the
  number alone.

Not modelled: the compiler, memory layout, object lifetimes, uninitialised default
construction (reads of uninitialised components do not occur in the library:
extraction without exceptions is proved independent of the previous contents), the type tests of
`g3traits.hpp` for types other than `double` and the nine of the library, `g3publish.hpp` (name lookup only),
`projectVersion`/`sourceIdentity` (build identifiers), the programs under `test` and `demo` except
`computeExp` and `check` of `test/test_g3func_exp.cpp` (`Model/RefExp.lean`, C85), `expMag` and
`expAmp` (`Model/RefAmp.lean`, C92), `check` of `test/test_g3opsMulAll.cpp` (`Model/RefMul.lean`, C93) and
`checkGotExp`, `checkInverse` and `main`
(`Model/Harness.lean`, C86), the other facets of a locale,
performance, concurrency (the library has no shared mutable state).

## 4. Checks against wrong programs

`seeded/LOG.jsonl` records edits of the model (in a scratch copy) that mimic realistic
bugs, the claim each breaks, the theorems which then fail to compile, and any theorem
tightened as a consequence.
