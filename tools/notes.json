{
 "C09": {
  "note": "False in full: odd powers of an interval with members of both signs lose members, odd powers of a one-point negative interval come out reversed. Both are proved as counterexamples; every other case is proved. C09_pow_exact_iff says for every interval and every exponent from 0 on whether the result holds the powers of all members; C09_pow_negative_exact_iff says the same for the negative exponents, where only the powers of a negative power of two go wrong, for example (-2)^(-3) with two digits after the point."
 },
 "C36": {
  "note": "False in full: BigInt adjusts in the wrong cases (correct iff the truncated remainder is half the divisor, proved), signed machine integers are wrong for negative dividends. Identity and the non-negative case are proved for every width. Exactly which quotients of signed machine integers are right, and exactly when the checked form returns none, is proved as well (C36_signed_correct_iff_partial, C36_signed_none_partial)."
 },
 "C37": {
  "note": "gcd with one zero argument returns the other unchanged, so it can be negative (proved); everything else holds. C37_gcd_nonneg_iff: exactly when the result is not negative."
 },
 "C08": {
  "note": "False in full: exp panics on [32/2^51, 32/2^51] (C08_panics_false), and on some number at every odd precision from 41 on (C08_panics_every_odd_false); on some intervals with negative ends the result misses the exponential of a member (C08_enclosure_false). Proved: exactly when it panics (C08_panics_iff_partial, C08_point_iff_partial), that it never does on intervals of width up to 1/2 that are not a point and start within 2^25 of zero (C08_narrow_partial), and that whenever it returns, it encloses exp up to 2^-26 of a unit in the last place, exactly from below for nonnegative intervals."
 },
 "C12": {
  "note": "The f64 formula of the cache index is a parameter, assumed monotone; critical sections of the RwLock are atomic steps."
 },
 "C15": {
  "note": "False in full: (1+x)/2 + 1/3 is computed as (5+x)/6 (proved). Proved for integer, modular and nested coefficients and for rational polynomials with integer coefficients. C15_rational_result_partial gives the coefficients that are computed for every rational polynomial and scalar. C15_add_exact_iff and C15_sub_exact_iff: exactly the inputs for which the result is right."
 },
 "C34": {
  "note": "Proved in full for positive exponents; exponent 0 returns 1 unreduced (proved false only for a constant modulus) and None for the zero polynomial."
 },
 "C31": {
  "note": "Proved for every positive modulus. Negative moduli are accepted by the API and multiplication is then wrong (proved by a counterexample). C31_new_negative, C31_additive_negative and C31_mul_negative say exactly what holds for them: only products that the modulus does not divide leave the range of representatives."
 },
 "C33": {
  "note": "False in full: for machine integers exponent 0 returns 1 even for modulus 1, and negative exponents of signed types are accepted with their sign ignored (both proved). Every other case is proved; for big integers the power is num-bigint's modpow, a parameter with its documented meaning. C33_pow_negative: exactly which powers are right for negative moduli."
 },
 "C54": {
  "note": "False in full: no prime from 541^2 on is recognized (proved for all of them), 27 is reported as 3^5 and 8 panics (proved). Right below 541^2 and for numbers with a small factor; soundness of a true answer is proved for every input."
 },
 "C56": {
  "note": "False in full: an empty slice at the end of an array with a nonzero y start panics (proved, with the exact condition for a panic in C56_slice_owned_iff). Everything else is proved."
 },
 "C26": {
  "note": "Proved for every heap order and random stream, whenever factoring returns. It never panics while a suitable prime below 2^31 exists for every square-free divisor (C26_no_panic), and such primes exist for every polynomial of degree n with coefficients of h bits, n (5 n + h) < 2^29 (C26_no_panic_sized)."
 },
 "C29": {
  "note": "Proved for every random stream, whenever splitting ends; a run that draws only useless polynomials never ends (reported as fuel)."
 },
 "C27": {
  "note": "False in full: (5x^4+x^2+1)(x^5-x^3-1) is returned unsplit (proved for every heap order and random stream). C27_at_most_two_partial: with no condition every factor returned is irreducible or a product of exactly two irreducible ones, and at most one of each power is reducible; those of degree up to 2 are irreducible. Irreducible whenever the residue of the leading coefficient modulo the prime divides it, in particular for leading coefficients 1, 2, 3, 4, 6 up to the sign; 5 is the first that fails. Same fuel and heap parameters as C26."
 },
 "C40": {
  "note": "Negation and reciprocals of rationals: proved. Reciprocals of irrationals: false in full, 1/(3+sqrt 2) comes back with an interval holding two roots and its floor panics (proved); proved for numbers that are the only root of their sign, and up to isolation for all. C40_recip_any_exact_iff says exactly when the reciprocal is wrong, for every interval (C40_recip_exact_iff: the intervals that do not hold zero, with a bound on the fuel); C40_recip_fine: for every irrational number it is right from some precision of the interval on."
 },
 "C43": {
  "note": "Floor, ceiling, truncation: proved for all numbers. fract is false in full: the code truncates for negative rationals (proved). C43_fract_own_factor_partial uses the code's own factoring. C43_fract_total_partial: with fair random numbers fract of an irrational number of moderate size ends and is exact. C43_fract_exact_iff: exactly the rationals for which fract is right."
 },
 "C44": {
  "status": "partial",
  "note": "False in full, with the code's own factoring: when an end point of the first enclosing interval is a root of another factor of the resultant, that end point is returned (C44_add_false; C44_add_recip_false reaches it through checked_recip alone). Proved: the result is exact unless such an end point is hit, always exact when one operand is rational. With the code's own factoring it is exact for unrelated numbers, for numbers of different degrees, for coprime degrees and for a rational sum or difference (the *_unrelated_, *_degrees_, *_coprime_, *_rational_* theorems). The *_total_partial theorems need no assumption about factoring: with fair random numbers, coprime degrees and operands of moderate size (Poly.ModeratePair) the operation ends with the exact result. The *_total_integers_partial theorems do the same for algebraic integers (small leading coefficients) that are unrelated, such as sqrt 2 and sqrt 3. The *_sound_* theorems say the same of whatever is returned, with nothing assumed about factoring, random numbers or size. C44_add_exact_iff and C44_sub_exact_iff say exactly when the result is wrong (RealAlg.EndpointHit, both operands and the result irrational) and that a rational number is returned then. C44_error_partial: a wrong sum or difference is off by at most the sum of the widths of the two intervals. C44_add_comm, C44_sub_opposite: a + b and b + a are the same number, a - b and b - a opposite ones, also where they are wrong."
 },
 "C45": {
  "status": "partial",
  "note": "False in full for the same reason as C44 (C45_mul_false). Exact when no end point is a root of another factor, always exact for a rational factor or divisor; division by zero is None. With the code's own factoring it is exact for unrelated numbers, for numbers of different degrees and for coprime degrees. The *_total_partial theorems need no assumption about factoring: with fair random numbers, coprime degrees and operands of moderate size (Poly.ModeratePair) the operation ends with the exact result. The *_total_integers_partial theorems do the same for algebraic integers (small leading coefficients) that are unrelated, such as sqrt 2 and sqrt 3. The *_sound_* theorems say the same of whatever is returned, with nothing assumed about factoring, random numbers or size. C45_mul_exact_iff says exactly when an irrational product of irrational numbers is wrong (RealAlg.EndpointHit). C45_mul_sign_sound_partial: the sign is right when the product of the intervals does not hold zero, whatever the factoring does. C45_rational_product_partial: a rational product of irrational numbers is exact or its negation is returned; C45_rational_product_signed: it is exact for numbers held in intervals without zero; C45_rational_product_false: sqrt 2 held in [-1, 2], squared, is -2. C45_div_exact_iff: exactly when a quotient is wrong, given a right reciprocal. C45_rational_quotient_partial and C45_self_div_partial: a rational quotient, in particular a / a, is exact if the reciprocal is right and the dividend is held with one sign; C45_self_div_fine: a / a is one for every irrational number held precisely enough; C45_self_div_false: (3 + sqrt 2) / (3 + sqrt 2), held in [4, 5], panics. C45_rational_product_exact_iff states exactly when a rational product of two irrational numbers is wrong."
 },
 "C46": {
  "status": "partial",
  "note": "False in full: comparison goes through subtraction, so it inherits the end point defect (C46_eq_false: two different numbers compare equal). Proved for rational operands and whenever the subtraction hits no foreign end point; equal numbers with identical data are equal. With the code's own factoring: right for unrelated numbers, for numbers of different degrees and for coprime degrees. The *_total_partial theorems need no assumption about factoring: with fair random numbers, coprime degrees and operands of moderate size (Poly.ModeratePair) the operation ends with the exact result. The *_total_integers_partial theorems do the same for algebraic integers (small leading coefficients) that are unrelated, such as sqrt 2 and sqrt 3. The *_sound_* theorems say the same of whatever is returned, with nothing assumed about factoring, random numbers or size. C46_disjoint_partial and C46_disjoint_sound_partial: numbers held in disjoint intervals compare right, the second whatever the factoring does. C46_antisymmetric: in every case, also the wrong ones, comparison is antisymmetric, equality symmetric, and both agree with each other. C46_transitive_false: equality is not transitive (sqrt 2 in [0, 2] equals both -sqrt 2 and sqrt 2 in [1, 2], which differ). C46_exact_iff: exactly when comparison is wrong."
 },
 "C57": {
  "note": "Proved for every random sequence and heap order."
 },
 "C58": {
  "status": "partial",
  "note": "False in full: 1 % (3 + sqrt 2) panics (C58_rem_false) and abs_sub of sqrt 2 and -sqrt 2 can be zero (C58_abs_sub_false), both through the defects of C40 and C44. Proved for a rational divisor, a zero divisor, and one rational operand (abs_sub). C58_rem_own_factor_partial uses the code's own factoring. The *_total_partial theorems: with fair random numbers the remainder by a rational number, and the remainder and abs_sub of two numbers of coprime degrees and moderate size, end and are exact; there the divisor must be the only root of its sign of its polynomial. The *_sound_* theorems say the same of whatever is returned, with nothing assumed about factoring, random numbers or size. C58_abs_sub_exact_iff: exactly when abs_sub is wrong. C58_rem_exact_iff: exactly when the remainder is wrong, given a right quotient; C58_rem_small: it is right when the dividend is smaller than the divisor."
 },
 "C47": {
  "status": "partial",
  "note": "False as listed: (-8)^(1/3) and 0^0 are None (C47_none_false); the actual condition for None is proved (C47_none_iff_partial). Integer powers of rationals are exact; whatever is returned for a positive rational base is exact, with no assumption on log and exp (C47_positive_rational_sound). Roots and fractional powers of positive rationals up to e^16 return and are exact, with the code's own factoring and fair random numbers (C47_integer_root_total_partial, C47_prime_root_total_partial). Irrational bases: whatever is returned is exact, with no assumption on log and exp, if no conjugate has another nonnegative real power, such as roots of rationals (C47_alone_sound_partial); with integer isolating intervals and powers up to e^16 it also returns, with the code's own factoring (C47_integer_interval_total_partial), and the same for integer powers of negative bases (C47_negative_sound_partial, C47_negative_total_partial); other bases as long as the intervals of log and exp hold the power (C47_power_partial), and then the loop also ends, after a number of turns that depends on the base and the exponent only (C47_returns_partial), since exp can panic or be off by 2^-26 units (C08). The *_sound_* theorems say the same of whatever is returned, with nothing assumed about factoring, random numbers or size."
 },
 "C52": {
  "status": "proved",
  "note": "Proved for every input and every constant up to 1: the lattice after every turn, reducedness of the result, termination, and that linearly independent columns never panic. Two or more linearly dependent columns always end in a division by zero (C52_dependent_panics), so lll_reduce returns exactly for independent columns (C52_returns_iff)."
 },
 "C59": {
  "status": "proved",
  "note": "For every reduced basis, and so for every result of lll_reduce."
 },
 "C53": {
  "status": "proved",
  "note": "All integer quadratics: new, the conversions, negation, rational sums and differences, signs, equality, comparison with rationals and with each other agree with the represented real, which has one lowest form. Sums of two irrationals and reciprocals are C60; to_f64 is not modelled (floats)."
 },
 "C60": {
  "status": "partial",
  "note": "False as listed: the reciprocal of every positive rational has a negative denominator, so it is not positive for is_positive and not equal to the same number (C60_recip_false); the sum of two irrationals is never computed (C60_add_never) and may be reported not to be quadratic although it is (C60_add_false). What holds: the value of the reciprocal of a rational. C60_add_sub_sqrts: the helper for sums of two roots returns polynomials that do have the sum and the difference as roots, and gives up exactly when neither the first radicand nor the product is a square (the second radicand is never tested). C60_recip_canonical_iff: exactly the rationals whose reciprocal has a positive denominator."
 },
 "C61": {
  "note": "Fair random numbers exist (exists_fair); C61_unfair_loops shows that the assumption is needed."
 },
 "C62": {
  "status": "partial",
  "note": "Everything but the exactness of arithmetic on two irrational operands is proved in full; that inherits the limits of C44 to C47 (coprime degrees, moderate sizes) and is false in general (C62_eq_false). What the interpreter and PyO3 do around the methods is an assumption, stated at the head of Model/Python.lean. C62_add/sub/mul/truediv/compare_exact_iff state exactly when the operators and comparisons are wrong; with an int operand comparisons are always right (C62_compare_int)."
 },
 "C63": {
  "status": "proved",
  "note": "Plain {} and {:?} only; the alternate multi-line form and width options are not modelled. Integers and ratios print as num-bigint and num-rational document."
 },
 "C64": {
  "status": "proved",
  "note": "Every coefficient type and every history of calls."
 },
 "C65": {
  "note": "False in one respect: the wrappers derive Default, so KnownPrime::<i32>::default() is a modulus marked prime that stands for 0 without any unsafe call (C65_default_false). Otherwise proved; C65_markers_partial assumes the promises of the constructors, which default() breaks."
 },
 "C66": {
  "note": "The conversions of the coefficient type (BigInt, Ratio) are external and taken at their documented meaning; float conversions are not modelled."
 },
 "C67": {
  "note": "Proved for both constants, for every monotone index formula, number of threads and interleaving. The statement for ln 2 allows one unit: equality would depend on the binary digits of ln 2."
 },
 "C68": {
  "note": "Forms of an operator that are literally one generated expression are one function of the model; those written separately are separate. Includes the reduced divisor of ratios and of the other coefficient types."
 },
 "C69": {
  "note": "False for dividing a polynomial by a coefficient (C69_poly_coeff_false): the polynomial becomes zero. Proved for every other type; C69_poly_coeff_partial says exactly what happens."
 },
 "C70": {
  "note": "Proved for integers, fractions and integers modulo a prime."
 },
 "C71": {
  "note": "The safe range is stated on the real numbers and their conjugates alone (Spec/History.lean): sums and products of coprime degrees or of unrelated algebraic integers, reciprocals of numbers that are the only conjugate of their sign, powers that stand alone. Outside of it single operations are known to go wrong (C40, C43, C44, C45, C47, C58). Programs over the rational numbers always run to their end (C71_rational_program). Clean programs over numbers of moderate size do so with the code's own factor and fair random numbers (C71_program_ends; Spec/HistoryEnds.lean says what moderate means, on the real numbers alone); powers other than integer powers of rational numbers are there limited to positive powers of positive integers made from a ratio or by rounding, because exp can panic (C08)."
 },
 "C72": {
  "status": "partial",
  "note": "Proved for the intervals that have no number 3*2^j (logarithm) or no multiple of ln 2 (exponential) inside or just outside, with an explicit bound of one unit and a small fraction; the bounds ln 2 and factor 2 hold for all intervals; for the intervals that do contain such a number the claim is false, for every precision (C72_log_wide_false, C72_exp_wide_false), and that is proved too. In the limit: as an interval around y shrinks, its logarithm and exponential shrink to a point (C72_log_converges_partial, C72_exp_converges_partial), except at those numbers."
 },
 "C73": {
  "status": "partial",
  "note": "Proved for every operation of the list but the quotient of two intervals, for which it is false at every precision (C73_div_false: 4/3 comes out four units wide); how far the quotient can be off is proved (C73_div_partial). The narrowest interval is unique (C73_unique), so the theorems determine the results."
 },
 "C74": {
  "note": "The claim is about the algebraic operations; log and the arithmetic-geometric mean round inside an iteration and are not part of it. They are covered by C75."
 },
 "C75": {
  "note": "Every logarithm may see its own enclosure of ln 2 (IsLn2); C06 proves that natural_log_of_2 delivers such enclosures in every cache state."
 },
 "C77": {
  "note": "The exceptions are real: C44_add_false, C46_eq_false and C45_rational_product_false are about square roots of two. C77_total: the operations also end, with fair random numbers and moderate sizes."
 },
 "C82": {
  "status": "partial",
  "note": "False for negative divisors: the sign stays in the divisor, so == fails exactly unless all elements are zero (C82_canonical_iff, C82_negative), and a sum or difference of two polynomials whose divisors have different signs is the negative of the right one (C82_add_partial, C82_sub_partial, C82_false). A zero divisor is accepted and makes the coefficients unreadable (C82_zero_divisor). Coefficients and products are right for every non-zero divisor (C82_value, C82_mul)."
 },
 "C83": {
  "status": "partial",
  "note": "Proved for every width and both ways of compiling (C83_checks, C83_wraps, C83_pow, C83_pseudo_div_rem, C83_derivative), with exact conditions for the panics of sums, differences, negations, scalar operations, products, powers, values, derivatives and pseudo-divisions (C83_panics_iff, C83_mul_panics_iff, C83_pow_panics_iff, C83_eval_panics_iff, C83_pseudo_div_rem_panics_iff). The sentence on the checked_ forms is false: they never return None (C83_checked_never_none, C83_checked_add_counterexample). A product or value may panic although the exact result fits (C83_exact_fits_counterexample). Sizes for which products, powers and values are returned: C83_mul_returns, C83_pow_returns, C83_eval_returns."
 },
 "C84": {
  "status": "proved",
  "note": "Integer::gcd of num-integer is an assumption: the exact greatest common divisor, with an overflow at 2^(w-1) treated like that of an operator. Note the consequences: [0, -128, 3] has no content with overflow checks, and [-128, 1, -1] no primitive part at all."
 },
 "C32": {
  "note": "C32_inverse_negative: inverses for negative moduli."
 }
}