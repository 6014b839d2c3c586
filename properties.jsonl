{"id": "C01", "title": "Interval constructors and precision changes enclose their input", "statement": "DyadicFractionInterval::from_ratio / from_ratio_range / from_int_range and convert_log2_denom always give an interval that contains every real number the argument described, at the requested log2_denom, with each end within one unit in the last place.", "quantifier": "every rational (range), every old and new log2_denom", "why_tests_cant": "infinitely many rationals and precisions; a directed-rounding slip shows only on particular residues", "anchors": ["src/interval_arithmetic.rs: from_ratio, from_ratio_range, convert_log2_denom_floor, convert_log2_denom_ceil, convert_log2_denom"]}
{"id": "C02", "title": "Interval addition, subtraction, negation enclose the exact result", "statement": "If x is in interval A and y is in interval B then x+y is in A+B, x-y is in A-B and -x is in -A, whatever the two precisions are (also for BigInt and Ratio right operands).", "quantifier": "all intervals at all precisions, all reals inside them", "why_tests_cant": "the operands range over the reals and over pairs of precisions", "anchors": ["src/interval_arithmetic.rs: add_assign, sub_assign, do_op_assign, Neg, Add<BigInt>, Add<Ratio<BigInt>>"]}
{"id": "C03", "title": "Interval multiplication and squaring enclose the exact result", "statement": "If x is in A and y is in B then x*y is in A*B; x*x is in A.into_square(); also multiplying by a BigInt or a Ratio. The square never has a negative lower end.", "quantifier": "all intervals of every sign pattern and precision", "why_tests_cant": "nine sign patterns times all magnitudes and roundings", "anchors": ["src/interval_arithmetic.rs: mul, mul_int, mul_ratio, into_square"]}
{"id": "C04", "title": "Interval reciprocal and division enclose the exact result and fail exactly on intervals containing zero", "statement": "checked_recip returns None exactly when 0 is in the interval; otherwise 1/x is in the result for every x in the interval. Division likewise encloses x/y.", "quantifier": "all intervals and all members", "why_tests_cant": "continuum of members; the error branch must coincide with containing zero", "anchors": ["src/interval_arithmetic.rs: checked_recip, recip, div, contains_zero"]}
{"id": "C05", "title": "Interval square root encloses the exact root", "statement": "For an interval with non-negative lower end, sqrt(x) is in the result for every x in the interval, and every end is within one unit in the last place; with a negative lower end the call panics.", "quantifier": "all intervals and all members", "why_tests_cant": "integer square roots of arbitrarily large integers, rounding direction", "anchors": ["src/interval_arithmetic.rs: do_sqrt, into_sqrt, sqrt"]}
{"id": "C06", "title": "The cached constants ln 2 and sqrt 2 are enclosed at every precision", "statement": "natural_log_of_2(n) contains ln 2 and sqrt_2(n) contains the square root of 2, for every requested log2_denom n.", "quantifier": "every precision", "why_tests_cant": "series truncation bound must hold for all n", "anchors": ["src/interval_arithmetic.rs: natural_log_of_2, sqrt_2"]}
{"id": "C07", "title": "Interval logarithm encloses the exact logarithm", "statement": "For an interval with positive lower end, ln(x) is in log() for every x in the interval, and the internal assertions never fail; otherwise log() returns None/panics.", "quantifier": "all positive intervals", "why_tests_cant": "convergence and termination of an AGM style iteration at any precision", "anchors": ["src/interval_arithmetic.rs: log_core, log, arithmetic_geometric_mean"]}
{"id": "C08", "title": "Interval exponential encloses the exact exponential", "statement": "exp() never panics and exp(x) is in the result for every x in the interval.", "quantifier": "all intervals", "why_tests_cant": "range reduction and Taylor tail at unbounded precision", "anchors": ["src/interval_arithmetic.rs: into_exp, exp"]}
{"id": "C09", "title": "Interval integer powers enclose the exact power", "statement": "x^k is in A.pow(k) for every x in A and every exponent k.", "quantifier": "all intervals, all exponents", "why_tests_cant": "sign patterns times parity of exponents", "anchors": ["src/interval_arithmetic.rs: Pow<usize>, Pow"]}
{"id": "C10", "title": "Interval floor, ceil, abs, union, log2 queries are correct", "statement": "floor/ceil/abs map members to members of the result, interval_union contains both operands and nothing is lost, contains_zero is exact membership of 0, floor_log2/ceil_log2 bracket the log2 of all members.", "quantifier": "all intervals and members", "why_tests_cant": "unbounded integers", "anchors": ["src/interval_arithmetic.rs: floor_assign, ceil_assign, abs_assign, interval_union, contains_zero, floor_log2, ceil_log2"]}
{"id": "C11", "title": "Arithmetic-geometric mean of intervals encloses the exact AGM, stops and converges", "statement": "For positive intervals the AGM loop stops and its result contains the AGM of every pair of members; the result has the larger of the two precisions, is never wider than the hull of the operands, and its width goes to zero as the operands shrink to two positive numbers and the precision grows.", "quantifier": "all positive interval pairs", "why_tests_cant": "termination and soundness of a fixpoint iteration at every precision", "anchors": ["src/interval_arithmetic.rs: arithmetic_geometric_mean"]}
{"id": "C12", "title": "The constant cache returns a correct enclosure under every interleaving", "statement": "With any number of threads filling and reading the shared cache of a constant, in any interleaving and at any precisions, every value returned is an enclosure of the constant at the requested precision; the cached entry is never replaced by a less precise one.", "quantifier": "every schedule of every number of readers and writers", "why_tests_cant": "schedules cannot be enumerated", "anchors": ["src/interval_arithmetic.rs: ConstantCache, fill_cache, read_cache, write_cache"]}
{"id": "C13", "title": "Polynomial values have one representation", "statement": "Every polynomial built through the API has no leading zero coefficient, and (for Ratio coefficients) a positive divisor coprime to the element content, so two polynomials compare equal (==, Hash) exactly when they are equal coefficient by coefficient.", "quantifier": "every polynomial reachable through the API, except those made from elements together with a divisor that is not positive (the subject of C82)", "why_tests_cant": "all coefficient lists", "anchors": ["src/polynomial.rs: Polynomial, normalize, From<Vec<T>>, reduce_divisor"]}
{"id": "C14", "title": "Polynomial +, -, *, neg, pow are the ring operations", "statement": "Adding, subtracting, negating, multiplying polynomials and raising them to a power gives the mathematical sum, difference, product, power, for any degrees, including cancellation of leading terms.", "quantifier": "all polynomials over integers, rationals, modular integers, nested polynomials", "why_tests_cant": "unbounded degrees", "anchors": ["src/polynomial/add_sub.rs: add_sub_assign", "src/polynomial/mul.rs: mul, checked_pow"]}
{"id": "C15", "title": "Adding a scalar to a polynomial adds it to the constant term only", "statement": "poly + c and poly - c change only the constant coefficient, by exactly c, for integer and for rational coefficients.", "quantifier": "all polynomials and scalars", "why_tests_cant": "all divisors and scalars", "anchors": ["src/polynomial/add_sub.rs: add_sub_assign_single"]}
{"id": "C16", "title": "Pseudo-division identity", "statement": "pseudo_div_rem(a,b) with b nonzero returns q, r, f with f*a = q*b + r, deg r < deg b and f = lc(b)^k nonzero; with b = 0 it returns None.", "quantifier": "all pairs of polynomials over any coefficient domain", "why_tests_cant": "unbounded degree recursion", "anchors": ["src/polynomial/div_rem.rs: checked_pseudo_div_rem, element_pseudo_div_rem, quotient_len"]}
{"id": "C17", "title": "Exact and Euclidean polynomial division", "statement": "For coefficients in a field (rationals, integers modulo a prime) div_rem gives a = q*b + r with deg r < deg b; over the integers exact division returns the quotient exactly when b divides a, None otherwise.", "quantifier": "all pairs of polynomials", "why_tests_cant": "unbounded degrees", "anchors": ["src/polynomial/div_rem.rs: checked_div_rem, checked_exact_div, exact_pseudo_div"]}
{"id": "C18", "title": "Polynomial evaluation", "statement": "eval(p, x) is the value of p at x, for integer, rational and dyadic-interval arguments (where the interval result encloses the value).", "quantifier": "all polynomials and points", "why_tests_cant": "unbounded degrees", "anchors": ["src/polynomial.rs: eval, eval_generic, eval_helper"]}
{"id": "C19", "title": "Content and primitive part", "statement": "content(p) * primitive_part(p) = p, the primitive part has coprime integer coefficients and a positive leading coefficient (content carries the sign).", "quantifier": "all integer polynomials", "why_tests_cant": "all coefficient lists", "anchors": ["src/polynomial.rs: content, nonzero_content, primitive_part, primitive_part_assign"]}
{"id": "C20", "title": "Polynomial gcd and lcm", "statement": "For coefficients in a field (rationals, integers modulo a prime) gcd(a,b) divides both inputs, is divided by every common divisor and is monic (zero only when both are zero), and lcm(a,b)*gcd(a,b) equals a*b up to a constant; the public subresultant_gcd over the integers never fails an exact division and returns a polynomial with the same common roots (associated to the gcd over the rationals).", "quantifier": "all pairs of polynomials over a field; for subresultant_gcd all pairs of polynomials over any integral domain with exact division", "why_tests_cant": "subresultant sequence of unbounded length, exactness of each division", "anchors": ["src/polynomial/gcd.rs: subresultant_gcd, gcd, gcd_lcm"]}
{"id": "C21", "title": "Extended gcd gives a Bezout identity", "statement": "extended_gcd(a,b) over a field returns monic g and cofactors x,y with x*a + y*b = g, g dividing both, with the degree bounds on x and y used by Hensel lifting.", "quantifier": "all pairs of polynomials over a field", "why_tests_cant": "unbounded Euclid chain", "anchors": ["src/polynomial/gcd.rs: extended_gcd"]}
{"id": "C22", "title": "Resultant", "statement": "resultant(a,b) is the determinant of the Sylvester matrix, hence zero exactly when a and b have a common root, and multiplicative; it never fails an exact division.", "quantifier": "all pairs of integer polynomials and of polynomials with polynomial coefficients", "why_tests_cant": "subresultant theory", "anchors": ["src/polynomial/gcd.rs: nonzero_resultant, resultant"]}
{"id": "C23", "title": "Derivative, norms, degree, leading coefficient", "statement": "derivative is the formal derivative; max_norm and manhattan_norm are the largest absolute coefficient and sum of absolute coefficients; degree, highest_power_coefficient and coefficient agree with the mathematical notions; into_monic divides by the leading coefficient. The multiplication by an index it uses is multiplication by that number, for nested polynomials too.", "quantifier": "all polynomials", "why_tests_cant": "unbounded degrees", "anchors": ["src/polynomial.rs: derivative, max_norm, manhattan_norm, degree, highest_power_coefficient, into_monic"]}
{"id": "C24", "title": "Square-free factorization", "statement": "square_free_factorization_using_yuns_algorithm(p) returns square-free, pairwise coprime factors f_1, f_2, ... with p = c * prod f_k^k for a constant c; is_square_free(p) is true exactly when no square of a nonconstant polynomial divides p.", "quantifier": "all nonzero polynomials with rational coefficients (of the coefficient types of the crate the only one with the traits that the API requires); is_square_free also modulo a prime", "why_tests_cant": "unbounded multiplicities", "anchors": ["src/polynomial.rs: square_free_factorization_using_yuns_algorithm, is_square_free"]}
{"id": "C25", "title": "Sturm root counting", "statement": "For a square-free integer polynomial the difference of the sign change counts of its primitive Sturm sequence at two rationals a<b that are not roots is the exact number of distinct real roots in (a,b).", "quantifier": "all polynomials, all pairs of points", "why_tests_cant": "number of roots of arbitrary polynomials", "anchors": ["src/polynomial.rs: to_primitive_sturm_sequence", "src/algebraic_numbers.rs: sign_changes_at"]}
{"id": "C26", "title": "Factorization multiplies back", "statement": "Whenever factor(p) returns, for every integer polynomial and every random stream, the constant and the polynomials with their exponents multiply to p; and it does not panic, as long as there is a prime below 2^31 to factor modulo, as there is unless the polynomial takes gigabytes.", "quantifier": "all integer polynomials, all random number streams", "why_tests_cant": "unbounded inputs and random choices", "anchors": ["src/polynomial/factorization_over_integers.rs: factor_with_rng, factor_square_free_polynomial_with_rng"]}
{"id": "C27", "title": "Factorization is complete", "statement": "every non-constant factor returned by factor(p) is irreducible over the integers.", "quantifier": "all integer polynomials, all random number streams", "why_tests_cant": "combinatorial search correctness depends on a coefficient bound and on every lifted factor being monic", "anchors": ["src/polynomial/factorization_over_integers.rs: factor_square_free_polynomial_with_rng"]}
{"id": "C28", "title": "Distinct-degree factorization", "statement": "Over a prime field, distinct_degree_factorization of a square-free monic polynomial returns factors f_d whose product is the input and all of whose irreducible factors have degree exactly d.", "quantifier": "all square-free polynomials over all prime fields", "why_tests_cant": "unbounded degree and characteristic", "anchors": ["src/polynomial/distinct_degree_factorization.rs"]}
{"id": "C29", "title": "Same-degree factorization", "statement": "Over an odd prime field, whatever the random stream, if same_degree_factorization terminates its output multiplies back to the input and each output has exactly the requested degree (hence is irreducible).", "quantifier": "all inputs and random streams", "why_tests_cant": "random streams", "anchors": ["src/polynomial/same_degree_factorization.rs"]}
{"id": "C30", "title": "Hensel lifting", "statement": "One lifting step takes a factor tree correct modulo m to a tree correct modulo m^2 whose factors reduce to the old ones modulo m; iterating gives a factorization modulo any needed power. Lifting goes on exactly as long as the modulus is below the square root of the coefficient bound plus one, compared as real numbers.", "quantifier": "all factor trees, moduli and numbers of steps", "why_tests_cant": "unbounded tree depth and steps", "anchors": ["src/polynomial/factorization_over_integers.rs: hensel_lift_step"]}
{"id": "C31", "title": "Modular integers form the ring Z/m", "statement": "ModularInteger::new reduces into [0,m) and +, -, *, neg commute with reduction; equality is congruence; operands with different moduli panic (checked_* return None).", "quantifier": "all positive moduli, all values, every integer width; what zero and negative moduli, which are accepted, do instead is stated separately", "why_tests_cant": "all widths and values", "anchors": ["src/mod_int.rs: ModularInteger, modular_add_ref_assign, modular_neg_assign, modular_mul_ref_assign"]}
{"id": "C32", "title": "Modular inverse", "statement": "checked_inverse(a mod m) returns b with a*b = 1 mod m exactly when gcd(a,m)=1, None otherwise; division is multiplication by it. (With modulus 1 the only value, its own inverse, is refused; with modulus 0 exactly 1 and -1 have inverses.)", "quantifier": "all values, all moduli of at least 2; moduli 1 and 0 as stated", "why_tests_cant": "all values", "anchors": ["src/mod_int.rs: checked_inverse, inverse, checked_div"]}
{"id": "C33", "title": "Modular power", "statement": "pow_modular_reduce(b,e,m) is b^e mod m.", "quantifier": "all bases, exponents, moduli", "why_tests_cant": "unbounded exponents", "anchors": ["src/mod_int.rs: pow_modular_reduce"]}
{"id": "C34", "title": "Modular polynomial power", "statement": "checked_powmod(p, e, m) is congruent to p^e modulo the polynomial m and reduced (degree below m).", "quantifier": "all polynomials and exponents", "why_tests_cant": "unbounded exponents", "anchors": ["src/polynomial/div_rem.rs: checked_powmod"]}
{"id": "C35", "title": "Integer log2 and trailing zeros", "statement": "floor_log2/ceil_log2 of a positive integer n are the floor/ceiling of its base 2 logarithm, None for n<=0; trailing_zeros is the exponent of 2 in n, None for 0.", "quantifier": "all integers of all widths", "why_tests_cant": "unbounded integers", "anchors": ["src/traits.rs: FloorLog2, CeilLog2, TrailingZeros"]}
{"id": "C36", "title": "Nearest division", "statement": "div_rem_nearest(a,b) returns q,r with a = q*b + r and |r| <= |b|/2; for rationals the division is exact and the remainder is zero.", "quantifier": "all integers and rationals", "why_tests_cant": "all sign patterns", "anchors": ["src/traits.rs: DivRemNearest"]}
{"id": "C37", "title": "gcd/lcm of rationals", "statement": "gcd of two rationals is the largest positive rational dividing both with integer quotients; lcm the least common multiple; extended gcd satisfies Bezout.", "quantifier": "all rationals", "why_tests_cant": "all values", "anchors": ["src/traits.rs: GCD for Ratio, ExtendedGCD"]}
{"id": "C38", "title": "Exact division of integers", "statement": "checked_exact_div(a,b) returns q exactly when b is nonzero and q*b = a; None otherwise.", "quantifier": "all integers", "why_tests_cant": "all values", "anchors": ["src/traits.rs: ExactDiv"]}
{"id": "C39", "title": "Rational conversions are exact", "statement": "RealAlgebraicNumber::from(rational) is represented exactly: is_rational, to_rational, is_integer, to_integer give back the value; conversions of irrationals give None.", "quantifier": "all rationals", "why_tests_cant": "all values", "anchors": ["src/algebraic_numbers.rs: From<Ratio<BigInt>>, to_rational, to_integer, is_rational, is_integer"]}
{"id": "C40", "title": "Negation and reciprocal of algebraic numbers", "statement": "-x and checked_recip(x) represent exactly the negation and the reciprocal; reciprocal of zero is None.", "quantifier": "all algebraic numbers, all representations", "why_tests_cant": "all minimal polynomials and isolating intervals", "anchors": ["src/algebraic_numbers.rs: Neg, checked_recip"]}
{"id": "C41", "title": "Sign of an algebraic number", "statement": "cmp_with_zero, is_zero, is_positive, is_negative, signum and abs agree with the real number represented.", "quantifier": "all algebraic numbers, all representations", "why_tests_cant": "all minimal polynomials and isolating intervals", "anchors": ["src/algebraic_numbers.rs: cmp_with_zero, abs, signum"]}
{"id": "C42", "title": "Interval shrinking keeps the represented root", "statement": "Each shrink step keeps the represented root inside the isolating interval, keeps it the only root, does not enlarge the interval and, iterated, makes the width tend to zero.", "quantifier": "all polynomials, intervals and numbers of steps", "why_tests_cant": "unbounded number of steps", "anchors": ["src/algebraic_numbers.rs: IntervalShrinker::shrink, distance"]}
{"id": "C43", "title": "Floor, ceiling, truncation, fractional part", "statement": "to_integer_floor/ceil/trunc are the floor, ceiling and truncation of the represented real and fract is x - floor(x).", "quantifier": "all algebraic numbers", "why_tests_cant": "termination and exactness for every representation", "anchors": ["src/algebraic_numbers.rs: into_integer_floor, to_integer_ceil, into_integer_trunc, into_fract"]}
{"id": "C44", "title": "Addition and subtraction of algebraic numbers are exact", "statement": "x + y and x - y represent exactly the sum and difference of the represented reals.", "quantifier": "all pairs of algebraic numbers in all representations", "why_tests_cant": "root selection among all roots of a resultant", "anchors": ["src/algebraic_numbers.rs: AddAssign, SubAssign, RootSelector::select_root, EvalPoint"]}
{"id": "C45", "title": "Multiplication and division of algebraic numbers are exact", "statement": "x * y and x / y (y nonzero) represent exactly the product and quotient; division by zero is None/panic.", "quantifier": "all pairs of algebraic numbers", "why_tests_cant": "root selection among all roots of a resultant", "anchors": ["src/algebraic_numbers.rs: MulAssign, checked_exact_div"]}
{"id": "C46", "title": "Comparison and equality are those of the reals", "statement": "cmp, ==, < on algebraic numbers agree with the order of the represented reals, so they form a total order consistent with equality.", "quantifier": "all pairs of algebraic numbers", "why_tests_cant": "needs exact zero test", "anchors": ["src/algebraic_numbers.rs: PartialEq, Ord"]}
{"id": "C47", "title": "Powers and roots", "statement": "checked_pow(x, n/d) is the real d-th root of x^n, with None exactly for 0 to a negative power and even roots of negatives.", "quantifier": "all algebraic numbers and rational exponents", "why_tests_cant": "unbounded exponents", "anchors": ["src/algebraic_numbers.rs: checked_pow_impl, checked_pow"]}
{"id": "C48", "title": "Integer log2 of algebraic numbers", "statement": "checked_floor_log2/checked_ceil_log2(x) are floor/ceil of log2 x for positive x and None otherwise.", "quantifier": "all algebraic numbers", "why_tests_cant": "all representations", "anchors": ["src/algebraic_numbers.rs: do_checked_floor_ceil_log2, to_integer_log2"]}
{"id": "C49", "title": "Prime generation", "statement": "is_prime_u32 decides primality for every u32 and next_prime/prev_prime return the adjacent prime (an odd one for next_prime below 3).", "quantifier": "all u32", "why_tests_cant": "four billion inputs and a table", "anchors": ["src/util.rs: is_prime_u32, next_prime_u32, prev_prime_u32"]}
{"id": "C50", "title": "Subset enumeration", "statement": "for_subsets_of_size calls back with every strictly increasing index tuple of the given size in the range, each exactly once, in lexicographic order, until the callback breaks (for an empty range it never calls back, not even with the empty tuple).", "quantifier": "all sizes, ranges and callbacks", "why_tests_cant": "combinatorial", "anchors": ["src/util.rs: for_subsets_of_size"]}
{"id": "C51", "title": "2D array positions iterator", "statement": "Interleaving next and next_back in any order visits every position of an x_size by y_size array exactly once, in column-major order from the front and reverse from the back, and len() is always the number left.", "quantifier": "all sizes and all interleavings of next/next_back", "why_tests_cant": "all histories", "anchors": ["src/array2d.rs: Positions"]}
{"id": "C52", "title": "Lattice reduction keeps the lattice", "statement": "lll_reduce returns a basis generating exactly the same integer lattice as its input at every step, and when it stops the result is size-reduced and satisfies the Lovasz condition.", "quantifier": "all integer bases, all numbers of steps", "why_tests_cant": "unbounded iteration", "anchors": ["src/lattice.rs: lll_reduce_with_delta"]}
{"id": "C53", "title": "Quadratic numbers", "statement": "The reduced form keeps the represented root, and negation, rational addition, sign and comparison agree with the represented real.", "quantifier": "all integer quadratics with real roots", "why_tests_cant": "all coefficients", "anchors": ["src/quadratic_numbers.rs: into_reduced, Neg, is_positive, quadratic_less_than"]}
{"id": "C54", "title": "Pseudo-prime tests", "statement": "is_pseudo_prime answers true for every prime and false for every composite number it can decide, and is_pseudo_prime_power returns the base and exponent of every prime power, without panicking.", "quantifier": "all integers", "why_tests_cant": "unbounded domain; the large-number branch is never exercised", "anchors": ["src/util.rs: IsPseudoPrime, IsPseudoPrimePower"]}
{"id": "C55", "title": "Sign algebra", "statement": "Sign::new gives the sign of a nonzero number (None for zero); xor of signs is the sign of the product, negation flips, and signs are ordered like the numbers.", "quantifier": "all pairs of elements of an ordered ring", "why_tests_cant": "all values of any ordered type", "anchors": ["src/util.rs: Sign"]}
{"id": "C56", "title": "Two-dimensional arrays", "statement": "Constructing an array calls the function once per position, in the order of the positions, and puts each result at its position; copying a slice into an owned array keeps size and elements. Indexing and slicing inside the bounds, with any kind of range, never panic and show the right elements; iterators over the elements (shared, mutable and owning, of owned arrays and of slices) hand out every element exactly once under any interleaving of next and next_back; swap_elements exchanges exactly two elements.", "quantifier": "all sizes, strides, slices, elements and histories of iterator calls", "why_tests_cant": "all histories", "anchors": ["src/array2d.rs: Array2DBase, Array2DOwned, Array2DSlice, SliceBounds, new_with_positions, resize_with, to_owned, Iter, IterMut, IntoIter"]}
{"id": "C57", "title": "Returned factors are distinct", "statement": "The factors of an integer polynomial returned by factor are square-free and no two of them share a root.", "quantifier": "all integer polynomials, all random number sequences, all heap orders", "why_tests_cant": "all random choices of the modular factorization", "anchors": ["src/polynomial/factorization/over_integers.rs: factor, factor_square_free"]}
{"id": "C58", "title": "Remainder and absolute difference of algebraic numbers", "statement": "x % y is x minus y times the truncated quotient, so it is smaller than y in size and has the sign of x; a zero y panics; abs_sub is max(x - y, 0).", "quantifier": "all pairs of algebraic numbers", "why_tests_cant": "needs exact truncation of every quotient", "anchors": ["src/algebraic_numbers.rs: RemAssign, Signed::abs_sub"]}
{"id": "C59", "title": "Lattice reduction finds short vectors", "statement": "The first column that lll_reduce returns is nearly a shortest vector: its squared length is at most 2^(n-1) times the squared length of every nonzero vector of the lattice generated by the n input columns.", "quantifier": "all numbers of columns and rows, all integer columns, all nonzero vectors of the lattice", "why_tests_cant": "it compares against infinitely many lattice vectors, for every input", "anchors": ["src/lattice.rs: lll_reduce, lll_reduce_with_delta"]}
{"id": "C60", "title": "Reciprocals and sums of quadratic numbers", "statement": "The reciprocal of a nonzero quadratic number is the reciprocal of its value, in the lowest terms that the other operations expect, and the sum of two quadratic numbers is returned whenever it is a quadratic number.", "quantifier": "all pairs of quadratic numbers", "why_tests_cant": "all coefficients", "anchors": ["src/quadratic_numbers.rs: checked_recip, checked_add, add_sub_sqrts"]}
{"id": "C61", "title": "Factoring ends", "statement": "Factoring a polynomial has no dead end: at whatever moment, there are finitely many random numbers with which it is done, and with random numbers in which no finite pattern is avoided for ever it always ends. Polynomials of degree n with coefficients of h bits, n (5 n + h) < 2^29, always have a suitable prime, so factoring them then returns a result.", "quantifier": "all polynomials with integer coefficients, all streams of random numbers, all positions in the stream, all states of the loop", "why_tests_cant": "the run depends on an endless stream of random numbers; that a split is always possible needs an argument over every finite field", "anchors": ["src/polynomial/same_degree_factorization.rs: same_degree_factorization", "src/polynomial/factorization_over_integers.rs: factor_with_rng, factor_square_free_polynomial_with_rng"]}
{"id": "C62", "title": "The Python class", "statement": "In Python, +, -, *, /, ** and the six comparisons between instances of RealAlgebraicNumber and integers, in either order, give the result of the same operation on the real numbers; the constructor, the conversions, math.floor, math.ceil, math.trunc, abs and negation are exact. ZeroDivisionError is raised exactly for a divisor that is zero, ValueError exactly for logarithms of numbers that are not positive and for powers without a result, TypeError for operands of other types and for pow with three arguments. The six comparisons of two operands never contradict each other.", "quantifier": "all instances and integers as left or right operand, all objects of other types", "why_tests_cant": "all operands in both orders; the interpreter picks the reflected method or the mirrored comparison depending on which operand is the instance", "anchors": ["src/python.rs: RealAlgebraicNumberPy2, SharedNumber, try_arithmetic_helper, arithmetic_helper"]}
{"id": "C63", "title": "Printed texts say what they stand for", "statement": "The text of a polynomial, read as a sum of products of coefficients and powers of the variable, stands for that polynomial; no text can be read as two different polynomials, so different polynomials print differently, also when the coefficients are themselves polynomials to any depth. Different factors, intervals and algebraic numbers (Debug text and Python repr) have different texts.", "quantifier": "all polynomials over integers, fractions, modular integers and polynomials over these nested to any depth, all texts; all factors, intervals and algebraic numbers", "why_tests_cant": "all pairs of values and every nesting depth; ambiguity shows only for particular combinations of nested coefficients and variable names", "anchors": ["src/polynomial.rs: get_variable_name, Display for Polynomial, Display for PolynomialFactor", "src/mod_int.rs: Display for ModularInteger", "src/interval_arithmetic.rs: Display and Debug for DyadicFractionInterval", "src/algebraic_numbers.rs: debug_real_algebraic_number", "src/python.rs: __repr__"]}
{"id": "C64", "title": "Iterating over the coefficients of a polynomial", "statement": "iter() and into_iter() on a polynomial produce its coefficients, constant term first, from whichever end they are asked for, each exactly once; the size hint is exact at all times; once the coefficients are used up, next and next_back return None for ever. Collecting coefficients into a polynomial gives the polynomial with these coefficients, so iterating and collecting gives the same polynomial back.", "quantifier": "all polynomials over all coefficient types, all histories of calls of next and next_back", "why_tests_cant": "all histories of calls mixing both ends; the consuming iterator gives away its divisor with the last coefficient", "anchors": ["src/polynomial.rs: Iter, IntoIter, FromIterator, Polynomial::iter"]}
{"id": "C65", "title": "Moduli and their markers", "statement": "A modulus stands for the same integer however it is wrapped (reference, KnownPrime, KnownOdd, the unit types Mod1 to Mod16) and converting it into any integer type never panics. A modulus whose type is marked as prime, odd or a prime power is that, and base_and_exponent gives the prime and the exponent, as long as the promises made through the _unsafe constructors are kept.", "quantifier": "all moduli built from integers, references, unit types and wrappers nested to any depth, all integer types", "why_tests_cant": "all nestings of wrappers and all moduli; a wrong marker shows only in the algorithms that rely on it", "anchors": ["src/mod_int.rs: Modulus, StaticModulus, PrimePowerModulus, PrimeModulus, OddModulus, KnownPrime, KnownOdd, KnownOddPrime, impl_static_modulus"]}
{"id": "C66", "title": "Conversions of polynomials", "statement": "The polynomial made from a coefficient is that constant; the polynomial made from elements and a divisor has their quotients as coefficients, and taking a polynomial apart and putting it together gives it back. A polynomial converts to a machine integer exactly if it is a constant that does; a machine integer converted to a polynomial converts back to itself in every type that holds it and to None in the others, for coefficients that are polynomials to any depth.", "quantifier": "all polynomials over all coefficient types nested to any depth, all element vectors and divisors, all machine integers of all types", "why_tests_cant": "all polynomials and all pairs of machine types; the boundary of each type, and unreduced vectors with trailing zeros or common factors", "anchors": ["src/polynomial.rs: From<T>, From<&T>, From<(Vec<T::Element>, T::Divisor)>, Into<(Vec<T::Element>, T::Divisor)>, FromPrimitive, ToPrimitive"]}
{"id": "C67", "title": "The constants do not depend on what was asked before", "statement": "sqrt_2(n) always returns the same interval for the same n, the tightest one with denominator 2^n, whatever precisions were requested before, by whichever threads and in whichever order. natural_log_of_2(n) is within one unit of the tightest interval at each end, so two calls with the same n differ by at most one unit at each end.", "quantifier": "all precisions, all pairs of histories of calls by any number of threads", "why_tests_cant": "the cache is filled from coarser or finer computations depending on the history, and histories cannot be enumerated", "anchors": ["src/interval_arithmetic.rs: ConstantCache, sqrt_2, natural_log_of_2"]}
{"id": "C68", "title": "All forms of an operation agree", "statement": "The value, reference, assigning, checked and scalar forms of an operator give the same result. For polynomials and modular integers: every form of +, -, * and negation; for modular integers also /, and operands with different moduli panic in the plain forms and give None in the checked ones. For intervals: adding, subtracting, multiplying or dividing by a number depends only on the value of the number and not on its type (any integer type, big or machine fractions, not necessarily reduced), encloses the exact results, panics on division by zero and on zero denominators; an integer acts as the one-point interval. For algebraic numbers: every form of + - * / and checked division, and powers for every kind of exponent.", "quantifier": "all operands, all integer types, all representations of a scalar or exponent", "why_tests_cant": "every operator has up to a dozen separately written forms, and a difference may show for a single pair of operands or a single type", "anchors": ["src/polynomial/add_sub.rs, src/polynomial/mul.rs: Add, AddAssign, CheckedAdd, Sub, SubAssign, CheckedSub, Mul, MulAssign, CheckedMul", "src/polynomial.rs: Neg, One, set_one_if_nonzero", "src/mod_int.rs: Add, Sub, Mul, Div, Neg, CheckedAdd, CheckedSub, CheckedMul, CheckedDiv and their assigning forms", "src/interval_arithmetic.rs: forward_op_to_op_assign, impl of operators with BigInt, Ratio and machine integers", "src/algebraic_numbers.rs: Add, Sub, Mul, Div, ExactDiv, Pow, IntoRationalExponent"]}
{"id": "C69", "title": "A checked assigning division that fails has no effect", "statement": "checked_exact_div_assign stores the quotient and reports success if there is one; otherwise it reports failure and leaves the left operand as it was.", "quantifier": "all pairs of polynomials, polynomials and coefficients, modular integers, intervals, integers of every type, fractions, algebraic numbers", "why_tests_cant": "all operands; the failure path is reached for divisors that do not divide, whose detection comes after part of the work has been done", "anchors": ["src/traits.rs: ExactDivAssign::checked_exact_div_assign", "src/polynomial/div_rem.rs: checked_exact_div_assign, checked_div_assign_single", "src/mod_int.rs, src/interval_arithmetic.rs, src/algebraic_numbers.rs: ExactDivAssign"]}
{"id": "C70", "title": "Reduced polynomials are canonical", "statement": "A polynomial is its reducing factor times its reduced form. Over the integers the reduced form of a nonzero polynomial has coefficients without a common factor and a positive leading coefficient; over the fractions and modulo a prime it is monic. Two nonzero polynomials have the same reduced form exactly when they are proportional, so reducing twice changes nothing more; zero stays zero with factor zero.", "quantifier": "all polynomials over the integers, the fractions and the integers modulo any prime", "why_tests_cant": "uniqueness relates all pairs of proportional polynomials", "anchors": ["src/polynomial.rs: reducing_factor, nonzero_reducing_factor, to_reduced, into_reduced, reduce_assign, get_nonzero_reducing_factor", "src/mod_int.rs: get_nonzero_reducing_factor"]}
{"id": "C71", "title": "Programs of any length are exact as long as every call is in the safe range", "statement": "Take any sequence of calls of the arithmetic of real algebraic numbers (constants, negation, absolute value, rounding, fractional part, reciprocal, powers, + - * / %, abs_sub) on variables, each storing its result in a variable, with any sharing and reuse. If, for the real numbers the variables stand for, every call is outside of the cases in which that single operation is known to fail, then after every run of the sequence each variable holds exactly the number it should hold; later tests, signs, conversions, integer parts and comparisons answer accordingly; and two runs with other random numbers, caches and starting intervals end with the same numbers. A sequence over rational numbers in which nothing is divided by zero always runs to its end. So does every sequence as above whose numbers are of moderate size, where roots and other broken powers are taken of positive integer constants, if the random numbers avoid no pattern for ever.", "quantifier": "all programs of any length, all starting values and their representations, all random numbers, heap orders and cache states in each single call", "why_tests_cant": "it ranges over unbounded histories of calls and over the surroundings of each call", "anchors": ["src/algebraic_numbers.rs: RealAlgebraicNumber operators, checked_recip, checked_pow, into_floor, into_ceil, into_trunc, into_fract, abs, abs_sub, cmp"]}
{"id": "C72", "title": "Logarithms and exponentials of intervals are as narrow as the precision allows", "statement": "The ends of the logarithm of an interval are within about one unit in the last place of the logarithms of its ends, and likewise for the exponential, so that narrower intervals at a higher precision give arbitrarily narrow results. In every case the result reaches at most ln 2 (logarithm) or a factor 2 (exponential), and a unit, further than it has to.", "quantifier": "all intervals and precisions for which the functions return, and every enclosure of ln 2 that is at most 8 units wide", "why_tests_cant": "the width must be bounded for every interval, at every precision", "anchors": ["src/interval_arithmetic.rs: log, into_log, log_core, exp, into_exp, natural_log_of_2"]}
{"id": "C73", "title": "Interval operations return the narrowest interval of their precision", "statement": "Constructing an interval, changing its precision, negation, sum, difference, product, square, reciprocal, square root, quotient, absolute value, floor, ceiling, union, and operations with integers and rationals return the narrowest interval with the precision of the result that contains every exact result: both ends are rounded once and outward only.", "quantifier": "all intervals of all precisions, all integers and rationals", "why_tests_cant": "optimality compares the result with every other interval that encloses the exact results, for every pair of operands and precisions", "anchors": ["src/interval_arithmetic.rs: from_ratio, from_ratio_range, convert_log2_denom, do_add_assign, do_sub_assign, do_mul_assign, square_assign, checked_recip, checked_exact_div, sqrt_assign, abs_assign, floor, ceil, interval_union_assign, neg, Add/Sub/Mul/Div with BigInt and Ratio"]}
{"id": "C74", "title": "Narrower operands never give wider or failing interval results", "statement": "Replace every interval that enters an expression of interval operations (negation, absolute value, square, reciprocal, square root, + - * / between intervals and with integers and rationals, in any nesting) by an interval inside it that is at least as precise. If the expression could be computed before, it can be computed again, and the new result lies inside the old one and is at least as precise. The same holds for the union of two intervals, for floor and ceiling, for constants and for changes of precision.", "quantifier": "all expressions of any size, all pairs of assignments of intervals where one refines the other", "why_tests_cant": "it compares two runs, over all pairs of nested intervals, for expressions of every size", "anchors": ["src/interval_arithmetic.rs: do_add_assign, do_sub_assign, do_mul_assign, square_assign, checked_recip, checked_exact_div, sqrt_assign, abs_assign, floor, ceil, interval_union_assign, from_ratio, convert_log2_denom, neg, Add/Sub/Mul/Div with BigInt and Ratio"]}
{"id": "C75", "title": "Interval expressions of any size enclose their value and converge to it", "statement": "For every expression of interval operations, including logarithms and arithmetic-geometric means, in any nesting: if the intervals of the variables contain given real numbers and the expression has a value for these numbers, the result contains this value. If moreover no root is taken of zero and no logarithm of a number 3*2^j, then for every wanted width there are a width and a precision for the variables from which on every call returns and the result has the wanted width.", "quantifier": "all expressions of any size, all real numbers for the variables, all intervals around them, every wanted width", "why_tests_cant": "it ranges over all expressions and is a statement about limits", "anchors": ["src/interval_arithmetic.rs: log, arithmetic_geometric_mean, do_add_assign, do_sub_assign, do_mul_assign, square_assign, checked_recip, checked_exact_div, sqrt_assign, abs_assign, neg, Add/Sub/Mul/Div with BigInt and Ratio"]}
{"id": "C76", "title": "Asking for a constant costs no more than half as many digits again", "statement": "For a request of natural_log_of_2(n) or sqrt_2(n) that the cache cannot answer, the constant is computed to at least n and to less than 3/2 (max(n, 32) + 1) binary digits; and the place in the cache never decreases with n, although it is computed in floating point.", "quantifier": "all precisions that fit usize, every f64::log2 that is monotone and accurate to 2^-10", "why_tests_cant": "it ranges over all precisions up to 2^64, and rounding can break monotonicity at any of them", "anchors": ["src/interval_arithmetic.rs: ConstantCache::log2_denom_to_cache_index, get_required_log2_denom_for_cache_index, fill_cache"]}
{"id": "C77", "title": "Arithmetic on roots of rational numbers is exact", "statement": "For real numbers some power of which is rational (square roots, cube roots and all other roots, with either sign, and their products, quotients and rational powers), addition, subtraction, multiplication, division, reciprocals, powers of positive numbers, integer powers of negative ones and comparisons return exactly the real result whenever the factorization they rest on is right (C27), and for roots of integers with positive exponents whatever they return is exact without that condition; then also x.pow(e).pow(f) == x.pow(e * f). Excepted are x + x, x - (-x), comparing x with -x, and multiplications or divisions with a rational result of two irrational numbers held in intervals that contain zero.", "quantifier": "all roots of rational numbers in every representation, all rational exponents, all programs built from these operations, all random choices and cache states", "why_tests_cant": "tests try a few square and cube roots with fixed intervals; the claim is about every root of every degree in every isolating interval", "anchors": ["src/algebraic_numbers.rs: impl Add, Sub, Mul, Div, ExactDiv, PartialEq, Ord for RealAlgebraicNumber", "src/algebraic_numbers.rs: RealAlgebraicNumber::checked_recip, checked_pow, recip, pow"]}
{"id": "C78", "title": "Histories of interval calls: in order, at the right precision, around the right number", "statement": "After any sequence of calls of the public functions of DyadicFractionInterval (constructors, setters, conversions, arithmetic, roots, powers, logarithm, exponential, means, unions, cached constants) on any number of variables, every interval has its lower bound at or below its upper bound, has exactly the log2_denom that the calls asked for, and contains the real number that the variable stands for. Excepted are, for the first claim, odd powers of at least 3 of a single negative number that are not multiples of the unit, and for the last claim also exponentials and odd powers of intervals with members of both signs where the power of the bound nearer to zero is not a multiple of the unit; these exceptions for powers are exact, and a sequence with such a power does leave an interval with its bounds in the wrong order.", "quantifier": "all sequences of calls of any length, all arguments, all states of the two caches of constants at every call", "why_tests_cant": "the invariants must survive every interleaving of mutating calls; tests call single functions on fresh intervals", "anchors": ["src/interval_arithmetic.rs: DyadicFractionInterval (all public functions)", "src/interval_arithmetic.rs: impl Pow for DyadicFractionInterval"]}
{"id": "C79", "title": "Equality of stored data and hashing", "statement": "Two polynomials that are equal as polynomials are == and hash alike with every hasher, however they were computed. The data of two algebraic numbers (minimal polynomial and isolating interval, as handed out by into_data/data) compare equal exactly when the polynomials, the precision and both bounds are equal; that is an equivalence relation, equal data belong to the same real number, and equal data hash alike with every hasher. Nothing is left out of the hash: a hasher that keeps all its input tells apart any two unequal data, even as prefixes. The data are no key for numbers: one number can have unequal data.", "quantifier": "all coefficient types, all polynomials, all pairs of algebraic numbers, all hashers", "why_tests_cant": "the values and the hashers are unbounded; a test fixes one hasher and a few values", "anchors": ["src/polynomial.rs: derive(PartialEq, Eq, Hash) on Polynomial", "src/interval_arithmetic.rs: derive(Hash) on DyadicFractionInterval, is_same", "src/algebraic_numbers.rs: Hash and PartialEq for RealAlgebraicNumberData"]}
{"id": "C80", "title": "Matrices print as tables in which everything is in line", "statement": "Printing an array never panics. In both forms ({} and {:#}) all lines of the output are equally long; every line of every element's text stands, unshortened and filled up with spaces to the width of its column, in the row and column where it belongs; in the alternate form bars and rules form a box, in the plain form every line is in brackets and, if some element has several lines, an empty line separates the rows. An array without elements prints its size.", "quantifier": "all arrays and slices of any size, all texts of the elements (any number of lines, any characters), both forms", "why_tests_cant": "layout depends on the maximum over all cells of unbounded texts, with byte lengths and character counts mixed", "anchors": ["src/array2d.rs: impl Display for Array2DBase"]}
{"id": "C81", "title": "Limits of machine words are not silent in exponentials, powers and logarithms of powers of two", "statement": "The exponential of an interval, when it returns, returns what unbounded arithmetic gives, even where the shift does not fit a machine word; it is unaffected by word sizes as long as the upper end is at most 2^61 and the precision below 2^61, and an interval reaching 2^64 is refused. Powers of intervals with an exponent of a machine type differ from the unbounded ones only for the smallest number of a signed type, which is refused. Powers of algebraic numbers with a numerator or denominator of the exponent from 2^64 on are refused unless the base is 0, 1, -1 or the power does not exist; otherwise the word size does not matter. The logarithm of a power of two is refused exactly when its absolute value is 2^63 or more. Logarithms of intervals are unaffected while precision and numerators are shorter than 2^63 bits (beyond that the casts wrap).", "quantifier": "all intervals, precisions, exponents of all integer types, algebraic numbers and rational exponents, without bound", "why_tests_cant": "the limits concern numbers no test can build in reasonable memory", "anchors": ["src/interval_arithmetic.rs: into_exp, Pow, floor_log2, ceil_log2", "src/algebraic_numbers.rs: checked_pow_impl, to_integer_log2"]}
{"id": "C82", "title": "Polynomials made from elements and any divisor", "statement": "A polynomial with Ratio coefficients made from a vector of numerators and a common non-zero divisor of any sign is the polynomial whose coefficients are the numerators over the divisor: reading its coefficients gives them, without leading zeros; it is == to every other polynomial with the same coefficients; sums, differences and products with it are those of the coefficients. A divisor of zero is refused.", "quantifier": "all vectors of numerators, all divisors, all pairs of such polynomials", "why_tests_cant": "unbounded vectors and numbers; the sign of the divisor is invisible in the coefficients", "anchors": ["src/polynomial.rs: From<(Vec<T::Element>, T::Divisor)>, normalize, reduce_divisor, coefficient", "src/polynomial/add_sub.rs: add_sub_assign", "src/polynomial/mul.rs: Mul"]}
{"id": "C83", "title": "Polynomials over machine integers: exact or refused with overflow checks, cut to the width without", "statement": "For polynomials with coefficients of a signed machine type: in a program compiled with overflow checks, a sum, difference, negation, product, scalar sum, difference or product, power, derivative, value at a point or pseudo-division that returns is the exact one; compiled without them, it always returns (the derivative: unless the degree is no number of the type) and every coefficient is the exact one cut to the width of the type. With checks, sums, differences, negations and scalar products panic exactly when a coefficient of the result does not fit, products, powers, values and pseudo-divisions exactly when an intermediate result does not. The checked_ forms return None exactly where the result does not fit.", "quantifier": "all widths, both ways of compiling, all polynomials, scalars, points and exponents", "why_tests_cant": "unbounded degrees; every combination of coefficients of 8 to 128 bits", "anchors": ["src/polynomial.rs: PolynomialCoefficient for i8..i128, isize, normalize, derivative, eval", "src/polynomial/add_sub.rs: add_sub_assign, add_sub_assign_single, Neg, CheckedAdd, CheckedSub", "src/polynomial/mul.rs: Mul, CheckedMul, checked_pow", "src/polynomial/div_rem.rs: checked_pseudo_div_rem"]}
{"id": "C84", "title": "Content, primitive part and norms of polynomials over machine integers", "statement": "For polynomials with coefficients of a signed machine type: the content (and the reducing factor), when returned, is a greatest common divisor of the coefficients with the sign of the leading one; without overflow checks it is always returned, with them it panics exactly when a leading stretch of at least two of the coefficients read has 2^(w-1) as greatest common divisor. The primitive part, when returned, times the content is the polynomial, has a positive leading coefficient and coprime coefficients; it panics exactly when the content does or when the content is -1 and a coefficient is the smallest number of the type, however the program was compiled. The sum of absolute values is exact with checks, panics exactly when it does not fit, and is cut to the width without; the largest absolute value panics with checks exactly when a coefficient is the smallest number, and without them passes over such coefficients.", "quantifier": "all widths, both ways of compiling, all polynomials", "why_tests_cant": "unbounded degrees, all coefficients, and the failures sit at single values of the type", "anchors": ["src/polynomial.rs: nonzero_content, content, primitive_part, get_nonzero_reducing_factor, reducing_factor, reduce_assign, max_norm, manhattan_norm, coefficient_abs", "src/traits.rs: GCD for integers, ExactDiv for integers"]}
{"id": "C85", "title": "Gcd, resultant and Sturm sequences of polynomials over machine integers", "statement": "For polynomials with coefficients of a signed machine type, in a program compiled with overflow checks: whatever subresultant_gcd returns is a greatest common divisor over every field containing the integers; whatever resultant returns for nonzero polynomials is the determinant of their Sylvester matrix, and nonzero_resultant is None exactly where that is zero; whatever to_primitive_sturm_sequence returns starts with the polynomial and counts its distinct real roots between two points by sign changes. Whatever is returned with checks is returned without them as well; where an intermediate result overflows, a program without checks may silently return a false common factor, a resultant that is not even the exact one cut to the width, or a Sturm sequence that counts too many roots.", "quantifier": "all widths from 2 bits, all polynomials; for the Sturm sequence all real end points that are no multiple roots", "why_tests_cant": "unbounded degrees; intermediate results grow much faster than the arguments, so which inputs overflow cannot be sampled", "anchors": ["src/polynomial/gcd.rs: subresultant_gcd, resultant, nonzero_resultant, exact_mul_by_signed_power", "src/polynomial.rs: to_primitive_sturm_sequence, into_primitive_sturm_sequence, coefficient_pow_usize", "src/polynomial/div_rem.rs: pseudo_div_rem, exact_div"]}
{"id": "C86", "title": "The width of the machine type changes no result", "statement": "For polynomials with coefficients of a signed machine type: whatever a call (sum, difference, negation, product, power, scalar operations, derivative, value, pseudo-division, division by a number, content, primitive part, norms, subresultant gcd, resultant, Sturm sequence) returns in a program compiled with overflow checks, the same call returns for every wider type, with and without overflow checks. Overflow is the only reason for pseudo-division, derivative, content, primitive part, gcd, resultant and Sturm sequence to panic: for all polynomials there is a width from which on they return.", "quantifier": "all pairs of widths, all polynomials and numbers", "why_tests_cant": "unbounded degrees, all pairs of types, all intermediate results", "anchors": ["src/polynomial.rs: PolynomialCoefficient for i8..i128, isize", "src/polynomial/gcd.rs: subresultant_gcd, resultant, nonzero_resultant", "src/polynomial/div_rem.rs: pseudo_div_rem, exact_div", "src/polynomial.rs: to_primitive_sturm_sequence, content, primitive_part, derivative, eval"]}
{"id": "C87", "title": "Programs of any length over machine polynomials", "statement": "A program performs sums, differences, negations, products, powers with positive exponents, scalar sums, differences and products and derivatives on polynomials with coefficients of a signed machine type, each operation on earlier results. Compiled with overflow checks, all results of a program that gets to its end are exact, and it gives the same results for every wider type. Compiled without, every result is the exact one with its coefficients cut to the width of the type; so a result whose exact value fits the type is exact even if the results it was computed from overflowed. Every program gets to its end with checks for every type that is wide enough.", "quantifier": "all programs, all widths, all polynomials given to them", "why_tests_cant": "unbounded number of operations, all their orders, all degrees and widths", "anchors": ["src/polynomial/add_sub.rs", "src/polynomial/mul.rs", "src/polynomial.rs: derivative", "src/polynomial.rs: PolynomialCoefficient for i8..i128, isize"]}
{"id": "C88", "title": "Polynomials over modular integers of every machine type", "statement": "For every integer type and every positive modulus the type can hold, every operation on polynomials over modular integers with that modulus returns the reduced polynomial that the operation of the ring of polynomials over the integers modulo m gives, and never overflows or panics: sums, differences, products, negation, scalar operations, powers, derivative, evaluation and pseudo-division for every modulus; division with remainder, exact division, powers modulo a polynomial, gcd, lcm, extended gcd and the distinct and same degree factorizations for prime moduli. Every polynomial is stored in exactly one way. Nonzero operands with different moduli are refused by sums, differences, products, scalar operations and evaluation; division refuses them too, except that the quotient by a polynomial of higher degree and the remainder of two constants are zero.", "quantifier": "all integer types (i8 to i128, u8 to u128, big integers), all moduli that fit, all polynomials of all degrees, all random streams", "why_tests_cant": "unbounded degrees and coefficients near the limit of every type; an overflow in one intermediate result breaks it", "anchors": ["src/mod_int.rs: PolynomialCoefficient for ModularInteger", "src/polynomial/add_sub.rs", "src/polynomial/mul.rs", "src/polynomial/div_rem.rs", "src/polynomial/gcd.rs", "src/polynomial/distinct_degree_factorization.rs", "src/polynomial/same_degree_factorization.rs"]}
{"id": "C89", "title": "Factoring with the stored arithmetic", "statement": "Factoring an integer polynomial, with the modular factorization in i32 modular integers, the lifting and the search in big modular integers, and every assertion of the code checked, returns for every input, random stream and heap order what factoring with exact residues returns: factors that multiply back, primitive, with positive leading coefficients, each irreducible or a product of two irreducible ones. No i32 overflows, no two moduli differ and no assertion fails for polynomials of moderate size (degree n and coefficients of h bits with n(5n+h) < 2^29); the only other panic is that no prime below 2^31 suits. The same holds of each stage: the choice of the prime, the modular factorization, the factor tree, each Hensel step, the lifting and the subset search.", "quantifier": "all integer polynomials of all degrees, all streams of random numbers, all orders the heap may deliver equal entries in, all odd primes below 2^31, all moduli of the lifting", "why_tests_cant": "an overflow or a failing assertion may show up only for one prime near 2^31 or one tree shape; inputs, primes and tree shapes are unbounded", "anchors": ["src/polynomial/factorization_over_integers.rs: factor_square_free_polynomial_with_rng", "src/polynomial/factorization_over_integers.rs: FactorTreeInteriorNode, set_modulus, hensel_lift_step", "src/polynomial/factorization_over_integers.rs: factor_with_rng, factor", "src/mod_int.rs: ModularInteger"]}
{"id": "C90", "title": "Resultants over modular integers", "statement": "For a prime modulus, in every integer type that can hold it, nonzero_resultant and resultant of two nonzero polynomials never panic and give the determinant of the Sylvester matrix; None is returned exactly for a zero argument or a common factor of positive degree; the resultant is multiplicative. subresultant_gcd never panics and has exactly the common divisors as divisors. The outcome (also a panic) does not depend on the integer type. For a modulus that is not prime there is no such guarantee: for every composite modulus there are polynomials with resultant 1 on which nonzero_resultant panics, and modulo 4 a resultant of 1 is reported as zero and a subresultant gcd is reported that divides neither argument.", "quantifier": "all integer types, all moduli, all polynomials of all degrees", "why_tests_cant": "degrees, moduli and coefficient values are unbounded, and an overflow may need a modulus close to the limit of the type", "anchors": ["src/polynomial/gcd.rs: Polynomial::nonzero_resultant, resultant, subresultant_gcd", "src/mod_int.rs: ModularInteger, ExactDiv"]}
{"id": "C91", "title": "Lattice reduction on stored arrays", "statement": "gram_schmidt, given an array or a slice of any stride with at least one row, never panics and returns an array whose columns are the Gram-Schmidt orthogonalization. lll_reduce keeps the sizes of the array; the columns it returns generate the same lattice and are reduced; it ends for every input; for linearly independent columns it never panics (no index out of range, no failed assertion, no division by zero); for two or more dependent columns it always panics; an array with at most one column is returned unchanged. The first column returned is at most 2^((n-1)/2) times as long as a shortest nonzero vector of the lattice of the input.", "quantifier": "all arrays of integers of all sizes (also slices of larger arrays for gram_schmidt), all constants up to 1", "why_tests_cant": "sizes and entries are unbounded, and an index error may depend on the size or on the order in which columns are recalculated", "anchors": ["src/lattice.rs: gram_schmidt, gram_schmidt_calculate_column, inner_product, LLLState, lll_reduce_with_delta, lll_reduce", "src/array2d.rs: Array2DOwned, Array2DSlice, slice, Index, swap_elements"]}
{"id": "C92", "title": "A thread that panics while it computes a constant harms no other thread", "statement": "The computation of ln 2 or sqrt 2 may panic at any time in any thread. The lock of the constant cache is never poisoned; every value returned to any thread has the requested precision and encloses the constant (for sqrt 2 it is the narrowest such interval); a call panics only because its own computation panics, never because of another thread; no guard is kept by a thread that returned, panicked or computes, and nobody has to wait for the computation of another thread (no deadlock); the cache only grows; reading and writing the cache are atomic.", "quantifier": "all numbers of threads, all interleavings of the steps of the lock, all points at which computations panic, all requested precisions", "why_tests_cant": "a race or a poisoned lock shows only in particular schedules and crash points; tests run a few schedules and no panics", "anchors": ["src/interval_arithmetic.rs: ConstantCache, read_cache, write_cache, fill_cache, get", "src/interval_arithmetic.rs: natural_log_of_2, sqrt_2"]}
{"id": "C93", "title": "Writes through mutable slices and iterators reach exactly the elements they name", "statement": "After any sequence of assignments, in-place updates and swaps through mutable slices of mutable slices (to any depth) and of writes through mutable iterators used from both ends, every element of the original array has the value that the same changes give when they are carried out on the coordinates (a slice being the window its ranges stand for); all other elements are unchanged. Two items of one mutable iterator never refer to the same element, each refers to the element at its position, and a complete pass updates every element exactly once. The sequence panics exactly if some range or position does not exist (empty slices excluded).", "quantifier": "all arrays and slices, all nesting depths and kinds of ranges, all sequences of changes, all interleavings of next and next_back", "why_tests_cant": "strides, offsets and the two ends of the iterators combine in unboundedly many ways; a wrong write may land in an element no test looks at", "anchors": ["src/array2d.rs: slice_mut, index_mut, swap_elements, iter_mut", "src/array2d.rs: IterOwnedData, IterMut, IterMutWithPositions"]}
{"id": "C94", "title": "Two-dimensional arrays do not go wrong at the limits of machine words", "statement": "On an array that fits in memory (its elements fill at most half of the address space) reading, slicing, iterating and every program of changes through nested mutable slices and mutable iterators do, in builds with and without overflow checks, what they do with unlimited integers, except that without the checks the largest word as inclusive end (or exclusive start) of a range is taken for zero. With the checks the constructors panic exactly if the number of elements is no word; new_with_positions does so in both builds; without the checks new and new_with of too many elements return, and the array then has a position that cannot be read or two positions that share an element. The iterator over positions hands out the right positions for all sizes; its len() is right or panics with the checks, and is right modulo the word size without them.", "quantifier": "all word sizes, both ways of compiling, all sizes, contents, ranges, programs and histories of calls", "why_tests_cant": "the limits are at sizes no test allocates, and intermediate results of the index arithmetic may overflow where the final one does not", "anchors": ["src/array2d.rs: get_index_unchecked, from_array, new, new_with, new_with_positions", "src/array2d.rs: do_slice, Positions, IterOwnedData"]}
{"id": "C95", "title": "A printed tree shows the whole tree", "statement": "Printing a tree writes the lines of all texts completely and from left to right, those of a leaf in column 4d+1 and those of an inner node, between two empty lines, in column 4d+3, where d is the depth; a vertical bar connects every inner node with the middle lines of its two subtrees, and the picture determines the tree (an empty leaf counts as an empty line). In particular two printed factor trees are equal only if all factors, products and Bezout coefficients are. An output that fails has been given the first lines of the picture, and its error is returned.", "quantifier": "all trees of any depth with texts of any number of lines, all outputs with any state and any point of failure", "why_tests_cant": "the prefixes of a line depend on the whole path to the node, and trees with different shapes must not look the same", "anchors": ["src/util.rs: LeafOrNodePair, PrintTree::write_or_print_tree, write_tree, print_tree", "src/polynomial/factorization_over_integers.rs: Display and PrintTree for the factor tree"]}
