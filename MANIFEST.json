{
 "claims": [
  {
   "property": "C01",
   "status": "proved",
   "theorems": [
    "Algebraics.C01_from_ratio",
    "Algebraics.C01_from_ratio_range",
    "Algebraics.C01_from_int_range",
    "Algebraics.C01_exact_constants",
    "Algebraics.C01_convert"
   ],
   "note": ""
  },
  {
   "property": "C02",
   "status": "proved",
   "theorems": [
    "Algebraics.C02_add",
    "Algebraics.C02_sub",
    "Algebraics.C02_neg",
    "Algebraics.C02_scalar",
    "Algebraics.C02_add_tight",
    "Algebraics.C02_sub_tight"
   ],
   "note": ""
  },
  {
   "property": "C03",
   "status": "proved",
   "theorems": [
    "Algebraics.C03_mul",
    "Algebraics.C03_mul_scalar",
    "Algebraics.C03_square",
    "Algebraics.C03_mul_tight"
   ],
   "note": ""
  },
  {
   "property": "C04",
   "status": "proved",
   "theorems": [
    "Algebraics.C04_recip",
    "Algebraics.C04_div",
    "Algebraics.C04_div_scalar"
   ],
   "note": ""
  },
  {
   "property": "C05",
   "status": "proved",
   "theorems": [
    "Algebraics.C05_sqrt"
   ],
   "note": ""
  },
  {
   "property": "C06",
   "status": "proved",
   "theorems": [
    "Algebraics.C06_ln2",
    "Algebraics.C06_sqrt2",
    "Algebraics.C06_ln2_direct"
   ],
   "note": ""
  },
  {
   "property": "C07",
   "status": "proved",
   "theorems": [
    "Algebraics.C07_log",
    "Algebraics.C07_log_not_positive"
   ],
   "note": ""
  },
  {
   "property": "C08",
   "status": "partial",
   "theorems": [
    "Algebraics.C08_enclosure_false",
    "Algebraics.C08_panics_iff_partial",
    "Algebraics.C08_narrow_partial",
    "Algebraics.C08_point_iff_partial",
    "Algebraics.C08_panics_every_odd_false",
    "Algebraics.C08_panics_false",
    "Algebraics.C08_exp_partial"
   ],
   "note": "False in full: exp panics on [32/2^51, 32/2^51] (C08_panics_false), and on some number at every odd precision from 41 on (C08_panics_every_odd_false); on some intervals with negative ends the result misses the exponential of a member (C08_enclosure_false). Proved: exactly when it panics (C08_panics_iff_partial, C08_point_iff_partial), that it never does on intervals of width up to 1/2 that are not a point and start within 2^25 of zero (C08_narrow_partial), and that whenever it returns, it encloses exp up to 2^-26 of a unit in the last place, exactly from below for nonnegative intervals."
  },
  {
   "property": "C09",
   "status": "partial",
   "theorems": [
    "Algebraics.C09_mixed_sign_false",
    "Algebraics.C09_negative_point_false",
    "Algebraics.C09_pow_partial",
    "Algebraics.C09_pow_exact_iff",
    "Algebraics.C09_pow_negative_exact_iff"
   ],
   "note": "False in full: odd powers of an interval with members of both signs lose members, odd powers of a one-point negative interval come out reversed. Both are proved as counterexamples; every other case is proved. C09_pow_exact_iff says for every interval and every exponent from 0 on whether the result holds the powers of all members; C09_pow_negative_exact_iff says the same for the negative exponents, where only the powers of a negative power of two go wrong, for example (-2)^(-3) with two digits after the point."
  },
  {
   "property": "C10",
   "status": "proved",
   "theorems": [
    "Algebraics.C10_floor_ceil",
    "Algebraics.C10_floor_ceil_tight",
    "Algebraics.C10_abs",
    "Algebraics.C10_abs_tight",
    "Algebraics.C10_set_to_bound",
    "Algebraics.C10_set_bound_to_zero",
    "Algebraics.C10_is_same",
    "Algebraics.C10_union",
    "Algebraics.C10_contains_zero",
    "Algebraics.C10_floor_log2",
    "Algebraics.C10_ceil_log2"
   ],
   "note": ""
  },
  {
   "property": "C11",
   "status": "proved",
   "theorems": [
    "Algebraics.C11_agm_within_hull",
    "Algebraics.C11_agm_converges",
    "Algebraics.C11_agm",
    "Algebraics.C11_agm_negative"
   ],
   "note": ""
  },
  {
   "property": "C12",
   "status": "proved",
   "theorems": [
    "Algebraics.C12_cache_sound",
    "Algebraics.C12_cache_monotone",
    "Algebraics.C12_cache_progress"
   ],
   "note": "The f64 formula of the cache index is a parameter, assumed monotone; critical sections of the RwLock are atomic steps."
  },
  {
   "property": "C13",
   "status": "proved",
   "theorems": [
    "Algebraics.C13_eq_iff_coefficients",
    "Algebraics.C13_no_leading_zero",
    "Algebraics.C13_rational_reduced",
    "Algebraics.C13_rational_divisor"
   ],
   "note": ""
  },
  {
   "property": "C14",
   "status": "proved",
   "theorems": [
    "Algebraics.C14_ring_ops",
    "Algebraics.C14_mul_scalar",
    "Algebraics.C14_constructors",
    "Algebraics.C14_pow"
   ],
   "note": ""
  },
  {
   "property": "C15",
   "status": "partial",
   "theorems": [
    "Algebraics.C15_add_exact_iff",
    "Algebraics.C15_sub_exact_iff",
    "Algebraics.C15_rational_false",
    "Algebraics.C15_scalar_partial",
    "Algebraics.C15_scalar_mod_partial",
    "Algebraics.C15_scalar_nested_partial",
    "Algebraics.C15_rational_result_partial",
    "Algebraics.C15_scalar_rational_partial"
   ],
   "note": "False in full: (1+x)/2 + 1/3 is computed as (5+x)/6 (proved). Proved for integer, modular and nested coefficients and for rational polynomials with integer coefficients. C15_rational_result_partial gives the coefficients that are computed for every rational polynomial and scalar. C15_add_exact_iff and C15_sub_exact_iff: exactly the inputs for which the result is right."
  },
  {
   "property": "C16",
   "status": "proved",
   "theorems": [
    "Algebraics.C16_pseudo_div_rem",
    "Algebraics.C16_factor_ne_zero"
   ],
   "note": ""
  },
  {
   "property": "C17",
   "status": "proved",
   "theorems": [
    "Algebraics.C17_div_rem",
    "Algebraics.C17_div_rem_rational",
    "Algebraics.C17_div_rem_mod_prime",
    "Algebraics.C17_exact_div",
    "Algebraics.C17_exact_div_int",
    "Algebraics.C17_div_scalar"
   ],
   "note": ""
  },
  {
   "property": "C18",
   "status": "proved",
   "theorems": [
    "Algebraics.C18_eval",
    "Algebraics.C18_eval_generic_rational",
    "Algebraics.C18_eval_generic_interval"
   ],
   "note": ""
  },
  {
   "property": "C19",
   "status": "proved",
   "theorems": [
    "Algebraics.C19_content",
    "Algebraics.C19_primitive_part",
    "Algebraics.C19_rational_content"
   ],
   "note": ""
  },
  {
   "property": "C20",
   "status": "proved",
   "theorems": [
    "Algebraics.C20_gcd",
    "Algebraics.C20_gcd_unique",
    "Algebraics.C20_gcd_lcm",
    "Algebraics.C20_subresultant_gcd",
    "Algebraics.C20_subresultant_roots"
   ],
   "note": ""
  },
  {
   "property": "C21",
   "status": "proved",
   "theorems": [
    "Algebraics.C21_extended_gcd",
    "Algebraics.C21_degree_bounds",
    "Algebraics.C21_degree_bounds_strict"
   ],
   "note": ""
  },
  {
   "property": "C22",
   "status": "proved",
   "theorems": [
    "Algebraics.C22_resultant_sylvester",
    "Algebraics.C22_nonzero_resultant",
    "Algebraics.C22_zero_argument",
    "Algebraics.C22_zero_iff_common_root",
    "Algebraics.C22_mul"
   ],
   "note": ""
  },
  {
   "property": "C23",
   "status": "proved",
   "theorems": [
    "Algebraics.C23_nested_multiply",
    "Algebraics.C23_nested_multiply_deeper",
    "Algebraics.C23_nested_multiply_zero",
    "Algebraics.C23_derivative",
    "Algebraics.C23_degree_leading",
    "Algebraics.C23_max_norm",
    "Algebraics.C23_manhattan_norm",
    "Algebraics.C23_monic"
   ],
   "note": ""
  },
  {
   "property": "C24",
   "status": "proved",
   "theorems": [
    "Algebraics.C24_yun",
    "Algebraics.C24_yun_constant",
    "Algebraics.C24_yun_multiplicity",
    "Algebraics.C24_is_square_free",
    "Algebraics.C24_is_square_free_mod",
    "Algebraics.C24_is_square_free_zero"
   ],
   "note": ""
  },
  {
   "property": "C25",
   "status": "proved",
   "theorems": [
    "Algebraics.C25_primitive_sturm",
    "Algebraics.C25_rational_sturm",
    "Algebraics.C25_open_interval",
    "Algebraics.C25_zero"
   ],
   "note": ""
  },
  {
   "property": "C26",
   "status": "proved",
   "theorems": [
    "Algebraics.C26_multiplies_back",
    "Algebraics.C26_no_panic",
    "Algebraics.C26_no_panic_sized"
   ],
   "note": "Proved for every heap order and random stream, whenever factoring returns. It never panics while a suitable prime below 2^31 exists for every square-free divisor (C26_no_panic), and such primes exist for every polynomial of degree n with coefficients of h bits, n (5 n + h) < 2^29 (C26_no_panic_sized)."
  },
  {
   "property": "C27",
   "status": "partial",
   "theorems": [
    "Algebraics.C27_irreducible_false",
    "Algebraics.C27_irreducible_partial",
    "Algebraics.C27_small_leading_partial",
    "Algebraics.C27_at_most_two_partial",
    "Algebraics.C27_low_degree_partial",
    "Algebraics.C27_leading_six_partial"
   ],
   "note": "False in full: (5x^4+x^2+1)(x^5-x^3-1) is returned unsplit (proved for every heap order and random stream). C27_at_most_two_partial: with no condition every factor returned is irreducible or a product of exactly two irreducible ones, and at most one of each power is reducible; those of degree up to 2 are irreducible. Irreducible whenever the residue of the leading coefficient modulo the prime divides it, in particular for leading coefficients 1, 2, 3, 4, 6 up to the sign; 5 is the first that fails. Same fuel and heap parameters as C26."
  },
  {
   "property": "C28",
   "status": "proved",
   "theorems": [
    "Algebraics.C28_distinct_degree",
    "Algebraics.C28_distinct_degree_complete",
    "Algebraics.C28_zero"
   ],
   "note": ""
  },
  {
   "property": "C29",
   "status": "proved",
   "theorems": [
    "Algebraics.C29_same_degree",
    "Algebraics.C29_same_degree_any",
    "Algebraics.C29_modular_factors"
   ],
   "note": "Proved for every random stream, whenever splitting ends; a run that draws only useless polynomials never ends (reported as fuel)."
  },
  {
   "property": "C30",
   "status": "proved",
   "theorems": [
    "Algebraics.C30_step",
    "Algebraics.C30_iterate",
    "Algebraics.C30_build",
    "Algebraics.C30_bound_arithmetic",
    "Algebraics.C30_bound"
   ],
   "note": ""
  },
  {
   "property": "C31",
   "status": "proved",
   "theorems": [
    "Algebraics.C31_new",
    "Algebraics.C31_eq_iff_congruent",
    "Algebraics.C31_add",
    "Algebraics.C31_sub",
    "Algebraics.C31_mul",
    "Algebraics.C31_neg",
    "Algebraics.C31_mul_by_usize",
    "Algebraics.C31_mismatch",
    "Algebraics.C31_zmod",
    "Algebraics.C31_zero_modulus",
    "Algebraics.C31_negative_modulus_false",
    "Algebraics.C31_new_negative",
    "Algebraics.C31_additive_negative",
    "Algebraics.C31_mul_negative"
   ],
   "note": "Proved for every positive modulus. Negative moduli are accepted by the API and multiplication is then wrong (proved by a counterexample). C31_new_negative, C31_additive_negative and C31_mul_negative say exactly what holds for them: only products that the modulus does not divide leave the range of representatives."
  },
  {
   "property": "C32",
   "status": "proved",
   "theorems": [
    "Algebraics.C32_inverse",
    "Algebraics.C32_div",
    "Algebraics.C32_prime",
    "Algebraics.C32_modulus_one",
    "Algebraics.C32_modulus_zero",
    "Algebraics.C32_inverse_negative"
   ],
   "note": "C32_inverse_negative: inverses for negative moduli."
  },
  {
   "property": "C33",
   "status": "partial",
   "theorems": [
    "Algebraics.C33_pow_big",
    "Algebraics.C33_pow_big_modint",
    "Algebraics.C33_pow_signed_partial",
    "Algebraics.C33_negative_exponent_false",
    "Algebraics.C33_negative_exponent_iff",
    "Algebraics.C33_pow_partial",
    "Algebraics.C33_pow_zero",
    "Algebraics.C33_pow_zero_false",
    "Algebraics.C33_pow_modint",
    "Algebraics.C33_pow_negative"
   ],
   "note": "False in full: for machine integers exponent 0 returns 1 even for modulus 1, and negative exponents of signed types are accepted with their sign ignored (both proved). Every other case is proved; for big integers the power is num-bigint's modpow, a parameter with its documented meaning. C33_pow_negative: exactly which powers are right for negative moduli."
  },
  {
   "property": "C34",
   "status": "partial",
   "theorems": [
    "Algebraics.C34_powmod",
    "Algebraics.C34_exponent_zero_not_reduced",
    "Algebraics.C34_powmod_zero_partial"
   ],
   "note": "Proved in full for positive exponents; exponent 0 returns 1 unreduced (proved false only for a constant modulus) and None for the zero polynomial."
  },
  {
   "property": "C35",
   "status": "proved",
   "theorems": [
    "Algebraics.C35_machine",
    "Algebraics.C35_floor_log2",
    "Algebraics.C35_ceil_log2",
    "Algebraics.C35_log2_unsigned",
    "Algebraics.C35_trailing_zeros"
   ],
   "note": ""
  },
  {
   "property": "C36",
   "status": "partial",
   "theorems": [
    "Algebraics.C36_rational",
    "Algebraics.C36_bigint_none",
    "Algebraics.C36_signed_correct_iff_partial",
    "Algebraics.C36_signed_none_partial",
    "Algebraics.C36_bigint_false",
    "Algebraics.C36_bigint_correct_iff_partial",
    "Algebraics.C36_signed_false",
    "Algebraics.C36_signed_partial",
    "Algebraics.C36_unsigned"
   ],
   "note": "False in full: BigInt adjusts in the wrong cases (correct iff the truncated remainder is half the divisor, proved), signed machine integers are wrong for negative dividends. Identity and the non-negative case are proved for every width. Exactly which quotients of signed machine integers are right, and exactly when the checked form returns none, is proved as well (C36_signed_correct_iff_partial, C36_signed_none_partial)."
  },
  {
   "property": "C37",
   "status": "partial",
   "theorems": [
    "Algebraics.C37_gcd_nonneg_iff",
    "Algebraics.C37_gcd_partial",
    "Algebraics.C37_gcd_sign_false",
    "Algebraics.C37_lcm",
    "Algebraics.C37_extended_gcd"
   ],
   "note": "gcd with one zero argument returns the other unchanged, so it can be negative (proved); everything else holds. C37_gcd_nonneg_iff: exactly when the result is not negative."
  },
  {
   "property": "C38",
   "status": "proved",
   "theorems": [
    "Algebraics.C38_exact_div_machine",
    "Algebraics.C38_exact_div",
    "Algebraics.C38_exact_div_none"
   ],
   "note": ""
  },
  {
   "property": "C39",
   "status": "proved",
   "theorems": [
    "Algebraics.C39_from_rational",
    "Algebraics.C39_to_rational",
    "Algebraics.C39_to_rational_reduced",
    "Algebraics.C39_to_integer",
    "Algebraics.C39_is_rational",
    "Algebraics.C39_round_trip"
   ],
   "note": ""
  },
  {
   "property": "C40",
   "status": "partial",
   "theorems": [
    "Algebraics.C40_neg",
    "Algebraics.C40_recip_rational",
    "Algebraics.C40_recip_method",
    "Algebraics.C40_recip_partial",
    "Algebraics.C40_recip_one_sign_partial",
    "Algebraics.C40_recip_false",
    "Algebraics.C40_recip_exact_iff",
    "Algebraics.C40_recip_fine",
    "Algebraics.C40_recip_any_exact_iff",
    "Algebraics.C40_recip_sound_partial"
   ],
   "note": "Negation and reciprocals of rationals: proved. Reciprocals of irrationals: false in full, 1/(3+sqrt 2) comes back with an interval holding two roots and its floor panics (proved); proved for numbers that are the only root of their sign, and up to isolation for all. C40_recip_any_exact_iff says exactly when the reciprocal is wrong, for every interval (C40_recip_exact_iff: the intervals that do not hold zero, with a bound on the fuel); C40_recip_fine: for every irrational number it is right from some precision of the interval on."
  },
  {
   "property": "C41",
   "status": "proved",
   "theorems": [
    "Algebraics.C41_cmp_with_zero",
    "Algebraics.C41_tests",
    "Algebraics.C41_abs_signum"
   ],
   "note": ""
  },
  {
   "property": "C42",
   "status": "proved",
   "theorems": [
    "Algebraics.C42_shrink"
   ],
   "note": ""
  },
  {
   "property": "C43",
   "status": "partial",
   "theorems": [
    "Algebraics.C43_to_integer",
    "Algebraics.C43_floor_ceil_trunc",
    "Algebraics.C43_fract_rational_partial",
    "Algebraics.C43_fract_false",
    "Algebraics.C43_fract_own_factor_partial",
    "Algebraics.C43_fract_irrational_partial",
    "Algebraics.C43_round_sound",
    "Algebraics.C43_fract_sound_partial",
    "Algebraics.C43_fract_total_partial",
    "Algebraics.C43_fract_exact_iff"
   ],
   "note": "Floor, ceiling, truncation: proved for all numbers. fract is false in full: the code truncates for negative rationals (proved). C43_fract_own_factor_partial uses the code's own factoring. C43_fract_total_partial: with fair random numbers fract of an irrational number of moderate size ends and is exact. C43_fract_exact_iff: exactly the rationals for which fract is right."
  },
  {
   "property": "C44",
   "status": "partial",
   "theorems": [
    "Algebraics.C44_add_comm",
    "Algebraics.C44_sub_opposite",
    "Algebraics.C44_add_unrelated_partial",
    "Algebraics.C44_add_degrees_partial",
    "Algebraics.C44_add_rational_sum_partial",
    "Algebraics.C44_sub_unrelated_partial",
    "Algebraics.C44_sub_degrees_partial",
    "Algebraics.C44_sub_rational_difference_partial",
    "Algebraics.C44_add_coprime_partial",
    "Algebraics.C44_sub_coprime_partial",
    "Algebraics.C44_add_false",
    "Algebraics.C44_add_recip_false",
    "Algebraics.C44_add_exact_iff",
    "Algebraics.C44_sub_exact_iff",
    "Algebraics.C44_add_partial",
    "Algebraics.C44_sub_partial",
    "Algebraics.C44_add_exact_partial",
    "Algebraics.C44_add_rational",
    "Algebraics.C44_sub_rational",
    "Algebraics.C44_both_rational",
    "Algebraics.C44_add_own_factor_partial",
    "Algebraics.C44_error_partial",
    "Algebraics.C44_add_sound_partial",
    "Algebraics.C44_sub_sound_partial",
    "Algebraics.C44_add_sound_integers_partial",
    "Algebraics.C44_add_total_partial",
    "Algebraics.C44_sub_total_partial",
    "Algebraics.C44_add_total_integers_partial",
    "Algebraics.C44_sub_total_integers_partial"
   ],
   "note": "False in full, with the code's own factoring: when an end point of the first enclosing interval is a root of another factor of the resultant, that end point is returned (C44_add_false; C44_add_recip_false reaches it through checked_recip alone). Proved: the result is exact unless such an end point is hit, always exact when one operand is rational. With the code's own factoring it is exact for unrelated numbers, for numbers of different degrees, for coprime degrees and for a rational sum or difference (the *_unrelated_, *_degrees_, *_coprime_, *_rational_* theorems). The *_total_partial theorems need no assumption about factoring: with fair random numbers, coprime degrees and operands of moderate size (Poly.ModeratePair) the operation ends with the exact result. The *_total_integers_partial theorems do the same for algebraic integers (small leading coefficients) that are unrelated, such as sqrt 2 and sqrt 3. The *_sound_* theorems say the same of whatever is returned, with nothing assumed about factoring, random numbers or size. C44_add_exact_iff and C44_sub_exact_iff say exactly when the result is wrong (RealAlg.EndpointHit, both operands and the result irrational) and that a rational number is returned then. C44_error_partial: a wrong sum or difference is off by at most the sum of the widths of the two intervals. C44_add_comm, C44_sub_opposite: a + b and b + a are the same number, a - b and b - a opposite ones, also where they are wrong."
  },
  {
   "property": "C45",
   "status": "partial",
   "theorems": [
    "Algebraics.C45_mul_zero",
    "Algebraics.C45_mul_unrelated_partial",
    "Algebraics.C45_mul_degrees_partial",
    "Algebraics.C45_mul_coprime_partial",
    "Algebraics.C45_div_rational_own_factor_partial",
    "Algebraics.C45_div_coprime_partial",
    "Algebraics.C45_mul_false",
    "Algebraics.C45_mul_exact_iff",
    "Algebraics.C45_mul_partial",
    "Algebraics.C45_mul_exact_partial",
    "Algebraics.C45_mul_rational",
    "Algebraics.C45_div_zero",
    "Algebraics.C45_div_rational",
    "Algebraics.C45_div_partial",
    "Algebraics.C45_mul_own_factor_partial",
    "Algebraics.C45_mul_sign_sound_partial",
    "Algebraics.C45_mul_error_partial",
    "Algebraics.C45_rational_product_partial",
    "Algebraics.C45_rational_product_signed",
    "Algebraics.C45_rational_product_false",
    "Algebraics.C45_rational_product_exact_iff",
    "Algebraics.C45_div_exact_iff",
    "Algebraics.C45_rational_quotient_partial",
    "Algebraics.C45_self_div_partial",
    "Algebraics.C45_self_div_fine",
    "Algebraics.C45_self_div_false",
    "Algebraics.C45_mul_sound_partial",
    "Algebraics.C45_div_sound_partial",
    "Algebraics.C45_mul_sound_integers_partial",
    "Algebraics.C45_mul_total_partial",
    "Algebraics.C45_div_total_partial",
    "Algebraics.C45_mul_total_integers_partial"
   ],
   "note": "False in full for the same reason as C44 (C45_mul_false). Exact when no end point is a root of another factor, always exact for a rational factor or divisor; division by zero is None. With the code's own factoring it is exact for unrelated numbers, for numbers of different degrees and for coprime degrees. The *_total_partial theorems need no assumption about factoring: with fair random numbers, coprime degrees and operands of moderate size (Poly.ModeratePair) the operation ends with the exact result. The *_total_integers_partial theorems do the same for algebraic integers (small leading coefficients) that are unrelated, such as sqrt 2 and sqrt 3. The *_sound_* theorems say the same of whatever is returned, with nothing assumed about factoring, random numbers or size. C45_mul_exact_iff says exactly when an irrational product of irrational numbers is wrong (RealAlg.EndpointHit). C45_mul_sign_sound_partial: the sign is right when the product of the intervals does not hold zero, whatever the factoring does. C45_rational_product_partial: a rational product of irrational numbers is exact or its negation is returned; C45_rational_product_signed: it is exact for numbers held in intervals without zero; C45_rational_product_false: sqrt 2 held in [-1, 2], squared, is -2. C45_div_exact_iff: exactly when a quotient is wrong, given a right reciprocal. C45_rational_quotient_partial and C45_self_div_partial: a rational quotient, in particular a / a, is exact if the reciprocal is right and the dividend is held with one sign; C45_self_div_fine: a / a is one for every irrational number held precisely enough; C45_self_div_false: (3 + sqrt 2) / (3 + sqrt 2), held in [4, 5], panics. C45_rational_product_exact_iff states exactly when a rational product of two irrational numbers is wrong."
  },
  {
   "property": "C46",
   "status": "partial",
   "theorems": [
    "Algebraics.C46_antisymmetric",
    "Algebraics.C46_exact_iff",
    "Algebraics.C46_transitive_false",
    "Algebraics.C46_unrelated_partial",
    "Algebraics.C46_degrees_partial",
    "Algebraics.C46_coprime_partial",
    "Algebraics.C46_eq_false",
    "Algebraics.C46_equal",
    "Algebraics.C46_rational",
    "Algebraics.C46_eq_partial",
    "Algebraics.C46_cmp_partial",
    "Algebraics.C46_disjoint_partial",
    "Algebraics.C46_disjoint_sound_partial",
    "Algebraics.C46_sound_partial",
    "Algebraics.C46_total_partial",
    "Algebraics.C46_total_integers_partial"
   ],
   "note": "False in full: comparison goes through subtraction, so it inherits the end point defect (C46_eq_false: two different numbers compare equal). Proved for rational operands and whenever the subtraction hits no foreign end point; equal numbers with identical data are equal. With the code's own factoring: right for unrelated numbers, for numbers of different degrees and for coprime degrees. The *_total_partial theorems need no assumption about factoring: with fair random numbers, coprime degrees and operands of moderate size (Poly.ModeratePair) the operation ends with the exact result. The *_total_integers_partial theorems do the same for algebraic integers (small leading coefficients) that are unrelated, such as sqrt 2 and sqrt 3. The *_sound_* theorems say the same of whatever is returned, with nothing assumed about factoring, random numbers or size. C46_disjoint_partial and C46_disjoint_sound_partial: numbers held in disjoint intervals compare right, the second whatever the factoring does. C46_antisymmetric: in every case, also the wrong ones, comparison is antisymmetric, equality symmetric, and both agree with each other. C46_transitive_false: equality is not transitive (sqrt 2 in [0, 2] equals both -sqrt 2 and sqrt 2 in [1, 2], which differ). C46_exact_iff: exactly when comparison is wrong."
  },
  {
   "property": "C47",
   "status": "partial",
   "theorems": [
    "Algebraics.RealAlg.C47_exponent_zero",
    "Algebraics.RealAlg.C47_exponent_one",
    "Algebraics.RealAlg.C47_base_zero",
    "Algebraics.RealAlg.C47_integer_power_rational",
    "Algebraics.RealAlg.C47_none_iff_partial",
    "Algebraics.RealAlg.C47_none_false",
    "Algebraics.RealAlg.C47_positive_rational_sound",
    "Algebraics.RealAlg.C47_positive_rational_partial",
    "Algebraics.RealAlg.C47_power_partial",
    "Algebraics.C47_alone_sound_partial",
    "Algebraics.C47_alone_partial",
    "Algebraics.C47_integer_interval_partial",
    "Algebraics.C47_integer_interval_total_partial",
    "Algebraics.C47_negative_sound_partial",
    "Algebraics.C47_negative_partial",
    "Algebraics.C47_negative_total_partial",
    "Algebraics.C47_returns_partial",
    "Algebraics.C47_small_power_partial",
    "Algebraics.C47_small_power_total_partial",
    "Algebraics.C47_integer_root_total_partial",
    "Algebraics.C47_prime_root_total_partial",
    "Algebraics.C47_sound_integers_partial",
    "Algebraics.C47_sound_integers_negative_partial"
   ],
   "note": "False as listed: (-8)^(1/3) and 0^0 are None (C47_none_false); the actual condition for None is proved (C47_none_iff_partial). Integer powers of rationals are exact; whatever is returned for a positive rational base is exact, with no assumption on log and exp (C47_positive_rational_sound). Roots and fractional powers of positive rationals up to e^16 return and are exact, with the code's own factoring and fair random numbers (C47_integer_root_total_partial, C47_prime_root_total_partial). Irrational bases: whatever is returned is exact, with no assumption on log and exp, if no conjugate has another nonnegative real power, such as roots of rationals (C47_alone_sound_partial); with integer isolating intervals and powers up to e^16 it also returns, with the code's own factoring (C47_integer_interval_total_partial), and the same for integer powers of negative bases (C47_negative_sound_partial, C47_negative_total_partial); other bases as long as the intervals of log and exp hold the power (C47_power_partial), and then the loop also ends, after a number of turns that depends on the base and the exponent only (C47_returns_partial), since exp can panic or be off by 2^-26 units (C08). The *_sound_* theorems say the same of whatever is returned, with nothing assumed about factoring, random numbers or size."
  },
  {
   "property": "C48",
   "status": "proved",
   "theorems": [
    "Algebraics.C48_log2",
    "Algebraics.C48_integer_log2",
    "Algebraics.C48_integer_log2_all"
   ],
   "note": ""
  },
  {
   "property": "C49",
   "status": "proved",
   "theorems": [
    "Algebraics.C49_is_prime",
    "Algebraics.C49_next_prime_u32",
    "Algebraics.C49_next_prime_u32_small",
    "Algebraics.C49_next_prime_i32",
    "Algebraics.C49_prev_prime_u32",
    "Algebraics.C49_prev_prime_i32"
   ],
   "note": ""
  },
  {
   "property": "C50",
   "status": "proved",
   "theorems": [
    "Algebraics.C50_subsets",
    "Algebraics.C50_empty_range"
   ],
   "note": ""
  },
  {
   "property": "C51",
   "status": "proved",
   "theorems": [
    "Algebraics.C51_positions"
   ],
   "note": ""
  },
  {
   "property": "C52",
   "status": "proved",
   "theorems": [
    "Algebraics.Lattice.C52_gram_schmidt_unique",
    "Algebraics.Lattice.C52_gram_schmidt",
    "Algebraics.Lattice.C52_same_lattice",
    "Algebraics.Lattice.C52_same_lattice_every_turn",
    "Algebraics.Lattice.C52_reduced",
    "Algebraics.Lattice.C52_terminates",
    "Algebraics.Lattice.C52_independent",
    "Algebraics.Lattice.C52_dependent_panics",
    "Algebraics.Lattice.C52_returns_iff"
   ],
   "note": "Proved for every input and every constant up to 1: the lattice after every turn, reducedness of the result, termination, and that linearly independent columns never panic. Two or more linearly dependent columns always end in a division by zero (C52_dependent_panics), so lll_reduce returns exactly for independent columns (C52_returns_iff)."
  },
  {
   "property": "C53",
   "status": "proved",
   "theorems": [
    "Algebraics.Quad.C53_new",
    "Algebraics.Quad.C53_roots",
    "Algebraics.Quad.C53_from",
    "Algebraics.Quad.C53_eq",
    "Algebraics.Quad.C53_is_zero_one",
    "Algebraics.Quad.C53_to",
    "Algebraics.Quad.C53_neg",
    "Algebraics.Quad.C53_sign",
    "Algebraics.Quad.C53_abs_signum",
    "Algebraics.Quad.C53_add_rational",
    "Algebraics.Quad.C53_sub_rational",
    "Algebraics.Quad.C53_cmp_rational",
    "Algebraics.Quad.C53_cmp",
    "Algebraics.Quad.C53_polynomial"
   ],
   "note": "All integer quadratics: new, the conversions, negation, rational sums and differences, signs, equality, comparison with rationals and with each other agree with the represented real, which has one lowest form. Sums of two irrationals and reciprocals are C60; to_f64 is not modelled (floats)."
  },
  {
   "property": "C54",
   "status": "partial",
   "theorems": [
    "Algebraics.C54_prime_power_base",
    "Algebraics.C54_prime_power_iff",
    "Algebraics.C54_prime_power_never_err",
    "Algebraics.C54_pseudo_prime_partial",
    "Algebraics.C54_pseudo_prime_sound",
    "Algebraics.C54_pseudo_prime_false",
    "Algebraics.C54_prime_power_partial",
    "Algebraics.C54_prime_power_false"
   ],
   "note": "False in full: no prime from 541^2 on is recognized (proved for all of them), 27 is reported as 3^5 and 8 panics (proved). Right below 541^2 and for numbers with a small factor; soundness of a true answer is proved for every input."
  },
  {
   "property": "C55",
   "status": "proved",
   "theorems": [
    "Algebraics.C55_sign",
    "Algebraics.C55_sign_bool"
   ],
   "note": ""
  },
  {
   "property": "C56",
   "status": "partial",
   "theorems": [
    "Algebraics.C56_from_array",
    "Algebraics.C56_index",
    "Algebraics.C56_slice_partial",
    "Algebraics.C56_slice_false",
    "Algebraics.C56_iterators",
    "Algebraics.C56_swap",
    "Algebraics.C56_slice_bounds",
    "Algebraics.C56_slice_bounds_panics",
    "Algebraics.C56_slice_owned_iff",
    "Algebraics.C56_new_with_positions",
    "Algebraics.C56_new_with_positions_pure",
    "Algebraics.C56_new_with",
    "Algebraics.C56_to_owned"
   ],
   "note": "False in full: an empty slice at the end of an array with a nonzero y start panics (proved, with the exact condition for a panic in C56_slice_owned_iff). Everything else is proved."
  },
  {
   "property": "C57",
   "status": "proved",
   "theorems": [
    "Algebraics.C57_factors_distinct"
   ],
   "note": "Proved for every random sequence and heap order."
  },
  {
   "property": "C58",
   "status": "partial",
   "theorems": [
    "Algebraics.C58_abs_sub_exact_iff",
    "Algebraics.C58_rem_own_factor_partial",
    "Algebraics.C58_rem_both_rational",
    "Algebraics.C58_rem_rational",
    "Algebraics.C58_rem_zero",
    "Algebraics.C58_abs_sub_rational",
    "Algebraics.C58_rem_coprime_total_partial",
    "Algebraics.C58_abs_sub_total_partial",
    "Algebraics.C58_rem_false",
    "Algebraics.C58_abs_sub_false",
    "Algebraics.C58_rem_sound_partial",
    "Algebraics.C58_abs_sub_sound_partial",
    "Algebraics.C58_rem_total_partial",
    "Algebraics.C58_rem_exact_iff",
    "Algebraics.C58_rem_small"
   ],
   "note": "False in full: 1 % (3 + sqrt 2) panics (C58_rem_false) and abs_sub of sqrt 2 and -sqrt 2 can be zero (C58_abs_sub_false), both through the defects of C40 and C44. Proved for a rational divisor, a zero divisor, and one rational operand (abs_sub). C58_rem_own_factor_partial uses the code's own factoring. The *_total_partial theorems: with fair random numbers the remainder by a rational number, and the remainder and abs_sub of two numbers of coprime degrees and moderate size, end and are exact; there the divisor must be the only root of its sign of its polynomial. The *_sound_* theorems say the same of whatever is returned, with nothing assumed about factoring, random numbers or size. C58_abs_sub_exact_iff: exactly when abs_sub is wrong. C58_rem_exact_iff: exactly when the remainder is wrong, given a right quotient; C58_rem_small: it is right when the dividend is smaller than the divisor."
  },
  {
   "property": "C59",
   "status": "proved",
   "theorems": [
    "Algebraics.Lattice.C59_reduced_short",
    "Algebraics.Lattice.C59_lll_short"
   ],
   "note": "For every reduced basis, and so for every result of lll_reduce."
  },
  {
   "property": "C60",
   "status": "partial",
   "theorems": [
    "Algebraics.Quad.C60_recip_canonical_iff",
    "Algebraics.Quad.C60_recip_partial",
    "Algebraics.Quad.C60_recip_false",
    "Algebraics.Quad.C60_add_never",
    "Algebraics.Quad.C60_add_sub_sqrts",
    "Algebraics.Quad.C60_add_false"
   ],
   "note": "False as listed: the reciprocal of every positive rational has a negative denominator, so it is not positive for is_positive and not equal to the same number (C60_recip_false); the sum of two irrationals is never computed (C60_add_never) and may be reported not to be quadratic although it is (C60_add_false). What holds: the value of the reciprocal of a rational. C60_add_sub_sqrts: the helper for sums of two roots returns polynomials that do have the sum and the difference as roots, and gives up exactly when neither the first radicand nor the product is a square (the second radicand is never tested). C60_recip_canonical_iff: exactly the rationals whose reciprocal has a positive denominator."
  },
  {
   "property": "C61",
   "status": "proved",
   "theorems": [
    "Algebraics.C61_can_finish",
    "Algebraics.C61_no_dead_end",
    "Algebraics.C61_fair_finishes",
    "Algebraics.C61_fair_finishes_sized",
    "Algebraics.C61_unfair_loops"
   ],
   "note": "Fair random numbers exist (exists_fair); C61_unfair_loops shows that the assumption is needed."
  },
  {
   "property": "C62",
   "status": "partial",
   "theorems": [
    "Algebraics.C62_new",
    "Algebraics.C62_integer_parts",
    "Algebraics.C62_conversions",
    "Algebraics.C62_minimal_polynomial",
    "Algebraics.C62_neg_abs",
    "Algebraics.C62_rational_operators",
    "Algebraics.C62_operators_partial",
    "Algebraics.C62_truediv_partial",
    "Algebraics.C62_zero_division",
    "Algebraics.C62_recip_partial",
    "Algebraics.C62_log2",
    "Algebraics.C62_pow_modulus",
    "Algebraics.C62_pow_value_error",
    "Algebraics.C62_pow_partial",
    "Algebraics.C62_type_errors",
    "Algebraics.C62_comparisons_consistent_partial",
    "Algebraics.C62_eq_false",
    "Algebraics.C62_add_exact_iff",
    "Algebraics.C62_sub_exact_iff",
    "Algebraics.C62_mul_exact_iff",
    "Algebraics.C62_truediv_exact_iff",
    "Algebraics.C62_compare_exact_iff",
    "Algebraics.C62_compare_int",
    "Algebraics.C62_pow_sound_partial",
    "Algebraics.C62_pow_roots",
    "Algebraics.C62_root_total_partial"
   ],
   "note": "Everything but the exactness of arithmetic on two irrational operands is proved in full; that inherits the limits of C44 to C47 (coprime degrees, moderate sizes) and is false in general (C62_eq_false). What the interpreter and PyO3 do around the methods is an assumption, stated at the head of Model/Python.lean. C62_add/sub/mul/truediv/compare_exact_iff state exactly when the operators and comparisons are wrong; with an int operand comparisons are always right (C62_compare_int)."
  },
  {
   "property": "C63",
   "status": "proved",
   "theorems": [
    "Algebraics.C63_variable_names",
    "Algebraics.C63_text_denotes",
    "Algebraics.C63_unambiguous",
    "Algebraics.C63_polynomial_injective",
    "Algebraics.C63_coefficient_injective",
    "Algebraics.C63_factor_injective",
    "Algebraics.C63_interval_injective",
    "Algebraics.C63_number_text"
   ],
   "note": "Plain {} and {:?} only; the alternate multi-line form and width options are not modelled. Integers and ratios print as num-bigint and num-rational document."
  },
  {
   "property": "C64",
   "status": "proved",
   "theorems": [
    "Algebraics.C64_iter",
    "Algebraics.C64_into_iter",
    "Algebraics.C64_drain",
    "Algebraics.C64_collect",
    "Algebraics.C64_round_trip"
   ],
   "note": "Every coefficient type and every history of calls."
  },
  {
   "property": "C65",
   "status": "partial",
   "theorems": [
    "Algebraics.C65_into_modulus",
    "Algebraics.C65_static",
    "Algebraics.C65_markers_partial",
    "Algebraics.C65_wrappers",
    "Algebraics.C65_unit_types",
    "Algebraics.C65_default_false"
   ],
   "note": "False in one respect: the wrappers derive Default, so KnownPrime::<i32>::default() is a modulus marked prime that stands for 0 without any unsafe call (C65_default_false). Otherwise proved; C65_markers_partial assumes the promises of the constructors, which default() breaks."
  },
  {
   "property": "C66",
   "status": "proved",
   "theorems": [
    "Algebraics.C66_from_coefficient",
    "Algebraics.C66_parts",
    "Algebraics.C66_to_primitive",
    "Algebraics.C66_round_trip",
    "Algebraics.C66_base",
    "Algebraics.C66_base_poly"
   ],
   "note": "The conversions of the coefficient type (BigInt, Ratio) are external and taken at their documented meaning; float conversions are not modelled."
  },
  {
   "property": "C67",
   "status": "proved",
   "theorems": [
    "Algebraics.C67_sqrt2_exact",
    "Algebraics.C67_sqrt2_same",
    "Algebraics.C67_ln2_near",
    "Algebraics.C67_ln2_same"
   ],
   "note": "Proved for both constants, for every monotone index formula, number of threads and interleaving. The statement for ln 2 allows one unit: equality would depend on the binary digits of ln 2."
  },
  {
   "property": "C68",
   "status": "proved",
   "theorems": [
    "Algebraics.C68_poly_add",
    "Algebraics.C68_poly_sub",
    "Algebraics.C68_poly_mul",
    "Algebraics.C68_poly_div_rem_assign",
    "Algebraics.C68_poly_mul_coeff",
    "Algebraics.C68_poly_negate",
    "Algebraics.C68_poly_one",
    "Algebraics.C68_modint_add",
    "Algebraics.C68_modint_sub",
    "Algebraics.C68_modint_mul",
    "Algebraics.C68_modint_neg",
    "Algebraics.C68_modint_div",
    "Algebraics.C68_modint_mismatch",
    "Algebraics.C68_interval_scalars",
    "Algebraics.C68_interval_integer",
    "Algebraics.C68_alg_ops",
    "Algebraics.C68_alg_pow",
    "Algebraics.C68_reduced_divisor",
    "Algebraics.C68_reduced_divisor_self"
   ],
   "note": "Forms of an operator that are literally one generated expression are one function of the model; those written separately are separate. Includes the reduced divisor of ratios and of the other coefficient types."
  },
  {
   "property": "C69",
   "status": "partial",
   "theorems": [
    "Algebraics.C69_poly",
    "Algebraics.C69_modint",
    "Algebraics.C69_interval",
    "Algebraics.C69_alg",
    "Algebraics.C69_int",
    "Algebraics.C69_ratio",
    "Algebraics.C69_poly_coeff_false",
    "Algebraics.C69_poly_coeff_partial"
   ],
   "note": "False for dividing a polynomial by a coefficient (C69_poly_coeff_false): the polynomial becomes zero. Proved for every other type; C69_poly_coeff_partial says exactly what happens."
  },
  {
   "property": "C70",
   "status": "proved",
   "theorems": [
    "Algebraics.C70_int",
    "Algebraics.C70_int_unique",
    "Algebraics.C70_rational",
    "Algebraics.C70_mod_prime"
   ],
   "note": "Proved for integers, fractions and integers modulo a prime."
  },
  {
   "property": "C71",
   "status": "proved",
   "theorems": [
    "Algebraics.C71_program_exact",
    "Algebraics.C71_program_observed",
    "Algebraics.C71_runs_agree",
    "Algebraics.C71_rational_program",
    "Algebraics.C71_program_ends",
    "Algebraics.C71_program_runs"
   ],
   "note": "The safe range is stated on the real numbers and their conjugates alone (Spec/History.lean): sums and products of coprime degrees or of unrelated algebraic integers, reciprocals of numbers that are the only conjugate of their sign, powers that stand alone. Outside of it single operations are known to go wrong (C40, C43, C44, C45, C47, C58). Programs over the rational numbers always run to their end (C71_rational_program). Clean programs over numbers of moderate size do so with the code's own factor and fair random numbers (C71_program_ends; Spec/HistoryEnds.lean says what moderate means, on the real numbers alone); powers other than integer powers of rational numbers are there limited to positive powers of positive integers made from a ratio or by rounding, because exp can panic (C08)."
  },
  {
   "property": "C72",
   "status": "partial",
   "theorems": [
    "Algebraics.C72_log_tight_partial",
    "Algebraics.C72_log_within",
    "Algebraics.C72_log_wide_false",
    "Algebraics.C72_exp_tight_partial",
    "Algebraics.C72_exp_within",
    "Algebraics.C72_exp_wide_false",
    "Algebraics.C72_log_converges_partial",
    "Algebraics.C72_exp_converges_partial"
   ],
   "note": "Proved for the intervals that have no number 3*2^j (logarithm) or no multiple of ln 2 (exponential) inside or just outside, with an explicit bound of one unit and a small fraction; the bounds ln 2 and factor 2 hold for all intervals; for the intervals that do contain such a number the claim is false, for every precision (C72_log_wide_false, C72_exp_wide_false), and that is proved too. In the limit: as an interval around y shrinks, its logarithm and exponential shrink to a point (C72_log_converges_partial, C72_exp_converges_partial), except at those numbers."
  },
  {
   "property": "C73",
   "status": "partial",
   "theorems": [
    "Algebraics.C73_unique",
    "Algebraics.C73_constructors",
    "Algebraics.C73_add_sub",
    "Algebraics.C73_mul",
    "Algebraics.C73_recip_sqrt",
    "Algebraics.C73_abs_floor_ceil",
    "Algebraics.C73_scalar",
    "Algebraics.C73_div_false",
    "Algebraics.C73_div_partial"
   ],
   "note": "Proved for every operation of the list but the quotient of two intervals, for which it is false at every precision (C73_div_false: 4/3 comes out four units wide); how far the quotient can be off is proved (C73_div_partial). The narrowest interval is unique (C73_unique), so the theorems determine the results."
  },
  {
   "property": "C74",
   "status": "proved",
   "theorems": [
    "Algebraics.C74_expressions",
    "Algebraics.C74_union_round"
   ],
   "note": "The claim is about the algebraic operations; log and the arithmetic-geometric mean round inside an iteration and are not part of it. They are covered by C75."
  },
  {
   "property": "C75",
   "status": "proved",
   "theorems": [
    "Algebraics.C75_encloses",
    "Algebraics.C75_converges"
   ],
   "note": "Every logarithm may see its own enclosure of ln 2 (IsLn2); C06 proves that natural_log_of_2 delivers such enclosures in every cache state."
  },
  {
   "property": "C76",
   "status": "proved",
   "theorems": [
    "Algebraics.C76_index_monotone",
    "Algebraics.C76_cost"
   ],
   "note": ""
  },
  {
   "property": "C77",
   "status": "proved",
   "theorems": [
    "Algebraics.C77_add",
    "Algebraics.C77_sub",
    "Algebraics.C77_compare",
    "Algebraics.C77_mul",
    "Algebraics.C77_recip",
    "Algebraics.C77_pow",
    "Algebraics.C77_pow_negative",
    "Algebraics.C77_div",
    "Algebraics.C77_own_factor",
    "Algebraics.C77_power_law",
    "Algebraics.C77_total",
    "Algebraics.C77_program"
   ],
   "note": "The exceptions are real: C44_add_false, C46_eq_false and C45_rational_product_false are about square roots of two. C77_total: the operations also end, with fair random numbers and moderate sizes."
  },
  {
   "property": "C78",
   "status": "proved",
   "theorems": [
    "Algebraics.C78_pow_ordered_iff",
    "Algebraics.C78_ordered",
    "Algebraics.C78_ordered_iff",
    "Algebraics.C78_precisions",
    "Algebraics.C78_encloses",
    "Algebraics.C78_inverted_false"
   ],
   "note": ""
  },
  {
   "property": "C79",
   "status": "proved",
   "theorems": [
    "Algebraics.C79_polynomial",
    "Algebraics.C79_equivalence",
    "Algebraics.C79_data",
    "Algebraics.C79_hash_complete",
    "Algebraics.C79_data_iff",
    "Algebraics.C79_same_number_false"
   ],
   "note": ""
  },
  {
   "property": "C80",
   "status": "proved",
   "theorems": [
    "Algebraics.C80_alternate",
    "Algebraics.C80_plain",
    "Algebraics.C80_empty"
   ],
   "note": ""
  },
  {
   "property": "C81",
   "status": "proved",
   "theorems": [
    "Algebraics.C81_pow_typed",
    "Algebraics.C81_pow_signed",
    "Algebraics.C81_pow_unsigned",
    "Algebraics.C81_exp_exact",
    "Algebraics.C81_exp_unaffected",
    "Algebraics.C81_exp_refused",
    "Algebraics.C81_alg_pow",
    "Algebraics.C81_log2_unaffected",
    "Algebraics.C81_log2_wraps",
    "Algebraics.C81_integer_log2"
   ],
   "note": ""
  },
  {
   "property": "C82",
   "status": "partial",
   "theorems": [
    "Algebraics.C82_value",
    "Algebraics.C82_canonical_iff",
    "Algebraics.C82_negative",
    "Algebraics.C82_zero_divisor",
    "Algebraics.C82_add_partial",
    "Algebraics.C82_sub_partial",
    "Algebraics.C82_mul",
    "Algebraics.C82_false"
   ],
   "note": "False for negative divisors: the sign stays in the divisor, so == fails exactly unless all elements are zero (C82_canonical_iff, C82_negative), and a sum or difference of two polynomials whose divisors have different signs is the negative of the right one (C82_add_partial, C82_sub_partial, C82_false). A zero divisor is accepted and makes the coefficients unreadable (C82_zero_divisor). Coefficients and products are right for every non-zero divisor (C82_value, C82_mul)."
  },
  {
   "property": "C83",
   "status": "partial",
   "theorems": [
    "Algebraics.C83_checks",
    "Algebraics.C83_wraps",
    "Algebraics.C83_panics_iff",
    "Algebraics.C83_mul_panics_iff",
    "Algebraics.C83_eval_panics_iff",
    "Algebraics.C83_exact_fits_counterexample",
    "Algebraics.C83_derivative",
    "Algebraics.C83_pow",
    "Algebraics.C83_pseudo_div_rem",
    "Algebraics.C83_checked_never_none",
    "Algebraics.C83_checked_add_counterexample",
    "Algebraics.C83_mul_returns",
    "Algebraics.C83_pow_returns",
    "Algebraics.C83_eval_returns",
    "Algebraics.MachinePoly.C83_pow_panics_iff",
    "Algebraics.MachinePoly.C83_pseudo_div_rem_panics_iff"
   ],
   "note": "Proved for every width and both ways of compiling (C83_checks, C83_wraps, C83_pow, C83_pseudo_div_rem, C83_derivative), with exact conditions for the panics of sums, differences, negations, scalar operations, products, powers, values, derivatives and pseudo-divisions (C83_panics_iff, C83_mul_panics_iff, C83_pow_panics_iff, C83_eval_panics_iff, C83_pseudo_div_rem_panics_iff). The sentence on the checked_ forms is false: they never return None (C83_checked_never_none, C83_checked_add_counterexample). A product or value may panic although the exact result fits (C83_exact_fits_counterexample). Sizes for which products, powers and values are returned: C83_mul_returns, C83_pow_returns, C83_eval_returns."
  },
  {
   "property": "C84",
   "status": "proved",
   "theorems": [
    "Algebraics.C84_content",
    "Algebraics.C84_content_zero",
    "Algebraics.C84_primitive_part",
    "Algebraics.C84_manhattan_norm",
    "Algebraics.C84_max_norm"
   ],
   "note": "Integer::gcd of num-integer is an assumption: the exact greatest common divisor, with an overflow at 2^(w-1) treated like that of an operator. Note the consequences: [0, -128, 3] has no content with overflow checks, and [-128, 1, -1] no primitive part at all."
  },
  {
   "property": "C85",
   "status": "proved",
   "theorems": [
    "Algebraics.C85_subresultant_gcd",
    "Algebraics.C85_resultant",
    "Algebraics.C85_resultant_zero",
    "Algebraics.C85_primitive_sturm",
    "Algebraics.C85_same_without_checks",
    "Algebraics.C85_gcd_wraps_counterexample",
    "Algebraics.C85_resultant_wraps_counterexample",
    "Algebraics.C85_sturm_wraps_counterexample",
    "Algebraics.C85_fits_but_panics",
    "Algebraics.C85_wraps_may_panic"
   ],
   "note": ""
  },
  {
   "property": "C86",
   "status": "proved",
   "theorems": [
    "Algebraics.C86_wider",
    "Algebraics.C86_unchecked",
    "Algebraics.C86_wraps_counterexample",
    "Algebraics.C86_wide_enough"
   ],
   "note": ""
  },
  {
   "property": "C87",
   "status": "proved",
   "theorems": [
    "Algebraics.C87_checks",
    "Algebraics.C87_wraps",
    "Algebraics.C87_overflow_on_the_way",
    "Algebraics.C87_wider",
    "Algebraics.C87_wide_enough"
   ],
   "note": ""
  },
  {
   "property": "C88",
   "status": "proved",
   "theorems": [
    "Algebraics.ModPoly.C88_unique",
    "Algebraics.ModPoly.C88_ring",
    "Algebraics.ModPoly.C88_scalar",
    "Algebraics.ModPoly.C88_pow",
    "Algebraics.ModPoly.C88_derivative_eval",
    "Algebraics.ModPoly.C88_pseudo_div_rem",
    "Algebraics.ModPoly.C88_div_rem",
    "Algebraics.ModPoly.C88_exact_div",
    "Algebraics.ModPoly.C88_div_scalar",
    "Algebraics.ModPoly.C88_powmod",
    "Algebraics.ModPoly.C88_gcd",
    "Algebraics.ModPoly.C88_gcd_lcm",
    "Algebraics.ModPoly.C88_extended_gcd",
    "Algebraics.ModPoly.C88_distinct_degree",
    "Algebraics.ModPoly.C88_same_degree",
    "Algebraics.ModPoly.C88_zero_any_modulus",
    "Algebraics.ModPoly.C88_mismatch_ring",
    "Algebraics.ModPoly.C88_mismatch_scalar",
    "Algebraics.ModPoly.C88_mismatch_division"
   ],
   "note": ""
  },
  {
   "property": "C89",
   "status": "proved",
   "theorems": [
    "Algebraics.ModPoly.C89_prime",
    "Algebraics.ModPoly.C89_modular_factors",
    "Algebraics.ModPoly.C89_build",
    "Algebraics.ModPoly.C89_hensel_step",
    "Algebraics.ModPoly.C89_lift",
    "Algebraics.ModPoly.C89_recombine",
    "Algebraics.ModPoly.C89_same",
    "Algebraics.ModPoly.C89_multiplies_back",
    "Algebraics.ModPoly.C89_irreducible",
    "Algebraics.ModPoly.C89_no_panic",
    "Algebraics.ModPoly.C89_finishes"
   ],
   "note": ""
  },
  {
   "property": "C90",
   "status": "proved",
   "theorems": [
    "Algebraics.ModPoly.C90_nonzero_resultant",
    "Algebraics.ModPoly.C90_resultant",
    "Algebraics.ModPoly.C90_zero_argument",
    "Algebraics.ModPoly.C90_none_iff",
    "Algebraics.ModPoly.C90_mul",
    "Algebraics.ModPoly.C90_subresultant_gcd",
    "Algebraics.ModPoly.C90_type_independent",
    "Algebraics.ModPoly.C90_composite_panics",
    "Algebraics.ModPoly.C90_total_iff_prime",
    "Algebraics.ModPoly.C90_composite_wrong",
    "Algebraics.ModPoly.C90_subresultant_gcd_composite_wrong"
   ],
   "note": ""
  },
  {
   "property": "C91",
   "status": "proved",
   "theorems": [
    "Algebraics.C91_gram_schmidt",
    "Algebraics.C91_gram_schmidt_owned",
    "Algebraics.C91_reduce",
    "Algebraics.C91_terminates",
    "Algebraics.C91_independent",
    "Algebraics.C91_dependent_panics",
    "Algebraics.C91_returns_iff",
    "Algebraics.C91_few_columns",
    "Algebraics.C91_short"
   ],
   "note": ""
  },
  {
   "property": "C92",
   "status": "proved",
   "theorems": [
    "Algebraics.C92_survives_panics",
    "Algebraics.C92_own_panic",
    "Algebraics.C92_no_deadlock",
    "Algebraics.C92_exclusive",
    "Algebraics.C92_no_guard_kept",
    "Algebraics.C92_cache_monotone",
    "Algebraics.C92_atomic",
    "Algebraics.C92_sqrt2",
    "Algebraics.C92_ln2"
   ],
   "note": ""
  },
  {
   "property": "C93",
   "status": "proved",
   "theorems": [
    "Algebraics.C93_program",
    "Algebraics.C93_program_runs",
    "Algebraics.C93_slice_write",
    "Algebraics.C93_slice_swap",
    "Algebraics.C93_references",
    "Algebraics.C93_iter_mut",
    "Algebraics.C93_for_each"
   ],
   "note": ""
  },
  {
   "property": "C94",
   "status": "proved",
   "theorems": [
    "Algebraics.C94_positions",
    "Algebraics.C94_len_counterexample",
    "Algebraics.C94_from_array_checks",
    "Algebraics.C94_from_array_wraps",
    "Algebraics.C94_new",
    "Algebraics.C94_new_wraps",
    "Algebraics.C94_new_counterexample",
    "Algebraics.C94_new_with_positions",
    "Algebraics.C94_program",
    "Algebraics.C94_reads",
    "Algebraics.C94_largest_word",
    "Algebraics.C94_slice_counterexample"
   ],
   "note": ""
  },
  {
   "property": "C95",
   "status": "proved",
   "theorems": [
    "Algebraics.FTree.C95_factor_tree_lines",
    "Algebraics.FTree.C95_factor_tree",
    "Algebraics.FTree.C95_factor_tree_size",
    "Algebraics.FTree.C95_lines",
    "Algebraics.FTree.C95_carriage_return",
    "Algebraics.PTree.C95_leaf",
    "Algebraics.PTree.C95_node",
    "Algebraics.PTree.C95_size",
    "Algebraics.PTree.C95_columns",
    "Algebraics.PTree.C95_read_back",
    "Algebraics.PTree.C95_output",
    "Algebraics.PTree.C95_full_output"
   ],
   "note": ""
  }
 ]
}