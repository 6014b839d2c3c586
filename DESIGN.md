# Formal model of programmerjake/algebraics

The model is written in Lean 4 under `lean/Verif/`. Nothing in `/repo` is compiled or run: the
model is a hand translation, function by function, and each definition cites the lines it models.

## Layout

* `Verif/Model/*.lean`  — executable definitions only (the translation of the Rust code).
* `Verif/Spec/*.lean`   — small independent specifications (what the English property means).
* `Verif/Lemmas/*.lean` — helper lemmas, not part of the claims.
* `Verif/Props/*.lean`  — the property theorems `Cnn_*`, each with a non-vacuity `example`.

## Modelling conventions

* `BigInt`/`BigUint`/fixed width integers are `Int`/`Nat` (overflow is out of scope except where a
  property is about it); `usize` exponents and precisions are `Nat`.
* `Ratio<BigInt>` is Lean's `Rat`, which keeps the same invariant (positive denominator, lowest terms).
* `&mut self` methods return the new value; `Option`/`Result` stay data; `panic!`/`assert!` is
  `none` of an `Option` wherever the panic can be observed, and is named in the comment.
* Loops are structural recursion or take explicit fuel; where fuel is used either a termination
  theorem says which fuel is enough or the theorem is about every terminating run.
* The random number generator is a parameter (an arbitrary function/stream), so theorems hold for
  every random stream. The standard library `BinaryHeap` tie breaking is a parameter where it matters.

## Trusted base

* Lean's kernel (Lean 4.33.0). Every theorem depends on at most the axioms `propext`,
  `Classical.choice` and `Quot.sound`; there are no other axioms, no `sorry`/`admit`, no
  `native_decide`/`bv_decide`. `decide +kernel` is used for concrete witnesses only (kernel evaluation).
* The translation from Rust to Lean, which is by reading; each definition of `Verif/Model` cites its
  lines.
* What the code calls outside the crate is taken at its documented meaning: `num-bigint` integers are
  `Int`/`Nat`, `num-rational`'s `Ratio<BigInt>` is `Rat`, `Roots::sqrt` is the integer square root
  (`Nat.sqrt`), `num-integer`'s `extended_gcd` is a parameter satisfying the Bezout identity
  (`IsExtGcd`), `RwLock` excludes readers and writers and is poisoned only by a panic under the write guard (that the critical sections are then atomic is C92), `BinaryHeap::pop` removes an entry of least degree
  (which one of several is the parameter `choose`), `rand` is an arbitrary stream, and PyO3 and the Python
  interpreter dispatch operators as said at the head of `Model/Python.lean`. Integers print as decimal digits
  with a minus sign and ratios as `n/d` (`n` when `d` is one), and `debug_struct` prints its fields as
  `Name { field: value, ... }`.
* Arithmetic overflow of machine integers is a panic (`none`), as in a debug build, where it is modelled
  at all (`mod_int.rs`, `util.rs`, `Model/MachineLimits.lean` for `exp`, powers and logarithms,
  `Model/MachinePoly.lean`, `MachineContent.lean` and `MachineGcd.lean` for polynomials over machine integers, and
  `Model/ModPoly.lean`, `ModFactor.lean` and `ModResultant.lean` for polynomials over modular integers, and
  `Model/Array2DWords.lean` for `array2d.rs`);
  elsewhere `usize` is unbounded.

## What is modelled, per source file

| source | model | modelled | not modelled |
|--------|-------|----------|--------------|
| `interval_arithmetic.rs` | `Interval`, `IntervalFn`, `ConstantCache`, `CacheLock`, `CacheIndex`, `OpForms`, `MachineLimits` | every constructor, operator, rounding, `sqrt`, AGM, `ln 2`, `sqrt 2`, `log`, `exp`, powers, floor/ceil/abs/union/log2, the shared cache under interleaving; `Debug`/`Display` (in `Display`) | `f64::log2` in the cache index (a monotone parameter); `pi` (`unimplemented!`) |
| `polynomial.rs`, `polynomial/{add_sub,mul,div_rem}.rs` | `PolyCoeff`, `NestedMul`, `Poly`, `PolyParts`, `MachinePoly`, `MachineContent`, `ModPoly`, `PolyIter`, `Display`, `Convert`, `OpForms` | coefficient traits for integers, ratios, modular integers and nested polynomials; normalization; ring operations; (pseudo/exact/Euclidean) division; powers, modular powers; evaluation; content; derivative; norms; iterators; `Display`; conversions from and to coefficients, stored fields and machine integers; the owned, borrowed, assigning and checked forms of the operators; reduction; polynomials over the signed machine integers with overflow checks on and off; polynomials over modular integers as stored, for every integer type | conversions from and to floats |
| `polynomial/gcd.rs` | `PolyGcd`, `MachineGcd`, `ModPoly`, `ModResultant` | field gcd, extended gcd, lcm, subresultant gcd, resultant (over exact numbers, signed machine integers and stored modular integers) | the fallback type plumbing |
| `polynomial.rs` (Sturm, Yun) | `PolySturm` | Sturm sequences, sign changes, Yun's loop, `is_square_free` | |
| `polynomial/{distinct_degree,same_degree}_factorization.rs`, `factorization_over_integers.rs` | `Factor`, `SqrtBound`, `ModPoly`, `ModFactor` | all of it: both finite field factorizations, factor tree, Hensel lifting, the type of the lifting bound, subset search, prime selection, `factor`; over exact residues and with the stored arithmetic (`i32` and big modular integers, every assertion); the printed factor tree (`FactorTreePrint`) | `usize` overflow |
| `mod_int.rs` | `ModInt`, `BigPow`, `Modulus`, `OpForms` | all arithmetic for every integer type the macros instantiate, with overflow (powers of big integers through `num-bigint`'s `modpow`, a parameter); the modulus types `Mod1`-`Mod16`, `KnownPrime`, `KnownOdd` and their marker traits | |
| `traits.rs` | `Traits`, `MachineInt` | gcd/lcm of ratios, nearest division (integers of all widths and ratios), log2 and trailing zeros (big integers, and machine integers of every width through their bit patterns), exact division, sign tests | trait plumbing |
| `util.rs` | `Util`, `PrimeTable`, `TreePrint`, `FactorTreePrint` | primes, pseudo-primes, subset enumeration, `Sign`, tree printing | `DebugAsDisplay` |
| `array2d.rs` | `Array2D`, `Array2DMake`, `Array2DMut`, `Array2DWords`, `Array2DDisplay` | construction, with callbacks in call order, resizing, slice bounds of every range type, `to_owned`, indexing, slicing, writes through nested mutable slices and mutable iterators, all iterators, swapping, `Display`; everything but `Display`, `into_iter` and `to_owned` also with `usize` words of any width, with and without overflow checks | memory exhaustion |
| `lattice.rs` | `Lattice` (columns as functions), `LatticeArray` (the stored arrays) | Gram-Schmidt, size reduction, swap, the loop of `lll_reduce`; in `LatticeArray` also every slice, iterator, index and assertion | – |
| `quadratic_numbers.rs` | `Quadratic` | all functions with a body | `to_f64`; bodies that are `unimplemented!()` |
| `algebraic_numbers.rs` | `AlgNum`, `OpForms`, `History`, `MachineLimits` | conversions, sign, shrinking, floor/ceil/trunc/fract, negation, reciprocal, log2, root selection, `+ - * / %`, comparison, powers; equality and hash of the stored data (`Hash`); `Debug` (in `Display`) | parsing (`unimplemented!`) |
| `python.rs` | `Python` | extraction, constructor, every method, operator dispatch as documented for PyO3; `__repr__` (in `Display`) | reference counts, the interpreter lock, the range of `i64` for logarithms |

## Properties: what is modelled and how it is proved

| id | model | proof |
|----|-------|-------|
| C01-C05, C10 | `DyadicFractionInterval` as (lower, upper, log2_denom) over `Int`/`Nat`; every op as in the code | membership in a real interval, floor/ceil division lemmas |
| C06, C07, C11 | series and AGM loops with fuel | `Real.log` series from Mathlib, monotone enclosure; C11 convergence: bounds on the ends, their ratio and the gap over the turns of the loop (`Lemmas/AgmWidth.lean`) |
| C08 | `into_exp` literally | negation by witness (the assertion fails); exact condition for the panic: the terms of the series would have to be exact down to one unit, and `m!` times a power of two is an `m`-th power only for `m ≤ 2` (3-adic valuation); enclosure up to `2^-26` units |
| C09 | `Pow` literally | negation by witness (odd power of mixed sign interval), partial theorem for the rest |
| C12 | cache cell with atomic read / compare-length-and-replace steps, arbitrary interleaving of threads | invariant over all reachable states |
| C13-C19, C23 | coefficient lists, `normalize`, the loops of add/mul/div | refinement to Mathlib's `Polynomial` |
| C20, C21, C22 | subresultant loops | refinement, subresultant theory / Euclid invariants; Sylvester determinant |
| C24 | Yun's loop | multiplicity invariant |
| C25 | Sturm sequence of the code and `sign_changes_at` | Sturm's theorem proved from scratch |
| C26-C30, C34, C57 | finite field factorization, Hensel tree, subset search | product invariants; irreducibility; Mignotte bound proved from scratch |
| C31-C33 | value/modulus pairs | refinement to `ZMod`/`Int.emod` |
| C35-C38 | integer functions of `traits.rs` | arithmetic; C36 is false (witness) |
| C39-C48, C58 | minimal polynomial + isolating interval, all operations | predicate "represents x"; counterexamples and partial theorems; the size of a resultant is bounded by the Mahler measures of the operands, so with fair random numbers the operations end; for powers of rationals the intervals have integer ends, where `log` and `exp` are shown exact up to `e^16`, so roots of rationals need no assumption on them |
| C49, C50, C51, C54, C55, C56 | `util.rs`, `array2d.rs` functions | induction; the prime table is checked against primality |
| C52, C59 | `lattice.rs` | lattice span invariant, Gram determinants decrease (potential), reducedness |
| C61 | the same factoring functions, with the random numbers as an arbitrary stream | half the elements of a finite field are squares, so some polynomial splits; induction on degrees; Chebyshev's bound for the primes |
| C62 | `python.rs`, with the dispatch of operators to methods and reflected methods by the interpreter | case split on the kinds of the operands, then C39 to C48 |
| C63 | `Display` and `Debug` literally, as functions to lists of characters | unique readability: parentheses are balanced, variable names differ from depth to depth, induction on the nesting |
| C64 | both iterators as state machines, with the divisor that `IntoIter` moves out | induction on the history of calls |
| C65 | moduli as a tree of wrappers, trait resolution as functions of the type | induction on the nesting; the table of unit types is checked |
| C66 | `From`/`Into`/`FromPrimitive`/`ToPrimitive`; the coefficient's own conversions are a class | refinement to Mathlib's constant polynomials, induction on nesting through the class |
| C67 | the cache model of C12 with the computations of `sqrt 2` and `ln 2` | invariant of all reachable states: every entry is the floor and ceiling (`sqrt 2`), or within one unit of them (`ln 2`); nested floors. Whether `ln 2` can really differ between histories depends on the binary digits of `ln 2` and is left open |
| C68 | `OpForms`, `ReducedDivisor`: each separately written form of an operator as a function of its own | equality with the form whose meaning is proved elsewhere (C13, C16, C31, C02-C04, C44-C47), and its meaning again |
| C69 | the assigning divisions as a pair (left operand afterwards, reported success) | from the theorems on the plain division; the specification `AssignsOrKeeps` |
| C70 | `reducing_factor`, `to_reduced` for integers, ratios, modular integers | refinement to primitive part and monic part; Gauss content for uniqueness |
| C71 | `History`: programs as lists of calls on numbered variables; a run is a relation, as every call may meet other random numbers, heap orders, cache states and fuel | invariant over the list: every variable represents its value; one soundness lemma per operation (`Props/AlgNumSound`), with safety conditions stated on real numbers (`Spec/History`); termination by the same induction, from the totality theorems of C40, C43-C45, C47 and C58, with sizes stated on real numbers too (`Spec/HistoryEnds`) |
| C72 | the same model of `log` and `exp` as C07, C08 | the series loops from the other side: each turn rounds each end by one unit and the tail is smaller than the last term; then the decomposition into a multiple of `ln 2` and a remainder (`Lemmas/LogTight`, `ExpTight`, `ExpWidth`) |
| C73 | the same model as C01-C05, C10 | `Spec/Narrowest.lean`: contains all exact results, and any other interval of the same precision that does is wider; two members are shown whose results are less than a unit inside the ends |
| C74 | the same model as C73, composed by `Spec/IntervalExpr.lean`: an expression is evaluated by one call per operation | induction on the expression; one step is C73: the narrowest enclosure of fewer results at a finer precision is inside the old one |
| C75 | the same, with `log` (C07) and `agm` (C11) | soundness and convergence by induction on the expression; a step is continuity of the real operation together with C73 (two units of rounding), C72 for `log`, `C11_agm_converges` for `agm`. The two exclusions are real: any interval around zero has negative members, so its root fails, and C72 shows that `log` stays wide at `3 * 2^j` |
| C76 | `Model/CacheIndex.lean`: the `f64` arithmetic of the index, with rounding to nearest even at 53 bits; `f64::log2` is a parameter (`IsF64Log2`: monotone, within `2^-10`) | rounding is monotone and has a relative error of `2^-53`, so the index is `3 log2(n + 1)` up to less than a unit; the bit search finds the largest precision with the same index |
| C77 | no new model; `Spec/Roots.lean`: the numbers some power of which is rational, and the instructions of a program that stay among them | every conjugate of such a number has the same absolute value, so on the real line the only possible conjugates are `x` and `-x`; hence the rational end points that mislead addition, products and comparisons (C44-C46) and reciprocals (C40) cannot be met, outside the exceptions listed; soundness with the code's own factoring for roots of integers, totality for moderate sizes, programs through C71 |
| C78 | `Model/IntervalProgram.lean`: the public functions on intervals as instructions with numbered variables; `Spec/IntervalProgram.lean`: the real numbers the variables stand for, and the precisions | induction over the program with the single function theorems C01-C11 as the steps; exactly which powers swap the bounds is an equivalence (`C78_pow_ordered_iff`), a single call keeps all bounds in order exactly if it is not one of these (`C78_ordered_iff`), and a program reaches one |
| C79 | `Model/Hash.lean`: a hasher is a state with one function per kind of word; derived hashes feed the fields in order, a `Vec` its length first | unfolding; uniqueness of the canonical polynomial; cancellation of lists for completeness of the hash |
| C80 | `Model/Array2DDisplay.lean`: the loops of `fmt`; the text of an element and `str::lines` are parameters; `Spec/Table.lean`: widths and heights | the loops compute maxima; the text is a list of lines joined by line breaks, cut at the cell |
| C81 | `Model/MachineLimits.lean`: exponential, powers and logarithms with `to_usize`, `to_i64`, `as i64` and overflow checks (64 bit) | each check passes or stops; a shift that does not fit leaves 0 or 1 unit after rounding; bound on the sum of the series |
| C82 | `Model/PolyParts.lean`: the two fields of `Polynomial<Ratio<BigInt>>` with a divisor of any sign; construction, reading, `+ - *` again on these fields | refinement to `Poly ℚ` with the absolute value of the divisor; signs carried along; the loops of `Poly` for coefficient lists |
| C83 | `Model/MachinePoly.lean`: the ring operations, powers, derivative, value and pseudo-division again, with every `+ - *` of coefficients cut to `w` bits, in the two ways a compiler translates them | one proof for both: a ring homomorphism that does not see the cutting (the identity with checks, reduction modulo `2^w` without); invariants of the loops for the exact conditions of a panic |
| C84 | `Model/MachineContent.lean`: content, reducing factor, primitive part and norms on lists of `w`-bit integers, both ways of compiling; num-integer's `gcd` is the exact one, cut like any operator (assumption) | invariant of the gcd loop (same common divisors, not negative or the smallest number); the only overflow is at `2^(w-1)`; exact division of `C38` |
| C85 | `Model/MachineGcd.lean`: `subresultant_gcd`, `resultant`, `nonzero_resultant` and the primitive Sturm sequence on lists of `w`-bit integers, operation by operation, both ways of compiling | with checks every step equals the step of the exact model (`Model/PolyGcd.lean`, `Model/PolySturm.lean`), so `C20`, `C22`, `C25` carry over; every step that succeeds with checks gives the same without; wrong results without checks by evaluation |
| C86 | the functions of C83, C84 and C85 at two widths and two ways of compiling side by side; `Spec/MachineWide.lean` lists the calls | a relation between two settings (what fits in the first fits in the second) is carried through every loop; for the last theorem every loop is followed along the exact run, which is known to end (`C20`, `C22`, `C25`), and each of its finitely many numbers fits from some width on |
| C87 | programs of any length over machine polynomials: a list of operations, each on earlier results (`Model/MachineProgram.lean`); `Spec/MachineProgram.lean` says which polynomials a program stands for | induction over the program; the invariant is that the results so far, seen in `ℤ` (with checks) or modulo `2^w` (without), are the polynomials they stand for; the operations come from C83, the wider types from C86 |
| C88 | `Model/ModPoly.lean`: polynomials over `ModularInteger<V, M>` as they are stored, a list of pairs (value, modulus), for every integer type `V`; every operation on coefficients is the one of `Model/ModInt.lean`, with its overflow and its check of the moduli; sums, products, powers, all divisions, derivative, evaluation, gcd, lcm, extended gcd, both finite field factorizations. `Spec/ModPoly.lean` says which lists are valid and which polynomial over `ZMod m` a list stands for | every operation on stored lists equals the operation of the exact model over `ZMod m` (C12-C34), applied to the residues, by induction over each loop; the claims of the exact model are carried over |
| C89 | `Model/ModFactor.lean`: `factorization_over_integers.rs` once more, with the arithmetic that the code performs: `i32` modular integers in the modular factorization, big modular integers in the lifting and the search, all as stored pairs, with overflow, checks of the moduli and every assertion. `Spec/ModFactor.lean` says which stored trees are correct | by induction over each loop the stored computation is the one of the exact model (C26, C30) on the residues; that the assertions hold comes from the correctness of the tree (C30) that every step keeps |
| C90 | `Model/ModResultant.lean`: `nonzero_resultant` and `resultant` on the stored coefficients of every integer type, with the type's overflow checks | the stored computation is the one over `ZMod m` step by step, for every positive modulus; for a prime one it is the determinant of the Sylvester matrix. For every composite modulus it panics on `x²` and `a x² + x + 1` (`a` not a unit), and modulo 4 it returns a wrong answer; so it returns for all inputs exactly if the modulus is prime |
| C91 | `Model/LatticeArray.lean`: `lattice.rs` on the arrays of `Model/Array2D.lean`, with the slices, iterators, indices and assertions of the code | the array of a list of columns; every loop over rows rewrites one column (or two, for the swap); the stored computation is the one of `Model/Lattice.lean` step by step, so C52 and C59 hold of the arrays a caller sees, and no index is ever out of range |
| C92 | `Model/CacheLock.lean`: the constant cache with its `RwLock`: read guards, write guard, poisoning; every step between two points where another thread may run; the computation may panic at any time and a panicked thread may call again | invariant over all reachable states (who holds a guard is where the program counter says so, a writer excludes all others, the lock is not poisoned, all entries enclose the constant); the guards can always be given back (induction on the number of readers); refinement of the atomic model of C12 |
| C93 | `Model/Array2DMut.lean`: `slice_mut` nested to any depth, `index_mut`, `swap_elements` and `iter_mut` as changes of the parent's data; a reference is the number of the element it points to | the data outside the elements of a slice is never touched; addresses are injective; induction over the nesting and over the program; the iterator hands out every reference at most once. The specification (`Spec/Array2DMut.lean`) knows coordinates only |
| C94 | `Model/Array2DWords.lean`: the functions of `array2d.rs` once more with every `+`, `-`, `*` on words of `w` bits, both ways of compiling | in an array whose data fills at most half of the words no intermediate result overflows (invariant of slices and iterators), so the computations are the exact ones; the sizes of a broken `new` by the pigeonhole principle |
| C95 | `Model/TreePrint.lean`: the recursive writer with its three prefixes and a fallible output; `Model/FactorTreePrint.lean`: the factor tree; the texts are cut into lines by a model of `str::lines` | prefixes can be put in front of the finished picture of a subtree (induction), so the picture of a node is made of the pictures of its subtrees; reading back: lines of the subtrees have at least five characters, the text of the node is between two lines of exactly three |
| C53, C60 | `quadratic_numbers.rs` | real arithmetic on quadratic roots |

Every property can be expressed in a model; none is `not_applicable`.

## Where the code and the property disagree (each proved with a concrete witness)

| id | theorem | witness |
|----|---------|---------|
| C08 | `C08_panics_false` | `exp` of the one-point interval `32/2^51` fails an assertion |
| C08 | `C08_panics_every_odd_false` | the same at every odd precision from 41 on |
| C08 | `C08_enclosure_false` | `exp` of an interval near -20 at 208 bits: for a negative argument the upper end is reduced with the lower bound of `ln 2`, so the returned upper bound is below the exponential of the upper end |
| C09 | `C09_mixed_sign_false`, `C09_negative_point_false` | the cube of `[-3/2, 1/2]` at precision 1 loses `1/8`; odd powers of negative points come out reversed; `C09_pow_exact_iff` says exactly which powers lose members |
| C15 | `C15_rational_false`, `C15_rational_result_partial`, `C15_add_exact_iff`, `C15_sub_exact_iff` | `(1 + x)/2 + 1/3` is computed as `(5 + x)/6`, and `0 + 1/2` as `1`; the second theorem gives the result for every input, the others say exactly when it is right |
| C27 | `C27_irreducible_false`, `C27_at_most_two_partial` | `(5x^4+x^2+1)(x^5-x^3-1)` is returned unsplit, whatever the random stream: the leading coefficient is reduced modulo the prime and not restored, so one lifted factor carries a unit and no subset with it is recognised. Two irreducible factors are the most that can be left together, once per power |
| C31 | `C31_negative_modulus_false` | negative moduli are accepted and multiplication is then wrong; `C31_mul_negative` says exactly when, `C31_additive_negative` that the other operations are right |
| C32 | `C32_modulus_one` | with modulus 1 the only residue class is its own inverse, but `checked_inverse` gives `None` |
| C33 | `C33_pow_zero_false`, `C33_negative_exponent_false` | `b^0 mod 1` is `1`; with machine integers a negative exponent is accepted and its sign ignored (`5^(-1) mod 7` is `5`) |
| C34 | `C34_exponent_zero_not_reduced` | exponent 0 returns `1` unreduced |
| C36 | `C36_bigint_false`, `C36_signed_false` | `div_rem_nearest` on `BigInt` adjusts in the wrong cases |
| C37 | `C37_gcd_sign_false`, `C37_gcd_nonneg_iff` | gcd of a negative ratio and zero is negative |
| C40 | `C40_recip_false` | `1/(3 + sqrt 2)`: the interval of the result holds two roots of its polynomial; `C40_recip_exact_iff` says exactly when this happens to an interval without zero |
| C43 | `C43_fract_false`, `C43_fract_exact_iff` | `fract` of a negative rational truncates |
| C44, C45, C46 | `C44_add_false`, `C44_add_recip_false`, `C45_mul_false`, `C46_eq_false` | root selection returns an end point of the first enclosing interval if it is a root of any factor of the resultant; `C44_add_exact_iff`, `C44_sub_exact_iff`, `C45_mul_exact_iff` say exactly when (`RealAlg.EndpointHit`) |
| C45 | `C45_rational_product_false` | `sqrt 2` held in `[-1, 2]`, multiplied by itself, is `-2`; a wrong rational product is always the negation (`C45_rational_product_partial`) |
| C45 | `C45_self_div_false` | `(3 + sqrt 2) / (3 + sqrt 2)`, held in `[4, 5]`, panics: the reciprocal is held in `[0, 1]`, which has both roots, and cannot be narrowed; with enough precision `a / a` is one (`C45_self_div_fine`) |
| C46 | `C46_transitive_false` | `==` is not transitive: `sqrt 2` held in `[0, 2]` equals both `-sqrt 2` held in `[-2, 0]` and `sqrt 2` held in `[1, 2]`, which differ; it is symmetric and `cmp` is antisymmetric in all cases (`C46_antisymmetric`); `C46_exact_iff` says exactly when `cmp` is wrong |
| C47 | `C47_none_false` | `(-8)^(1/3)` and `0^0` give `None` |
| C54 | `C54_pseudo_prime_false`, `C54_prime_power_false` | no prime from `541^2` on is recognized; 27 is reported as `3^5`; 8 panics |
| C56 | `C56_slice_false` | an empty slice at the end of an array with nonzero y start panics |
| C62 | `C62_eq_false` | `x == -x` is true in Python for `x = sqrt 2` held with the interval `[0, 2]`; also, by C47, `RealAlgebraicNumber(0) ** 0` raises although Python's `0 ** 0` is 1 |
| C58 | `C58_rem_false`, `C58_abs_sub_false` | `1 % (3 + sqrt 2)` panics when the divisor is held with the interval `[4, 5]`; `abs_sub` of `sqrt 2` and `-sqrt 2` is zero; `C58_abs_sub_exact_iff` and `C58_rem_exact_iff` say exactly when `abs_sub` and, given a right quotient, `%` are wrong |
| C60 | `C60_recip_false`, `C60_recip_canonical_iff`, `C60_add_never`, `C60_add_false` | reciprocals get negative denominators; `sqrt 2 + sqrt 2 / 2` is reported not to be quadratic (the helper that adds two roots compares the second root's square with the first radicand; `C60_add_sub_sqrts` says exactly what it finds) |
| C65 | `C65_default_false` | `KnownPrime::<i32>::default()` is a safe way to a modulus marked prime whose value is 0 |
| C69 | `C69_poly_coeff_false` | after the failed division of `2x + 1` by the coefficient `2` with `checked_exact_div_assign` the polynomial is zero |
| C72 | `C72_log_wide_false`, `C72_exp_wide_false` | an interval around a number `3 * 2^j` has a logarithm about `2 ln 2` wide, and one around a multiple of `ln 2` has an exponential from about half to about twice the value, at every precision: `exp [-1/1024, 1/1024] = [512/1024, 2047/1024]` |
| C73 | `C73_div_false` | the quotient of two intervals multiplies with a rounded reciprocal: `4 / 3` is four units wide at every precision, one unit is enough |
| C78 | `C78_inverted_false` | a history with an odd power of a negative point leaves an interval with its bounds in the wrong order |
| C79 | `C79_same_number_false` | `sqrt 2` in `[1, 2]` and in `[0, 2]` are one number with unequal data |
| C82 | `C82_false`, `C82_canonical_iff`, `C82_add_partial`, `C82_zero_divisor` | the polynomial made from `[1]` over `-1` has the coefficient `-1` and is not `==` to the polynomial `-1`; `[2]` over `-1`, plus `1`, gives `1`; a divisor of 0 is accepted |
| C83 | `C83_checked_add_counterexample`, `C83_checked_never_none` | `checked_add` of the `i8` polynomials `[127]` and `[1]` panics or returns `[-128]`; `checked_add`, `checked_sub`, `checked_mul` never return `None` |
| C85 | `C85_gcd_wraps_counterexample`, `C85_resultant_wraps_counterexample`, `C85_sturm_wraps_counterexample`, `C85_fits_but_panics` | without overflow checks, over `i8`: a false common factor of `x^3+x^2-9x-9` and `x^2+7`; a resultant -32 for 2080; three real roots of `x^3-5x^2-5x-5`, which has one. With checks: a panic although the resultant is -1 |
| C90 | `C90_composite_panics`, `C90_total_iff_prime`, `C90_composite_wrong`, `C90_subresultant_gcd_composite_wrong` | for every composite modulus the resultant of `x²` and `a x² + x + 1`, which is 1, is a panic; modulo 4 the resultant of `x³` and `x³ + 2x² + 1`, which is 1, is returned as zero, and the subresultant gcd of `x³` and `x³ + 2x² + x + 1` is returned as `3x + 1`, which divides neither |
| C94 | `C94_new_wraps`, `C94_new_counterexample`, `C94_len_counterexample`, `C94_slice_counterexample`, `C94_largest_word` | without overflow checks `new` of `2^63 + 1` columns of two elements returns an array of two elements in which writing `(0, 0)` changes `(2^63, 0)`; `len()` of `2^33` by `2^33` positions is 0; `..=usize::MAX` is taken for an empty range instead of panicking |

Also proved, as part of `proved` claims: `lll_reduce` divides by zero exactly on two or more linearly
dependent columns (`C52_dependent_panics`), `next_prime` below 3 returns 3 (`C49`).

## Testing the theorems

`tools/seed.py` takes a list of edits, applies each to a scratch copy of the project, rebuilds, and
appends to `seeded/LOG.jsonl` which theorems failed. A surviving edit means a theorem is too weak (or
that the edit does not change behaviour); the log says which theorem was tightened.
