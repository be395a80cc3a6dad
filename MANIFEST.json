{
 "claims": [
  {
   "property": "C01",
   "status": "partial",
   "theorems": [
    "Symxx.Huge.C01_add_exact_partial",
    "Symxx.Huge.C01_add_same_sign_partial",
    "Symxx.Huge.C01_fails_on_leading_zeros"
   ],
   "note": "Exact for all canonical operands of any length and for equal signs on any digit vectors. The full claim is false of the code: a reachable operand with a leading zero digit gives a wrong sum (proved)."
  },
  {
   "property": "C02",
   "status": "partial",
   "theorems": [
    "Symxx.Huge.C02_sub_exact_partial",
    "Symxx.Huge.C02_sub_opposite",
    "Symxx.Huge.C02_fails"
   ],
   "note": "Exact iff the operands are not non-zero opposites (canonical operands); the full claim is false: 5 - (-5) = 0 (proved)."
  },
  {
   "property": "C03",
   "status": "partial",
   "theorems": [
    "Symxx.Huge.C03_mul_iff",
    "Symxx.Huge.C03_mul_exact_partial",
    "Symxx.Huge.C03_mul_defined_partial",
    "Symxx.Huge.C03_square_partial",
    "Symxx.Huge.C03_one_split_partial",
    "Symxx.Huge.C03_zero_half",
    "Symxx.Huge.C03_karatsuba_undefined"
   ],
   "note": "Exact characterisation: C03_mul_iff gives the set of operands (in numbers and digit counts, Huge/MulSpec.lean) where the product is defined, and there it is exact; consequences: always below 2^2100 for one operand or 2^4200 for a square, undefined whenever a low half of a wider operand is zero. Full claim false: 2^2130*2^2131 is UB (proved)."
  },
  {
   "property": "C04",
   "status": "partial",
   "theorems": [
    "Symxx.Huge.C04_divmod_partial",
    "Symxx.Huge.C04_exact_division_undefined"
   ],
   "note": "Exact truncated division for all canonical operands, except exactly the exact divisions by divisors >= 2^30, which are UB (both directions proved)."
  },
  {
   "property": "C05",
   "status": "partial",
   "theorems": [
    "Symxx.Huge.C05_division_by_zero_partial",
    "Symxx.Huge.C05_no_spurious_error_partial",
    "Symxx.Huge.C05_fails_on_leading_zeros"
   ],
   "note": "Error iff divisor denotes 0 for canonical divisors; no spurious error for any operands; a reachable zero with leading zero digits gives UB instead (proved)."
  },
  {
   "property": "C06",
   "status": "proved",
   "theorems": [
    "Symxx.Huge.C06_comparisons"
   ],
   "note": "All six operators, all canonical operands."
  },
  {
   "property": "C07",
   "status": "partial",
   "theorems": [
    "Symxx.Huge.C07_exact",
    "Symxx.Huge.C07_canonical_results_partial",
    "Symxx.Huge.C07_fails_sub",
    "Symxx.Huge.C07_fails_div"
   ],
   "note": "Exact characterisation for +, -, / (C07_exact); *, %, gcd, negation, abs always; subtraction with cancellation and one-digit division do not (counterexamples proved)."
  },
  {
   "property": "C08",
   "status": "proved",
   "theorems": [
    "Symxx.Huge.C08_from_string",
    "Symxx.Huge.C08_no_number",
    "Symxx.Huge.C08_leading_space"
   ],
   "note": "All strings sign? digits+ rest."
  },
  {
   "property": "C09",
   "status": "partial",
   "theorems": [
    "Symxx.Huge.C09_to_string_partial",
    "Symxx.Huge.C09_negative_zero"
   ],
   "note": "Exact numeral for every value except negative zeros, which print -0 (proved)."
  },
  {
   "property": "C10",
   "status": "proved",
   "theorems": [
    "Symxx.Huge.C10_roundtrip_huge",
    "Symxx.Huge.C10_roundtrip_string"
   ],
   "note": "Both directions, all lengths."
  },
  {
   "property": "C100",
   "status": "partial",
   "theorems": [
    "Symxx.Sym.C100_meaning",
    "Symxx.Sym.C100_strict_weak_partial",
    "Symxx.Sym.C100_fails"
   ],
   "note": "The meaning of < in every exact comparison; a strict weak order if the degrees other than 0 are all equal; false otherwise: 2x, x^2 and 3x (F62, proved)."
  },
  {
   "property": "C101",
   "status": "proved",
   "theorems": [
    "Symxx.Cli.C101_root",
    "Symxx.Cli.C101_text",
    "Symxx.Cli.C101_same",
    "Symxx.Cli.C101_accurate",
    "Symxx.Cli.C101_example",
    "Symxx.Cli.C101_fails"
   ],
   "note": "Powers of positive fractions with positive fractions as exponents; C101_fails shows what lies outside (F14, F63: 1/2^(1/2) is not rationalised, roots of 0 and of negative numbers are undefined)."
  },
  {
   "property": "C102",
   "status": "proved",
   "theorems": [
    "Symxx.Cli.C102_named",
    "Symxx.Cli.C102_all",
    "Symxx.Cli.C102_again",
    "Symxx.Cli.C102_example",
    "Symxx.Cli.C102_blank"
   ],
   "note": "Stated over the history of the session (Latest, Defines of C64). C102_blank: a blank before the parenthesis becomes part of the name (F64)."
  },
  {
   "property": "C103",
   "status": "proved",
   "theorems": [
    "Symxx.Cli.C103_product",
    "Symxx.Cli.C103_again",
    "Symxx.Cli.C103_same",
    "Symxx.Cli.C103_example",
    "Symxx.Cli.C103_fails"
   ],
   "note": "Division only by fractions: C103_fails shows that a quotient of roots is not brought into one root (F63)."
  },
  {
   "property": "C104",
   "status": "proved",
   "theorems": [
    "Symxx.Cli.C104_sum",
    "Symxx.Cli.C104_read",
    "Symxx.Cli.C104_same",
    "Symxx.Cli.C104_accurate",
    "Symxx.Cli.C104_example"
   ],
   "note": "Uniqueness by linear independence of roots (Symxx.Num.roots_indep). Only the text before ` =` is determined by the value: terms that cancelled may stay in the computation of the number. Products of sums: C105. Roots of fractions within sums and division are not covered."
  },
  {
   "property": "C105",
   "status": "proved",
   "theorems": [
    "Symxx.Cli.C105_ring",
    "Symxx.Cli.C105_integer",
    "Symxx.Cli.C105_read",
    "Symxx.Cli.C105_same",
    "Symxx.Cli.C105_example",
    "Symxx.Cli.C105_fails"
   ],
   "note": "Same uniqueness as C104 (Symxx.Num.roots_indep). Division is excluded: C105_fails (F63). Powers of sums of roots with exponents 1, 2, ... are included (multinomial expansion of Poly::pow); roots of sums are not covered."
  },
  {
   "property": "C106",
   "status": "proved",
   "theorems": [
    "Symxx.Cli.C106_same",
    "Symxx.Cli.C106_only",
    "Symxx.Cli.C106_example",
    "Symxx.Cli.C106_cancelled"
   ],
   "note": "The constructor. A sum of two fractions with equal denominators is not normalised (F58), so the same need not hold for the results of +; and terms that cancelled earlier are not distinct non-zero terms and do make a difference (F66, C106_cancelled)."
  },
  {
   "property": "C107",
   "status": "partial",
   "theorems": [
    "Symxx.Cli.C107_first",
    "Symxx.Cli.C107_lowest_partial",
    "Symxx.Cli.C107_fails",
    "Symxx.Cli.C107_example"
   ],
   "note": "False of the code (F65): the greatest common divisor is taken of the denominator and the first coefficient only, so (1+2*x)/4 becomes (x+1/2)/2. Proved: exactly what is built, and that it is in lowest terms if and only if this divisor divides every coefficient."
  },
  {
   "property": "C108",
   "status": "proved",
   "theorems": [
    "Symxx.Cli.C108_work",
    "Symxx.Cli.C108_example"
   ],
   "note": "The counting functions are those of the model with a counter; that they are the same functions is part of the theorem."
  },
  {
   "property": "C109",
   "status": "partial",
   "theorems": [
    "Symxx.Cli.C109_count",
    "Symxx.Cli.C109_fails",
    "Symxx.Cli.C109_example"
   ],
   "note": "False of the code (F49): both operands are evaluated twice at every level. Proved: the exact number of leaf evaluations, its bounds 2^depth and leaves*2^depth, and that for the lines x^x^...^x no polynomial in the length of the line bounds it."
  },
  {
   "property": "C11",
   "status": "partial",
   "theorems": [
    "Symxx.Huge.C11_native_roundtrip_partial",
    "Symxx.Huge.C11_minimum_undefined"
   ],
   "note": "All types of at least 32 bits, all values but the minimum of a signed type (UB, proved)."
  },
  {
   "property": "C110",
   "status": "proved",
   "theorems": [
    "Symxx.Cli.C110_value",
    "Symxx.Cli.C110_same",
    "Symxx.Cli.C110_final",
    "Symxx.Cli.C110_poly",
    "Symxx.Cli.C110_example"
   ],
   "note": "Extends C106 to rational coefficients (the form that Frac::normalize itself leaves behind, F65) and adds that the form is final."
  },
  {
   "property": "C111",
   "status": "proved",
   "theorems": [
    "Symxx.Cli.C111_line",
    "Symxx.Cli.C111_same",
    "Symxx.Cli.C111_uncancelled_line",
    "Symxx.Cli.C111_uncancelled_same",
    "Symxx.Cli.C111_example",
    "Symxx.Cli.C111_example_pow"
   ],
   "note": "C106 for whole session lines. That nothing cancels is proved for +, * and natural powers of positive integers and symbols (Node.ring_pos) and a hypothesis of the C111_uncancelled theorems for lines with -; C111_example shows that it is needed (F66). The printed form need not be in lowest terms (F65)."
  },
  {
   "property": "C112",
   "status": "proved",
   "theorems": [
    "Symxx.Cli.C112_session",
    "Symxx.Cli.C112_line",
    "Symxx.Cli.C112_expr",
    "Symxx.Cli.C112_real",
    "Symxx.Cli.C112_zero_index",
    "Symxx.Cli.C112_cenv64",
    "Symxx.Cli.C112_example"
   ],
   "note": "Factorisation, floating point, std::sort and std::stold are assumed to return (CEnv.Ends); that of the examples does (C112_cenv64). The end of one line, not of the read loop, which spins at the end of input (see the findings). F67: index 0. Memory and time limits are not modelled."
  },
  {
   "property": "C12",
   "status": "partial",
   "theorems": [
    "Symxx.Huge.C12_exact",
    "Symxx.Huge.C12_right_iff",
    "Symxx.Huge.C12_to_native_partial",
    "Symxx.Huge.C12_silent_truncation",
    "Symxx.Huge.C12_minimum_undefined"
   ],
   "note": "Exact characterisation of error, undefined behaviour and result (the number modulo 2^bits) for every number. Exact in range, Error from 2^(bits+30) on and for negative-to-unsigned; in between it truncates silently (proved)."
  },
  {
   "property": "C13",
   "status": "partial",
   "theorems": [
    "Symxx.Huge.C13_divrem_partial",
    "Symxx.Huge.C13_fails_negative"
   ],
   "note": "Identity holds iff dividend >= 0 or the division is exact; divrem(-7,2) violates it (proved)."
  },
  {
   "property": "C14",
   "status": "partial",
   "theorems": [
    "Symxx.Huge.C14_gcd_partial"
   ],
   "note": "Exact characterisation: gcd correct except UB exactly when both operands are non-zero, of different magnitude and the gcd is >= 2^30."
  },
  {
   "property": "C15",
   "status": "partial",
   "theorems": [
    "Symxx.Huge.C15_inc_dec_partial",
    "Symxx.Huge.C15_dec_minus_one"
   ],
   "note": "++ exact, -- exact except at -1 where it yields 0 (proved)."
  },
  {
   "property": "C16",
   "status": "partial",
   "theorems": [
    "Symxx.Huge.C16_exact",
    "Symxx.Huge.C16_observations",
    "Symxx.Huge.C16_histories_partial"
   ],
   "note": "Exact characterisation: with all operations, a program computes the right canonical numbers iff every step satisfies a numeric condition (no cancelled leading digit F1/F2, product defined, division defined). Unconditional histories are false (C01, C02, C03)."
  },
  {
   "property": "C17",
   "status": "partial",
   "theorems": [
    "Symxx.Factor.C17_exact",
    "Symxx.Factor.C17_unsigned_exact",
    "Symxx.Factor.C17_int128_to_string_partial",
    "Symxx.Factor.C17_uint128_to_string_partial",
    "Symxx.Factor.C17_zero",
    "Symxx.Factor.C17_negative_nul",
    "Symxx.Factor.C17_minimum",
    "Symxx.Factor.C17_unsigned"
   ],
   "note": "Exact characterisation for signed and unsigned numbers. Exact for all positive numbers; negatives may carry a NUL after the sign, 0 prints empty, the minimum and large unsigned numbers are UB (all proved)."
  },
  {
   "property": "C18",
   "status": "partial",
   "theorems": [
    "Symxx.Factor.C18_string_to_int128_partial",
    "Symxx.Factor.C18_string_to_uint128",
    "Symxx.Factor.C18_roundtrip_partial",
    "Symxx.Factor.C18_sign"
   ],
   "note": "All unsigned numerals in range, for both 128-bit types, and the round trip; a sign is misread (-5 gives -25, proved)."
  },
  {
   "property": "C19",
   "status": "proved",
   "theorems": [
    "Symxx.Factor.C19_mulmod"
   ],
   "note": "All arguments in the stated range, any type size."
  },
  {
   "property": "C20",
   "status": "proved",
   "theorems": [
    "Symxx.Factor.C20_modpow",
    "Symxx.Factor.C20_overflow"
   ],
   "note": "All arguments with (m-1)^2 representable; overflow outside shown."
  },
  {
   "property": "C21",
   "status": "partial",
   "theorems": [
    "Symxx.Factor.C21_is_prime_small_partial",
    "Symxx.Factor.C21_fails"
   ],
   "note": "Exact for all n < 9006403 except 9006401, which the code accepts although composite (proved)."
  },
  {
   "property": "C22",
   "status": "proved",
   "theorems": [
    "Symxx.Factor.C22_primes_accepted",
    "Symxx.Factor.C22_false_means_composite"
   ],
   "note": "All primes with (n-1)^2 representable."
  },
  {
   "property": "C23",
   "status": "partial",
   "theorems": [
    "Symxx.Factor.C23_composites_partial",
    "Symxx.Factor.C23_only_base_two",
    "Symxx.Factor.C23_fails"
   ],
   "note": "Below 9006403 exact (9006401 excluded); above, accepted numbers have no prime factor up to 89 and pass the strong test to base 2, and that is all that is tested when 2^d is not 1; 9056501 is a composite that is accepted (proved)."
  },
  {
   "property": "C24",
   "status": "proved",
   "theorems": [
    "Symxx.Factor.C24_pollard_rho",
    "Symxx.Factor.C24_round_terminates"
   ],
   "note": "Every list of draws; each round terminates (Floyd cycle argument)."
  },
  {
   "property": "C25",
   "status": "partial",
   "theorems": [
    "Symxx.Factor.C25_factorize_partial",
    "Symxx.Factor.C25_deterministic_partial",
    "Symxx.Factor.C25_fails"
   ],
   "note": "Prime factorisation for all 1 <= n < 9006403 except 9006401, every list of draws; false at 9006401 (proved)."
  },
  {
   "property": "C26",
   "status": "proved",
   "theorems": [
    "Symxx.Factor.C26_factorize_product",
    "Symxx.Factor.C26_whatever_returned",
    "Symxx.Factor.C26_nonpositive"
   ],
   "note": "Whatever is returned has the product n, with no bound on n. Every n >= 1 without overflow, every list of draws; n <= 0 is UB."
  },
  {
   "property": "C27",
   "status": "partial",
   "theorems": [
    "Symxx.Num.Rational.C27_construction_partial",
    "Symxx.Num.Rational.C27_negative_denominator"
   ],
   "note": "Value, lowest terms and the exact condition for a positive denominator; Rational(1,-2) keeps -2 (proved)."
  },
  {
   "property": "C28",
   "status": "proved",
   "theorems": [
    "Symxx.Num.Rational.C28_add_sub",
    "Symxx.Num.Rational.C28_mul_div"
   ],
   "note": "All operands with non-zero denominator; each operation is exact or signed overflow; division by zero raises Error exactly then."
  },
  {
   "property": "C29",
   "status": "partial",
   "theorems": [
    "Symxx.Num.Rational.C29_order_partial",
    "Symxx.Num.Rational.C29_reversed",
    "Symxx.Num.Rational.C29_fails"
   ],
   "note": "Correct when the denominators have the same sign; reversed otherwise (proved), and such values are reachable."
  },
  {
   "property": "C30",
   "status": "proved",
   "theorems": [
    "Symxx.Num.Rational.C30_equality"
   ],
   "note": "All operands with non-zero denominators."
  },
  {
   "property": "C31",
   "status": "partial",
   "theorems": [
    "Symxx.Num.Rational.C31_is_int_partial",
    "Symxx.Num.Rational.C31_is_int_sound",
    "Symxx.Num.Rational.C31_fails"
   ],
   "note": "Exact for lowest terms and positive denominator; 4/(-2) and \"4/2\" are counterexamples (proved)."
  },
  {
   "property": "C32",
   "status": "proved",
   "theorems": [
    "Symxx.Num.Rational.C32_from_string"
   ],
   "note": "All strings without a decimal point; the decimal branch (stold) is not modelled."
  },
  {
   "property": "C33",
   "status": "proved",
   "theorems": [
    "Symxx.Num.Rational.C33_roundtrip"
   ],
   "note": "All representable fractions."
  },
  {
   "property": "C34",
   "status": "partial",
   "theorems": [
    "Symxx.Num.Rational.C34_pow_partial",
    "Symxx.Num.Rational.C34_negative",
    "Symxx.Num.Rational.C34_fails"
   ],
   "note": "Exact for natural exponents within 2^53, for every oracle with exact std::pow on integers; negative exponents give 0, 1/0 or UB (proved)."
  },
  {
   "property": "C35",
   "status": "proved",
   "theorems": [
    "Symxx.Num.Rational.C35_no_overflow",
    "Symxx.Num.Rational.C35_bound_matters"
   ],
   "note": "General bound 2*B^2 <= max."
  },
  {
   "property": "C36",
   "status": "partial",
   "theorems": [
    "Symxx.Num.Real.C36_normalize_partial",
    "Symxx.Num.Real.C36_exact_partial",
    "Symxx.Num.Real.C36_root_partial",
    "Symxx.Num.Real.C36_root_exact_partial",
    "Symxx.Num.Real.env_of_factorize_base",
    "Symxx.Num.Real.C36_nonpositive_radicand",
    "Symxx.Num.Real.C36_overflow",
    "Symxx.Num.Real.env_of_factorize_good"
   ],
   "note": "Every exact run (no rounded power, right factorisation), no bound. It does run for all coefficients, positive radicands, indices with n*d^(k-1) and d^k at most B, where factorize is correct up to B (9006400 derived from the factorize model) and double powers are exact up to 2^53; radicands <= 0 are UB, so is an intermediate number that does not fit (proved)."
  },
  {
   "property": "C37",
   "status": "proved",
   "theorems": [
    "Symxx.Num.Real.C37_canonical",
    "Symxx.Num.Real.C37_identical"
   ],
   "note": "All pairs of normal forms; == is true iff same real number unless the cross products overflow."
  },
  {
   "property": "C38",
   "status": "partial",
   "theorems": [
    "Symxx.Num.Real.C38_idempotent_partial",
    "Symxx.Num.Real.C38_exact_partial",
    "Symxx.Num.Real.C38_stray_read_partial",
    "Symxx.Num.Real.C38_fails"
   ],
   "note": "Every exact run; all radicands up to the factorisation bound B; every junk value. Beyond 2^53 the full claim is false: the normal form of the 20th root of 1/7 is not normal (proved for correctly rounded doubles)."
  },
  {
   "property": "C39",
   "status": "partial",
   "theorems": [
    "Symxx.Num.Real.C39_mul_partial",
    "Symxx.Num.Real.C39_div_partial",
    "Symxx.Num.Real.C39_exact_partial",
    "Symxx.Num.Real.C39_div_zero",
    "Symxx.Num.Real.C39_inverse_not_normal",
    "Symxx.Num.Real.C39_overflow"
   ],
   "note": "Every exact run, no bound. It does run for all pairs whose intermediate radicand is at most B; a product of radicands that does not fit is UB, inverse alone does not normalise (proved)."
  },
  {
   "property": "C40",
   "status": "partial",
   "theorems": [
    "Symxx.Num.Real.C40_add_partial",
    "Symxx.Num.Real.C40_sub_partial",
    "Symxx.Num.Real.C40_exact_partial",
    "Symxx.Num.Real.C40_same_root_iff",
    "Symxx.Num.Real.C40_differ",
    "Symxx.Num.Real.C40_zero_plus_root_fails"
   ],
   "note": "Exact in every exact run and for equal roots, Error exactly for different roots (equivalently irrational quotient); 0 + sqrt 2 raises Error although 0 is a multiple (proved)."
  },
  {
   "property": "C41",
   "status": "partial",
   "theorems": [
    "Symxx.Num.Real.C41_order_partial",
    "Symxx.Num.Real.C41_exact_partial",
    "Symxx.Num.Real.C41_fails"
   ],
   "note": "Beyond 2^53 the full claim is false: 93222358*sqrt 2 and 131836323 are each greater than the other (proved for correctly rounded doubles). Every exact run on normal forms. It does run for all normal forms with positive denominators whose compared powers are at most 2^53."
  },
  {
   "property": "C42",
   "status": "partial",
   "theorems": [
    "Symxx.Num.Real.C42_pow_zero",
    "Symxx.Num.Real.C42_pow_nat_partial",
    "Symxx.Num.Real.C42_pow_neg_partial",
    "Symxx.Num.Real.C42_pow_frac_partial",
    "Symxx.Num.Real.C42_pow_neg_frac_partial",
    "Symxx.Num.Real.C42_exact_partial",
    "Symxx.Num.Real.C42_fails",
    "Symxx.Cli.C42_session"
   ],
   "note": "Beyond 2^53 the full claim is false: 3^34 evaluates to 16677181699666568 (proved for correctly rounded doubles). Every exact run. It does run for all exponents with intermediates bounded by B / 2^53."
  },
  {
   "property": "C43",
   "status": "proved",
   "theorems": [
    "Symxx.Sym.C43_mul",
    "Symxx.Sym.C43_pow",
    "Symxx.Sym.C43_mul_int",
    "Symxx.Sym.C43_pow_int"
   ],
   "note": "Every exact run; explicit bounds for integer terms; every std::pow/factorize satisfying Env.Good."
  },
  {
   "property": "C44",
   "status": "proved",
   "theorems": [
    "Symxx.Sym.C44_add",
    "Symxx.Sym.C44_add_assign",
    "Symxx.Sym.C44_sub",
    "Symxx.Sym.C44_sub_assign",
    "Symxx.Sym.C44_mul",
    "Symxx.Sym.C44_mul_assign",
    "Symxx.Sym.C44_negate",
    "Symxx.Sym.C44_div_real",
    "Symxx.Sym.C44_eval",
    "Symxx.Sym.C44_try_eval",
    "Symxx.Sym.C44_add_int",
    "Symxx.Sym.C44_sub_int",
    "Symxx.Sym.C44_mul_int",
    "Symxx.Sym.try_eval_root_fails"
   ],
   "note": "Every exact run of every operation, every permuting sort; totality with explicit bounds for integer polynomials. try_eval of the constant sqrt 2 returns null (proved)."
  },
  {
   "property": "C45",
   "status": "proved",
   "theorems": [
    "Symxx.Sym.C45_normalize",
    "Symxx.Sym.C45_normalize_int"
   ],
   "note": "Every permuting sort."
  },
  {
   "property": "C46",
   "status": "proved",
   "theorems": [
    "Symxx.Sym.C46_compositions"
   ],
   "note": "All n, all m >= 2."
  },
  {
   "property": "C47",
   "status": "proved",
   "theorems": [
    "Symxx.Sym.C47_pow",
    "Symxx.Sym.C47_pow_int",
    "Symxx.Sym.C47_pow_single",
    "Symxx.Sym.C47_factorial_wraps",
    "Symxx.Sym.C47_negative_fails"
   ],
   "note": "All natural n, every exact run; the wrap at 21! and the wrong result for negative exponents are proved."
  },
  {
   "property": "C48",
   "status": "partial",
   "theorems": [
    "Symxx.Sym.C48_add_partial",
    "Symxx.Sym.C48_sub_partial",
    "Symxx.Sym.C48_sub_assign_partial",
    "Symxx.Sym.C48_mul_partial",
    "Symxx.Sym.C48_div_partial",
    "Symxx.Sym.C48_negate_partial",
    "Symxx.Sym.C48_inverse_partial",
    "Symxx.Sym.C48_pow_partial",
    "Symxx.Sym.C48_pow_frac_partial",
    "Symxx.Sym.C48_eval",
    "Symxx.Sym.C48_try_eval",
    "Symxx.Sym.C48_div_zero",
    "Symxx.Sym.C48_add_int",
    "Symxx.Sym.C48_sub_int",
    "Symxx.Sym.C48_mul_int",
    "Symxx.Sym.C48_mul_fails",
    "Symxx.Sym.C48_pow_fails"
   ],
   "note": "Correct in every exact run; total with explicit bounds for integer polynomials; the full claim is false: (x+1)/(x-1)*(x-1)/(x+1) computes % 0 (proved)."
  },
  {
   "property": "C49",
   "status": "partial",
   "theorems": [
    "Symxx.Sym.C49_normalize_partial",
    "Symxx.Sym.C49_construct_partial",
    "Symxx.Sym.C49_of_number_partial",
    "Symxx.Sym.C49_of_term_partial",
    "Symxx.Sym.C49_of_poly_partial",
    "Symxx.Sym.C49_normalize_int",
    "Symxx.Sym.C49_fails",
    "Symxx.Sym.C49_single_denominator"
   ],
   "note": "Denotation preserved in every exact run; returns for integer fractions with reduced denominator; the no-Error part is false: 0/(1+0x) raises Error (proved)."
  },
  {
   "property": "C50",
   "status": "proved",
   "theorems": [
    "Symxx.Sym.C50_override",
    "Symxx.Sym.C50_term",
    "Symxx.Sym.C50_poly",
    "Symxx.Sym.C50_frac"
   ],
   "note": "Every environment whose values are valid and either positive or raised to integer powers."
  },
  {
   "property": "C51",
   "status": "proved",
   "theorems": [
    "Symxx.Parser.C51_parse_render",
    "Symxx.Parser.C51_any_text",
    "Symxx.Parser.C51_unambiguous"
   ],
   "note": "Every tree over + - * / ^ with writable leaves, conventional and fully parenthesised text, and every other spelling of a grammatical token sequence."
  },
  {
   "property": "C52",
   "status": "proved",
   "theorems": [
    "Symxx.Parser.C52_tokens",
    "Symxx.Parser.C52_exact"
   ],
   "note": "Every text that spells a token sequence (unsigned integers, letters, braced names, operators, ** , parentheses, roots, any spacing); decimal numerals are outside the spelling relation."
  },
  {
   "property": "C53",
   "status": "partial",
   "theorems": [
    "Symxx.Parser.C53_rejects_partial",
    "Symxx.Parser.C53_unexpected_character",
    "Symxx.Parser.C53_operands",
    "Symxx.Parser.C53_blank",
    "Symxx.Parser.C53_fails"
   ],
   "note": "Accepted iff grammatical whenever no operand directly follows an operand; otherwise malformed texts such as '1 2+' are accepted (proved)."
  },
  {
   "property": "C54",
   "status": "proved",
   "theorems": [
    "Symxx.Parser.C54_every_string",
    "Symxx.Parser.C54_every_token_sequence"
   ],
   "note": "Every string; the decimal conversion is a parameter assumed to return, raise Error or one of the two converted standard exceptions."
  },
  {
   "property": "C55",
   "status": "partial",
   "theorems": [
    "Symxx.Sym.C55_tree_partial",
    "Symxx.Sym.C55_expression",
    "Symxx.Sym.C55_text_partial",
    "Symxx.Sym.C55_fails",
    "Symxx.Sym.C55_fails_value"
   ],
   "note": "All trees whose leaves are numbers or symbols, every accepted text (unclosed parentheses and one-character non-letter names excluded), and trees with polynomial/fraction leaves that fit their place; the full claim is false: (x+1)^y prints as x+1^y (proved)."
  },
  {
   "property": "C56",
   "status": "partial",
   "theorems": [
    "Symxx.Sym.C56_try_eval_partial",
    "Symxx.Sym.C56_normalize_partial",
    "Symxx.Sym.C56_single_fraction",
    "Symxx.Sym.C56_unevaluable",
    "Symxx.Sym.C56_fails"
   ],
   "note": "Values kept in every exact run, at positive assignments, all five operators; without ^ always a single fraction. The full claim is false: 8^(1/(0-3)) (proved)."
  },
  {
   "property": "C57",
   "status": "proved",
   "theorems": [
    "Symxx.Dtoa.C57_digits"
   ],
   "note": "Every positive finite double; complete Grisu2 error analysis, table of powers of ten checked in the kernel."
  },
  {
   "property": "C58",
   "status": "proved",
   "theorems": [
    "Symxx.Dtoa.C58_shape"
   ],
   "note": "Every positive finite double."
  },
  {
   "property": "C59",
   "status": "partial",
   "theorems": [
    "Symxx.Dtoa.C59_format_partial",
    "Symxx.Dtoa.C59_fails"
   ],
   "note": "Every digit string and exponent except integers of 2 to 21 digits whose digit string is longer than 1; there the text is proved to be 10^(digits-1) times too large."
  },
  {
   "property": "C60",
   "status": "proved",
   "theorems": [
    "Symxx.Dtoa.C60_zero",
    "Symxx.Dtoa.C60_sign"
   ],
   "note": "All bit patterns."
  },
  {
   "property": "C61",
   "status": "partial",
   "theorems": [
    "Symxx.Dtoa.C61_roundtrip_iff",
    "Symxx.Dtoa.C61_fraction_partial",
    "Symxx.Dtoa.C61_large_partial",
    "Symxx.Dtoa.C61_fails",
    "Symxx.Dtoa.C61_nonfinite"
   ],
   "note": "Exact characterisation: the round trip fails exactly for integers below 10^21 that are not one digit times a power of ten. Infinities and NaN print as decimal numbers."
  },
  {
   "property": "C62",
   "status": "proved",
   "theorems": [
    "Symxx.Cli.C62_line",
    "Symxx.Cli.C62_session"
   ],
   "note": "Every state, every line, every session; std::sort permutes, std::pow and factorize never raise Error (Env.Quiet)."
  },
  {
   "property": "C63",
   "status": "partial",
   "theorems": [
    "Symxx.Cli.C63_one_command_partial",
    "Symxx.Cli.C63_twice",
    "Symxx.Cli.C63_fails",
    "Symxx.Cli.C63_version",
    "Symxx.Cli.C63_quit",
    "Symxx.Cli.C63_version_session",
    "Symxx.Cli.C63_banner"
   ],
   "note": "All lines except those starting with normalize or tex, which also normalise the whole line (proved, with a concrete failure)."
  },
  {
   "property": "C64",
   "status": "proved",
   "theorems": [
    "Symxx.Cli.C64_history",
    "Symxx.Cli.C64_unique"
   ],
   "note": "Every input and every number of iterations, as long as the session runs."
  },
  {
   "property": "C65",
   "status": "partial",
   "theorems": [
    "Symxx.Cli.C65_exit",
    "Symxx.Cli.C65_continues_partial",
    "Symxx.Cli.C65_end_of_input",
    "Symxx.Cli.C65_no_quit",
    "Symxx.Cli.C65_fails"
   ],
   "note": "Exits exactly on quit, every Error is survived, the last line is repeated for ever at the end of input; other standard exceptions end the process (proved)."
  },
  {
   "property": "C66",
   "status": "proved",
   "theorems": [
    "Symxx.Huge.C66_neg_abs"
   ],
   "note": "Every digit vector."
  },
  {
   "property": "C67",
   "status": "partial",
   "theorems": [
    "Symxx.Huge.C67_pow_partial",
    "Symxx.Huge.C67_pow_fails"
   ],
   "note": "Exact characterisation: correct only when the power is 0, because the code always returns 0 (finding F27)."
  },
  {
   "property": "C68",
   "status": "proved",
   "theorems": [
    "Symxx.Num.Real.C68_isRational",
    "Symxx.Num.Real.C68_toRational"
   ],
   "note": "All normal forms that fit the integer type."
  },
  {
   "property": "C69",
   "status": "partial",
   "theorems": [
    "Symxx.Sym.C69_pipeline_partial",
    "Symxx.Sym.C69_ring",
    "Symxx.Cli.C69_fails"
   ],
   "note": "Beyond 2^53 the full claim is false: the normal form of 3^34 has another value (proved for correctly rounded doubles). Every exact run; total with explicit bounds for + - * and natural powers over integers and symbols, there at every assignment (positive or not)."
  },
  {
   "property": "C70",
   "status": "partial",
   "theorems": [
    "Symxx.Sym.C70_substitute_partial",
    "Symxx.Cli.C70_fails"
   ],
   "note": "Beyond 2^53 the full claim is false: x^34 at 3 (proved for correctly rounded doubles). Every exact run with substitutable values (positive, or raised to integer powers only)."
  },
  {
   "property": "C71",
   "status": "partial",
   "theorems": [
    "Symxx.Sym.C71_fraction_partial",
    "Symxx.Sym.C71_polynomial_partial",
    "Symxx.Sym.C71_ring",
    "Symxx.Sym.C55_fails"
   ],
   "note": "Coefficients with roots, natural exponents, denominators of one term restricted to a number or a power; fractional and negative exponents and 1/(2x) are printed ambiguously (C55_fails)."
  },
  {
   "property": "C72",
   "status": "proved",
   "theorems": [
    "Symxx.Sym.C72_no_new_symbols",
    "Symxx.Sym.C72_substitute"
   ],
   "note": "Every run, every permuting sort, no range hypothesis."
  },
  {
   "property": "C73",
   "status": "proved",
   "theorems": [
    "Symxx.Dtoa.C73_short",
    "Symxx.Dtoa.C73_exact"
   ],
   "note": "All positive doubles, all decimals."
  },
  {
   "property": "C74",
   "status": "partial",
   "theorems": [
    "Symxx.Heap.C74_values_partial",
    "Symxx.Heap.C74_no_assignment"
   ],
   "note": "Every client program except assignments of an operator node to another operator node (those are C76)."
  },
  {
   "property": "C75",
   "status": "partial",
   "theorems": [
    "Symxx.Heap.C75_leaks",
    "Symxx.Heap.C75_no_leak_partial",
    "Symxx.Heap.C75_parse_leaks"
   ],
   "note": "Without parse nothing leaks; parse leaves exactly the nodes of its tree behind (proved for every text)."
  },
  {
   "property": "C76",
   "status": "partial",
   "theorems": [
    "Symxx.Heap.C74_values_partial",
    "Symxx.Heap.C76_assignment_shares",
    "Symxx.Heap.C76_example"
   ],
   "note": "True unless both sides are operator nodes; then the children are shared and the second use is a memory fault in every state (proved)."
  },
  {
   "property": "C77",
   "status": "partial",
   "theorems": [
    "Symxx.Cli.C77_count",
    "Symxx.Cli.C77_call",
    "Symxx.Cli.C77_value_partial",
    "Symxx.Cli.C77_examples",
    "Symxx.Cli.C77_fails"
   ],
   "note": "Beyond 2^53 the value is wrong: f(x) = x^34 at 3 (proved for correctly rounded doubles). Every state, line, function; the value of what is printed in exact runs with substitutable values."
  },
  {
   "property": "C78",
   "status": "proved",
   "theorems": [
    "Symxx.Cli.C78_calculator"
   ],
   "note": "Every expression within the stated size, every state; sort permutes and is total on integer polynomials."
  },
  {
   "property": "C79",
   "status": "proved",
   "theorems": [
    "Symxx.Cli.C79_call",
    "Symxx.Cli.C79_session"
   ],
   "note": "Every session, every expression, all integer arguments within the stated bound."
  },
  {
   "property": "C80",
   "status": "proved",
   "theorems": [
    "Symxx.Num.C80_decimal_text",
    "Symxx.Num.C80_decimal_close",
    "Symxx.Num.C80_decimal_exact",
    "Symxx.Num.C80_no_digits",
    "Symxx.Num.C80_decimal_inexact"
   ],
   "note": "Every correctly rounding format (the x86-64 one is shown to be one); spellings of inf, nan and hexadecimal numbers are a parameter."
  },
  {
   "property": "C81",
   "status": "proved",
   "theorems": [
    "Symxx.Num.C81_float_close",
    "Symxx.Num.C81_float_integer",
    "Symxx.Num.C81_float_limits"
   ],
   "note": "Every correctly rounding format; exponent range unbounded in the arithmetic."
  },
  {
   "property": "C82",
   "status": "partial",
   "theorems": [
    "Symxx.Sym.C82_one_reading",
    "Symxx.Sym.C82_tree_partial",
    "Symxx.Sym.C82_fraction_partial",
    "Symxx.Sym.C82_expression",
    "Symxx.Sym.C82_text_partial",
    "Symxx.Sym.C82_ring",
    "Symxx.Sym.C82_ntex_line",
    "Symxx.Sym.C82_tex_line_partial",
    "Symxx.Sym.C82_fails",
    "Symxx.Sym.C82_fails_paren",
    "Symxx.Sym.C82_fails_value"
   ],
   "note": "Every tree of numbers and symbols, every expanded integer polynomial and every fraction with square roots and rational exponents. A leaf that is a sum, product, power or negative number in an operand place loses its parentheses, roots other than square roots and names with digits are no TeX formulas (proved counterexamples)."
  },
  {
   "property": "C83",
   "status": "proved",
   "theorems": [
    "Symxx.Sym.C83_defined",
    "Symxx.Sym.C83_exact",
    "Symxx.Cli.C83_line",
    "Symxx.Cli.C83_line_text",
    "Symxx.Sym.C83_examples",
    "Symxx.Cli.C83_session"
   ],
   "note": "Floating point is a parameter that is exact on integers up to N (IEEE double/x87 with N = 2^53 is an instance, sem64_exact). A normal form without symbols is covered by C78."
  },
  {
   "property": "C84",
   "status": "proved",
   "theorems": [
    "Symxx.Num.C84_digits",
    "Symxx.Num.C84_integers",
    "Symxx.Num.C84_examples"
   ],
   "note": "Six significant digits; a value of seven digits is not shown exactly."
  },
  {
   "property": "C85",
   "status": "proved",
   "theorems": [
    "Symxx.Cli.C85_factor",
    "Symxx.Cli.C85_examples"
   ],
   "note": "`factor 7/2` prints the factors of 3, `factor 0` is undefined behaviour (C85_examples)."
  },
  {
   "property": "C86",
   "status": "proved",
   "theorems": [
    "Symxx.Sym.C86_error",
    "Symxx.Sym.C86_steps",
    "Symxx.Sym.C86_same_sign",
    "Symxx.Sym.C86_shown",
    "Symxx.Cli.C86_line",
    "Symxx.Cli.C86_example"
   ],
   "note": "Floating point is a parameter with a stated accuracy (rounded real numbers are an instance, semR_accurate); overflow and underflow are excluded by hypothesis."
  },
  {
   "property": "C87",
   "status": "proved",
   "theorems": [
    "Symxx.Factor.C87_primes_accepted",
    "Symxx.Factor.C87_small"
   ],
   "note": "Every prime with (n-1)^2 representable, every sequence of draws (20 are enough)."
  },
  {
   "property": "C88",
   "status": "proved",
   "theorems": [
    "Symxx.Factor.C88_first_base",
    "Symxx.Factor.C88_quarter",
    "Symxx.Factor.C88_no_further_rounds"
   ],
   "note": "Rabin's bound proved from scratch (Verif/Factor/Rabin.lean); further rounds are never run once a power differs from 1 (proved), so the bound does not improve with the tolerance."
  },
  {
   "property": "C89",
   "status": "proved",
   "theorems": [
    "Symxx.Factor.C89_draw",
    "Symxx.Factor.C89_factorize",
    "Symxx.Factor.C89_primes_partial"
   ],
   "note": "C89_primes_partial adds C25: the list returned is exactly the prime factors, below 9006403. The probability-1 reading follows from the positive probability of the good draw; measures are not modelled."
  },
  {
   "property": "C90",
   "status": "partial",
   "theorems": [
    "Symxx.Sym.C90_strict_weak_partial",
    "Symxx.Sym.C90_int",
    "Symxx.Sym.C90_fails",
    "Symxx.Sym.C90_fails_text"
   ],
   "note": "Proved for terms in normal form over positive denominators, without exactness hypothesis for integer terms. An exponent over a negative denominator, which the library does compute (F54), makes the comparator cyclic: proved counterexample."
  },
  {
   "property": "C91",
   "status": "partial",
   "theorems": [
    "Symxx.Sym.C91_collected_partial",
    "Symxx.Sym.C91_int",
    "Symxx.Sym.C91_ring",
    "Symxx.Sym.C91_fails"
   ],
   "note": "The sort is a parameter with the contract of std::sort. Integer polynomials and the ring expressions in full; in general exact runs on terms in normal form. With exponents over negative denominators like terms stay apart (proved counterexample)."
  },
  {
   "property": "C92",
   "status": "proved",
   "theorems": [
    "Symxx.Sym.C92_canonical",
    "Symxx.Sym.C92_zero"
   ],
   "note": "All expressions over integers, symbols, +, -, * and natural powers within the bounds of C69; the sort is a parameter with the contract of std::sort (fenv64_contract: insertion sort keeps it)."
  },
  {
   "property": "C93",
   "status": "proved",
   "theorems": [
    "Symxx.Sym.C93_fixed_point"
   ],
   "note": "Expressions of the ring with ringSize < M and ringDeg at most 2^53, names that the parser can read (SymOk)."
  },
  {
   "property": "C94",
   "status": "proved",
   "theorems": [
    "Symxx.Cli.C94_line",
    "Symxx.Cli.C94_same",
    "Symxx.Cli.C94_differ",
    "Symxx.Cli.C94_paste",
    "Symxx.Cli.C94_paste_plain",
    "Symxx.Cli.C94_call"
   ],
   "note": "RingLine gathers the conditions on the line. C94_same and C94_differ are the two directions (the second needs names the parser can read). C94_call: with a function called x the printed x(y**2) is read as a call (F57)."
  },
  {
   "property": "C95",
   "status": "proved",
   "theorems": [
    "Symxx.Cli.C95_value",
    "Symxx.Cli.C95_zero",
    "Symxx.Cli.C95_example",
    "Symxx.Cli.C95_unreduced",
    "Symxx.Cli.C95_sign"
   ],
   "note": "QuoLine gathers the conditions on the line. The fraction printed need not be in lowest terms if the last operation is a sum (C95_unreduced, F58), and its denominator may be negative (C95_sign, F59); the statement says so."
  },
  {
   "property": "C96",
   "status": "proved",
   "theorems": [
    "Symxx.Num.Rational.C96_to_t",
    "Symxx.Num.Rational.C96_exact",
    "Symxx.Num.Rational.C96_examples"
   ],
   "note": ""
  },
  {
   "property": "C97",
   "status": "proved",
   "theorems": [
    "Symxx.Cli.C97_line",
    "Symxx.Cli.C97_again",
    "Symxx.Cli.C97_fixed",
    "Symxx.Cli.C97_refused",
    "Symxx.Cli.C97_example"
   ],
   "note": "C97_line is about the output of a line of C95; the other three are about any fraction j/k."
  },
  {
   "property": "C98",
   "status": "proved",
   "theorems": [
    "Symxx.Cli.C98_value",
    "Symxx.Cli.C98_zero",
    "Symxx.Cli.C98_example",
    "Symxx.Cli.C98_sign"
   ],
   "note": "C98_sign shows why negative divisors are excluded (F61)."
  },
  {
   "property": "C99",
   "status": "proved",
   "theorems": [
    "Symxx.Cli.C99_call",
    "Symxx.Cli.C99_session",
    "Symxx.Cli.C99_example",
    "Symxx.Cli.C99_sign"
   ],
   "note": "Extends C79 from integer to fractional arguments; C99_sign shows why negative denominators are excluded (F61)."
  }
 ]
}