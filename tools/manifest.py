#!/usr/bin/env python3
"""Regenerates MANIFEST.json. One entry per property; properties without an entry are listed as partial work in DESIGN.md."""
import json, os
root = os.path.join(os.path.dirname(__file__), "..")
claims = []
def c(prop, status, ns, theorems, note):
    claims.append(dict(property=prop, status=status, theorems=[t if t.startswith("Symxx.") else ns + "." + t for t in theorems.split()], note=note))
H = "Symxx.Huge"
c("C01", "partial", H, "C01_add_exact_partial C01_add_same_sign_partial C01_fails_on_leading_zeros", "Exact for all canonical operands of any length and for equal signs on any digit vectors. The full claim is false of the code: a reachable operand with a leading zero digit gives a wrong sum (proved).")
c("C02", "partial", H, "C02_sub_exact_partial C02_sub_opposite C02_fails", "Exact iff the operands are not non-zero opposites (canonical operands); the full claim is false: 5 - (-5) = 0 (proved).")
c("C03", "partial", H, "C03_mul_iff C03_mul_exact_partial C03_mul_defined_partial C03_square_partial C03_one_split_partial C03_zero_half C03_karatsuba_undefined", "Exact characterisation: C03_mul_iff gives the set of operands (in numbers and digit counts, Huge/MulSpec.lean) where the product is defined, and there it is exact; consequences: always below 2^2100 for one operand or 2^4200 for a square, undefined whenever a low half of a wider operand is zero. Full claim false: 2^2130*2^2131 is UB (proved).")
c("C04", "partial", H, "C04_divmod_partial C04_exact_division_undefined", "Exact truncated division for all canonical operands, except exactly the exact divisions by divisors >= 2^30, which are UB (both directions proved).")
c("C05", "partial", H, "C05_division_by_zero_partial C05_no_spurious_error_partial C05_fails_on_leading_zeros", "Error iff divisor denotes 0 for canonical divisors; no spurious error for any operands; a reachable zero with leading zero digits gives UB instead (proved).")
c("C06", "proved", H, "C06_comparisons", "All six operators, all canonical operands.")
c("C07", "partial", H, "C07_exact C07_canonical_results_partial C07_fails_sub C07_fails_div", "Exact characterisation for +, -, / (C07_exact); *, %, gcd, negation, abs always; subtraction with cancellation and one-digit division do not (counterexamples proved).")
c("C08", "proved", H, "C08_from_string C08_no_number C08_leading_space", "All strings sign? digits+ rest.")
c("C09", "partial", H, "C09_to_string_partial C09_negative_zero", "Exact numeral for every value except negative zeros, which print -0 (proved).")
c("C10", "proved", H, "C10_roundtrip_huge C10_roundtrip_string", "Both directions, all lengths.")
c("C11", "partial", H, "C11_native_roundtrip_partial C11_minimum_undefined", "All types of at least 32 bits, all values but the minimum of a signed type (UB, proved).")
c("C12", "partial", H, "C12_exact C12_right_iff C12_to_native_partial C12_silent_truncation C12_minimum_undefined", "Exact characterisation of error, undefined behaviour and result (the number modulo 2^bits) for every number. Exact in range, Error from 2^(bits+30) on and for negative-to-unsigned; in between it truncates silently (proved).")
c("C13", "partial", H, "C13_divrem_partial C13_fails_negative", "Identity holds iff dividend >= 0 or the division is exact; divrem(-7,2) violates it (proved).")
c("C14", "partial", H, "C14_gcd_partial", "Exact characterisation: gcd correct except UB exactly when both operands are non-zero, of different magnitude and the gcd is >= 2^30.")
c("C15", "partial", H, "C15_inc_dec_partial C15_dec_minus_one", "++ exact, -- exact except at -1 where it yields 0 (proved).")
c("C16", "partial", H, "C16_exact C16_observations C16_histories_partial", "Exact characterisation: with all operations, a program computes the right canonical numbers iff every step satisfies a numeric condition (no cancelled leading digit F1/F2, product defined, division defined). Unconditional histories are false (C01, C02, C03).")
c("C66", "proved", H, "C66_neg_abs", "Every digit vector.")
c("C67", "partial", H, "C67_pow_partial C67_pow_fails", "Exact characterisation: correct only when the power is 0, because the code always returns 0 (finding F27).")
F = "Symxx.Factor"
c("C17", "partial", F, "C17_exact C17_unsigned_exact C17_int128_to_string_partial C17_uint128_to_string_partial C17_zero C17_negative_nul C17_minimum C17_unsigned", "Exact characterisation for signed and unsigned numbers. Exact for all positive numbers; negatives may carry a NUL after the sign, 0 prints empty, the minimum and large unsigned numbers are UB (all proved).")
c("C18", "partial", F, "C18_string_to_int128_partial C18_string_to_uint128 C18_roundtrip_partial C18_sign", "All unsigned numerals in range, for both 128-bit types, and the round trip; a sign is misread (-5 gives -25, proved).")
c("C19", "proved", F, "C19_mulmod", "All arguments in the stated range, any type size.")
c("C20", "proved", F, "C20_modpow C20_overflow", "All arguments with (m-1)^2 representable; overflow outside shown.")
c("C21", "partial", F, "C21_is_prime_small_partial C21_fails", "Exact for all n < 9006403 except 9006401, which the code accepts although composite (proved).")
c("C22", "proved", F, "C22_primes_accepted C22_false_means_composite", "All primes with (n-1)^2 representable.")
c("C23", "partial", F, "C23_composites_partial C23_only_base_two C23_fails", "Below 9006403 exact (9006401 excluded); above, accepted numbers have no prime factor up to 89 and pass the strong test to base 2, and that is all that is tested when 2^d is not 1; 9056501 is a composite that is accepted (proved).")
c("C24", "proved", F, "C24_pollard_rho C24_round_terminates", "Every list of draws; each round terminates (Floyd cycle argument).")
c("C25", "partial", F, "C25_factorize_partial C25_deterministic_partial C25_fails", "Prime factorisation for all 1 <= n < 9006403 except 9006401, every list of draws; false at 9006401 (proved).")
c("C26", "proved", F, "C26_factorize_product C26_whatever_returned C26_nonpositive", "Whatever is returned has the product n, with no bound on n. Every n >= 1 without overflow, every list of draws; n <= 0 is UB.")
Q = "Symxx.Num.Rational"
c("C27", "partial", Q, "C27_construction_partial C27_negative_denominator", "Value, lowest terms and the exact condition for a positive denominator; Rational(1,-2) keeps -2 (proved).")
c("C28", "proved", Q, "C28_add_sub C28_mul_div", "All operands with non-zero denominator; each operation is exact or signed overflow; division by zero raises Error exactly then.")
c("C29", "partial", Q, "C29_order_partial C29_reversed C29_fails", "Correct when the denominators have the same sign; reversed otherwise (proved), and such values are reachable.")
c("C30", "proved", Q, "C30_equality", "All operands with non-zero denominators.")
c("C31", "partial", Q, "C31_is_int_partial C31_is_int_sound C31_fails", "Exact for lowest terms and positive denominator; 4/(-2) and \"4/2\" are counterexamples (proved).")
c("C32", "proved", Q, "C32_from_string", "All strings without a decimal point; the decimal branch (stold) is not modelled.")
c("C33", "proved", Q, "C33_roundtrip", "All representable fractions.")
c("C34", "partial", Q, "C34_pow_partial C34_negative C34_fails", "Exact for natural exponents within 2^53, for every oracle with exact std::pow on integers; negative exponents give 0, 1/0 or UB (proved).")
c("C35", "proved", Q, "C35_no_overflow C35_bound_matters", "General bound 2*B^2 <= max.")
R = "Symxx.Num.Real"
c("C36", "partial", R, "C36_normalize_partial C36_exact_partial C36_root_partial C36_root_exact_partial env_of_factorize_base C36_nonpositive_radicand C36_overflow env_of_factorize_good", "Every exact run (no rounded power, right factorisation), no bound. It does run for all coefficients, positive radicands, indices with n*d^(k-1) and d^k at most B, where factorize is correct up to B (9006400 derived from the factorize model) and double powers are exact up to 2^53; radicands <= 0 are UB, so is an intermediate number that does not fit (proved).")
c("C37", "proved", R, "C37_canonical C37_identical", "All pairs of normal forms; == is true iff same real number unless the cross products overflow.")
c("C38", "partial", R, "C38_idempotent_partial C38_exact_partial C38_stray_read_partial C38_fails", "Every exact run; all radicands up to the factorisation bound B; every junk value. Beyond 2^53 the full claim is false: the normal form of the 20th root of 1/7 is not normal (proved for correctly rounded doubles).")
c("C39", "partial", R, "C39_mul_partial C39_div_partial C39_exact_partial C39_div_zero C39_inverse_not_normal C39_overflow", "Every exact run, no bound. It does run for all pairs whose intermediate radicand is at most B; a product of radicands that does not fit is UB, inverse alone does not normalise (proved).")
c("C40", "partial", R, "C40_add_partial C40_sub_partial C40_exact_partial C40_same_root_iff C40_differ C40_zero_plus_root_fails", "Exact in every exact run and for equal roots, Error exactly for different roots (equivalently irrational quotient); 0 + sqrt 2 raises Error although 0 is a multiple (proved).")
c("C41", "partial", R, "C41_order_partial C41_exact_partial C41_fails", "Beyond 2^53 the full claim is false: 93222358*sqrt 2 and 131836323 are each greater than the other (proved for correctly rounded doubles). Every exact run on normal forms. It does run for all normal forms with positive denominators whose compared powers are at most 2^53.")
c("C42", "partial", R, "C42_pow_zero C42_pow_nat_partial C42_pow_neg_partial C42_pow_frac_partial C42_pow_neg_frac_partial C42_exact_partial C42_fails Symxx.Cli.C42_session", "Beyond 2^53 the full claim is false: 3^34 evaluates to 16677181699666568 (proved for correctly rounded doubles). Every exact run. It does run for all exponents with intermediates bounded by B / 2^53.")
c("C68", "proved", R, "C68_isRational C68_toRational", "All normal forms that fit the integer type.")
P = "Symxx.Parser"
c("C51", "proved", P, "C51_parse_render C51_any_text C51_unambiguous", "Every tree over + - * / ^ with writable leaves, conventional and fully parenthesised text, and every other spelling of a grammatical token sequence.")
c("C52", "proved", P, "C52_tokens C52_exact", "Every text that spells a token sequence (unsigned integers, letters, braced names, operators, ** , parentheses, roots, any spacing); decimal numerals are outside the spelling relation.")
c("C53", "partial", P, "C53_rejects_partial C53_unexpected_character C53_operands C53_blank C53_fails", "Accepted iff grammatical whenever no operand directly follows an operand; otherwise malformed texts such as '1 2+' are accepted (proved).")
c("C54", "proved", P, "C54_every_string C54_every_token_sequence", "Every string; the decimal conversion is a parameter assumed to return, raise Error or one of the two converted standard exceptions.")
S = "Symxx.Sym"
c("C43", "proved", S, "C43_mul C43_pow C43_mul_int C43_pow_int", "Every exact run; explicit bounds for integer terms; every std::pow/factorize satisfying Env.Good.")
c("C44", "proved", S, "C44_add C44_add_assign C44_sub C44_sub_assign C44_mul C44_mul_assign C44_negate C44_div_real C44_eval C44_try_eval C44_add_int C44_sub_int C44_mul_int try_eval_root_fails", "Every exact run of every operation, every permuting sort; totality with explicit bounds for integer polynomials. try_eval of the constant sqrt 2 returns null (proved).")
c("C45", "proved", S, "C45_normalize C45_normalize_int", "Every permuting sort.")
c("C46", "proved", S, "C46_compositions", "All n, all m >= 2.")
c("C47", "proved", S, "C47_pow C47_pow_int C47_pow_single C47_factorial_wraps C47_negative_fails", "All natural n, every exact run; the wrap at 21! and the wrong result for negative exponents are proved.")
c("C48", "partial", S, "C48_add_partial C48_sub_partial C48_sub_assign_partial C48_mul_partial C48_div_partial C48_negate_partial C48_inverse_partial C48_pow_partial C48_pow_frac_partial C48_eval C48_try_eval C48_div_zero C48_add_int C48_sub_int C48_mul_int C48_mul_fails C48_pow_fails", "Correct in every exact run; total with explicit bounds for integer polynomials; the full claim is false: (x+1)/(x-1)*(x-1)/(x+1) computes % 0 (proved).")
c("C49", "partial", S, "C49_normalize_partial C49_construct_partial C49_of_number_partial C49_of_term_partial C49_of_poly_partial C49_normalize_int C49_fails C49_single_denominator", "Denotation preserved in every exact run; returns for integer fractions with reduced denominator; the no-Error part is false: 0/(1+0x) raises Error (proved).")
c("C50", "proved", S, "C50_override C50_term C50_poly C50_frac", "Every environment whose values are valid and either positive or raised to integer powers.")
c("C56", "partial", S, "C56_try_eval_partial C56_normalize_partial C56_single_fraction C56_unevaluable C56_fails", "Values kept in every exact run, at positive assignments, all five operators; without ^ always a single fraction. The full claim is false: 8^(1/(0-3)) (proved).")
c("C69", "partial", S, "C69_pipeline_partial C69_ring Symxx.Cli.C69_fails", "Beyond 2^53 the full claim is false: the normal form of 3^34 has another value (proved for correctly rounded doubles). Every exact run; total with explicit bounds for + - * and natural powers over integers and symbols, there at every assignment (positive or not).")
c("C70", "partial", S, "C70_substitute_partial Symxx.Cli.C70_fails", "Beyond 2^53 the full claim is false: x^34 at 3 (proved for correctly rounded doubles). Every exact run with substitutable values (positive, or raised to integer powers only).")
c("C55", "partial", S, "C55_tree_partial C55_expression C55_text_partial C55_fails C55_fails_value", "All trees whose leaves are numbers or symbols, every accepted text (unclosed parentheses and one-character non-letter names excluded), and trees with polynomial/fraction leaves that fit their place; the full claim is false: (x+1)^y prints as x+1^y (proved).")
c("C71", "partial", S, "C71_fraction_partial C71_polynomial_partial C71_ring C55_fails", "Coefficients with roots, natural exponents, denominators of one term restricted to a number or a power; fractional and negative exponents and 1/(2x) are printed ambiguously (C55_fails).")
c("C72", "proved", S, "C72_no_new_symbols C72_substitute", "Every run, every permuting sort, no range hypothesis.")
D = "Symxx.Dtoa"
c("C57", "proved", D, "C57_digits", "Every positive finite double; complete Grisu2 error analysis, table of powers of ten checked in the kernel.")
c("C58", "proved", D, "C58_shape", "Every positive finite double.")
c("C59", "partial", D, "C59_format_partial C59_fails", "Every digit string and exponent except integers of 2 to 21 digits whose digit string is longer than 1; there the text is proved to be 10^(digits-1) times too large.")
c("C60", "proved", D, "C60_zero C60_sign", "All bit patterns.")
c("C61", "partial", D, "C61_roundtrip_iff C61_fraction_partial C61_large_partial C61_fails C61_nonfinite", "Exact characterisation: the round trip fails exactly for integers below 10^21 that are not one digit times a power of ten. Infinities and NaN print as decimal numbers.")
c("C73", "proved", D, "C73_short C73_exact", "All positive doubles, all decimals.")
CL = "Symxx.Cli"
c("C62", "proved", CL, "C62_line C62_session", "Every state, every line, every session; std::sort permutes, std::pow and factorize never raise Error (Env.Quiet).")
c("C63", "partial", CL, "C63_one_command_partial C63_twice C63_fails C63_version C63_quit C63_version_session C63_banner", "All lines except those starting with normalize or tex, which also normalise the whole line (proved, with a concrete failure).")
c("C64", "proved", CL, "C64_history C64_unique", "Every input and every number of iterations, as long as the session runs.")
c("C65", "partial", CL, "C65_exit C65_continues_partial C65_end_of_input C65_no_quit C65_fails", "Exits exactly on quit, every Error is survived, the last line is repeated for ever at the end of input; other standard exceptions end the process (proved).")
HP = "Symxx.Heap"
c("C74", "partial", HP, "C74_values_partial C74_no_assignment", "Every client program except assignments of an operator node to another operator node (those are C76).")
c("C75", "partial", HP, "C75_leaks C75_no_leak_partial C75_parse_leaks", "Without parse nothing leaks; parse leaves exactly the nodes of its tree behind (proved for every text).")
c("C76", "partial", HP, "C74_values_partial C76_assignment_shares C76_example", "True unless both sides are operator nodes; then the children are shared and the second use is a memory fault in every state (proved).")
c("C77", "partial", CL, "C77_count C77_call C77_value_partial C77_examples C77_fails", "Beyond 2^53 the value is wrong: f(x) = x^34 at 3 (proved for correctly rounded doubles). Every state, line, function; the value of what is printed in exact runs with substitutable values.")
c("C78", "proved", CL, "C78_calculator", "Every expression within the stated size, every state; sort permutes and is total on integer polynomials.")
c("C79", "proved", CL, "C79_call C79_session", "Every session, every expression, all integer arguments within the stated bound.")
c("C80", "proved", "Symxx.Num", "C80_decimal_text C80_decimal_close C80_decimal_exact C80_no_digits C80_decimal_inexact", "Every correctly rounding format (the x86-64 one is shown to be one); spellings of inf, nan and hexadecimal numbers are a parameter.")
c("C81", "proved", "Symxx.Num", "C81_float_close C81_float_integer C81_float_limits", "Every correctly rounding format; exponent range unbounded in the arithmetic.")
c("C82", "partial", S, "C82_one_reading C82_tree_partial C82_fraction_partial C82_expression C82_text_partial C82_ring C82_ntex_line C82_tex_line_partial C82_fails C82_fails_paren C82_fails_value", "Every tree of numbers and symbols, every expanded integer polynomial and every fraction with square roots and rational exponents. A leaf that is a sum, product, power or negative number in an operand place loses its parentheses, roots other than square roots and names with digits are no TeX formulas (proved counterexamples).")
c("C83", "proved", "Symxx", "Sym.C83_defined Sym.C83_exact Cli.C83_line Cli.C83_line_text Sym.C83_examples Cli.C83_session", "Floating point is a parameter that is exact on integers up to N (IEEE double/x87 with N = 2^53 is an instance, sem64_exact). A normal form without symbols is covered by C78.")
c("C84", "proved", "Symxx.Num", "C84_digits C84_integers C84_examples", "Six significant digits; a value of seven digits is not shown exactly.")
c("C85", "proved", CL, "C85_factor C85_examples", "`factor 7/2` prints the factors of 3, `factor 0` is undefined behaviour (C85_examples).")
c("C86", "proved", "Symxx", "Sym.C86_error Sym.C86_steps Sym.C86_same_sign Sym.C86_shown Cli.C86_line Cli.C86_example", "Floating point is a parameter with a stated accuracy (rounded real numbers are an instance, semR_accurate); overflow and underflow are excluded by hypothesis.")
c("C87", "proved", F, "C87_primes_accepted C87_small", "Every prime with (n-1)^2 representable, every sequence of draws (20 are enough).")
c("C88", "proved", F, "C88_first_base C88_quarter C88_no_further_rounds", "Rabin's bound proved from scratch (Verif/Factor/Rabin.lean); further rounds are never run once a power differs from 1 (proved), so the bound does not improve with the tolerance.")
c("C89", "proved", F, "C89_draw C89_factorize C89_primes_partial", "C89_primes_partial adds C25: the list returned is exactly the prime factors, below 9006403. The probability-1 reading follows from the positive probability of the good draw; measures are not modelled.")
c("C90", "partial", S, "C90_strict_weak_partial C90_int C90_fails C90_fails_text", "Proved for terms in normal form over positive denominators, without exactness hypothesis for integer terms. An exponent over a negative denominator, which the library does compute (F54), makes the comparator cyclic: proved counterexample.")
c("C91", "partial", S, "C91_collected_partial C91_int C91_ring C91_fails", "The sort is a parameter with the contract of std::sort. Integer polynomials and the ring expressions in full; in general exact runs on terms in normal form. With exponents over negative denominators like terms stay apart (proved counterexample).")
c("C92", "proved", S, "C92_canonical C92_zero", "All expressions over integers, symbols, +, -, * and natural powers within the bounds of C69; the sort is a parameter with the contract of std::sort (fenv64_contract: insertion sort keeps it).")
c("C93", "proved", S, "C93_fixed_point", "Expressions of the ring with ringSize < M and ringDeg at most 2^53, names that the parser can read (SymOk).")
c("C94", "proved", CL, "C94_line C94_same C94_differ C94_paste C94_paste_plain C94_call", "RingLine gathers the conditions on the line. C94_same and C94_differ are the two directions (the second needs names the parser can read). C94_call: with a function called x the printed x(y**2) is read as a call (F57).")
c("C95", "proved", CL, "C95_value C95_zero C95_example C95_unreduced C95_sign", "QuoLine gathers the conditions on the line. The fraction printed need not be in lowest terms if the last operation is a sum (C95_unreduced, F58), and its denominator may be negative (C95_sign, F59); the statement says so.")
c("C96", "proved", "Symxx.Num.Rational", "C96_to_t C96_exact C96_examples", "")
c("C97", "proved", CL, "C97_line C97_again C97_fixed C97_refused C97_example", "C97_line is about the output of a line of C95; the other three are about any fraction j/k.")
c("C98", "proved", CL, "C98_value C98_zero C98_example C98_sign", "C98_sign shows why negative divisors are excluded (F61).")
c("C99", "proved", CL, "C99_call C99_session C99_example C99_sign", "Extends C79 from integer to fractional arguments; C99_sign shows why negative denominators are excluded (F61).")
c("C100", "partial", S, "C100_meaning C100_strict_weak_partial C100_fails", "The meaning of < in every exact comparison; a strict weak order if the degrees other than 0 are all equal; false otherwise: 2x, x^2 and 3x (F62, proved).")
c("C101", "proved", CL, "C101_root C101_text C101_same C101_accurate C101_example C101_fails", "Powers of positive fractions with positive fractions as exponents; C101_fails shows what lies outside (F14, F63: 1/2^(1/2) is not rationalised, roots of 0 and of negative numbers are undefined).")
c("C102", "proved", CL, "C102_named C102_all C102_again C102_example C102_blank", "Stated over the history of the session (Latest, Defines of C64). C102_blank: a blank before the parenthesis becomes part of the name (F64).")
c("C103", "proved", CL, "C103_product C103_again C103_same C103_example C103_fails", "Division only by fractions: C103_fails shows that a quotient of roots is not brought into one root (F63).")
c("C104", "proved", CL, "C104_sum C104_read C104_same C104_accurate C104_example", "Uniqueness by linear independence of roots (Symxx.Num.roots_indep). Only the text before ` =` is determined by the value: terms that cancelled may stay in the computation of the number. Products of sums: C105. Roots of fractions within sums and division are not covered.")
c("C105", "proved", CL, "C105_ring C105_integer C105_read C105_same C105_example C105_fails", "Same uniqueness as C104 (Symxx.Num.roots_indep). Division is excluded: C105_fails (F63). Powers of sums of roots with exponents 1, 2, ... are included (multinomial expansion of Poly::pow); roots of sums are not covered.")
c("C106", "proved", CL, "C106_same C106_only C106_example C106_cancelled", "The constructor. A sum of two fractions with equal denominators is not normalised (F58), so the same need not hold for the results of +; and terms that cancelled earlier are not distinct non-zero terms and do make a difference (F66, C106_cancelled).")
c("C107", "partial", CL, "C107_first C107_lowest_partial C107_fails C107_example", "False of the code (F65): the greatest common divisor is taken of the denominator and the first coefficient only, so (1+2*x)/4 becomes (x+1/2)/2. Proved: exactly what is built, and that it is in lowest terms if and only if this divisor divides every coefficient.")
c("C108", "proved", CL, "C108_work C108_example", "The counting functions are those of the model with a counter; that they are the same functions is part of the theorem.")
c("C109", "partial", CL, "C109_count C109_fails C109_example", "False of the code (F49): both operands are evaluated twice at every level. Proved: the exact number of leaf evaluations, its bounds 2^depth and leaves*2^depth, and that for the lines x^x^...^x no polynomial in the length of the line bounds it.")
c("C110", "proved", CL, "C110_value C110_same C110_final C110_poly C110_example", "Extends C106 to rational coefficients (the form that Frac::normalize itself leaves behind, F65) and adds that the form is final.")
c("C111", "proved", CL, "C111_line C111_same C111_uncancelled_line C111_uncancelled_same C111_example C111_example_pow", "C106 for whole session lines. That nothing cancels is proved for +, * and natural powers of positive integers and symbols (Node.ring_pos) and a hypothesis of the C111_uncancelled theorems for lines with -; C111_example shows that it is needed (F66). The printed form need not be in lowest terms (F65).")
c("C112", "proved", CL, "C112_session C112_line C112_expr C112_real C112_zero_index C112_cenv64 C112_example", "Factorisation, floating point, std::sort and std::stold are assumed to return (CEnv.Ends); that of the examples does (C112_cenv64). The end of one line, not of the read loop, which spins at the end of input (see the findings). F67: index 0. Memory and time limits are not modelled.")
claims.sort(key=lambda d: d["property"])
json.dump(dict(claims=claims), open(os.path.join(root, "MANIFEST.json"), "w"), indent=1, ensure_ascii=False)
