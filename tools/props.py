#!/usr/bin/env python3
"""Regenerates properties.jsonl (kept as source so that the list can be appended to)."""
import json, os
H="include/symxx/huge.hpp"; N="include/symxx/num.hpp"; F="include/symxx/factorize.hpp"
A="include/symxx/int_adapter.hpp"; R="include/symxx/frac.hpp"; X="include/symxx/expr.hpp"
P="include/symxx/parser.hpp"; L="include/symxx/cli.hpp"; D="include/symxx/dtoa.hpp"
INF="The domain is infinite (integers of any length); tests only sample a few literals."
props=[]
def p(title,stmt,quant,why,anchors):
    props.append(dict(id="C%02d"%(len(props)+1),title=title,statement=stmt,quantifier=quant,why_tests_cant=why,anchors=anchors))
# ---------------- Huge
p("Huge addition is exact","For all Huge a, b: a + b (and a += b) denotes the integer sum of the values of a and b, whatever their signs and lengths.","all pairs of Huge values of any length and sign",INF,[H+":Huge::operator+=",H+":digits_add",H+":digits_sub"])
p("Huge subtraction is exact","For all Huge a, b: a - b (and a -= b) denotes the integer difference of the values of a and b.","all pairs of Huge values of any length and sign",INF,[H+":Huge::operator-=",H+":digits_sub"])
p("Huge multiplication is exact and always defined","For all Huge a, b: a * b terminates without undefined behaviour and denotes the integer product, both in the schoolbook range and above the Karatsuba cut-off.","all pairs of Huge values of any length and sign","The recursion depth and the carry patterns are unbounded; the failing digit patterns (a zero half) are never hit by random decimal strings.",[H+":digits_mul",H+":digits_simple_mul",H+":k_mul_split",H+":digits_inplace_sub",H+":digits_inplace_add"])
p("Huge division and remainder are truncated division","For all Huge a and b != 0: a / b and a % b terminate without undefined behaviour, a / b is the quotient truncated towards zero, a % b has the sign of a, |a % b| < |b| and a = (a/b)*b + a%b.","all dividends and all non-zero divisors of any length","Knuth-D quotient digit correction paths occur with probability about 2^-30; random tests never reach them.",[H+":digits_divrem",H+":digits_divrem_by1",H+":digits_rem",H+":digits_rem_by1",H+":Huge::operator/=",H+":Huge::operator%="])
p("Huge division by zero is always reported","a / b, a % b and divrem(a, b) raise Error 'Division by zero' whenever b denotes 0 and never otherwise.","all a and b",INF,[H+":Huge::operator/=",H+":Huge::operator%=",H+":divrem"])
p("Huge comparisons agree with the integer order","For all Huge a, b whose digit vectors have no leading zero digit: each of <, <=, >, >=, ==, != returns exactly the answer of the integers they denote (so they form a total order; +0 equals -0).","all pairs of Huge values",INF,[H+":digits_cmp",H+":Huge::operator<"])
p("Every Huge operation returns a value that compares correctly","If a Huge result denotes the same integer as a Huge built from a string then == says so, for results of every arithmetic operation (equivalently: results never carry leading zero digits).","all operands of every arithmetic operator","Needs a representation invariant over all histories; the violations need borrow/quotient patterns at a digit boundary.",[H+":digits_sub",H+":digits_divrem_by1",H+":digits_cmp"])
p("Huge from string is exact","For every string consisting of an optional sign followed by at least one decimal digit (any length, any leading zeros, anything after the digits), Huge(s) denotes the decimal value of the digits with that sign.","all strings of that shape, any length",INF,[H+":Huge::Huge(const std::string&)"])
p("Huge to_string is the canonical decimal numeral","to_string() yields '-' exactly for negative values followed by the decimal digits of the absolute value with no superfluous leading zero; 0 prints as \"0\".","all Huge values, any length",INF,[H+":Huge::to_string"])
p("Huge decimal round trip","Huge(h.to_string()) denotes the same integer as h and Huge(s).to_string() == s for every canonical decimal numeral s.","all Huge values / all canonical numerals",INF,[H+":Huge::to_string",H+":Huge::Huge(const std::string&)"])
p("Huge from/to native integers is exact","For every native integer type U and every value v of U, Huge(v) denotes v and Huge(v).to<U>() == v.","all widths, signed and unsigned, all values of the type","2^64 values per type; the failing value is the single minimum of each signed type.",[H+":digits_from_int",H+":Huge::Huge(U)",H+":Huge::internal_to"])
p("Huge to<U> never returns a wrong number","h.to<U>() either returns exactly the denoted integer or raises an Error; it never silently truncates.","all Huge values and all native integer types U",INF,[H+":Huge::internal_to"])
p("divrem satisfies the division identity","For all a and b != 0, divrem(a,b) = (q, r) with a = q*b + r and |r| < |b|.","all a, all non-zero b",INF,[H+":divrem"])
p("Huge gcd is the greatest common divisor","a.gcd(b) terminates without undefined behaviour and denotes the non-negative greatest common divisor of the denoted integers.","all a, b",INF,[H+":digits_gcd",H+":Huge::gcd"])
p("Huge increment and decrement","++h / h++ denote value+1 and --h / h-- denote value-1; the postfix forms return the old value.","all Huge values",INF,[H+":Huge::operator++",H+":Huge::operator--"])
p("Histories of Huge operations compute the integer result","Any finite program of string constructions, additions, multiplications, negations and comparisons on Huge yields, at every point, the value integer arithmetic yields, with all digits below 2^30 and no leading zero digit.","all finite operation sequences and all inputs","The space of histories is infinite; needs an inductive representation invariant.",[H+":Huge"])
# ---------------- adapters
p("128-bit integers print as their decimal numeral","adapter_to_string(n) is the decimal numeral of n for every __int128 n.","all 2^128 values","2^128 inputs; the length estimate by bit width must be right at every power of ten.",[A+":adapter_to_string",A+":adapter_bit_width"])
p("128-bit integers parse exactly","adapter_to_int<__int128>(s) is the value of the decimal numeral s for all numerals in range.","all numerals, signed or unsigned, in the range of __int128",INF,[A+":adapter_to_int128"])
p("mulmod is modular multiplication","adapter_mulmod(a,b,m) == a*b mod m for all 0 <= a, 0 <= b <= m, 0 < m as long as 2m is representable; it terminates.","all a, b, m in that range",INF,[A+":adapter_mulmod"])
p("modpow is modular exponentiation","adapter_modpow(b,e,m) == b^e mod m for all b, e >= 0 and m > 1 with m*m representable; outside that range signed overflow is reachable.","all b, e, m in that range",INF,[A+":adapter_modpow"])
# ---------------- factorize
p("is_prime is exact on small numbers","For every integer n < 9006403, is_prime(n) is true exactly when n is prime, and computing it for int64 never overflows.","all n < 9006403 including negatives","9 million inputs through five different Fermat/trial-division branches whose pseudoprime gaps are number-theoretic facts.",[F+":is_prime",F+":is_prime_slow_path",F+":is_prime_fast_path"])
p("is_prime accepts every prime","For every prime n whose square is representable, is_prime(n) returns true (a false answer proves compositeness).","all primes in range",INF,[F+":is_prime_fast_path"])
p("is_prime rejects every composite","For every composite n whose square is representable in T, is_prime(n) returns false.","all composites in range","Strong pseudoprimes are too rare for random testing.",[F+":is_prime_fast_path"])
p("Pollard rho returns a proper divisor for every random choice","For every composite n > 3 and every sequence of random draws, if the search returns it returns d with 1 < d < n and d | n; for a prime it returns n.","all n and all random draw sequences","Quantifies over the random device.",[F+":Pollard_Rho",F+":random_digit"])
p("factorize yields the prime factorisation, independent of randomness","For every n >= 1 below 9006403 and every sequence of random draws, if factorize(n) returns then the multiset is exactly the prime factorisation of n (product n, all prime); two runs agree.","all n and all random draw sequences","Quantifies over the random device and over recursion trees.",[F+":factorize",F+":Pollard_Rho"])
p("factorize multiset always multiplies to n","For every n >= 1 with no overflow and every random choice, the product of the returned multiset is n and every element passes is_prime.","all n and all random draw sequences","Quantifies over the random device and over recursion trees.",[F+":factorize"])
# ---------------- Rational
p("Rational construction reduces and preserves the value","Rational(n,d) with d != 0 denotes n/d in lowest terms with positive denominator; with d == 0 it raises Error 'Division by zero'.","all n, d of the integer type",INF,[N+":Rational::Rational",N+":Rational::normalize"])
p("Rational + - * / are exact","If no intermediate overflows, a+b, a-b, a*b and a/b (b != 0) denote the exact rational result and remain in lowest terms; a/0 raises Error 'Division by zero'.","all pairs of rationals",INF,[N+":Rational::operator+=",N+":Rational::operator-=",N+":Rational::operator*=",N+":Rational::operator/="])
p("Rational ordering agrees with the numeric order","<, >, <=, >= on Rational agree with the order of the denoted rational numbers, for every Rational the API can produce.","all pairs of reachable Rational values",INF,[N+":Rational::operator<=>",N+":Rational::inverse"])
p("Rational equality is numeric equality","a == b exactly when they denote the same rational number; != is its negation.","all pairs of reachable Rational values",INF,[N+":Rational::operator=="])
p("is_int recognises exactly the integers","r.is_int() is true exactly when the denoted number is an integer, for every Rational the API can produce.","all reachable Rational values",INF,[N+":Rational::is_int",N+":Rational::Rational(const std::string&)",N+":Rational::operator*="])
p("Rational from string denotes the written fraction","Rational(\"p\") and Rational(\"p/q\") denote p and p/q (q != 0), \"p/0\" raises Error, and a string with no number raises Error.","all strings of those shapes",INF,[N+":Rational::Rational(const std::string&)"])
p("Rational to_string round trip","Rational(r.to_string()) == r.","all Rational values",INF,[N+":Rational::to_string"])
p("Rational pow is exact exponentiation","r.pow(n) denotes r^n for every integer n (r != 0 when n < 0) within double-exact range.","all r, all integer n",INF,[N+":Rational::pow",A+":adapter_pow"])
p("Rational arithmetic on moderate operands never overflows","For int64, +, -, *, /, comparison of rationals whose numerators and denominators are below 2^31 in absolute value involve no signed overflow.","all operands below 2^31","2^124 operand pairs.",[N+":Rational"])
# ---------------- Real
p("Real normalisation preserves the value","For every coefficient, positive radicand and index >= 1, the normalised Real denotes coe * radicand^(1/index).","all coefficients, radicands, indices",INF,[N+":Real::normalize",N+":decompose_radicand"])
p("Real normal form is canonical","Two normalised Reals with positive radicand denote the same real number exactly when == says they are equal.","all pairs of normalised Reals",INF,[N+":Real::normalize",N+":Real::operator=="])
p("Real normalisation is idempotent and independent of the stray end() read","Normalising a normalised Real changes nothing, and the out-of-range map read for radicand 1 never influences the result.","all Reals, all junk values","The junk value is not controllable from a test.",[N+":Real::normalize"])
p("Real multiplication and division are exact","a*b and a/b (b != 0) denote the product and quotient of the denoted real numbers.","all pairs with positive radicand",INF,[N+":Real::operator*=",N+":Real::operator/=",N+":Real::inverse"])
p("Real addition is exact or reports an Error","a+b denotes the exact sum whenever it does not raise an Error, and it raises no Error when both denote rational multiples of the same normalised root.","all pairs",INF,[N+":Real::operator+=",N+":Real::is_equivalent_with"])
p("Real ordering agrees with the real numbers","a < b and a > b agree with the order of the denoted real numbers.","all pairs of normalised Reals with positive radicands and positive denominators",INF,[N+":Real::operator<"])
p("Real rational power is exact","x.pow(p) denotes x^p for every rational p and positive x.","all positive x, all rational p",INF,[N+":Real::pow"])
# ---------------- Term / Poly / Frac
p("Term product and power denote product and power","For every assignment of positive reals to symbols, every exact run of s*t and s.pow(q) gives a term that evaluates to the product and the power of the evaluations; for integer terms the run is exact whenever exponents and coefficients of the result fit. An exact run is one in which the call returns, no machine integer overflows or wraps around, no floating-point power is rounded and every number factorised is at most the bound up to which factorize is correct.","all terms, all assignments",INF,[R+":Term::operator*=",R+":Term::pow",R+":Term::normalize"])
p("Polynomial arithmetic denotes pointwise arithmetic","Every exact run of p+q, p+=q, p-q, p-=q, p*q, p*=q, p.negate(), p/c, p.eval(), p.try_eval() gives a result that evaluates to the sum, difference, product, negation, quotient, value for every positive assignment; for integer polynomials the run of + - * is exact whenever the sum of absolute coefficients fits. An exact run is one in which the call returns, no machine integer overflows or wraps around, no floating-point power is rounded and every number factorised is at most the bound up to which factorize is correct.","all polynomials, all assignments",INF,[R+":Poly::operator+=",R+":Poly::operator*=",R+":Poly::negate"])
p("Poly normalisation preserves the denotation for every sorting outcome","In every exact run, combining like terms does not change the value of the polynomial at any assignment, whatever order the sort produces; for integer polynomials every run is exact when the sum of absolute coefficients fits. An exact run is one in which the call returns, no machine integer overflows or wraps around, no floating-point power is rounded and every number factorised is at most the bound up to which factorize is correct.","all polynomials, all permutations, all assignments","Order of equal elements under std::sort is unspecified.",[R+":Poly::normalize"])
p("Composition enumeration is complete and duplicate free","solve_variable_eq(n,m) lists every m-tuple of naturals summing to n exactly once, for m >= 2.","all n, all m >= 2",INF,[R+":solve_variable_eq"])
p("Polynomial integer power is the repeated product","Every exact run of p.pow(n) gives a polynomial that evaluates to the n-th power of the evaluation (multinomial theorem), and returns for integer polynomials with n!*L^n <= 2^53; a single term may have any rational exponent. An exact run is one in which the call returns, no machine integer overflows or wraps around, no floating-point power is rounded and every number factorised is at most the bound up to which factorize is correct.","all polynomials, all n, all assignments",INF,[R+":Poly::pow"])
p("Fraction arithmetic denotes field arithmetic","Frac +, -, *, / evaluate to the field operations wherever the denominators are non-zero; dividing by the zero polynomial raises Error.","all fractions, all assignments with non-zero denominators",INF,[R+":Frac::operator+=",R+":Frac::operator*=",R+":Frac::operator/=",R+":Frac::normalize"])
p("Frac normalisation preserves the denotation","Clearing denominators and dividing by the common factor never changes numerator/denominator at any assignment where the denominator is non-zero, and never raises an Error on a valid fraction.","all fractions, all assignments",INF,[R+":Frac::normalize"])
p("Substitution commutes with evaluation","In every exact run, substituting values for symbols and then evaluating equals evaluating with those values assigned. An exact run is one in which the call returns, no machine integer overflows or wraps around, no floating-point power is rounded and every number factorised is at most the bound up to which factorize is correct.","all terms/polynomials/fractions, all environments",INF,[R+":Term::substitute",R+":Poly::substitute",R+":Frac::substitute"])
# ---------------- parser / expr
p("Parser respects precedence and associativity","For every expression tree, parsing its conventional rendering (parentheses exactly where precedence and left associativity require, or redundantly) yields that tree.","all expression trees",INF,[P+":ExprParser::parse",P+":great_or_equal"])
p("Tokeniser inverts rendering","Rendering a token sequence (numbers, symbols, operators, parentheses, any spacing) and tokenising it gives back the same sequence, with '*' inserted exactly at the documented juxtapositions.","all token sequences",INF,[P+":get_token",P+":get_all_tokens"])
p("Parser rejects malformed input","parse() raises Error on every string that is not an expression of the grammar.","all strings",INF,[P+":ExprParser::parse"])
p("Parser never exhibits undefined behaviour","For every token sequence parse() either returns a tree or raises Error; it never pops an empty stack.","all token sequences",INF,[P+":ExprParser::parse"])
p("Printing an expression preserves its meaning","Parsing e.to_string() gives an expression with the same value as e at every assignment.","all expression trees, all assignments",INF,[X+":ExprNode::to_string",X+":withparen"])
p("Expression evaluation is compositional","try_eval() of a tree over + - * / evaluates to the arithmetic of its leaves at every assignment; normalize() preserves the value.","all expression trees, all assignments",INF,[X+":ExprNode::try_eval",X+":ExprNode::normalize"])
# ---------------- dtoa
p("dtoa digits identify the double (Grisu2)","For every finite positive double v the digits and exponent generated denote a number strictly inside the rounding interval of v, so reading it back gives v.","all finite positive doubles (2^63)","2^63 inputs; error analysis over a 687-entry table.",[D+":grisu2",D+":digit_gen",D+":grisu_round",D+":cached_power"])
p("dtoa digit string is well formed","The generated digit buffer is non-empty, consists of decimal digits only, has no leading zero, at most 17 digits; no step overflows or indexes outside the table.","all finite positive doubles","2^63 inputs.",[D+":digit_gen",D+":cached_power",D+":k_comp"])
p("dtoa formatting denotes digits * 10^K","The formatted string denotes exactly digits * 10^K for every digit string and exponent.","all digit strings, all exponents",INF,[D+":prettify_string",D+":fill_exponent"])
p("dtoa sign and zero","dtoa(-v) is '-' followed by dtoa(v) for v > 0; dtoa(+0) = \"0.0\", dtoa(-0) = \"-0.0\".","all doubles","2^64 inputs.",[D+":dtoa"])
p("dtoa round trip","Reading dtoa(v) as a decimal and rounding to nearest gives v, for every finite double.","all finite doubles","2^64 inputs.",[D+":dtoa"])
# ---------------- CLI
p("A failing command leaves the session state unchanged","If processing a line raises Error, defined functions and constants are unchanged.","all states, all lines, all histories","Quantifies over histories.",[L+":cmd_func",L+":cmd_constant",L+":mainloop"])
p("Each line runs exactly one command","Every input line triggers exactly one command action.","all lines","All strings.",[L+":mainloop"])
p("Definitions persist until redefined","After a successful definition, the function/constant looked up is the last one defined under that name, for every later history.","all histories","Quantifies over histories.",[L+":cmd_func",L+":cmd_constant",L+":cmd_print"])
p("The session ends exactly on quit","The read-eval loop terminates exactly when a line whose command word is quit is read; no Error ends it.","all line sequences","Quantifies over infinite histories.",[L+":mainloop"])
p("Huge negation and absolute value","-h and h.negate() denote the negated integer, h.abs() denotes the absolute value, for every Huge.","all Huge values",INF,[H+":Huge::negate",H+":Huge::abs"])
p("Huge pow is exponentiation","x.pow(e) denotes x to the power e for all Huge x and e >= 0.","all pairs of Huge values",INF,[H+":Huge::pow"])
p("Real rationality test","For a normalised Real, is_rational() is true exactly when the denoted number is rational, and to<Rational>() then returns it and otherwise raises Error.","all normalised Reals",INF,["include/symxx/num.hpp:Real::is_rational","include/symxx/num.hpp:Real::to"])
p("From text to value","For every text that parses, the normalised expression has, at every assignment, the value of the expression the text denotes; expressions over integers, symbols, +, -, * and powers with a natural exponent always evaluate to a polynomial over denominator 1 when coefficients and degree fit the machine integer and the powers fit a double.","all texts, all assignments of positive reals (of any reals for integer expressions)",INF,[P+":ExprParser::parse",X+":ExprNode::normalize",X+":ExprNode::try_eval"])
p("Substitution in an expression commutes with evaluation","e.substitute(m) has, at every assignment, the value that e has when the symbols bound by m take their values.","all expression trees, all maps, all assignments of positive reals",INF,[X+":ExprNode::substitute"])
p("Printed polynomials and fractions read back","Parsing the text of a polynomial or a fraction gives an expression with its value at every assignment; in particular an expression over integers, symbols, +, -, * and natural powers, expanded and printed, reads back as the same function.","all polynomials and fractions, all assignments",INF,["include/symxx/frac.hpp:Poly::to_string","include/symxx/frac.hpp:Frac::to_string","include/symxx/frac.hpp:Term::to_string"])
p("No symbol is invented, no bound symbol survives","Every symbol of the result of an operation on fractions or expressions (arithmetic, powers, evaluation, normalisation) occurs in an operand; after substitute() none of the bound symbols is left.","all fractions, expressions and substitutions",INF,["include/symxx/frac.hpp:Frac","include/symxx/expr.hpp:ExprNode::normalize","include/symxx/expr.hpp:ExprNode::substitute"])
p("dtoa digits are not needlessly long","If some decimal n*10^k lies within a relative distance of 2^-55 of the positive double v, the last digit printed for v has weight at least 10^k; in particular a double that is itself a short decimal (0.5, 0.1 read from text) is not printed with spurious trailing digits beyond that position.","all positive doubles, all n, all k","2^63 inputs times infinitely many decimals.",[D+":digit_gen",D+":grisu2"])
p("Expressions have value semantics and no memory errors", "Constructing, copying, normalising, substituting, printing, assigning and destroying expression variables in any order never touches freed memory, and every variable behaves as an independent tree.", "all client programs (statement sequences over any number of variables), all expressions", "Ownership errors appear only in particular histories; tests run under no sanitizer and cover few histories.", [X+":OpData", X+":ExprNode", P+":parse"])
p("No memory is leaked by expressions", "When all expression variables are out of scope no node is alive.", "all client programs", "Leaks are invisible to value-based tests and quantify over histories.", [X+":OpData", P+":parse"])
p("Assigning one expression to another copies it", "After x = y the two variables are independent: destroying or changing one does not affect the other.", "all pairs of expressions, all continuations", "Undefined behaviour may go unnoticed in a test.", [X+":OpData", L+":cmd_func"])
p("Calling a function", "A line name(a1,...,ak)... whose name is a defined function: with the wrong number of arguments an Error is reported, nothing is printed and nothing changes; otherwise the printed text is that of the normal form of the body with the arguments in place of the parameters, all definitions stay, and the printed expression has the value of the body at the arguments.", "all states, all lines, all functions, all arguments", INF, [L+":cmd_call", L+":mainloop"])
p("The session is an exact integer calculator", "A line that is an expression over integers, +, -, *, natural powers and parentheses, whose size bound fits the machine integer (powers: a double), prints exactly its integer value followed by a line break, in every state in which its first word is not a command or a call, and changes nothing.", "all expressions, all states", INF, [L+":mainloop", L+":cmd_normalize", L+":print_result", P+":ExprParser::parse", X+":ExprNode::normalize"])
p("Integer functions compute their value", "After a line func f(x,...) = e, e over integers, the parameters, +, -, * and natural powers, and as long as no later line defines f, every call of f with integers (positive, negative or zero; within the stated size bound) prints exactly the integer value of e at these integers and a line break, reports no error and changes nothing.", "all sessions (histories of lines), all expressions, all integer arguments within the bound", "Quantifies over histories, expressions and arguments.", [L+":cmd_func", L+":cmd_call", L+":print_result", R+":Frac::substitute", X+":ExprNode::normalize"])
p("A short decimal text is read as its decimal, or one unit of the last place less",
  "Rational(string) on [-]digits.digits (trailing text ignored), with at most digits10 decimals and digits of value at most 2^58 (x86-64 long double, long long), never throws and yields a fraction in lowest terms with positive denominator. Written without trailing zeros as a/10^k the result is a/10^k, or (a-1)/10^k if the long double nearest to the text times 10^k falls short of a; in particular values with at most 64 significant bits (0.5, 2.75, 3.00) are exact. Texts without a digit are refused. (0.53 is read as 13/25 and 0.001 as 0.)",
  "every sign, all digit strings before and after the point within the stated size, all trailing texts, every floating-point format that rounds correctly",
  "about 10^18 texts, and the outcome of each depends on two roundings and a tolerance loop; the texts that go wrong are scattered",
  [N, P])
p("Converting a floating-point value stays within two units of the last decimal used",
  "Rational(double) and Rational(long double) for long long: for every value x with 10|x| <= max the conversion is defined and gives a fraction in lowest terms whose denominator divides 10^d, d <= digits10, with |result - x| < 2/10^d; d is digits10 unless x is, to within 2^-59, a decimal of d places. Integers are converted exactly. (Rational(0.1) is not 1/10; for int, or for larger values, the conversion overflows.)",
  "every long double and every double in the stated range, every correctly rounding format",
  "2^80 values, rounding in every step of a data-dependent loop",
  [N])
p("TeX output denotes the expression",
  "to_tex() of an expression, read with the usual conventions of TeX mathematics (\\frac, \\sqrt, superscripts on one operand, juxtaposition and \\times as product, leading minus), denotes a function of the symbols, only one, and it is the value of the expression; the lines tex t and ntex t print such a text for t.",
  "all expression trees with symbols TeX can show, all assignments where the powers of symbols are real; every accepted text",
  "infinitely many trees and assignments; a missing parenthesis changes the meaning only for particular nestings",
  [X+":ExprNode::to_tex", "include/symxx/frac.hpp:Term::to_tex", "include/symxx/frac.hpp:Poly::to_tex", "include/symxx/frac.hpp:Frac::to_tex", N+":Real::to_tex", L+":cmd_tex", L+":cmd_ntex"])
p("The value printed behind the equals sign",
  "try_eval with a map of constants returns a value exactly if every symbol of the expression is bound. If the constants are integers and every step of the evaluation has an integer result within the range the floating-point types hold exactly (2^53), the value is that of the expression. In a session: a line over integers, +, -, *, natural powers and symbols whose constants are integers (within the size bound) prints its normal form, and unless that is a number also ` = ` and its value, digit for digit if it has at most six digits; nothing changes.",
  "all expressions, all maps of constants, all states and lines, every floating-point arithmetic that is exact on integers up to N",
  INF, [X+":ExprNode::try_eval", R+":Term::try_eval", R+":Poly::try_eval", R+":Frac::try_eval", N+":Real::to", L+":print_result"])
p("The digits printed for a value are right",
  "The text printed for a finite long double denotes a number whose relative distance from it is at most 1/200000 (half a unit of the sixth digit); an integer of up to six digits is printed as its numeral.",
  "all finite values", INF, [L+":print_result", L+":print_constant"])
p("factor prints the prime factors of the value",
  "The line `factor e`, e an expression over integers, +, -, * and natural powers with a positive value within the bound up to which factorize is correct, prints the prime factors of the value in ascending order, with multiplicity, each followed by a blank, and changes nothing.",
  "all states, all expressions within the bounds", INF, [L+":cmd_factor", F+":Factorization::operator()", N+":Real::try_to"])
p("The rounding error of the numeric value",
  "try_eval with a map of constants (any real values) returns a long double whose distance from the exact value of the expression is at most an explicit bound: for a fraction 3*(g_n*N + |x|*g_d*D)/|d| + u*|x| + lo, where N and D are the sums of the absolute values of the terms of numerator and denominator, d is the denominator, x the exact value, g the accumulated rounding of one term and of the summation (proportional to the number of terms and powers), and for an unresolved operation the effect of the errors of its operands plus one rounding - provided coefficients, powers, products and sums stay within the range of the types. On x86-64, without cancellation and with fewer than 2^16 operations, the relative error is at most 2^-42. The text shown has an additional relative error of 1/200000. In a session, a line whose run is exact (C69) and whose symbols have positive constants prints its normal form, ` = ` and such a value of the expression that was typed.",
  "all expressions, all real values of the symbols, every floating-point arithmetic with the stated accuracy (IEEE 754 plus a pow that is right to one unit of the last place is an instance)",
  "the values are real numbers, and every operation rounds; a test sees single points", [X+":ExprNode::try_eval", R+":Term::try_eval", R+":Poly::try_eval", R+":Frac::try_eval", N+":Real::to", N+":Rational::to", L+":print_result"])
p("The randomised primality test accepts every prime",
  "is_prime(n, true, tolerance) returns true for every prime n for which (n-1)^2 is representable, whatever the random bases and whatever the tolerance; below 9006403 (9006401 excepted) it is exact.",
  "all integer types, all primes in range, all outcomes of the random generator, all tolerances", INF,
  [F+":is_prime", F+":is_prime_fast_path", F+":random_digit"])
p("The randomised primality test rarely accepts a composite",
  "For every composite n above 9006402 with (n-1)^2 representable, fewer than a quarter of the n-4 possible values of the first random base lead is_prime(n, true, tolerance) to answer true, whatever is drawn afterwards. (A larger tolerance does not lower this: it is ignored, and the first base whose power is not 1 ends the test.)",
  "all composites in range, all outcomes of the random generator, all tolerances",
  "a statement about the number of bases for every composite number: Rabin's theorem",
  [F+":is_prime", F+":is_prime_fast_path", F+":random_digit"])
p("Factorisation can always finish",
  "For every number n > 4 that is_prime rejects there is at least one value among the n-2 possible draws of the random constant with which Pollard's rho finds a proper divisor in that round, whatever was drawn before and would be drawn after; so after every history of draws factorize(n) can still return. (With the random generator drawing each value with positive probability, it returns with probability 1.)",
  "all n >= 1 with (n-1)^2 representable, all integer types, all finite histories of draws",
  "a liveness statement over all histories of the random generator: a test that returns shows one history, one that does not return shows nothing",
  [F+":Pollard_Rho", F+":factorize", F+":random_digit"])
p("The comparator of the term sort meets std::sort's requirements",
  "The comparator that normalisation hands to std::sort returns on every pair of terms and is a strict weak order (irreflexive, transitive, incomparability transitive) on the terms it is given, so that the call is defined.",
  "all lists of terms in normal form (positive denominators, no zero exponents) whose comparisons are exact; all lists of integer terms that fit the integer type",
  "a strict weak order is a statement about all triples of terms; a violation is undefined behaviour that a test may not show",
  [R+":Poly::normalize", R+":Term", N+":Real::operator>", N+":Rational::operator<"])
p("Like terms are collected",
  "After normalisation no two terms of a polynomial, other than zero, are like terms: none is a rational multiple of another as a function of the symbols. Expressions over integers, symbols, +, -, * and natural powers evaluate to such polynomials.",
  "all polynomials in normal form whose run is exact; all expressions of the ring within the bounds; every sort that keeps the contract of std::sort",
  "independence of monomials (with roots as coefficients) over all values of the symbols; every order of the terms",
  [R+":Poly::normalize", R+":Term::is_equivalent_with", N+":Real::is_equivalent_with"])
p("Canonical text",
  "Two expressions over integers, symbols, +, -, * and natural powers that are equal for all positive values of the symbols are simplified to the same text; one that is zero everywhere is simplified to `0`.",
  "all pairs of expressions within the bounds, every sort that keeps the contract of std::sort",
  "quantifies over all pairs of equal expressions: an infinite set of identities",
  [X+":ExprNode::normalize", X+":ExprNode::to_string", R+":Frac::normalize", R+":Poly::normalize", R+":Poly::to_string", R+":Term::to_string"])
p("Simplifying a simplified text changes nothing",
  "The text of a simplified expression over integers, symbols, +, -, * and natural powers is a fixed point: it is accepted by the parser, and the expression read from it is simplified to exactly the same text.",
  "all expressions within the bounds (size below the largest integer, degree at most 2^53, names the parser can read), every sort that keeps the contract of std::sort",
  "composes printer, parser, construction, normalisation and printer again, over all expressions",
  [P+":Parser::parse", X+":ExprNode::normalize", X+":ExprNode::to_string", R+":Poly::normalize", R+":Poly::to_string", R+":Term::to_string"])
p("Algebra in a session",
  "In the interactive program a line that is an expression over integers, symbols, +, -, * and natural powers prints its simplified text and a line break and changes nothing; two such lines print the same if and only if they are equal as functions; and what is printed, typed as a line, prints itself: it is never taken for a command, only, if the user has defined functions, possibly for a call of one.",
  "all pairs of lines within the bounds, all states of the session in which the symbols are not constants, every sort that keeps the contract of std::sort",
  "quantifies over all pairs of lines and all sessions; composes the command dispatcher, parser, simplifier and printer",
  [L+":mainloop", L+":cmd_normalize", L+":print_result", P+":Parser::parse", X+":ExprNode::normalize", X+":ExprNode::to_string", R+":Poly::to_string"])
p("The session as a calculator with fractions",
  "In the interactive program a line that is an expression over integers with +, -, *, / prints a fraction whose value is exactly that of the expression, in lowest terms if the outermost operation is * or /, followed by ` = ` and the floating point quotient of its two parts unless the value is whole (for positive denominators exactly then), and changes nothing; if the expression divides by zero anywhere, the line reports `Division by zero`, prints nothing else and changes nothing.",
  "all lines whose unreduced numerator and denominator fit the integer type, all states of the session",
  "all expression trees and sessions; the reduction, the division by zero and the choice of the output format depend on the values met on the way",
  [L+":mainloop", L+":cmd_normalize", L+":print_result", X+":ExprNode::normalize", R+":Frac::normalize", R+":Frac::operator+", R+":Frac::operator/", R+":Frac::to_string"])
p("Conversion of a Rational to an integer",
  "r.to_t() is the integer part of the number r denotes: not larger in absolute value, not of the other sign, less than one away, and the number itself if it is whole. Only the number one above the largest integer cannot be converted.",
  "all Rationals with a non-zero denominator, of either sign",
  "all pairs of integers and all integer types; the exception is a single pair",
  [N+":Rational::to_t"])
p("Printed fractions can be typed again",
  "What a line of arithmetic over integers (+, -, *, /) prints before ` = `, typed as a line in the same session, is never taken for a command or a call; it prints the same line if the fraction is in lowest terms over a positive denominator, and over any positive denominator a fraction in lowest terms with the same value, which is then a fixed point; with a negative denominator it is refused with `Invaild string.`.",
  "all fractions whose parts fit the integer type, all such lines, all states of the session",
  "composes printer, parser, evaluation and printer again, over all integers and all sessions",
  [L+":mainloop", L+":cmd_normalize", L+":print_result", P+":Parser::parse", R+":Frac::to_string", R+":Frac::normalize"])
p("The calculator with fractions and powers",
  "In the interactive program a line that is an expression over integers with +, -, *, / and natural powers, in which no divisor is negative, prints a fraction over a positive denominator whose value is exactly that of the expression, in lowest terms if the outermost operation is *, / or ^, followed by ` = ` and the floating point quotient of its two parts exactly if the value is not whole; typed again, a fraction in lowest terms prints the same line. A division by zero anywhere is reported as `Division by zero`; nothing else is printed. The session does not change.",
  "all such lines whose unreduced numerator and denominator fit the integer type (those of powers 2^53), all states of the session, every std::pow that is exact on exact results",
  "all expression trees and sessions; composes parser, evaluation, floating-point powers, printer and the command dispatcher",
  [L+":mainloop", L+":cmd_normalize", L+":print_result", X+":ExprNode::normalize", R+":Frac::pow", R+":Frac::try_eval", N+":Real::pow", N+":Rational::pow", R+":Frac::to_string"])
p("Calling a function with fractions",
  "In the interactive program, after `func f(x,...) = body` with a body over integers, the parameters, +, -, * and natural powers, and as long as f is not defined again, every line f(a,...) whose arguments are integers or fractions a/b with a positive denominator prints the exact value of the body at these arguments as a fraction in lowest terms over a positive denominator (an integer without denominator), followed by ` = ` and the floating point quotient of its two parts exactly if the value is not whole. Arguments need not be in lowest terms. Nothing in the session changes.",
  "all bodies, numbers of parameters, arguments and histories of the session for which the value over the common denominator of all terms, and the products compared while sorting, fit the integer type and the powers are at most 2^53",
  "all polynomials, arguments and session histories; composes parser, definition, substitution, sorting and merging of terms, cancellation, printing",
  [L+":cmd_func", L+":mainloop", L+":print_result", R+":Term::substitute", R+":Poly::normalize", R+":Frac::substitute", R+":Frac::normalize", N+":Real::operator+", N+":Rational::operator+"])
p("Comparing terms with <",
  "For terms in normal form a < b holds exactly if the degrees (sums of the exponents) are equal and the coefficient of a is smaller, or a has a degree other than 0 and b has degree 0. It is a strict weak order, as std::sort, std::set and std::map require.",
  "all pairs of terms in normal form whose comparison is exact; all lists of such terms",
  "a strict weak order is a statement about all triples; the cases depend on irrational values of the coefficients",
  [R+":Term::operator<", N+":Real::operator<"])
p("Roots in a session",
  "In the interactive program a line x^y, where x and y are arithmetic over integers with positive rational values, prints the exact value in its simplest form: a_i/N/b for a*N^(1/i)/b with positive a, b in lowest terms, N divisible by no i-th power and no d-th power for a divisor d > 1 of i (the parts that are 1, and the index 2, are left out; a whole number is printed alone). Read as an expression it has that value again, and two such lines print the same if and only if their values are equal. Exactly if the value is not whole, ` = ` and a floating-point number follow, which is the value up to a relative error of 2^-41 if the floating-point arithmetic has the accuracy of x86-64. The session does not change.",
  "all such lines with x = n/d, y = m/q in lowest terms, m, q <= 2^53 for which n^m*(d^m)^(q-1) and (d^m)^q can be factored and are at most 2^53; all states of the session; every floating-point arithmetic of that accuracy",
  "all expressions, radicands and indices; composes parser, evaluation, factoring, normalisation of roots, printer, the command dispatcher and an error analysis of the numeric evaluation",
  [L+":mainloop", L+":cmd_normalize", L+":print_result", X+":ExprNode::normalize", R+":Frac::pow", N+":Real::pow", N+":Real::normalize", N+":Real::to_string", R+":Frac::to_string"])
p("What print shows",
  "In the interactive program `print name` always succeeds, changes nothing and shows exactly the function last defined under that name (name, parameters separated by commas, text of the body), if any, and then the constant of that name, if any. `print` alone shows every function that is defined once, in the order of the names, and then every constant. What a defining line has printed is what `print name` prints from then on until the next definition.",
  "all sessions that start without functions and are still running, all names and histories, all integer and floating point types",
  "all histories of definitions, redefinitions and errors; that no lookup fails and no text is missing is an invariant of the session",
  [L+":cmd_print", L+":print_func", L+":print_constant", L+":cmd_func", L+":cmd_constant", L+":mainloop"])
p("Products and quotients of roots in a session",
  "In the interactive program a line that is a product, quotient or power built from positive fractions and positive powers of them with * and with / by a fraction prints its exact value as one root in simplest form, a_i/N/b for a*N^(1/i)/b (as for a single power), followed by ` = ` and a floating-point number exactly if the value is not whole. Two such lines print the same if and only if their values are equal. What is printed before ` =` has the value when read, and typed as a line, in any session, prints exactly the same line again. Where a and b are at most 2^53 the number is the value up to a relative error of 2^-41. The session does not change.",
  "all such lines of any length and nesting for which the least common multiple of the indices is at most 2^53, the radicand over it can be factored and the integers fit the type; all states of the session; every floating-point arithmetic of the accuracy of x86-64",
  "all expression trees, radicands and indices; that equal values are always shown alike needs the uniqueness of simplest roots",
  [L+":mainloop", L+":cmd_normalize", L+":print_result", X+":ExprNode::normalize", R+":Frac::operator*", R+":Frac::operator/", R+":Frac::normalize", N+":Real::operator*", N+":Real::normalize", P+":Parser::parse", R+":Frac::to_string"])
p("Sums and differences of roots in a session",
  "In the interactive program a line that adds and subtracts integers and roots of integers (products of powers of positive integers with positive rational exponents) prints its value as a sum of different roots in simplest form: no two shown terms are rational multiples of each other, no term is zero, indices decrease and radicands decrease where the indices are equal. A floating-point number follows exactly if the value is not a whole number; it is the value up to an error of 2^-41 relative to the sum of the absolute values of the shown terms. The text before ` =`, read as an expression, has the value of the line. Two such lines show the same text if and only if their values are equal, so that every identity between sums of roots is recognised and none is invented. The session does not change.",
  "all such lines of any length and nesting with indices at most I and radicands at most R where the integers before the roots sum up to at most L and L^(I*I)*R^I <= 2^53 (the accuracy of the number: at most 2^15 numbers in the line); all states of the session; every sort that meets the contract of std::sort; every floating-point arithmetic of the accuracy of x86-64",
  "all expression trees and all roots; that equal values are always shown alike needs the linear independence of roots over the rationals",
  [L+":mainloop", L+":cmd_normalize", L+":print_result", X+":ExprNode::normalize", R+":Frac::operator+", R+":Frac::operator-", R+":Poly::normalize", R+":Poly::to_string", N+":Real::operator+", N+":Real::normalize", P+":Parser::parse"])
p("Identities between sums, products and powers of roots in a session",
  "In the interactive program a line built with +, -, * and powers with exponents 1, 2, ... (n! at most 2^53) from integers and roots of integers (products of powers of positive integers with positive rational exponents) is multiplied out and prints its value as a sum of different roots in simplest form, ordered as in a sum of roots. If the value is a whole number, the line prints just this number, however many roots occur in it; otherwise ` = ` and a floating-point number follow, which is the value up to an error of 2^-41 relative to the sum of the absolute values of the shown terms. The text before ` =`, read as an expression, has the value of the line. Two such lines show the same text if and only if their values are equal: (1+2^(1/2))*(1+2^(1/2)) and 3+2*2^(1/2), for example. The session does not change. (With division this is lost: denominators are not made rational.)",
  "all such lines of any length and nesting where all indices divide I, and the value V of the line with every - replaced by + (and 0 by 1) has V^(I*I) <= 2^53 and a V^I that can be factored; all states of the session; every sort that meets the contract of std::sort; every floating-point arithmetic of the accuracy of x86-64",
  "all expression trees and all roots; that equal values are always shown alike needs the linear independence of roots over the rationals, that nothing overflows a bound on every intermediate term",
  [L+":mainloop", L+":cmd_normalize", L+":print_result", X+":ExprNode::normalize", R+":Frac::operator*", R+":Frac::operator+", R+":Frac::operator-", R+":Poly::operator*=", R+":Poly::normalize", R+":Frac::normalize", R+":Poly::to_string", N+":Real::operator*", N+":Real::operator+", N+":Real::normalize", P+":Parser::parse"])
p("Equal quotients by numbers are built the same",
  "For polynomials p, p' with whole coefficients and whole numbers d, d' > 0, Frac(p, d) and Frac(p', d') are the same fraction, term by term, if and only if p/d and p'/d' are equal as functions of the symbols. The order in which the terms are given and common factors make no difference.",
  "all polynomials with at least one term, distinct monomials, whole non-zero coefficients and exponents, and all d, d' > 0 for which the sum of the absolute values of the coefficients times the denominator fits the type; every sort that meets the contract of std::sort",
  "all polynomials, denominators and orders of the terms; that equal functions have equal coefficients is the linear independence of monomials",
  [R+":Frac::Frac(const Poly&, const Poly&)", R+":Frac::normalize", R+":Poly::normalize", R+":Poly::operator/=", N+":Real::operator/"])
p("A quotient by a number is in lowest terms",
  "For a polynomial p with whole coefficients and a whole number d > 0, Frac(p, d) has whole coefficients and no number above 1 divides all of them and the denominator.",
  "all such polynomials and denominators within the range of the type; every sort that meets the contract of std::sort",
  "all polynomials and denominators; the outcome depends on which term the sort puts first",
  [R+":Frac::normalize", R+":Poly::operator/=", N+":Real::operator/", R+":Poly::normalize"])
p("Symbolic evaluation looks at each leaf a bounded number of times",
  "try_eval() of an expression tree evaluates each of its leaves at most once, and normalize() evaluates each leaf at most once per level of the tree: the number of leaf evaluations is at most the number of leaves times one more than the depth of the tree, whatever the operations return or throw.",
  "all expression trees, all integer types and sorts",
  "all trees; running time on samples does not bound the work on every input",
  [X+":ExprNode::normalize", X+":ExprNode::try_eval()"])
p("Numeric evaluation takes work proportional to the expression",
  "Evaluating an expression numerically, try_eval(v), evaluates each leaf of the tree a bounded number of times, so that the work is bounded by a polynomial in the length of the line the expression was read from.",
  "all lines and expression trees, all assignments of numbers to symbols, every floating-point arithmetic",
  "all trees; the exponent only shows for deep trees",
  [X+":ExprNode::try_eval(const std::map&)", L+":print_result", P+":Parser::parse"])
p("A polynomial over a number has one form and keeps it",
  "For a polynomial p with rational coefficients and a whole number d > 0, Frac(p, d) denotes p/d. Two such fractions are the same, term by term, if and only if the quotients are equal as functions of the symbols, wherever the factors stand: in the coefficients, in their denominators or in d. Building the fraction again from its own numerator and denominator changes nothing. Frac(p) is Frac(p, 1).",
  "all polynomials with at least one term, distinct monomials, rational non-zero coefficients in lowest terms and whole non-zero exponents, and all d > 0 for which the sum of the absolute values of the numerators times d times the square of the product of the denominators fits the type (for building again: the same of the result); every sort that meets the contract of std::sort",
  "all polynomials, denominators and orders of the terms; the two steps, clearing of denominators and division by a common divisor, must undo each other on every input",
  [R+":Frac::Frac(const Poly&, const Poly&)", R+":Frac::Frac(const Poly&)", R+":Frac::normalize", R+":Poly::normalize", R+":Poly::operator/=", N+":Real::operator*", N+":Real::operator/"])
p("Session lines that are equal polynomials over a number print the same",
  "A line e/d, where e is made of positive integers, symbols, +, * and natural powers and d is a positive integer, prints one text and a line break and leaves the session as it was; the text reads back as an expression with the value of the line at all positive values of the symbols. Two such lines print the same text if and only if they are equal as functions of the symbols. With - in e the same holds as long as no monomial cancels out.",
  "all such lines in which e is not constant, no symbol is a constant of the session, and the coefficients and exponents fit the type; all sessions in which the line is an expression; every sort that meets the contract of std::sort",
  "all lines, all pairs of them and all values of the symbols; needs the parser, evaluation, normalisation, printing and the linear independence of monomials together",
  [L+":mainloop", L+":cmd_normalize", L+":print_result", X+":ExprNode::normalize", R+":Frac::operator/", R+":Frac::normalize", R+":Poly::normalize", R+":Poly::pow", R+":Frac::to_string", P+":Parser::parse"])
p("Every line of a session comes to an end",
  "No line of a session runs forever: whatever is typed, each line is answered, refused, or ends the program. Likewise reading an expression, substituting roots, normalising, evaluating and printing it, and every arithmetic operation on roots with positive indices, come to an end, and the roots that they return have positive indices again. A root with index 0 of a number with a prime factor, in contrast, is never returned by any constructor.",
  "all inputs of any length, all sessions and all histories of functions and constants, all integer types, however the floating point rounds and the sort orders its input, as long as factorisation, floating point, std::sort and std::stold themselves return",
  "a loop that does not end on some input shows on no other input; the measures that decrease and the indices that must stay positive have to be followed through all of the library",
  [L+":mainloop", P+":get_all_tokens", P+":Parser::parse", N+":Real::normalize", N+":Real::pow", R+":solve_variable_eq", R+":Poly::pow", X+":ExprNode::normalize", X+":ExprNode::substitute", N+":nth_root"])
here=os.path.dirname(os.path.abspath(__file__))
with open(os.path.join(here,"..","properties.jsonl"),"w") as f:
    for q in props: f.write(json.dumps(q)+"\n")
print(len(props))
