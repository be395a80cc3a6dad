# Formal model of caozhanhao/symxx in Lean 4 — design

All line numbers refer to `/repo/include/symxx/*.hpp` at the pinned commit.

## 1. How the code is modelled

* One Lean function per C++ function, over `List`, `Nat`, `Int`. Each definition cites file and lines.
* **Outcomes** are explicit: `Res α = ok a | throw msg | exn msg | ub why | fuel`
  (`throw` = `symxx::Error`, `exn` = any other C++ exception, `ub` = undefined behaviour,
  `fuel` = the loop did not finish within the supplied fuel; only for loops whose
  termination depends on randomness or that the code does not guarantee).
* **Unsigned machine arithmetic** (`digit = uint32_t`, `twodigits = uint64_t`) is modelled on `Nat`
  with explicit wrap-around `u32`/`u64` and the same `&&&`, `>>>`, `<<<` operators as the source.
  **Signed machine arithmetic** (template parameter `T`, `sdigit`) is modelled on `Int` with an
  explicit range check whose failure is `ub` (signed overflow).
* `std::vector<digit>` is `List Nat`; `back()`/`pop_back()` on an empty vector is `ub`.
* `std::map` is a key-sorted association list; `std::multiset` a `List`/`Multiset`.
* `std::sort` is an arbitrary permutation (theorems quantify over every outcome) or, where order
  matters (C90-C92), any sort that keeps the contract of `std::sort` for the source's comparator; the examples use insertion sort.
* Floating point: the types `double` and `long double` are a parameter (`Flt`: values and operations, whatever they are) with
  the assumptions of each theorem in `Verif/Expr/NumericSpec.lean`; otherwise it is not modelled, except `dtoa.hpp`, where a double is its 64-bit pattern and the
  one floating computation (`k_comp`) is the IEEE product rounded to nearest even (`round53`) followed by `ceil`, and
  `std::pow` on integers, which is a parameter with the recorded assumption "exact when the
  result is at most 2^53" (glibc's `pow` is correctly rounded on exact cases; `Fl.double_exact` proves that correctly rounded
  doubles meet it, `Verif/Num/Double.lean`).
* `std::random_device` is an arbitrary stream of draws: theorems quantify over every stream.

## 2. Findings: places where the unchanged code violates the property a user relies on

These are kept: the model reproduces the code, the negation is proved on a concrete witness and
the positive theorem carries exactly the hypothesis that excludes the defect (`_partial`).

| # | code | behaviour |
|---|------|-----------|
| F1 | huge.hpp 660-665 `operator-=` | clears on equal magnitude before looking at signs: `5 - (-5) == 0`; hence `--(-1) == 0` |
| F2 | huge.hpp 158-174 `digits_sub` | no trimming: `2^30 - (2^30-1)` has digits `[1,0]`, `== 1` is false |
| F3 | huge.hpp 295-310 `digits_divrem_by1` | quotient not trimmed: `2^30/2 == 2^29` is false |
| F4 | huge.hpp 397 `digits_divrem` | remainder trimming runs `back()` on an empty vector when a multi-digit division is exact (UB) |
| F5 | huge.hpp 195, 289 `digits_(simple_)mul` | same when a Karatsuba half is zero (UB) |
| F6 | huge.hpp 630-635, 696, 712 | "negative zero": `(-5)+5`, `(-5)*0`, `Huge("-0")` print `-0` |
| F7 | huge.hpp 963-972 `divrem` | remainder always positive: `divrem(-7,2) = (-3, 1)` |
| F8 | huge.hpp 931-942 `internal_to` | size test too weak: `to<int>` of `2^40` silently truncates; minimum of a signed type is UB both ways |
| F9 | huge.hpp 565-573 | sign looked up at `s[0]`, not `s[pos]`: `Huge(" -5")` is 0 |
| F10 | int_adapter.hpp 188-202 | `adapter_to_string((__int128)0)` is `""`; `-8` prints `"-\0" "8"` |
| F11 | int_adapter.hpp 229-238 | `adapter_to_int128("-5") == -25` |
| F12 | factorize.hpp 244-247 | Miller-Rabin leaves the witness loop on the first pass: composites accepted |
| F13 | factorize.hpp 288-300 | `is_prime<int64_t>` overflows in `adapter_modpow` for n above about 3.04e9 |
| F14 | factorize.hpp 298-300, num.hpp 547 | radicand 0 or negative reaches `random_digit(1, n-2)` with empty range (UB) |
| F15 | num.hpp 252-264 | negative denominators survive (`inverse`, `normalize`): ordering, `is_int`, printing wrong (`4/(-2)` prints `2/-1`) |
| F16 | num.hpp 127-159 | string constructor does not reduce: `Rational("4/2").is_int()` is false |
| F17 | num.hpp 219-228 | `Rational(2).pow(-1)` is 0, `Rational(1,2).pow(-1)` is `1/0` |
| F18 | num.hpp 567 | reads `end()->first` of an empty map for every rational Real; result proved independent of the value read |
| F19 | num.hpp 609-615 | `Real::inverse` does not normalise, `==` fails against the normal form |
| F20 | frac.hpp 521-529, 548-570 | `Poly{√2}.eval()` raises Error, `try_eval()` returns null (0 is "not equivalent" to √2) |
| F21 | frac.hpp 926-944 | valid fraction with zero leading coefficients raises "Division by zero" / `% 0` |
| F22 | parser.hpp 100-157, 246-292 | accepts `1 2+`, `()1`, `(1 2` (node with operator `(`), `*)1`, `{abc`, `_3x8` |
| F23 | expr.hpp 301-369, frac.hpp 954-962 | `(x+1)^y` prints as `x+1^y` |
| F24 | dtoa.hpp 549-554 | `dtoa(12.0) == "120.0"`; wrong exactly for the integers below 10^21 with at least two significant digits (C61_roundtrip_iff) |
| F38 | dtoa.hpp 570-600 | infinities and NaN are not recognised: `dtoa(inf) == "1.797693134862316e308"`, NaN prints `2.696539702293474e308` |
| F25 | cli.hpp 256-313 | `normalize`/`tex` lines run a second command; end of input loops forever; non-`Error` exceptions end the process |
| F26 | factorize.hpp 138-142 | threshold 9006403 instead of 9006401: `is_prime(9006401)` is true, 9006401 = 1733·5197 |
| F28 | frac.hpp 926-948 | `(x+1)/(x-1) * (x-1)/(x+1)` leaves zero coefficients, the normalisation then computes `% 0` (UB) |
| F29 | frac.hpp 583-605 | factorials wrap at 21!: wrong coefficients in `(x+1)^21` |
| F30 | frac.hpp 579-630 | a negative power of a polynomial with several terms is the empty polynomial (denotes 0); of a fraction it is UB |
| F31 | frac.hpp 871-948 | over a single-term denominator only leading coefficients are inspected: `(2x+3)/4` becomes `(x+3/2)/2` |
| F32 | cli.hpp 170, expr.hpp 33-63, 66-82 | redefining a function whose body is an operator node copies `OpData` by assignment: the children are shared and deleted twice |
| F33 | num.hpp 480-530 | `8^(1/(0-3))`: the denominator of the exponent is negative and becomes an unsigned index, the result is the `(2^64-3)`-rd root of 8 |
| F34 | expr.hpp 313-369, frac.hpp 954-962 | `output_need_paren` only asks for the denominator: `(x+1)^y` prints `x+1^y`, `a^b*(x+1)` prints `a^b*x+1`, a negative operand prints `a^b--x` (rejected by the parser) |
| F35 | frac.hpp 250-275 | `x^(1/2)` prints `(x**1/2)` (reads as `x/2`), `x^(-1)` prints `(x**-1)` (rejected) |
| F36 | frac.hpp 964-993 | a denominator of one term is never parenthesised: `1/(2x)` prints `1/2x` (reads as `x/2`) |
| F37 | frac.hpp 250-275 | a symbol named by one character other than a letter (`{1}`) prints without braces |
| F39 | cli.hpp 112-127, num.hpp 687-701 | `factor 7/2` prints the factors of 3: the number is truncated |
| F40 | cli.hpp 266-305 | `f(2)+f(3)` prints `f(2)`: what follows the closing parenthesis of a call is ignored; `f( 2)` is not a call but the product `2f`; a function with an empty name captures every line starting with a parenthesis |
| F43 | num.hpp 117, 122 | `numerator = x * denominator` truncates: the text `0.53` becomes 13/25, `1.05` becomes 26/25, `0.001` becomes 0 (`C80_decimal_inexact`, `C80_session`) |
| F44 | num.hpp 97-99 | a `double` is widened before its decimals are counted: `Rational(0.1)` is 50000000000000003/500000000000000000 (`C81_float_limits`) |
| F45 | num.hpp 109-117 | `Rational<int>(3.1)` and `Rational<long long>(1e18L+0.5L)` scale by a power of ten that overflows the type: undefined (`C81_float_limits`) |
| F46 | num.hpp 638-657 | a cube root is written `\sqrt[n3]{2}`, which is no root with index 3 (`C82_fails`) |
| F47 | frac.hpp 298-320 | a name with a digit is written as the control word `\x1`, which TeX reads as `\x` followed by 1 (`C82_fails`) |
| F48 | expr.hpp 244-369 | `tex`: `(x^2)^y` becomes the double superscript `x^{2}^{y}`, `(x+1)^y` becomes `x+1^{y}`, `a^b*(x+1)` becomes `a^{b}\times x+1`, `a^b*(0-x)` becomes `a^{b}\times -x` (`C82_fails`, `C82_fails_paren`, `C82_fails_value`) |
| F49 | expr.hpp 134-143 | the numeric `try_eval` evaluates both operands twice (the variables of the `if` hide the first ones): the work doubles with every level of the tree; the line `x^x^...^x` takes exponential time (`C109_count`, `C109_fails`) |
| F50 | cli.hpp 83, 93 | values and constants are printed with six digits: `x^10` at `x = 5` prints `9.76562e+06` (`C83_session`) |
| F51 | cli.hpp 112-127, num.hpp 687-701 | `factor` of a number that is not an integer factors its truncation (`factor 7/2` prints `3`); `factor 0` dereferences an empty range (`C85_examples`) |
| F52 | num.hpp 676 | roots are computed in `double`, whatever the result type: a `long double` value with a root has only 53 good bits |
| F53 | factorize.hpp 60, 246, 264 | `is_prime(n, true, tolerance)`: the tolerance is passed as a `bool` and read only in the `Huge` build; the first random base whose power is not 1 ends the test, so an answer "prime" is wrong with the probability of one round |
| F54 | frac.hpp 611-626, num.hpp 252-264 | exponents over a negative denominator make the comparator of `std::sort` cyclic: `x^(1/2)+x^(0-1)+x^(1/(0-3))` sorts three terms each of which comes before the next (undefined behaviour); with one more `+x^(1/2)` the like terms are not collected |
| F55 | num.hpp 219-228, 513-524, int_adapter.hpp 55-59 | powers are computed in `double`: `3^34` prints 16677181699666568 (`C42_fails`, `C42_session`); `93222358*sqrt 2 > 131836323` and `131836323 > 93222358*sqrt 2` are both true (`C41_fails`); the normal form of the 20th root of 1/7 has the radicand 79792266297612000/7 (`C38_fails`); normal forms, substitution and calls inherit it (`C69_fails`, `C70_fails`, `C77_fails`) |
| F56 | num.hpp 441-456, 538-544 | intermediate radicands overflow although the result is small: the square root of `1/2^32`, the square of the square root of 5000000029 (`C36_overflow`, `C39_overflow`) |
| F57 | cli.hpp 286-305, frac.hpp 250-275 | a product is printed by juxtaposition: with a function called `x` the text `x(y**2)` printed for `x*y^2` is read back as a call of it and refused (`C94_call`) |
| F58 | frac.hpp 777-791 | a sum of fractions with equal denominators is not reduced: `1/2+1/2` prints `2/2`, `1/2-1/2` prints `0/2`, `x/2+x/2` prints `2x/2` (`C95_unreduced`) |
| F59 | frac.hpp 904-945, cli.hpp 69-91 | the sign stays in the denominator: `1/(0-2)` prints `1/-2 = -0.5`, `4/(0-2)` prints `2/-1` (`C95_sign`) |
| F60 | frac.hpp 964-985, parser.hpp 116-127 | a fraction with a negative denominator is printed as `5/-4`, which the parser refuses (`C97_refused`, `C97_example`) |
| F61 | frac.hpp 844-851 and 964-985, num.hpp (`inverse`) | the power of a fraction whose denominator is negative is printed as a chain of quotients, which the parser refuses: `(1/(0-2))^3` prints `-1/-1/-8 = -0.125`, `((0-3)/(0-2))^1` prints `3/-1/-2 = 1.5` (`C98_sign`) |
| F62 | frac.hpp 93-101 | `Term::operator<` is not a strict weak order: terms of different degrees other than 0 are incomparable (the test `aindex == 0 \|\| bindex != 0` hides the last line), so `2x` and `x^2`, `x^2` and `3x` are incomparable although `2x < 3x`; `std::sort` or `std::set` on them is undefined (`C100_fails`) |
| F63 | frac.hpp 904-945 | a root in a denominator stays there, so equal values are shown differently: `1/2^(1/2)` prints `1/_/2`, `2^(1/2)/2` prints `_/2/2` (`C101_fails`) |
| F64 | cli.hpp 131-134, 286-305 | a blank between name and parenthesis in `func f (x) = ...` becomes part of the name: neither `f(2)` nor `f (2)` calls the function, and `print f` shows nothing (`C102_blank`) |
| F65 | frac.hpp 926-944 | `Frac::normalize` divides by the greatest common divisor of the denominator and the FIRST coefficient if the denominator is a number: `(1+2*x)/4` is shown as `(x+1/2)/2`, `x/2+1/3` as `(x+2/3)/2`, `(1+4*5^(1/2))/4` as `_/5+1/4` (`C107_fails`, `C107_example`). The value is right |
| F66 | frac.hpp 609-640 | a term that cancels stays in the polynomial with coefficient 0 and is seen later: `(z-z+y+1)/2` shows `1/2y+1/2` instead of `(y+1)/2`, `4/(x-x+2)` shows `2/(1)`, `(x-x+1)/2` has no ` = 0.5`, `factor x-x+6` is refused (`C106_cancelled`) |
| F67 | num.hpp 538-560, 719-723 | a root of index 0 is accepted: `nth_root(0, 8)` stays in `while (exp >= index)` forever, multiplying the coefficient until it overflows (`C112_zero_index`, `C112_example`). No session line builds one |
| F42 | cli.hpp 218-248, num.hpp 127-159 | an argument of a call is read as far as it is a number: `f(3x)` is `f(3)` |
| F41 | parser.hpp 158 | `return *nodes.top();` copies the tree and never deletes it: every parsed expression is leaked |
| F27 | huge.hpp 782-793 | `Huge::pow` always returns 0 |

## 3. Per-property plan

Status words: *full*, *partial (negation of the rest proved)*. See MANIFEST.json for theorem names.

* **C01–C16 (huge.hpp)** — model every `digits_*` function and the `Huge` class; specification is
  `Nat.ofDigits (2^30)` and `Int`. Loop invariants by induction on digit lists; Knuth D via the
  classical quotient-estimate bounds; strings against `Nat.toDigits 10`/positional value.
* **C66–C67 (huge.hpp)** — sign flag lemmas; `pow` is a stub, exact characterisation.
* **C17–C20 (int_adapter.hpp)** — string functions against decimal value; mulmod/modpow by
  induction on bits, with range checks.
* **C21–C26 (factorize.hpp)** — trial division by induction; Fermat branches by enumerating
  candidates `p·(1+k·ord_p 2)` in the kernel; Miller–Rabin completeness through `ZMod`; Pollard rho
  and factorize partial correctness for every random stream.
* **C27–C35 (Rational)** — value in `ℚ`; overflow is `ub`; negative-denominator findings.
* **C36–C42 (Real)** — value in `ℝ` via `Real.rpow`; canonical form by p-adic valuations. `Cxx_exact_partial`:
  every exact run, no bound on the operands; the others give explicit bounds under which the run returns.
* **C43–C50 (frac.hpp)** — evaluation at positive assignments into `ℝ` (`Term.value`, `Poly.value`,
  `Frac.value` in `Verif/Frac/Spec.lean`). The environment `FEnv` carries the integer range, `std::pow`, `factorize`
  and `std::sort`; `env.checked B` is the same environment that additionally refuses rounded powers, unsigned wraps,
  factorisations above `B` (at most `2^53`) and factor lists that are not the prime factors: nothing is assumed about
  `factorize` in the theorems about exact runs. `X_mono` theorems: a run that succeeds in the checked environment is the run of the
  actual one. `X_sound` theorems: such a run is denotationally right. `X_int` theorems: for integer polynomials
  explicit bounds (l1 norm of coefficients, exponent magnitude) make the checked run succeed, so the hypotheses are
  not empty.
* **C51–C54 (parser.hpp)** — inductive grammar (`Derives`) and inductive spelling relation (`Lex`) as
  specification; shunting-yard simulation of the grammar; counting invariant (operands, operators, open
  parentheses) for rejection; the fraction in a token is kept as its number or name.
* **C56, C69, C70 (expr.hpp)** — `Verif/Expr/Model.lean`; `opSem`/`Node.sem` (Spec) is a partial real-valued semantics of
  trees. Refinement `Node.Ref`: wherever the tree has a value, the evaluated/normalised/substituted tree has the same.
  By induction on trees from the fraction theorems; exponents reach `Frac.pow` in lowest terms (`RealLow`), which is what
  the fractional-power theorem needs. Without `^`, `normalize` is `try_eval`. Trees over + - * and natural powers with integer leaves: total (`PowFits`),
  bounds by induction (`ringSize`, `ringDeg`).
* **C55, C71 (expr.hpp 221-369, frac.hpp 237-277, 658-690, 954-993, num.hpp to_string)** — printing against the grammar.
  `Reads M lead l s v` (`Verif/Expr/Print.lean`): the text `s` spells tokens that, at precedence level `l`, derive an
  expression with value `v`; composition lemmas for operators, parentheses, juxtaposition, leading minus; re-association
  of `a+(b-c)` and `a*(b/c)` (the printer drops those parentheses) by value. Then numbers, terms, polynomials, fractions
  and trees by induction. `NodeOk`/`FracOk`/`PolyOk` (Spec) say what is printed unambiguously; the rest is refuted.
* **C72** — an invariant of symbol maps carried through every operation (`Verif/Expr/Names.lean`).
* **C57–C61, C73 (dtoa.hpp)** — `Verif/Dtoa/Spec.lean`: value of a bit pattern, `RoundsTo` (round to nearest, ties to
  even), `readDecimal`. Error of `DiyFp` products at most one ulp; the 87 cached powers checked against exact powers of
  ten by `decide +kernel`; `k_comp` lands in the window by monotonicity and kernel check of every binary exponent; digit
  generation by induction with an invariant (digits, remaining integral and fractional part); the printed number lies
  strictly inside the rounding interval; formatting and reading back by cases of `prettify_string`.
* **C62–C65 (cli.hpp)** — `Verif/Cli/Model.lean`: a command maps a state to an outcome, a state and a text; the loop reads
  lines from standard input (`getline` with `eofbit`). `Verif/Cli/Spec.lean`: which line is read at which iteration, what a
  line defines, the latest definition in a history. Every command is inverted once (`Step.lean`); sessions by induction
  on iterations. C62 needs that printing a normal form never raises `Error` (`Verif/Expr/Dens.lean`: no
  zero denominators in results).
* **C74–C76 (expr.hpp 33-96, parser.hpp 101-158)** — `Verif/Heap/Model.lean`: nodes are cells of a memory, reading or
  deleting a dead cell is a fault; copy constructors, destructor, converting constructor, the implicit assignment,
  `normalize`, `substitute`, `to_string` follow pointers. `Verif/Heap/Spec.lean`: client programs on trees. Separation
  invariant (`Own`, `Rep`): every variable owns its tree, footprints disjoint, everything else alive is what `parse`
  left behind. Induction on programs. This also justifies modelling nodes as trees everywhere else.

* **C77–C79 (cli.hpp 69-100, 218-248, 266-305)** — `Verif/Cli/Calc.lean` (arguments split as in the specification `Names`,
  first word against `Calls`), `Verif/Frac/ConstFrac.lean`, `Verif/Expr/IntEval.lean` (arithmetic of constants is exact),
  `Verif/Expr/IntSubst.lean` (substituting integers for all symbols), `Verif/Expr/PolyId.lean` (two polynomial functions that
  agree at positive assignments agree everywhere, along a line; this also lifts C69/C71 for integer expressions to all
  assignments). `Verif/Props/Calc.lean`: one call, one line, a whole session (with C64).
* **C82 (num.hpp 314-326, 638-657, frac.hpp 279-323, 692-724, 995-1004, expr.hpp 244-299, cli.hpp 102-110)** —
  `Verif/Expr/Tex.lean` models `to_tex` of numbers, terms, polynomials, fractions and trees. `TexSpec.lean` is the
  specification: an inductive relation `Tex l s v` between texts and the functions they denote, written from the
  conventions of TeX mathematics, not from the code. `TexUnique.lean` shows that it is a function (a tokenizer and the
  expression grammar read every text that has a reading), so "denotes" is well defined and "has no reading" is provable for
  the failures. `TexProof.lean` shows by induction over terms, polynomials and trees that what is written is in the
  relation with the value of the expression.
* **C83, C84, C85 (num.hpp 273-277, 659-701, frac.hpp 175-190, 531-546, 895-902, expr.hpp 134-166, cli.hpp 69-94, 112-127)** —
  `Verif/Expr/Numeric.lean` models the evaluation in `long double` over an abstract arithmetic `Flt`; `NumericSpec.lean` says
  what exactness on integers up to `N` means (`FltSem.Exact`) and which evaluations have only such steps (`IntSteps`);
  `NumericProof.lean` is the induction; `NumericInst.lean` shows that IEEE double and x87 extended precision meet the
  assumption with `N = 2^53`. `Verif/Num/Output.lean` models `%.6Lg`, `OutputProof.lean` reads it back with `decVal`.
* **C86 (same code as C83)** — `NumericErrSpec.lean` says what accuracy is (`FltSem.Accurate`: relative error `u`, `ud` within
  the range, absolute error `lo` below it), when everything stays within range (`PolyOk`) and what the bound is (`ErrorAt`).
  `NumericError.lean`: products and roots by factors between `1/X` and `X` (`Near`; a rounded exponent `1/index` changes the
  root by a factor `exp(ud*log M)`), sums by the invariant `|r-c| <= (Y-1)A`, quotients and operations by perturbation.
  `NumericReal.lean`: the real numbers rounded to 64 and 53 bits meet the assumption.
* **C87, C88 (factorize.hpp 59-283, `use_probabilistic`)** — `witnessLoopP`, `fastPathP`, `isPrimeP`: one natural number per
  random draw. `StrongSpec.lean` states the strong test to one base on natural numbers. `Strong.lean`: in both modes the
  answer is trial division by the primes up to 89 and a scan of the bases up to the first whose `d`-th power is not 1.
  `Rabin.lean` proves Rabin's theorem (at most a quarter of the units of `ZMod n` pass, `n` odd, composite, not a multiple of
  3): the liars lie in the subgroup of elements whose `2^j d`-th power is ±1, and four elements in different cosets are given
  for each of: a square factor (`1 + n/p`), three coprime factors (Chinese remainders of a root of -1), two primes (a
  generator modulo the larger one).
* **C89 (factorize.hpp 287-353)** — the model of Pollard's rho with one natural number per draw (`rhoSearch`). For a prime `p | n`
  and a draw `c` whose iteration collides modulo `p` before it collides modulo `n` the round finds a divisor (`rhoOuter_finds`);
  the existence of such a draw is by an explicit `c` (`exists_good`). `Live` (after every sequence of draws there is a continuation
  with which it returns) is closed under the recursion of `factorize`. Verif/Factor/Live.lean.
* **C03, C07, C16 exactly (huge.hpp)** — `Huge/MulSpec.lean` states, in numbers and digit counts only, where Karatsuba
  multiplication is defined (`ProductDefined`); `Huge/MulDef.lean` proves that the code is defined exactly there, `Huge/Exact.lean`
  when sums, differences and quotients keep a leading zero digit, `Props/HugeExact.lean` that a client program over all
  operations is right exactly if each step satisfies its condition.
* **C90-C92 (frac.hpp 500-520, 600-690)** — `Verif/Frac/OrderSpec.lean` is the specification: the C++ requirements on a comparator
  (`StrictWeak`), the promise of `std::sort` (`SortContract`, a hypothesis; the insertion sort of the examples keeps it), like terms
  as functions (`Term.Like`, `Poly.Collected`). `Order.lean`: on terms in normal form the comparator is the lexicographic order of
  symbols, index, radicand, number. `Collect.lean`: merging neighbours of a sorted list leaves one term per group (a sum that
  cancels becomes the rational 0 and may separate terms of other groups only). `Independent.lean`: monomials with rational exponents
  are different homomorphisms of a group, hence linearly independent (Dedekind); a ratio of different roots in normal form is
  irrational. `Tidy.lean` follows the numerators through all operations with a sort that answers only for integer polynomials that
  fit (there comparisons are exact); `Canonical.lean`: equal functions have the same list of non-zero terms, and the text depends on
  nothing else.
* **C93 (expr.hpp, parser.hpp, frac.hpp printing)** — `Verif/Expr/PrintShape.lean` describes the printed texts of integer polynomials and
  what the parser makes of them (again an expression of the ring, no larger than the polynomial); `Verif/Frac/Degree.lean` bounds the
  degree of every printed term by the degree of the expression (no cancellation can hide it, by C91); then C71 and C92 apply to the
  expression that is read back.
* **C94 (the command line program, lines that are expressions of the ring)** — composition of the dispatcher (C74, C78) with C92 and C93:
  `Verif/Cli/Poly.lean` shows that an integer polynomial is printed as its text alone (unless it has symbols that are constants),
  `Verif/Cli/NoWord.lean` that the letters a printed text begins with are in alphabetical order, so that it is never a command.
* **C95 (the command line program, arithmetic with fractions)** — `Verif/Frac/QuotFrac.lean` computes the four operations of `Frac` on
  quotients of two integers (what `normalize` divides out, and when it is not called), `Verif/Expr/QuoEval.lean` follows them through
  an expression tree by induction, with the bounds of the unreduced computation, `Verif/Cli/Quo.lean` prints the result.
* **C98 (the calculator with fractions and powers)** — `Verif/Expr/QuoSpec.lean` (`PowRat`, `powSize`, `PowSmall`, `PosDiv`),
  `Verif/Frac/QuotPow.lean`: `Frac.pow` of an integer quotient over a positive number (through `Real.div`, `Real.pow`,
  `Rational.pow`, the constructor of `Frac` from a `Real` and its `normalize`); `Verif/Expr/PowEval.lean`: induction over the
  expression with the invariant "an integer quotient over a positive number, within the unreduced bounds"; then as C95 and C97.
* **C99 (calling a function with fractions)** — `Verif/Props/RatCall.lean` (`RatText`, `RatArgs`, `RatFits`, `PrintsRat`); the
  arguments are the fractions as typed, not reduced. `Verif/Frac/Cancel.lean`: every operation returns its textbook result with a
  positive factor cancelled (`Canc`); `Verif/Frac/RatSum.lean`: a list of rational constants over a common denominator is sorted,
  merged and reduced to its sum; `Verif/Expr/RatSubst.lean`: substitution turns every term into such a constant, by induction on
  the symbols of the term and on the terms. The hypothesis `SortRat` says that the sort returns if all comparisons do; proved for the
  sort of the examples.
* **C100 (comparing terms with `<`)** — `Verif/Frac/TermLess.lean` (model, `Term.degree`), `Verif/Props/TermLess.lean`: soundness of
  the sums of exponents and of `Real::operator<` (C41) gives the meaning; the order laws are case distinctions on it. F62 is the
  counterexample for three terms.
* **C101 (the command line program, a power as a line)** — `Verif/Frac/Surd.lean`: `Real::pow` with a fraction as exponent (the root of
  the cleared radicand, C33, then a multiplication with `1^(1/q)` that changes nothing), and the fraction made of its result;
  `Verif/Expr/SurdEval.lean`: the power as the top of a tree; `Verif/Cli/Surd.lean`: how it is printed; `Verif/Props/Surd.lean`:
  uniqueness of the simplest form (C34) gives equality of the lines, reading back the text (C71) the converse, C86 the accuracy.
* **C102 (`print`)** — `Verif/Cli/PrintCmd.lean`: what a line that succeeds does to the tables and prints; the invariant `Tidy` (tables sorted
  by name, every stored body has a text) holds in every session that starts without functions, errors change nothing (C62). With it no
  `map::at` fails and the output is the list of the latest definitions (C64).
* **C103 (products and quotients of roots)** — `Verif/Frac/SurdMul.lean`: `Real::operator*` of two roots, cancelling the common divisor,
  `Frac::operator*`, `Frac::operator/` by a fraction; `Verif/Expr/RootSpec.lean`: the expressions and their size, by induction over the
  expression; `Verif/Expr/RootEval.lean`: evaluation; `Verif/Cli/SurdPaste.lean`: the printed text is read back and evaluates to the
  same root, by the uniqueness of simplest roots; `Verif/Props/RootMul.lean`.
* **C104 (sums and differences of roots)** — `Verif/Frac/SurdSum.lean`: on lists of simplest roots the comparator of `Poly::normalize` is a
  strict weak order (index, radicand, coefficient), so `std::sort` returns (`SortReturns`) a sorted permutation and the merging loop adds the
  terms with the same root; a term that vanishes in the middle stays as the constant 0. `Verif/Expr/SumSpec.lean`, `Verif/Expr/SumEval.lean`:
  the expressions, and evaluation by induction over them. `Verif/Num/RootIndep.lean`: real roots of rationals that are no rational multiples of
  each other are linearly independent over the rationals (by the trace, which vanishes on an irrational root), hence
  `Verif/Frac/SumUnique.lean`: the nonzero terms are determined by the value. `Verif/Cli/SumShow.lean`: printing; `Verif/Props/RootSum.lean`.
* **C105 (identities between sums and products of roots)** — the lemmas of C104 are stated for a `RT.Class` of sums closed under sorting,
  merging and negation; `Verif/Frac/SurdRing.lean`: the class of sums whose indices divide `I` and whose size (the sum of the absolute values, 1 at least, of the
  terms, submultiplicative, never increased by merging) is at most `V`; radicands and coefficients of every product are bounded by powers of `V`, so
  that no product of terms leaves the range. `Verif/Frac/SurdPow.lean`: powers by multinomial expansion, with the same bound for every partial
  product of every term of the expansion. `Verif/Expr/RingSpec.lean`, `Verif/Expr/RingEval.lean`, `Verif/Props/RootRing.lean`.
* **C106, C107 (a polynomial over a number)** — `Verif/Frac/OverNum.lean`: sorting and merging of polynomials with rational coefficients and
  distinct monomials, division of a whole number by a whole number, then `Frac::normalize` for a denominator that is a number. C106: what is
  built depends on the quotients of coefficients and denominator only; `Poly.Tidy.unique` (C92) for equal functions.
* **C110 (rational coefficients over a number)** — `Verif/Frac/OverRat.lean`: clearing the denominators of the coefficients gives the same
  normalisation as the cleared polynomial (`normalize_clear`), which reduces the claim to C106; the final form by `mk2_quot_rat`.
* **C111 (session lines `e / d`)** — `Verif/Frac/OverEval.lean`: `Frac::operator/` of a polynomial by a number is the constructor of C106;
  `Verif/Frac/IntPos.lean`: sums, products and natural powers of polynomials with positive coefficients have positive coefficients, so nothing
  cancels; `Verif/Props/OverLine.lean`: parser, evaluation, printing.
* **C112 (every line ends)** — `Verif/Expr/Ends.lean`: a predicate `Post x P` (x comes to an end and, if it returns, P) is pushed through every
  function of num.hpp, frac.hpp, expr.hpp and parser.hpp that the session uses, together with the invariant "indices are positive, exponents have
  denominators"; `Verif/Cli/Ends.lean`: the commands and the loop. Measures: the exponent in `while (exp >= index)`, the sign of a negated
  exponent in `Real::pow`, the number of unknowns in `solve_variable_eq`, the rest of the line in the tokeniser.
* **C108, C109 (the work of evaluation)** — `Verif/Expr/Cost.lean`: the evaluators of the model with a counter of leaf evaluations, proved to
  be the evaluators of the model when the counter is dropped; induction over trees. The lines of `C109_fails` are parsed by the grammar of C51.
* **C97 (the command line program, a printed fraction as a line)** — `Verif/Cli/QuoPaste.lean`: the tree the parser makes of the text of
  a fraction (a leading minus sign becomes `0-`), its evaluation with the lemmas of C95, the refusal of a second sign.
* **C96 (num.hpp 295-298)** — the division of the machine truncates; `Int.tdiv` against the rational value.
* **C80, C81 (num.hpp 32-56, 97-134)** — `Verif/Num/Decimal.lean`: a `long double` is a rational number, every operation is
  the exact one followed by the rounding of the format. `Verif/Num/FloatSpec.lean`: what a correct rounding is
  (`FloatNearest`), decimal texts. `FloatProof`: relative error, monotonicity, round-to-nearest-even is correct
  (`rndEven_nearest`). `DecimalProof`: the loop of `decimal_places` goes on at every place before the last and stops
  there, by error analysis. `DecimalClose`: any value. `DecimalText`: what `stold` reads. `Expr/DecLeaves`: this conversion
  meets the hypothesis of C55.

## 4. Trusted base

* Lean 4.33.0 kernel; axioms at most `propext`, `Classical.choice`, `Quot.sound`.
* Faithfulness of the hand translation (no code is run here).
* Parts not modelled: see section 5 (kept current as the model grows).

## 5. Not modelled

* `T = Huge`: integer types are modelled by their maximum `M` (`int64_t`, `__int128_t`). Read as text, the `SYMXX_ENABLE_HUGE`
  configuration of `Rational`, `Real`, `factorize` and the session does not compile: `template<> inline Huge adapter_abs` does
  not match the primary template, which returns `auto` (int_adapter.hpp 44, 152), and `adapter_lcm` calls `std::lcm`, which
  rejects class types (int_adapter.hpp 98-101). `Huge` itself is modelled completely (C01-C16);
* the branch of `Rational(long double)` for class types (num.hpp
  119-123); infinities, NaN and hexadecimal texts; the exponent range of `long double` in arithmetic (it is applied
  where a text is read); glibc's `strtold` and `pow(10, n)`, n ≤ 18, are assumed correctly rounded;
* `utils::nameof`, `Error` locations, terminal escape codes, iostream;
* the command line session: the floating-point arithmetic, `stold` and the output of `long double` are parameters (the output
  with the default format is modelled in `Verif/Num/Output.lean`, without the sign of zero);
* memory allocation failure; the vectors inside polynomials and fractions are values.
