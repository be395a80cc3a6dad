import Verif.Num.RatProof
import Mathlib.Data.Rat.Floor
/-!
# Model of the floating-point constructors of `Rational<T>` (num.hpp 32-56, 97-134)

A `long double` is a rational number; every operation of the code is the exact operation followed by
the rounding `rnd` of the format. Simplifications: the exponent is unbounded in the arithmetic (the
limits are applied where a text is read), and infinities and NaN are not values: the spellings that
denote them, and hexadecimal ones, are left to a parameter.
-/
namespace Symxx.Num

/-- `b^e` for an integer exponent (scaling of a decimal text, num.hpp 133, and of a binary exponent). -/
def powI (b : Nat) (e : Int) : ℚ := if 0 ≤ e then ((b ^ e.toNat : Nat) : ℚ) else 1 / ((b ^ (-e).toNat : Nat) : ℚ)

/-- a binary floating-point type as the code sees it (num.hpp 32-56): `p` significant bits
(`epsilon() = 2^(1-p)`), `max_digits10`, the exponent limits, and the rounding of each operation. -/
structure FloatFmt where
  p : Nat
  maxDigits10 : Nat
  emin : Int
  emax : Int
  rnd : ℚ → ℚ

namespace FloatFmt
variable (F : FloatFmt)

/-- `std::numeric_limits<T>::epsilon()` (num.hpp 40, 46). -/
def eps : ℚ := 1 / ((2 ^ (F.p - 1) : Nat) : ℚ)

/-- `c - std::floor(c)` (num.hpp 38, 44). -/
def fracPart (c : ℚ) : ℚ := F.rnd (c - (c.floor : ℚ))

/-- the loop of `decimal_places` (num.hpp 41-48). The first argument is `max_digits10 - count`. -/
def placesLoop (v : ℚ) : Nat → Nat → ℚ → ℚ → ℚ → Nat
  | 0, count, _, _, _ => count
  | fuel + 1, count, c, eps, factor =>
    if eps < c ∧ c < F.rnd (1 - eps) then
      placesLoop v fuel (count + 1) (F.fracPart (F.rnd (v * factor)))
        (F.rnd (F.rnd (F.eps * v) * F.rnd (factor * 10))) (F.rnd (factor * 10))
    else count

/-- `decimal_places` (num.hpp 32-50). -/
def decimalPlaces (x : ℚ) : Nat :=
  F.placesLoop |x| F.maxDigits10 0 (F.fracPart |x|) (F.rnd (F.eps * F.fracPart |x|)) 10

/-- `std::round` (num.hpp 55): to the nearest integer, halves away from zero. -/
def roundAway (t : ℚ) : Int := if 0 ≤ t then (t + 1 / 2).floor else - (-t + 1 / 2).floor

/-- `round_decplaces` (num.hpp 52-56); `std::pow(10, d)` is exact for the `d ≤ 18` used. -/
def roundDecplaces (x : ℚ) (d : Nat) : ℚ :=
  F.rnd ((roundAway (F.rnd (x * ((10 ^ d : Nat) : ℚ))) : ℚ) / ((10 ^ d : Nat) : ℚ))

/-- conversion of a floating-point value to an integer: toward zero. -/
def trunc (y : ℚ) : Int := if 0 ≤ y then y.floor else - (-y).floor

end FloatFmt

/-- `Rational(long double x)` for a built-in integer type `T` (num.hpp 101-118, 124): `d10` is
`std::numeric_limits<T>::digits10`; converting a value out of range to `T` is undefined. -/
def Rational.ofFloat (F : FloatFmt) (M : Int) (d10 : Nat) (x : ℚ) : Res Rational := do
  let nd := F.decimalPlaces x
  let x := if nd > d10 then F.roundDecplaces x d10 else x
  let den : Int := ((10 ^ (if nd > d10 then d10 else nd) : Nat) : Int)
  let n ← chk M (FloatFmt.trunc (F.rnd (x * (den : ℚ))))
  Rational.normalize M ⟨n, den⟩

/-- the optional sign of a numeral (`std::stold`, num.hpp 133). -/
def signOf : List Char → Bool × List Char
  | '-' :: t => (true, t)
  | '+' :: t => (false, t)
  | t => (false, t)

/-- the optional exponent part after the digits (`std::stold`, num.hpp 133). -/
def expPart : List Char → Int
  | c :: t =>
    if c = 'e' ∨ c = 'E' then
      let (neg, u) := signOf t
      if neg then - digVal (u.takeWhile isDig) else digVal (u.takeWhile isDig)
    else 0
  | [] => 0

/-- the digits after the point, and what follows them (`std::stold`, num.hpp 133). -/
def fracDigits : List Char → List Char × List Char
  | '.' :: r => (r.takeWhile isDig, r.dropWhile isDig)
  | r => ([], r)

/-- the exact value of the decimal numeral `std::stold` reads at the start of the text (num.hpp 133):
white space, sign, digits with an optional point, optional exponent; the rest is ignored. -/
def decVal (s : List Char) : Option ℚ :=
  let (neg, t) := signOf (s.dropWhile isSpace)
  let i := t.takeWhile isDig
  let (f, r) := fracDigits (t.dropWhile isDig)
  if (i ++ f).isEmpty then none
  else
    let q : ℚ := (digVal (i ++ f) : ℚ) * powI 10 (expPart r - (f.length : Int))
    some (if neg then -q else q)

/-- the spellings of infinities, NaN and hexadecimal numbers `std::stold` also accepts (num.hpp 133). -/
def isSpecial (s : List Char) : Bool :=
  match (signOf (s.dropWhile isSpace)).2 with
  | c :: d :: _ => c ∈ ['i', 'I', 'n', 'N'] || (c = '0' && (d = 'x' || d = 'X'))
  | _ => false

/-- `std::stold` on a decimal numeral (num.hpp 133): the nearest value of the format;
`std::out_of_range` on overflow, and on underflow with loss of precision. -/
def stold (F : FloatFmt) (s : List Char) : Res ℚ :=
  match decVal s with
  | none => .exn "invalid_argument"
  | some q =>
    if powI 2 F.emax ≤ |F.rnd q| then .exn "out_of_range"
    else if |F.rnd q| < powI 2 F.emin ∧ (q * powI 2 ((F.p : Int) - 1 - F.emin)).den ≠ 1 then .exn "out_of_range"
    else .ok (F.rnd q)

/-- the decimal branch of the string constructor (num.hpp 131-134); `special` is its outcome on the
spellings of infinities, NaN and hexadecimal numbers. -/
def decFloat (F : FloatFmt) (M : Int) (d10 : Nat) (special : List Char → Res Rational) (s : List Char) : Res Rational :=
  if isSpecial s then special s
  else do
    let x ← stold F s
    Rational.ofFloat F M d10 x

/-! ### one concrete rounding: to nearest, ties to even -/

/-- the exponent of the leading bit of a positive fraction. -/
def leadExp (n d : Nat) : Int :=
  let e : Int := (n.log2 : Int) - (d.log2 : Int)
  if (n : ℚ) < (d : ℚ) * powI 2 e then e - 1 else e

/-- nearest integer, ties to even. -/
def roundEven (m : ℚ) : Int :=
  let k := m.floor
  if m - (k : ℚ) < 1 / 2 then k
  else if 1 / 2 < m - (k : ℚ) then k + 1
  else if k % 2 = 0 then k else k + 1

/-- rounding to `p` significant bits (the x86-64 `long double` operations of num.hpp 32-56, 101-118 have `p = 64`). -/
def rndEven (p : Nat) (q : ℚ) : ℚ :=
  if q = 0 then 0
  else
    let g : Int := leadExp q.num.natAbs q.den - (p : Int) + 1
    (roundEven (q * powI 2 (-g)) : ℚ) * powI 2 g

/-- the x86-64 `long double`: 64 significant bits, `max_digits10 = 21`. -/
def x87 : FloatFmt := ⟨64, 21, -16382, 16384, rndEven 64⟩

end Symxx.Num
