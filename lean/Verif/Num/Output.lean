import Verif.Num.Decimal
/-!
# Model of `std::cout << x` for a `long double` (cli.hpp 83, 93)

The stream has its default format: `%.6Lg`, six significant digits, correctly rounded.
-/
namespace Symxx.Num

/-- the decimal exponent of the leading digit of a positive fraction. -/
def decExp (n d : Nat) : Int :=
  let e : Int := ((Nat.toDigits 10 n).length : Int) - ((Nat.toDigits 10 d).length : Int)
  if (n : ℚ) < (d : ℚ) * powI 10 e then e - 1 else e

/-- `%g` removes the zeros at the end of the fraction. -/
def stripZeros (s : List Char) : List Char := (s.reverse.dropWhile (· = '0')).reverse

/-- integer part and fraction; no point without a fraction. -/
def point (i f : List Char) : List Char := i ++ (if f = [] then [] else '.' :: f)

/-- `%.6g` of the number `m * 10^(e-5)`, `m` of six digits: fixed notation for `-4 ≤ e < 6`, otherwise scientific
(cli.hpp 83, 93). -/
def showDigits (m : Nat) (e : Int) : List Char :=
  let ds := Nat.toDigits 10 m
  if -4 ≤ e ∧ e < 6 then
    if 0 ≤ e then point (ds.take (e.toNat + 1)) (stripZeros (ds.drop (e.toNat + 1)))
    else point ['0'] (stripZeros (List.replicate ((-e).toNat - 1) '0' ++ ds))
  else
    point (ds.take 1) (stripZeros (ds.drop 1)) ++ ['e', if e < 0 then '-' else '+'] ++
      (if e.natAbs < 10 then ['0'] else []) ++ Nat.toDigits 10 e.natAbs

/-- `std::cout << x` for a finite `x` (cli.hpp 83, 93); the sign of a zero is left out. -/
def showG (q : ℚ) : List Char :=
  if q = 0 then ['0']
  else
    let e := decExp q.num.natAbs q.den
    let m := (roundEven (|q| * powI 10 (5 - e))).toNat
    (if q < 0 then ['-'] else []) ++ (if m = 1000000 then showDigits 100000 (e + 1) else showDigits m e)

/-! ### a computable pair of formats for the examples -/

/-- exact powers with integer exponents; other powers are left out of the examples. -/
def powQ (x y : ℚ) : Option ℚ :=
  if y.den = 1 then
    if 0 ≤ y.num then some (x ^ y.num.toNat)
    else if x = 0 then none else some (1 / x ^ (-y.num).toNat)
  else none

end Symxx.Num
