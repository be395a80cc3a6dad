import Verif.Machine
/-!
# Model of class `Rational<T>` (num.hpp 58-335) for a signed machine integer type `T`

`M` is the maximum of `T`. The floating-point constructors (num.hpp 97-125) are modelled in
`Verif/Num/Decimal.lean`: here the decimal branch of the string constructor is a parameter, and the one use of a
floating-point value inside the library (`radicand *= adapter_pow(...)`, num.hpp 543) is part of
the oracle `Fl` below.
-/
namespace Symxx.Num

/-- `std::gcd` on `T` (int_adapter.hpp 92-96): undefined if an absolute value is not representable. -/
def gcdT (M a b : Int) : Res Int :=
  if (a.natAbs : Int) ≤ M ∧ (b.natAbs : Int) ≤ M then .ok (Int.gcd a b : Int)
  else .ub "gcd of an unrepresentable absolute value"

/-- `std::lcm` on `T` (int_adapter.hpp 98-102): undefined if the result is not representable. -/
def lcmT (M a b : Int) : Res Int :=
  if (a.natAbs : Int) ≤ M ∧ (b.natAbs : Int) ≤ M ∧ (Int.lcm a b : Int) ≤ M then
    .ok (Int.lcm a b : Int)
  else .ub "lcm not representable"

/-- `a / b` on `T`: truncated, undefined for `b = 0` and on overflow. -/
def divT (M a b : Int) : Res Int := if b = 0 then .ub "/ 0" else chk M (a.tdiv b)

/-- `std::abs` on `T` (int_adapter.hpp 43-47): undefined at the minimum. -/
def absT (M a : Int) : Res Int := chk M (a.natAbs : Int)

/-- class `Rational` (num.hpp 59-66). -/
structure Rational where
  num : Int
  den : Int
  deriving Repr, DecidableEq

/-- floating-point steps of num.hpp on integer arguments. `powT n p q` is
`static_cast<T>(std::pow(n, p/q))` (num.hpp 224-225), `divPow rad i k` is `rad /= std::pow(i, k)`
(num.hpp 555), `mulPow rad i k` is `rad *= std::pow(i, k)` (num.hpp 580), `ofPow n k` is
`Rational(std::pow(n, k))` (num.hpp 543, 101-125). -/
structure Fl where
  powT : Int → Int → Int → Res Int
  divPow : Int → Int → Nat → Res Int
  mulPow : Int → Int → Nat → Res Int
  ofPow : Int → Nat → Res Rational

namespace Rational

/-- `normalize` (num.hpp 254-264). -/
def normalize (M : Int) (r : Rational) : Res Rational := do
  let an ← absT M r.num
  let ad ← absT M r.den
  let g ← gcdT M an ad
  let n ← divT M r.num g
  let d ← divT M r.den g
  if d = -1 then do
    let n ← chk M (-n)
    .ok ⟨n, 1⟩
  else .ok ⟨n, d⟩

/-- `Rational(U n, R d)` for integral arguments (num.hpp 75-80). -/
def mk2 (M n d : Int) : Res Rational := do
  Res.assert (d ≠ 0) divisionByZero
  normalize M ⟨n, d⟩

/-- `Rational(U n)` for an integral argument (num.hpp 85-90); also the implicit conversions. -/
def ofInt (M n : Int) : Res Rational := normalize M ⟨n, 1⟩

/-- `Rational()` (num.hpp 92-95). -/
def zero : Rational := ⟨0, 1⟩

/-- `operator+=` and `operator+` (num.hpp 161-175). -/
def add (M : Int) (a b : Rational) : Res Rational := do
  let l ← lcmT M a.den b.den
  let q1 ← divT M l a.den
  let t1 ← chk M (a.num * q1)
  let q2 ← divT M l b.den
  let t2 ← chk M (b.num * q2)
  let s ← chk M (t1 + t2)
  normalize M ⟨s, l⟩

/-- `negate` (num.hpp 247-250). -/
def negate (M : Int) (a : Rational) : Res Rational := do
  let n ← chk M (-a.num)
  mk2 M n a.den

/-- `operator-=` and `operator-` (num.hpp 177-188). -/
def sub (M : Int) (a b : Rational) : Res Rational := do
  let nb ← negate M b
  add M a nb

/-- `operator*=` and `operator*` (num.hpp 190-206); no normalisation. -/
def mul (M : Int) (a b : Rational) : Res Rational := do
  let g1 ← gcdT M a.num b.den
  let g2 ← gcdT M b.num a.den
  let n1 ← divT M a.num g1
  let n2 ← divT M b.num g2
  let n ← chk M (n1 * n2)
  let d1 ← divT M a.den g2
  let d2 ← divT M b.den g1
  let d ← chk M (d1 * d2)
  Res.assert (d ≠ 0) divisionByZero
  .ok ⟨n, d⟩

/-- `inverse` (num.hpp 252). -/
def inverse (M : Int) (a : Rational) : Res Rational := mk2 M a.den a.num

/-- `operator/` and `operator/=` (num.hpp 208-217). -/
def div (M : Int) (a b : Rational) : Res Rational := do
  let ib ← inverse M b
  mul M a ib

/-- the two products compared by `operator<=>`, `==`, `!=` (num.hpp 230-243). -/
def cross (M : Int) (a b : Rational) : Res (Int × Int) := do
  let x ← chk M (a.num * b.den)
  let y ← chk M (b.num * a.den)
  .ok (x, y)

/-- `operator<` from `<=>` (num.hpp 230-233). -/
def lt (M : Int) (a b : Rational) : Res Bool := do let (x, y) ← cross M a b; .ok (decide (x < y))
/-- `operator<=` from `<=>` (num.hpp 230-233). -/
def le (M : Int) (a b : Rational) : Res Bool := do let (x, y) ← cross M a b; .ok (decide (x ≤ y))
/-- `operator>` from `<=>` (num.hpp 230-233). -/
def gt (M : Int) (a b : Rational) : Res Bool := do let (x, y) ← cross M a b; .ok (decide (x > y))
/-- `operator>=` from `<=>` (num.hpp 230-233). -/
def ge (M : Int) (a b : Rational) : Res Bool := do let (x, y) ← cross M a b; .ok (decide (x ≥ y))
/-- `operator==` (num.hpp 240-243). -/
def eq (M : Int) (a b : Rational) : Res Bool := do let (x, y) ← cross M a b; .ok (decide (x = y))
/-- `operator!=` (num.hpp 235-238). -/
def ne (M : Int) (a b : Rational) : Res Bool := do let (x, y) ← cross M a b; .ok (decide (x ≠ y))

/-- comparison with an integer literal (implicit conversion, num.hpp 85-90 and 240-243). -/
def eqInt (M : Int) (a : Rational) (k : Int) : Res Bool := do
  let r ← ofInt M k
  eq M a r

/-- `is_int` (num.hpp 245). -/
def isInt (a : Rational) : Bool := a.den = 1

/-- `to_t` (num.hpp 295-298). -/
def toT (M : Int) (a : Rational) : Res Int := divT M a.num a.den

/-- `pow` (num.hpp 219-228). -/
def pow (M : Int) (fl : Fl) (a p : Rational) : Res Rational := do
  if ← eqInt M p 0 then ofInt M 1
  else if ← eqInt M p 1 then .ok a
  else do
    let n ← fl.powT a.num p.num p.den
    let d ← fl.powT a.den p.num p.den
    normalize M ⟨n, d⟩

/-- `to_string` (num.hpp 300-312); `std::to_string` is the decimal numeral. -/
def toStr (a : Rational) : List Char :=
  if a.den ≠ 1 then (toString a.num).toList ++ ['/'] ++ (toString a.den).toList
  else (toString a.num).toList

/-- `to_tex` (num.hpp 314-326). -/
def toTex (a : Rational) : List Char :=
  if a.den ≠ 1 then "\\frac{".toList ++ (toString a.num).toList ++ "}{".toList ++
    (toString a.den).toList ++ "}".toList
  else (toString a.num).toList

end Rational

/-- white space skipped by `std::stoll` (`isspace` in the "C" locale). -/
def isSpace (c : Char) : Bool := c = ' ' || (decide ('\t' ≤ c) && decide (c ≤ '\r'))

/-- decimal digit. -/
def isDig (c : Char) : Bool := decide ('0' ≤ c) && decide (c ≤ '9')

/-- the value of a string of decimal digits. -/
def digVal (s : List Char) : Int := s.foldl (fun v c => v * 10 + ((c.toNat : Int) - 48)) 0

/-- `std::stoll(s)` converted to `T` (int_adapter.hpp 37-41): skips white space, optional sign,
longest run of digits, ignores the rest. `std::invalid_argument` / `std::out_of_range` otherwise. -/
def stoll (M : Int) (s : List Char) : Res Int :=
  let s := s.dropWhile isSpace
  let (neg, s) : Bool × List Char := match s with
    | '-' :: t => (true, t)
    | '+' :: t => (false, t)
    | t => (false, t)
  let ds := s.takeWhile isDig
  if ds.isEmpty then .exn "invalid_argument"
  else
    let v := if neg then - digVal ds else digVal ds
    if InRange M v then .ok v else .exn "out_of_range"

/-- the two `catch` clauses of the string constructor (num.hpp 150-157). -/
def catchNum {α} (x : Res α) : Res α :=
  match x with
  | .exn "invalid_argument" => .throw "Invaild string."
  | .exn "out_of_range" => .throw "The number is out of range."
  | r => r

/-- `Rational(const std::string &)` (num.hpp 127-159); `dec` is the outcome of the decimal branch
(num.hpp 131-134), modelled by `decFloat` in `Verif/Num/Decimal.lean`. -/
def Rational.ofStr (M : Int) (dec : List Char → Res Rational) (s : List Char) : Res Rational := do
  let r ← catchNum (
    if '.' ∈ s then dec s
    else
      let pre := s.takeWhile (· ≠ '/')
      match s.dropWhile (· ≠ '/') with
      | [] => do
        let n ← stoll M s
        .ok ⟨n, 1⟩
      | _ :: post => do
        let n ← stoll M pre
        let d ← stoll M post
        .ok ⟨n, d⟩)
  Res.assert (r.den ≠ 0) divisionByZero
  .ok r

end Symxx.Num
