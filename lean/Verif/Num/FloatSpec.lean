import Verif.Num.Decimal
/-!
# Specification: what a correct rounding is, and which texts are decimals
-/
namespace Symxx.Num

/-- a number with at most `p` significant bits. -/
def FloatRep (p : Nat) (q : ℚ) : Prop := ∃ m e : Int, |m| ≤ 2 ^ p ∧ q = (m : ℚ) * (2 : ℚ) ^ e

/-- a correct rounding to `p` significant bits: it returns such a number, and none is closer (IEEE 754). -/
structure FloatNearest (p : Nat) (rnd : ℚ → ℚ) : Prop where
  rep : ∀ q, FloatRep p (rnd q)
  near : ∀ q r, FloatRep p r → |rnd q - q| ≤ |r - q|

/-- a floating-point type that rounds correctly and whose powers of ten up to `max_digits10 + 1` are exact. -/
structure FloatFmt.Ok (F : FloatFmt) : Prop where
  nearest : FloatNearest F.p F.rnd
  powers : 5 ^ (F.maxDigits10 + 1) ≤ 2 ^ F.p
  small : F.emin ≤ -(F.p : Int)
  large : (F.p : Int) ≤ F.emax

/-- `a/10^k` is `n/10^m` with the trailing zeros after the point removed. -/
def Shortest (n m a k : Nat) : Prop := k ≤ m ∧ n = a * 10 ^ (m - k) ∧ (k = 0 ∨ ¬ 10 ∣ a)

/-- the sign a text starts with. -/
def sgn (neg : Bool) : ℚ := if neg then -1 else 1

/-- the text of a decimal: optional minus, digits, a point, digits. -/
def decimalText (neg : Bool) (ds1 ds2 : List Char) : List Char := (if neg then ['-'] else []) ++ ds1 ++ '.' :: ds2

/-- the text after a decimal does not continue it. -/
def Ends (rest : List Char) : Prop := ∀ c t, rest = c :: t → ¬ ('0' ≤ c ∧ c ≤ '9') ∧ c ≠ 'e' ∧ c ≠ 'E'

/-- the value of a string of decimal digits, most significant first. -/
def decimalNat (ds : List Char) : Nat := ds.foldl (fun n c => 10 * n + (c.toNat - '0'.toNat)) 0

/-- the text consists of decimal digits. -/
def AllDigits (ds : List Char) : Prop := ∀ c ∈ ds, '0' ≤ c ∧ c ≤ '9'

end Symxx.Num
