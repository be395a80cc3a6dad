import Mathlib.Data.Rat.Floor
import Mathlib.Algebra.Order.Field.Power
/-!
# What a double means and what it means to read a decimal text (independent of the code)

`bits` is the IEEE-754 binary64 pattern: 1 sign bit, 11 exponent bits, 52 significand bits.
-/
namespace Symxx.Dtoa

/-- the 11 exponent bits. -/
def expField (u : Nat) : Nat := u / 2 ^ 52 % 2 ^ 11
/-- the 52 significand bits. -/
def sigField (u : Nat) : Nat := u % 2 ^ 52
/-- the sign bit. -/
def signField (u : Nat) : Nat := u / 2 ^ 63

/-- a finite double: neither an infinity nor a NaN. -/
def FiniteBits (u : Nat) : Prop := u < 2 ^ 64 ∧ expField u ≠ 2047

instance (u : Nat) : Decidable (FiniteBits u) := by unfold FiniteBits; infer_instance

/-- the magnitude of a finite double (IEEE-754, 3.4): subnormal `s * 2^-1074`, normal `(2^52 + s) * 2^(b - 1075)`. -/
def magnitude (u : Nat) : ℚ :=
  if expField u = 0 then (sigField u : ℚ) * 2 ^ (-1074 : ℤ)
  else ((2 ^ 52 + sigField u : ℕ) : ℚ) * 2 ^ ((expField u : ℤ) - 1075)

/-- the value of a finite double. -/
def value (u : Nat) : ℚ := if signField u = 0 then magnitude u else -magnitude u

/-- the rational `q` rounds to the double `u` under round-to-nearest, without a tie: `q` is strictly closer to it than
to the value of any other double, and than to `±2^1024`, where rounding starts to give an infinity. -/
def RoundsTo (q : ℚ) (u : Nat) : Prop :=
  FiniteBits u ∧ (∀ u', FiniteBits u' → value u' ≠ value u → |q - value u| < |q - value u'|) ∧
    |q - value u| < |q - 2 ^ 1024| ∧ |q - value u| < |q + 2 ^ 1024|

/-! ### reading decimal texts -/

/-- a decimal digit. -/
def isDig (c : Char) : Bool := 48 ≤ c.toNat && c.toNat ≤ 57

/-- the number denoted by a string of decimal digits (value of other characters is irrelevant). -/
def digitsVal (s : List Char) : Nat := s.foldl (fun n c => 10 * n + (c.toNat - 48)) 0

/-- a non-empty string of decimal digits. -/
def readNat (s : List Char) : Option Nat := if s ≠ [] ∧ s.all isDig then some (digitsVal s) else none

/-- an optionally negative integer. -/
def readInt : List Char → Option Int
  | '-' :: s => (readNat s).map fun n => -(n : Int)
  | s => (readNat s).map fun n => (n : Int)

/-- `digits` or `digits.digits`. -/
def readFixed (s : List Char) : Option ℚ :=
  match s.span (· ≠ '.') with
  | (a, []) => (readNat a).map fun n => (n : ℚ)
  | (a, _ :: b) => do
    let m ← readNat a
    let n ← readNat b
    some (m + n / 10 ^ b.length)

/-- an optional exponent after `e`. -/
def readUnsigned (s : List Char) : Option ℚ :=
  match s.span (· ≠ 'e') with
  | (a, []) => readFixed a
  | (a, _ :: b) => do
    let q ← readFixed a
    let e ← readInt b
    some (q * 10 ^ e)

/-- a decimal number: sign, digits, fraction, exponent. -/
def readDecimal : List Char → Option ℚ
  | '-' :: s => (readUnsigned s).map fun q => -q
  | s => readUnsigned s

end Symxx.Dtoa
