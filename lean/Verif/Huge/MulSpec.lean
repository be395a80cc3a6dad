import Mathlib.Data.Nat.Notation
import Mathlib.Order.Lattice
/-!
# Where the product is defined

The set of operands for which `a * b` is defined, in numbers only: an operand is a natural number together with its width, the
number of 30-bit digits it is written with. A half of a number may be written with leading zero digits; a half that is zero,
but not of width 0, makes the product undefined.
-/
namespace Symxx.Huge

/-- width of a sum: one digit more than the wider summand if there is a carry. -/
def sumWidth (m x n y : ℕ) : ℕ := if x + y < 2 ^ (30 * max m n) then max m n else max m n + 1

/-- the product of `x` (width `m`) and `y` (width `n`) is defined. Numbers of width up to 70 (140 for a square) need only be
different from 0; wider ones are split in the middle of the wider one into high and low halves, and the products of the high
halves, of the low halves and of the sums of the halves must be defined. `k > m + n` bounds the depth. -/
def ProductDefined : ℕ → ℕ → ℕ → ℕ → ℕ → Prop
  | 0, _, _, _, _ => False
  | k + 1, m, x, n, y =>
    m = 0 ∨ n = 0 ∨ (x ≠ 0 ∧ y ≠ 0 ∧
      (min m n ≤ (if m = n ∧ x = y then 140 else 70) ∨
        let s := max m n / 2
        let (mh, xh, nh, yh) := (m - s, x / 2 ^ (30 * s), n - s, y / 2 ^ (30 * s))
        let (ml, xl, nl, yl) := (min m s, x % 2 ^ (30 * s), min n s, y % 2 ^ (30 * s))
        ProductDefined k mh xh nh yh ∧ ProductDefined k ml xl nl yl ∧
          ProductDefined k (sumWidth mh xh ml xl) (xh + xl) (sumWidth nh yh nl yl) (yh + yl)))

/-- number of 30-bit digits of a number. -/
def width (x : ℕ) : ℕ := if x = 0 then 0 else Nat.log2 x / 30 + 1

end Symxx.Huge
