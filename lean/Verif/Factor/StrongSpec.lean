import Mathlib.Data.Nat.Prime.Defs
/-!
# Specification: the strong (Miller) test to one base

Independent of the model.
-/
namespace Symxx.Factor

/-- `n` passes the strong test to base `a`: with `n - 1 = 2^s * d`, `d` odd, either `a^d = 1` or `a^(2^i * d) = -1` for some
`i < s`, modulo `n`. Every prime passes for every base it does not divide; a composite that passes has the "liar" `a`. -/
def PassesStrong (n a : Nat) : Prop :=
  ∃ s d : Nat, n - 1 = 2 ^ s * d ∧ d % 2 = 1 ∧ (a ^ d % n = 1 ∨ ∃ i < s, a ^ (2 ^ i * d) % n = n - 1)

/-- the odd part of `n - 1`: the greatest odd divisor. -/
def OddPart (n d : Nat) : Prop := d % 2 = 1 ∧ ∃ s, n - 1 = 2 ^ s * d

end Symxx.Factor
