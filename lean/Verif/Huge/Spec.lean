import Verif.Huge.Model
import Mathlib.Data.Nat.Digits.Defs
/-!
# Specification vocabulary for `Huge`

Independent of the algorithms: the integer a `Huge` denotes, and when its digit vector is in
canonical form.
-/
namespace Symxx.Huge

/-- the natural number denoted by a digit vector: positional value in base `2^30`
(Mathlib's `Nat.ofDigits`). -/
def dval (l : List Nat) : Nat := Nat.ofDigits (2 ^ 30) l

/-- the integer denoted by a `Huge`. -/
def Huge.val (h : Huge) : Int := (if h.isPositive then 1 else -1) * (dval h.digits : Int)

/-- every digit is a proper base-`2^30` digit. -/
def Digits (l : List Nat) : Prop := ∀ d ∈ l, d < 2 ^ 30

/-- canonical digit vector: proper digits and no leading (most significant) zero digit. -/
def Canon (l : List Nat) : Prop := Digits l ∧ l.getLast? ≠ some 0

/-- well-formed `Huge`: all digits proper. -/
def Huge.WF (h : Huge) : Prop := Digits h.digits
/-- canonical `Huge`. -/
def Huge.Canonical (h : Huge) : Prop := Canon h.digits

instance (l : List Nat) : Decidable (Digits l) := by unfold Digits; infer_instance
instance (l : List Nat) : Decidable (Canon l) := by unfold Canon; infer_instance
instance (h : Huge) : Decidable h.WF := by unfold Huge.WF; infer_instance
instance (h : Huge) : Decidable h.Canonical := by unfold Huge.Canonical; infer_instance

end Symxx.Huge
