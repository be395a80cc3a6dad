import Verif.Res
/-!
# Signed machine integers

The integer template parameter `T` (`int64_t`, `__int128_t`) is modelled by `Int` together with its
largest value `M` (two's complement: the smallest is `-M-1`). An operation whose mathematical
result is out of range is undefined behaviour.
-/
namespace Symxx

/-- `z` is a value of the signed type with maximum `M`. -/
def InRange (M z : Int) : Prop := -M - 1 ≤ z ∧ z ≤ M

instance (M z : Int) : Decidable (InRange M z) := by unfold InRange; infer_instance

/-- the result of a signed operation: undefined if it overflows. -/
def chk (M z : Int) : Res Int := if InRange M z then .ok z else .ub "signed overflow"

theorem chk_ok {M z : Int} (h : InRange M z) : chk M z = .ok z := if_pos h

theorem chk_eq_ok {M z r : Int} : chk M z = .ok r ↔ InRange M z ∧ r = z := by
  unfold chk; split <;> simp_all [eq_comm]

theorem chk_cases (M z : Int) : (InRange M z ∧ chk M z = .ok z) ∨
    (¬ InRange M z ∧ chk M z = .ub "signed overflow") := by
  unfold chk; by_cases h : InRange M z <;> simp [h]

theorem chk_clean (M z : Int) : (chk M z).Clean := by
  unfold chk; split
  · exact Res.Clean.ok _
  · exact Res.Clean.ub _

/-- conversion of an out-of-range value (modular since C++20), used for `<<` on signed values. -/
def wrap (M z : Int) : Int := (z + (M + 1)) % (2 * (M + 1)) - (M + 1)

theorem wrap_of_range {M z : Int} (h : InRange M z) : wrap M z = z := by
  unfold wrap
  unfold InRange at h
  rw [Int.emod_eq_of_lt (by omega) (by omega)]
  omega

/-- `int64_t`. -/
def maxI64 : Int := 2 ^ 63 - 1
/-- `__int128_t`. -/
def maxI128 : Int := 2 ^ 127 - 1

end Symxx
