import Verif.Expr.NumericError
import Mathlib.Data.Int.Log
import Mathlib.Algebra.Order.Field.Power
/-!
# An arithmetic that meets the specification: real numbers, rounded to 64 and 53 significant bits

Exponents are not bounded, so that nothing overflows; the specification asks for nothing there.
-/
namespace Symxx.Sym
open Symxx.Num

/-- the nearest number with `p` significant bits (halves upwards). -/
noncomputable def rndR (p : Nat) (r : ℝ) : ℝ :=
  (⌊r / (2 : ℝ) ^ (Int.log 2 |r| - p + 1) + 1 / 2⌋ : ℝ) * (2 : ℝ) ^ (Int.log 2 |r| - p + 1)

theorem rndR_zero (p : Nat) : rndR p 0 = 0 := by
  unfold rndR
  have : ⌊(1 : ℝ) / 2⌋ = 0 := by rw [Int.floor_eq_zero_iff]; constructor <;> norm_num
  simp only [zero_div, zero_add]
  rw [this]; simp

theorem rndR_rel (p : Nat) (r : ℝ) : |rndR p r - r| ≤ (1 / 2 ^ p) * |r| := by
  by_cases hr : r = 0
  · subst hr
    rw [rndR_zero]; simp
  have r0 : 0 < |r| := abs_pos.2 hr
  unfold rndR
  set g : Int := Int.log 2 |r| - p + 1 with hg
  have G0 : (0 : ℝ) < (2 : ℝ) ^ g := by positivity
  have G1 : (2 : ℝ) ^ g ≤ 2 * ((1 / 2 ^ p) * |r|) := by
    have e : (2 : ℝ) ^ g = (2 : ℝ) ^ (Int.log 2 |r|) * (1 / 2 ^ p) * 2 := by
      rw [hg, zpow_add₀ (by norm_num), zpow_sub₀ (by norm_num), zpow_natCast, zpow_one]
      ring
    have := Int.zpow_log_le_self (b := 2) (R := ℝ) (by norm_num) r0
    push_cast at this
    rw [e]
    have p0 : (0 : ℝ) < 1 / 2 ^ p := by positivity
    nlinarith
  set y := r / (2 : ℝ) ^ g with hy
  have ry : r = y * (2 : ℝ) ^ g := by rw [hy]; field_simp
  have f1 := Int.floor_le (y + 1 / 2)
  have f2 := Int.lt_floor_add_one (y + 1 / 2)
  have d : |(⌊y + 1 / 2⌋ : ℝ) - y| ≤ 1 / 2 := by rw [abs_le]; constructor <;> linarith
  have e : (⌊y + 1 / 2⌋ : ℝ) * (2 : ℝ) ^ g - r = ((⌊y + 1 / 2⌋ : ℝ) - y) * (2 : ℝ) ^ g := by
    conv_lhs => rw [ry]
    ring
  rw [e, abs_mul, abs_of_pos G0]
  nlinarith

theorem floor_half (k : Int) : ⌊(k : ℝ) + 1 / 2⌋ = k := by
  rw [Int.floor_eq_iff]
  constructor <;> linarith

theorem rndR_int {p : Nat} (hp : 53 ≤ p) {n : Int} (hn : |n| ≤ 2 ^ 53) : rndR p (n : ℝ) = n := by
  by_cases h0 : n = 0
  · subst h0
    simpa using rndR_zero p
  have n0 : (0 : ℝ) < |(n : ℝ)| := abs_pos.2 (by exact_mod_cast h0)
  unfold rndR
  set g : Int := Int.log 2 |(n : ℝ)| - p + 1 with hg
  have key : ∃ k : Int, (n : ℝ) / (2 : ℝ) ^ g = k := by
    have l1 : Int.log 2 |(n : ℝ)| ≤ 53 := by
      have := Int.log_mono_right (b := 2) n0 (show |(n : ℝ)| ≤ ((2 : ℕ) : ℝ) ^ (53 : ℤ) by exact_mod_cast hn)
      rwa [Int.log_zpow (by norm_num)] at this
    have l0 : 0 ≤ -g ∨ g = 1 := by omega
    rcases l0 with l0 | l0
    · obtain ⟨j, hj⟩ := Int.eq_ofNat_of_zero_le l0
      have : g = -(j : Int) := by omega
      refine ⟨n * 2 ^ j, ?_⟩
      rw [this, zpow_neg, zpow_natCast]
      push_cast
      field_simp
    · have hl : Int.log 2 |(n : ℝ)| = 53 := by omega
      have := Int.zpow_log_le_self (b := 2) (R := ℝ) (by norm_num) n0
      rw [hl] at this
      have g1 : (2 : Int) ^ 53 ≤ |n| := by exact_mod_cast this
      have ga : |n| = 2 ^ 53 := le_antisymm hn g1
      rw [l0, zpow_one]
      rcases abs_choice n with h | h
      · refine ⟨2 ^ 52, ?_⟩
        rw [h] at ga; rw [ga]; norm_num
      · refine ⟨-2 ^ 52, ?_⟩
        rw [h] at ga
        have : n = -2 ^ 53 := by omega
        rw [this]; norm_num
  obtain ⟨k, hk⟩ := key
  rw [hk, floor_half, ← hk]
  field_simp

open Classical in
/-- `double` and `long double` of x86-64 without bounds on the exponent; `none` is NaN. -/
noncomputable def ieee : Flt where
  D := Option ℝ
  LD := Option ℝ
  dOfInt n := some (rndR 53 n)
  dDiv a b := a.bind fun x => b.bind fun y => (opSem '/' x y).map (rndR 53)
  dPow a b := a.bind fun x => b.bind fun y => (opSem '^' x y).map (rndR 53)
  dTrunc a := match a with
    | some x => chk 9223372036854775807 ⌊x⌋
    | none => .ub "out of range"
  widen a := a
  ofInt n := some (rndR 64 n)
  add a b := a.bind fun x => b.bind fun y => (opSem '+' x y).map (rndR 64)
  sub a b := a.bind fun x => b.bind fun y => (opSem '-' x y).map (rndR 64)
  mul a b := a.bind fun x => b.bind fun y => (opSem '*' x y).map (rndR 64)
  div a b := a.bind fun x => b.bind fun y => (opSem '/' x y).map (rndR 64)
  pow a b := a.bind fun x => b.bind fun y => (opSem '^' x y).map (rndR 64)

/-- the value is the number. -/
def semR : FltSem ieee where
  ld (a : Option ℝ) := a
  d (a : Option ℝ) := a

/-- the accuracy of x86-64, allowing one unit of the last place. -/
noncomputable def x86 : Prec where
  M := 2 ^ 53
  u := 1 / 2 ^ 63
  ud := 1 / 2 ^ 52
  lo := 1 / 2 ^ 1022
  hi := 2 ^ 1023

theorem ieee_op {c : Char} {a b : ieee.LD} {x y r : ℝ} (ha : semR.ld a = some x) (hb : semR.ld b = some y)
    (h : opSem c x y = some r) : semR.ld (fltOp ieee c a b) = some (rndR 64 r) := by
  have ha : a = some x := ha
  have hb : b = some y := hb
  subst ha
  subst hb
  have key : ∀ c, opSem c x y = some r →
      ((some x : Option ℝ).bind fun x => (some y : Option ℝ).bind fun y => (opSem c x y).map (rndR 64)) = some (rndR 64 r) := by
    intro c h
    simp [h]
  rcases opSem_ops h with rfl | rfl | rfl | rfl | rfl <;> exact key _ h

theorem ieee_opD {c : Char} (hc : c = '/' ∨ c = '^') {a b : ieee.D} {x y r : ℝ} (ha : semR.d a = some x) (hb : semR.d b = some y)
    (h : opSem c x y = some r) : semR.d (fltOpD ieee c a b) = some (rndR 53 r) := by
  have ha : a = some x := ha
  have hb : b = some y := hb
  subst ha
  subst hb
  have key : ∀ c, opSem c x y = some r →
      ((some x : Option ℝ).bind fun x => (some y : Option ℝ).bind fun y => (opSem c x y).map (rndR 53)) = some (rndR 53 r) := by
    intro c h
    simp [h]
  rcases hc with rfl | rfl <;> exact key _ h

theorem rel_weaken {p q : Nat} (h : q ≤ p) (r : ℝ) : |rndR p r - r| ≤ (1 / 2 ^ q) * |r| :=
  le_trans (rndR_rel p r) (mul_le_mul_of_nonneg_right
    (one_div_le_one_div_of_le (by positivity) (pow_le_pow_right₀ (by norm_num) h)) (abs_nonneg r))

theorem x86_M : (4 * (((2 ^ 53 : Int)) : ℝ) ^ 2) = 2 ^ 108 := by norm_num

theorem semR_accurate : semR.Accurate x86 where
  M1 := by norm_num [x86]
  u0 := by norm_num [x86]
  u1 := by norm_num [x86]
  ud0 := by norm_num [x86]
  ud1 := by norm_num [x86]
  lo0 := by norm_num [x86]
  loM := by
    show (1 : ℝ) / 2 ^ 1022 * (4 * (((2 ^ 53 : Int)) : ℝ) ^ 2) ≤ 1
    rw [x86_M, one_div, ← div_eq_inv_mul, div_le_one (by positivity)]
    exact pow_le_pow_right₀ (by norm_num) (by norm_num)
  hiM := by
    show (4 * (((2 ^ 53 : Int)) : ℝ) ^ 2) ≤ 2 ^ 1023
    rw [x86_M]
    exact pow_le_pow_right₀ (by norm_num) (by norm_num)
  ofInt n hn := by show some _ = _; rw [rndR_int (by norm_num) hn]
  dOfInt n hn := by show some _ = _; rw [rndR_int (by norm_num) hn]
  widen a := rfl
  intDiv n hn := by
    have e1 : semR.ld (ieee.ofInt n) = some (n : ℝ) := by show some _ = _; rw [rndR_int (by norm_num) hn]
    have e2 : semR.ld (ieee.ofInt 1) = some ((1 : Int) : ℝ) := by show some _ = _; rw [rndR_int (by norm_num) (by norm_num)]
    have := ieee_op e1 e2 (c := '/') (opSem_div' (by norm_num))
    rw [Int.cast_one, div_one, rndR_int (by norm_num) hn] at this
    exact this
  op c a b x y r ha hb h _ := by
    refine ⟨_, ieee_op ha hb h, ?_, fun _ => rel_weaken (by norm_num) r⟩
    have : (0 : ℝ) ≤ x86.lo := by norm_num [x86]
    exact le_trans (rel_weaken (q := 63) (by norm_num) r) (le_add_of_nonneg_right this)
  opD c a b x y r hc ha hb h _ _ := ⟨_, ieee_opD hc ha hb h, rel_weaken (by norm_num) r⟩

end Symxx.Sym
