import Verif.Num.RatMore
import Verif.Num.FloatProof
/-!
# The floating-point steps of num.hpp with IEEE-754 doubles, correctly rounded
-/
namespace Symxx.Num

/-- conversion of a `double` to `T` (num.hpp 224-225, 555, 580): toward zero, undefined out of range. -/
def toT (M : Int) (x : ℚ) : Res Int := chk M (FloatFmt.trunc x)

/-- a positive power of an integer (`adapter_pow`, int_adapter.hpp 55-59): the integer is converted to `double`, the power is
correctly rounded. -/
def dpow (n : Int) (k : Nat) : ℚ := rndEven 53 (rndEven 53 (n : ℚ) ^ k)

/-- the floating-point steps of num.hpp (see `Fl`) with every operation on `double` correctly rounded, to nearest even
(`p.to<double>()` of num.hpp 224 divides two doubles, num.hpp 275-278). Simplification: the exponent of a `double` is unbounded
(an infinity would be converted to `T`, which is undefined as well); a power with an exponent that is not an integer is left
undefined. -/
def Fl.double (M : Int) : Fl where
  powT n p q :=
    if n = 1 then .ok 1
    else
      let e := rndEven 53 (rndEven 53 p / rndEven 53 q)
      if e.den ≠ 1 then .ub "power with a fractional exponent"
      else if 0 ≤ e.num then toT M (dpow n e.num.toNat)
      else toT M (rndEven 53 (1 / rndEven 53 (n : ℚ) ^ (-e.num).toNat))
  divPow rad i k := toT M (rndEven 53 (rndEven 53 (rad : ℚ) / dpow i k))
  mulPow rad i k := toT M (rndEven 53 (rndEven 53 (rad : ℚ) * dpow i k))
  ofPow n k := do
    let z ← toT M (dpow n k)
    .ok ⟨z, 1⟩

theorem rnd53_int {k : Int} (hk : |k| ≤ 2 ^ 53) : rndEven 53 (k : ℚ) = (k : ℚ) :=
  (rndEven_nearest 53 (by omega)).eq_of_rep (FloatRep.intCast hk)

theorem trunc_intCast (n : Int) : FloatFmt.trunc (n : ℚ) = n := by
  unfold FloatFmt.trunc
  split
  · exact Int.floor_intCast (R := ℚ) n
  · have : (-(n : ℚ)).floor = -n := by
      have := Int.floor_intCast (R := ℚ) (-n)
      push_cast at this
      exact this
    rw [this, neg_neg]

theorem trunc_small {x : ℚ} (h : |x| < 1) : FloatFmt.trunc x = 0 := by
  have h1 := abs_lt.1 h
  unfold FloatFmt.trunc
  split
  · rename_i h0
    exact Int.floor_eq_zero_iff.2 ⟨h0, h1.2⟩
  · rename_i h0
    have : (-x).floor = 0 := (Int.floor_eq_zero_iff (a := -x)).2 ⟨by linarith, by linarith [h1.1]⟩
    rw [this, neg_zero]

theorem toT_int {M z : Int} (h : |z| ≤ M) : toT M (z : ℚ) = .ok z := by
  rw [toT, trunc_intCast]
  exact chk_ok (inRange_of_abs h)

theorem dpow_int {n : Int} {k : Nat} (h : |n ^ k| ≤ 2 ^ 53) : dpow n k = ((n ^ k : Int) : ℚ) := by
  unfold dpow
  rcases k.eq_zero_or_pos with rfl | hk
  · simpa using rnd53_int (k := 1) (by norm_num)
  · have hn : |n| ≤ 2 ^ 53 := by
      rcases eq_or_ne n 0 with rfl | h0
      · norm_num
      · refine le_trans ?_ h
        rw [abs_pow]
        exact le_self_pow₀ (Int.one_le_abs h0) (by omega)
    rw [rnd53_int hn]
    rw [← Int.cast_pow, rnd53_int h]

/-- correctly rounded doubles meet what is assumed about the floating-point steps. -/
theorem Fl.double_exact {M : Int} (hM : 2 ^ 53 ≤ M) : (Fl.double M).Exact where
  powT n p q k hq hp h1 h2 h3 := by
    simp only [Fl.double]
    split
    · rename_i h; rw [h, one_pow]
    · have hq' : (q : ℚ) ≠ 0 := by exact_mod_cast hq
      have he : rndEven 53 (rndEven 53 p / rndEven 53 q) = ((k : Int) : ℚ) := by
        rw [rnd53_int h1, rnd53_int h2, hp]
        push_cast
        rw [mul_div_assoc, div_self hq', mul_one]
        have : |((k : Nat) : Int)| ≤ 2 ^ 53 := by
          refine le_trans ?_ h1
          rw [hp, abs_mul]
          exact le_mul_of_one_le_right (abs_nonneg _) (Int.one_le_abs hq)
        exact_mod_cast rnd53_int this
      rw [he, if_neg (by rw [Rat.den_intCast]; simp), if_pos (by rw [Rat.num_intCast]; omega), Rat.num_intCast, Int.toNat_natCast, dpow_int h3, toT_int (le_trans h3 hM)]
  powT_neg n p q k hq hk hp h1 h2 h3 := by
    simp only [Fl.double]
    rw [if_neg (by rintro rfl; norm_num at h3)]
    have hq' : (q : ℚ) ≠ 0 := by exact_mod_cast hq
    have he : rndEven 53 (rndEven 53 p / rndEven 53 q) = ((-(k : Int) : Int) : ℚ) := by
      rw [rnd53_int h1, rnd53_int h2, hp]
      push_cast
      rw [neg_div, mul_div_assoc, div_self hq', mul_one]
      have : |-((k : Nat) : Int)| ≤ 2 ^ 53 := by
        refine le_trans ?_ h1
        rw [hp, abs_neg, abs_neg, abs_mul]
        exact le_mul_of_one_le_right (abs_nonneg _) (Int.one_le_abs hq)
      exact_mod_cast rnd53_int this
    rw [he, if_neg (by rw [Rat.den_intCast]; simp), if_neg (by rw [Rat.num_intCast]; omega), Rat.num_intCast]
    have hN := rndEven_nearest 53 (by omega)
    have h2r : FloatRep 53 (2 : ℚ) := by exact_mod_cast FloatRep.intCast (p := 53) (n := 2) (by norm_num)
    have hn2 : 2 ≤ |rndEven 53 (n : ℚ)| := by
      rcases abs_cases n with ⟨ha, -⟩ | ⟨ha, -⟩
      · have := hN.le_of_rep h2r (q := (n : ℚ)) (by rw [ha] at h3; exact_mod_cast h3)
        exact le_trans this (le_abs_self _)
      · have := hN.rep_le h2r.neg (q := (n : ℚ)) (by
          rw [ha] at h3
          have : n ≤ -2 := by omega
          exact_mod_cast this)
        exact le_trans (by linarith) (neg_le_abs _)
    have hpow : 2 ≤ |rndEven 53 (n : ℚ) ^ (-(-(k : Int))).toNat| := by
      rw [abs_pow]
      exact le_trans hn2 (le_self_pow₀ (by linarith) (by omega))
    have hlt : |1 / rndEven 53 (n : ℚ) ^ (-(-(k : Int))).toNat| ≤ 1 / 2 := by
      rw [abs_div, abs_one]
      exact one_div_le_one_div_of_le (by norm_num) hpow
    have hhalf : FloatRep 53 (1 / 2 : ℚ) := ⟨1, -1, by norm_num, by norm_num⟩
    have h1 := abs_le.1 hlt
    have hle : |rndEven 53 (1 / rndEven 53 (n : ℚ) ^ (-(-(k : Int))).toNat)| ≤ 1 / 2 :=
      abs_le.2 ⟨hN.le_of_rep hhalf.neg h1.1, hN.rep_le hhalf h1.2⟩
    rw [toT, trunc_small (lt_of_le_of_lt hle (by norm_num))]
    exact chk_ok (inRange_of_abs (by simpa using le_trans (by norm_num) hM))
  powT_one p q _ := by simp [Fl.double]
  divPow rad i q k h0 h1 hi h := by
    simp only [Fl.double]
    have hik : 0 < i ^ k := by positivity
    have hq : 0 < q := by
      by_contra hc
      push Not at hc
      have : i ^ k * q ≤ 0 := mul_nonpos_of_nonneg_of_nonpos hik.le hc
      omega
    have hle : i ^ k ≤ rad := by rw [h]; exact le_mul_of_one_le_right hik.le (by omega)
    have hqle : q ≤ rad := by rw [h]; exact le_mul_of_one_le_left hq.le (by omega)
    rw [rnd53_int (by rw [abs_of_pos h0]; exact h1), dpow_int (by rw [abs_of_pos hik]; omega)]
    have : (rad : ℚ) / ((i ^ k : Int) : ℚ) = (q : ℚ) := by
      rw [div_eq_iff (by exact_mod_cast hik.ne'), h]
      push_cast
      ring
    rw [this, rnd53_int (by rw [abs_of_pos hq]; omega), toT_int (by rw [abs_of_pos hq]; omega)]
  mulPow rad i k h0 hi h := by
    simp only [Fl.double]
    have hik : 0 < i ^ k := by positivity
    have h1 : rad ≤ rad * i ^ k := le_mul_of_one_le_right h0.le (by omega)
    have h2 : i ^ k ≤ rad * i ^ k := le_mul_of_one_le_left hik.le (by omega)
    have h3 : 0 < rad * i ^ k := by positivity
    rw [rnd53_int (by rw [abs_of_pos h0]; omega), dpow_int (by rw [abs_of_pos hik]; omega), ← Int.cast_mul,
      rnd53_int (by rw [abs_of_pos h3]; omega), toT_int (by rw [abs_of_pos h3]; omega)]
  ofPow n k h0 h := by
    have hik : 0 < n ^ k := by positivity
    simp only [Fl.double]
    rw [dpow_int (by rw [abs_of_pos hik]; omega), toT_int (by rw [abs_of_pos hik]; omega)]
    rfl

end Symxx.Num
