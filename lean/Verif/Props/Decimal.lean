import Verif.Num.DecimalText
/-!
# Properties C80, C81: decimal texts and floating-point values as fractions
-/
namespace Symxx.Num
open Symxx

/-- the x86-64 `long double` satisfies the hypotheses. -/
theorem x87_ok : x87.Ok := ⟨x87_nearest, by decide +kernel, by decide, by decide⟩

/-- no texts for infinities, NaN or hexadecimal numbers. -/
def noSpecial : List Char → Res Rational := fun _ => .ub "special"

theorem ofStr_dot {M : Int} {dec : List Char → Res Rational} {s : List Char} {r : Rational} (hs : '.' ∈ s) (h : dec s = .ok r)
    (hd : 0 < r.den) : Rational.ofStr M dec s = .ok r := by
  unfold Rational.ofStr
  rw [if_pos hs, h]
  have : Res.assert (r.den ≠ 0) divisionByZero = .ok () := by
    have : decide (r.den ≠ 0) = true := by simpa using hd.ne'
    rw [this]; rfl
  show (Res.assert (r.den ≠ 0) divisionByZero).bind (fun _ => Res.ok r) = Res.ok r
  rw [this]; rfl

/-- **C80** the text `[-]digits.digits` (what follows it is ignored) of up to `digits10` decimals and a value of at most
`2^p/64` units is accepted and becomes a fraction in lowest terms: written without trailing zeros as `a/10^k`, the fraction
is `a/10^k` if the machine product of the number read by `10^k` reaches `a`, and `(a-1)/10^k` otherwise. -/
theorem C80_decimal_text {F : FloatFmt} (hF : F.Ok) {M : Int} {d10 : Nat} (hd10 : d10 ≤ F.maxDigits10) (hM : (10 : Int) ^ d10 ≤ M)
    (special : List Char → Res Rational) {ds1 ds2 rest : List Char} (neg : Bool) (h1 : AllDigits ds1) (h2 : AllDigits ds2)
    (hne : ds1 ++ ds2 ≠ []) (hr : Ends rest) (hn : 64 * decimalNat (ds1 ++ ds2) ≤ 2 ^ F.p) (hnM : (decimalNat (ds1 ++ ds2) : Int) ≤ M)
    (hk : ds2.length ≤ d10) (hk16 : 16 * 10 ^ ds2.length ≤ 2 ^ F.p) {a k : Nat}
    (hs : Shortest (decimalNat (ds1 ++ ds2)) ds2.length a k) :
    ∃ r, Rational.ofStr M (decFloat F M d10 special) (decimalText neg ds1 ds2 ++ rest) = .ok r ∧ r.Lowest ∧ 0 < r.den ∧
      sgn neg * r.val = (if (a : ℚ) ≤ sgn neg * F.rnd (F.rnd (sgn neg * (a / 10 ^ k)) * 10 ^ k) then (a : ℚ) else a - 1) / 10 ^ k := by
  obtain ⟨r, e1, e2, e3, _, e5, _⟩ := decFloat_text hF.nearest hF.powers hF.small hF.large hd10 hM special neg h1 h2 hne hr hn hnM hk hk16 hs
  exact ⟨r, ofStr_dot (by unfold decimalText; simp) e1 e3, e2, e3, e5⟩

/-- the remaining hypothesis can always be met. -/
theorem C80_shortest (n m : Nat) : ∃ a k, Shortest n m a k := exists_shortest n m

/-- **C80** without reference to the machine: such a text denotes its decimal, or one unit of its last non-zero place less. -/
theorem C80_decimal_close {F : FloatFmt} (hF : F.Ok) {M : Int} {d10 : Nat} (hd10 : d10 ≤ F.maxDigits10) (hM : (10 : Int) ^ d10 ≤ M)
    (special : List Char → Res Rational) {ds1 ds2 rest : List Char} (neg : Bool) (h1 : AllDigits ds1) (h2 : AllDigits ds2)
    (hne : ds1 ++ ds2 ≠ []) (hr : Ends rest) (hn : 64 * decimalNat (ds1 ++ ds2) ≤ 2 ^ F.p) (hnM : (decimalNat (ds1 ++ ds2) : Int) ≤ M)
    (hk : ds2.length ≤ d10) (hk16 : 16 * 10 ^ ds2.length ≤ 2 ^ F.p) :
    ∃ r, Rational.ofStr M (decFloat F M d10 special) (decimalText neg ds1 ds2 ++ rest) = .ok r ∧ r.Lowest ∧ 0 < r.den ∧
      ∃ a k, Shortest (decimalNat (ds1 ++ ds2)) ds2.length a k ∧
        (sgn neg * r.val = (decimalNat (ds1 ++ ds2) : ℚ) / 10 ^ ds2.length ∨
          1 ≤ a ∧ sgn neg * r.val = (decimalNat (ds1 ++ ds2) : ℚ) / 10 ^ ds2.length - 1 / 10 ^ k) := by
  obtain ⟨a, k, hs⟩ := exists_shortest (decimalNat (ds1 ++ ds2)) ds2.length
  obtain ⟨r, e1, e2, e3, _, e5, e6⟩ := decFloat_text hF.nearest hF.powers hF.small hF.large hd10 hM special neg h1 h2 hne hr hn hnM hk hk16 hs
  refine ⟨r, ofStr_dot (by unfold decimalText; simp) e1 e3, e2, e3, a, k, hs, ?_⟩
  rw [hs.val]
  split at e5
  · exact .inl e5
  · next hc => exact .inr ⟨e6.resolve_left hc, by rw [e5]; ring⟩

/-- **C80** the text is read exactly if its value has at most `p` significant bits (`0.5`, `-2.75`, `3.00`), or more generally if
reading it did not round towards zero. -/
theorem C80_decimal_exact {F : FloatFmt} (hF : F.Ok) {M : Int} {d10 : Nat} (hd10 : d10 ≤ F.maxDigits10) (hM : (10 : Int) ^ d10 ≤ M)
    (special : List Char → Res Rational) {ds1 ds2 rest : List Char} (neg : Bool) (h1 : AllDigits ds1) (h2 : AllDigits ds2)
    (hne : ds1 ++ ds2 ≠ []) (hr : Ends rest) (hn : 64 * decimalNat (ds1 ++ ds2) ≤ 2 ^ F.p) (hnM : (decimalNat (ds1 ++ ds2) : Int) ≤ M)
    (hk : ds2.length ≤ d10) (hk16 : 16 * 10 ^ ds2.length ≤ 2 ^ F.p)
    (hx : FloatRep F.p ((decimalNat (ds1 ++ ds2) : ℚ) / 10 ^ ds2.length) ∨
      (decimalNat (ds1 ++ ds2) : ℚ) / 10 ^ ds2.length ≤ sgn neg * F.rnd (sgn neg * ((decimalNat (ds1 ++ ds2) : ℚ) / 10 ^ ds2.length))) :
    ∃ r, Rational.ofStr M (decFloat F M d10 special) (decimalText neg ds1 ds2 ++ rest) = .ok r ∧ r.Lowest ∧ 0 < r.den ∧
      r.val = sgn neg * ((decimalNat (ds1 ++ ds2) : ℚ) / 10 ^ ds2.length) := by
  obtain ⟨a, k, hs⟩ := exists_shortest (decimalNat (ds1 ++ ds2)) ds2.length
  obtain ⟨r, e1, e2, e3, _, e5, _⟩ := decFloat_text hF.nearest hF.powers hF.small hF.large hd10 hM special neg h1 h2 hne hr hn hnM hk hk16 hs
  refine ⟨r, ofStr_dot (by unfold decimalText; simp) e1 e3, e2, e3, ?_⟩
  rw [hs.val] at hx ⊢
  have hG := nearest_sgn hF.nearest neg
  have hup : (a : ℚ) / 10 ^ k ≤ sgn neg * F.rnd (sgn neg * (a / 10 ^ k)) := by
    rcases hx with hx | hx
    · have := hG.eq_of_rep hx
      rw [this]
    · exact hx
  have hale := hs.le
  have harep : FloatRep F.p (a : ℚ) := by
    have := FloatRep.intCast (p := F.p) (n := (a : Int)) (by rw [Nat.abs_cast]; exact_mod_cast (by omega : a ≤ 2 ^ F.p))
    simpa using this
  have h3 : (a : ℚ) ≤ sgn neg * F.rnd (F.rnd (sgn neg * (a / 10 ^ k)) * 10 ^ k) := by
    have h4 : (a : ℚ) ≤ sgn neg * F.rnd (sgn neg * (a / 10 ^ k)) * 10 ^ k := by
      calc (a : ℚ) = a / 10 ^ k * 10 ^ k := by field_simp
        _ ≤ _ := by gcongr
    have := hG.le_of_rep harep h4
    rwa [← mul_assoc, ← mul_assoc, sgn_mul_self, one_mul] at this
  rw [if_pos h3] at e5
  rw [← e5, ← mul_assoc, sgn_mul_self, one_mul]

/-- `-2.75` and `12.` followed by other text, for `long long`. -/
example : ∃ r, Rational.ofStr 9223372036854775807 (decFloat x87 9223372036854775807 18 noSpecial) "-2.75+x".toList = .ok r ∧
    r.Lowest ∧ 0 < r.den ∧ r.val = -11 / 4 := by
  have := C80_decimal_exact x87_ok (M := 9223372036854775807) (d10 := 18) (by decide) (by decide +kernel) noSpecial
    (ds1 := ['2']) (ds2 := ['7', '5']) (rest := "+x".toList) true (by unfold AllDigits; decide) (by unfold AllDigits; decide) (by decide)
    (by rintro c t h; injection h with h _; subst h; decide) (by decide +kernel) (by decide +kernel) (by decide) (by decide +kernel)
    (.inl ⟨11, -2, by decide +kernel, by
      rw [show decimalNat (['2'] ++ ['7', '5']) = 275 from rfl]; norm_num⟩)
  obtain ⟨r, e1, e2, e3, e4⟩ := this
  exact ⟨r, e1, e2, e3, by
    rw [e4, show decimalNat (['2'] ++ ['7', '5']) = 275 from rfl]; norm_num [sgn]⟩

/-- the hypotheses of `C80_decimal_close` for `0.53`. -/
example : ∃ r, Rational.ofStr 9223372036854775807 (decFloat x87 9223372036854775807 18 noSpecial) "0.53".toList = .ok r ∧ r.Lowest ∧ 0 < r.den ∧
    ∃ a k, Shortest 53 2 a k ∧ (sgn false * r.val = (53 : ℚ) / 10 ^ 2 ∨ 1 ≤ a ∧ sgn false * r.val = (53 : ℚ) / 10 ^ 2 - 1 / 10 ^ k) :=
  C80_decimal_close x87_ok (M := 9223372036854775807) (d10 := 18) (by decide) (by decide +kernel) noSpecial
    (ds1 := ['0']) (ds2 := ['5', '3']) (rest := []) false (by unfold AllDigits; decide) (by unfold AllDigits; decide) (by decide)
    (by rintro c t h; cases h) (by decide +kernel) (by decide +kernel) (by decide) (by decide +kernel)

/-- **C80** (finding) on x86-64 decimals are not read exactly: `0.53` is read as `13/25`, `0.001` as `0`. -/
theorem C80_decimal_inexact :
    Rational.ofStr 9223372036854775807 (decFloat x87 9223372036854775807 18 noSpecial) "0.53".toList = .ok ⟨13, 25⟩ ∧
    Rational.ofStr 9223372036854775807 (decFloat x87 9223372036854775807 18 noSpecial) "0.001".toList = .ok ⟨0, 1⟩ ∧
    Rational.ofStr 9223372036854775807 (decFloat x87 9223372036854775807 18 noSpecial) "-1.05".toList = .ok ⟨-26, 25⟩ ∧
    Rational.ofStr 9223372036854775807 (decFloat x87 9223372036854775807 18 noSpecial) "0.1".toList = .ok ⟨1, 10⟩ := by
  decide +kernel

/-- a text whose numeral has no digit is refused (`.`, `-.x`). -/
theorem C80_no_digits {F : FloatFmt} {M : Int} {d10 : Nat} (special : List Char → Res Rational) {rest : List Char} (neg : Bool)
    (hr : Ends rest) :
    Rational.ofStr M (decFloat F M d10 special) (decimalText neg [] [] ++ rest) = .throw "Invaild string." := by
  have h0 : AllDigits [] := fun _ h => by cases h
  have e0 : decimalText neg [] [] ++ rest = (if neg then ['-'] else []) ++ [] ++ '.' :: rest := by unfold decimalText; simp
  have hdig : rest.takeWhile isDig = [] := by
    cases rest with
    | nil => rfl
    | cons c t =>
      have := (hr c t rfl).1
      rw [← isDig_iff] at this
      simp [this]
  have hv : decVal (decimalText neg [] [] ++ rest) = none := by
    unfold decVal
    rw [e0, signOf_digits h0]
    simp [fracDigits, hdig, isDig]
  have hd : decFloat F M d10 special (decimalText neg [] [] ++ rest) = .exn "invalid_argument" := by
    unfold decFloat
    rw [e0, not_special h0, ← e0]
    unfold stold
    rw [hv]; rfl
  unfold Rational.ofStr
  rw [if_pos (by unfold decimalText; simp), hd]
  rfl

example : Rational.ofStr 9223372036854775807 (decFloat x87 9223372036854775807 18 noSpecial) "-.x".toList = .throw "Invaild string." :=
  C80_no_digits noSpecial (rest := ['x']) true (by rintro c t h; injection h with h _; subst h; decide)

/-- **C81** every floating-point value with `10|x| ≤ max` becomes a fraction in lowest terms, without overflow, within two
units of a decimal place `d ≤ digits10` of `x`; and `d = digits10`, unless `x` is a decimal of `d` places to within `2^(5-p)`. -/
theorem C81_float_close {F : FloatFmt} (hF : F.Ok) (hp : 6 ≤ F.p) {M : Int} (hM1 : 2 ^ (F.p - 2) ≤ M) (hM2 : 2 * M ≤ 2 ^ F.p) {d10 : Nat}
    (hd : 1 ≤ d10) (hd10 : d10 < F.maxDigits10) (hM : (10 : Int) ^ d10 ≤ M) {x : ℚ} (hx : FloatRep F.p x) (hxM : 10 * |x| ≤ M) :
    ∃ r d, Rational.ofFloat F M d10 x = .ok r ∧ r.Lowest ∧ 0 < r.den ∧ d ≤ d10 ∧ r.den ∣ 10 ^ d ∧ |r.val - x| < 2 / 10 ^ d ∧
      (d = d10 ∨ ∃ z : Int, |x * 10 ^ d - z| ≤ 32 * |x * 10 ^ d| / 2 ^ F.p) := by
  obtain ⟨neg, v, hv0, rfl⟩ := exists_sgn x
  have hvabs : |sgn neg * v| = v := by rw [abs_mul, abs_sgn, one_mul, abs_of_nonneg hv0]
  have hv : FloatRep F.p v := by
    have := hx.sgn neg
    rwa [← mul_assoc, sgn_mul_self, one_mul] at this
  rw [hvabs] at hxM
  obtain ⟨a1, a2, a3⟩ := numer_close hF.nearest hF.powers hp (nearest_sgn hF.nearest neg) hM1 hM2 hd hv hv0 hxM
  obtain ⟨_, _, hst⟩ := places_spec hF.nearest hF.powers hv0
  have hnum := numer_sgn F.rnd neg d10 (F.decimalPlaces v) v
  set nd := F.decimalPlaces v with hnd
  set D := if nd > d10 then d10 else nd with hD
  have hDle : D ≤ d10 := by rw [hD]; split <;> omega
  set n := floatNumer F.rnd d10 nd (sgn neg * v) with hn
  set b := floatNumer (fun q => sgn neg * F.rnd (sgn neg * q)) d10 nd v with hb
  have hnabs : |n| = b := by
    have : |(n : ℚ)| = (b : ℚ) := by
      rw [hnum, abs_mul, abs_sgn, one_mul, abs_of_nonneg (by exact_mod_cast a1)]
    exact_mod_cast this
  have hnM : |n| ≤ M := by omega
  have hDM : (10 : Int) ^ D ≤ M := le_trans (by exact_mod_cast Nat.pow_le_pow_right (show 0 < 10 by norm_num) hDle) hM
  have hdM : |(10 : Int) ^ D| ≤ M := by rw [abs_of_pos (by positivity)]; exact hDM
  have hden : (10 : Int) ^ D ≠ 0 := by positivity
  have hnorm := Rational.normalize_eq M n (10 ^ D) hnM hdM hden
  have hof : Rational.ofFloat F M d10 (sgn neg * v) = Rational.normalize M ⟨n, 10 ^ D⟩ := by
    rw [ofFloat_eq, decimalPlaces_sgn, ← hnd, ← hn, chk_ok (inRange_of_abs hnM)]
    rfl
  obtain ⟨s1, s2, _, _, s5, s6, _⟩ := Rational.normalize_spec hnorm hden
  refine ⟨_, D, hof.trans hnorm, s2, s5 (by positivity), hDle, ?_, ?_, ?_⟩
  · have hpos := s5 (by positivity)
    split at hpos
    · next hc => rw [if_pos hc]; exact one_dvd _
    · next hc =>
      rw [if_neg hc]
      exact ⟨_, (tdiv_dvd (Int.gcd_dvd_right n (10 ^ D))).symm⟩
  · rw [s1]
    unfold Rational.val
    simp only
    rw [hnum]
    push_cast
    have e : sgn neg * (b : ℚ) / 10 ^ D - sgn neg * v = sgn neg * (((b : ℚ) - v * 10 ^ D) / 10 ^ D) := by
      field_simp
    rw [e, abs_mul, abs_sgn, one_mul, abs_div, abs_of_pos (by positivity : (0 : ℚ) < 10 ^ D)]
    gcongr
  · by_cases hc : nd > d10
    · left; rw [hD, if_pos hc]
    · right
      rw [hD, if_neg hc]
      rcases hst with h0 | h0
      · omega
      · obtain ⟨z, hz⟩ := stop_close hF.nearest hp hv hv0 h0
        have habs : |sgn neg * v * 10 ^ nd| = v * 10 ^ nd := by
          rw [mul_assoc, abs_mul, abs_sgn, one_mul, abs_of_nonneg (by positivity)]
        rw [habs]
        cases neg with
        | false => exact ⟨z, by simpa [sgn] using hz⟩
        | true =>
          refine ⟨-z, ?_⟩
          rw [← abs_neg]
          have : -(sgn true * v * 10 ^ nd - ((-z : Int) : ℚ)) = v * 10 ^ nd - z := by simp [sgn]; ring
          rw [this]; exact hz

/-- `long long` and the x86-64 `long double` satisfy the hypotheses: the double nearest to `0.1`. -/
example : ∃ r d, Rational.ofFloat x87 9223372036854775807 18 (rndEven 53 (1 / 10)) = .ok r ∧ r.Lowest ∧ 0 < r.den ∧ d ≤ 18 ∧
    r.den ∣ 10 ^ d ∧ |r.val - rndEven 53 (1 / 10)| < 2 / 10 ^ d ∧
    (d = 18 ∨ ∃ z : Int, |rndEven 53 (1 / 10) * 10 ^ d - z| ≤ 32 * |rndEven 53 (1 / 10) * 10 ^ d| / 2 ^ 64) :=
  C81_float_close x87_ok (by decide) (by decide +kernel) (by decide +kernel) (by decide) (by decide) (by decide +kernel)
    ⟨7205759403792794, -56, by decide +kernel, by
      rw [show rndEven 53 (1 / 10) = 7205759403792794 / 72057594037927936 by decide +kernel]; norm_num⟩
    (by rw [show rndEven 53 (1 / 10) = 7205759403792794 / 72057594037927936 by decide +kernel]; norm_num [abs_of_pos])

/-- **C81** an integer value is converted exactly. -/
theorem C81_float_integer {F : FloatFmt} (hF : F.Ok) {M : Int} {d10 : Nat} {n : Int} (hn : FloatRep F.p (n : ℚ)) (hnM : |n| ≤ M) (hM : 1 ≤ M) :
    Rational.ofFloat F M d10 (n : ℚ) = .ok ⟨n, 1⟩ := by
  have h := hF.nearest
  have hpl : F.decimalPlaces (n : ℚ) = 0 := by
    unfold FloatFmt.decimalPlaces
    have habs : |(n : ℚ)| = ((|n| : Int) : ℚ) := by push_cast; rfl
    have hf : F.fracPart |(n : ℚ)| = 0 := by
      unfold FloatFmt.fracPart
      have : (|(n : ℚ)|).floor = |n| := by rw [habs]; exact Int.floor_intCast (R := ℚ) _
      rw [this, habs, sub_self, h.zero]
    rw [hf, mul_zero, h.zero]
    cases F.maxDigits10 with
    | zero => rfl
    | succ n => rw [FloatFmt.placesLoop, if_neg (by simp)]
  have hnum : floatNumer F.rnd d10 0 (n : ℚ) = n := by
    unfold floatNumer
    rw [if_neg (by omega), if_neg (by omega), pow_zero, mul_one, h.eq_of_rep hn]
    unfold FloatFmt.trunc
    split
    · exact Int.floor_intCast (R := ℚ) n
    · have : (-(n : ℚ)).floor = -n := by
        rw [← Int.cast_neg]; exact Int.floor_intCast (R := ℚ) (-n)
      rw [this, neg_neg]
  rw [ofFloat_eq, hpl, hnum, chk_ok (inRange_of_abs hnM), if_neg (by omega)]
  show Rational.normalize M ⟨n, 10 ^ 0⟩ = _
  rw [pow_zero, Rational.normalize_eq M n 1 hnM (by simpa using hM) (by norm_num)]
  simp

example : Rational.ofFloat x87 9223372036854775807 18 ((-1000000007 : Int) : ℚ) = .ok ⟨-1000000007, 1⟩ :=
  C81_float_integer x87_ok (FloatRep.intCast (by decide +kernel)) (by decide) (by decide)

/-- **C81** (findings) the limits are real: a double is converted with all its 18 decimals, so `Rational(0.1)` is not `1/10`; and where
`10|x|` exceeds the type, or the type is `int`, the conversion overflows (`10^18 + 1/2` for `long long`, the double `3.1` for `int`). -/
theorem C81_float_limits :
    Rational.ofFloat x87 9223372036854775807 18 (rndEven 53 (1 / 10)) = .ok ⟨50000000000000003, 500000000000000000⟩ ∧
    Rational.ofFloat x87 9223372036854775807 18 (2000000000000000001 / 2) = .ub "signed overflow" ∧
    Rational.ofFloat x87 2147483647 9 (rndEven 53 (31 / 10)) = .ub "signed overflow" := by
  decide +kernel

end Symxx.Num
