import Verif.Dtoa.Read
/-!
# C57–C61, C73: dtoa

`FiniteBits`, `value`, `RoundsTo`, `readDecimal`, `digitsVal` are in `Verif/Dtoa/Spec.lean` and know nothing of the code.
-/
namespace Symxx.Dtoa

/-! ### bit patterns -/

theorem magnitude_eq_zero {u : Nat} : magnitude u = 0 ↔ u % 2 ^ 63 = 0 := by
  have h2 : ∀ e : Int, (2:ℚ) ^ e ≠ 0 := fun e => zpow_ne_zero _ (by norm_num)
  unfold magnitude
  by_cases h : expField u = 0
  · rw [if_pos h, mul_eq_zero, Nat.cast_eq_zero]
    simp only [h2, or_false]
    unfold sigField; unfold expField at h; omega
  · rw [if_neg h, mul_eq_zero, Nat.cast_eq_zero]
    simp only [h2, or_false]
    unfold sigField; unfold expField at h; omega

theorem value_eq_zero {u : Nat} : value u = 0 ↔ u % 2 ^ 63 = 0 := by
  rw [← magnitude_eq_zero, ← value_abs, abs_eq_zero]

theorem isZero_iff {u : Nat} : isZero u = true ↔ value u = 0 := by
  rw [value_eq_zero]; simp [isZero]

theorem sign_iff {u : Nat} (h : u < 2 ^ 64) : (u &&& SIGNMASK != 0) = true ↔ signField u ≠ 0 := by
  rw [show SIGNMASK = 2 ^ 63 by decide, bne_iff_ne, ne_eq, and_pow_eq_zero h]
  unfold signField; omega

theorem not_nan {u : Nat} (h : FiniteBits u) : isNaN u = false := by
  have := h.2
  unfold isNaN expField at *
  simp only [decide_eq_false_iff_not]
  unfold EXPMASK; omega

/-- everything about the digits of one double. -/
theorem grisu_all {u : Nat} (h0 : value u ≠ 0) : ∃ f e b K, Canon f e ∧ magnitude u = f * 2 ^ e ∧
    (FiniteBits u → e ≤ 971) ∧ grisu2 (absBits u) = .ok (b, K) ∧ Grisu f e b K := by
  have hm : magnitude u ≠ 0 := by rw [← value_abs]; exact abs_ne_zero.2 h0
  obtain ⟨hc, hv, he⟩ := ofBits_canon hm
  obtain ⟨b, K, hg, hG⟩ := grisu2_spec (u := absBits u) (ofBits_abs u) hc
  exact ⟨_, _, b, K, hc, hv, he, hg, hG⟩

/-! ### C57, C58, C73: the digits -/

/-- **C57**: for every positive finite double the digits and the exponent generated denote a number that rounds to the
double. -/
theorem C57_digits {u : Nat} (h : FiniteBits u) (hpos : 0 < value u) :
    ∃ b K, grisu2 u = .ok (b, K) ∧ RoundsTo (digitsVal b * 10 ^ K) u := by
  have hs : signField u = 0 := by
    by_contra hs
    unfold value at hpos
    rw [if_neg hs] at hpos
    have := magnitude_nonneg u
    linarith
  obtain ⟨f, e, b, K, hc, hv, he, hg, hG⟩ := grisu_all hpos.ne'
  have hu : absBits u = u := by
    unfold signField at hs; unfold absBits; omega
  rw [hu] at hg
  refine ⟨b, K, hg, ?_⟩
  have := roundsTo_of_interval h hc hv (he h) hG.low hG.high
  rwa [if_pos hs] at this

/-- **C58**: the digit string is not empty, has only decimal digits, no leading zero and at most 17 digits; no step is
undefined and no loop runs away. -/
theorem C58_shape {u : Nat} (_h : FiniteBits u) (hpos : 0 < value u) :
    ∃ b K, grisu2 u = .ok (b, K) ∧ b ≠ [] ∧ b.length ≤ 17 ∧ (∀ c ∈ b, c ∈ "0123456789".toList) ∧ b.head? ≠ some '0' := by
  have hs : signField u = 0 := by
    by_contra hs
    unfold value at hpos
    rw [if_neg hs] at hpos
    have := magnitude_nonneg u
    linarith
  obtain ⟨f, e, b, K, hc, hv, he, hg, hG⟩ := grisu_all hpos.ne'
  have hu : absBits u = u := by
    unfold signField at hs; unfold absBits; omega
  rw [hu] at hg
  refine ⟨b, K, hg, hG.ne, hG.len, ?_, hG.head⟩
  intro c hcb
  have := List.all_eq_true.1 hG.dig c hcb
  unfold isDig at this
  simp only [Bool.and_eq_true, decide_eq_true_eq] at this
  have e := Char.ofNat_toNat c
  obtain ⟨h1, h2⟩ := this
  generalize c.toNat = n at *
  subst e
  interval_cases n <;> decide

/-- **C73**: the digits are not needlessly long. If any decimal `n * 10^k` is within a relative distance of `2^-55` of the
double, the weight `10^K` of the last printed digit is at least `10^k`. -/
theorem C73_short {u : Nat} (hpos : 0 < value u) (n : Nat) (k : Int)
    (hnear : |(n:ℚ) * 10 ^ k - value u| ≤ value u / 2 ^ 55) :
    ∃ b K, grisu2 u = .ok (b, K) ∧ k ≤ K := by
  have hs : signField u = 0 := by
    by_contra hs
    unfold value at hpos
    rw [if_neg hs] at hpos
    have := magnitude_nonneg u
    linarith
  obtain ⟨f, e, b, K, hc, hv, he, hg, hG⟩ := grisu_all hpos.ne'
  have hu : absBits u = u := by
    rw [absBits]
    unfold signField at hs; omega
  rw [hu] at hg
  refine ⟨b, K, hg, hG.short n k ?_ ?_⟩
  all_goals
    have hval : value u = f * 2 ^ e := by unfold value; rw [if_pos hs, hv]
    rw [hval, abs_le] at hnear
    have hp : (0:ℚ) < 2 ^ e := by positivity
    have h1 := two_lowQ f e
    have h2 := two_highQ f e
    have hf : (f:ℚ) < 2 ^ 53 := by exact_mod_cast hc.lt
    have hq : (f:ℚ) * 2 ^ e / 2 ^ 55 ≤ 2 ^ e / 4 := by
      rw [div_le_div_iff₀ (by norm_num) (by norm_num)]; nlinarith
  · split at h1
    · rename_i h52
      have h52' : (f:ℚ) = 2 ^ 52 := by rw [h52]; norm_num
      have hq' : (f:ℚ) * 2 ^ e / 2 ^ 55 = 2 ^ e / 8 := by rw [h52']; field_simp; norm_num
      linarith [hnear.1]
    · linarith [hnear.1]
  · linarith [hnear.2]

/-- C73 for doubles that are decimals themselves, such as 0.5 = 5 * 10^-1. -/
theorem C73_exact {u : Nat} (hpos : 0 < value u) (n : Nat) (k : Int) (h : value u = n * 10 ^ k) :
    ∃ b K, grisu2 u = .ok (b, K) ∧ k ≤ K :=
  C73_short hpos n k (by rw [h, sub_self, abs_zero, ← h]; positivity)

/-! ### C59: formatting -/

/-- **C59** (partial): the text denotes exactly `digits * 10^k`, unless it is an integer of at least two digits (without
its trailing zeros) and at most 21 digits. -/
theorem C59_format_partial {b : List Char} {k : Int} (hb : b ≠ []) (hd : ∀ c ∈ b, isDig c = true)
    (hk : -999 < b.length + k ∧ b.length + k ≤ 1000) (hok : ¬ (2 ≤ b.length ∧ 0 ≤ k ∧ b.length + k ≤ 21)) :
    ∃ s, prettify b k = .ok s ∧ readDecimal s = some ((digitsVal b : ℚ) * 10 ^ k) := by
  obtain ⟨s, hs, hr, hh⟩ := prettify_spec hb (List.all_eq_true.2 hd) (k := k) (by omega)
  have hl : 0 < b.length := List.length_pos_iff.2 hb
  have : excess b.length (b.length + k) = 0 := by unfold excess; split <;> omega
  rw [this, pow_zero, mul_one] at hr
  refine ⟨s, hs, ?_⟩
  rw [← hr]
  unfold readDecimal
  split
  · simp at hh
  · rfl

/-- **C59** fails in every other case: the text denotes `10^(number of digits - 1)` times too much. -/
theorem C59_fails {b : List Char} {k : Int} (hb : 2 ≤ b.length) (hd : ∀ c ∈ b, isDig c = true) (hk : 0 ≤ k)
    (h21 : b.length + k ≤ 21) :
    ∃ s, prettify b k = .ok s ∧ readDecimal s = some ((digitsVal b : ℚ) * 10 ^ k * 10 ^ (b.length - 1)) := by
  obtain ⟨s, hs, hr, hh⟩ := prettify_spec (by rintro rfl; simp at hb) (List.all_eq_true.2 hd) (k := k) (by omega)
  have : excess b.length (b.length + k) = b.length - 1 := by unfold excess; split <;> omega
  rw [this] at hr
  refine ⟨s, hs, ?_⟩
  rw [← hr]
  unfold readDecimal
  split
  · simp at hh
  · rfl

/-- non-vacuity: digits 12345, exponent -4. -/
example : prettify "12345".toList (-4) = .ok "1.2345".toList := by decide +kernel
/-- the defect: digits 12, exponent 0. -/
example : prettify "12".toList 0 = .ok "120.0".toList := by decide +kernel

/-! ### C60: sign and zero -/

theorem C60_zero : dtoa 0 = .ok "0.0".toList ∧ dtoa (2 ^ 63) = .ok "-0.0".toList := by decide +kernel

/-- **C60**: the text of `-v` is `-` followed by the text of `v`, for every `v > 0` including infinity. -/
theorem C60_sign {u : Nat} (hu : u < 2 ^ 63) (h0 : u ≠ 0) (hinf : u ≤ 0x7FF0000000000000) :
    dtoa (u + 2 ^ 63) = (fun s => '-' :: s) <$> dtoa u := by
  have z1 : isZero u = false := by unfold isZero; simp; omega
  have z2 : isZero (u + 2 ^ 63) = false := by unfold isZero; simp; omega
  have n1 : isNeg u = false := by
    unfold isNeg
    have : (u &&& SIGNMASK != 0) = false := by
      rw [Bool.eq_false_iff]; intro h
      rw [sign_iff (by omega)] at h
      apply h; unfold signField; omega
    rw [this]; simp
  have n2 : isNeg (u + 2 ^ 63) = true := by
    unfold isNeg
    have h1 : ((u + 2 ^ 63) &&& SIGNMASK != 0) = true := by
      rw [sign_iff (by omega)]; unfold signField; omega
    have h2 : isNaN (u + 2 ^ 63) = false := by unfold isNaN EXPMASK; simp; omega
    rw [h1, h2, z2]; rfl
  have a : absBits (u + 2 ^ 63) = absBits u := by unfold absBits; omega
  unfold dtoa
  simp only [z1, z2, n1, n2, a, Bool.false_and, Bool.false_eq_true, if_false, if_true]
  cases fillDouble (absBits u) <;> rfl

/-- non-vacuity of `C60_sign`: 1.5. -/
example : dtoa 0x3FF8000000000000 = .ok "1.5".toList ∧ dtoa (0x3FF8000000000000 + 2 ^ 63) = .ok "-1.5".toList := by
  decide +kernel

/-! ### C61: reading back -/

theorem dtoa_eq {u : Nat} (h : u < 2 ^ 64) (h0 : value u ≠ 0) :
    ∃ f e b K s, Canon f e ∧ magnitude u = f * 2 ^ e ∧ (FiniteBits u → e ≤ 971) ∧ Grisu f e b K ∧
      dtoa u = .ok (if isNaN u = false ∧ signField u ≠ 0 then '-' :: s else s) ∧
      readDecimal s = some ((digitsVal b : ℚ) * 10 ^ K * 10 ^ excess b.length (b.length + K)) ∧
      readUnsigned s = some ((digitsVal b : ℚ) * 10 ^ K * 10 ^ excess b.length (b.length + K)) := by
  obtain ⟨f, e, b, K, hc, hv, he, hg, hG⟩ := grisu_all h0
  obtain ⟨s, hs, hr, hh⟩ := prettify_spec hG.ne hG.dig (hG.exp_small hc)
  refine ⟨f, e, b, K, s, hc, hv, he, hG, ?_, ?_, hr⟩
  · have hz : isZero u = false := by
      rw [Bool.eq_false_iff]; intro hz; exact h0 (isZero_iff.1 hz)
    have hf : fillDouble (absBits u) = .ok s := by
      unfold fillDouble; rw [hg]; exact hs
    unfold dtoa
    simp only [hz, Bool.false_and, Bool.false_eq_true, if_false, hf, Res.bind_ok]
    unfold isNeg
    rw [hz]
    have := sign_iff h
    by_cases h1 : isNaN u <;> by_cases h2 : signField u = 0
    · simp [h1]
    · simp [h1]
    · have h3 : (u &&& SIGNMASK != 0) = false := by
        rw [Bool.eq_false_iff]; intro h; exact (this.1 h) h2
      simp [h3, h2]
    · have h3 := this.2 h2
      simp only [h3, h1, h2, ne_eq, not_false_eq_true, and_self, if_true, Bool.not_false, Bool.and_true]
      simp
  · rw [← hr]
    unfold readDecimal
    split
    · simp at hh
    · rfl

theorem value_double {u : Nat} (h : FiniteBits u) (h1 : expField u ≠ 0) (h2 : expField u < 2046) :
    FiniteBits (u + 2 ^ 52) ∧ value (u + 2 ^ 52) = 2 * value u := by
  have hu := h.1
  have e1 : expField (u + 2 ^ 52) = expField u + 1 := by unfold expField at *; omega
  have e2 : sigField (u + 2 ^ 52) = sigField u := by unfold sigField; omega
  have e3 : signField (u + 2 ^ 52) = signField u := by unfold signField expField at *; omega
  have e4 : u + 2 ^ 52 < 2 ^ 64 := by unfold expField at *; omega
  have hm : magnitude (u + 2 ^ 52) = 2 * magnitude u := by
    unfold magnitude
    rw [e1, e2, if_neg (by omega), if_neg h1]
    rw [show ((expField u + 1 : ℕ) : Int) - 1075 = (expField u : Int) - 1075 + 1 by push_cast; ring, zpow_add_one₀ (by norm_num)]
    ring
  refine ⟨⟨e4, by omega⟩, ?_⟩
  unfold value
  rw [e3, hm]
  split <;> ring

/-- **C61**, exact: reading the text of a finite double as a decimal and rounding gives the double back if and only if its
magnitude is not an integer below `10^21` other than a single digit followed by zeros (`BadInt`). -/
theorem C61_roundtrip_iff {u : Nat} (h : FiniteBits u) :
    ∃ s q, dtoa u = .ok s ∧ readDecimal s = some q ∧
      (RoundsTo q u ↔ ¬ ((|value u| < 10 ^ 21 ∧ ∃ n : ℕ, |value u| = n) ∧ ¬ ∃ d k : ℕ, d ≤ 9 ∧ |value u| = d * 10 ^ k)) := by
  have hnan := not_nan h
  by_cases h0 : value u = 0
  · have hz : u % 2 ^ 63 = 0 := value_eq_zero.1 h0
    have hu := h.1
    have : u = 0 ∨ u = 2 ^ 63 := by omega
    have hR : RoundsTo 0 u := by
      refine ⟨h, ?_, ?_, ?_⟩
      · intro u' _ hne
        rw [h0, sub_self, abs_zero, zero_sub, abs_neg]
        rw [h0] at hne
        exact abs_pos.2 hne
      · rw [h0, sub_self, abs_zero, zero_sub, abs_neg, abs_of_pos (by positivity)]; positivity
      · rw [h0, sub_self, abs_zero, zero_add, abs_of_pos (by positivity)]; positivity
    have hiff : (RoundsTo 0 u ↔ ¬ ((|value u| < 10 ^ 21 ∧ ∃ n : ℕ, |value u| = n) ∧ ¬ ∃ d k : ℕ, d ≤ 9 ∧ |value u| = d * 10 ^ k)) :=
      ⟨fun _ hb => hb.2 ⟨0, 0, by norm_num, by rw [h0]; simp⟩, fun _ => hR⟩
    rcases this with rfl | rfl
    · exact ⟨_, 0, C60_zero.1, by decide +kernel, hiff⟩
    · exact ⟨_, 0, C60_zero.2, by decide +kernel, hiff⟩
  · obtain ⟨f, e, b, K, s, hc, hv, he, hG, hd, hr, hr'⟩ := dtoa_eq h.1 h0
    have he := he h
    set Q : ℚ := digitsVal b * 10 ^ K * 10 ^ excess b.length (b.length + K) with hQ
    refine ⟨_, if signField u = 0 then Q else -Q, hd, ?_, ?_⟩
    · by_cases hs : signField u = 0
      · simp [hs, hr]
      · simp only [hnan, hs, ne_eq, not_false_eq_true, and_self, if_true, if_false]
        show (readUnsigned s).map _ = _
        rw [hr']; rfl
    · have hdef := defect_iff hc hG
      have hmag : |value u| = f * 2 ^ e := by rw [value_abs, hv]
      have hbad : ((|value u| < 10 ^ 21 ∧ ∃ n : ℕ, |value u| = n) ∧ ¬ ∃ d k : ℕ, d ≤ 9 ∧ |value u| = d * 10 ^ k) ↔ BadInt (f * 2 ^ e) := by
        rw [hmag]; unfold BadInt; rw [and_assoc]
      rw [hbad, ← hdef]
      have hlen : 0 < b.length := List.length_pos_iff.2 hG.ne
      constructor
      · rintro hR ⟨d1, d2, d3⟩
        have hB := hdef.1 ⟨d1, d2, d3⟩
        have hex : excess b.length (b.length + K) = b.length - 1 := by unfold excess; split <;> omega
        have hvpos := hc.vpos
        -- the double is at least 1, hence normal, and not among the largest
        have hv1 : (1:ℚ) ≤ f * 2 ^ e := by
          obtain ⟨n, hn⟩ := hB.2.1
          rw [hn] at hvpos ⊢
          exact_mod_cast hvpos
        have hE1 : expField u ≠ 0 := by
          intro hE
          have : magnitude u < 1 := by
            unfold magnitude; rw [if_pos hE]
            have hsg : (sigField u : ℚ) < 2 ^ 52 := by exact_mod_cast Nat.mod_lt _ (by norm_num)
            have h2 : (2:ℚ) ^ (-1074 : Int) ≤ 2 ^ (-52 : Int) := zpow_le_zpow_right₀ (by norm_num) (by norm_num)
            have h3 : (sigField u : ℚ) * 2 ^ (-1074 : Int) < 2 ^ 52 * 2 ^ (-52 : Int) := mul_lt_mul hsg h2 (by positivity) (by norm_num)
            have h4 : (2:ℚ) ^ 52 * 2 ^ (-52 : Int) = 1 := by norm_num
            rwa [h4] at h3
          rw [hv] at this; linarith
        have hE2 : expField u < 2046 := by
          by_contra hE
          have h22 : (10:ℚ) ^ 21 < magnitude u := by
            unfold magnitude; rw [if_neg hE1]
            have h2 : (2:ℚ) ^ (100 : Int) ≤ 2 ^ ((expField u : Int) - 1075) := zpow_le_zpow_right₀ (by norm_num) (by omega)
            have h3 : (1:ℚ) ≤ ((2 ^ 52 + sigField u : ℕ) : ℚ) := by
              have : (1:ℕ) ≤ 2 ^ 52 + sigField u := by omega
              exact_mod_cast this
            have h4 : (10:ℚ) ^ 21 < 2 ^ (100 : Int) := by norm_num
            calc (10:ℚ) ^ 21 < 2 ^ (100 : Int) := h4
              _ ≤ 1 * 2 ^ ((expField u : Int) - 1075) := by rw [one_mul]; exact h2
              _ ≤ _ := mul_le_mul_of_nonneg_right h3 (by positivity)
          rw [hv] at h22
          exact absurd hB.1 (not_lt.2 h22.le)
        obtain ⟨hf2, hv2⟩ := value_double h hE1 hE2
        have hne : value (u + 2 ^ 52) ≠ value u := by
          rw [hv2]; intro hc'; apply h0; linarith
        have hlt := hR.2.1 _ hf2 hne
        rw [hv2] at hlt
        -- but the text denotes at least five times the double
        have hbig : 5 * ((f:ℚ) * 2 ^ e) ≤ Q := by
          have i3 := (interval_v hc).2.2
          have hlow := hG.low
          have h10 : (10:ℚ) ≤ 10 ^ excess b.length (b.length + K) := by
            rw [hex]
            calc (10:ℚ) = 10 ^ 1 := by norm_num
              _ ≤ 10 ^ (b.length - 1) := pow_le_pow_right₀ (by norm_num) (by omega)
          have hf1 : (1:ℚ) ≤ f := by exact_mod_cast hc.pos
          have hp : (0:ℚ) < 2 ^ e := by positivity
          have hq2 : (f:ℚ) * 2 ^ e / 2 ≤ digitsVal b * 10 ^ K := by nlinarith
          rw [hQ]
          calc 5 * ((f:ℚ) * 2 ^ e) = (f * 2 ^ e / 2) * 10 := by ring
            _ ≤ (digitsVal b * 10 ^ K) * 10 ^ excess b.length (b.length + K) :=
              mul_le_mul hq2 h10 (by norm_num) (by positivity)
        by_cases hs : signField u = 0
        · have hval : value u = f * 2 ^ e := by unfold value; rw [if_pos hs, hv]
          rw [if_pos hs, hval, abs_of_nonneg (by linarith), abs_of_nonneg (by linarith)] at hlt
          linarith
        · have hval : value u = -(f * 2 ^ e) := by unfold value; rw [if_neg hs, hv]
          rw [if_neg hs, hval, abs_of_nonpos (by linarith), abs_of_nonpos (by linarith)] at hlt
          linarith
      · intro hnd
        have hex : excess b.length (b.length + K) = 0 := by unfold excess; split <;> omega
        rw [hex, pow_zero, mul_one] at hQ
        rw [hQ]
        exact roundsTo_of_interval h hc hv he hG.low hG.high

/-- **C61** (partial): the round trip holds for every finite double that is not an integer. -/
theorem C61_fraction_partial {u : Nat} (h : FiniteBits u) (hint : ∀ n : ℤ, value u ≠ n) :
    ∃ s q, dtoa u = .ok s ∧ readDecimal s = some q ∧ RoundsTo q u := by
  obtain ⟨s, q, h1, h2, h3⟩ := C61_roundtrip_iff h
  refine ⟨s, q, h1, h2, h3.2 ?_⟩
  rintro ⟨⟨_, n, hn⟩, _⟩
  rcases abs_eq (by positivity : (0:ℚ) ≤ n) |>.1 hn with h | h
  · exact hint n (by exact_mod_cast h)
  · exact hint (-n) (by rw [h]; push_cast; rfl)

/-- **C61** (partial): and for every finite double of magnitude at least `10^21`. -/
theorem C61_large_partial {u : Nat} (h : FiniteBits u) (hbig : 10 ^ 21 ≤ |value u|) :
    ∃ s q, dtoa u = .ok s ∧ readDecimal s = some q ∧ RoundsTo q u := by
  obtain ⟨s, q, h1, h2, h3⟩ := C61_roundtrip_iff h
  exact ⟨s, q, h1, h2, h3.2 fun hb => absurd hb.1.1 (not_lt.2 hbig)⟩

/-- **C61** fails for every other integer with at least two significant digits. -/
theorem C61_fails {u : Nat} (h : FiniteBits u) (n : ℕ) (hn : |value u| = n) (hlt : n < 10 ^ 21)
    (hdig : ∀ d k : ℕ, d ≤ 9 → n ≠ d * 10 ^ k) :
    ∃ s q, dtoa u = .ok s ∧ readDecimal s = some q ∧ ¬ RoundsTo q u := by
  obtain ⟨s, q, h1, h2, h3⟩ := C61_roundtrip_iff h
  refine ⟨s, q, h1, h2, fun hR => h3.1 hR ⟨⟨by rw [hn]; exact_mod_cast hlt, n, hn⟩, ?_⟩⟩
  rintro ⟨d, k, hd, he⟩
  rw [hn] at he
  exact hdig d k hd (by exact_mod_cast he)

/-- an infinity or a NaN prints as a decimal number. -/
theorem C61_nonfinite {u : Nat} (hu : u < 2 ^ 64) (h : ¬ FiniteBits u) :
    ∃ s q, dtoa u = .ok s ∧ readDecimal s = some q := by
  have hE : expField u = 2047 := by
    by_contra hE; exact h ⟨hu, hE⟩
  have h0 : value u ≠ 0 := by
    rw [ne_eq, value_eq_zero]; unfold expField at hE; omega
  obtain ⟨f, e, b, K, s, hc, hv, he, hG, hd, hr, hr'⟩ := dtoa_eq hu h0
  by_cases hb : isNaN u = false ∧ signField u ≠ 0
  · rw [if_pos hb] at hd
    refine ⟨_, -(digitsVal b * 10 ^ K * 10 ^ excess b.length (b.length + K)), hd, ?_⟩
    show (readUnsigned s).map _ = _
    rw [hr']; rfl
  · rw [if_neg hb] at hd
    exact ⟨_, _, hd, hr⟩

/-! ### the hypotheses are met -/

/-- 0.1 is a positive finite double that is not an integer. -/
example : FiniteBits 0x3FB999999999999A ∧ 0 < value 0x3FB999999999999A ∧ ∀ n : ℤ, value 0x3FB999999999999A ≠ n := by
  have hv : value 0x3FB999999999999A = 7205759403792794 / 2 ^ 56 := by
    have h1 : signField 0x3FB999999999999A = 0 := by decide
    have h2 : expField 0x3FB999999999999A = 1019 := by decide
    have h3 : sigField 0x3FB999999999999A = 2702159776422298 := by decide
    unfold value magnitude
    rw [if_pos h1, h2, h3]
    norm_num
  refine ⟨by decide, by rw [hv]; norm_num, ?_⟩
  intro n hn
  rw [hv] at hn
  have h1 : (0:ℚ) < n := by rw [← hn]; norm_num
  have h2 : (n:ℚ) < 1 := by rw [← hn]; norm_num
  have : 0 < n := by exact_mod_cast h1
  have : n < 1 := by exact_mod_cast h2
  omega

example : dtoa 0x3FB999999999999A = .ok "0.1".toList := by decide +kernel

/-- 12.0 meets the hypotheses of `C61_fails`; its text is `120.0`. -/
example : FiniteBits 0x4028000000000000 ∧ |value 0x4028000000000000| = (12 : ℕ) ∧ (∀ d k : ℕ, d ≤ 9 → 12 ≠ d * 10 ^ k) ∧
    dtoa 0x4028000000000000 = .ok "120.0".toList := by
  refine ⟨by decide, ?_, ?_, by decide +kernel⟩
  · have h1 : signField 0x4028000000000000 = 0 := by decide
    have h2 : expField 0x4028000000000000 = 1026 := by decide
    have h3 : sigField 0x4028000000000000 = 2251799813685248 := by decide
    unfold value magnitude
    rw [if_pos h1, h2, h3]
    norm_num
  · intro d k hd h
    rcases k with _ | _ | k
    · omega
    · omega
    · have : 100 ∣ 12 := ⟨d * 10 ^ k, by rw [h, pow_succ, pow_succ]; ring⟩
      omega

/-- 1e22 meets the hypothesis of `C61_large_partial`. -/
example : FiniteBits 0x4480F0CF064DD592 ∧ 10 ^ 21 ≤ |value 0x4480F0CF064DD592| := by
  refine ⟨by decide, ?_⟩
  have h1 : signField 0x4480F0CF064DD592 = 0 := by decide
  have h2 : expField 0x4480F0CF064DD592 = 1096 := by decide
  have h3 : sigField 0x4480F0CF064DD592 = 264771954660754 := by decide
  unfold value magnitude
  rw [if_pos h1, h2, h3]
  norm_num

/-- infinity and a NaN. -/
example : dtoa 0x7FF0000000000000 = .ok "1.797693134862316e308".toList ∧
    dtoa 0x7FF8000000000000 = .ok "2.696539702293474e308".toList := by decide +kernel

end Symxx.Dtoa
