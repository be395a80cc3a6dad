import Verif.Dtoa.Pretty
/-!
# Which doubles are read back
-/
namespace Symxx.Dtoa

/-- an integer below `10^21` that is not a digit followed by zeros. -/
def BadInt (v : ℚ) : Prop := v < 10 ^ 21 ∧ (∃ n : ℕ, v = n) ∧ ¬ ∃ d k : ℕ, d ≤ 9 ∧ v = d * 10 ^ k

theorem digitsVal_lt {b : List Char} (hd : b.all isDig = true) : digitsVal b < 10 ^ b.length := by
  induction b using List.reverseRecOn with
  | nil => simp [digitsVal]
  | append_singleton b c ih =>
    simp only [List.all_append, Bool.and_eq_true] at hd
    have h1 := ih hd.1
    have hc : isDig c = true := by simpa using hd.2
    unfold isDig at hc
    simp only [Bool.and_eq_true, decide_eq_true_eq] at hc
    rw [digitsVal_append, List.length_append, List.length_singleton, pow_succ]
    omega

theorem ofBits_abs (u : Nat) : DiyFp.ofBits (absBits u) = DiyFp.ofBits u := by
  have h1 : expField (absBits u) = expField u := by unfold expField absBits; omega
  have h2 : sigField (absBits u) = sigField u := by unfold sigField absBits; omega
  rw [ofBits_eq, ofBits_eq, h1, h2]

section
variable {f : Nat} {e : Int} {b : List Char} {K : Int}

theorem Canon.vpos (h : Canon f e) : (0:ℚ) < f * 2 ^ e := by
  have : (0:ℚ) < f := by exact_mod_cast h.pos
  positivity

theorem interval_v (h : Canon f e) : lowQ f e + 2 ^ e / 4 ≤ f * 2 ^ e ∧ (f:ℚ) * 2 ^ e + 2 ^ e / 2 = highQ f e ∧
    (f:ℚ) * 2 ^ e ≤ lowQ f e + 2 ^ e / 2 := by
  have hp : (0:ℚ) < 2 ^ e := by positivity
  have h1 := two_lowQ f e
  have h2 := two_highQ f e
  refine ⟨?_, by linarith, ?_⟩ <;>
  · split at h1 <;> linarith

/-- the exponent printed stays below 1000 in magnitude. -/
theorem Grisu.exp_small (h : Canon f e) (g : Grisu f e b K) : (b.length + K - 1).natAbs < 1000 := by
  have hp : (0:ℚ) < 2 ^ e := by positivity
  obtain ⟨i1, i2, i3⟩ := interval_v h
  have h10 : (10:ℚ) ≠ 0 := by norm_num
  have hlen : 0 < b.length := List.length_pos_iff.2 g.ne
  have hD1 : (10:ℚ) ^ (b.length - 1) ≤ digitsVal b := by exact_mod_cast ten_pow_le_of_head g.dig g.ne g.head
  have hD2 : (digitsVal b : ℚ) < 10 ^ b.length := by exact_mod_cast digitsVal_lt g.dig
  have hK : (0:ℚ) < 10 ^ K := by positivity
  have hf : (f:ℚ) < 2 ^ 53 := by exact_mod_cast h.lt
  have hf1 : (1:ℚ) ≤ f := by exact_mod_cast h.pos
  have e1 : (2:ℚ) ^ e ≤ 2 ^ (972 : Int) := zpow_le_zpow_right₀ (by norm_num) h.hi
  have e2 : (2:ℚ) ^ (-1074 : Int) ≤ 2 ^ e := zpow_le_zpow_right₀ (by norm_num) h.lo
  have up : (10:ℚ) ^ ((b.length : Int) + K - 1) < 10 ^ (342 : Int) := by
    calc (10:ℚ) ^ ((b.length : Int) + K - 1) = 10 ^ (b.length - 1) * 10 ^ K := by
          rw [← zpow_natCast, ← zpow_add₀ h10, show ((b.length - 1 : ℕ) : Int) + K = b.length + K - 1 by omega]
      _ ≤ digitsVal b * 10 ^ K := mul_le_mul_of_nonneg_right hD1 hK.le
      _ < highQ f e := g.high
      _ ≤ 2 ^ 54 * 2 ^ e := by clear e1 e2; rw [← i2]; nlinarith
      _ ≤ 8 ^ (342 : Int) := by
        have h8 : (8:ℚ) ^ (342 : Int) = 2 ^ (54 : Int) * 2 ^ (972 : Int) := by
          rw [show (8:ℚ) = 2 ^ (3 : Int) by norm_num, ← zpow_mul, ← zpow_add₀ (by norm_num)]; rfl
        rw [h8, show (2:ℚ) ^ (54 : Int) = 2 ^ 54 by norm_num]
        exact mul_le_mul_of_nonneg_left e1 (by norm_num)
      _ ≤ 10 ^ (342 : Int) := zpow_le_zpow_left₀ (by norm_num) (by norm_num) (by norm_num)
  have lo : (10:ℚ) ^ (-359 : Int) < 10 ^ ((b.length : Int) + K) := by
    calc (10:ℚ) ^ (-359 : Int) ≤ 8 ^ (-359 : Int) := by
          rw [zpow_neg, zpow_neg]
          exact inv_anti₀ (by positivity) (zpow_le_zpow_left₀ (by norm_num) (by norm_num) (by norm_num))
      _ = 2 ^ (-1074 : Int) / 8 := by
        rw [eq_div_iff (by norm_num), show (8:ℚ) = 2 ^ (3 : Int) by norm_num, ← zpow_mul, ← zpow_add₀ (by norm_num)]; rfl
      _ ≤ 2 ^ e / 8 := div_le_div_of_nonneg_right e2 (by norm_num)
      _ ≤ lowQ f e := by clear e1 e2 up; nlinarith
      _ < digitsVal b * 10 ^ K := g.low
      _ < 10 ^ b.length * 10 ^ K := mul_lt_mul_of_pos_right hD2 hK
      _ = 10 ^ ((b.length : Int) + K) := by rw [← zpow_natCast, ← zpow_add₀ h10]
  have u := (zpow_lt_zpow_iff_right₀ (by norm_num : (1:ℚ) < 10)).1 up
  have l := (zpow_lt_zpow_iff_right₀ (by norm_num : (1:ℚ) < 10)).1 lo
  omega

theorem Grisu.near (h : Canon f e) (g : Grisu f e b K) {x : ℚ} (hx : Cand x) (h0 : 0 ≤ x) (hne : x ≠ f * 2 ^ e) :
    |(digitsVal b : ℚ) * 10 ^ K - f * 2 ^ e| < |(digitsVal b : ℚ) * 10 ^ K - x| :=
  nearest h g.low g.high (by rwa [abs_of_nonneg h0]) hne

theorem Grisu.exact (h : Canon f e) (g : Grisu f e b K) (hx : Cand ((digitsVal b : ℚ) * 10 ^ K)) :
    (digitsVal b : ℚ) * 10 ^ K = f * 2 ^ e := by
  by_contra hne
  have := g.near h hx (by positivity) hne
  rw [sub_self, abs_zero] at this
  exact absurd this (not_lt.2 (abs_nonneg _))

theorem Grisu.above (h : Canon f e) (g : Grisu f e b K) {x : ℚ} (hx : Cand x) (h0 : 0 ≤ x) (hlt : x < f * 2 ^ e) :
    x < (digitsVal b : ℚ) * 10 ^ K := by
  by_contra hc
  push Not at hc
  have := g.near h hx h0 hlt.ne
  rw [abs_of_nonpos (by linarith), abs_of_nonpos (by linarith)] at this
  linarith

theorem Grisu.below (h : Canon f e) (g : Grisu f e b K) {x : ℚ} (hx : Cand x) (h0 : 0 ≤ x) (hlt : (f:ℚ) * 2 ^ e < x) :
    (digitsVal b : ℚ) * 10 ^ K < x := by
  by_contra hc
  push Not at hc
  have := g.near h hx h0 hlt.ne'
  rw [abs_of_nonneg (by linarith), abs_of_nonneg (by linarith)] at this
  linarith

theorem cand_dec {d k : Nat} (hd : d ≤ 10) (hk : k ≤ 20) : Cand ((d:ℚ) * 10 ^ k) := by
  have := cand_of (m := d * 5 ^ k) (j := k) (by
    calc d * 5 ^ k ≤ 10 * 5 ^ 20 := Nat.mul_le_mul hd (Nat.pow_le_pow_right (by norm_num) hk)
      _ < 2 ^ 53 := by norm_num) (by omega)
  rw [zpow_natCast] at this
  convert this using 1
  push_cast
  rw [mul_assoc, ← mul_pow]; norm_num

theorem cand_limit : Cand ((10:ℚ) ^ 21) := by
  have := cand_dec (d := 10) (k := 20) (by norm_num) (by norm_num)
  convert this using 1; norm_num

theorem Grisu.short_v (h : Canon f e) (g : Grisu f e b K) {n : Nat} {k : Int} (hv : (f:ℚ) * 2 ^ e = n * 10 ^ k) : k ≤ K := by
  obtain ⟨i1, i2, i3⟩ := interval_v h
  have hp : (0:ℚ) < 2 ^ e := by positivity
  exact g.short n k (by rw [← hv]; linarith) (by rw [← hv]; linarith)

theorem Grisu.qnat (_ : Grisu f e b K) (hK : 0 ≤ K) : (digitsVal b : ℚ) * 10 ^ K = ((digitsVal b * 10 ^ K.toNat : ℕ) : ℚ) := by
  push_cast
  rw [← zpow_natCast, Int.toNat_of_nonneg hK]

/-- a decimal digit and zeros, if it is the double, is what is printed. -/
theorem Grisu.digit (h : Canon f e) (g : Grisu f e b K) {d k : Nat} (hd : d ≤ 9) (hv : (f:ℚ) * 2 ^ e = d * 10 ^ k) :
    (digitsVal b : ℚ) * 10 ^ K = d * 10 ^ k := by
  by_contra hne
  obtain ⟨i1, i2, i3⟩ := interval_v h
  have hp : (0:ℚ) < 2 ^ e := by positivity
  have hkK : (k : Int) ≤ K := g.short_v h (n := d) (k := k) (by rw [hv, zpow_natCast])
  obtain ⟨m, hm⟩ : ∃ m : Nat, K = k + m := ⟨(K - k).toNat, by omega⟩
  have hq : (digitsVal b : ℚ) * 10 ^ K = ((digitsVal b * 10 ^ m : ℕ) : ℚ) * 10 ^ k := by
    rw [hm, zpow_add₀ (by norm_num)]; push_cast; simp only [zpow_natCast]; ring
  have h10 : (0:ℚ) < 10 ^ k := by positivity
  have hdiff : (10:ℚ) ^ k ≤ |(digitsVal b : ℚ) * 10 ^ K - f * 2 ^ e| := by
    rw [hq] at hne ⊢
    rw [hv, ← sub_mul, abs_mul, abs_of_pos h10]
    have hint : (1:ℚ) ≤ |((digitsVal b * 10 ^ m : ℕ) : ℚ) - d| := by
      have hne' : (((digitsVal b * 10 ^ m : ℕ) : Int) - (d : Int)) ≠ 0 := by
        intro h0
        apply hne
        have : digitsVal b * 10 ^ m = d := by omega
        rw [this]
      have := Int.one_le_abs hne'
      exact_mod_cast this
    nlinarith
  have hsmall : |(digitsVal b : ℚ) * 10 ^ K - f * 2 ^ e| ≤ 2 ^ e / 2 := by
    have g1 := g.low
    have g2 := g.high
    rw [abs_le]; constructor <;> linarith
  have hv0 := h.vpos
  have hd1 : (1:ℚ) ≤ d := by
    rcases Nat.eq_zero_or_pos d with h0 | h0
    · subst h0; simp at hv; rcases hv with hv | hv
      · have := h.pos; omega
      · exact absurd hv (by positivity)
    · exact_mod_cast h0
  have hd9 : (d:ℚ) ≤ 9 := by exact_mod_cast hd
  have hv1 : (1:ℚ) ≤ f * 2 ^ e := by
    rw [hv]
    have : (1:ℚ) ≤ 10 ^ k := one_le_pow₀ (by norm_num)
    nlinarith
  have hf : (2:ℚ) ^ 52 ≤ f := by
    rcases h.norm with hn | hn
    · exact_mod_cast hn
    · exfalso
      have hf : (f:ℚ) < 2 ^ 53 := by exact_mod_cast h.lt
      have : (2:ℚ) ^ e ≤ 2 ^ (-53 : Int) := zpow_le_zpow_right₀ (by norm_num) (by omega)
      have : (f:ℚ) * 2 ^ e < 2 ^ 53 * 2 ^ (-53 : Int) := mul_lt_mul hf this hp (by norm_num)
      norm_num at this
      linarith
  have : (f:ℚ) * 2 ^ e ≤ 9 * 10 ^ k := by rw [hv]; nlinarith
  nlinarith

theorem defect_iff (h : Canon f e) (g : Grisu f e b K) :
    (2 ≤ b.length ∧ 0 ≤ K ∧ (b.length : Int) + K ≤ 21) ↔ BadInt (f * 2 ^ e) := by
  have hlen : 0 < b.length := List.length_pos_iff.2 g.ne
  have hDn := ten_pow_le_of_head g.dig g.ne g.head
  have hD1 : (10:ℚ) ^ (b.length - 1) ≤ digitsVal b := by exact_mod_cast hDn
  have hD2 : (digitsVal b : ℚ) < 10 ^ b.length := by exact_mod_cast digitsVal_lt g.dig
  have hK : (0:ℚ) < 10 ^ K := by positivity
  have h10 : (10:ℚ) ≠ 0 := by norm_num
  constructor
  · rintro ⟨hnb, hK0, h21⟩
    have hq21 : (digitsVal b : ℚ) * 10 ^ K < 10 ^ 21 := by
      calc (digitsVal b : ℚ) * 10 ^ K < 10 ^ b.length * 10 ^ K := mul_lt_mul_of_pos_right hD2 hK
        _ = 10 ^ ((b.length : Int) + K) := by rw [← zpow_natCast, ← zpow_add₀ h10]
        _ ≤ 10 ^ (21 : Int) := zpow_le_zpow_right₀ (by norm_num) h21
        _ = 10 ^ 21 := by norm_num
    refine ⟨?_, ?_, ?_⟩
    · by_contra hc
      push Not at hc
      rcases eq_or_lt_of_le hc with heq | hlt
      · have := g.short_v h (n := 1) (k := 21) (by rw [← heq]; norm_num)
        omega
      · have := g.above h cand_limit (by norm_num) hlt
        linarith
    · rcases le_or_gt 0 e with he | he
      · refine ⟨f * 2 ^ e.toNat, ?_⟩
        push_cast
        rw [← zpow_natCast, Int.toNat_of_nonneg he]
      · refine ⟨digitsVal b * 10 ^ K.toNat, ?_⟩
        rw [← g.qnat hK0]
        refine (g.exact h ?_).symm
        rw [g.qnat hK0]
        have hh := g.high
        rw [g.qnat hK0] at hh
        have hlt : digitsVal b * 10 ^ K.toNat < 2 ^ 53 := by
          have : highQ f e < 2 ^ 53 := by
            have i2 := (interval_v h).2.1
            have hf : (f:ℚ) + 1 ≤ 2 ^ 53 := by exact_mod_cast h.lt
            have : (2:ℚ) ^ e ≤ 2 ^ (-1 : Int) := zpow_le_zpow_right₀ (by norm_num) (by omega)
            have hhalf : (2:ℚ) ^ (-1 : Int) = 1 / 2 := by norm_num
            rw [hhalf] at this
            have hp : (0:ℚ) < 2 ^ e := by positivity
            nlinarith
          exact_mod_cast lt_trans hh this
        have := cand_of (j := 0) hlt (by norm_num)
        rwa [zpow_zero, mul_one] at this
    · rintro ⟨d, k, hd, hv⟩
      have hq := g.digit h hd hv
      have hkK : (k : Int) ≤ K := g.short_v h (n := d) (k := k) (by rw [hv, zpow_natCast])
      obtain ⟨m, hm⟩ : ∃ m : Nat, K = k + m := ⟨(K - k).toNat, by omega⟩
      rw [hm, zpow_add₀ h10, zpow_natCast, zpow_natCast] at hq
      have h1 : (digitsVal b : ℚ) * 10 ^ m = d := by
        have : (0:ℚ) < 10 ^ k := by positivity
        apply mul_right_cancel₀ this.ne'
        rw [← hq]; ring
      have h2 : digitsVal b * 10 ^ m = d := by exact_mod_cast h1
      have h3 : 1 ≤ 10 ^ m := Nat.one_le_pow _ _ (by norm_num)
      have h4 : 10 ^ 1 ≤ 10 ^ (b.length - 1) := Nat.pow_le_pow_right (by norm_num) (by omega)
      nlinarith
  · rintro ⟨h21, ⟨n, hn⟩, hdig⟩
    have hK0 : 0 ≤ K := g.short_v h (n := n) (k := 0) (by rw [hn]; simp)
    have hq := g.below h cand_limit (by norm_num) h21
    have hsz : (b.length : Int) + K ≤ 21 := by
      have : (10:ℚ) ^ ((b.length : Int) - 1 + K) < 10 ^ (21 : Int) := by
        calc (10:ℚ) ^ ((b.length : Int) - 1 + K) = 10 ^ (b.length - 1) * 10 ^ K := by
              rw [← zpow_natCast, ← zpow_add₀ h10]; congr 1; omega
          _ ≤ digitsVal b * 10 ^ K := mul_le_mul_of_nonneg_right hD1 hK.le
          _ < 10 ^ 21 := hq
          _ = 10 ^ (21 : Int) := by norm_num
      have := (zpow_lt_zpow_iff_right₀ (by norm_num : (1:ℚ) < 10)).1 this
      omega
    refine ⟨?_, hK0, hsz⟩
    by_contra hc
    have hl1 : b.length = 1 := by omega
    have hd9 : digitsVal b ≤ 9 := by
      have := digitsVal_lt g.dig
      rw [hl1] at this; omega
    apply hdig
    refine ⟨digitsVal b, K.toNat, hd9, ?_⟩
    have hqn : (digitsVal b : ℚ) * 10 ^ K = digitsVal b * 10 ^ K.toNat := by
      rw [← zpow_natCast, Int.toNat_of_nonneg hK0]
    rw [← hqn]
    refine (g.exact h ?_).symm
    rw [hqn]
    exact cand_dec (by omega) (by omega)

end
end Symxx.Dtoa
