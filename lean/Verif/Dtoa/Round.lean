import Verif.Dtoa.Interval
/-!
# The rounding interval
-/
namespace Symxx.Dtoa

/-- the magnitudes a double can have (and `2^1024`). -/
def Cand (x : ℚ) : Prop := ∃ (f : Nat) (e : Int), x = f * 2 ^ e ∧ f < 2 ^ 53 ∧ -1074 ≤ e ∧ (2 ^ 52 ≤ f ∨ e = -1074)

theorem Cand.zero : Cand 0 := ⟨0, -1074, by simp, by norm_num, le_refl _, Or.inr rfl⟩

theorem Canon.cand {f e} (h : Canon f e) : Cand ((f:ℚ) * 2 ^ e) := ⟨f, e, rfl, h.lt, h.lo, h.norm⟩

theorem cand_of {m : Nat} {j : Int} (hm : m < 2 ^ 53) (hj : -1022 ≤ j) : Cand ((m:ℚ) * 2 ^ j) := by
  rcases Nat.eq_zero_or_pos m with h0 | h0
  · subst h0; simpa using Cand.zero
  · obtain ⟨s, hs, h1, h2⟩ := exists_shift h0 hm
    refine ⟨m * 2 ^ s, j - s, ?_, h2, by omega, Or.inl h1⟩
    push_cast
    rw [mul_assoc, ← zpow_natCast 2 s, ← zpow_add₀ (by norm_num)]
    congr 2; ring

theorem cand_overflow : Cand (2 ^ 1024) := by
  have := cand_of (m := 1) (j := 1024) (by norm_num) (by norm_num)
  have h : (2:ℚ) ^ (1024 : Int) = 2 ^ 1024 := zpow_natCast 2 1024
  rwa [Nat.cast_one, one_mul, h] at this

theorem zpow_split {e e' : Int} (h : e ≤ e') : (2:ℚ) ^ e' = ((2 ^ (e' - e).toNat : ℕ) : ℚ) * 2 ^ e := by
  push_cast
  rw [← zpow_natCast, ← zpow_add₀ (by norm_num)]
  congr 1; omega

theorem zpow_half (e : Int) : (2:ℚ) ^ (e - 1) * 2 = 2 ^ e := by
  rw [zpow_sub_one₀ (by norm_num)]; ring

theorem zpow_quarter (e : Int) : (2:ℚ) ^ (e - 2) * 4 = 2 ^ e := by
  rw [show e - 2 = e - 1 - 1 by ring, zpow_sub_one₀ (by norm_num), zpow_sub_one₀ (by norm_num)]; ring

theorem two_lowQ (f : Nat) (e : Int) :
    2 * lowQ f e = if f = 2 ^ 52 then (2 * f - 1 / 2 : ℚ) * 2 ^ e else (2 * f - 1 : ℚ) * 2 ^ e := by
  unfold lowQ
  split
  · rw [← zpow_quarter e]; ring
  · rw [← zpow_half e]; ring

theorem two_highQ (f : Nat) (e : Int) : 2 * highQ f e = (2 * f + 1 : ℚ) * 2 ^ e := by
  unfold highQ; rw [← zpow_half e]; ring

theorem gap_up {f e x} (h : Canon f e) (hx : Cand x) (hlt : (f:ℚ) * 2 ^ e < x) : 2 * highQ f e ≤ f * 2 ^ e + x := by
  obtain ⟨f', e', rfl, h1, h2, h3⟩ := hx
  have hp : (0:ℚ) < 2 ^ e := by positivity
  rw [two_highQ]
  rcases le_or_gt e e' with he | he
  · rw [zpow_split he, ← mul_assoc] at hlt ⊢
    have : (f:ℚ) < ((f' * 2 ^ (e' - e).toNat : ℕ) : ℚ) := by
      have := lt_of_mul_lt_mul_right hlt hp.le; push_cast at this ⊢; exact this
    have : f + 1 ≤ f' * 2 ^ (e' - e).toNat := by exact_mod_cast this
    have : (f:ℚ) + 1 ≤ f' * ((2 ^ (e' - e).toNat : ℕ) : ℚ) := by exact_mod_cast this
    nlinarith
  · exfalso
    have hf : 2 ^ 52 ≤ f := by rcases h.norm with hn | hn <;> [exact hn; (have := h.lo; omega)]
    have h5 : (2:ℚ) ^ e' ≤ 2 ^ (e - 1) := zpow_le_zpow_right₀ (by norm_num) (by omega)
    have h6 : (f' : ℚ) < 2 ^ 53 := by exact_mod_cast h1
    have h7 : (2:ℚ) ^ 52 ≤ f := by exact_mod_cast hf
    have h8 := zpow_half e
    have h9 : (f' : ℚ) * 2 ^ e' ≤ 2 ^ 53 * 2 ^ (e - 1) := mul_le_mul h6.le h5 (by positivity) (by positivity)
    nlinarith

theorem gap_dn {f e x} (h : Canon f e) (hx : Cand x) (hlt : x < (f:ℚ) * 2 ^ e) : f * 2 ^ e + x ≤ 2 * lowQ f e := by
  obtain ⟨f', e', rfl, h1, h2, h3⟩ := hx
  have hp : (0:ℚ) < 2 ^ e := by positivity
  rw [two_lowQ]
  rcases le_or_gt e e' with he | he
  · rw [zpow_split he, ← mul_assoc] at hlt ⊢
    have : ((f' * 2 ^ (e' - e).toNat : ℕ) : ℚ) < f := by
      have := lt_of_mul_lt_mul_right hlt hp.le; push_cast at this ⊢; exact this
    have : f' * 2 ^ (e' - e).toNat + 1 ≤ f := by exact_mod_cast this
    have : (f' * ((2 ^ (e' - e).toNat : ℕ) : ℚ) : ℚ) + 1 ≤ f := by exact_mod_cast this
    split <;> nlinarith
  · have hf : 2 ^ 52 ≤ f := by rcases h.norm with hn | hn <;> [exact hn; (have := h.lo; omega)]
    have h5 : (2:ℚ) ^ e' ≤ 2 ^ (e - 1) := zpow_le_zpow_right₀ (by norm_num) (by omega)
    have h6 : (f' : ℚ) + 1 ≤ 2 ^ 53 := by exact_mod_cast h1
    have h8 := zpow_half e
    have h9 : (f' : ℚ) * 2 ^ e' ≤ (2 ^ 53 - 1) * 2 ^ (e - 1) := mul_le_mul (by linarith) h5 (by positivity) (by norm_num)
    have h10 : (f' : ℚ) * 2 ^ e' ≤ (2 ^ 52 - 1 / 2) * 2 ^ e := by rw [← h8]; linarith
    split
    · rename_i hf'
      have : (f:ℚ) = 2 ^ 52 := by rw [hf']; norm_num
      rw [this]; linarith
    · have h7 : (2:ℚ) ^ 52 + 1 ≤ f := by exact_mod_cast (by omega : 2 ^ 52 + 1 ≤ f)
      nlinarith

/-- strictly inside the interval, the double is strictly the nearest candidate. -/
theorem nearest {f e x q} (h : Canon f e) (h1 : lowQ f e < q) (h2 : q < highQ f e) (hx : Cand |x|)
    (hne : x ≠ f * 2 ^ e) : |q - f * 2 ^ e| < |q - x| := by
  have hv : (0:ℚ) < f * 2 ^ e := by
    have : (0:ℚ) < f := by exact_mod_cast h.pos
    positivity
  have key : ∀ y, Cand y → y ≠ f * 2 ^ e → |q - f * 2 ^ e| < |q - y| := by
    intro y hy hne
    rcases lt_or_gt_of_ne hne with hlt | hlt
    · have := gap_dn h hy hlt
      rw [abs_of_pos (show 0 < q - y by linarith), abs_lt]
      constructor <;> linarith
    · have := gap_up h hy hlt
      rw [abs_of_neg (show q - y < 0 by linarith), abs_lt]
      constructor <;> linarith
  rcases le_or_gt 0 x with h0 | h0
  · rw [abs_of_nonneg h0] at hx; exact key x hx hne
  · have h3 := key 0 Cand.zero hv.ne
    have h4 := gap_dn h Cand.zero hv
    refine lt_trans h3 ?_
    rw [abs_of_pos (show 0 < q - 0 by linarith), abs_of_pos (show 0 < q - x by linarith)]
    linarith

theorem magnitude_cand (u : Nat) : Cand (magnitude u) := by
  by_cases h0 : magnitude u = 0
  · rw [h0]; exact Cand.zero
  · obtain ⟨hc, hm, _⟩ := ofBits_canon h0
    rw [hm]; exact hc.cand

theorem magnitude_nonneg (u : Nat) : 0 ≤ magnitude u := by
  unfold magnitude; split <;> positivity

theorem value_abs (u : Nat) : |value u| = magnitude u := by
  unfold value
  split
  · exact abs_of_nonneg (magnitude_nonneg u)
  · rw [abs_neg]; exact abs_of_nonneg (magnitude_nonneg u)

/-- strictly inside the interval of the magnitude, the number with the sign of the double rounds to the double. -/
theorem roundsTo_of_interval {u q} (h : FiniteBits u) {f e} (hc : Canon f e) (hm : magnitude u = f * 2 ^ e)
    (he : e ≤ 971) (h1 : lowQ f e < q) (h2 : q < highQ f e) : RoundsTo (if signField u = 0 then q else -q) u := by
  have hbig : ∀ x : ℚ, Cand |x| → x ≠ magnitude u → |q - magnitude u| < |q - x| := by
    intro x hx hne
    rw [hm] at hne ⊢
    exact nearest hc h1 h2 hx hne
  have hlt : magnitude u ≠ 2 ^ 1024 := by
    rw [hm]
    have a : (f:ℚ) < 2 ^ 53 := by exact_mod_cast hc.lt
    have b : (2:ℚ) ^ e ≤ 2 ^ (971 : Int) := zpow_le_zpow_right₀ (by norm_num) he
    have c : (2:ℚ) ^ (971 : Int) = 2 ^ 971 := zpow_natCast 2 971
    rw [c] at b
    have d : (f:ℚ) * 2 ^ e < 2 ^ 53 * 2 ^ 971 := mul_lt_mul a b (by positivity) (by positivity)
    rw [show (2:ℚ) ^ 53 * 2 ^ 971 = 2 ^ 1024 by rw [← pow_add]] at d
    exact ne_of_lt d
  have hbo : |q - magnitude u| < |q - 2 ^ 1024| := hbig _ (by rw [abs_of_pos (by positivity)]; exact cand_overflow) hlt.symm
  have hbo' : |q - magnitude u| < |q + 2 ^ 1024| := by
    have := hbig (-(2 ^ 1024)) (by rw [abs_neg, abs_of_pos (by positivity)]; exact cand_overflow) (by
      intro h
      have h1 := magnitude_nonneg u
      rw [← h] at h1
      have : (0:ℚ) < 2 ^ 1024 := by positivity
      exact absurd h1 (not_le.2 (neg_lt_zero.2 this)))
    rwa [sub_neg_eq_add] at this
  refine ⟨h, ?_, ?_, ?_⟩
  · intro u' _ hne
    have hc' : Cand |value u'| := by rw [value_abs]; exact magnitude_cand u'
    unfold value at hne ⊢
    by_cases hs : signField u = 0
    · simp only [hs, if_true] at hne ⊢
      exact hbig _ (by have := hc'; unfold value at this; exact this) hne
    · simp only [hs, if_false] at hne ⊢
      have := hbig (-value u') (by rw [abs_neg]; exact hc') (by
        unfold value
        intro h; apply hne; rw [← h, neg_neg])
      unfold value at this
      rw [show -q - -magnitude u = -(q - magnitude u) by ring, abs_neg]
      rw [show (-q - if signField u' = 0 then magnitude u' else -magnitude u') =
        -(q - -(if signField u' = 0 then magnitude u' else -magnitude u')) by ring, abs_neg]
      exact this
  · unfold value
    split
    · exact hbo
    · rw [show -q - -magnitude u = -(q - magnitude u) by ring, abs_neg, show -q - (2:ℚ) ^ 1024 = -(q + 2 ^ 1024) from (neg_add' _ _).symm, abs_neg]
      exact hbo'
  · unfold value
    split
    · exact hbo'
    · rw [show -q - -magnitude u = -(q - magnitude u) by ring, abs_neg, show -q + (2:ℚ) ^ 1024 = -(q - 2 ^ 1024) by rw [neg_sub, neg_add_eq_sub], abs_neg]
      exact hbo

end Symxx.Dtoa
