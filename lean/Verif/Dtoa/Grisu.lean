import Verif.Dtoa.Power
/-!
# Grisu2: the digits lie strictly inside the rounding interval
-/
namespace Symxx.Dtoa

/-- the significand and exponent of a positive double; `e = 972` only for the patterns of infinities and NaNs. -/
structure Canon (f : Nat) (e : Int) : Prop where
  pos : 0 < f
  lt : f < 2 ^ 53
  lo : -1074 ≤ e
  hi : e ≤ 972
  norm : 2 ^ 52 ≤ f ∨ e = -1074

theorem ofBits_eq {u : Nat} : DiyFp.ofBits u =
    if expField u ≠ 0 then ⟨2 ^ 52 + sigField u, (expField u : Int) - 1075⟩ else ⟨sigField u, -1074⟩ := by
  have h1 : (u &&& EXPMASK) >>> SIGSIZE = expField u := by
    rw [Nat.shiftRight_and_distrib]
    rw [show EXPMASK >>> SIGSIZE = 2 ^ 11 - 1 by decide, Nat.and_two_pow_sub_one_eq_mod, Nat.shiftRight_eq_div_pow]
    rfl
  have h2 : u &&& SIGMASK = sigField u := by
    rw [show SIGMASK = 2 ^ 52 - 1 by decide, Nat.and_two_pow_sub_one_eq_mod]; rfl
  have h3 : sigField u < 2 ^ 52 := Nat.mod_lt _ (by norm_num)
  unfold DiyFp.ofBits
  simp only [h1, h2]
  rw [u64_eq (by unfold HIDDEN; omega)]
  rw [show HIDDEN = 2 ^ 52 by decide, show BIAS = 1075 by decide, show MINEXP + 1 = -1074 by decide, add_comm]

theorem ofBits_canon {u : Nat} (h0 : magnitude u ≠ 0) :
    Canon (DiyFp.ofBits u).f (DiyFp.ofBits u).e ∧
      magnitude u = ((DiyFp.ofBits u).f : ℚ) * 2 ^ (DiyFp.ofBits u).e ∧
      (FiniteBits u → (DiyFp.ofBits u).e ≤ 971) := by
  have h3 : sigField u < 2 ^ 52 := Nat.mod_lt _ (by norm_num)
  have h4 : expField u < 2 ^ 11 := Nat.mod_lt _ (by norm_num)
  unfold magnitude at h0
  rw [ofBits_eq]
  unfold magnitude
  by_cases hb : expField u = 0
  · simp only [hb, ne_eq, not_true_eq_false, if_false, if_true] at h0 ⊢
    refine ⟨⟨?_, by omega, by omega, by omega, Or.inr rfl⟩, trivial, fun _ => by omega⟩
    rcases Nat.eq_zero_or_pos (sigField u) with h | h
    · simp [h] at h0
    · exact h
  · simp only [hb, ne_eq, not_false_eq_true, if_true, if_false] at h0 ⊢
    refine ⟨⟨by omega, by omega, by omega, by omega, Or.inl (by omega)⟩, trivial, fun h => by have := h.2; omega⟩

theorem and_pow_eq_zero {n m : Nat} (h : n < 2 ^ (m + 1)) : n &&& 2 ^ m = 0 ↔ n < 2 ^ m := by
  have hm : 0 < 2 ^ m := Nat.pow_pos (by norm_num)
  constructor
  · intro h0
    by_contra hc
    have h1 : (n &&& 2 ^ m).testBit m = true := by
      rw [Nat.testBit_and, Nat.testBit_two_pow_self, Bool.and_true, Nat.testBit_eq_decide_div_mod_eq]
      have : n / 2 ^ m = 1 := by
        apply Nat.div_eq_of_lt_le <;> [omega; (rw [pow_succ] at h; omega)]
      rw [this]; rfl
    rw [h0] at h1; simp at h1
  · intro h0
    apply Nat.eq_of_testBit_eq
    intro i
    rw [Nat.testBit_and, Nat.zero_testBit]
    by_cases hi : i = m
    · subst hi; rw [Nat.testBit_lt_two_pow h0]; rfl
    · rw [Nat.testBit_two_pow_of_ne (Ne.symm hi), Bool.and_false]

theorem shiftUntil_spec {m : Nat} (hm : m ≤ 62) : ∀ (n s : Nat) (r : DiyFp), s < n → 2 ^ m ≤ r.f * 2 ^ s →
    r.f * 2 ^ s < 2 ^ (m + 1) → DiyFp.shiftUntil (2 ^ m) n r = .ok ⟨r.f * 2 ^ s, r.e - s⟩ := by
  intro n
  induction n with
  | zero => intro s r h; omega
  | succ n ih =>
    intro s r hn h1 h2
    have h63 : 2 ^ (m + 1) ≤ 2 ^ 63 := Nat.pow_le_pow_right (by norm_num) (by omega)
    have hr : r.f < 2 ^ (m + 1) := lt_of_le_of_lt (Nat.le_mul_of_pos_right _ (by positivity)) h2
    rw [DiyFp.shiftUntil]
    rcases Nat.eq_zero_or_pos s with h0 | h0
    · subst h0
      rw [if_neg (by rw [and_pow_eq_zero hr]; omega)]
      simp
    · obtain ⟨t, rfl⟩ : ∃ t, s = t + 1 := ⟨s - 1, by omega⟩
      have hlt : r.f < 2 ^ m := by
        have : r.f * 2 ≤ r.f * 2 ^ (t + 1) := Nat.mul_le_mul_left _ (by rw [pow_succ]; have := Nat.pow_pos (n := t) (show 0 < 2 by norm_num); omega)
        rw [pow_succ 2 m] at h2; omega
      rw [if_pos ((and_pow_eq_zero hr).2 hlt), Nat.shiftLeft_eq, u64_eq (by rw [pow_succ] at h63; omega)]
      have he : r.f * 2 ^ 1 * 2 ^ t = r.f * 2 ^ (t + 1) := by rw [pow_succ]; ring
      rw [ih t ⟨r.f * 2 ^ 1, r.e - 1⟩ (by omega) (by simp only [he]; exact h1) (by simp only [he]; exact h2)]
      simp only [he]
      congr 2; push_cast; ring

theorem exists_shift {f : Nat} (h0 : 0 < f) (h : f < 2 ^ 53) : ∃ s, s ≤ 52 ∧ 2 ^ 52 ≤ f * 2 ^ s ∧ f * 2 ^ s < 2 ^ 53 := by
  have hl : Nat.log 2 f ≤ 52 := by
    have := Nat.log_lt_of_lt_pow (b := 2) (by omega) h; omega
  refine ⟨52 - Nat.log 2 f, by omega, ?_, ?_⟩
  · calc 2 ^ 52 = 2 ^ Nat.log 2 f * 2 ^ (52 - Nat.log 2 f) := by rw [← pow_add]; congr 1; omega
      _ ≤ f * _ := Nat.mul_le_mul_right _ (Nat.pow_log_le_self 2 (by omega))
  · calc f * 2 ^ (52 - Nat.log 2 f) < 2 ^ (Nat.log 2 f + 1) * 2 ^ (52 - Nat.log 2 f) :=
        Nat.mul_lt_mul_of_pos_right (Nat.lt_pow_succ_log_self (by norm_num) f) (by positivity)
      _ = 2 ^ 53 := by rw [← pow_add]; congr 1; omega

/-- the lower boundary computed by the code, in units of `2^(e-1-s)`. -/
def lowBnd (f s : Nat) : Nat := if f = 2 ^ 52 then (4 * f - 1) * 2 ^ (s - 1) else (2 * f - 1) * 2 ^ s

/-- the normalised double and its boundaries: exact, on a common exponent. -/
theorem boundaries {f : Nat} {e : Int} (h : Canon f e) : ∃ s : Nat, 10 ≤ s ∧ s ≤ 62 ∧ 2 ^ 62 ≤ f * 2 ^ s ∧
    (2 * f + 1) * 2 ^ s < 2 ^ 64 ∧ -1137 ≤ e - 1 - s ∧ e - 1 - s ≤ 961 ∧
    DiyFp.normalize ⟨f, e⟩ = .ok ⟨2 * f * 2 ^ s, e - 1 - s⟩ ∧
    DiyFp.normalizedBoundaries ⟨f, e⟩ = .ok (⟨lowBnd f s, e - 1 - s⟩, ⟨(2 * f + 1) * 2 ^ s, e - 1 - s⟩) := by
  obtain ⟨t, ht, h1, h2⟩ := exists_shift h.pos h.lt
  obtain ⟨hp, hlt, hlo, hhi, hnorm⟩ := h
  have ht' : t = 0 ∨ e = -1074 := by
    rcases hnorm with hn | hn
    · left
      by_contra hc
      have : f * 2 ≤ f * 2 ^ t := Nat.mul_le_mul_left _ (by
        calc 2 = 2 ^ 1 := rfl
          _ ≤ 2 ^ t := Nat.pow_le_pow_right (by norm_num) (by omega))
      omega
    · exact Or.inr hn
  have hpt : 2 ^ t ≤ 2 ^ 52 := Nat.pow_le_pow_right (by norm_num) ht
  have ht0 : 0 < 2 ^ t := Nat.pow_pos (by norm_num)
  have h2' : (f + 1) * 2 ^ t ≤ 2 ^ 53 := by
    have hdvd : 2 ^ t ∣ 2 ^ 53 := pow_dvd_pow 2 (by omega)
    obtain ⟨c, hc⟩ := hdvd
    rw [hc] at h2 ⊢
    have : f < c := by rw [mul_comm] at h2; exact Nat.lt_of_mul_lt_mul_left h2
    rw [mul_comm]; exact Nat.mul_le_mul_left _ this
  have e10 : ∀ a : Nat, a * 2 ^ (t + 10) = a * 2 ^ t * 1024 := fun a => by rw [pow_add]; ring
  refine ⟨t + 10, by omega, by omega, by rw [e10]; omega, by rw [e10]; nlinarith, by push_cast; omega, by push_cast; omega, ?_, ?_⟩
  · unfold DiyFp.normalize
    rw [show HIDDEN = 2 ^ 52 by decide, shiftUntil_spec (by norm_num) 65 t ⟨f, e⟩ (by omega) h1 h2, Res.bind_ok]
    simp only
    rw [show ((DIYSIZE : Int) - (SIGSIZE : Int) - 1) = ((11 : Nat) : Int) by decide, shl_ok (by norm_num) (by omega)]
    simp only [Res.bind_ok]
    congr 2
    · rw [pow_add]; ring
    · push_cast; ring
  · have hpl : DiyFp.normalizeBoundary ⟨u64 (u64 (f <<< 1) + 1), e - 1⟩ =
        .ok ⟨(2 * f + 1) * 2 ^ (t + 10), e - 1 - (t + 10 : ℕ)⟩ := by
      unfold DiyFp.normalizeBoundary
      rw [Nat.shiftLeft_eq f, u64_eq (show f * 2 ^ 1 < 2 ^ 64 by omega), u64_eq (show f * 2 ^ 1 + 1 < 2 ^ 64 by omega),
        show HIDDEN <<< 1 = 2 ^ 53 by decide,
        shiftUntil_spec (by norm_num) 65 t ⟨f * 2 ^ 1 + 1, e - 1⟩ (by omega) (by simp only; nlinarith)
          (by simp only; rw [show (f * 2 ^ 1 + 1) * 2 ^ t = f * 2 ^ t + (f + 1) * 2 ^ t by ring]; omega),
        Res.bind_ok]
      simp only
      rw [show ((DIYSIZE : Int) - (SIGSIZE : Int) - 2) = ((10 : Nat) : Int) by decide, shl_ok (by norm_num) (by nlinarith)]
      simp only [Res.bind_ok]
      congr 2
      · rw [pow_add]; ring
      · push_cast; ring
    unfold DiyFp.normalizedBoundaries
    simp only
    rw [hpl, Res.bind_ok]
    simp only [show HIDDEN = 2 ^ 52 by decide, decide_eq_true_eq]
    unfold lowBnd
    by_cases hf : f = 2 ^ 52
    · have ht0 : t = 0 := by
        by_contra hc
        have : f * 2 ≤ f * 2 ^ t := Nat.mul_le_mul_left _ (by
          calc 2 = 2 ^ 1 := rfl
            _ ≤ 2 ^ t := Nat.pow_le_pow_right (by norm_num) (by omega))
        omega
      subst ht0; subst hf
      simp only [if_true]
      rw [show (e - 2 - (e - 1 - ((0 + 10 : ℕ) : Int))) = ((9 : ℕ) : Int) by push_cast; ring]
      rw [show u64sub (u64 (2 ^ 52 <<< 2)) 1 = 2 ^ 54 - 1 by decide, shl_ok (by norm_num) (by norm_num)]
      rfl
    · simp only [hf, if_false]
      rw [show (e - 1 - (e - 1 - ((t + 10 : ℕ) : Int))) = ((t + 10 : ℕ) : Int) by ring]
      rw [Nat.shiftLeft_eq, u64_eq (show f * 2 ^ 1 < 2 ^ 64 by omega), u64sub_eq (show f * 2 ^ 1 < 2 ^ 64 by omega) (by omega),
        shl_ok (by omega) (by
          calc (f * 2 ^ 1 - 1) * 2 ^ (t + 10) ≤ (2 * f) * 2 ^ (t + 10) := Nat.mul_le_mul_right _ (by omega)
            _ < 2 ^ 64 := by rw [e10]; nlinarith)]
      simp only [Res.bind_ok]
      rw [mul_comm f (2 ^ 1)]; rfl

end Symxx.Dtoa
