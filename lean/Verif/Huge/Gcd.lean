import Verif.Huge.Div
/-! `digits_divrem`, `digits_rem`, `digits_gcd` on canonical operands. -/
namespace Symxx.Huge
attribute [local irreducible] BASE

theorem Canon.pos {b : List Nat} (hb : Canon b) (hne : b ≠ []) : 0 < dval b := by
  rcases Nat.eq_zero_or_pos (dval b) with h | h
  · exact absurd (hb.dval_eq_zero.1 h) hne
  · exact h

theorem canon_one : Canon [1] := by decide

/-- the case the trimming loop of `digits_divrem` gets wrong: an exact division by a divisor of at
least two digits that is smaller than the dividend. -/
def ExactLong (a b : List Nat) : Prop := 2 ≤ b.length ∧ dval b < dval a ∧ dval a % dval b = 0

theorem digitsDivrem_spec (a b : List Nat) (ha : Canon a) (hb : Canon b) (hne : b ≠ []) :
    (¬ ExactLong a b → ∃ q r, digitsDivrem a b = .ok (q, r) ∧ dval q = dval a / dval b ∧
      dval r = dval a % dval b ∧ Digits q ∧ Canon r ∧ (b.length ≠ 1 → Canon q)) ∧
    (ExactLong a b → ∃ m, digitsDivrem a b = .ub m) := by
  have hbpos := hb.pos hne
  have hcmp := digitsCmp_pos_spec a b ha hb
  have hblen : 1 ≤ b.length := by
    rcases b with _ | ⟨x, l⟩
    · exact absurd rfl hne
    · simp
  rcases Nat.lt_trichotomy (dval a) (dval b) with h | h | h
  · have h1 := hcmp.1.2 h
    refine ⟨fun _ => ⟨[], a, ?_, ?_, ?_, Digits.nil, ha, fun _ => Canon.nil⟩, fun hx => ?_⟩
    · unfold digitsDivrem
      have : digitsCmp a b ≠ 0 := by omega
      simp [this, h1]
    · simp [Nat.div_eq_of_lt h]
    · rw [Nat.mod_eq_of_lt h]
    · have := hx.2.1; omega
  · have h1 := hcmp.2.2 h
    refine ⟨fun _ => ⟨[1], [], ?_, ?_, ?_, canon_one.1, Canon.nil, fun _ => canon_one⟩, fun hx => ?_⟩
    · unfold digitsDivrem; simp [h1]
    · simp [h, Nat.div_self hbpos]
    · simp [h]
    · have := hx.2.1; omega
  · by_cases hl : b.length = 1
    · refine ⟨fun _ => ?_, fun hx => absurd hx.1 (by omega)⟩
      obtain ⟨b0, rfl⟩ := List.length_eq_one_iff.1 hl
      have hb0 : 0 < b0 := by simpa using hbpos
      have hb0B : b0 < BASE := (Digits.cons.1 hb.1).1
      obtain ⟨q, r, j1, j2, j3, j4, j5, _⟩ := divremBy1_spec a b0 hb0 hb0B ha.1
      refine ⟨q, r, ?_, by simpa using j2, by simpa using j3, j5, j4, fun h => absurd rfl h⟩
      unfold digitsDivrem
      have h0 : digitsCmp a [b0] ≠ 0 := fun hh => by have := hcmp.2.1 hh; omega
      have h1 : ¬ digitsCmp a [b0] < 0 := fun hh => by have := hcmp.1.1 hh; omega
      simp [h0, h1, j1]
    · obtain ⟨k1, k2⟩ := digitsDivrem_long a b ha hb (by omega) h
      refine ⟨fun hx => ?_, fun hx => k2 hx.2.2⟩
      obtain ⟨q, r, j1, j2, j3, j4, j5⟩ := k1 (fun h0 => hx ⟨by omega, h, h0⟩)
      exact ⟨q, r, j1, j2, j3, j4.1, j5, fun _ => j4⟩

theorem digitsRem_spec (a b : List Nat) (ha : Canon a) (hb : Canon b) (hne : b ≠ []) :
    (¬ ExactLong a b → ∃ r, digitsRem a b = .ok r ∧ dval r = dval a % dval b ∧ Canon r) ∧
    (ExactLong a b → ∃ m, digitsRem a b = .ub m) := by
  have hbpos := hb.pos hne
  have hcmp := digitsCmp_pos_spec a b ha hb
  by_cases h : dval a < dval b
  · have h1 := hcmp.1.2 h
    refine ⟨fun _ => ⟨a, ?_, by rw [Nat.mod_eq_of_lt h], ha⟩, fun hx => ?_⟩
    · simp [digitsRem, h1]
    · have := hx.2.1; omega
  · have h1 : ¬ digitsCmp a b < 0 := fun hh => h (hcmp.1.1 hh)
    by_cases hl : b.length = 1
    · refine ⟨fun _ => ?_, fun hx => absurd hx.1 (by omega)⟩
      obtain ⟨b0, rfl⟩ := List.length_eq_one_iff.1 hl
      have hb0 : 0 < b0 := by simpa using hbpos
      have hb0B : b0 < BASE := (Digits.cons.1 hb.1).1
      obtain ⟨r, j1, j2, j3⟩ := remBy1_spec a b0 hb0 hb0B ha.1
      exact ⟨r, by simp [digitsRem, h1, j1], by simpa using j2, j3⟩
    · obtain ⟨k1, k2⟩ := digitsDivrem_spec a b ha hb hne
      refine ⟨fun hx => ?_, fun hx => ?_⟩
      · obtain ⟨q, r, j1, j2, j3, j4, j5, _⟩ := k1 hx
        exact ⟨r, by simp [digitsRem, h1, hl, j1], j3, j5⟩
      · obtain ⟨m, hm⟩ := k2 hx
        exact ⟨m, by simp [digitsRem, h1, hl, hm]⟩

/-- operands on which Euclid's algorithm ends in an exact division by a multi-digit number. -/
def GcdBad (a b : List Nat) : Prop :=
  dval a ≠ 0 ∧ dval b ≠ 0 ∧ dval a ≠ dval b ∧ BASE ≤ Nat.gcd (dval a) (dval b)

theorem length_ge_two_of_ge {b : List Nat} (hb : Digits b) (h : BASE ≤ dval b) : 2 ≤ b.length := by
  have := dval_lt hb
  by_contra hcon
  have h1 : BASE ^ b.length ≤ BASE ^ 1 := Nat.pow_le_pow_right BASE_pos (by omega)
  rw [pow_one] at h1
  omega

theorem ge_of_length_ge_two {b : List Nat} (hb : Canon b) (h : 2 ≤ b.length) : BASE ≤ dval b := by
  have h1 := hb.ge (by rintro rfl; simp at h)
  have h2 : BASE ^ 1 ≤ BASE ^ (b.length - 1) := Nat.pow_le_pow_right BASE_pos (by omega)
  rw [pow_one] at h2
  omega

theorem digitsGcdF_spec (fuel : Nat) (a b : List Nat) (ha : Canon a) (hb : Canon b)
    (hf : dval b + (if dval a < dval b then 1 else 0) < fuel) :
    (¬ GcdBad a b → ∃ r, digitsGcdF fuel a b = .ok r ∧ dval r = Nat.gcd (dval a) (dval b) ∧ Canon r) ∧
    (GcdBad a b → ∃ m, digitsGcdF fuel a b = .ub m) := by
  induction fuel generalizing a b with
  | zero => omega
  | succ fuel ih =>
    by_cases hbe : b = []
    · subst hbe
      refine ⟨fun _ => ⟨a, by simp [digitsGcdF], by simp, ha⟩, fun h => absurd rfl h.2.1⟩
    · have hbpos := hb.pos hbe
      have hemp : ¬ (b.isEmpty = true) := by simpa using hbe
      obtain ⟨k1, k2⟩ := digitsRem_spec a b ha hb hbe
      rw [digitsGcdF, if_neg hemp]
      by_cases hx : ExactLong a b
      · obtain ⟨m, hm⟩ := k2 hx
        obtain ⟨x1, x2, x3⟩ := hx
        have hg : Nat.gcd (dval a) (dval b) = dval b :=
          Nat.gcd_eq_right (Nat.dvd_of_mod_eq_zero x3)
        have hbad : GcdBad a b := ⟨by omega, by omega, by omega, by
          rw [hg]; exact ge_of_length_ge_two hb x1⟩
        exact ⟨fun h => absurd hbad h, fun _ => ⟨m, by rw [hm]; rfl⟩⟩
      · obtain ⟨r, hr, hrv, hrc⟩ := k1 hx
        rw [hr]
        simp only [Res.bind_ok]
        have hrlt : dval r < dval b := by rw [hrv]; exact Nat.mod_lt _ hbpos
        obtain ⟨i1, i2⟩ := ih b r hb hrc (by
          rw [if_neg (by omega)]
          by_cases hab : dval a < dval b
          · rw [if_pos hab] at hf; omega
          · rw [if_neg hab] at hf; omega)
        have hgcd : Nat.gcd (dval b) (dval r) = Nat.gcd (dval a) (dval b) := by
          rw [hrv, Nat.gcd_comm, ← Nat.gcd_rec, Nat.gcd_comm]
        have hbadiff : GcdBad b r ↔ GcdBad a b := by
          unfold GcdBad
          rw [hgcd]
          constructor
          · rintro ⟨y1, y2, y3, y4⟩
            refine ⟨?_, y1, ?_, y4⟩
            · intro h0; rw [h0, Nat.zero_mod] at hrv; exact y2 hrv
            · intro h0; rw [h0, Nat.mod_self] at hrv; exact y2 hrv
          · rintro ⟨y1, y2, y3, y4⟩
            refine ⟨y2, ?_, by omega, y4⟩
            intro h0
            rw [hrv] at h0
            have hg : Nat.gcd (dval a) (dval b) = dval b :=
              Nat.gcd_eq_right (Nat.dvd_of_mod_eq_zero h0)
            rw [hg] at y4
            have hle : dval b ≤ dval a := Nat.le_of_dvd (by omega) (Nat.dvd_of_mod_eq_zero h0)
            exact hx ⟨length_ge_two_of_ge hb.1 y4, by omega, h0⟩
        rw [hgcd] at i1
        rw [hbadiff] at i1 i2
        exact ⟨i1, i2⟩

theorem digitsGcd_spec (a b : List Nat) (ha : Canon a) (hb : Canon b) :
    (¬ GcdBad a b → ∃ r, digitsGcd a b = .ok r ∧ dval r = Nat.gcd (dval a) (dval b) ∧ Canon r) ∧
    (GcdBad a b → ∃ m, digitsGcd a b = .ub m) := by
  apply digitsGcdF_spec _ a b ha hb
  have h1 := dval_lt hb.1
  by_cases hbe : b = []
  · subst hbe; simp
  have h3 : 1 ≤ b.length := by
    rcases b with _ | ⟨x, l⟩
    · exact absurd rfl hbe
    · simp
  have h2 : BASE ^ b.length ≤ 2 ^ (32 * b.length) := by
    rw [pow_mul]; exact Nat.pow_le_pow_left (by rw [BASE_eq]; norm_num) _
  split <;> omega

end Symxx.Huge
