import Verif.Huge.MulDef
import Mathlib.Data.Nat.Log
/-! Exactly when the result of an operation is free of leading zero digits. -/
namespace Symxx.Huge
attribute [local irreducible] BASE

theorem width_zero : width 0 = 0 := rfl

theorem width_spec {x : ℕ} (h : x ≠ 0) : 2 ^ (30 * (width x - 1)) ≤ x ∧ x < 2 ^ (30 * width x) ∧ width x ≠ 0 := by
  unfold width
  rw [if_neg h, Nat.add_sub_cancel]
  refine ⟨?_, ?_, by omega⟩
  · rw [← Nat.le_log2 h]; omega
  · rw [← Nat.log2_lt h]; omega

theorem width_eq {x n : ℕ} (hn : n ≠ 0) (h1 : 2 ^ (30 * (n - 1)) ≤ x) (h2 : x < 2 ^ (30 * n)) : width x = n := by
  have hx : x ≠ 0 := by
    have : 0 < 2 ^ (30 * (n - 1)) := Nat.two_pow_pos _
    omega
  unfold width
  rw [if_neg hx]
  rw [← Nat.le_log2 hx] at h1
  rw [← Nat.log2_lt hx] at h2
  omega

theorem BASE_pow' (n : ℕ) : BASE ^ n = 2 ^ (30 * n) := by rw [pow_mul, BASE_pow]

theorem canon_iff_width {l : List Nat} (h : Digits l) : Canon l ↔ l.length = width (dval l) := by
  constructor
  · intro hc
    by_cases hne : l = []
    · subst hne; rfl
    · have h1 := hc.ge hne
      have h2 := dval_lt h
      rw [BASE_pow'] at h1 h2
      exact (width_eq (by simpa using hne) h1 h2).symm
  · intro hw
    refine canon_of_ge h fun hne => ?_
    have h0 : dval l ≠ 0 := by
      intro h0
      rw [h0, width_zero] at hw
      exact hne (List.length_eq_zero_iff.1 hw)
    rw [hw, BASE_pow']
    exact (width_spec h0).1

theorem Huge.canonical_iff {h : Huge} (hw : h.WF) : h.Canonical ↔ h.digits.length = width h.val.natAbs := by
  rw [natAbs_val]; exact canon_iff_width hw

theorem Huge.Canonical.length {h : Huge} (hc : h.Canonical) : h.digits.length = width h.val.natAbs :=
  (Huge.canonical_iff hc.wf).1 hc

theorem width_mono {x y : ℕ} (h : x ≤ y) : width x ≤ width y := by
  unfold width
  split
  · omega
  · rename_i h0
    rw [if_neg (by omega)]
    have : x.log2 ≤ y.log2 := by
      rw [Nat.le_log2 (by omega)]
      exact le_trans (Nat.log2_self_le h0) h
    omega

/-! ### sums and differences -/

theorem val_of_pos {h : Huge} (hp : h.isPositive = true) : h.val = dval h.digits := by simp [Huge.val, hp]
theorem val_of_neg {h : Huge} (hp : h.isPositive = false) : h.val = -(dval h.digits : Int) := by simp [Huge.val, hp]

theorem sub_length {a b : List Nat} (ha : Canon a) (hb : Canon b) (h : dval b < dval a) :
    (digitsSub a b).length = max a.length b.length := by
  have hl := hb.length_le_of_dval_le ha.1 h.le
  rw [(digitsSub_spec a b ha.1 hb.1 hl h.le).2.2, max_eq_left hl]

theorem add_length (a b : Huge) (ha : a.Canonical) (hb : b.Canonical) (hs : a.val * b.val < 0) (h0 : a.val + b.val ≠ 0) :
    (add a b).digits.length = max a.digits.length b.digits.length := by
  obtain ⟨a, p⟩ := a
  obtain ⟨b, q⟩ := b
  have h1 := Int.natCast_nonneg (dval a)
  have h2 := Int.natCast_nonneg (dval b)
  have h3 := mul_nonneg h1 h2
  obtain ⟨c1, c2⟩ := digitsCmp_pos_spec a b ha hb
  have hflag : ((q && p) || (!q && !p)) = false := by
    unfold Huge.val at hs
    cases p <;> cases q <;> simp at hs ⊢ <;> omega
  have hne : dval a ≠ dval b := by
    intro he
    unfold Huge.val at h0
    revert hflag
    cases p <;> cases q <;> simp [he] at h0 ⊢
  unfold add
  simp only [hflag, Bool.false_eq_true, if_false]
  rw [if_neg (fun h => hne (c2.1 h))]
  by_cases hlt : digitsCmp a b < 0
  · rw [if_pos hlt, max_comm]
    exact sub_length hb ha (c1.1 hlt)
  · rw [if_neg hlt]
    have := (c1.not.1 hlt)
    exact sub_length ha hb (by omega)

/-- the sum is free of leading zero digits exactly if no leading digit cancels. -/
theorem add_canonical_iff (a b : Huge) (ha : a.Canonical) (hb : b.Canonical) :
    (add a b).Canonical ↔ (0 ≤ a.val * b.val ∨ a.val + b.val = 0 ∨
      width (a.val + b.val).natAbs = max (width a.val.natAbs) (width b.val.natAbs)) := by
  by_cases h1 : 0 ≤ a.val * b.val
  · simp only [h1, true_or, iff_true]
    exact add_canonical a b ha hb h1
  · have hv := add_val a b ha hb
    by_cases h0 : a.val + b.val = 0
    · simp only [h0, true_or, or_true, iff_true]
      have hm : dval a.digits = dval b.digits := by rw [← natAbs_val a, ← natAbs_val b]; omega
      have hc := (digitsCmp_pos_spec a.digits b.digits ha hb).2.2 hm
      have hflag : ((b.isPositive && a.isPositive) || (!b.isPositive && !a.isPositive)) = false := by
        by_contra hf
        apply h1
        cases hp : a.isPositive <;> cases hq : b.isPositive <;> simp [hp, hq] at hf
        · rw [val_of_neg hp, val_of_neg hq, neg_mul_neg]; positivity
        · rw [val_of_pos hp, val_of_pos hq]; positivity
      unfold add
      simp only [hflag, Bool.false_eq_true, if_false, hc, if_true]
      exact Canon.nil
    · simp only [h1, h0, false_or]
      rw [Huge.canonical_iff hv.2, hv.1, add_length a b ha hb (by omega) h0, ha.length, hb.length, eq_comm]

theorem diff_length (a b : Huge) (ha : a.Canonical) (hb : b.Canonical) (hs : 0 < a.val * b.val) (h0 : a.val ≠ b.val) :
    (sub a b).digits.length = max a.digits.length b.digits.length := by
  obtain ⟨a, p⟩ := a
  obtain ⟨b, q⟩ := b
  have h1 := Int.natCast_nonneg (dval a)
  have h2 := Int.natCast_nonneg (dval b)
  have h3 := mul_nonneg h1 h2
  obtain ⟨c1, c2⟩ := digitsCmp_pos_spec a b ha hb
  have hflag : ((q && !p) || (!q && p)) = false := by
    unfold Huge.val at hs
    cases p <;> cases q <;> simp at hs ⊢ <;> omega
  have hne : dval a ≠ dval b := by
    intro he
    unfold Huge.val at h0
    revert hflag
    cases p <;> cases q <;> simp [he] at h0 ⊢
  unfold sub
  simp only [hflag, Bool.false_eq_true, if_false]
  rw [if_neg (fun h => hne (c2.1 h))]
  by_cases hlt : digitsCmp a b < 0
  · rw [if_pos hlt, max_comm]
    exact sub_length hb ha (c1.1 hlt)
  · rw [if_neg hlt]
    have := (c1.not.1 hlt)
    exact sub_length ha hb (by omega)

theorem digitsSub_nil_right (a : List Nat) (ha : Canon a) : Canon (digitsSub a []) := by
  rw [digitsSub_nil a ha.1]; exact ha

theorem sub_canonical_zero (a b : Huge) (ha : a.Canonical) (hb : b.Canonical) (h : a.digits = [] ∨ b.digits = []) :
    (sub a b).Canonical := by
  obtain ⟨a, p⟩ := a
  obtain ⟨b, q⟩ := b
  simp only at h
  obtain ⟨c1, c2⟩ := digitsCmp_pos_spec a b ha hb
  unfold sub
  simp only
  by_cases hc : digitsCmp a b = 0
  · rw [if_pos hc]; exact Canon.nil
  · rw [if_neg hc]
    split
    · exact digitsAdd_canon ha hb
    · split
      · rename_i hlt
        rcases h with rfl | rfl
        · exact digitsSub_nil_right b hb
        · have := c1.1 hlt
          simp at this
      · rename_i hlt
        rcases h with rfl | rfl
        · have h4 : dval b ≠ 0 := fun h => hc (c2.2 (by simp [h]))
          exact absurd (c1.2 (by simp; omega)) hlt
        · exact digitsSub_nil_right a ha

theorem sub_canonical_of_mul_neg (a b : Huge) (ha : a.Canonical) (hb : b.Canonical)
    (h : a.val * b.val < 0) : (sub a b).Canonical := by
  obtain ⟨a, p⟩ := a
  obtain ⟨b, q⟩ := b
  unfold sub
  simp only
  split
  · exact Canon.nil
  · have hflag : ((q && !p) || (!q && p)) = true := by
      have h1 := Int.natCast_nonneg (dval a)
      have h2 := Int.natCast_nonneg (dval b)
      have h3 := mul_nonneg h1 h2
      unfold Huge.val at h
      cases p <;> cases q <;> simp at h ⊢ <;> omega
    rw [if_pos hflag]
    exact digitsAdd_canon ha hb

/-- the difference is free of leading zero digits exactly if no leading digit cancels (for opposite numbers the code
computes 0). -/
theorem sub_canonical_iff (a b : Huge) (ha : a.Canonical) (hb : b.Canonical) :
    (sub a b).Canonical ↔ (a.val * b.val ≤ 0 ∨ a.val = b.val ∨
      width (a.val - b.val).natAbs = max (width a.val.natAbs) (width b.val.natAbs)) := by
  rcases lt_trichotomy (a.val * b.val) 0 with h1 | h1 | h1
  · simp only [h1.le, true_or, iff_true]
    exact sub_canonical_of_mul_neg a b ha hb h1
  · simp only [h1.le, true_or, iff_true]
    rw [mul_eq_zero, val_zero_iff ha, val_zero_iff hb] at h1
    exact sub_canonical_zero a b ha hb h1
  · by_cases h0 : a.val = b.val
    · simp only [h0, true_or, or_true, iff_true]
      have hm : dval a.digits = dval b.digits := by rw [← natAbs_val a, ← natAbs_val b, h0]
      have hc := (digitsCmp_pos_spec a.digits b.digits ha hb).2.2 hm
      unfold sub
      simp only [hc, if_true]
      exact Canon.nil
    · have hv := sub_val a b ha hb (Or.inl (by
        intro hs
        have : b.val = -a.val := by omega
        rw [this] at h1
        nlinarith [sq_nonneg a.val]))
      simp only [not_le.2 h1, h0, false_or]
      rw [Huge.canonical_iff hv.2, hv.1, diff_length a b ha hb h1 h0, ha.length, hb.length, eq_comm]

/-! ### quotients -/

theorem length_eq_one_iff {b : Huge} (hb : b.Canonical) (hb0 : b.val ≠ 0) : b.digits.length = 1 ↔ |b.val| < 2 ^ 30 := by
  rw [hb.length, Int.abs_eq_natAbs]
  have hx : b.val.natAbs ≠ 0 := by omega
  obtain ⟨h1, h2, h3⟩ := width_spec hx
  constructor
  · intro h
    rw [h] at h2
    norm_num at h2
    omega
  · intro h
    exact width_eq one_ne_zero (by simp; omega) (by norm_num; omega)

/-- a defined quotient is free of leading zero digits exactly if the divisor has two digits, or it is not exceeded, or the
quotient has as many digits as the dividend. -/
theorem div_canonical_iff (a b r : Huge) (ha : a.Canonical) (hb : b.Canonical) (hb0 : b.val ≠ 0) (hr : div a b = .ok r) :
    r.Canonical ↔ (2 ^ 30 ≤ |b.val| ∨ |a.val| ≤ |b.val| ∨ width r.val.natAbs = width a.val.natAbs) := by
  have hne : b.digits ≠ [] := fun h => hb0 ((val_zero_iff hb).2 h)
  have hemp : (!b.digits.isEmpty) = true := by simpa using hne
  have hx : ¬ ExactLong a.digits b.digits := by
    intro hx
    obtain ⟨m, hm⟩ := (div_val a b ha hb hb0).2 hx
    rw [hr] at hm; cases hm
  by_cases hlen : b.digits.length = 1
  · have hsm := (length_eq_one_iff hb hb0).1 hlen
    simp only [not_le.2 hsm, false_or]
    obtain ⟨c1, c2⟩ := digitsCmp_pos_spec a.digits b.digits ha hb
    have hA : |a.val| = (dval a.digits : Int) := by rw [Int.abs_eq_natAbs, natAbs_val]
    have hB : |b.val| = (dval b.digits : Int) := by rw [Int.abs_eq_natAbs, natAbs_val]
    rw [hA, hB]
    unfold div at hr
    rw [hemp, Res.assert_true] at hr
    simp only [Res.bind_ok] at hr
    unfold digitsDivrem at hr
    by_cases h0 : digitsCmp a.digits b.digits = 0
    · simp only [h0, if_true, Res.bind_ok, Res.ok.injEq] at hr
      have : r.Canonical := by rw [← hr]; exact (by decide : Canon [1])
      simp only [this, true_iff]
      left
      have := c2.1 h0
      omega
    · by_cases hlt : digitsCmp a.digits b.digits < 0
      · simp only [h0, hlt, if_true, if_false, Res.bind_ok, Res.ok.injEq] at hr
        have : r.Canonical := by rw [← hr]; exact Canon.nil
        simp only [this, true_iff]
        left
        have := c1.1 hlt
        omega
      · have hgt := digitsCmp_gt ha hb h0 hlt
        simp only [h0, hlt, if_false, hlen, if_true] at hr
        have hnle : ¬ ((dval a.digits : Int) ≤ dval b.digits) := by omega
        simp only [hnle, false_or]
        obtain ⟨b0, hb0'⟩ := List.length_eq_one_iff.1 hlen
        rw [hb0'] at hr
        simp only at hr
        have hbv : dval b.digits = b0 := by rw [hb0']; simp
        have hB := BASE_eq
        have hb0pos : 0 < b0 := by
          have := Canon.pos hb hne
          omega
        have hb0lt : b0 < BASE := by
          have := dval_lt hb.1
          rw [hlen, pow_one, hbv] at this
          exact this
        obtain ⟨q, rr, e1, e2, e3, e4, e5, e6⟩ := divremBy1_spec a.digits b0 hb0pos hb0lt ha.1
        rw [e1] at hr
        simp only [Res.bind_ok, Res.ok.injEq] at hr
        have hwf : r.WF := by rw [← hr]; exact e5
        rw [Huge.canonical_iff hwf, ← ha.length]
        have : r.digits.length = a.digits.length := by rw [← hr]; exact e6
        rw [this, eq_comm]
  · have h30 : 2 ^ 30 ≤ |b.val| := not_lt.1 fun h => hlen ((length_eq_one_iff hb hb0).2 h)
    simp only [h30, true_or, iff_true]
    obtain ⟨q, r', j1, _, _, _, _, j6⟩ := (digitsDivrem_spec a.digits b.digits ha hb hne).1 hx
    unfold div at hr
    rw [hemp, Res.assert_true] at hr
    simp only [Res.bind_ok, j1] at hr
    injection hr with hr
    subst hr
    exact j6 hlen

/-! ### products -/

theorem mul_defined_iff (a b : Huge) (ha : a.Canonical) (hb : b.Canonical) :
    (∃ r, mul a b = .ok r) ↔ ProductDefined (width a.val.natAbs + width b.val.natAbs + 1)
      (width a.val.natAbs) a.val.natAbs (width b.val.natAbs) b.val.natAbs := by
  rw [← ha.length, ← hb.length, natAbs_val, natAbs_val, ← digitsMulF_defined _ _ _ ha.1 hb.1 (Nat.lt_succ_self _)]
  unfold mul digitsMul
  constructor
  · rintro ⟨r, hr⟩
    obtain ⟨x, h1, -⟩ := Res.bind_eq_ok.1 hr
    exact ⟨x, h1⟩
  · rintro ⟨x, h1⟩
    exact ⟨⟨x, sameSign a b⟩, by rw [h1]; rfl⟩

end Symxx.Huge
