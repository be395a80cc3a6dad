import Verif.Huge.Conv
import Mathlib.Data.Int.ModEq
/-!
# `Huge::to<U>`: what it returns for every number
-/
namespace Symxx.Huge

theorem IntTy.ofRepr_spec {t : IntTy} (ht : t.Wide) {n : Nat} (hn : n < 2 ^ t.bits) :
    t.has (t.ofRepr n) ∧ t.ofRepr n ≡ n [ZMOD 2 ^ t.bits] ∧ (t.ofRepr n = t.min → t.signed = true → n = 2 ^ (t.bits - 1)) ∧
    (t.signed = true → n = 2 ^ (t.bits - 1) → t.ofRepr n = t.min) := by
  unfold IntTy.Wide at ht
  have e : (2 : Int) ^ t.bits = 2 ^ (t.bits - 1) * 2 := by rw [← pow_succ]; congr 1; omega
  have hn' : (n : Int) < 2 ^ t.bits := by exact_mod_cast hn
  have hc : ∀ m : Nat, ((2 ^ (t.bits - 1) : Nat) : Int) = 2 ^ (t.bits - 1) := fun _ => by push_cast; rfl
  have hp : (0 : Int) < 2 ^ (t.bits - 1) := by positivity
  unfold IntTy.ofRepr IntTy.has IntTy.min IntTy.max
  cases hs : t.signed
  · simp
    omega
  · simp only [Bool.true_and, decide_eq_true_eq, if_true]
    by_cases h : 2 ^ (t.bits - 1) ≤ n
    · have h' : (2 : Int) ^ (t.bits - 1) ≤ n := by exact_mod_cast h
      rw [if_pos h]
      refine ⟨by omega, by simp [Int.ModEq], fun h1 _ => ?_, fun _ h1 => ?_⟩
      · have : (n : Int) = 2 ^ (t.bits - 1) := by omega
        exact_mod_cast this
      · have : (n : Int) = 2 ^ (t.bits - 1) := by exact_mod_cast h1
        omega
    · have h' : (n : Int) < 2 ^ (t.bits - 1) := by exact_mod_cast not_le.1 h
      rw [if_neg h]
      exact ⟨by omega, rfl, fun h1 => by omega, fun _ h1 => by omega⟩

/-- the conversion is refused as too big from here on: the digits above the first would not fit. -/
theorem length_big {h : Huge} (hc : h.Canonical) (bits : Nat) :
    (h.digits.length - 1) * SHIFT ≤ bits ↔ |h.val| < 2 ^ (30 * (bits / 30 + 1)) := by
  have hS : SHIFT = 30 := rfl
  have habs : h.val.natAbs = dval h.digits := by
    unfold Huge.val; cases h.isPositive <;> simp
  have hv : |h.val| = (dval h.digits : Int) := by rw [Int.abs_eq_natAbs, habs]
  rw [hv, hS]
  have h1 : ((dval h.digits : Int) < 2 ^ (30 * (bits / 30 + 1))) ↔ dval h.digits < 2 ^ (30 * (bits / 30 + 1)) := by
    constructor <;> intro h <;> exact_mod_cast h
  rw [h1]
  by_cases he : h.digits = []
  · simp [he]
  constructor
  · intro h2
    have h3 := dval_lt hc.1
    rw [← BASE_pow, ← pow_mul] at h3
    exact lt_of_lt_of_le h3 (Nat.pow_le_pow_right (by norm_num) (by omega))
  · intro h2
    have h3 := Canon.ge hc he
    rw [← BASE_pow, ← pow_mul] at h3
    have := (Nat.pow_lt_pow_iff_right (by norm_num)).1 (lt_of_le_of_lt h3 h2)
    omega

theorem toInt_exact {t : IntTy} (ht : t.Wide) {h : Huge} (hc : h.Canonical) :
    ((h.val < 0 ∧ t.signed = false) ∨ 2 ^ (30 * (t.bits / 30 + 1)) ≤ |h.val| → ∃ m, toInt t h = .throw m) ∧
    (¬ ((h.val < 0 ∧ t.signed = false) ∨ 2 ^ (30 * (t.bits / 30 + 1)) ≤ |h.val|) →
      (h.val < 0 ∧ |h.val| % 2 ^ t.bits = 2 ^ (t.bits - 1) → ∃ m, toInt t h = .ub m) ∧
      (¬ (h.val < 0 ∧ |h.val| % 2 ^ t.bits = 2 ^ (t.bits - 1)) →
        ∃ z, toInt t h = .ok z ∧ t.has z ∧ z ≡ h.val [ZMOD 2 ^ t.bits])) := by
  have hB := BASE_eq
  have ht' : 32 ≤ t.bits := ht
  have habs : h.val.natAbs = dval h.digits := by
    unfold Huge.val; cases h.isPositive <;> simp
  have hv : |h.val| = (dval h.digits : Int) := by rw [Int.abs_eq_natAbs, habs]
  by_cases he : h.digits = []
  · have h0 : h.val = 0 := by simp [Huge.val, he]
    rw [h0]
    simp only [lt_irrefl, false_and, false_or, abs_zero, not_false_eq_true, true_imp_iff, false_imp_iff, true_and]
    refine ⟨fun hx => absurd hx (by simp), fun _ => ⟨0, by simp [toInt, he], ?_, rfl⟩⟩
    unfold IntTy.has IntTy.min IntTy.max
    cases t.signed
    · simp
      exact one_le_pow₀ (by norm_num)
    · simp
      exact one_le_pow₀ (by norm_num)
  have hpos := Canon.pos hc he
  have he' : ¬ (h.digits.isEmpty = true) := by simpa using he
  have hneg : h.val < 0 ↔ h.isPositive = false := by
    unfold Huge.val
    cases h.isPositive <;> simp <;> omega
  have hval : h.val = (dval h.digits : Int) * (if h.isPositive = true then 1 else -1) := by
    unfold Huge.val; ring
  have hmod : ((dval h.digits % 2 ^ t.bits : Nat) : Int) ≡ dval h.digits [ZMOD 2 ^ t.bits] := by
    push_cast
    exact Int.mod_modEq _ _
  obtain ⟨r1, r2, r3, r4⟩ := IntTy.ofRepr_spec ht (Nat.mod_lt (dval h.digits) (show 0 < 2 ^ t.bits by positivity))
  have e : (2 : Int) ^ t.bits = 2 ^ (t.bits - 1) * 2 := by rw [← pow_succ]; congr 1; omega
  have hp : (0 : Int) < 2 ^ (t.bits - 1) := by positivity
  -- the branch for several digits
  have big : toInt.toIntBig t h (if h.isPositive = true then 1 else -1) =
      if |h.val| < 2 ^ (30 * (t.bits / 30 + 1)) then
        (if t.has (t.ofRepr (dval h.digits % 2 ^ t.bits) * (if h.isPositive = true then 1 else -1)) then
          .ok (t.ofRepr (dval h.digits % 2 ^ t.bits) * (if h.isPositive = true then 1 else -1))
        else if t.signed then .ub "signed overflow"
        else .ok ((t.ofRepr (dval h.digits % 2 ^ t.bits) * (if h.isPositive = true then 1 else -1)) % 2 ^ t.bits))
      else .throw "The Huge is too big." := by
    unfold toInt.toIntBig
    by_cases hb : |h.val| < 2 ^ (30 * (t.bits / 30 + 1))
    · rw [if_pos hb]
      simp only [(length_big hc t.bits).2 hb, decide_true, Res.assert_true, Res.bind_ok]
      rw [toIntLoop_spec t.bits (by omega) h.digits hc.1]
      simp only [decide_eq_true_eq]
    · rw [if_neg hb]
      have : ¬ (h.digits.length - 1) * SHIFT ≤ t.bits := fun h1 => hb ((length_big hc t.bits).1 h1)
      simp only [this, decide_false, Res.assert_false]
      rfl
  -- the branch for one digit agrees
  have hall : (h.isPositive || t.signed) = true →
      toInt t h = toInt.toIntBig t h (if h.isPositive = true then 1 else -1) := by
    intro hsg
    unfold toInt
    rw [if_neg he', hsg, Res.assert_true, Res.bind_ok]
    rcases hd : h.digits with _ | ⟨d, _ | ⟨e, l⟩⟩
    · exact absurd hd he
    · simp only
      split
      · have hdlt : d < 2 ^ 30 := by
          have := hc.1 d (by rw [hd]; simp)
          omega
        have hdv : dval h.digits = d := by rw [hd]; simp
        have hsmall : d < 2 ^ (t.bits - 1) := lt_of_lt_of_le hdlt (Nat.pow_le_pow_right (by norm_num) (by omega))
        have hd1 : d < 2 ^ t.bits := lt_of_lt_of_le hdlt (Nat.pow_le_pow_right (by norm_num) (by omega))
        have hsm' : (d : Int) < 2 ^ (t.bits - 1) := by exact_mod_cast hsmall
        have hlt : |h.val| < 2 ^ (30 * (t.bits / 30 + 1)) := by
          rw [hv, hdv]
          have : d < 2 ^ (30 * (t.bits / 30 + 1)) := lt_of_lt_of_le hdlt (Nat.pow_le_pow_right (by norm_num) (by omega))
          exact_mod_cast this
        have hrep : t.ofRepr d = d := by
          unfold IntTy.ofRepr
          rw [if_neg]
          simp only [Bool.and_eq_true, decide_eq_true_eq, not_and, not_le]
          exact fun _ => hsmall
        have hh : t.has ((d : Int) * (if h.isPositive = true then 1 else -1)) := by
          unfold IntTy.has IntTy.min IntTy.max
          cases hs : t.signed
          · rw [hs, Bool.or_false] at hsg
            simp [hsg]
            omega
          · cases h.isPositive <;> simp <;> omega
        rw [big, if_pos hlt, hdv, Nat.mod_eq_of_lt hd1, hrep, if_pos hh]
      · rfl
    · rfl
  constructor
  · rintro (⟨h1, h2⟩ | h1)
    · refine ⟨"The Huge is negative but U is unsigned.", ?_⟩
      unfold toInt
      rw [if_neg he', hneg.1 h1, h2]
      rfl
    · cases hsg : (h.isPositive || t.signed)
      · refine ⟨"The Huge is negative but U is unsigned.", ?_⟩
        unfold toInt
        rw [if_neg he', hsg]
        rfl
      · exact ⟨_, by rw [hall hsg, big, if_neg (not_lt.2 h1)]⟩
  · intro hn
    rw [not_or] at hn
    obtain ⟨hn1, hn2⟩ := hn
    have hsg : (h.isPositive || t.signed) = true := by
      cases h1 : h.isPositive
      · cases h2 : t.signed
        · exact absurd ⟨hneg.2 h1, h2⟩ hn1
        · rfl
      · rfl
    rw [hall hsg, big, if_pos (not_le.1 hn2)]
    have hcast : |h.val| % 2 ^ t.bits = ((dval h.digits % 2 ^ t.bits : Nat) : Int) := by rw [hv]; push_cast; rfl
    have hpw : ((2 ^ (t.bits - 1) : Nat) : Int) = 2 ^ (t.bits - 1) := by push_cast; rfl
    constructor
    · rintro ⟨h1, h2⟩
      have hip := hneg.1 h1
      rw [hip, Bool.false_or] at hsg
      have hm := r4 hsg (by rw [hcast] at h2; exact_mod_cast h2)
      refine ⟨"signed overflow", ?_⟩
      rw [hip, hm, hsg, if_neg]
      · rfl
      · unfold IntTy.has IntTy.min IntTy.max
        rw [hsg]
        simp
    · intro h1
      have hz : t.ofRepr (dval h.digits % 2 ^ t.bits) * (if h.isPositive = true then 1 else -1) ≡ h.val [ZMOD 2 ^ t.bits] := by
        rw [hval]
        exact (r2.trans hmod).mul_right _
      have hhas : t.has (t.ofRepr (dval h.digits % 2 ^ t.bits) * (if h.isPositive = true then 1 else -1)) := by
        cases hip : h.isPositive
        · rw [hip, Bool.false_or] at hsg
          have hne : t.ofRepr (dval h.digits % 2 ^ t.bits) ≠ t.min := fun hm => by
            refine h1 ⟨hneg.2 hip, ?_⟩
            rw [hcast, r3 hm hsg, hpw]
          unfold IntTy.has IntTy.min IntTy.max at r1 ⊢
          unfold IntTy.min at hne
          simp only [hsg, if_true, Bool.false_eq_true, if_false] at r1 hne ⊢
          omega
        · simpa using r1
      exact ⟨_, if_pos hhas, hhas, hz⟩

end Symxx.Huge
