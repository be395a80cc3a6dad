import Verif.Num.RealSound
import Verif.Num.RealCmp
/-!
# `Real`: comparisons in a run without rounding
-/
namespace Symxx.Num

theorem Rational.lt_sound {M : Int} {a b : Rational} {v : Bool} (ha : 0 < a.den) (hb : 0 < b.den) (h : lt M a b = .ok v) :
    v = true ↔ a.val < b.val := by
  unfold lt at h
  obtain ⟨⟨x, y⟩, h1, h⟩ := Res.bind_eq_ok.1 h
  obtain ⟨rfl, rfl⟩ := cross_spec h1
  injection h with h
  have h1 : (0 : ℚ) < a.den := by exact_mod_cast ha
  have h2 : (0 : ℚ) < b.den := by exact_mod_cast hb
  rw [← h, decide_eq_true_iff]
  unfold val
  rw [div_lt_div_iff₀ h1 h2]
  exact_mod_cast Iff.rfl

theorem Rational.gt_sound {M : Int} {a b : Rational} {v : Bool} (ha : 0 < a.den) (hb : 0 < b.den) (h : gt M a b = .ok v) :
    v = true ↔ b.val < a.val := by
  unfold gt at h
  obtain ⟨⟨x, y⟩, h1, h⟩ := Res.bind_eq_ok.1 h
  obtain ⟨rfl, rfl⟩ := cross_spec h1
  injection h with h
  have h1 : (0 : ℚ) < a.den := by exact_mod_cast ha
  have h2 : (0 : ℚ) < b.den := by exact_mod_cast hb
  rw [← h, decide_eq_true_iff]
  unfold val
  rw [div_lt_div_iff₀ h2 h1]
  exact_mod_cast Iff.rfl

namespace Real
variable {env : Env} {B : Nat}

theorem leZero_sound {e : Env} {c : Rational} {v : Bool} (h : leZero e c = .ok v) : v = decide (c.num ≤ 0) := by
  unfold leZero at h
  obtain ⟨z, h1, h⟩ := Res.bind_eq_ok.1 h
  obtain ⟨rfl, -⟩ := Rational.ofInt_spec h1
  unfold Rational.le at h
  obtain ⟨⟨x, y⟩, h1, h⟩ := Res.bind_eq_ok.1 h
  obtain ⟨rfl, rfl⟩ := Rational.cross_spec h1
  injection h with h
  rw [← h]; simp

theorem geZero_sound {e : Env} {c : Rational} {v : Bool} (h : geZero e c = .ok v) : v = decide (0 ≤ c.num) := by
  unfold geZero at h
  obtain ⟨z, h1, h⟩ := Res.bind_eq_ok.1 h
  obtain ⟨rfl, -⟩ := Rational.ofInt_spec h1
  unfold Rational.ge at h
  obtain ⟨⟨x, y⟩, h1, h⟩ := Res.bind_eq_ok.1 h
  obtain ⟨rfl, rfl⟩ := Rational.cross_spec h1
  injection h with h
  rw [← h]; simp

theorem cmpSide_sound (hg : env.Base B) {c rad x : Rational} {e k : Nat} (hc : 0 < c.den) (hr : 0 < rad.den) (he : 0 < e)
    (hk : 0 < k) (he2 : (e : Int) ≤ 2 * env.M + 1) (hk2 : (k : Int) ≤ 2 * env.M + 1)
    (h : cmpSide (env.checked B) c e rad k = .ok x) : x.val = c.val ^ e * rad.val ^ k ∧ 0 < x.den := by
  unfold cmpSide at h
  obtain ⟨pe, h1, h⟩ := Res.bind_eq_ok.1 h
  obtain ⟨u, h2, h⟩ := Res.bind_eq_ok.1 h
  obtain ⟨pk, h3, h⟩ := Res.bind_eq_ok.1 h
  obtain ⟨w, h4, h⟩ := Res.bind_eq_ok.1 h
  obtain ⟨u1, -, u3⟩ := indexPow_sound hg hc.ne' he he2 h1 h2
  obtain ⟨w1, -, w3⟩ := indexPow_sound hg hr.ne' hk hk2 h3 h4
  obtain ⟨m1, -, -, -, -, m6⟩ := Rational.mul_spec h
  exact ⟨by rw [m1, u1, w1], m6 (u3 hc) (w3 hr)⟩

theorem zero_iff {x : ℝ} {n : Int} (h : (x < 0 ↔ n < 0) ∧ (0 < x ↔ 0 < n)) : x = 0 ↔ n = 0 := by
  constructor
  · intro e
    have h1 : ¬ n < 0 := fun hn => absurd (h.1.2 hn) (by rw [e]; exact lt_irrefl _)
    have h2 : ¬ 0 < n := fun hn => absurd (h.2.2 hn) (by rw [e]; exact lt_irrefl _)
    omega
  · intro e
    rcases lt_trichotomy x 0 with hx | hx | hx
    · have := h.1.1 hx; omega
    · exact hx
    · have := h.2.1 hx; omega

/-- comparing the powers of two positive normal forms. -/
theorem side_pow {a : Real} {N : Nat} (e : a.rad = ⟨N, 1⟩) (hi : 0 < a.index) (j : Nat) {c x : Rational}
    (hc : ((c.val : ℚ) : ℝ) = (a.coe.val : ℝ) ∨ ((c.val : ℚ) : ℝ) = -(a.coe.val : ℝ))
    (hx : x.val = c.val ^ (j * a.index) * (⟨N, 1⟩ : Rational).val ^ j) (hp : 0 ≤ c.val) :
    ((x.val : ℚ) : ℝ) = |a.val| ^ (j * a.index) := by
  have h1 := val_pow e hi j
  have h2 : |(a.coe.val : ℝ)| = ((c.val : ℚ) : ℝ) := by
    have hp' : (0 : ℝ) ≤ ((c.val : ℚ) : ℝ) := by exact_mod_cast hp
    rcases hc with h | h
    · rw [← h, abs_of_nonneg hp']
    · rw [← abs_neg, ← h, abs_of_nonneg hp']
  rw [← abs_pow, mul_comm j, h1, abs_mul, abs_pow, h2, hx, mul_comm j, Rational.val_int]
  push_cast
  rw [abs_of_nonneg (by positivity : (0 : ℝ) ≤ (N : ℝ) ^ j)]

/-- `operator<` on normal forms. -/
theorem lt_sound (hg : env.Base B) {a b : Real} {v : Bool} (ha : a.Canon) (hb : b.Canon) (hda : 0 < a.coe.den)
    (hdb : 0 < b.coe.den) (hi : ((b.index * a.index : Nat) : Int) ≤ 2 * env.M + 1)
    (h : lt (env.checked B) a b = .ok v) : v = true ↔ a.val < b.val := by
  have sga := val_sign ha hda
  have sgb := val_sign hb hdb
  have va := ha.valid
  have vb := hb.valid
  obtain ⟨N, ea, sa, -, za⟩ := ha
  obtain ⟨N', eb, sb, -, zb⟩ := hb
  have hia := sa.2.1
  have hib := sb.2.1
  have hK : 0 < b.index * a.index := Nat.mul_pos hib hia
  have hmU : mulU (env.checked B) b.index a.index = b.index * a.index := by
    unfold mulU
    have : (env.checked B).M = env.M := rfl
    rw [this, Int.emod_eq_of_lt (by positivity) (by omega)]
    exact Int.toNat_natCast _
  have ib2 : (b.index : Int) ≤ 2 * env.M + 1 := le_trans (by exact_mod_cast Nat.le_mul_of_pos_right _ hia) hi
  have ia2 : (a.index : Int) ≤ 2 * env.M + 1 := le_trans (by exact_mod_cast Nat.le_mul_of_pos_left _ hib) hi
  unfold lt at h
  obtain ⟨q, h1, h⟩ := Res.bind_eq_ok.1 h
  cases q with
  | true =>
    rw [if_pos rfl] at h
    injection h with h
    have := eq_true_sound va.toPre vb.toPre h1
    rw [← h, this]; simp
  | false =>
  rw [if_neg (by simp)] at h
  have hne : ¬ (a.val = 0 ∧ b.val = 0) := by
    rintro ⟨e1, e2⟩
    have e1 := (zero_iff sga).1 e1
    have e2 := (zero_iff sgb).1 e2
    -- both zero: `==` is true
    unfold eq at h1
    obtain ⟨w, h2, h1⟩ := Res.bind_eq_ok.1 h1
    have w1 := Rational.eq_sound h2
    rw [e1, e2, zero_mul, zero_mul, decide_eq_true rfl] at w1
    subst w1
    rw [if_pos rfl] at h1
    obtain ⟨w, h3, h1⟩ := Res.bind_eq_ok.1 h1
    have w2 := Rational.eq_sound h3
    have n1 := za e1
    have n2 := zb e2
    subst n1 n2
    rw [ea, eb, decide_eq_true rfl] at w2
    subst w2
    rw [if_pos rfl] at h1
    injection h1 with h1
    rw [sa.one, sb.one] at h1
    simp at h1
  obtain ⟨al, h2, h⟩ := Res.bind_eq_ok.1 h
  have el := leZero_sound h2
  obtain ⟨bg, h3, h⟩ := Res.bind_eq_ok.1 h
  by_cases c1 : a.coe.num ≤ 0
  · rw [decide_eq_true c1] at el
    subst el
    rw [if_pos rfl] at h3
    have eg := geZero_sound h3
    have na : a.val ≤ 0 := not_lt.1 fun h => absurd (sga.2.1 h) (by omega)
    by_cases c2 : 0 ≤ b.coe.num
    · rw [decide_eq_true c2] at eg
      subst eg
      simp only [Bool.and_self, if_true] at h
      injection h with h
      have nb : 0 ≤ b.val := not_lt.1 fun h => absurd (sgb.1.1 h) (by omega)
      rw [← h]
      simp only [true_iff]
      rcases lt_or_eq_of_le na with h | h
      · linarith
      · rcases lt_or_eq_of_le nb with h' | h'
        · linarith
        · exact absurd ⟨h, h'.symm⟩ hne
    · rw [decide_eq_false c2] at eg
      subst eg
      simp only [Bool.and_false, Bool.false_eq_true, if_false] at h
      have nb : b.val < 0 := sgb.1.2 (by omega)
      obtain ⟨ag, h4, h⟩ := Res.bind_eq_ok.1 h
      have eag := geZero_sound h4
      obtain ⟨bl, h5, h⟩ := Res.bind_eq_ok.1 h
      by_cases c3 : a.coe.num = 0
      · have e0 : ag = true := by rw [eag]; simp [c3]
        subst e0
        rw [if_pos rfl] at h5
        have := leZero_sound h5
        rw [decide_eq_true (by omega)] at this
        subst this
        simp only [Bool.and_self, if_true] at h
        injection h with h
        have a0 := (zero_iff sga).2 c3
        rw [← h, a0]
        simp only [Bool.false_eq_true, false_iff, not_lt]
        exact nb.le
      · have e0 : ag = false := by rw [eag]; simp; omega
        subst e0
        simp only [Bool.false_and, Bool.false_eq_true, if_false, if_true] at h
        obtain ⟨bl', h6, h⟩ := Res.bind_eq_ok.1 h
        have := leZero_sound h6
        rw [decide_eq_true (by omega)] at this
        subst this
        simp only [Bool.and_self, if_true] at h
        obtain ⟨cna, h7, h⟩ := Res.bind_eq_ok.1 h
        obtain ⟨x, h8, h⟩ := Res.bind_eq_ok.1 h
        obtain ⟨cnb, h9, h⟩ := Res.bind_eq_ok.1 h
        obtain ⟨y, h10, h⟩ := Res.bind_eq_ok.1 h
        obtain ⟨p1, -, -, p4, -⟩ := Rational.negate_spec hda.ne' h7
        obtain ⟨r1, -, -, r4, -⟩ := Rational.negate_spec hdb.ne' h9
        rw [hmU, ea] at h8
        rw [hmU, eb] at h10
        obtain ⟨x1, x2⟩ := cmpSide_sound hg (p4 hda) (by norm_num) hK hib hi ib2 h8
        obtain ⟨y1, y2⟩ := cmpSide_sound hg (r4 hdb) (by norm_num) hK hia hi ia2 h10
        have ha' : a.val < 0 := sga.1.2 (by omega)
        have cp : ∀ {c : Rational}, 0 < c.den → c.num ≤ 0 → c.val ≤ 0 := fun hd hn => by
          unfold Rational.val
          exact div_nonpos_of_nonpos_of_nonneg (by exact_mod_cast hn) (by exact_mod_cast hd.le)
        have s1 := side_pow ea hia b.index (c := cna) (x := x) (Or.inr (by rw [p1]; push_cast; ring)) x1
          (by rw [p1]; have := cp hda c1; linarith)
        have s2 := side_pow eb hib a.index (c := cnb) (x := y) (Or.inr (by rw [r1]; push_cast; ring))
          (by rw [y1, mul_comm a.index]) (by rw [r1]; have := cp hdb (by omega); linarith)
        rw [Rational.gt_sound x2 y2 h]
        have : ((y.val : ℚ) : ℝ) < ((x.val : ℚ) : ℝ) ↔ y.val < x.val := by exact_mod_cast Iff.rfl
        rw [← this, s1, s2, mul_comm a.index, pow_lt_pow_iff_left₀ (abs_nonneg _) (abs_nonneg _) hK.ne',
          abs_of_neg ha', abs_of_neg nb]
        constructor <;> intro h <;> linarith
  · rw [decide_eq_false c1] at el
    subst el
    rw [if_neg (by simp)] at h3
    injection h3 with h3
    subst h3
    simp only [Bool.and_self, Bool.false_eq_true, if_false] at h
    have ha' : 0 < a.val := sga.2.2 (by omega)
    obtain ⟨ag, h4, h⟩ := Res.bind_eq_ok.1 h
    have eag := geZero_sound h4
    rw [decide_eq_true (by omega)] at eag
    subst eag
    obtain ⟨bl, h5, h⟩ := Res.bind_eq_ok.1 h
    rw [if_pos rfl] at h5
    have ebl := leZero_sound h5
    by_cases c2 : b.coe.num ≤ 0
    · rw [decide_eq_true c2] at ebl
      subst ebl
      simp only [Bool.and_self, if_true] at h
      injection h with h
      have nb : b.val ≤ 0 := not_lt.1 fun h => absurd (sgb.2.1 h) (by omega)
      rw [← h]
      simp only [Bool.false_eq_true, false_iff, not_lt]
      linarith
    · rw [decide_eq_false c2] at ebl
      subst ebl
      simp only [Bool.and_false, Bool.false_eq_true, if_false, Res.bind_ok, Bool.and_self] at h
      have nb : 0 < b.val := sgb.2.2 (by omega)
      obtain ⟨x, h8, h⟩ := Res.bind_eq_ok.1 h
      obtain ⟨y, h10, h⟩ := Res.bind_eq_ok.1 h
      rw [hmU, ea] at h8
      rw [hmU, eb] at h10
      obtain ⟨x1, x2⟩ := cmpSide_sound hg hda (by norm_num) hK hib hi ib2 h8
      obtain ⟨y1, y2⟩ := cmpSide_sound hg hdb (by norm_num) hK hia hi ia2 h10
      have cp : ∀ {c : Rational}, 0 < c.den → 0 ≤ c.num → 0 ≤ c.val := fun hd hn => by
        unfold Rational.val
        exact div_nonneg (by exact_mod_cast hn) (by exact_mod_cast hd.le)
      have s1 := side_pow ea hia b.index (c := a.coe) (x := x) (Or.inl rfl) x1 (cp hda (by omega))
      have s2 := side_pow eb hib a.index (c := b.coe) (x := y) (Or.inl rfl) (by rw [y1, mul_comm a.index]) (cp hdb (by omega))
      rw [Rational.lt_sound x2 y2 h]
      have : ((x.val : ℚ) : ℝ) < ((y.val : ℚ) : ℝ) ↔ x.val < y.val := by exact_mod_cast Iff.rfl
      rw [← this, s1, s2, mul_comm a.index, pow_lt_pow_iff_left₀ (abs_nonneg _) (abs_nonneg _) hK.ne',
        abs_of_pos ha', abs_of_pos nb]

/-- `operator==` on normal forms. -/
theorem eq_sound {e : Env} {a b : Real} {v : Bool} (ha : a.Canon) (hb : b.Canon) (h : eq e a b = .ok v) :
    v = true ↔ a.val = b.val := (eq_sat ha hb).post h

/-- `operator>` on normal forms. -/
theorem gt_sound (hg : env.Base B) {a b : Real} {v : Bool} (ha : a.Canon) (hb : b.Canon) (hda : 0 < a.coe.den)
    (hdb : 0 < b.coe.den) (hi : ((b.index * a.index : Nat) : Int) ≤ 2 * env.M + 1)
    (h : gt (env.checked B) a b = .ok v) : v = true ↔ a.val > b.val := by
  unfold gt at h
  obtain ⟨w, h1, h⟩ := Res.bind_eq_ok.1 h
  have e1 := lt_sound hg ha hb hda hdb hi h1
  cases w with
  | true =>
    rw [if_pos rfl] at h
    injection h with h
    have := e1.1 rfl
    rw [← h]
    simp only [Bool.false_eq_true, false_iff]
    linarith
  | false =>
    rw [if_neg (by simp)] at h
    obtain ⟨w, h2, h⟩ := Res.bind_eq_ok.1 h
    injection h with h
    have e2 := eq_sound ha hb h2
    have e1' : ¬ a.val < b.val := fun h => by have := e1.2 h; simp at this
    rw [← h]
    cases w with
    | true => have := e2.1 rfl; simp [this]
    | false =>
      have e2' : a.val ≠ b.val := fun h => by have := e2.2 h; simp at this
      simp only [Bool.not_false, true_iff]
      exact lt_of_le_of_ne (not_lt.1 e1') (Ne.symm e2')

end Real
end Symxx.Num
