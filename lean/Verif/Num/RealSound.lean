import Verif.Num.RealMono
import Verif.Num.RealPow
/-!
# `Real`: what a run without rounding computes

Every operation that returns in the checked environment returns a `Real` denoting the mathematical
result. No size conditions: overflow, rounding and Errors are the other outcomes.
-/
namespace Symxx.Num

theorem Rational.eqInt_sound {M k : Int} {p : Rational} {b : Bool} (h : eqInt M p k = .ok b) :
    b = decide (p.num = k * p.den) := by
  unfold eqInt at h
  obtain ⟨r, h1, h⟩ := Res.bind_eq_ok.1 h
  obtain ⟨rfl, -⟩ := ofInt_spec h1
  unfold eq at h
  obtain ⟨⟨x, y⟩, h1, h⟩ := Res.bind_eq_ok.1 h
  obtain ⟨rfl, rfl⟩ := cross_spec h1
  injection h with h
  rw [← h]; simp

theorem Rational.eq_sound {M : Int} {a b : Rational} {v : Bool} (h : eq M a b = .ok v) :
    v = decide (a.num * b.den = b.num * a.den) := by
  unfold eq at h
  obtain ⟨⟨x, y⟩, h1, h⟩ := Res.bind_eq_ok.1 h
  obtain ⟨rfl, rfl⟩ := cross_spec h1
  injection h with h
  rw [← h]

theorem Rational.eq_sound_val {M : Int} {a b : Rational} {v : Bool} (ha : a.den ≠ 0) (hb : b.den ≠ 0)
    (h : eq M a b = .ok v) : v = true ↔ a.val = b.val := by
  rw [eq_sound h, val_eq_iff ha hb]; simp

theorem Rational.eqInt_sound_val {M k : Int} {p : Rational} {b : Bool} (hp : p.den ≠ 0) (h : eqInt M p k = .ok b) :
    b = true ↔ p.val = k := by
  rw [eqInt_sound h]
  have : (p.den : ℚ) ≠ 0 := by exact_mod_cast hp
  rw [decide_eq_true_iff]
  unfold val
  rw [div_eq_iff this]
  exact_mod_cast Iff.rfl

theorem Rational.val_zero_iff {r : Rational} (h : r.den ≠ 0) : r.val = 0 ↔ r.num = 0 := by
  unfold val
  have : (r.den : ℚ) ≠ 0 := by exact_mod_cast h
  rw [div_eq_zero_iff]
  simp only [this, or_false]
  exact_mod_cast Iff.rfl

theorem Rational.val_int (k : Int) : Rational.val ⟨k, 1⟩ = k := by simp [val]

variable {env : Env} {B : Nat}

/-- a floating-point power admitted by the checked environment. -/
theorem powT_sound (hg : env.Base B) {n p q r : Int} (h : (env.checked B).fl.powT n p q = .ok r) :
    ∃ k : Nat, p = k * q ∧ q ≠ 0 ∧ r = n ^ k := by
  simp only [Env.checked] at h
  split at h
  · rename_i hc
    obtain ⟨h1, ⟨c, rfl⟩, h3, h4, h5, h6⟩ := hc
    rw [Int.mul_ediv_cancel_left _ h1] at h3 h6
    have e : q * c = (c.toNat : Nat) * q := by rw [Int.toNat_of_nonneg h3]; ring
    refine ⟨c.toNat, e, h1, ?_⟩
    rw [hg.exact.powT n _ q c.toNat h1 e h4 h5 h6] at h
    injection h with h
    exact h.symm
  · cases h

/-- `Rational::pow` in the checked environment: the exponent is a natural number. -/
theorem Rational.pow_sound (hg : env.Base B) {a p r : Rational} (ha : a.den ≠ 0) (hp : p.den ≠ 0)
    (h : pow env.M (env.checked B).fl a p = .ok r) :
    ∃ k : Nat, p.val = k ∧ r.val = a.val ^ k ∧ r.den ≠ 0 ∧ (0 < a.den → 0 < r.den) := by
  unfold pow at h
  obtain ⟨b, h1, h⟩ := Res.bind_eq_ok.1 h
  have e1 := eqInt_sound_val hp h1
  cases b with
  | true =>
    rw [if_pos rfl] at h
    obtain ⟨rfl, -⟩ := ofInt_spec h
    exact ⟨0, by have := e1.1 rfl; simpa using this, by simp [val], by norm_num, fun _ => by norm_num⟩
  | false =>
    rw [if_neg (by simp)] at h
    obtain ⟨b, h2, h⟩ := Res.bind_eq_ok.1 h
    have e2 := eqInt_sound_val hp h2
    cases b with
    | true =>
      rw [if_pos rfl] at h
      injection h with h
      subst h
      exact ⟨1, by have := e2.1 rfl; simpa using this, by simp, ha, fun h => h⟩
    | false =>
      rw [if_neg (by simp)] at h
      obtain ⟨n, h3, h⟩ := Res.bind_eq_ok.1 h
      obtain ⟨d, h4, h⟩ := Res.bind_eq_ok.1 h
      obtain ⟨k, k1, k2, rfl⟩ := powT_sound hg h3
      obtain ⟨k', k1', -, rfl⟩ := powT_sound hg h4
      have : k' = k := by
        rw [k1] at k1'
        have := mul_right_cancel₀ k2 k1'
        exact_mod_cast this.symm
      subst this
      obtain ⟨g1, -, g3, -, g5, -⟩ := normalize_spec h (pow_ne_zero _ ha)
      refine ⟨k', ?_, ?_, g3, fun hd => g5 (pow_pos hd _)⟩
      · unfold val
        have : (p.den : ℚ) ≠ 0 := by exact_mod_cast hp
        rw [k1]; push_cast; field_simp
      · rw [g1]; unfold val; push_cast; rw [div_pow]

namespace Real

/-- what normalisation needs. -/
structure Pre (r : Real) : Prop where
  index : 0 < r.index
  rad : r.rad.den ≠ 0
  coe : r.coe.den ≠ 0

/-- the invariant of the Reals the library builds (normal forms and their inverses). -/
structure Valid (r : Real) : Prop extends Pre r where
  pos : 0 < r.rad.val
  one : r.index = 1 → r.rad.val = 1
  zero : r.coe.val = 0 → r.index = 1

theorem Canon.valid {r : Real} (h : r.Canon) : r.Valid := by
  obtain ⟨N, e, hs, hd, hz⟩ := h
  refine ⟨⟨hs.2.1, by rw [e]; norm_num, hd⟩, ?_, ?_, ?_⟩
  · rw [e, Rational.val_int]; exact_mod_cast hs.1
  · intro h
    rw [h] at hs
    rw [e, hs.idx_one]; simp [Rational.val]
  · intro h
    have := hz ((Rational.val_zero_iff hd).1 h)
    subst this
    exact hs.one

theorem fac_checked {n : Int} {l : List Nat} (h : (env.checked B).fac n = .ok l) : 0 < n ∧ n ≤ B := by
  simp only [Env.checked] at h
  split at h
  · assumption
  · cases h

theorem ofPow_checked (hg : env.Base B) {n : Int} {k : Nat} {r : Rational}
    (h : (env.checked B).fl.ofPow n k = .ok r) : 0 < n ∧ n ^ k ≤ (B : Int) ∧ r = ⟨n ^ k, 1⟩ := by
  simp only [Env.checked] at h
  split at h
  · rename_i hc
    refine ⟨hc.1, hc.2, ?_⟩
    rw [hg.exact.ofPow n k hc.1 (le_trans hc.2 (by exact_mod_cast hg.hB))] at h
    injection h with h
    exact h.symm
  · cases h

theorem normalize_normOf (hg : env.Base B) {r r' : Real} (hr : r.Pre) (h : normalize (env.checked B) r = .ok r') :
    (∃ bound, NormOf bound r r') ∧ 0 < r.rad.val := by
  have hm := normalize_mono (env.checked_le_primes B) r r' h
  have key : 0 < r.rad.num ∧ 0 < r.rad.den ∧ cleared r.index r.rad.num.toNat r.rad.den.toNat ≤ B ∧
      r.rad.den.toNat ^ r.index ≤ B ∨ (0 < r.rad.num ∧ r.rad.den = 1 ∧ r.rad.num ≤ B) := by
    unfold normalize at h
    obtain ⟨⟨c, rd⟩, h1, h⟩ := Res.bind_eq_ok.1 h
    simp only at h
    obtain ⟨fs, h2, -⟩ := Res.bind_eq_ok.1 h
    unfold decompose at h2
    obtain ⟨l, h2, -⟩ := Res.bind_eq_ok.1 h2
    obtain ⟨p1, p2⟩ := fac_checked h2
    by_cases hi : r.rad.den = 1
    · right
      rw [if_neg (by simp [Rational.isInt, hi])] at h1
      injection h1 with h1
      injection h1 with h1 h3
      subst h3
      exact ⟨p1, hi, p2⟩
    · left
      rw [if_pos (by simp [Rational.isInt, hi])] at h1
      obtain ⟨d, h3, h1⟩ := Res.bind_eq_ok.1 h1
      obtain ⟨c', h4, h1⟩ := Res.bind_eq_ok.1 h1
      obtain ⟨pd, h5, h1⟩ := Res.bind_eq_ok.1 h1
      obtain ⟨rd', h6, h1⟩ := Res.bind_eq_ok.1 h1
      injection h1 with h1
      injection h1 with h1 h7
      subst h7
      obtain ⟨q1, q2, rfl⟩ := ofPow_checked hg h5
      obtain ⟨m1, m2, -, -, -, m6⟩ := Rational.mul_spec h6
      replace m6 := m6 q1 (by norm_num)
      obtain ⟨k, ⟨n, d⟩, coe⟩ := r
      obtain ⟨d, rfl⟩ := Int.eq_ofNat_of_zero_le q1.le
      have hk : 0 < k := hr.index
      simp only at *
      have e : rd'.num = n * (d : Int) ^ (k - 1) * rd'.den := by
        unfold Rational.val at m1
        have z1 : (rd'.den : ℚ) ≠ 0 := by exact_mod_cast m2
        have z2 : (d : ℚ) ≠ 0 := by
          have : d ≠ 0 := by rintro rfl; simp at q1
          exact_mod_cast this
        obtain ⟨j, rfl⟩ : ∃ j, k = j + 1 := ⟨k - 1, by omega⟩
        simp only [Nat.add_sub_cancel]
        push_cast at m1
        rw [div_eq_iff z1, div_one, pow_succ] at m1
        have : (rd'.num : ℚ) = n * (d : ℚ) ^ j * rd'.den := by rw [m1]; field_simp
        exact_mod_cast this
      have hn : 0 < n := by
        rw [e] at p1
        have h1 : 0 < n * (d : Int) ^ (k - 1) := pos_of_mul_pos_right' p1 m6
        exact pos_of_mul_pos_right' h1 (pow_pos q1 _)
      refine ⟨hn, q1, ?_, ?_⟩
      · unfold cleared
        have h1 : n * (d : Int) ^ (k - 1) ≤ rd'.num := by
          rw [e]; exact le_mul_of_one_le_right (mul_pos hn (pow_pos q1 _)).le m6
        have h2 := le_trans h1 p2
        zify
        rw [Int.toNat_of_nonneg hn.le]
        simpa using h2
      · simpa using (by exact_mod_cast q2 : d ^ k ≤ B)
  have key : 0 < r.rad.num ∧ 0 < r.rad.den ∧ cleared r.index r.rad.num.toNat r.rad.den.toNat ≤ B ∧
      r.rad.den.toNat ^ r.index ≤ B := by
    rcases key with h | ⟨h1, h2, h3⟩
    · exact h
    · refine ⟨h1, by omega, ?_, ?_⟩
      · rw [h2]; simp only [Int.toNat_one, cleared_one]; omega
      · rw [h2]; simp; omega
  obtain ⟨k, ⟨n, d⟩, coe⟩ := r
  obtain ⟨h1, h2, h3, h4⟩ := key
  simp only at h1 h2
  obtain ⟨n, rfl⟩ := Int.eq_ofNat_of_zero_le h1.le
  obtain ⟨d, rfl⟩ := Int.eq_ofNat_of_zero_le h2.le
  simp only [Int.toNat_natCast] at h3 h4
  have hn : 0 < n := by omega
  have hd : 0 < d := by omega
  have := (normalize_sat hg.primes k n d hr.index hn hd h3 h4 coe hr.coe).post hm
  refine ⟨⟨_, this⟩, ?_⟩
  rw [natval]; positivity

/-- normalisation keeps the value and returns a normal form. -/
theorem normalize_sound (hg : env.Base B) {r r' : Real} (hr : r.Pre) (h : normalize (env.checked B) r = .ok r') :
    r'.Canon ∧ r'.val = r.val ∧ 0 < r.rad.val ∧ (0 < r.coe.den → 0 < r'.coe.den) := by
  obtain ⟨⟨_, this⟩, hp⟩ := normalize_normOf hg hr h
  exact ⟨this.canon, this.val, hp, this.sign⟩

theorem mk3_sound (hg : env.Base B) {c r : Rational} {i : Nat} {x : Real} (hi : 0 < i) (hr : r.den ≠ 0) (hc : c.den ≠ 0)
    (h : mk3 (env.checked B) c r i = .ok x) :
    x.Canon ∧ x.val = (c.val : ℝ) * (r.val : ℝ) ^ ((1 : ℝ) / i) ∧ 0 < r.val ∧ (0 < c.den → 0 < x.coe.den) :=
  normalize_sound hg ⟨hi, hr, hc⟩ h

theorem ofRational_sound (hg : env.Base B) {c : Rational} {x : Real} (hc : c.den ≠ 0)
    (h : ofRational (env.checked B) c = .ok x) : x.Canon ∧ x.val = (c.val : ℝ) := by
  unfold ofRational at h
  obtain ⟨o, h1, h⟩ := Res.bind_eq_ok.1 h
  obtain ⟨rfl, -⟩ := Rational.ofInt_spec h1
  obtain ⟨h1, h2, -⟩ := mk3_sound hg (by norm_num) (by norm_num) hc h
  exact ⟨h1, by rw [h2]; simp [Rational.val]⟩

theorem ofInt_sound (hg : env.Base B) {c : Int} {x : Real} (h : ofInt (env.checked B) c = .ok x) :
    x.Canon ∧ x.val = (c : ℝ) := by
  unfold ofInt at h
  obtain ⟨o, h1, h⟩ := Res.bind_eq_ok.1 h
  obtain ⟨rfl, -⟩ := Rational.ofInt_spec h1
  obtain ⟨h1, h2⟩ := ofRational_sound hg (by norm_num) h
  exact ⟨h1, by rw [h2, Rational.val_int]; norm_num⟩

/-- the root `radicand^(1/index)`. -/
noncomputable def rootVal (r : Real) : ℝ := (r.rad.val : ℝ) ^ ((1 : ℝ) / r.index)

theorem val_eq (r : Real) : r.val = (r.coe.val : ℝ) * r.rootVal := rfl

theorem Valid.root_pos {r : Real} (h : r.Valid) : 0 < r.rootVal :=
  Real.rpow_pos_of_pos (by exact_mod_cast h.pos) _

/-- equivalent Reals have the same root. -/
theorem isEquivalentWith_sound {e : Env} {a b : Real} (ha : a.Valid) (hb : b.Valid)
    (h : isEquivalentWith e a b = .ok true) : a.rootVal = b.rootVal := by
  unfold isEquivalentWith at h
  obtain ⟨v, h1, h⟩ := Res.bind_eq_ok.1 h
  obtain ⟨w, h2, h⟩ := Res.bind_eq_ok.1 h
  have e1 := Rational.eq_sound_val ha.rad hb.rad h1
  unfold rootVal
  cases w with
  | true =>
    cases v with
    | false => simp at h2
    | true =>
      rw [if_pos rfl] at h2
      have e2 := Rational.eqInt_sound_val ha.rad h2
      have e2 := e2.1 rfl
      have e1 := e1.1 rfl
      rw [← e1, e2]; simp
  | false =>
    rw [if_neg (by simp)] at h
    split at h
    · rename_i hc
      rw [ha.one hc.2, hb.one (by rw [← hc.1]; exact hc.2)]; simp
    · obtain ⟨v', h3, h⟩ := Res.bind_eq_ok.1 h
      have e3 := Rational.eq_sound_val ha.rad hb.rad h3
      injection h with h
      rw [Bool.and_eq_true] at h
      rw [e3.1 h.1, of_decide_eq_true h.2]

theorem add_sound (hg : env.Base B) {a b r : Real} (ha : a.Valid) (hb : b.Valid)
    (h : add (env.checked B) a b = .ok r) : r.Canon ∧ r.val = a.val + b.val := by
  unfold add at h
  obtain ⟨v, h1, h⟩ := Res.bind_eq_ok.1 h
  cases v with
  | false => simp at h
  | true =>
    simp only [Bool.not_true, Bool.false_eq_true, if_false] at h
    obtain ⟨c, h2, h⟩ := Res.bind_eq_ok.1 h
    have hc := Rational.add_spec ha.coe hb.coe h2
    obtain ⟨n1, n2, -⟩ := normalize_sound (r := { a with coe := c }) hg ⟨ha.index, ha.rad, hc.2.2.1.ne'⟩ h
    refine ⟨n1, ?_⟩
    have e := isEquivalentWith_sound ha hb h1
    rw [n2, val_eq a, val_eq b, ← e, ← add_mul, val_eq]
    unfold rootVal
    rw [hc.1]; push_cast; ring

theorem negate_sound (hg : env.Base B) {a r : Real} (ha : a.Valid)
    (h : negate (env.checked B) a = .ok r) : r.Canon ∧ r.val = - a.val := by
  unfold negate at h
  obtain ⟨c, h1, h⟩ := Res.bind_eq_ok.1 h
  have hc := Rational.negate_spec ha.coe h1
  obtain ⟨n1, n2, -⟩ := mk3_sound hg ha.index ha.rad hc.2.2.1 h
  exact ⟨n1, by rw [n2, hc.1, val_eq]; unfold rootVal; push_cast; ring⟩

theorem sub_sound (hg : env.Base B) {a b r : Real} (ha : a.Valid) (hb : b.Valid)
    (h : sub (env.checked B) a b = .ok r) : r.Canon ∧ r.val = a.val - b.val := by
  unfold sub at h
  obtain ⟨nb, h1, h⟩ := Res.bind_eq_ok.1 h
  obtain ⟨s, h2, h⟩ := Res.bind_eq_ok.1 h
  obtain ⟨n1, n2⟩ := negate_sound hg hb h1
  obtain ⟨m1, m2⟩ := add_sound hg ha n1.valid h2
  obtain ⟨k1, k2, -⟩ := normalize_sound hg m1.valid.toPre h
  exact ⟨k1, by rw [k2, m2, n2]; ring⟩

theorem lcmU_sound {e : Env} {a b l : Nat} (h : lcmU e a b = .ok l) : l = Nat.lcm a b ∧ (l : Int) ≤ 2 * e.M + 1 := by
  unfold lcmU at h
  split at h
  · rename_i hc
    injection h with h
    subst h
    exact ⟨rfl, hc⟩
  · cases h

/-- the exponent taken from an index is the index, when a power with it is admitted. -/
theorem indexPow_sound (hg : env.Base B) {a p r : Rational} {i : Nat} (ha : a.den ≠ 0) (hi : 0 < i)
    (hi2 : (i : Int) ≤ 2 * env.M + 1) (h1 : ratOfIndex (env.checked B) i = .ok p)
    (h : Rational.pow env.M (env.checked B).fl a p = .ok r) :
    r.val = a.val ^ i ∧ r.den ≠ 0 ∧ (0 < a.den → 0 < r.den) := by
  unfold ratOfIndex at h1
  obtain ⟨rfl, -⟩ := Rational.ofInt_spec h1
  have hM := hg.M1
  obtain ⟨k, k1, k2, k3, k4⟩ := Rational.pow_sound hg ha (by norm_num) h
  rw [Rational.val_int] at k1
  have k1 : wrap env.M i = (k : Int) := by exact_mod_cast k1
  have : (i : Int) = k := by
    unfold wrap at k1
    by_cases hw : (i : Int) ≤ env.M
    · rw [Int.emod_eq_of_lt (by omega) (by omega)] at k1
      omega
    · have : ((i : Int) + (env.M + 1)) % (2 * (env.M + 1)) = i - (env.M + 1) := by
        rw [show (i : Int) + (env.M + 1) = (i - (env.M + 1)) + 2 * (env.M + 1) by ring, Int.add_emod_right,
          Int.emod_eq_of_lt (by omega) (by omega)]
      omega
  have : i = k := by exact_mod_cast this
  subst this
  exact ⟨k2, k3, k4⟩

theorem mul_sound (hg : env.Base B) {a b r : Real} (ha : a.Pre) (hb : b.Pre) (ha0 : 0 < a.rad.val) (hb0 : 0 < b.rad.val)
    (h : mul (env.checked B) a b = .ok r) : r.Canon ∧ r.val = a.val * b.val := by
  unfold mul at h
  obtain ⟨l, h1, h⟩ := Res.bind_eq_ok.1 h
  obtain ⟨rfl, hl⟩ := lcmU_sound h1
  have hlpos := Nat.lcm_pos ha.index hb.index
  have hla := Nat.mul_div_cancel' (Nat.dvd_lcm_left a.index b.index)
  have hlb := Nat.mul_div_cancel' (Nat.dvd_lcm_right a.index b.index)
  have hea : 0 < Nat.lcm a.index b.index / a.index :=
    Nat.div_pos (Nat.le_of_dvd hlpos (Nat.dvd_lcm_left _ _)) ha.index
  have heb : 0 < Nat.lcm a.index b.index / b.index :=
    Nat.div_pos (Nat.le_of_dvd hlpos (Nat.dvd_lcm_right _ _)) hb.index
  have hl : (Nat.lcm a.index b.index : Int) ≤ 2 * env.M + 1 := hl
  generalize Nat.lcm a.index b.index = l at *
  rw [if_neg (by have := ha.index; have := hb.index; omega)] at h
  obtain ⟨p1, h2, h⟩ := Res.bind_eq_ok.1 h
  obtain ⟨r1, h3, h⟩ := Res.bind_eq_ok.1 h
  obtain ⟨p2, h4, h⟩ := Res.bind_eq_ok.1 h
  obtain ⟨r2, h5, h⟩ := Res.bind_eq_ok.1 h
  obtain ⟨rad, h6, h⟩ := Res.bind_eq_ok.1 h
  obtain ⟨c, h7, h⟩ := Res.bind_eq_ok.1 h
  have ba : ((l / a.index : Nat) : Int) ≤ 2 * env.M + 1 := le_trans (by exact_mod_cast Nat.div_le_self _ _) hl
  have bb : ((l / b.index : Nat) : Int) ≤ 2 * env.M + 1 := le_trans (by exact_mod_cast Nat.div_le_self _ _) hl
  obtain ⟨v1, d1, -⟩ := indexPow_sound hg ha.rad hea ba h2 h3
  obtain ⟨v2, d2, -⟩ := indexPow_sound hg hb.rad heb bb h4 h5
  obtain ⟨v3, d3, -⟩ := Rational.mul_spec h6
  obtain ⟨v4, d4, -⟩ := Rational.mul_spec h7
  obtain ⟨n1, n2, -⟩ := normalize_sound hg ⟨hlpos, d3, d4⟩ h
  refine ⟨n1, ?_⟩
  rw [n2, val_eq, val_eq a, val_eq b]
  unfold rootVal
  simp only
  rw [v3, v4, v1, v2]
  push_cast
  have qa : (0 : ℝ) < a.rad.val := by exact_mod_cast ha0
  have qb : (0 : ℝ) < b.rad.val := by exact_mod_cast hb0
  rw [Real.mul_rpow (by positivity) (by positivity), rpow_scale qa.le ha.index hea hla.symm,
    rpow_scale qb.le hb.index heb hlb.symm]
  ring

theorem inverse_sound {e : Env} {a r : Real} (ha : a.Valid) (h : inverse e a = .ok r) :
    r.Valid ∧ r.val = (a.val)⁻¹ ∧ a.coe.val ≠ 0 ∧ r.index = a.index := by
  unfold inverse at h
  obtain ⟨c, h1, h⟩ := Res.bind_eq_ok.1 h
  obtain ⟨d, h2, h⟩ := Res.bind_eq_ok.1 h
  injection h with h
  subst h
  obtain ⟨c1, c2, -, c4, -⟩ := Rational.inverse_spec h1
  obtain ⟨d1, d2, -, d4, -⟩ := Rational.inverse_spec h2
  refine ⟨⟨⟨ha.index, d4, c4⟩, by simp only; rw [d2]; exact inv_pos.2 ha.pos, fun h => by simp only; rw [d2, ha.one h, inv_one],
      fun h => by simp only at h; rw [c2, inv_eq_zero] at h; exact absurd ((Rational.val_zero_iff ha.coe).1 h) c1⟩,
    ?_, fun h => c1 ((Rational.val_zero_iff ha.coe).1 h), rfl⟩
  rw [val_eq, val_eq a]
  unfold rootVal
  simp only
  rw [c2, d2]
  push_cast
  have qa : (0 : ℝ) < a.rad.val := by exact_mod_cast ha.pos
  rw [Real.inv_rpow qa.le, mul_inv]

theorem Valid.val_zero {a : Real} (ha : a.Valid) : a.val = 0 ↔ a.coe.val = 0 := by
  rw [val_eq]
  have := ha.root_pos
  constructor
  · intro h
    rcases mul_eq_zero.1 h with h | h
    · exact_mod_cast h
    · exact absurd h this.ne'
  · intro h; rw [h]; simp

theorem Valid.val_pos {a : Real} (ha : a.Valid) : 0 < a.val ↔ 0 < a.coe.val := by
  rw [val_eq, mul_pos_iff_of_pos_right ha.root_pos]
  exact_mod_cast Iff.rfl

theorem div_sound (hg : env.Base B) {a b r : Real} (ha : a.Valid) (hb : b.Valid)
    (h : div (env.checked B) a b = .ok r) : r.Canon ∧ r.val = a.val / b.val ∧ b.val ≠ 0 := by
  unfold div at h
  obtain ⟨ib, h1, h⟩ := Res.bind_eq_ok.1 h
  obtain ⟨i1, i2, i3, -⟩ := inverse_sound hb h1
  obtain ⟨m1, m2⟩ := mul_sound hg ha.toPre i1.toPre ha.pos i1.pos h
  exact ⟨m1, by rw [m2, i2, div_eq_mul_inv], fun h => i3 (hb.val_zero.1 h)⟩

theorem powPos_sound (hg : env.Base B) {a r : Real} {p : Rational} (ha : a.Valid) (hp' : p.den ≠ 0)
    (hp0 : p.val ≠ 0) (h : powPos (env.checked B) a p = .ok r) :
    r.Canon ∧ 0 < p.den ∧ (p.den = 1 → r.val = a.val ^ ((p.val : ℚ) : ℝ)) ∧
      (p.den ≠ 1 → a.val ≠ 0 ∧ r.val = |a.val| ^ ((p.val : ℚ) : ℝ)) := by
  have qa : (0 : ℝ) < a.rad.val := by exact_mod_cast ha.pos
  unfold powPos at h
  by_cases hi : p.den = 1
  · rw [if_pos (by simp [Rational.isInt, hi])] at h
    obtain ⟨c, h1, h⟩ := Res.bind_eq_ok.1 h
    obtain ⟨rd, h2, h⟩ := Res.bind_eq_ok.1 h
    obtain ⟨k, k1, k2, k3, -⟩ := Rational.pow_sound hg ha.coe hp' h1
    obtain ⟨k', l1, l2, l3, -⟩ := Rational.pow_sound hg ha.rad hp' h2
    have : k' = k := by rw [k1] at l1; exact_mod_cast l1.symm
    subst this
    obtain ⟨n1, n2, -⟩ := normalize_sound (r := ⟨a.index, rd, c⟩) hg ⟨ha.index, l3, k3⟩ h
    refine ⟨n1, by omega, fun _ => ?_, fun h => absurd hi h⟩
    rw [n2, k1, val_eq, val_eq a]
    unfold rootVal
    simp only
    rw [k2, l2]
    push_cast
    rw [Real.rpow_natCast, mul_pow, ← Real.rpow_natCast (a.rad.val : ℝ), ← Real.rpow_natCast ((a.rad.val : ℝ) ^ _),
      ← Real.rpow_mul qa.le, ← Real.rpow_mul qa.le, mul_comm (k' : ℝ)]
  · rw [if_neg (by simp [Rational.isInt, hi])] at h
    obtain ⟨pn, h1, h⟩ := Res.bind_eq_ok.1 h
    obtain ⟨rd, h2, h⟩ := Res.bind_eq_ok.1 h
    simp only at h
    obtain ⟨w0, h0, h⟩ := Res.bind_eq_ok.1 h
    obtain ⟨hix0, hix⟩ : 0 ≤ (a.index : Int) * p.den ∧ (a.index : Int) * p.den ≤ 2 * env.M + 1 := by
      unfold Env.noWrap at h0
      split at h0
      · cases h0
      · rename_i hc
        by_contra hcon
        exact hc ⟨rfl, hcon⟩
    have hp : 0 < p.den := by
      have hia : (0 : Int) < a.index := by exact_mod_cast ha.index
      rcases lt_or_gt_of_ne hp' with h | h
      · nlinarith
      · exact h
    obtain ⟨cb, h3, h⟩ := Res.bind_eq_ok.1 h
    obtain ⟨o, h4, h⟩ := Res.bind_eq_ok.1 h
    obtain ⟨root, h5, h⟩ := Res.bind_eq_ok.1 h
    obtain ⟨res, h6, h7⟩ := Res.bind_eq_ok.1 h
    clear h
    obtain ⟨rfl, -⟩ := Rational.ofInt_spec h1
    obtain ⟨rfl, -⟩ := Rational.ofInt_spec h4
    obtain ⟨k, k1, k2, k3, -⟩ := Rational.pow_sound hg ha.coe (by norm_num) h3
    obtain ⟨k', l1, l2, l3, -⟩ := Rational.pow_sound hg ha.rad (by norm_num) h2
    have : k' = k := by rw [k1] at l1; exact_mod_cast l1.symm
    subst this
    rw [Rational.val_int] at k1
    have hia := ha.index
    have hle : p.den ≤ (a.index : Int) * p.den := le_mul_of_one_le_left hp.le (by omega)
    have hM : (env.checked B).M = env.M := rfl
    rw [hM, Int.emod_eq_of_lt hp.le (by omega)] at h5
    rw [hM, Int.emod_eq_of_lt (by positivity) (by omega)] at h6
    obtain ⟨q, hq⟩ := Int.eq_ofNat_of_zero_le hp.le
    have hq0 : 0 < q := by omega
    have hpv : p.val = (k' : ℚ) / q := by unfold Rational.val; rw [hq, k1]; simp
    rw [hq] at h5 h6
    simp only [Int.toNat_natCast] at h5
    have e6 : ((a.index : Int) * (q : Int)).toNat = a.index * q := by
      rw [← Nat.cast_mul, Int.toNat_natCast]
    rw [e6] at h6
    obtain ⟨r1, r2, r3, -⟩ := mk3_sound hg hq0 k3 (by norm_num) h5
    obtain ⟨m1, m2⟩ := mul_sound hg (a := ⟨a.index * q, rd, ⟨1, 1⟩⟩)
      ⟨Nat.mul_pos hia hq0, l3, by norm_num⟩ r1.valid.toPre (by simp only; rw [l2]; exact pow_pos ha.pos _)
      r1.valid.pos h6
    obtain ⟨n1, n2, -⟩ := normalize_sound hg m1.valid.toPre h7
    have hk0 : k' ≠ 0 := by
      rintro rfl
      exact hp0 (by rw [hpv]; simp)
    rw [k2] at r3
    have hc0 : a.coe.val ≠ 0 := by
      intro hz
      rw [hz, zero_pow hk0] at r3
      exact lt_irrefl _ r3
    have habs : a.coe.val ^ k' = |a.coe.val| ^ k' := by
      rw [← abs_pow]; exact (abs_of_pos r3).symm
    have hroot : (0 : ℝ) < (a.rad.val : ℝ) ^ ((1 : ℝ) / a.index) := Real.rpow_pos_of_pos qa _
    refine ⟨n1, hp, fun h => absurd h hi, fun _ => ⟨?_, ?_⟩⟩
    · unfold val
      exact mul_ne_zero (by exact_mod_cast hc0) hroot.ne'
    rw [n2, m2, r2, hpv, val_eq, val_eq a]
    unfold rootVal
    simp only
    rw [k2, l2, habs, abs_mul, abs_of_pos hroot]
    have := frac_val (x := (a.rad.val : ℝ)) (c := |(a.coe.val : ℝ)|) qa (abs_pos.2 (by exact_mod_cast hc0)) (m := k') hia hq0
    push_cast at this ⊢
    rw [← this]
    simp [Rational.val]

theorem _root_.Symxx.Num.Rational.negate_den {M : Int} {a r : Rational} (ha : 0 < a.den) (h : Rational.negate M a = .ok r) :
    r.den ≤ a.den := by
  unfold Rational.negate at h
  obtain ⟨n, h1, h⟩ := Res.bind_eq_ok.1 h
  obtain ⟨-, h⟩ := Rational.mk2_spec h
  obtain ⟨⟨f1, f2⟩, -⟩ := Rational.normalize_fits h
  obtain ⟨r', h2, -, b2⟩ := Rational.normalize_defined M n a.den f1 f2 ha.ne'
  rw [h] at h2
  injection h2 with h2
  subst h2
  rw [abs_of_pos ha] at b2
  exact le_trans (le_abs_self _) b2

/-- a fraction in lowest terms whose value is an integer has denominator 1. -/
theorem _root_.Symxx.Num.Rational.den_of_val_int {p : Rational} (hp : 0 < p.den) (hl : p.Lowest) {k : Int} (h : p.val = k) :
    p.den = 1 := by
  have hd : (p.den : ℚ) ≠ 0 := by exact_mod_cast hp.ne'
  unfold Rational.val at h
  rw [div_eq_iff hd] at h
  have h' : p.num = k * p.den := by exact_mod_cast h
  unfold Rational.Lowest at hl
  rw [h', Int.gcd_mul_left_left] at hl
  omega

theorem inv_rpow_neg {x : ℝ} {p : Rational} (h : 0 < x ∨ p.den = 1) :
    (x⁻¹) ^ (-((p.val : ℚ) : ℝ)) = x ^ ((p.val : ℚ) : ℝ) := by
  rcases h with h | h
  · rw [Real.inv_rpow h.le, ← Real.rpow_neg h.le, neg_neg]
  · have : ((p.val : ℚ) : ℝ) = (p.num : ℝ) := by unfold Rational.val; rw [h]; simp
    rw [this, ← Int.cast_neg, Real.rpow_intCast, Real.rpow_intCast, inv_zpow', neg_neg]

theorem inv_rpow_abs {x : ℝ} {p : ℝ} : |x⁻¹| ^ (-p) = |x| ^ p := by
  rw [abs_inv, Real.inv_rpow (abs_nonneg x), ← Real.rpow_neg (abs_nonneg x), neg_neg]

/-- a lowest-terms fraction whose value is an integer. -/
theorem _root_.Symxx.Num.Rational.abs_den_of_val_int {p : Rational} (hp : p.den ≠ 0) (hl : p.Lowest) {k : Int} (h : p.val = k) :
    |p.den| = 1 := by
  have h1 : p.num = k * p.den := by
    unfold Rational.val at h
    rw [div_eq_iff (by exact_mod_cast hp)] at h
    exact_mod_cast h
  unfold Rational.Lowest at hl
  rw [h1] at hl
  have : Int.gcd (k * p.den) p.den = p.den.natAbs := by
    rw [Int.gcd_eq_natAbs, Int.natAbs_mul, Nat.gcd_mul_left_left]
  rw [this] at hl
  rw [Int.abs_eq_natAbs]; exact_mod_cast hl

/-- `Real::pow`: positive base, or an exponent in lowest terms; a fractional exponent is applied to the absolute value. -/
theorem powN_sound (hg : env.Base B) {f : Nat} {a r : Real} {p : Rational} (ha : a.Valid) (hp : p.den ≠ 0)
    (h : powN (env.checked B) f a p = .ok r) : r.Valid ∧ (0 < a.val → r.val = a.val ^ ((p.val : ℚ) : ℝ)) ∧
      (p.Lowest → ((∃ k : Int, p.val = k) → r.val = a.val ^ ((p.val : ℚ) : ℝ)) ∧
        ((¬ ∃ k : Int, p.val = k) → a.val ≠ 0 ∧ r.val = |a.val| ^ ((p.val : ℚ) : ℝ))) := by
  induction f generalizing a p with
  | zero => simp [powN] at h
  | succ f ih =>
    unfold powN at h
    obtain ⟨b, h1, h⟩ := Res.bind_eq_ok.1 h
    have e1 := Rational.eqInt_sound_val hp h1
    cases b with
    | true =>
      rw [if_pos rfl] at h
      obtain ⟨o1, o2⟩ := ofInt_sound hg h
      have : r.val = a.val ^ ((p.val : ℚ) : ℝ) := by rw [o2, e1.1 rfl]; simp
      exact ⟨o1.valid, fun _ => this, fun _ => ⟨fun _ => this, fun hn => absurd ⟨0, by simpa using e1.1 rfl⟩ hn⟩⟩
    | false =>
      rw [if_neg (by simp)] at h
      obtain ⟨b, h2, h⟩ := Res.bind_eq_ok.1 h
      have e2 := Rational.eqInt_sound_val hp h2
      cases b with
      | true =>
        rw [if_pos rfl] at h
        injection h with h
        subst h
        have : a.val = a.val ^ ((p.val : ℚ) : ℝ) := by rw [e2.1 rfl]; simp
        exact ⟨ha, fun _ => this, fun _ => ⟨fun _ => this, fun hn => absurd ⟨1, by simpa using e2.1 rfl⟩ hn⟩⟩
      | false =>
        rw [if_neg (by simp)] at h
        obtain ⟨z, -, h⟩ := Res.bind_eq_ok.1 h
        obtain ⟨b, h3, h⟩ := Res.bind_eq_ok.1 h
        cases b with
        | true =>
          rw [if_pos rfl] at h
          obtain ⟨ia, h4, h⟩ := Res.bind_eq_ok.1 h
          obtain ⟨np, h5, h⟩ := Res.bind_eq_ok.1 h
          obtain ⟨i1, i2, i3, i4⟩ := inverse_sound ha h4
          obtain ⟨n1, n2, n3, n4, -⟩ := Rational.negate_spec hp h5
          obtain ⟨r1, r2, r3⟩ := ih i1 n3 h
          have hne : ia.val ≠ 0 → a.val ≠ 0 := by
            rw [i2]; intro h1 h2; exact h1 (by rw [h2, inv_zero])
          have hk : (∃ k : Int, np.val = k) ↔ ∃ k : Int, p.val = k := by
            rw [n1]
            constructor
            · rintro ⟨k, hk⟩; exact ⟨-k, by push_cast; linarith⟩
            · rintro ⟨k, hk⟩; exact ⟨-k, by push_cast; linarith⟩
          refine ⟨r1, fun hpos => ?_, fun _ => ⟨fun hi => ?_, fun hn => ?_⟩⟩
          · rw [r2 (by rw [i2]; exact inv_pos.2 hpos), i2, n1]
            push_cast
            rw [Real.inv_rpow hpos.le, Real.rpow_neg hpos.le, inv_inv]
          · rw [(r3 n2).1 (hk.2 hi), i2, n1]
            obtain ⟨k, hk⟩ := hi
            rw [hk]
            push_cast
            rw [show (-(k : ℝ)) = ((-k : Int) : ℝ) by push_cast; rfl, Real.rpow_intCast, Real.rpow_intCast]
            simp
          · obtain ⟨s1, s2⟩ := (r3 n2).2 fun hc => hn (hk.1 hc)
            refine ⟨hne s1, ?_⟩
            rw [s2, i2, n1, ← inv_rpow_abs]
            push_cast
            simp
        | false =>
          rw [if_neg (by simp)] at h
          have h0 : p.val ≠ 0 := by
            intro h0
            have := e1.2 (by simpa using h0)
            simp at this
          obtain ⟨t1, t0, t2, t3⟩ := powPos_sound hg ha hp h0 h
          refine ⟨t1.valid, fun hpos => ?_, fun hl => ⟨fun hi => ?_, fun hn => ?_⟩⟩
          · by_cases hn : p.den = 1
            · exact t2 hn
            · rw [(t3 hn).2, abs_of_pos hpos]
          · obtain ⟨k, hk⟩ := hi
            have := Rational.abs_den_of_val_int hp hl hk
            rw [abs_of_pos t0] at this
            exact t2 this
          · refine t3 fun h1 => hn ⟨p.num, ?_⟩
            unfold Rational.val
            rw [h1]; simp

theorem pow_sound' (hg : env.Base B) {a r : Real} {p : Rational} (ha : a.Valid) (hp : p.den ≠ 0)
    (h : pow (env.checked B) a p = .ok r) : r.Valid ∧ (0 < a.val → r.val = a.val ^ ((p.val : ℚ) : ℝ)) ∧
      (p.Lowest → ((∃ k : Int, p.val = k) → r.val = a.val ^ ((p.val : ℚ) : ℝ)) ∧
        ((¬ ∃ k : Int, p.val = k) → a.val ≠ 0 ∧ r.val = |a.val| ^ ((p.val : ℚ) : ℝ))) := powN_sound hg ha hp h

/-- an integer in lowest terms (denominator 1 or -1). -/
def _root_.Symxx.Num.Rational.IntLow (q : Rational) : Prop := q.Lowest ∧ ∃ k : Int, q.val = k

theorem _root_.Symxx.Num.Rational.intLow_of_den {q : Rational} (h : q.den = 1) : q.IntLow :=
  ⟨by unfold Rational.Lowest; rw [h]; simp, q.num, by unfold Rational.val; rw [h]; simp⟩

theorem pow_sound (hg : env.Base B) {a r : Real} {p : Rational} (ha : a.Valid) (hp : p.den ≠ 0)
    (hpos : 0 < a.val ∨ p.IntLow) (h : pow (env.checked B) a p = .ok r) :
    r.Valid ∧ r.val = a.val ^ ((p.val : ℚ) : ℝ) := by
  obtain ⟨h1, h2, h3⟩ := pow_sound' hg ha hp h
  refine ⟨h1, ?_⟩
  rcases hpos with hpos | hpos
  · exact h2 hpos
  · exact (h3 hpos.1).1 hpos.2

/-- `==` on Reals. -/
theorem eq_true_sound {e : Env} {a b : Real} (ha : a.Pre) (hb : b.Pre) (h : eq e a b = .ok true) : a.val = b.val := by
  unfold eq at h
  obtain ⟨v, h1, h⟩ := Res.bind_eq_ok.1 h
  cases v with
  | false => simp at h
  | true =>
    rw [if_pos rfl] at h
    obtain ⟨w, h2, h⟩ := Res.bind_eq_ok.1 h
    cases w with
    | false => simp at h
    | true =>
      rw [if_pos rfl] at h
      injection h with h
      have e1 := (Rational.eq_sound_val ha.coe hb.coe h1).1 rfl
      have e2 := (Rational.eq_sound_val ha.rad hb.rad h2).1 rfl
      unfold val
      rw [e1, e2, of_decide_eq_true h]

end Real
end Symxx.Num
