import Verif.Num.FloatSpec
import Mathlib.Algebra.Order.Archimedean.Basic
import Mathlib.Tactic.NormNum
import Mathlib.Tactic.GCongr
import Mathlib.Algebra.Order.Round
import Mathlib.Algebra.Order.Field.Power
/-!
# Correct roundings: general facts, and the concrete one is correct
-/
namespace Symxx.Num
variable {p : Nat} {rnd : ℚ → ℚ}

theorem powI_eq (b : Nat) (e : Int) : powI b e = (b : ℚ) ^ e := by
  unfold powI
  split
  · next h =>
    obtain ⟨n, rfl⟩ := Int.eq_ofNat_of_zero_le h
    simp
  · next h =>
    obtain ⟨n, hn⟩ := Int.eq_ofNat_of_zero_le (show 0 ≤ -e by omega)
    have : e = -(n : Int) := by omega
    subst this
    simp

theorem FloatRep.intCast {n : Int} (h : |n| ≤ 2 ^ p) : FloatRep p (n : ℚ) := ⟨n, 0, h, by simp⟩

theorem FloatRep.neg {q : ℚ} (h : FloatRep p q) : FloatRep p (-q) := by
  obtain ⟨m, e, h1, h2⟩ := h
  exact ⟨-m, e, by rwa [abs_neg], by push_cast; rw [h2]; ring⟩

/-- an odd part of few bits times a power of two. -/
theorem FloatRep.mulPow {q : ℚ} (h : FloatRep p q) (e : Int) : FloatRep p (q * 2 ^ e) := by
  obtain ⟨m, e', h1, h2⟩ := h
  exact ⟨m, e' + e, h1, by rw [h2, zpow_add₀ (by norm_num)]; ring⟩

/-- the fractional part of a representable non-negative number is representable. -/
theorem FloatRep.frac {q : ℚ} (h : FloatRep p q) (h0 : 0 ≤ q) : FloatRep p (q - (⌊q⌋ : Int)) := by
  obtain ⟨m, e, h1, h2⟩ := h
  have hpos : (0 : ℚ) < 2 ^ e := by positivity
  have hm : 0 ≤ m := by
    by_contra hc
    have : (m : ℚ) < 0 := by exact_mod_cast not_le.1 hc
    have := mul_neg_of_neg_of_pos this hpos
    linarith
  by_cases he : 0 ≤ e
  · obtain ⟨n, rfl⟩ := Int.eq_ofNat_of_zero_le he
    have : q = ((m * 2 ^ n : Int) : ℚ) := by rw [h2]; push_cast; simp
    rw [this, Int.floor_intCast, sub_self]
    exact ⟨0, 0, by simp, by simp⟩
  · obtain ⟨n, hn⟩ := Int.eq_ofNat_of_zero_le (show 0 ≤ -e by omega)
    have hee : e = -(n : Int) := by omega
    subst hee
    refine ⟨m % 2 ^ n, -(n : Int), ?_, ?_⟩
    · have a1 : 0 ≤ m % 2 ^ n := Int.emod_nonneg _ (by positivity)
      have a2 : m % 2 ^ n ≤ m := by
        obtain ⟨k, rfl⟩ := Int.eq_ofNat_of_zero_le hm
        exact_mod_cast Nat.mod_le k (2 ^ n)
      rw [abs_of_nonneg a1]
      rw [abs_of_nonneg hm] at h1
      omega
    · have h3 : q = (m : ℚ) / ((2 ^ n : Int) : ℚ) := by rw [h2, zpow_neg]; push_cast; simp [div_eq_mul_inv]
      have h4 : ⌊q⌋ = m / 2 ^ n := by
        rw [h3]
        have := Rat.floor_intCast_div_natCast m (2 ^ n)
        push_cast at this ⊢
        exact this
      have h5 : (2 : ℚ) ^ n ≠ 0 := by positivity
      rw [h4]
      have h6 : (m : ℚ) = 2 ^ n * ((m / 2 ^ n : Int) : ℚ) + ((m % 2 ^ n : Int) : ℚ) := by
        exact_mod_cast (Int.mul_ediv_add_emod m (2 ^ n)).symm
      rw [h2, zpow_neg, zpow_natCast]
      generalize ((m / 2 ^ n : Int) : ℚ) = A at *
      generalize ((m % 2 ^ n : Int) : ℚ) = B at *
      rw [h6]
      field_simp
      ring

namespace FloatNearest

theorem eq_of_rep (h : FloatNearest p rnd) {r : ℚ} (hr : FloatRep p r) : rnd r = r := by
  have := h.near r r hr
  rw [sub_self, abs_zero] at this
  linarith [abs_nonpos_iff.1 this]

theorem le_of_rep (h : FloatNearest p rnd) {r q : ℚ} (hr : FloatRep p r) (hq : r ≤ q) : r ≤ rnd q := by
  by_contra hc
  have hc := not_le.1 hc
  have := h.near q r hr
  rw [abs_of_nonpos (by linarith), abs_of_nonpos (by linarith)] at this
  linarith

theorem rep_le (h : FloatNearest p rnd) {r q : ℚ} (hr : FloatRep p r) (hq : q ≤ r) : rnd q ≤ r := by
  by_contra hc
  have hc := not_le.1 hc
  have := h.near q r hr
  rw [abs_of_nonneg (by linarith), abs_of_nonneg (by linarith)] at this
  linarith

theorem zero (h : FloatNearest p rnd) : rnd 0 = 0 := h.eq_of_rep ⟨0, 0, by simp, by simp⟩

theorem nonneg (h : FloatNearest p rnd) {q : ℚ} (hq : 0 ≤ q) : 0 ≤ rnd q :=
  h.le_of_rep ⟨0, 0, by simp, by simp⟩ hq

/-- relative error at most half a unit of the last bit. -/
theorem rel (h : FloatNearest p rnd) (hp : 1 ≤ p) (q : ℚ) : |rnd q - q| ≤ |q| / 2 ^ p := by
  by_cases h0 : q = 0
  · subst h0; rw [h.zero]; simp
  have hq : 0 < |q| := abs_pos.2 h0
  obtain ⟨e, he1, he2⟩ := exists_mem_Ico_zpow hq (show (1 : ℚ) < 2 by norm_num)
  set g : ℚ := 2 ^ (e - p + 1) with hg
  have gpos : 0 < g := by positivity
  have hg1 : g * 2 ^ p = 2 ^ (e + 1) := by
    rw [hg, ← zpow_natCast (2 : ℚ) p, ← zpow_add₀ (by norm_num)]; congr 1; ring
  have hg2 : g / 2 * 2 ^ p = 2 ^ e := by
    have : (2 : ℚ) ^ (e + 1) = 2 ^ e * 2 := zpow_add_one₀ (by norm_num) e
    rw [this] at hg1; linarith
  have hb : |round (q / g)| ≤ 2 ^ p := by
    have h1 : |q / g| < 2 ^ p := by
      rw [abs_div, abs_of_pos gpos, div_lt_iff₀ gpos, mul_comm, hg1]; exact he2
    rw [abs_lt] at h1
    have l1 : (round (q / g) : ℚ) ≤ ((2 ^ p : Int) : ℚ) + 1 / 2 := by
      have := abs_le.1 (abs_sub_round (q / g)); push_cast; linarith
    have l2 : -((2 ^ p : Int) : ℚ) - 1 / 2 ≤ (round (q / g) : ℚ) := by
      have := abs_le.1 (abs_sub_round (q / g)); push_cast; linarith
    rw [abs_le]
    constructor
    · by_contra hc
      have : round (q / g) ≤ -2 ^ p - 1 := by omega
      have : (round (q / g) : ℚ) ≤ -((2 ^ p : Int) : ℚ) - 1 := by exact_mod_cast this
      linarith
    · by_contra hc
      have : 2 ^ p + 1 ≤ round (q / g) := by omega
      have : ((2 ^ p : Int) : ℚ) + 1 ≤ (round (q / g) : ℚ) := by exact_mod_cast this
      linarith
  have h2 := h.near q ((round (q / g) : Int) * g) ⟨_, _, hb, rfl⟩
  have h3 : |(round (q / g) : ℚ) * g - q| ≤ g / 2 := by
    have e1 : (round (q / g) : ℚ) * g - q = -((q / g - round (q / g)) * g) := by
      field_simp; ring
    rw [e1, abs_neg, abs_mul, abs_of_pos gpos]
    have := abs_sub_round (q / g)
    calc |q / g - ↑(round (q / g))| * g ≤ 1 / 2 * g := by gcongr
      _ = g / 2 := by ring
  have h4 : g / 2 ≤ |q| / 2 ^ p := by
    rw [le_div_iff₀ (by positivity), hg2]; exact he1
  linarith

/-- the same rounding seen from the other side of zero. -/
theorem flip (h : FloatNearest p rnd) : FloatNearest p (fun q => -rnd (-q)) where
  rep q := (h.rep _).neg
  near q r hr := by
    have := h.near (-q) (-r) hr.neg
    rw [show -rnd (-q) - q = -(rnd (-q) - -q) by ring, abs_neg, show r - q = -(-r - -q) by ring, abs_neg]
    exact this

end FloatNearest

/-! ### `rndEven` -/

theorem leadExp_spec {n d : Nat} (hn : n ≠ 0) (hd : d ≠ 0) :
    (2 : ℚ) ^ (leadExp n d) ≤ (n : ℚ) / d ∧ (n : ℚ) / d < 2 ^ (leadExp n d + 1) := by
  have dpos : (0 : ℚ) < d := by exact_mod_cast Nat.pos_of_ne_zero hd
  have n1 : ((2 : ℚ) ^ (n.log2 : Int)) ≤ n := by
    rw [zpow_natCast]; exact_mod_cast Nat.log2_self_le hn
  have n2 : (n : ℚ) < (2 : ℚ) ^ ((n.log2 : Int) + 1) := by
    have : n < 2 ^ (n.log2 + 1) := Nat.lt_log2_self
    have h2 : ((n.log2 : Int) + 1) = ((n.log2 + 1 : Nat) : Int) := by push_cast; rfl
    rw [h2, zpow_natCast]; exact_mod_cast this
  have d1 : ((2 : ℚ) ^ (d.log2 : Int)) ≤ d := by
    rw [zpow_natCast]; exact_mod_cast Nat.log2_self_le hd
  have d2 : (d : ℚ) < (2 : ℚ) ^ ((d.log2 : Int) + 1) := by
    have : d < 2 ^ (d.log2 + 1) := Nat.lt_log2_self
    have h2 : ((d.log2 : Int) + 1) = ((d.log2 + 1 : Nat) : Int) := by push_cast; rfl
    rw [h2, zpow_natCast]; exact_mod_cast this
  unfold leadExp
  dsimp only
  set a : Int := (n.log2 : Int)
  set b : Int := (d.log2 : Int)
  rw [powI_eq]
  push_cast
  split
  · next h =>
    constructor
    · rw [le_div_iff₀ dpos]
      have : (2 : ℚ) ^ (a - b - 1) * d ≤ 2 ^ (a - b - 1) * 2 ^ (b + 1) := by gcongr
      rw [← zpow_add₀ (by norm_num), show a - b - 1 + (b + 1) = a by ring] at this
      linarith
    · rw [div_lt_iff₀ dpos, show a - b - 1 + 1 = a - b by ring, mul_comm]; exact h
  · next h =>
    constructor
    · rw [le_div_iff₀ dpos, mul_comm]; exact not_lt.1 h
    · rw [div_lt_iff₀ dpos]
      have : (2 : ℚ) ^ (a - b + 1) * 2 ^ b ≤ 2 ^ (a - b + 1) * d := by gcongr
      rw [← zpow_add₀ (by norm_num), show a - b + 1 + b = a + 1 by ring] at this
      linarith

theorem roundEven_near (m : ℚ) (k : Int) : |(roundEven m : ℚ) - m| ≤ |(k : ℚ) - m| := by
  have hfl : m.floor = ⌊m⌋ := rfl
  have f1 := Int.floor_le m
  have f2 := Int.lt_floor_add_one m
  have key : ∀ r : Int, |(r : ℚ) - m| ≤ 1 / 2 → |(r : ℚ) - m| ≤ |(k : ℚ) - m| := by
    intro r hr
    by_cases hk : k = r
    · rw [hk]
    have h1 : (1 : ℚ) ≤ |(k : ℚ) - r| := by
      have : 1 ≤ |k - r| := Int.one_le_abs (sub_ne_zero.2 hk)
      exact_mod_cast this
    have h2 : |(k : ℚ) - r| ≤ |(k : ℚ) - m| + |m - r| := abs_sub_le _ _ _
    rw [abs_sub_comm m r] at h2
    linarith
  unfold roundEven
  rw [hfl]
  apply key
  dsimp only
  split
  · rw [abs_of_nonpos (by linarith)]; linarith
  · next h =>
    have h := not_lt.1 h
    split
    · push_cast; rw [abs_of_nonneg (by linarith)]; linarith
    · next h' =>
      have h' := not_lt.1 h'
      split
      · rw [abs_of_nonpos (by linarith)]; linarith
      · push_cast; rw [abs_of_nonneg (by linarith)]; linarith

theorem rndEven_nearest (p : Nat) (hp : 1 ≤ p) : FloatNearest p (rndEven p) := by
  have main : ∀ q, FloatRep p (rndEven p q) ∧ ∀ r, FloatRep p r → |rndEven p q - q| ≤ |r - q| := by
    intro q
    unfold rndEven
    split
    · next h => exact ⟨⟨0, 0, by simp, by simp⟩, fun r _ => by rw [h]; simp⟩
    next h =>
    have hn : q.num.natAbs ≠ 0 := by simpa using h
    obtain ⟨l1, l2⟩ := leadExp_spec hn q.den_ne_zero
    have habs : (q.num.natAbs : ℚ) / q.den = |q| := by
      rw [Rat.abs_def, Rat.divInt_eq_div]; rw [← Int.cast_natCast (R := ℚ) q.num.natAbs]; rfl
    rw [habs] at l1 l2
    dsimp only
    set e := leadExp q.num.natAbs q.den with he
    rw [powI_eq, powI_eq]
    push_cast
    set G : Int := e - p + 1 with hG
    have gpos : (0 : ℚ) < 2 ^ G := by positivity
    rw [zpow_neg]
    set g : ℚ := 2 ^ G with hg
    have hge : g * 2 ^ (p - 1) = 2 ^ e := by
      rw [hg, ← zpow_natCast (2 : ℚ) (p - 1), ← zpow_add₀ (by norm_num)]; congr 1; rw [hG]; omega
    have near : ∀ k : Int, |(roundEven (q * g⁻¹) : ℚ) * g - q| ≤ |(k : ℚ) * g - q| := by
      intro k
      have h1 := roundEven_near (q * g⁻¹) k
      have h2 : ∀ t : Int, |(t : ℚ) * g - q| = |(t : ℚ) - q * g⁻¹| * g := by
        intro t
        rw [← abs_of_pos gpos, ← abs_mul, abs_of_pos gpos]
        congr 1
        field_simp
      rw [h2, h2]
      gcongr
    -- the power of two below |q| is on the grid
    have hlow : |(roundEven (q * g⁻¹) : ℚ) * g - q| ≤ |q| - 2 ^ e := by
      rcases le_total 0 q with hq | hq
      · have := near (2 ^ (p - 1))
        push_cast at this
        rw [mul_comm (2 ^ (p - 1)) g, hge, abs_sub_comm (2 ^ e) q] at this
        rw [abs_of_nonneg hq] at l1 ⊢
        rw [abs_of_nonneg (by linarith : 0 ≤ q - 2 ^ e)] at this
        exact this
      · have := near (-2 ^ (p - 1))
        push_cast at this
        rw [neg_mul, mul_comm (2 ^ (p - 1)) g, hge] at this
        rw [abs_of_nonpos hq] at l1 ⊢
        rw [abs_of_nonneg (by linarith : 0 ≤ -2 ^ e - q)] at this
        linarith
    have hup : |(roundEven (q * g⁻¹) : ℚ)| ≤ ((2 ^ p : Int) : ℚ) := by
      have h2p : ((2 ^ p : Int) : ℚ) * g = 2 ^ (e + 1) := by
        push_cast
        rw [hg, ← zpow_natCast (2 : ℚ) p, ← zpow_add₀ (by norm_num)]; congr 1; rw [hG]; ring
      have : |(roundEven (q * g⁻¹) : ℚ)| * g ≤ ((2 ^ p : Int) : ℚ) * g := by
        rw [h2p]
        rw [show |(roundEven (q * g⁻¹) : ℚ)| * g = |(roundEven (q * g⁻¹) : ℚ) * g| by rw [abs_mul, abs_of_pos gpos]]
        rcases le_total 0 q with hq | hq
        · have h1 := near (2 ^ p)
          rw [h2p] at h1
          rw [abs_of_nonneg hq] at l1 l2 hlow
          rw [abs_of_nonneg (by linarith : 0 ≤ 2 ^ (e + 1) - q)] at h1
          have e2 : (0:ℚ) < 2 ^ e := by positivity
          have := abs_le.1 h1
          have := abs_le.1 hlow
          rw [abs_le]; constructor <;> linarith
        · have h1 := near (-2 ^ p)
          rw [show (((-2 ^ p : Int) : ℚ)) * g = -(((2 ^ p : Int) : ℚ) * g) by push_cast; ring, h2p] at h1
          rw [abs_of_nonpos hq] at l1 l2 hlow
          rw [abs_of_nonpos (by linarith : -2 ^ (e + 1) - q ≤ 0)] at h1
          have e2 : (0:ℚ) < 2 ^ e := by positivity
          have := abs_le.1 h1
          have := abs_le.1 hlow
          rw [abs_le]; constructor <;> linarith
      exact le_of_mul_le_mul_right this gpos
    refine ⟨⟨_, G, by exact_mod_cast hup, rfl⟩, ?_⟩
    rintro r ⟨m, e', hm, rfl⟩
    by_cases hc : G ≤ e'
    · obtain ⟨n, hn⟩ := Int.eq_ofNat_of_zero_le (show 0 ≤ e' - G by omega)
      have h1 := near (m * 2 ^ n)
      have h2 : ((m * 2 ^ n : Int) : ℚ) * g = (m : ℚ) * 2 ^ e' := by
        push_cast
        rw [hg, mul_assoc, ← zpow_natCast (2 : ℚ) n, ← zpow_add₀ (by norm_num)]; congr 2; omega
      rwa [h2] at h1
    · have h1 : |(m : ℚ) * 2 ^ e'| ≤ 2 ^ e := by
        rw [abs_mul, abs_of_pos (by positivity : (0 : ℚ) < 2 ^ e')]
        have hmq : |(m : ℚ)| ≤ 2 ^ p := by exact_mod_cast hm
        have h3 : (2 : ℚ) ^ e' ≤ 2 ^ (e - p) := zpow_le_zpow_right₀ (by norm_num) (by omega)
        calc |(m : ℚ)| * 2 ^ e' ≤ 2 ^ p * 2 ^ (e - p) := by gcongr
          _ = 2 ^ e := by rw [← zpow_natCast (2 : ℚ) p, ← zpow_add₀ (by norm_num)]; congr 1; ring
      have h2 : |q| - |(m : ℚ) * 2 ^ e'| ≤ |(m : ℚ) * 2 ^ e' - q| := by
        rw [abs_sub_comm]; exact abs_sub_abs_le_abs_sub _ _
      linarith
  exact ⟨fun q => (main q).1, fun q r hr => (main q).2 r hr⟩

theorem x87_nearest : FloatNearest x87.p x87.rnd := rndEven_nearest 64 (by norm_num)

end Symxx.Num
