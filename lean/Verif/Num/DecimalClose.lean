import Verif.Num.DecimalProof
/-!
# `Rational(long double)` on any value: where `decimal_places` stops, and how close the fraction is
-/
namespace Symxx.Num
variable {F : FloatFmt}

/-- the condition of the loop at the `j`-th place. -/
def FloatFmt.goesOn (F : FloatFmt) (v : ℚ) (j : Nat) : Prop :=
  F.eAt v j < F.fracPart (F.yAt v j) ∧ F.fracPart (F.yAt v j) < F.rnd (1 - F.eAt v j)

theorem placesLoop_spec (hten : ∀ j, j ≤ F.maxDigits10 + 1 → F.rnd (10 ^ j) = 10 ^ j) (v : ℚ) :
    ∀ fuel j, j + fuel = F.maxDigits10 → ∀ nd,
      F.placesLoop v fuel j (F.fracPart (F.yAt v j)) (F.eAt v j) (10 ^ (j + 1)) = nd →
      (j ≤ nd ∧ nd ≤ F.maxDigits10) ∧ (nd = j ∨ F.goesOn v (nd - 1)) ∧ (nd = F.maxDigits10 ∨ ¬ F.goesOn v nd) := by
  intro fuel
  induction fuel with
  | zero =>
    intro j hj nd h
    rw [FloatFmt.placesLoop] at h
    subst h
    exact ⟨⟨le_refl _, by omega⟩, .inl rfl, .inl (by omega)⟩
  | succ fuel ih =>
    intro j hj nd h
    rw [FloatFmt.placesLoop] at h
    by_cases hc : F.eAt v j < F.fracPart (F.yAt v j) ∧ F.fracPart (F.yAt v j) < F.rnd (1 - F.eAt v j)
    · rw [if_pos hc] at h
      have e1 : F.rnd ((10 : ℚ) ^ (j + 1) * 10) = 10 ^ (j + 1 + 1) := by
        rw [← pow_succ]; exact hten _ (by omega)
      rw [e1] at h
      have := ih (j + 1) (by omega) nd (by
        rw [FloatFmt.yAt, FloatFmt.eAt, if_neg (Nat.succ_ne_zero j), if_neg (Nat.succ_ne_zero j)]
        exact h)
      obtain ⟨⟨a1, a2⟩, a3, a4⟩ := this
      refine ⟨⟨by omega, a2⟩, .inr ?_, a4⟩
      rcases a3 with rfl | a3
      · rw [Nat.add_sub_cancel]; exact hc
      · exact a3
    · rw [if_neg hc] at h
      subst h
      exact ⟨⟨le_refl _, by omega⟩, .inl rfl, .inr hc⟩

theorem one_le_p (hten : 5 ^ (F.maxDigits10 + 1) ≤ 2 ^ F.p) : 1 ≤ F.p := by
  by_contra hc
  have : F.p = 0 := by omega
  rw [this] at hten
  have : 1 < 5 ^ (F.maxDigits10 + 1) := Nat.one_lt_pow (by omega) (by norm_num)
  omega

theorem places_spec (h : FloatNearest F.p F.rnd) (hten : 5 ^ (F.maxDigits10 + 1) ≤ 2 ^ F.p) {v : ℚ} (hv : 0 ≤ v) :
    F.decimalPlaces v ≤ F.maxDigits10 ∧ (F.decimalPlaces v = 0 ∨ F.goesOn v (F.decimalPlaces v - 1)) ∧
      (F.decimalPlaces v = F.maxDigits10 ∨ ¬ F.goesOn v (F.decimalPlaces v)) := by
  have ht : ∀ j, j ≤ F.maxDigits10 + 1 → F.rnd ((10 : ℚ) ^ j) = 10 ^ j := fun j hj =>
    h.eq_of_rep (ten_rep (le_trans (Nat.pow_le_pow_right (by norm_num) hj) hten))
  have := placesLoop_spec ht v F.maxDigits10 0 (Nat.zero_add _) (F.decimalPlaces v) (by
    unfold FloatFmt.decimalPlaces
    rw [abs_of_nonneg hv]
    simp [FloatFmt.yAt, FloatFmt.eAt])
  exact ⟨this.1.2, this.2.1, this.2.2⟩

theorem half_rep {p : Nat} : FloatRep p (1 / 2 : ℚ) :=
  ⟨1, -1, by exact_mod_cast Nat.one_le_two_pow, by norm_num⟩

/-- where the loop goes on, the tolerance is below one half. -/
theorem goesOn_small (h : FloatNearest F.p F.rnd) {v : ℚ} {j : Nat} (hg : F.goesOn v j) : F.eAt v j < 1 / 2 := by
  by_contra hc
  have hc := not_lt.1 hc
  have := h.rep_le half_rep (show 1 - F.eAt v j ≤ 1 / 2 by linarith)
  obtain ⟨h1, h2⟩ := hg
  linarith

/-- past the first place the loop only goes on while `v * 10^(j+1)` is below a quarter of `2^p`. -/
theorem goesOn_bound (h : FloatNearest F.p F.rnd) (hp : 1 ≤ F.p) {v : ℚ} (hv : FloatRep F.p v) {j : Nat} (hj : 1 ≤ j)
    (hg : F.goesOn v j) : v * 10 ^ (j + 1) < 2 ^ F.p / 4 := by
  have h1 := goesOn_small h hg
  rw [FloatFmt.eAt, if_neg (by omega), rnd_eps_mul h hp hv] at h1
  by_contra hc
  have hc := not_lt.1 hc
  have h2 : (1 / 2 : ℚ) ≤ 2 * v / 2 ^ F.p * 10 ^ (j + 1) := by
    have : 2 * v / 2 ^ F.p * 10 ^ (j + 1) = (v * 10 ^ (j + 1)) * (2 / 2 ^ F.p) := by ring
    rw [this]
    calc (1 / 2 : ℚ) = 2 ^ F.p / 4 * (2 / 2 ^ F.p) := by field_simp; norm_num
      _ ≤ _ := by gcongr
  have := h.le_of_rep half_rep h2
  linarith

/-- where the loop stops, the number is a decimal with that many places, to within rounding. -/
theorem stop_close (h : FloatNearest F.p F.rnd) (hp : 6 ≤ F.p) {v : ℚ} (hv : FloatRep F.p v) (hv0 : 0 ≤ v) {j : Nat}
    (hg : ¬ F.goesOn v j) : ∃ z : Int, |v * 10 ^ j - z| ≤ 32 * (v * 10 ^ j) / 2 ^ F.p := by
  have hp1 : 1 ≤ F.p := by omega
  have hu : (0 : ℚ) < 1 / 2 ^ F.p := by positivity
  have hu64 : (1 / 2 ^ F.p : ℚ) ≤ 1 / 64 := by
    have : (64 : ℚ) ≤ 2 ^ F.p := by
      calc (64 : ℚ) = 2 ^ 6 := by norm_num
        _ ≤ _ := pow_le_pow_right₀ (by norm_num) hp
    exact one_div_le_one_div_of_le (by norm_num) this
  set w := v * 10 ^ j with hw
  have hw0 : 0 ≤ w := by positivity
  have hyrep : FloatRep F.p (F.yAt v j) := by
    unfold FloatFmt.yAt; split
    · exact hv
    · exact h.rep _
  have hy0 : 0 ≤ F.yAt v j := by
    unfold FloatFmt.yAt; split
    · exact hv0
    · exact h.nonneg hw0
  have hyw : |F.yAt v j - w| ≤ w * (1 / 2 ^ F.p) := by
    unfold FloatFmt.yAt; split
    · next hj => rw [hw, hj]; simp; positivity
    · have := h.rel hp1 w
      rw [abs_of_nonneg hw0] at this
      rwa [← div_eq_mul_one_div]
  have he : F.eAt v j ≤ 21 * (w * (1 / 2 ^ F.p)) := by
    unfold FloatFmt.eAt; split
    · next hj =>
      have hfr : FloatRep F.p (F.fracPart v) := h.rep _
      rw [rnd_eps_mul h hp1 hfr, fracPart_eq h hv hv0]
      have hf0 : (0 : ℚ) ≤ (⌊v⌋ : Int) := by
        have : 0 ≤ ⌊v⌋ := Int.floor_nonneg.2 hv0
        exact_mod_cast this
      have hwv : w = v := by rw [hw, hj]; simp
      rw [hwv, div_eq_mul_one_div]
      nlinarith
    · rw [rnd_eps_mul h hp1 hv]
      have e1 : 2 * v / 2 ^ F.p * 10 ^ (j + 1) = 20 * (w * (1 / 2 ^ F.p)) := by rw [hw]; ring
      rw [e1]
      have := h.rel hp1 (20 * (w * (1 / 2 ^ F.p)))
      rw [abs_of_nonneg (by positivity : 0 ≤ 20 * (w * (1 / 2 ^ F.p))), div_eq_mul_one_div (20 * (w * (1 / 2 ^ F.p)))] at this
      have := (abs_le.1 this).2
      have hwu : 0 ≤ w * (1 / 2 ^ F.p) := by positivity
      nlinarith
  have e32 : 32 * w / 2 ^ F.p = 32 * (w * (1 / 2 ^ F.p)) := by ring
  rw [e32]
  unfold FloatFmt.goesOn at hg
  rw [fracPart_eq h hyrep hy0] at hg
  set y := F.yAt v j
  set e := F.eAt v j
  set u : ℚ := 1 / 2 ^ F.p with hue
  have hwu : 0 ≤ w * u := by positivity
  obtain ⟨y1, y2⟩ := abs_le.1 hyw
  have f1 := Int.floor_le y
  have f2 := Int.lt_floor_add_one y
  by_cases hc : 1 / 2 ≤ e
  · refine ⟨round y, ?_⟩
    have h1 := abs_le.1 (abs_sub_round y)
    rw [abs_le]; constructor <;> linarith
  have hc := not_le.1 hc
  rcases not_and_or.1 hg with hg | hg
  · have hg := not_lt.1 hg
    refine ⟨⌊y⌋, ?_⟩
    rw [abs_le]; constructor <;> linarith
  · have hg := not_lt.1 hg
    refine ⟨⌊y⌋ + 1, ?_⟩
    have he0 : 0 ≤ e := by
      by_contra hcc
      have hcc := not_le.1 hcc
      have : (1 : ℚ) ≤ F.rnd (1 - e) := h.le_of_rep ⟨1, 0, by exact_mod_cast Nat.one_le_two_pow, by norm_num⟩ (by linarith)
      linarith
    have hr := h.rel hp1 (1 - e)
    rw [abs_of_nonneg (by linarith : 0 ≤ 1 - e), div_eq_mul_one_div] at hr
    obtain ⟨r1, r2⟩ := abs_le.1 hr
    have hfl0 : (0 : ℚ) ≤ (⌊y⌋ : Int) := by
      have : 0 ≤ ⌊y⌋ := Int.floor_nonneg.2 hy0
      exact_mod_cast this
    have hr3 : (1 - e) * u ≤ u := by nlinarith
    have hw4 : (2 / 5 : ℚ) ≤ w := by
      have : w * u ≤ w / 64 := by nlinarith
      linarith
    have : u ≤ 5 / 2 * (w * u) := by nlinarith
    push_cast
    rw [abs_le]; constructor <;> linarith

/-! ### the numerator -/

theorem trunc_nonneg {y : ℚ} (hy : 0 ≤ y) : FloatFmt.trunc y = ⌊y⌋ := by
  unfold FloatFmt.trunc; rw [if_pos hy]; rfl

theorem roundAway_nonneg {y : ℚ} (hy : 0 ≤ y) : FloatFmt.roundAway y = ⌊y + 1 / 2⌋ := by
  unfold FloatFmt.roundAway; rw [if_pos hy]; rfl

theorem trunc_neg (y : ℚ) : FloatFmt.trunc (-y) = - FloatFmt.trunc y := by
  unfold FloatFmt.trunc
  rcases lt_trichotomy y 0 with h | h | h
  · rw [if_pos (by linarith), if_neg (by linarith)]; simp
  · subst h; simp; rfl
  · rw [if_neg (by linarith), if_pos (by linarith), neg_neg]

theorem roundAway_neg (y : ℚ) : FloatFmt.roundAway (-y) = - FloatFmt.roundAway y := by
  unfold FloatFmt.roundAway
  rcases lt_trichotomy y 0 with h | h | h
  · rw [if_pos (by linarith), if_neg (by linarith)]; simp
  · subst h; decide +kernel
  · rw [if_neg (by linarith), if_pos (by linarith), neg_neg]

/-- without the intermediate rounding. -/
theorem num_direct {p : Nat} {rnd : ℚ → ℚ} (h : FloatNearest p rnd) (hp : 1 ≤ p) {w : ℚ} {M : Int} (hM2 : 2 * M ≤ 2 ^ p)
    (hw : 0 ≤ w) (hwM : w ≤ M) :
    0 ≤ FloatFmt.trunc (rnd w) ∧ FloatFmt.trunc (rnd w) ≤ M ∧ |(FloatFmt.trunc (rnd w) : ℚ) - w| < 2 := by
  have hM0 : 0 ≤ M := by
    have : (0 : ℚ) ≤ (M : ℚ) := le_trans hw hwM
    exact_mod_cast this
  have h0 := h.nonneg hw
  have h1 := h.rep_le (FloatRep.intCast (n := M) (by rw [abs_of_nonneg hM0]; omega)) hwM
  rw [trunc_nonneg h0]
  refine ⟨Int.floor_nonneg.2 h0, ?_, ?_⟩
  · have : ⌊rnd w⌋ ≤ ⌊(M : ℚ)⌋ := Int.floor_le_floor h1
    rwa [Int.floor_intCast] at this
  · have hr := h.rel hp w
    rw [abs_of_nonneg hw] at hr
    have h2 : w / 2 ^ p ≤ 1 / 2 := by
      rw [div_le_iff₀ (by positivity)]
      have : 2 * (M : ℚ) ≤ 2 ^ p := by exact_mod_cast hM2
      linarith
    obtain ⟨a1, a2⟩ := abs_le.1 hr
    have f1 := Int.floor_le (rnd w)
    have f2 := Int.lt_floor_add_one (rnd w)
    rw [abs_lt]; constructor <;> linarith

/-- with the intermediate rounding to `d` places. -/
theorem num_rounded {p : Nat} {rnd : ℚ → ℚ} (h : FloatNearest p rnd) (hp : 6 ≤ p) {v : ℚ} {d : Nat} (hv : 0 ≤ v)
    (hb : v * 10 ^ d ≤ 2 ^ p / 40) :
    0 ≤ FloatFmt.trunc (rnd (rnd ((FloatFmt.roundAway (rnd (v * 10 ^ d)) : ℚ) / 10 ^ d) * 10 ^ d)) ∧
    (FloatFmt.trunc (rnd (rnd ((FloatFmt.roundAway (rnd (v * 10 ^ d)) : ℚ) / 10 ^ d) * 10 ^ d)) : ℚ) ≤ 2 ^ p / 4 ∧
    |(FloatFmt.trunc (rnd (rnd ((FloatFmt.roundAway (rnd (v * 10 ^ d)) : ℚ) / 10 ^ d) * 10 ^ d)) : ℚ) - v * 10 ^ d| < 2 := by
  have hp1 : 1 ≤ p := by omega
  have hP : (64 : ℚ) ≤ 2 ^ p := by
    calc (64 : ℚ) = 2 ^ 6 := by norm_num
      _ ≤ _ := pow_le_pow_right₀ (by norm_num) hp
  set P : ℚ := 2 ^ p with hPd
  have hPp : 0 < P := by linarith
  set m : ℚ := 10 ^ d
  have hm : 0 < m := by positivity
  set w := v * m
  have hw : 0 ≤ w := by positivity
  have ht0 := h.nonneg hw
  have ht := h.rel hp1 w
  rw [abs_of_nonneg hw, ← hPd] at ht
  have hwP : w / P ≤ 1 / 40 := by rw [div_le_iff₀ hPp]; linarith
  set t := rnd w
  obtain ⟨t1, t2⟩ := abs_le.1 ht
  rw [roundAway_nonneg ht0]
  have r1 := Int.floor_le (t + 1 / 2)
  have r2 := Int.lt_floor_add_one (t + 1 / 2)
  have hR0 : (0 : ℚ) ≤ (⌊t + 1 / 2⌋ : Int) := by
    have : 0 ≤ ⌊t + 1 / 2⌋ := Int.floor_nonneg.2 (by linarith)
    exact_mod_cast this
  set R : ℚ := ((⌊t + 1 / 2⌋ : Int) : ℚ)
  have hRP : R / P ≤ 1 / 28 := by
    rw [div_le_iff₀ hPp]; linarith
  have hx0 := h.nonneg (show 0 ≤ R / m by positivity)
  have hx := h.rel hp1 (R / m)
  rw [abs_of_nonneg (show 0 ≤ R / m by positivity), ← hPd] at hx
  set x := rnd (R / m)
  have hxm : |x * m - R| ≤ 1 / 28 := by
    have e : x * m - R = (x - R / m) * m := by field_simp
    rw [e, abs_mul, abs_of_pos hm]
    calc |x - R / m| * m ≤ R / m / P * m := by gcongr
      _ = R / P := by field_simp
      _ ≤ _ := hRP
  obtain ⟨x1, x2⟩ := abs_le.1 hxm
  have hy0 := h.nonneg (show 0 ≤ x * m by positivity)
  have hy := h.rel hp1 (x * m)
  rw [abs_of_nonneg (show 0 ≤ x * m by positivity), ← hPd] at hy
  have hxmP : x * m / P ≤ 1 / 16 := by
    rw [div_le_iff₀ hPp]
    have := (div_le_iff₀ hPp).1 hRP
    linarith
  set y := rnd (x * m)
  obtain ⟨y1, y2⟩ := abs_le.1 hy
  rw [trunc_nonneg hy0]
  have f1 := Int.floor_le y
  have f2 := Int.lt_floor_add_one y
  have hR := (div_le_iff₀ hPp).1 hRP
  refine ⟨Int.floor_nonneg.2 hy0, by linarith, ?_⟩
  rw [abs_lt]; constructor <;> linarith

/-- what is put over the denominator. -/
def floatNumer (rnd : ℚ → ℚ) (d10 : Nat) (nd : Nat) (x : ℚ) : Int :=
  FloatFmt.trunc (rnd ((if nd > d10 then rnd ((FloatFmt.roundAway (rnd (x * 10 ^ d10)) : ℚ) / 10 ^ d10) else x) *
    10 ^ (if nd > d10 then d10 else nd)))

theorem ofFloat_eq (F : FloatFmt) (M : Int) (d10 : Nat) (x : ℚ) : Rational.ofFloat F M d10 x =
    (chk M (floatNumer F.rnd d10 (F.decimalPlaces x) x)).bind fun n =>
      Rational.normalize M ⟨n, 10 ^ (if F.decimalPlaces x > d10 then d10 else F.decimalPlaces x)⟩ := by
  unfold Rational.ofFloat floatNumer FloatFmt.roundDecplaces
  push_cast
  rfl

theorem numer_neg (rnd : ℚ → ℚ) (d10 nd : Nat) (x : ℚ) :
    floatNumer rnd d10 nd (-x) = - floatNumer (fun q => -rnd (-q)) d10 nd x := by
  unfold floatNumer
  by_cases hc : nd > d10
  · simp only [if_pos hc]
    rw [← trunc_neg, roundAway_neg]
    push_cast
    congr 1
    rw [neg_neg]
    congr 1
    rw [← neg_mul, neg_neg]
    congr 2
    rw [← neg_div, neg_mul, neg_neg]
  · simp only [if_neg hc]
    rw [← trunc_neg, neg_neg, neg_mul]

/-- any value: the numerator is in range and within two units of the scaled value. -/
theorem numer_close (h : FloatNearest F.p F.rnd) (hten : 5 ^ (F.maxDigits10 + 1) ≤ 2 ^ F.p) (hp : 6 ≤ F.p) {rnd : ℚ → ℚ}
    (h' : FloatNearest F.p rnd) {d10 : Nat} {M : Int} (hM1 : 2 ^ (F.p - 2) ≤ M) (hM2 : 2 * M ≤ 2 ^ F.p) (hd : 1 ≤ d10) {v : ℚ}
    (hv : FloatRep F.p v) (hv0 : 0 ≤ v) (hvM : 10 * v ≤ M) :
    0 ≤ floatNumer rnd d10 (F.decimalPlaces v) v ∧ floatNumer rnd d10 (F.decimalPlaces v) v ≤ M ∧
      |(floatNumer rnd d10 (F.decimalPlaces v) v : ℚ) - v * 10 ^ (if F.decimalPlaces v > d10 then d10 else F.decimalPlaces v)| < 2 := by
  have hp1 : 1 ≤ F.p := by omega
  obtain ⟨_, hgo, _⟩ := places_spec h hten hv0
  have hquart : (2 : ℚ) ^ F.p / 4 ≤ M := by
    have h2 : (2 : ℚ) ^ F.p = 2 ^ (F.p - 2) * 4 := by
      obtain ⟨n, hn⟩ : ∃ n, F.p = n + 2 := ⟨F.p - 2, by omega⟩
      rw [hn, Nat.add_sub_cancel, pow_add]; norm_num
    have : (2 : ℚ) ^ (F.p - 2) ≤ (M : ℚ) := by exact_mod_cast hM1
    rw [h2]; linarith
  have hbound : ∀ n, F.decimalPlaces v = n → 2 ≤ n → v * 10 ^ n < 2 ^ F.p / 4 := by
    intro n hn h2
    rcases hgo with h0 | h0
    · omega
    · rw [hn] at h0
      have := goesOn_bound h hp1 hv (by omega) h0
      rwa [show n - 1 + 1 = n by omega] at this
  unfold floatNumer
  by_cases hc : F.decimalPlaces v > d10
  · simp only [if_pos hc]
    have hb := hbound _ rfl (by omega)
    have hb2 : v * 10 ^ d10 ≤ 2 ^ F.p / 40 := by
      have h1 : v * 10 ^ (d10 + 1) ≤ v * 10 ^ (F.decimalPlaces v) := by
        gcongr
        · norm_num
        · omega
      rw [pow_succ] at h1
      linarith
    obtain ⟨a1, a2, a3⟩ := num_rounded h' hp (d := d10) hv0 hb2
    refine ⟨a1, ?_, a3⟩
    exact_mod_cast le_trans a2 hquart
  · simp only [if_neg hc]
    refine num_direct h' hp1 hM2 (by positivity) ?_
    rcases Nat.lt_or_ge (F.decimalPlaces v) 2 with h2 | h2
    · have : F.decimalPlaces v = 0 ∨ F.decimalPlaces v = 1 := by omega
      rcases this with h3 | h3
      · rw [h3]; simp; linarith
      · rw [h3]; linarith
    · exact le_trans (hbound _ rfl h2).le hquart

end Symxx.Num
