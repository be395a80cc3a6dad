import Verif.Num.FloatProof
/-!
# `decimal_places` finds the number of decimals, and what `Rational(long double)` then builds
-/
namespace Symxx.Num
variable {F : FloatFmt}

/-- the loop goes on at a place where the number is not within rounding of an integer. -/
theorem place_goes_on {p : Nat} {rnd : ℚ → ℚ} (h : FloatNearest p rnd) (hp : 1 ≤ p) {A D y eps : ℚ} {N : Int}
    (hA : 0 ≤ A) (hlo : (N : ℚ) + D ≤ A) (hhi : A ≤ N + 1 - D) (hy : |y - A| ≤ 3 * A / 2 ^ p)
    (hAD : 64 * A / 2 ^ p ≤ D) (hD : 16 / 2 ^ p ≤ D) (he0 : 0 ≤ eps) (he : eps ≤ 21 * A / 2 ^ p) :
    eps < y - (⌊y⌋ : Int) ∧ y - (⌊y⌋ : Int) < rnd (1 - eps) := by
  have hu : (0 : ℚ) < 1 / 2 ^ p := by positivity
  set u : ℚ := 1 / 2 ^ p with hue
  have r1 : 3 * A / 2 ^ p = 3 * (A * u) := by rw [hue]; ring
  have r2 : 64 * A / 2 ^ p = 64 * (A * u) := by rw [hue]; ring
  have r3 : (16 : ℚ) / 2 ^ p = 16 * u := by rw [hue]; ring
  have r4 : 21 * A / 2 ^ p = 21 * (A * u) := by rw [hue]; ring
  rw [r1] at hy
  rw [r2] at hAD
  rw [r3] at hD
  rw [r4] at he
  set t := A * u
  have ht : 0 ≤ t := mul_nonneg hA hu.le
  obtain ⟨y1, y2⟩ := abs_le.1 hy
  have hfl : ⌊y⌋ = N := by
    rw [Int.floor_eq_iff]; constructor <;> linarith
  rw [hfl]
  refine ⟨by linarith, ?_⟩
  have hr := h.rel hp (1 - eps)
  have e1 : |1 - eps| ≤ 1 := by rw [abs_le]; constructor <;> linarith
  have : |1 - eps| / 2 ^ p ≤ u := by rw [hue]; gcongr
  obtain ⟨r5, r6⟩ := abs_le.1 (le_trans hr this)
  linarith

/-- the loop stops at the place where the number is within rounding of an integer. -/
theorem place_stops {p : Nat} {rnd : ℚ → ℚ} (h : FloatNearest p rnd) (hp : 1 ≤ p) {a : Nat} {y eps : ℚ}
    (ha : 1 ≤ a) (ha2 : 64 * a ≤ 2 ^ p) (hy : |y - a| ≤ 3 * a / 2 ^ p)
    (he : 19 * (a : ℚ) / 2 ^ p ≤ eps) (he2 : eps ≤ 21 * a / 2 ^ p) :
    ¬ (eps < y - (⌊y⌋ : Int) ∧ y - (⌊y⌋ : Int) < rnd (1 - eps)) ∧ ⌊y⌋ = if (a : ℚ) ≤ y then (a : Int) else a - 1 := by
  have hu : (0 : ℚ) < 1 / 2 ^ p := by positivity
  have ha2' : 64 * (a : ℚ) ≤ 2 ^ p := by exact_mod_cast ha2
  have ha2' : 64 * ((a : ℚ) / 2 ^ p) ≤ 1 := by
    rw [← mul_div_assoc, div_le_one (by positivity)]; exact ha2'
  have hau : 1 / 2 ^ p ≤ (a : ℚ) / 2 ^ p := by gcongr; exact_mod_cast ha
  rw [mul_div_assoc] at hy he he2
  set t : ℚ := (a : ℚ) / 2 ^ p
  set u : ℚ := 1 / 2 ^ p with hue
  obtain ⟨y1, y2⟩ := abs_le.1 hy
  have hr := h.rel hp (1 - eps)
  have e1 : |1 - eps| ≤ 1 := by rw [abs_le]; constructor <;> linarith
  have : |1 - eps| / 2 ^ p ≤ u := by rw [hue]; gcongr
  obtain ⟨r5, r6⟩ := abs_le.1 (le_trans hr this)
  by_cases hc : (a : ℚ) ≤ y
  · have hfl : ⌊y⌋ = (a : Int) := by
      rw [Int.floor_eq_iff]; push_cast; constructor <;> linarith
    rw [hfl, if_pos hc]
    refine ⟨?_, rfl⟩
    rintro ⟨h1, h2⟩
    push_cast at h1
    linarith
  · have hfl : ⌊y⌋ = (a : Int) - 1 := by
      rw [Int.floor_eq_iff]; push_cast; constructor <;> linarith
    rw [hfl, if_neg hc]
    refine ⟨?_, rfl⟩
    rintro ⟨h1, h2⟩
    push_cast at h2
    linarith

/-! ### the quantities of the loop -/

/-- the value examined at the `j`-th place. -/
def FloatFmt.yAt (F : FloatFmt) (v : ℚ) (j : Nat) : ℚ := if j = 0 then v else F.rnd (v * 10 ^ j)
/-- the tolerance at the `j`-th place. -/
def FloatFmt.eAt (F : FloatFmt) (v : ℚ) (j : Nat) : ℚ :=
  if j = 0 then F.rnd (F.eps * F.fracPart v) else F.rnd (F.rnd (F.eps * v) * 10 ^ (j + 1))

theorem placesLoop_eq (hten : ∀ j, j ≤ F.maxDigits10 + 1 → F.rnd (10 ^ j) = 10 ^ j) (v : ℚ) (k : Nat) (hk : k ≤ F.maxDigits10)
    (hgo : ∀ j, j < k → F.eAt v j < F.fracPart (F.yAt v j) ∧ F.fracPart (F.yAt v j) < F.rnd (1 - F.eAt v j))
    (hstop : ¬ (F.eAt v k < F.fracPart (F.yAt v k) ∧ F.fracPart (F.yAt v k) < F.rnd (1 - F.eAt v k))) :
    ∀ n j, j + n = k → ∀ fuel, j + fuel = F.maxDigits10 →
      F.placesLoop v fuel j (F.fracPart (F.yAt v j)) (F.eAt v j) (10 ^ (j + 1)) = k := by
  intro n
  induction n with
  | zero =>
    intro j hj fuel hf
    obtain rfl : j = k := by omega
    cases fuel with
    | zero => rfl
    | succ fuel => rw [FloatFmt.placesLoop, if_neg hstop]
  | succ n ih =>
    intro j hj fuel hf
    cases fuel with
    | zero => omega
    | succ fuel =>
      rw [FloatFmt.placesLoop, if_pos (hgo j (by omega))]
      have e1 : F.rnd ((10 : ℚ) ^ (j + 1) * 10) = 10 ^ (j + 1 + 1) := by
        rw [← pow_succ]; exact hten _ (by omega)
      have := ih (j + 1) (by omega) fuel (by omega)
      rw [FloatFmt.yAt, FloatFmt.eAt, if_neg (Nat.succ_ne_zero j), if_neg (Nat.succ_ne_zero j)] at this
      rw [e1]
      exact this

/-- powers of ten are exact while the power of five fits. -/
theorem ten_rep {p j : Nat} (h : 5 ^ j ≤ 2 ^ p) : FloatRep p ((10 : ℚ) ^ j) := by
  refine ⟨5 ^ j, j, ?_, ?_⟩
  · rw [abs_of_nonneg (by positivity)]; exact_mod_cast h
  · rw [zpow_natCast]; push_cast; rw [← mul_pow]; norm_num

theorem fracPart_eq (h : FloatNearest F.p F.rnd) {y : ℚ} (hy : FloatRep F.p y) (h0 : 0 ≤ y) :
    F.fracPart y = y - (⌊y⌋ : Int) := h.eq_of_rep (hy.frac h0)

theorem eps_eq (hp : 1 ≤ F.p) : F.eps = 2 * (1 / 2 ^ F.p) := by
  unfold FloatFmt.eps
  obtain ⟨n, hn⟩ : ∃ n, F.p = n + 1 := ⟨F.p - 1, by omega⟩
  rw [hn]
  rw [Nat.add_sub_cancel]
  push_cast
  rw [pow_succ]
  field_simp

theorem rnd_eps_mul (h : FloatNearest F.p F.rnd) (hp : 1 ≤ F.p) {c : ℚ} (hc : FloatRep F.p c) :
    F.rnd (F.eps * c) = 2 * c / 2 ^ F.p := by
  have e : F.eps * c = 2 * c / 2 ^ F.p := by rw [eps_eq hp]; ring
  rw [e]
  apply h.eq_of_rep
  have : 2 * c / 2 ^ F.p = c * (2 : ℚ) ^ (1 - (F.p : Int)) := by
    rw [zpow_sub₀ (by norm_num), zpow_natCast]; simp; ring
  rw [this]
  exact hc.mulPow _

/-- the number of decimals of `a/10^k` is found although the number is only known to `p` bits. -/
theorem places_short (h : FloatNearest F.p F.rnd) (hten : 5 ^ (F.maxDigits10 + 1) ≤ 2 ^ F.p) {a k : Nat} {v : ℚ}
    (hv : FloatRep F.p v) (happ : |v - (a : ℚ) / 10 ^ k| ≤ ((a : ℚ) / 10 ^ k) / 2 ^ F.p) (hk0 : k = 0 → v = a)
    (hk : k ≤ F.maxDigits10) (ha : 64 * a ≤ 2 ^ F.p) (hk16 : 16 * 10 ^ k ≤ 2 ^ F.p) (hlow : k = 0 ∨ ¬ 10 ∣ a) :
    F.decimalPlaces v = k ∧ 0 ≤ v ∧ (F.rnd (v * 10 ^ k)).floor = if (a : ℚ) ≤ F.rnd (v * 10 ^ k) then (a : Int) else a - 1 := by
  have hp : 1 ≤ F.p := by
    by_contra hc
    have : F.p = 0 := by omega
    rw [this] at hten
    have : 1 < 5 ^ (F.maxDigits10 + 1) := Nat.one_lt_pow (by omega) (by norm_num)
    omega
  have hu : (0 : ℚ) < 1 / 2 ^ F.p := by positivity
  have hv0 : 0 ≤ v := by
    have h1 : (0 : ℚ) ≤ (a : ℚ) / 10 ^ k := by positivity
    have h2 : ((a : ℚ) / 10 ^ k) / 2 ^ F.p ≤ (a : ℚ) / 10 ^ k := div_le_self h1 (one_le_pow₀ (by norm_num))
    have := abs_le.1 happ
    linarith
  have ht : ∀ j, j ≤ F.maxDigits10 + 1 → F.rnd ((10 : ℚ) ^ j) = 10 ^ j := fun j hj =>
    h.eq_of_rep (ten_rep (le_trans (Nat.pow_le_pow_right (by norm_num) hj) hten))
  -- the value and the tolerance at each place
  have hyrep : ∀ j, FloatRep F.p (F.yAt v j) := fun j => by
    unfold FloatFmt.yAt; split
    · exact hv
    · exact h.rep _
  have hy0 : ∀ j, 0 ≤ F.yAt v j := fun j => by
    unfold FloatFmt.yAt; split
    · exact hv0
    · exact h.nonneg (by positivity)
  have h64 : (64 : ℚ) * a / 2 ^ F.p ≤ 1 := by
    rw [div_le_one (by positivity)]; exact_mod_cast ha
  have hAj : ∀ j, j ≤ k → (a : ℚ) / 10 ^ k * 10 ^ j = a / 10 ^ (k - j) := by
    intro j hj
    have : (10 : ℚ) ^ k = 10 ^ (k - j) * 10 ^ j := by rw [← pow_add]; congr 1; omega
    rw [this]; field_simp
  by_cases ha0 : a = 0
  · subst ha0
    have hk' : k = 0 := by rcases hlow with h | h
                           · exact h
                           · simp at h
    have : v = 0 := by simpa using hk0 hk'
    subst this
    subst hk'
    have hf0 : F.fracPart 0 = 0 := by
      rw [FloatFmt.fracPart, show (0 : ℚ).floor = 0 from rfl]; simpa using h.zero
    refine ⟨?_, le_refl _, ?_⟩
    · unfold FloatFmt.decimalPlaces
      rw [abs_zero, hf0, mul_zero, h.zero]
      cases F.maxDigits10 with
      | zero => rfl
      | succ n => rw [FloatFmt.placesLoop, if_neg (by simp)]
    · simp only [zero_mul, h.zero]
      have : (0 : ℚ).floor = 0 := rfl
      simp [this]
  have ha1 : 1 ≤ a := Nat.one_le_iff_ne_zero.2 ha0
  have ha1q : (1 : ℚ) ≤ a := by exact_mod_cast ha1
  have hu64 : 64 * (1 / 2 ^ F.p : ℚ) ≤ 1 := by
    have : (64 : ℚ) * a / 2 ^ F.p = 64 * (1 / 2 ^ F.p) * a := by ring
    rw [this] at h64
    nlinarith
  have hyA : ∀ j, j ≤ k → |F.yAt v j - a / 10 ^ (k - j)| ≤ 3 * ((a : ℚ) / 10 ^ (k - j)) / 2 ^ F.p := by
    intro j hj
    have hp0 : (0 : ℚ) ≤ a / 10 ^ (k - j) := by positivity
    have h1 : |v * 10 ^ j - a / 10 ^ (k - j)| ≤ ((a : ℚ) / 10 ^ (k - j)) / 2 ^ F.p := by
      rw [← hAj j hj, ← sub_mul, abs_mul, abs_of_pos (by positivity : (0 : ℚ) < 10 ^ j), mul_div_right_comm]
      gcongr
    set A : ℚ := a / 10 ^ (k - j)
    have eA : A / 2 ^ F.p = A * (1 / 2 ^ F.p) := by ring
    have eA3 : 3 * A / 2 ^ F.p = 3 * (A * (1 / 2 ^ F.p)) := by ring
    have hAu : 0 ≤ A * (1 / 2 ^ F.p) := mul_nonneg hp0 hu.le
    rw [eA] at h1
    rw [eA3]
    unfold FloatFmt.yAt
    split
    · next hj0 =>
      rw [hj0, pow_zero, mul_one] at h1
      linarith
    · have h2 := h.rel hp (v * 10 ^ j)
      have h3 : |v * 10 ^ j| ≤ 2 * A := by
        have := abs_le.1 h1
        have h4 : A * (1 / 2 ^ F.p) ≤ A := by nlinarith
        rw [abs_of_nonneg (by positivity)]; linarith
      have h5 : |v * 10 ^ j| / 2 ^ F.p ≤ 2 * (A * (1 / 2 ^ F.p)) := by
        have : 2 * (A * (1 / 2 ^ F.p)) = 2 * A / 2 ^ F.p := by ring
        rw [this]; gcongr
      have h6 := abs_sub_le (F.rnd (v * 10 ^ j)) (v * 10 ^ j) A
      linarith
  have hvA : v * 2 ^ F.p ≤ (a / 10 ^ k) * (2 ^ F.p + 1) ∧ (a / 10 ^ k) * (2 ^ F.p - 1) ≤ v * 2 ^ F.p := by
    have := abs_le.1 happ
    have e : ((a : ℚ) / 10 ^ k) / 2 ^ F.p * 2 ^ F.p = a / 10 ^ k := by field_simp
    have h2p : (0 : ℚ) < 2 ^ F.p := by positivity
    have t1 := mul_le_mul_of_nonneg_right this.1 h2p.le
    have t2 := mul_le_mul_of_nonneg_right this.2 h2p.le
    rw [neg_mul, e] at t1
    rw [e] at t2
    constructor <;> linarith
  -- tolerance after the first place
  have heA : ∀ j, 1 ≤ j → j ≤ k → 19 * ((a : ℚ) / 10 ^ (k - j)) / 2 ^ F.p ≤ F.eAt v j ∧
      F.eAt v j ≤ 21 * ((a : ℚ) / 10 ^ (k - j)) / 2 ^ F.p := by
    intro j hj1 hj
    unfold FloatFmt.eAt
    rw [if_neg (by omega), rnd_eps_mul h hp hv]
    set A : ℚ := a / 10 ^ (k - j) with hAdef
    have hA0 : 0 ≤ A := by positivity
    have e1 : 2 * v / 2 ^ F.p * 10 ^ (j + 1) = 20 * ((v * 10 ^ j) * (1 / 2 ^ F.p)) := by ring
    rw [e1]
    have h1 : |v * 10 ^ j - A| ≤ A * (1 / 2 ^ F.p) := by
      rw [hAdef, ← hAj j hj, ← sub_mul, abs_mul, abs_of_pos (by positivity : (0 : ℚ) < 10 ^ j)]
      have : (a : ℚ) / 10 ^ k * 10 ^ j * (1 / 2 ^ F.p) = ((a : ℚ) / 10 ^ k) / 2 ^ F.p * 10 ^ j := by ring
      rw [this]
      gcongr
    have h2 := h.rel hp (20 * ((v * 10 ^ j) * (1 / 2 ^ F.p)))
    set w := v * 10 ^ j
    have hw0 : 0 ≤ w := by positivity
    rw [abs_of_nonneg (by positivity : 0 ≤ 20 * (w * (1 / 2 ^ F.p))), div_eq_mul_one_div (20 * (w * (1 / 2 ^ F.p)))] at h2
    rw [mul_div_assoc, mul_div_assoc, div_eq_mul_one_div A]
    set u : ℚ := 1 / 2 ^ F.p
    obtain ⟨a1, a2⟩ := abs_le.1 h1
    obtain ⟨b1, b2⟩ := abs_le.1 h2
    have hAu : A * u ≤ A / 64 := by nlinarith
    have hwlo : A * (63 / 64) ≤ w := by linarith
    have hwhi : w ≤ A * (65 / 64) := by linarith
    have c1 : A * (63 / 64) * u ≤ w * u := by gcongr
    have c2 : w * u ≤ A * (65 / 64) * u := by gcongr
    have c3 : 20 * (w * u) * u ≤ 20 * (w * u) / 64 := by
      have : 0 ≤ w * u := by positivity
      nlinarith
    have c4 : 0 ≤ A * u := by positivity
    constructor <;> nlinarith
  have hgo : ∀ j, j < k → F.eAt v j < F.fracPart (F.yAt v j) ∧ F.fracPart (F.yAt v j) < F.rnd (1 - F.eAt v j) := by
    intro j hj
    rw [fracPart_eq h (hyrep j) (hy0 j)]
    have h10 : ¬ 10 ∣ a := by rcases hlow with h | h
                              · omega
                              · exact h
    have hdpos : (0 : ℚ) < 10 ^ (k - j) := by positivity
    -- `a = 10^(k-j) N + r` with `0 < r`
    have hr0 : a % 10 ^ (k - j) ≠ 0 := by
      intro hc
      exact h10 (dvd_trans (dvd_pow_self 10 (by omega)) (Nat.dvd_of_mod_eq_zero hc))
    have hr1 : a % 10 ^ (k - j) < 10 ^ (k - j) := Nat.mod_lt _ (by positivity)
    have hdm := Nat.div_add_mod a (10 ^ (k - j))
    set N := a / 10 ^ (k - j)
    set r := a % 10 ^ (k - j)
    have hdmq : (10 : ℚ) ^ (k - j) * N + r = a := by exact_mod_cast hdm
    have hr1q : (r : ℚ) + 1 ≤ 10 ^ (k - j) := by exact_mod_cast hr1
    have hr0q : (1 : ℚ) ≤ r := by exact_mod_cast Nat.one_le_iff_ne_zero.2 hr0
    refine place_goes_on h hp (A := a / 10 ^ (k - j)) (D := 1 / 10 ^ (k - j)) (N := N) (by positivity) ?_ ?_ (hyA j hj.le) ?_ ?_ ?_ ?_
    · rw [← hdmq, add_div, mul_div_cancel_left₀ _ hdpos.ne']
      push_cast
      gcongr
    · rw [div_le_iff₀ hdpos]
      push_cast
      have : ((N : ℚ) + 1 - 1 / 10 ^ (k - j)) * 10 ^ (k - j) = 10 ^ (k - j) * N + 10 ^ (k - j) - 1 := by field_simp
      rw [this]; linarith
    · have : 64 * ((a : ℚ) / 10 ^ (k - j)) / 2 ^ F.p = (64 * a / 2 ^ F.p) * (1 / 10 ^ (k - j)) := by ring
      rw [this]
      have : (0 : ℚ) ≤ 1 / 10 ^ (k - j) := by positivity
      nlinarith
    · rw [div_le_div_iff₀ (by positivity) hdpos, one_mul]
      have : (16 : ℚ) * 10 ^ k ≤ 2 ^ F.p := by exact_mod_cast hk16
      have h2 : (10 : ℚ) ^ (k - j) ≤ 10 ^ k := pow_le_pow_right₀ (by norm_num) (by omega)
      linarith
    · unfold FloatFmt.eAt
      split
      · apply h.nonneg
        rw [fracPart_eq h hv hv0, eps_eq hp]
        have := Int.floor_le v
        exact mul_nonneg (by positivity) (by linarith)
      · apply h.nonneg
        rw [rnd_eps_mul h hp hv]
        positivity
    · by_cases hj0 : j = 0
      · subst hj0
        unfold FloatFmt.eAt
        rw [if_pos rfl]
        have hfr : FloatRep F.p (F.fracPart v) := h.rep _
        rw [rnd_eps_mul h hp hfr, fracPart_eq h hv hv0]
        have hf0 : (0 : ℚ) ≤ (⌊v⌋ : Int) := by
          have : 0 ≤ ⌊v⌋ := Int.floor_nonneg.2 hv0
          exact_mod_cast this
        have h3 := hyA 0 (Nat.zero_le _)
        simp only [FloatFmt.yAt, if_true, Nat.sub_zero] at h3
        obtain ⟨a1, a2⟩ := abs_le.1 h3
        rw [Nat.sub_zero]
        set A : ℚ := a / 10 ^ k
        have hA0 : 0 ≤ A := by positivity
        have : 3 * A / 2 ^ F.p ≤ A := by
          rw [div_eq_mul_one_div]; nlinarith
        have h2p : (0 : ℚ) < 2 ^ F.p := by positivity
        rw [div_le_div_iff_of_pos_right h2p]
        linarith
      · exact (heA j (by omega) hj.le).2
  by_cases hk0' : k = 0
  · -- an integer
    subst hk0'
    have hva : v = a := hk0 rfl
    have hfr : F.fracPart v = 0 := by
      rw [fracPart_eq h hv hv0, hva]; simp
    have hrn : F.rnd (v * 10 ^ 0) = a := by
      rw [pow_zero, mul_one, h.eq_of_rep hv, hva]
    refine ⟨?_, hv0, ?_⟩
    · unfold FloatFmt.decimalPlaces
      rw [abs_of_nonneg hv0, hfr, mul_zero, h.zero]
      cases F.maxDigits10 with
      | zero => rfl
      | succ n => rw [FloatFmt.placesLoop, if_neg (by simp)]
    · rw [hrn, if_pos (le_refl _)]
      exact Int.floor_natCast (R := ℚ) a
  · have hst := place_stops h hp (y := F.yAt v k) (eps := F.eAt v k) ha1 ha
      (by simpa using hyA k (le_refl _)) (by simpa using (heA k (by omega) (le_refl _)).1) (by simpa using (heA k (by omega) (le_refl _)).2)
    rw [← fracPart_eq h (hyrep k) (hy0 k)] at hst
    refine ⟨?_, hv0, ?_⟩
    · have := placesLoop_eq ht v k hk hgo hst.1 k 0 (Nat.zero_add _) F.maxDigits10 (Nat.zero_add _)
      unfold FloatFmt.decimalPlaces
      rw [abs_of_nonneg hv0]
      simpa [FloatFmt.yAt, FloatFmt.eAt] using this
    · have := hst.2
      rw [FloatFmt.yAt, if_neg hk0'] at this
      exact this

end Symxx.Num
