import Verif.Num.DecimalClose
/-!
# Decimal texts: what `std::stold` reads, and the fraction built from it
-/
namespace Symxx.Num
variable {F : FloatFmt}

theorem decimalNat_digVal {ds : List Char} (h : AllDigits ds) : digVal ds = (decimalNat ds : Int) := by
  unfold digVal decimalNat
  have : ∀ (ds : List Char), AllDigits ds → ∀ (a : Int) (b : Nat), a = b →
      ds.foldl (fun v c => v * 10 + ((c.toNat : Int) - 48)) a = ((ds.foldl (fun n c => 10 * n + (c.toNat - '0'.toNat)) b : Nat) : Int) := by
    intro ds
    induction ds with
    | nil => intro _ a b hab; exact hab
    | cons c ds ih =>
      intro hd a b hab
      apply ih (fun x hx => hd x (List.mem_cons_of_mem _ hx))
      have h1 := (hd c List.mem_cons_self).1
      have h2 : 48 ≤ c.toNat := by
        have : '0'.toNat ≤ c.toNat := h1
        exact this
      have h3 : '0'.toNat = 48 := rfl
      rw [h3]
      push_cast [Nat.cast_sub h2]
      rw [hab]; ring
  exact this ds h 0 0 rfl

theorem isDig_iff (c : Char) : isDig c = true ↔ '0' ≤ c ∧ c ≤ '9' := by
  unfold isDig; simp

theorem takeWhile_dig {ds rest : List Char} (h : AllDigits ds) (hr : ∀ c t, rest = c :: t → isDig c = false) :
    (ds ++ rest).takeWhile isDig = ds ∧ (ds ++ rest).dropWhile isDig = rest := by
  induction ds with
  | nil =>
    cases rest with
    | nil => exact ⟨rfl, rfl⟩
    | cons c t =>
      have := hr c t rfl
      simp [this]
  | cons c ds ih =>
    have := (isDig_iff c).2 (h c List.mem_cons_self)
    obtain ⟨i1, i2⟩ := ih (fun x hx => h x (List.mem_cons_of_mem _ hx))
    simp [this, i1, i2]

theorem dig_not_space {c : Char} (h : isDig c = true) : isSpace c = false ∧ c ≠ '-' ∧ c ≠ '+' := by
  rw [isDig_iff] at h
  have h1 : 48 ≤ c.toNat := h.1
  refine ⟨?_, ?_, ?_⟩
  · unfold isSpace
    rw [Bool.or_eq_false_iff]
    constructor
    · rw [decide_eq_false_iff_not]; rintro rfl; exact absurd h1 (by decide)
    · rw [Bool.and_eq_false_iff]; right
      rw [decide_eq_false_iff_not]
      intro hc
      have : c.toNat ≤ 13 := hc
      omega
  · rintro rfl; exact absurd h1 (by decide)
  · rintro rfl; exact absurd h1 (by decide)

theorem signOf_digits {ds rest : List Char} (h : AllDigits ds) (neg : Bool) :
    signOf (((if neg then ['-'] else []) ++ ds ++ '.' :: rest).dropWhile isSpace) = (neg, ds ++ '.' :: rest) := by
  cases neg with
  | true => rfl
  | false =>
    cases ds with
    | nil => rfl
    | cons c ds =>
      obtain ⟨h1, h2, h3⟩ := dig_not_space ((isDig_iff c).2 (h c List.mem_cons_self))
      simp only [Bool.false_eq_true, if_false, List.nil_append, List.cons_append]
      rw [List.dropWhile_cons, h1]
      simp only [Bool.false_eq_true, if_false]
      unfold signOf
      split
      · next heq => injection heq with h4; exact absurd h4 h2
      · next heq => injection heq with h4; exact absurd h4 h3
      · rfl

theorem not_special {ds rest : List Char} (h : AllDigits ds) (neg : Bool) :
    isSpecial ((if neg then ['-'] else []) ++ ds ++ '.' :: rest) = false := by
  unfold isSpecial
  rw [signOf_digits h]
  cases ds with
  | nil =>
    cases rest with
    | nil => rfl
    | cons d r => simp
  | cons c ds =>
    have hc := h c List.mem_cons_self
    have hnot : ∀ x : Char, isDig x = false → c ≠ x := fun x hx e => by
      rw [← e, (isDig_iff c).2 hc] at hx; cases hx
    have key : ∀ d : Char, (isDig d = true ∨ d = '.') → (c ∈ ['i', 'I', 'n', 'N'] || (c = '0' && (d = 'x' || d = 'X'))) = false := by
      intro d hd
      have hd' : d ≠ 'x' ∧ d ≠ 'X' := by
        rcases hd with hd | rfl
        · constructor <;> (rintro rfl; exact absurd hd (by decide))
        · decide
      simp [hnot 'i' (by decide), hnot 'I' (by decide), hnot 'n' (by decide), hnot 'N' (by decide), hd'.1, hd'.2]
    cases ds with
    | nil => exact key '.' (.inr rfl)
    | cons d ds => exact key d (.inl ((isDig_iff d).2 (h d (by simp))))

theorem decVal_text {ds1 ds2 rest : List Char} (neg : Bool) (h1 : AllDigits ds1) (h2 : AllDigits ds2) (hne : ds1 ++ ds2 ≠ [])
    (hr : Ends rest) :
    decVal (decimalText neg ds1 ds2 ++ rest) = some (sgn neg * ((decimalNat (ds1 ++ ds2) : ℚ) / 10 ^ ds2.length)) := by
  have hrest : ∀ c t, rest = c :: t → isDig c = false := fun c t e => by
    have := (hr c t e).1
    rw [← isDig_iff] at this
    simpa using this
  have e0 : decimalText neg ds1 ds2 ++ rest = (if neg then ['-'] else []) ++ ds1 ++ '.' :: (ds2 ++ rest) := by
    unfold decimalText; simp
  have hall : AllDigits (ds1 ++ ds2) := fun c hc => (List.mem_append.1 hc).elim (h1 c) (h2 c)
  have hexp : expPart rest = 0 := by
    cases rest with
    | nil => rfl
    | cons c t =>
      obtain ⟨_, h3, h4⟩ := hr c t rfl
      have : ¬ (c = 'e' ∨ c = 'E') := by rintro (h | h); exacts [h3 h, h4 h]
      simp only [expPart, if_neg this]
  unfold decVal
  rw [e0, signOf_digits h1]
  obtain ⟨t1, t2⟩ := takeWhile_dig (rest := '.' :: (ds2 ++ rest)) h1 (fun c t e => by injection e with e _; subst e; decide)
  obtain ⟨t3, t4⟩ := takeWhile_dig (rest := rest) h2 hrest
  simp only [t1, t2, fracDigits, t3, t4]
  rw [if_neg (by simpa using hne), decimalNat_digVal hall, hexp, powI_eq, zero_sub, zpow_neg, zpow_natCast]
  unfold sgn
  congr 1
  cases neg <;> simp [div_eq_mul_inv]

theorem sgn_cases (neg : Bool) : sgn neg = 1 ∨ sgn neg = -1 := by cases neg <;> simp [sgn]
theorem sgn_mul_self (neg : Bool) : sgn neg * sgn neg = 1 := by cases neg <;> simp [sgn]
theorem abs_sgn (neg : Bool) : |sgn neg| = 1 := by cases neg <;> simp [sgn]

theorem decimalPlaces_sgn (neg : Bool) (x : ℚ) : F.decimalPlaces (sgn neg * x) = F.decimalPlaces x := by
  unfold FloatFmt.decimalPlaces
  rw [abs_mul, abs_sgn, one_mul]

/-- the rounding as seen from the positive side. -/
theorem nearest_sgn {p : Nat} {rnd : ℚ → ℚ} (h : FloatNearest p rnd) (neg : Bool) : FloatNearest p (fun q => sgn neg * rnd (sgn neg * q)) := by
  cases neg with
  | false => simpa [sgn] using h
  | true => simpa [sgn] using h.flip

theorem numer_sgn (rnd : ℚ → ℚ) (neg : Bool) (d10 nd : Nat) (v : ℚ) :
    (floatNumer rnd d10 nd (sgn neg * v) : ℚ) = sgn neg * (floatNumer (fun q => sgn neg * rnd (sgn neg * q)) d10 nd v : ℚ) := by
  cases neg with
  | false => simp [sgn]
  | true =>
    have := numer_neg rnd d10 nd v
    simp only [sgn, if_true, neg_mul, one_mul]
    rw [this]; push_cast; rfl

theorem exists_sgn (x : ℚ) : ∃ neg v, 0 ≤ v ∧ x = sgn neg * v := by
  rcases le_total 0 x with h | h
  · exact ⟨false, x, h, by simp [sgn]⟩
  · exact ⟨true, -x, by linarith, by simp [sgn]⟩

theorem FloatRep.sgn {p : Nat} {q : ℚ} (h : FloatRep p q) (neg : Bool) : FloatRep p (sgn neg * q) := by
  cases neg with
  | false => simpa [Num.sgn] using h
  | true => simpa [Num.sgn] using h.neg

/-- `Rational(long double)` on a number that is a short decimal up to rounding. -/
theorem ofFloat_short (h : FloatNearest F.p F.rnd) (hten : 5 ^ (F.maxDigits10 + 1) ≤ 2 ^ F.p) {M : Int} {d10 : Nat}
    (hd10 : d10 ≤ F.maxDigits10) {neg : Bool} {a k : Nat} {v : ℚ} (hv : FloatRep F.p v)
    (happ : |v - (a : ℚ) / 10 ^ k| ≤ ((a : ℚ) / 10 ^ k) / 2 ^ F.p) (hk0 : k = 0 → v = a)
    (hk : k ≤ d10) (ha : 64 * a ≤ 2 ^ F.p) (hk16 : 16 * 10 ^ k ≤ 2 ^ F.p) (hlow : k = 0 ∨ ¬ 10 ∣ a)
    (haM : (a : Int) ≤ M) (hkM : (10 : Int) ^ k ≤ M) :
    ∃ r, Rational.ofFloat F M d10 (sgn neg * v) = .ok r ∧ r.Lowest ∧ 0 < r.den ∧ r.Fits M ∧
      sgn neg * r.val = ((if (a : ℚ) ≤ sgn neg * F.rnd (sgn neg * (v * 10 ^ k)) then (a : ℚ) else a - 1)) / 10 ^ k ∧
      ((a : ℚ) ≤ sgn neg * F.rnd (sgn neg * (v * 10 ^ k)) ∨ 1 ≤ a) := by
  obtain ⟨hpl, hv0, _⟩ := places_short h hten hv happ hk0 (le_trans hk hd10) ha hk16 hlow
  have hG := nearest_sgn h neg
  obtain ⟨_, _, hfl⟩ := places_short (F := { F with rnd := fun q => sgn neg * F.rnd (sgn neg * q) }) hG hten hv happ hk0
    (le_trans hk hd10) ha hk16 hlow
  simp only at hfl
  have hw0 : 0 ≤ sgn neg * F.rnd (sgn neg * (v * 10 ^ k)) := hG.nonneg (by positivity)
  set y := sgn neg * F.rnd (sgn neg * (v * 10 ^ k)) with hy
  have hor : (a : ℚ) ≤ y ∨ 1 ≤ a := by
    rcases Nat.eq_zero_or_pos a with h0 | h0
    · left; rw [h0]; simpa using hw0
    · exact .inr h0
  have hnum : (floatNumer F.rnd d10 (F.decimalPlaces (sgn neg * v)) (sgn neg * v) : ℚ) =
      sgn neg * ((if (a : ℚ) ≤ y then (a : Int) else a - 1 : Int) : ℚ) := by
    rw [numer_sgn, decimalPlaces_sgn, hpl]
    congr 2
    unfold floatNumer
    rw [if_neg (by omega), if_neg (by omega)]
    rw [trunc_nonneg hw0]
    exact hfl
  have hB : ∃ b : Int, (if (a : ℚ) ≤ y then (a : Int) else a - 1 : Int) = b ∧ 0 ≤ b ∧ b ≤ a := by
    refine ⟨_, rfl, ?_, ?_⟩ <;> split <;> first | omega | (rcases hor with h1 | h1; exacts [absurd h1 (by assumption), by omega])
  obtain ⟨b, hb, hb0, hba⟩ := hB
  rw [hb] at hnum
  obtain ⟨n, hn, hnb⟩ : ∃ n : Int, floatNumer F.rnd d10 (F.decimalPlaces (sgn neg * v)) (sgn neg * v) = n ∧ |n| = b := by
    refine ⟨_, rfl, ?_⟩
    have : |(floatNumer F.rnd d10 (F.decimalPlaces (sgn neg * v)) (sgn neg * v) : ℚ)| = (b : ℚ) := by
      rw [hnum, abs_mul, abs_sgn, one_mul, abs_of_nonneg (by exact_mod_cast hb0)]
    exact_mod_cast this
  rw [hn] at hnum
  have hden : (10 : Int) ^ k ≠ 0 := by positivity
  have hnM : |n| ≤ M := by omega
  have hdM : |(10 : Int) ^ k| ≤ M := by rw [abs_of_pos (by positivity)]; exact hkM
  rw [ofFloat_eq, hn, chk_ok (inRange_of_abs hnM), decimalPlaces_sgn, hpl, if_neg (by omega)]
  have hnorm := Rational.normalize_eq M n (10 ^ k) hnM hdM hden
  obtain ⟨s1, s2, _, _, s5, s6, _⟩ := Rational.normalize_spec hnorm hden
  refine ⟨_, hnorm, s2, s5 (by positivity), s6, ?_, hor⟩
  rw [s1]
  unfold Rational.val
  simp only
  rw [hnum]
  push_cast
  rw [← mul_div_assoc, ← mul_assoc, sgn_mul_self, one_mul, ← hb]
  push_cast
  rfl

/-- trailing zeros can be removed. -/
theorem exists_shortest (n m : Nat) : ∃ a k, Shortest n m a k := by
  induction m generalizing n with
  | zero => exact ⟨n, 0, le_refl _, by simp, .inl rfl⟩
  | succ m ih =>
    by_cases hc : 10 ∣ n
    · obtain ⟨n', rfl⟩ := hc
      obtain ⟨a, k, h1, h2, h3⟩ := ih n'
      exact ⟨a, k, by omega, by rw [h2, show m + 1 - k = (m - k) + 1 by omega, pow_succ]; ring, h3⟩
    · exact ⟨n, m + 1, le_refl _, by simp, .inr hc⟩

theorem Shortest.val {n m a k : Nat} (h : Shortest n m a k) : (n : ℚ) / 10 ^ m = a / 10 ^ k := by
  obtain ⟨h1, h2, _⟩ := h
  have : (10 : ℚ) ^ m = 10 ^ (m - k) * 10 ^ k := by rw [← pow_add]; congr 1; omega
  rw [h2, this]; push_cast; field_simp

theorem Shortest.le {n m a k : Nat} (h : Shortest n m a k) : a ≤ n := by
  obtain ⟨h1, h2, _⟩ := h
  rw [h2]; exact Nat.le_mul_of_pos_right _ (by positivity)

/-- reading a short decimal. -/
theorem stold_text (h : FloatNearest F.p F.rnd) (hp : 1 ≤ F.p) (hmin : F.emin ≤ -(F.p : Int)) (hmax : (F.p : Int) ≤ F.emax)
    {ds1 ds2 rest : List Char} (neg : Bool) (h1 : AllDigits ds1) (h2 : AllDigits ds2) (hne : ds1 ++ ds2 ≠ []) (hr : Ends rest)
    (hn : 64 * decimalNat (ds1 ++ ds2) ≤ 2 ^ F.p) (hk : 16 * 10 ^ ds2.length ≤ 2 ^ F.p) :
    stold F (decimalText neg ds1 ds2 ++ rest) = .ok (F.rnd (sgn neg * ((decimalNat (ds1 ++ ds2) : ℚ) / 10 ^ ds2.length))) := by
  unfold stold
  rw [decVal_text neg h1 h2 hne hr]
  simp only
  set n := decimalNat (ds1 ++ ds2)
  set q : ℚ := (n : ℚ) / 10 ^ ds2.length
  have hq0 : 0 ≤ q := by positivity
  have hG := nearest_sgn h neg
  have hab : |F.rnd (sgn neg * q)| = sgn neg * F.rnd (sgn neg * q) := by
    have h0 : 0 ≤ sgn neg * F.rnd (sgn neg * q) := hG.nonneg hq0
    rw [← abs_of_nonneg h0, abs_mul, abs_sgn, one_mul]
  rw [powI_eq, powI_eq, powI_eq, hab]
  push_cast
  have hnq : 64 * (n : ℚ) ≤ 2 ^ F.p := by exact_mod_cast hn
  rw [if_neg, if_neg]
  · rintro ⟨c1, c2⟩
    rcases Nat.eq_zero_or_pos n with h0 | h0
    · apply c2
      have : q = 0 := by simp [q, h0]
      rw [this, mul_zero, zero_mul]; rfl
    · have hlow : (2 : ℚ) ^ (-(F.p : Int)) ≤ q := by
        rw [zpow_neg, zpow_natCast]
        have h3 : (10 : ℚ) ^ ds2.length ≤ 2 ^ F.p := by
          have : 10 ^ ds2.length ≤ 2 ^ F.p := by omega
          exact_mod_cast this
        calc ((2 : ℚ) ^ F.p)⁻¹ ≤ (10 ^ ds2.length)⁻¹ := inv_anti₀ (by positivity) h3
          _ = 1 / 10 ^ ds2.length := by rw [one_div]
          _ ≤ q := by
            have : (1 : ℚ) ≤ n := by exact_mod_cast h0
            simp only [q]; gcongr
      have h4 := hG.le_of_rep ⟨1, -(F.p : Int), by exact_mod_cast Nat.one_le_two_pow, by simp⟩ hlow
      have h5 : (2 : ℚ) ^ F.emin ≤ 2 ^ (-(F.p : Int)) := zpow_le_zpow_right₀ (by norm_num) hmin
      linarith
  · intro hc
    have h3 : q ≤ ((2 ^ F.p : Int) : ℚ) / 64 := by
      have : q ≤ n := by
        simp only [q]
        exact div_le_self (by positivity) (one_le_pow₀ (by norm_num))
      push_cast; linarith
    have hrep : FloatRep F.p (((2 ^ F.p : Int) : ℚ) / 64) :=
      ⟨1, (F.p : Int) - 6, by exact_mod_cast Nat.one_le_two_pow, by
        rw [zpow_sub₀ (by norm_num), zpow_natCast]; push_cast; norm_num⟩
    have h4 := hG.rep_le hrep h3
    have h5 : (2 : ℚ) ^ (F.p : Int) ≤ 2 ^ F.emax := zpow_le_zpow_right₀ (by norm_num) hmax
    rw [zpow_natCast] at h5
    push_cast at h4
    have : (0 : ℚ) < 2 ^ F.p := by positivity
    linarith

/-- the fraction a short decimal text becomes. -/
theorem decFloat_text (h : FloatNearest F.p F.rnd) (hten : 5 ^ (F.maxDigits10 + 1) ≤ 2 ^ F.p)
    (hmin : F.emin ≤ -(F.p : Int)) (hmax : (F.p : Int) ≤ F.emax) {M : Int} {d10 : Nat} (hd10 : d10 ≤ F.maxDigits10)
    (hM : (10 : Int) ^ d10 ≤ M) (special : List Char → Res Rational)
    {ds1 ds2 rest : List Char} (neg : Bool) (h1 : AllDigits ds1) (h2 : AllDigits ds2) (hne : ds1 ++ ds2 ≠ []) (hr : Ends rest)
    (hn : 64 * decimalNat (ds1 ++ ds2) ≤ 2 ^ F.p) (hnM : (decimalNat (ds1 ++ ds2) : Int) ≤ M) (hk : ds2.length ≤ d10)
    (hk16 : 16 * 10 ^ ds2.length ≤ 2 ^ F.p) {a k : Nat} (hs : Shortest (decimalNat (ds1 ++ ds2)) ds2.length a k) :
    ∃ r, decFloat F M d10 special (decimalText neg ds1 ds2 ++ rest) = .ok r ∧ r.Lowest ∧ 0 < r.den ∧ r.Fits M ∧
      sgn neg * r.val = ((if (a : ℚ) ≤ sgn neg * F.rnd (F.rnd (sgn neg * (a / 10 ^ k)) * 10 ^ k) then (a : ℚ) else a - 1)) / 10 ^ k ∧
      ((a : ℚ) ≤ sgn neg * F.rnd (F.rnd (sgn neg * (a / 10 ^ k)) * 10 ^ k) ∨ 1 ≤ a) := by
  have hp := one_le_p hten
  have hval := hs.val
  have hG := nearest_sgn h neg
  set v : ℚ := sgn neg * F.rnd (sgn neg * (a / 10 ^ k)) with hv
  have hsv : sgn neg * v = F.rnd (sgn neg * (a / 10 ^ k)) := by rw [hv, ← mul_assoc, sgn_mul_self, one_mul]
  have hrep : FloatRep F.p v := hG.rep _
  have hale := hs.le
  have h64 : 64 * a ≤ 2 ^ F.p := by omega
  have happ : |v - (a : ℚ) / 10 ^ k| ≤ ((a : ℚ) / 10 ^ k) / 2 ^ F.p := by
    have := hG.rel hp ((a : ℚ) / 10 ^ k)
    rwa [abs_of_nonneg (show (0 : ℚ) ≤ (a : ℚ) / 10 ^ k by positivity)] at this
  have hk0 : k = 0 → v = a := by
    intro hk
    have := hG.eq_of_rep (r := (a : ℚ) / 10 ^ k) (by
      rw [hk]; simp only [pow_zero, div_one]
      have := FloatRep.intCast (p := F.p) (n := (a : Int)) (by rw [Nat.abs_cast]; exact_mod_cast (by omega : a ≤ 2 ^ F.p))
      simpa using this)
    rw [hk] at this
    simp only [pow_zero, div_one] at this
    rw [hv, hk]; simpa using this
  have hk16' : 16 * 10 ^ k ≤ 2 ^ F.p := by
    have := Nat.pow_le_pow_right (show 0 < 10 by norm_num) hs.1
    omega
  obtain ⟨r, e1, e2, e3, e4, e5, e6⟩ := ofFloat_short h hten (M := M) hd10 (neg := neg) hrep happ hk0 (le_trans hs.1 hk) h64 hk16' hs.2.2
    (by omega) (le_trans (by exact_mod_cast Nat.pow_le_pow_right (show 0 < 10 by norm_num) (le_trans hs.1 hk)) hM)
  have hst := stold_text h hp hmin hmax neg h1 h2 hne hr hn hk16
  refine ⟨r, ?_, e2, e3, e4, ?_, ?_⟩
  · unfold decFloat
    have : isSpecial (decimalText neg ds1 ds2 ++ rest) = false := by
      have := not_special (rest := ds2 ++ rest) h1 neg
      unfold decimalText
      simpa using this
    rw [this, hst, hval, ← hsv]
    exact e1
  · rw [e5, ← mul_assoc, hsv]
  · rw [← mul_assoc, hsv] at e6; exact e6

end Symxx.Num
