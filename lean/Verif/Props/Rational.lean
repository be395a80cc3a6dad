import Verif.Num.RatMore
/-!
# Properties of class `Rational` (C27-C35)

Vocabulary: `r.val : ℚ` is the number denoted (`num / den`), `r.Lowest` says the fraction is in lowest
terms, `M` is the largest value of the integer type. An operation of the model has the outcome `ok`,
`throw` (an `Error`) or `ub` (signed overflow / division by zero); `Clean` means `ok` or `ub`.
-/
namespace Symxx.Num.Rational

/-! ## C27 construction -/

/-- C27 (partial): `Rational(n, d)` with `d ≠ 0` (both representable together with their negations)
returns a fraction in lowest terms denoting `n/d`; the denominator is positive exactly when `d > 0` or
`d` divides `n`. `Rational(n, 0)` raises "Division by zero". Missing: a positive denominator for
`d < 0` (`C27_negative_denominator`). -/
theorem C27_construction_partial (M n d : Int) (hn : |n| ≤ M) (hd : |d| ≤ M) :
    (d ≠ 0 → ∃ r, mk2 M n d = .ok r ∧ r.val = (n : ℚ) / d ∧ r.Lowest ∧ (0 < r.den ↔ (0 < d ∨ d ∣ n))) ∧
    (d = 0 → mk2 M n d = .throw divisionByZero) := by
  constructor
  · intro h0
    obtain ⟨r, hr, -⟩ := normalize_defined M n d hn hd h0
    have hm : mk2 M n d = .ok r := by
      unfold mk2
      rw [show decide (d ≠ 0) = true by simpa using h0]
      exact hr
    obtain ⟨g1, g2, g3, g4, g5, -, g7⟩ := normalize_spec hr h0
    refine ⟨r, hm, g1, g2, ?_, ?_⟩
    · intro hp
      rcases lt_or_gt_of_ne h0 with hneg | hpos
      · right
        have h1 : r.den = 1 := by
          rcases g7 hneg with h | h
          · exact h
          · omega
        have : (r.num : ℚ) / 1 = (n : ℚ) / d := by
          have := g1; unfold val at this; rw [h1] at this; simpa using this
        have hd' : (d : ℚ) ≠ 0 := by exact_mod_cast h0
        rw [div_one, eq_div_iff hd'] at this
        exact ⟨r.num, by rw [mul_comm]; exact_mod_cast this.symm⟩
      · exact Or.inl hpos
    · rintro (h | h)
      · exact g5 h
      · rcases lt_or_gt_of_ne h0 with hneg | hpos
        · rcases g7 hneg with h1 | h1
          · rw [h1]; norm_num
          · exfalso
            obtain ⟨k, hk⟩ := h
            have hd' : (d : ℚ) ≠ 0 := by exact_mod_cast h0
            have hr' : (r.den : ℚ) ≠ 0 := by exact_mod_cast g3
            have : (r.num : ℚ) / r.den = k := by
              have := g1; unfold val at this; simp only at this
              rw [this, hk]; push_cast; field_simp
            rw [div_eq_iff hr'] at this
            have hz : r.num = k * r.den := by exact_mod_cast this
            have hdv : r.den ∣ r.num := ⟨k, by rw [hz, mul_comm]⟩
            unfold Lowest at g2
            have h3 : r.den.natAbs = 1 := by
              have h4 := Int.gcd_eq_right_iff_dvd (a := r.den) (b := r.num)
              have h5 : r.den ∣ ((Int.gcd r.num r.den : Nat) : Int) := Int.dvd_coe_gcd hdv (dvd_refl _)
              rw [g2] at h5
              have := Int.natAbs_dvd_natAbs.2 h5
              simpa using this
            omega
        · exact g5 hpos
  · rintro rfl
    rfl

/-- C27 is false for negative denominators: `Rational(1, -2)` keeps the denominator `-2`. -/
theorem C27_negative_denominator : mk2 maxI64 1 (-2) = .ok ⟨1, -2⟩ := by decide +kernel

example : mk2 maxI64 6 (-4) = .ok ⟨3, -2⟩ ∧ mk2 maxI64 6 (-3) = .ok ⟨-2, 1⟩ ∧
    mk2 maxI64 6 4 = .ok ⟨3, 2⟩ := by decide +kernel

/-! ## C28 field operations -/

/-- C28: sum and difference of any two fractions with non-zero denominators either overflow or are
the exact result in lowest terms with positive denominator; they never raise. -/
theorem C28_add_sub (M : Int) (a b : Rational) (ha : a.den ≠ 0) (hb : b.den ≠ 0) :
    ((∃ r, add M a b = .ok r ∧ r.val = a.val + b.val ∧ r.Lowest ∧ 0 < r.den) ∨ ∃ m, add M a b = .ub m) ∧
    ((∃ r, sub M a b = .ok r ∧ r.val = a.val - b.val ∧ r.Lowest ∧ 0 < r.den) ∨ ∃ m, sub M a b = .ub m) := by
  constructor
  · rcases add_clean M a b with ⟨r, h⟩ | h
    · obtain ⟨g1, g2, g3, -⟩ := add_spec ha hb h
      exact Or.inl ⟨r, h, g1, g2, g3⟩
    · exact Or.inr h
  · rcases sub_clean M a b hb with ⟨r, h⟩ | h
    · obtain ⟨g1, g2, g3, -⟩ := sub_spec ha hb h
      exact Or.inl ⟨r, h, g1, g2, g3⟩
    · exact Or.inr h

/-- C28: product and quotient either overflow or are exact with non-zero denominator; they are in
lowest terms when the operands are. A quotient by zero raises "Division by zero", and nothing else
does. -/
theorem C28_mul_div (M : Int) (a b : Rational) (ha : a.den ≠ 0) (hb : b.den ≠ 0) :
    ((∃ r, mul M a b = .ok r ∧ r.val = a.val * b.val ∧ r.den ≠ 0 ∧ (a.Lowest → b.Lowest → r.Lowest)) ∨
      ∃ m, mul M a b = .ub m) ∧
    (b.val ≠ 0 → (∃ r, div M a b = .ok r ∧ r.val = a.val / b.val ∧ r.den ≠ 0 ∧ (a.Lowest → r.Lowest)) ∨
      ∃ m, div M a b = .ub m) ∧
    (b.val = 0 → div M a b = .throw divisionByZero) := by
  have hb0 : b.val = 0 ↔ b.num = 0 := by
    unfold val
    have qb : (b.den : ℚ) ≠ 0 := by exact_mod_cast hb
    rw [div_eq_zero_iff, or_iff_left qb]
    exact_mod_cast Iff.rfl
  refine ⟨?_, ?_, ?_⟩
  · rcases mul_clean M a b ha hb with ⟨r, h⟩ | h
    · obtain ⟨g1, g2, -, -, g5, -⟩ := mul_spec h
      exact Or.inl ⟨r, h, g1, g2, g5⟩
    · exact Or.inr h
  · intro h0
    rcases div_clean M a b ha (by rwa [Ne, ← hb0]) with ⟨r, h⟩ | h
    · obtain ⟨-, g1, g2, -, -, g5, -⟩ := div_spec h
      exact Or.inl ⟨r, h, g1, g2, g5⟩
    · exact Or.inr h
  · intro h0
    exact div_zero M a b (hb0.1 h0)

example : add maxI64 ⟨1, 6⟩ ⟨1, -10⟩ = .ok ⟨1, 15⟩ ∧ mul maxI64 ⟨3, 4⟩ ⟨2, 9⟩ = .ok ⟨1, 6⟩ ∧
    div maxI64 ⟨3, 4⟩ ⟨-9, 2⟩ = .ok ⟨1, -6⟩ := by decide +kernel

/-! ## C29, C30 comparisons -/

/-- C29 (partial): if the denominators have the same sign, the four orderings answer like the order
of the rational numbers (or overflow). Missing: denominators of opposite sign
(`C29_reversed`). -/
theorem C29_order_partial (M : Int) (a b : Rational) (hab : 0 < a.den * b.den) :
    (lt M a b = .ok (decide (a.val < b.val)) ∧ le M a b = .ok (decide (a.val ≤ b.val)) ∧
      gt M a b = .ok (decide (a.val > b.val)) ∧ ge M a b = .ok (decide (a.val ≥ b.val))) ∨
    ∃ m, lt M a b = .ub m ∧ le M a b = .ub m ∧ gt M a b = .ub m ∧ ge M a b = .ub m := by
  rcases cross_clean M a b with ⟨⟨x, y⟩, h⟩ | ⟨m, h⟩
  · left
    obtain ⟨rfl, rfl⟩ := cross_spec h
    have h1 := val_lt_iff hab
    have h2 := val_lt_iff (a := b) (b := a) (by rwa [mul_comm])
    unfold lt le gt ge
    simp only [h, Res.bind_ok]
    refine ⟨?_, ?_, ?_, ?_⟩ <;> refine congrArg Res.ok ?_ <;> rw [decide_eq_decide]
    · exact h1.symm
    · rw [← not_lt, ← not_lt, h2]
    · exact h2.symm
    · rw [ge_iff_le, ge_iff_le, ← not_lt, ← not_lt, h1]
  · right
    exact ⟨m, by unfold lt; rw [h]; rfl, by unfold le; rw [h]; rfl, by unfold gt; rw [h]; rfl, by unfold ge; rw [h]; rfl⟩

/-- C29 is false when exactly one denominator is negative: the answer is that of the reversed order. -/
theorem C29_reversed (M : Int) (a b : Rational) (hab : a.den * b.den < 0) :
    lt M a b = .ok (decide (b.val < a.val)) ∨ ∃ m, lt M a b = .ub m := by
  rcases cross_clean M a b with ⟨⟨x, y⟩, h⟩ | ⟨m, h⟩
  · left
    obtain ⟨rfl, rfl⟩ := cross_spec h
    unfold lt
    simp only [h, Res.bind_ok]
    refine congrArg Res.ok ?_
    rw [decide_eq_decide]
    exact (val_gt_iff hab).symm
  · exact Or.inr ⟨m, by unfold lt; rw [h]; rfl⟩

/-- C29: the API reaches such values, `Rational(1,-2) < Rational(0)` is false although `-1/2 < 0`. -/
theorem C29_fails : ∃ a b : Rational, mk2 maxI64 1 (-2) = .ok a ∧ ofInt maxI64 0 = .ok b ∧
    lt maxI64 a b = .ok false ∧ a.val < b.val :=
  ⟨⟨1, -2⟩, ⟨0, 1⟩, by decide +kernel, by decide +kernel, by decide +kernel, by norm_num [val]⟩

example : (0 : Int) < (⟨1, 3⟩ : Rational).den * (⟨-2, 5⟩ : Rational).den := by decide

/-- C30: `==` and `!=` decide equality of the denoted numbers, whatever the signs and whether or not
the fractions are reduced (or the products overflow). -/
theorem C30_equality (M : Int) (a b : Rational) (ha : a.den ≠ 0) (hb : b.den ≠ 0) :
    (eq M a b = .ok (decide (a.val = b.val)) ∧ ne M a b = .ok (decide (a.val ≠ b.val))) ∨
    ∃ m, eq M a b = .ub m ∧ ne M a b = .ub m := by
  rcases cross_clean M a b with ⟨⟨x, y⟩, h⟩ | ⟨m, h⟩
  · left
    obtain ⟨rfl, rfl⟩ := cross_spec h
    unfold eq ne
    simp only [h, Res.bind_ok]
    refine ⟨?_, ?_⟩ <;> refine congrArg Res.ok ?_ <;> rw [decide_eq_decide]
    · exact (val_eq_iff ha hb).symm
    · exact not_congr (val_eq_iff ha hb).symm
  · right
    exact ⟨m, by unfold eq; rw [h]; rfl, by unfold ne; rw [h]; rfl⟩

example : eq maxI64 ⟨4, -2⟩ ⟨-2, 1⟩ = .ok true := by decide +kernel

/-! ## C31 is_int -/

/-- C31 (partial): for a fraction in lowest terms with positive denominator, `is_int` holds exactly
when the denoted number is an integer. Missing: unreduced or negative denominators (`C31_fails`). -/
theorem C31_is_int_partial (r : Rational) (hl : r.Lowest) (hd : 0 < r.den) :
    r.isInt = true ↔ ∃ k : Int, r.val = k := by
  unfold isInt
  rw [decide_eq_true_eq]
  constructor
  · intro h; exact ⟨r.num, by unfold val; rw [h]; simp⟩
  · rintro ⟨k, hk⟩
    unfold val at hk
    have hr' : (r.den : ℚ) ≠ 0 := by exact_mod_cast hd.ne'
    rw [div_eq_iff hr'] at hk
    have hz : r.num = k * r.den := by exact_mod_cast hk
    have hdv : r.den ∣ r.num := ⟨k, by rw [hz, mul_comm]⟩
    unfold Lowest at hl
    have h5 : r.den ∣ ((Int.gcd r.num r.den : Nat) : Int) := Int.dvd_coe_gcd hdv (dvd_refl _)
    rw [hl] at h5
    have := Int.le_of_dvd (by norm_num) h5
    omega

/-- a true answer is always right. -/
theorem C31_is_int_sound (r : Rational) (h : r.isInt = true) : r.val = r.num := by
  unfold isInt at h
  rw [decide_eq_true_eq] at h
  unfold val; rw [h]; simp

/-- C31 is false in general: `Rational(4)/Rational(-2)` and `Rational("4/2")` denote integers but
`is_int` is false. -/
theorem C31_fails (dec) : ∃ a b : Rational, div maxI64 ⟨4, 1⟩ ⟨-2, 1⟩ = .ok a ∧
    ofStr maxI64 dec ['4', '/', '2'] = .ok b ∧ a.val = (-2 : Int) ∧ b.val = (2 : Int) ∧
    a.isInt = false ∧ b.isInt = false :=
  ⟨⟨2, -1⟩, ⟨4, 2⟩, by decide +kernel, by rfl, by norm_num [val], by norm_num [val], rfl, rfl⟩

example : (⟨7, 1⟩ : Rational).Lowest ∧ (⟨7, 2⟩ : Rational).Lowest := by decide

/-! ## C32, C33 strings -/

theorem dropWhile_nil {p : Char → Bool} {l : List Char} (h : ∀ c ∈ l, p c = true) : l.dropWhile p = [] := by
  induction l with
  | nil => rfl
  | cons a l ih =>
    rw [List.dropWhile_cons_of_pos (h a (by simp))]
    exact ih fun c hc => h c (by simp [hc])

/-- C32: a string that starts with the numeral of `z` (white space, sign, digits; anything but `.` and
`/` may follow) gives `z`; `p/q` gives `p/q`; `p/0` raises "Division by zero"; a missing number
raises an `Error`, and so does a number out of range. -/
theorem C32_from_string (M : Int) (dec) (s : List Char) (hdot : '.' ∉ s) :
    (∀ z, '/' ∉ s → StartsWithNumeral s z → InRange M z →
      ∃ r, ofStr M dec s = .ok r ∧ r.val = z) ∧
    (∀ s1 s2 p q, s = s1 ++ '/' :: s2 → '/' ∉ s1 → StartsWithNumeral s1 p → StartsWithNumeral s2 q →
      InRange M p → InRange M q →
      (q ≠ 0 → ∃ r, ofStr M dec s = .ok r ∧ r.val = (p : ℚ) / q) ∧
      (q = 0 → ofStr M dec s = .throw divisionByZero)) ∧
    ('/' ∉ s → NoNumeral s → ofStr M dec s = .throw "Invaild string.") ∧
    (∀ s1 s2, s = s1 ++ '/' :: s2 → '/' ∉ s1 → NoNumeral s1 → ofStr M dec s = .throw "Invaild string.") ∧
    (∀ s1 s2 p, s = s1 ++ '/' :: s2 → '/' ∉ s1 → StartsWithNumeral s1 p → InRange M p → NoNumeral s2 →
      ofStr M dec s = .throw "Invaild string.") ∧
    (∀ z, '/' ∉ s → StartsWithNumeral s z → ¬ InRange M z →
      ofStr M dec s = .throw "The number is out of range.") := by
  have plain : '/' ∉ s → s.dropWhile (· ≠ '/') = [] := by
    intro h
    apply dropWhile_nil
    intro c hc
    simp only [ne_eq, decide_not, Bool.not_eq_eq_eq_not, Bool.not_true, decide_eq_false_iff_not]
    rintro rfl; exact h hc
  have frac : ∀ s1 s2, s = s1 ++ '/' :: s2 → '/' ∉ s1 →
      s.takeWhile (· ≠ '/') = s1 ∧ s.dropWhile (· ≠ '/') = '/' :: s2 := by
    rintro s1 s2 rfl h
    have hall : ∀ c ∈ s1, (decide (c ≠ '/')) = true := by
      intro c hc
      simp only [ne_eq, decide_not, Bool.not_eq_eq_eq_not, Bool.not_true, decide_eq_false_iff_not]
      rintro rfl; exact h hc
    exact ⟨by rw [List.takeWhile_append_of_pos hall]; simp, by rw [List.dropWhile_append_of_pos hall]; simp⟩
  refine ⟨?_, ?_, ?_, ?_, ?_, ?_⟩
  · intro z h1 h2 h3
    unfold ofStr
    rw [if_neg hdot, plain h1, stoll_spec M s z h2, if_pos h3]
    exact ⟨⟨z, 1⟩, rfl, by simp [val]⟩
  · intro s1 s2 p q h1 h2 h3 h4 h5 h6
    obtain ⟨e1, e2⟩ := frac s1 s2 h1 h2
    unfold ofStr
    rw [if_neg hdot, e1, e2]
    simp only [stoll_spec M s1 p h3, stoll_spec M s2 q h4, if_pos h5, if_pos h6, Res.bind_ok, catchNum]
    constructor
    · intro h0
      rw [show decide (q ≠ 0) = true by simpa using h0]
      exact ⟨⟨p, q⟩, rfl, rfl⟩
    · rintro rfl; rfl
  · intro h1 h2
    unfold ofStr
    rw [if_neg hdot, plain h1, stoll_none M s h2]
    rfl
  · intro s1 s2 h1 h2 h3
    obtain ⟨e1, e2⟩ := frac s1 s2 h1 h2
    unfold ofStr
    rw [if_neg hdot, e1, e2]
    simp only [stoll_none M s1 h3]
    rfl
  · intro s1 s2 p h1 h2 h3 h4 h5
    obtain ⟨e1, e2⟩ := frac s1 s2 h1 h2
    unfold ofStr
    rw [if_neg hdot, e1, e2]
    simp only [stoll_spec M s1 p h3, if_pos h4, stoll_none M s2 h5, Res.bind_ok]
    rfl
  · intro z h1 h2 h3
    unfold ofStr
    rw [if_neg hdot, plain h1, stoll_spec M s z h2, if_neg h3]
    rfl

example : StartsWithNumeral [' ', '-', '4', '2', 'x'] (-42) :=
  ⟨[' '], ['4', '2'], ['x'], ['-'], true, rfl, by decide, by simp, by simp, by decide, by decide, by decide⟩
example (dec) : ofStr maxI64 dec ['-', '3', '/', '6'] = .ok ⟨-3, 6⟩ := rfl
example (dec) : ofStr maxI64 dec ['x'] = .throw "Invaild string." := rfl

/-- C33: reading `r.to_string()` back gives exactly `r` (numerator and denominator), so the two
compare equal. -/
theorem C33_roundtrip (M : Int) (dec) (r : Rational) (hn : InRange M r.num) (hd : InRange M r.den)
    (h0 : r.den ≠ 0) : ofStr M dec r.toStr = .ok r := by
  have noslash : ∀ z : Int, '/' ∉ (toString z).toList := by
    intro z h
    rcases mem_toString_int h with h | h
    · revert h; decide
    · revert h; decide
  have nodot : ∀ z : Int, '.' ∉ (toString z).toList := by
    intro z h
    rcases mem_toString_int h with h | h
    · revert h; decide
    · revert h; decide
  have hall : ∀ c ∈ (toString r.num).toList, (decide (c ≠ '/')) = true := by
    intro c hc
    simp only [ne_eq, decide_not, Bool.not_eq_eq_eq_not, Bool.not_true, decide_eq_false_iff_not]
    rintro rfl; exact noslash _ hc
  unfold toStr
  by_cases h1 : r.den = 1
  · rw [if_neg (by simpa using h1)]
    unfold ofStr
    rw [if_neg (nodot _)]
    have e : (toString r.num).toList.dropWhile (· ≠ '/') = [] := dropWhile_nil hall
    have := stoll_spec M _ _ (numeral_toString r.num [] (by simp))
    rw [List.append_nil, if_pos hn] at this
    rw [e, this]
    change Res.ok (⟨r.num, 1⟩ : Rational) = .ok r
    cases r; simp_all
  · rw [if_pos (by simpa using h1)]
    unfold ofStr
    rw [if_neg (by simp only [List.mem_append, not_or]; exact ⟨⟨nodot _, by decide⟩, nodot _⟩)]
    rw [List.append_assoc, List.takeWhile_append_of_pos hall, List.dropWhile_append_of_pos hall]
    have t1 := stoll_spec M _ _ (numeral_toString r.num [] (by simp))
    have t2 := stoll_spec M _ _ (numeral_toString r.den [] (by simp))
    rw [List.append_nil, if_pos hn] at t1
    rw [List.append_nil, if_pos hd] at t2
    simp only [List.singleton_append, List.takeWhile_cons, List.dropWhile_cons]
    simp only [ne_eq, not_true_eq_false, decide_false, Bool.false_eq_true, if_false, List.append_nil, t1, t2,
      Res.bind_ok, catchNum]
    rw [show decide (¬ r.den = 0) = true by simpa using h0]
    rfl

example (dec) : toStr ⟨-3, 7⟩ = "-3/7".toList ∧ ofStr maxI64 dec "-3/7".toList = .ok ⟨-3, 7⟩ := ⟨rfl, rfl⟩

/-! ## C34 pow -/

/-- C34 (partial): for every exponent that denotes a natural number `k` (in any representation) and
`|num^k|, |den^k| ≤ 2^53`, `pow` returns the exact power. Missing: negative exponents
(`C34_negative`, `C34_fails`). -/
theorem C34_pow_partial (M : Int) (fl : Fl) (hfl : fl.Exact) (hM : 2 ^ 53 ≤ M) (a p : Rational) (k : Nat)
    (ha : a.den ≠ 0) (hp0 : p.den ≠ 0) (hp : p.val = k) (hpn : |p.num| ≤ 2 ^ 53)
    (hpd : |p.den| ≤ 2 ^ 53) (h1 : |a.num ^ k| ≤ 2 ^ 53) (h2 : |a.den ^ k| ≤ 2 ^ 53) :
    ∃ r, pow M fl a p = .ok r ∧ r.val = a.val ^ k := by
  have hp' : p.num = k * p.den := by
    unfold val at hp
    have : (p.den : ℚ) ≠ 0 := by exact_mod_cast hp0
    rw [div_eq_iff this] at hp
    exact_mod_cast hp
  obtain ⟨r, h, h3, -⟩ := pow_spec hfl hM a p k ha hp0 hp' hpn hpd h1 h2
  exact ⟨r, h, h3⟩

/-- C34 is false for negative exponents: every integer of magnitude at least 2 gives 0. -/
theorem C34_negative (M : Int) (fl : Fl) (hfl : fl.Exact) (hM : 2 ^ 53 ≤ M) (n : Int) (hn : 2 ≤ |n|)
    (k : Nat) (hk : 0 < k) (hk2 : (k : Int) ≤ 2 ^ 53) : pow M fl ⟨n, 1⟩ ⟨-k, 1⟩ = .ok ⟨0, 1⟩ := by
  have hM1 : (1 : Int) ≤ M := le_trans (by norm_num) hM
  have habs : |(-(k : Int))| ≤ 2 ^ 53 := by rw [abs_neg, abs_of_nonneg (by omega)]; exact hk2
  have hf : (⟨-k, 1⟩ : Rational).Fits M := ⟨le_trans habs hM, by simpa using hM1⟩
  unfold pow
  rw [eqInt_spec M _ 0 hM1 (by norm_num) hf, eqInt_spec M _ 1 hM1 (by norm_num) hf]
  simp only [Res.bind_ok, zero_mul, one_mul]
  rw [if_neg (by simp; omega), if_neg (by simp; omega),
    hfl.powT_neg n _ 1 k (by norm_num) hk (by ring) habs (by norm_num) hn,
    hfl.powT_one _ 1 (by norm_num)]
  simp only [Res.bind_ok]
  exact normalize_int M 0 (by simpa using by omega) hM1

/-- C34 is false: `Rational(1,2).pow(-1)` silently is the invalid fraction `1/0`, and
`Rational(2,3).pow(-1)` divides by zero. -/
theorem C34_fails (fl : Fl) (hfl : fl.Exact) : pow maxI64 fl ⟨1, 2⟩ ⟨-1, 1⟩ = .ok ⟨1, 0⟩ ∧
    pow maxI64 fl ⟨2, 3⟩ ⟨-1, 1⟩ = .ub "/ 0" := by
  have h1 : fl.powT 1 (-1) 1 = .ok 1 := hfl.powT_one _ _ (by norm_num)
  have h2 : fl.powT 2 (-1) 1 = .ok 0 := hfl.powT_neg 2 (-1) 1 1 (by norm_num) (by norm_num) (by norm_num)
    (by norm_num) (by norm_num) (by norm_num)
  have h3 : fl.powT 3 (-1) 1 = .ok 0 := hfl.powT_neg 3 (-1) 1 1 (by norm_num) (by norm_num) (by norm_num)
    (by norm_num) (by norm_num) (by norm_num)
  have e0 : eqInt maxI64 ⟨-1, 1⟩ 0 = .ok false := by decide +kernel
  have e1 : eqInt maxI64 ⟨-1, 1⟩ 1 = .ok false := by decide +kernel
  constructor
  · unfold pow
    rw [e0, e1]
    simp only [Res.bind_ok, Bool.false_eq_true, if_false, h1, h2]
    decide +kernel
  · unfold pow
    rw [e0, e1]
    simp only [Res.bind_ok, Bool.false_eq_true, if_false, h3, h2]
    decide +kernel

example : Fl.ideal.Exact ∧ pow maxI64 Fl.ideal ⟨-2, 3⟩ ⟨3, 1⟩ = .ok ⟨-8, 27⟩ :=
  ⟨Fl.ideal_exact, by decide +kernel⟩

/-! ## C35 no overflow -/

/-- C35: if numerators and denominators are at most `B` in absolute value and `2*B^2 ≤ max`, no
operation overflows; for `int64_t` this covers `B = 2^31 - 1`. -/
theorem C35_no_overflow (M B : Int) (hM : 2 * (B * B) ≤ M) (a b : Rational) (ha0 : a.den ≠ 0) (hb0 : b.den ≠ 0)
    (ha1 : |a.num| ≤ B) (ha2 : |a.den| ≤ B) (hb1 : |b.num| ≤ B) (hb2 : |b.den| ≤ B) :
    (∃ r, add M a b = .ok r) ∧ (∃ r, sub M a b = .ok r) ∧ (∃ r, mul M a b = .ok r) ∧
    (b.num ≠ 0 → ∃ r, div M a b = .ok r) ∧ (∃ r, lt M a b = .ok r) ∧ (∃ r, le M a b = .ok r) ∧
    (∃ r, gt M a b = .ok r) ∧ (∃ r, ge M a b = .ok r) ∧ (∃ r, eq M a b = .ok r) ∧ ∃ r, ne M a b = .ok r := by
  have ha : a.Small B := ⟨ha1, ha2, ha0⟩
  have hb : b.Small B := ⟨hb1, hb2, hb0⟩
  have hBB : 0 ≤ B * B := mul_self_nonneg B
  have hM' : B * B ≤ M := by omega
  have hc := cross_defined hM' ha hb
  refine ⟨add_defined hM ha hb, sub_defined hM ha hb, mul_defined hM' ha hb, div_defined hM' ha hb, ?_⟩
  unfold lt le gt ge eq ne
  rw [hc]
  exact ⟨⟨_, rfl⟩, ⟨_, rfl⟩, ⟨_, rfl⟩, ⟨_, rfl⟩, ⟨_, rfl⟩, ⟨_, rfl⟩⟩

example : 2 * ((2 ^ 31 - 1) * (2 ^ 31 - 1)) ≤ maxI64 := by decide

/-- C35: beyond that range overflow does occur. -/
theorem C35_bound_matters : add maxI64 ⟨1, 4294967296⟩ ⟨1, 4294967297⟩ = .ub "lcm not representable" := by
  decide +kernel

end Symxx.Num.Rational
