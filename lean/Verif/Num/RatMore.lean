import Verif.Num.RatProof
/-!
# `Rational<T>`: absence of overflow, powers, strings
-/
namespace Symxx.Num

/-- what is assumed about the floating-point steps on integers: a mathematically exact result of
magnitude at most `2^53` is computed exactly (IEEE-754 double, glibc `pow`), `pow(1, y) = 1`, and a
negative power of an integer of magnitude at least 2 truncates to 0. -/
structure Fl.Exact (fl : Fl) : Prop where
  powT : ∀ (n p q : Int) (k : Nat), q ≠ 0 → p = k * q → |p| ≤ 2 ^ 53 → |q| ≤ 2 ^ 53 → |n ^ k| ≤ 2 ^ 53 →
    fl.powT n p q = .ok (n ^ k)
  powT_neg : ∀ (n p q : Int) (k : Nat), q ≠ 0 → 0 < k → p = -(k * q) → |p| ≤ 2 ^ 53 → |q| ≤ 2 ^ 53 →
    2 ≤ |n| → fl.powT n p q = .ok 0
  powT_one : ∀ p q : Int, q ≠ 0 → fl.powT 1 p q = .ok 1
  divPow : ∀ (rad i q : Int) (k : Nat), 0 < rad → rad ≤ 2 ^ 53 → 0 < i → rad = i ^ k * q →
    fl.divPow rad i k = .ok q
  mulPow : ∀ (rad i : Int) (k : Nat), 0 < rad → 0 < i → rad * i ^ k ≤ 2 ^ 53 →
    fl.mulPow rad i k = .ok (rad * i ^ k)
  ofPow : ∀ (n : Int) (k : Nat), 0 < n → n ^ k ≤ 2 ^ 53 → fl.ofPow n k = .ok ⟨n ^ k, 1⟩

/-- an instance of the assumptions (the exact computation), showing that they are consistent. -/
def Fl.ideal : Fl where
  powT n p q :=
    if n = 1 then .ok 1
    else if q ∣ p then (if 0 ≤ p / q then .ok (n ^ (p / q).toNat) else .ok 0) else .ok 0
  divPow rad i k := .ok (rad / i ^ k)
  mulPow rad i k := .ok (rad * i ^ k)
  ofPow n k := .ok ⟨n ^ k, 1⟩

theorem Fl.ideal_exact : Fl.ideal.Exact where
  powT := by
    intro n p q k hq hp _ _ _
    simp only [Fl.ideal]
    subst hp
    by_cases h1 : n = 1
    · rw [if_pos h1, h1, one_pow]
    · rw [if_neg h1, if_pos (Dvd.intro_left _ rfl), Int.mul_ediv_cancel _ hq, if_pos (by omega)]
      simp
  powT_neg := by
    intro n p q k hq hk hp _ _ hn
    simp only [Fl.ideal]
    subst hp
    rw [if_neg (by rintro rfl; simp at hn), if_pos ((Dvd.intro_left _ rfl : q ∣ k * q).neg_right),
      ← neg_mul, Int.mul_ediv_cancel _ hq, if_neg (by omega)]
  powT_one := by intro p q _; simp [Fl.ideal]
  divPow := by
    intro rad i q k _ _ hi h
    simp only [Fl.ideal]
    rw [h, Int.mul_ediv_cancel_left _ (by positivity)]
  mulPow := by intros; rfl
  ofPow := by intros; rfl

namespace Rational

/-! ### no overflow on moderate operands -/

/-- both members are at most `B` in absolute value and the denominator is not zero. -/
def Small (B : Int) (r : Rational) : Prop := |r.num| ≤ B ∧ |r.den| ≤ B ∧ r.den ≠ 0

theorem normalize_defined (M n d : Int) (hn : |n| ≤ M) (hd : |d| ≤ M) (hd0 : d ≠ 0) :
    ∃ r, normalize M ⟨n, d⟩ = .ok r ∧ |r.num| ≤ |n| ∧ |r.den| ≤ |d| := by
  rw [normalize_eq M n d hn hd hd0]
  refine ⟨_, rfl, ?_⟩
  have : 1 ≤ |d| := by have := abs_pos.2 hd0; omega
  split
  · exact ⟨by rw [abs_neg]; exact abs_tdiv_le, by simpa using this⟩
  · exact ⟨abs_tdiv_le, abs_tdiv_le⟩

theorem mul_le_sq {B x y : Int} (hx : |x| ≤ B) (hy : |y| ≤ B) : |x * y| ≤ B * B := by
  rw [abs_mul]
  exact mul_le_mul hx hy (abs_nonneg _) (le_trans (abs_nonneg _) hx)

theorem add_defined {M B : Int} {a b : Rational} (hM : 2 * (B * B) ≤ M) (ha : a.Small B) (hb : b.Small B) :
    ∃ r, add M a b = .ok r := by
  obtain ⟨a1, a2, a3⟩ := ha
  obtain ⟨b1, b2, b3⟩ := hb
  have hB : 1 ≤ B := by have := abs_pos.2 a3; omega
  have hBB : B ≤ B * B := by nlinarith
  have hlcm : (Int.lcm a.den b.den : Int) ≤ B * B := by
    have h1 : Int.lcm a.den b.den ≤ a.den.natAbs * b.den.natAbs := by
      have h2 := Int.gcd_mul_lcm a.den b.den
      have h3 : 0 < Int.gcd a.den b.den := Int.gcd_pos_of_ne_zero_left _ a3
      nlinarith
    have h2 : ((a.den.natAbs * b.den.natAbs : Nat) : Int) ≤ B * B := by
      have := mul_le_sq a2 b2
      rw [abs_mul, Int.abs_eq_natAbs, Int.abs_eq_natAbs] at this
      rw [Nat.cast_mul]; exact this
    exact le_trans (by exact_mod_cast h1) h2
  unfold add
  generalize hl : (Int.lcm a.den b.den : Int) = l at hlcm
  have d1 : a.den ∣ l := hl ▸ Int.dvd_lcm_left _ _
  have d2 : b.den ∣ l := hl ▸ Int.dvd_lcm_right _ _
  have hl0 : 0 < l := by
    have : Int.lcm a.den b.den ≠ 0 := by
      rw [Ne, Int.lcm_eq_zero_iff]; tauto
    omega
  have e1 : lcmT M a.den b.den = .ok l := lcmT_ok.2 ⟨⟨by omega, by omega, by omega⟩, hl.symm⟩
  have k1 : l.tdiv a.den * a.den = l := tdiv_dvd d1
  have k2 : l.tdiv b.den * b.den = l := tdiv_dvd d2
  have hlab : |l| ≤ |a.den| * |b.den| := by
    have h2 : Int.gcd a.den b.den * Int.lcm a.den b.den = (a.den * b.den).natAbs := by
      rw [Int.natAbs_mul]; exact Int.gcd_mul_lcm ..
    have h3 : 0 < Int.gcd a.den b.den := Int.gcd_pos_of_ne_zero_left _ a3
    have h4 : Int.lcm a.den b.den ≤ (a.den * b.den).natAbs := by nlinarith
    rw [abs_of_pos hl0, ← hl, ← abs_mul, Int.abs_eq_natAbs]
    exact_mod_cast h4
  have q1 : |l.tdiv a.den| ≤ B := by
    have : |l.tdiv a.den| * |a.den| = |l| := by rw [← abs_mul, k1]
    have ha0 := abs_pos.2 a3
    nlinarith [abs_nonneg (l.tdiv a.den)]
  have q2 : |l.tdiv b.den| ≤ B := by
    have : |l.tdiv b.den| * |b.den| = |l| := by rw [← abs_mul, k2]
    have hb0 := abs_pos.2 b3
    nlinarith [abs_nonneg (l.tdiv b.den)]
  have t1 := mul_le_sq a1 q1
  have t2 := mul_le_sq b1 q2
  have ts : |a.num * l.tdiv a.den + b.num * l.tdiv b.den| ≤ 2 * (B * B) :=
    le_trans (abs_add_le _ _) (by omega)
  rw [e1]
  simp only [Res.bind_ok]
  rw [divT_ok.2 ⟨a3, inRange_of_abs (le_trans q1 (by omega)), rfl⟩]
  simp only [Res.bind_ok]
  rw [chk_ok (inRange_of_abs (le_trans t1 (by omega)))]
  simp only [Res.bind_ok]
  rw [divT_ok.2 ⟨b3, inRange_of_abs (le_trans q2 (by omega)), rfl⟩]
  simp only [Res.bind_ok]
  rw [chk_ok (inRange_of_abs (le_trans t2 (by omega)))]
  simp only [Res.bind_ok]
  rw [chk_ok (inRange_of_abs (le_trans ts hM))]
  simp only [Res.bind_ok]
  obtain ⟨r, hr, -⟩ := normalize_defined M _ l (le_trans ts hM) (by rw [abs_of_pos hl0]; omega) hl0.ne'
  exact ⟨r, hr⟩

theorem negate_defined {M B : Int} {a : Rational} (hM : B ≤ M) (ha : a.Small B) :
    ∃ r, negate M a = .ok r ∧ r.Small B := by
  obtain ⟨a1, a2, a3⟩ := ha
  unfold negate mk2
  rw [chk_ok (inRange_of_abs (by rw [abs_neg]; omega))]
  simp only [Res.bind_ok]
  rw [show decide (a.den ≠ 0) = true by simpa using a3]
  simp only [Res.assert_true, Res.bind_ok]
  obtain ⟨r, hr, h1, h2⟩ := normalize_defined M (-a.num) a.den (by rw [abs_neg]; omega) (by omega) a3
  rw [abs_neg] at h1
  exact ⟨r, hr, by omega, by omega, (normalize_spec hr a3).2.2.1⟩

theorem sub_defined {M B : Int} {a b : Rational} (hM : 2 * (B * B) ≤ M) (ha : a.Small B) (hb : b.Small B) :
    ∃ r, sub M a b = .ok r := by
  have hB : 1 ≤ B := by have := abs_pos.2 ha.2.2; have := ha.2.1; omega
  obtain ⟨nb, h1, h2⟩ := negate_defined (M := M) (B := B) (by nlinarith) hb
  unfold sub
  rw [h1]
  exact add_defined hM ha h2

theorem mul_defined {M B : Int} {a b : Rational} (hM : B * B ≤ M) (ha : a.Small B) (hb : b.Small B) :
    ∃ r, mul M a b = .ok r := by
  obtain ⟨a1, a2, a3⟩ := ha
  obtain ⟨b1, b2, b3⟩ := hb
  have hB : 1 ≤ B := by have := abs_pos.2 a3; omega
  have hBB : B ≤ B * B := by nlinarith
  have z1 : (Int.gcd a.num b.den : Int) ≠ 0 := by
    have := Int.gcd_pos_of_ne_zero_right a.num b3; omega
  have z2 : (Int.gcd b.num a.den : Int) ≠ 0 := by
    have := Int.gcd_pos_of_ne_zero_right b.num a3; omega
  have e1 : gcdT M a.num b.den = .ok (Int.gcd a.num b.den : Int) := gcdT_ok.2 ⟨⟨by omega, by omega⟩, rfl⟩
  have e2 : gcdT M b.num a.den = .ok (Int.gcd b.num a.den : Int) := gcdT_ok.2 ⟨⟨by omega, by omega⟩, rfl⟩
  have dv : ∀ {x g : Int}, g ≠ 0 → |x| ≤ B → divT M x g = .ok (x.tdiv g) := fun hg hx =>
    divT_ok.2 ⟨hg, inRange_of_abs (le_trans (le_trans abs_tdiv_le hx) (by omega)), rfl⟩
  have cl := mul_clean M a b a3 b3
  rcases cl with h | ⟨m, h⟩
  · exact h
  · exfalso
    unfold mul at h
    rw [e1, e2] at h
    simp only [Res.bind_ok] at h
    rw [dv z1 a1, dv z2 b1, dv z2 a2, dv z1 b2] at h
    simp only [Res.bind_ok] at h
    rw [chk_ok (inRange_of_abs (le_trans (mul_le_sq (le_trans abs_tdiv_le a1) (le_trans abs_tdiv_le b1)) hM)),
      chk_ok (inRange_of_abs (le_trans (mul_le_sq (le_trans abs_tdiv_le a2) (le_trans abs_tdiv_le b2)) hM))] at h
    simp only [Res.bind_ok] at h
    unfold Res.assert at h
    split at h <;> simp at h

theorem div_defined {M B : Int} {a b : Rational} (hM : B * B ≤ M) (ha : a.Small B) (hb : b.Small B)
    (hb0 : b.num ≠ 0) : ∃ r, div M a b = .ok r := by
  have hB : 1 ≤ B := by have := abs_pos.2 ha.2.2; have := ha.2.1; omega
  have hBB : B ≤ B * B := by nlinarith
  obtain ⟨r, hr, h1, h2⟩ := normalize_defined M b.den b.num (by have := hb.2.1; omega) (by have := hb.1; omega) hb0
  unfold div inverse mk2
  rw [show decide (b.num ≠ 0) = true by simpa using hb0]
  simp only [Res.assert_true, Res.bind_ok, hr]
  exact mul_defined hM ha ⟨le_trans h1 hb.2.1, le_trans h2 hb.1, (normalize_spec hr hb0).2.2.1⟩

theorem cross_defined {M B : Int} {a b : Rational} (hM : B * B ≤ M) (ha : a.Small B) (hb : b.Small B) :
    cross M a b = .ok (a.num * b.den, b.num * a.den) := by
  unfold cross
  rw [chk_ok (inRange_of_abs (le_trans (mul_le_sq ha.1 hb.2.1) hM)),
    chk_ok (inRange_of_abs (le_trans (mul_le_sq hb.1 ha.2.1) hM))]
  rfl

/-! ### powers -/

theorem eqInt_spec (M : Int) (p : Rational) (k : Int) (hM : 1 ≤ M) (hk : |k| ≤ 1) (hp : p.Fits M) :
    eqInt M p k = .ok (decide (p.num = k * p.den)) := by
  unfold eqInt eq cross
  rw [ofInt_eq M k (by omega) hM]
  simp only [Res.bind_ok]
  rw [chk_ok (inRange_of_abs (by simpa using hp.1)), Res.bind_ok,
    chk_ok (inRange_of_abs (by
      rw [abs_mul]
      have := abs_nonneg p.den
      have := hp.2
      nlinarith [abs_nonneg k]))]
  simp

/-- `pow` with an exponent that denotes a natural number. -/
theorem pow_spec {M : Int} {fl : Fl} (hfl : fl.Exact) (hM : 2 ^ 53 ≤ M) (a p : Rational) (k : Nat)
    (ha : a.den ≠ 0) (hp0 : p.den ≠ 0) (hp : p.num = k * p.den) (hpn : |p.num| ≤ 2 ^ 53)
    (hpd : |p.den| ≤ 2 ^ 53) (h1 : |a.num ^ k| ≤ 2 ^ 53) (h2 : |a.den ^ k| ≤ 2 ^ 53) :
    ∃ r, pow M fl a p = .ok r ∧ r.val = a.val ^ k ∧ r.den ≠ 0 ∧ (0 < a.den → 0 < r.den) ∧
      (a.den = 1 → r = ⟨a.num ^ k, 1⟩) := by
  have hM1 : (1 : Int) ≤ M := le_trans (by norm_num) hM
  have hf : p.Fits M := ⟨le_trans hpn hM, le_trans hpd hM⟩
  unfold pow
  rw [eqInt_spec M p 0 hM1 (by norm_num) hf, eqInt_spec M p 1 hM1 (by norm_num) hf]
  simp only [Res.bind_ok, zero_mul, one_mul]
  by_cases c0 : p.num = 0
  · rw [if_pos (by simpa using c0)]
    have hk : k = 0 := by
      rw [c0] at hp
      rcases mul_eq_zero.1 hp.symm with h | h
      · exact_mod_cast h
      · exact absurd h hp0
    subst hk
    exact ⟨⟨1, 1⟩, ofInt_eq M 1 (by simpa using hM1) hM1, by simp [val], by simp, by simp, by simp⟩
  · rw [if_neg (by simpa using c0)]
    by_cases c1 : p.num = p.den
    · rw [if_pos (by simpa using c1)]
      have hk : k = 1 := by
        rw [c1] at hp
        have : (k : Int) = 1 := by
          have h3 : ((k : Int) - 1) * p.den = 0 := by linarith
          rcases mul_eq_zero.1 h3 with h | h
          · omega
          · exact absurd h hp0
        exact_mod_cast this
      subst hk
      exact ⟨a, rfl, by simp, ha, fun h => h, fun h => by cases a; simp_all⟩
    · rw [if_neg (by simpa using c1), hfl.powT _ _ _ k hp0 hp hpn hpd h1,
        hfl.powT _ _ _ k hp0 hp hpn hpd h2]
      simp only [Res.bind_ok]
      have hd0 : a.den ^ k ≠ 0 := pow_ne_zero _ ha
      obtain ⟨r, hr, -⟩ := normalize_defined M (a.num ^ k) (a.den ^ k) (le_trans h1 hM) (le_trans h2 hM) hd0
      obtain ⟨g1, -, g3, -, g5, -, -⟩ := normalize_spec hr hd0
      refine ⟨r, hr, ?_, g3, fun h => g5 (pow_pos h k), ?_⟩
      · rw [g1]; unfold val; push_cast; rw [div_pow]
      · intro h
        rw [h, one_pow, normalize_int M _ (le_trans h1 hM) hM1] at hr
        injection hr with hr
        exact hr.symm

end Rational

/-! ### strings -/

/-- `s` starts (after white space) with a decimal numeral of the integer `z`: an optional sign and a
maximal non-empty run of digits. -/
def StartsWithNumeral (s : List Char) (z : Int) : Prop :=
  ∃ (ws ds rest : List Char) (sgn : List Char) (neg : Bool),
    s = ws ++ (sgn ++ (ds ++ rest)) ∧ (∀ c ∈ ws, isSpace c = true) ∧
    ((sgn = [] ∧ neg = false) ∨ (sgn = ['+'] ∧ neg = false) ∨ (sgn = ['-'] ∧ neg = true)) ∧
    ds ≠ [] ∧ (∀ c ∈ ds, isDig c = true) ∧ (∀ c ∈ rest.head?, isDig c = false) ∧
    z = if neg then - digVal ds else digVal ds

theorem mem_takeWhile_imp' {p : Char → Bool} {l : List Char} {c : Char} (h : c ∈ l.takeWhile p) : p c = true := by
  induction l with
  | nil => simp at h
  | cons a l ih =>
    rw [List.takeWhile_cons] at h
    split at h
    · rcases List.mem_cons.1 h with rfl | h
      · assumption
      · exact ih h
    · simp at h

theorem isDig_not_space {c : Char} (h : isDig c = true) : isSpace c = false := by
  unfold isDig at h; unfold isSpace
  simp only [Bool.and_eq_true, decide_eq_true_eq] at h
  have h1 : 48 ≤ c.toNat := h.1
  have h3 : ¬ c ≤ '\r' := fun h => by have : c.toNat ≤ 13 := h; omega
  have h4 : c ≠ ' ' := by rintro rfl; revert h1; decide
  simp [h3, h4]

theorem takeWhile_append {p : Char → Bool} {ds rest : List Char} (h : ∀ c ∈ ds, p c = true)
    (hr : ∀ c ∈ rest.head?, p c = false) : (ds ++ rest).takeWhile p = ds := by
  rw [List.takeWhile_append_of_pos h]
  cases rest with
  | nil => simp
  | cons c t => simp [hr c (by simp)]

theorem stoll_spec (M : Int) (s : List Char) (z : Int) (h : StartsWithNumeral s z) :
    stoll M s = if InRange M z then .ok z else .exn "out_of_range" := by
  obtain ⟨ws, ds, rest, sgn, neg, rfl, hws, hs, hne, hds, hr, rfl⟩ := h
  have e1 : (ws ++ (sgn ++ (ds ++ rest))).dropWhile isSpace = sgn ++ (ds ++ rest) := by
    rw [List.dropWhile_append_of_pos hws]
    obtain ⟨d, ds', rfl⟩ := List.exists_cons_of_ne_nil hne
    rcases hs with ⟨rfl, -⟩ | ⟨rfl, -⟩ | ⟨rfl, -⟩
    · have := isDig_not_space (hds d (by simp))
      simp [this]
    · have : isSpace '+' = false := by decide
      simp [this]
    · have : isSpace '-' = false := by decide
      simp [this]
  have e2 := takeWhile_append hds hr
  have hne' : ds.isEmpty = false := by cases ds <;> simp_all
  unfold stoll
  simp only [e1]
  rcases hs with ⟨rfl, rfl⟩ | ⟨rfl, rfl⟩ | ⟨rfl, rfl⟩
  · obtain ⟨d, ds', rfl⟩ := List.exists_cons_of_ne_nil hne
    have hd := hds d (by simp)
    have m1 : d ≠ '-' := by rintro rfl; revert hd; decide
    have m2 : d ≠ '+' := by rintro rfl; revert hd; decide
    simp only [List.nil_append, List.cons_append] at e2 ⊢
    split
    · rename_i heq; simp_all
    · rename_i heq; simp_all
    · simp [e2]
  · simp [e2, hne']
  · simp [e2, hne']

/-- `s` has no number at its beginning. -/
def NoNumeral (s : List Char) : Prop := ∀ z, ¬ StartsWithNumeral s z

theorem stoll_none (M : Int) (s : List Char) (h : NoNumeral s) : stoll M s = .exn "invalid_argument" := by
  have hsplit : s = s.takeWhile isSpace ++ s.dropWhile isSpace := (List.takeWhile_append_dropWhile).symm
  have key : ∀ (sgn t : List Char) (neg : Bool), s.dropWhile isSpace = sgn ++ t →
      ((sgn = [] ∧ neg = false) ∨ (sgn = ['+'] ∧ neg = false) ∨ (sgn = ['-'] ∧ neg = true)) →
      (t.takeWhile isDig).isEmpty = true := by
    intro sgn t neg h1 h2
    by_contra hc
    have hne : t.takeWhile isDig ≠ [] := by simpa using hc
    refine h (if neg then - digVal (t.takeWhile isDig) else digVal (t.takeWhile isDig))
      ⟨s.takeWhile isSpace, t.takeWhile isDig, t.dropWhile isDig, sgn, neg, ?_, ?_, h2, hne, ?_, ?_, rfl⟩
    · rw [List.takeWhile_append_dropWhile, ← h1]; exact hsplit
    · intro c hc; exact mem_takeWhile_imp' hc
    · intro c hc; exact mem_takeWhile_imp' hc
    · intro c hc
      have := List.head?_dropWhile_not isDig t
      rw [Option.mem_def] at hc
      rw [hc] at this
      simpa using this
  unfold stoll
  simp only
  split
  · rename_i t h1
    rw [if_pos (key ['-'] t true h1 (by simp))]
  · rename_i t h1
    rw [if_pos (key ['+'] t false h1 (by simp))]
  · rw [if_pos (key [] _ false rfl (by simp))]

theorem digVal_toDigits (n : Nat) : digVal (Nat.toDigits 10 n) = n := by
  induction n using Nat.strong_induction_on with
  | _ n ih =>
    by_cases hlt : n < 10
    · rw [Nat.toDigits_of_lt_base hlt]
      have key : ∀ d < 10, digVal [Nat.digitChar d] = (d : Int) := by decide
      exact key n hlt
    · rw [Nat.toDigits_of_base_le (by norm_num) (by omega)]
      have h := ih (n / 10) (by omega)
      unfold digVal at h ⊢
      rw [List.foldl_append, h]
      have key : ∀ d < 10, ((Nat.digitChar d).toNat : Int) - 48 = (d : Int) := by decide
      simp only [List.foldl_cons, List.foldl_nil]
      rw [key (n % 10) (by omega)]
      omega

theorem toDigits_isDig (n : Nat) : ∀ c ∈ Nat.toDigits 10 n, isDig c = true := by
  intro c hc
  have := Nat.isDigit_of_mem_toDigits (by omega) (by omega) hc
  simp only [Char.isDigit, Bool.and_eq_true, decide_eq_true_eq] at this
  unfold isDig
  simp only [Bool.and_eq_true, decide_eq_true_eq]
  exact this

theorem toString_int_eq (z : Int) :
    (toString z).toList = (if z < 0 then ['-'] else []) ++ Nat.toDigits 10 z.natAbs := by
  cases z with
  | ofNat n =>
    have : ¬ ((Int.ofNat n) < 0) := by simp
    rw [if_neg this]
    exact Nat.toList_repr
  | negSucc n =>
    rw [if_pos (Int.negSucc_lt_zero n)]
    change ("-" ++ Nat.repr (n + 1)).toList = _
    rw [String.toList_append, Nat.toList_repr]
    rfl

/-- the standard numeral of `z` followed by something that does not start with a digit. -/
theorem numeral_toString (z : Int) (rest : List Char) (hr : ∀ c ∈ rest.head?, isDig c = false) :
    StartsWithNumeral ((toString z).toList ++ rest) z := by
  refine ⟨[], Nat.toDigits 10 z.natAbs, rest, if z < 0 then ['-'] else [], decide (z < 0), ?_, by simp, ?_,
    Nat.toDigits_ne_nil, toDigits_isDig _, hr, ?_⟩
  · rw [toString_int_eq, List.nil_append, List.append_assoc]
  · by_cases h : z < 0 <;> simp [h]
  · rw [digVal_toDigits]
    by_cases h : z < 0
    · rw [if_pos (by simpa using h)]; omega
    · rw [if_neg (by simpa using h)]; omega

theorem mem_toString_int {z : Int} {c : Char} (h : c ∈ (toString z).toList) : isDig c = true ∨ c = '-' := by
  rw [toString_int_eq, List.mem_append] at h
  rcases h with h | h
  · right
    split at h <;> simp_all
  · exact Or.inl (toDigits_isDig _ _ h)

end Symxx.Num
