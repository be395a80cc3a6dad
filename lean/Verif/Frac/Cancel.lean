import Verif.Frac.QuotPow
/-!
# Rational numbers with a common denominator
-/
namespace Symxx.Num

namespace Rational

/-- `r` is `N/D`, possibly after cancelling a positive factor. -/
def Canc (N D : Int) (r : Rational) : Prop := 0 < r.den ∧ ∃ g, 0 < g ∧ r.num * g = N ∧ r.den * g = D

theorem canc_self {N D : Int} (h : 0 < D) : Canc N D ⟨N, D⟩ := ⟨h, 1, one_pos, mul_one _, mul_one _⟩

theorem Canc.pos {N D : Int} {r : Rational} (h : Canc N D r) : 0 < D := by
  obtain ⟨h1, g, h2, -, rfl⟩ := h
  exact mul_pos h1 h2
theorem Canc.num_le {N D : Int} {r : Rational} (h : Canc N D r) : |r.num| ≤ |N| := by
  obtain ⟨h1, g, h2, rfl, -⟩ := h
  rw [abs_mul, abs_of_pos h2]
  exact le_mul_of_one_le_right (abs_nonneg _) (by omega)
theorem Canc.den_le {N D : Int} {r : Rational} (h : Canc N D r) : r.den ≤ D := by
  obtain ⟨h1, g, h2, -, rfl⟩ := h
  exact le_mul_of_one_le_right h1.le (by omega)
theorem Canc.fits {N D M : Int} {r : Rational} (h : Canc N D r) (hN : |N| ≤ M) (hD : D ≤ M) : r.Fits M :=
  ⟨le_trans h.num_le hN, by rw [abs_of_pos h.1]; exact le_trans h.den_le hD⟩
theorem Canc.scale {N D k : Int} {r : Rational} (h : Canc N D r) (hk : 0 < k) : Canc (N * k) (D * k) r := by
  obtain ⟨h1, g, h2, rfl, rfl⟩ := h
  exact ⟨h1, g * k, mul_pos h2 hk, by ring, by ring⟩
theorem Canc.trans {N D : Int} {r q : Rational} (h : Canc N D r) (h' : Canc r.num r.den q) : Canc N D q := by
  obtain ⟨h1, g, h2, rfl, rfl⟩ := h
  exact Canc.scale h' h2
theorem Canc.val {N D : Int} {r : Rational} (h : Canc N D r) : r.val = (N : ℚ) / D := by
  obtain ⟨h1, g, h2, rfl, rfl⟩ := h
  have g0 : (g : ℚ) ≠ 0 := by exact_mod_cast h2.ne'
  unfold Rational.val
  push_cast
  rw [mul_div_mul_right _ _ g0]

theorem normalize_canc {M a b : Int} (ha : |a| ≤ M) (hb : b ≤ M) (hb0 : 0 < b) : ∃ r, normalize M ⟨a, b⟩ = .ok r ∧ Canc a b r := by
  rw [normalize_eq M a b ha (by rwa [abs_of_pos hb0]) hb0.ne']
  have gp : 0 < (Int.gcd a b : Int) := by exact_mod_cast Int.gcd_pos_iff.2 (Or.inr hb0.ne')
  obtain ⟨x, hx⟩ := Int.gcd_dvd_left a b
  obtain ⟨y, hy⟩ := Int.gcd_dvd_right a b
  generalize (Int.gcd a b : Int) = g at *
  have y0 : 0 < y := by rw [hy] at hb0; exact pos_of_mul_pos_right hb0 gp.le
  rw [hx, hy, Int.mul_tdiv_cancel_left _ gp.ne', Int.mul_tdiv_cancel_left _ gp.ne', if_neg (by omega)]
  exact ⟨_, rfl, y0, g, gp, mul_comm _ _, mul_comm _ _⟩

theorem negate_canc {M : Int} {r : Rational} (ha : |r.num| ≤ M) (hb : r.den ≤ M) (hb0 : 0 < r.den) :
    ∃ q, negate M r = .ok q ∧ Canc (-r.num) r.den q := by
  obtain ⟨q, q1, q2⟩ := normalize_canc (M := M) (a := -r.num) (b := r.den) (by rwa [abs_neg]) hb hb0
  refine ⟨q, ?_, q2⟩
  unfold negate mk2
  rw [chk_ok (inRange_of_abs (by rwa [abs_neg])), Res.bind_ok, show decide (r.den ≠ 0) = true by simpa using hb0.ne',
    Res.assert_true, Res.bind_ok, q1]

theorem divT_gcd {M a g x : Int} (hg : 0 < g) (ha : |a| ≤ M) (e : a = g * x) : divT M a g = .ok x := by
  subst e
  refine divT_ok.2 ?_
  rw [Int.mul_tdiv_cancel_left _ hg.ne']
  refine ⟨hg.ne', inRange_of_abs (le_trans ?_ ha), rfl⟩
  rw [abs_mul, abs_of_pos hg]
  exact le_mul_of_one_le_left (abs_nonneg _) (by omega)

theorem mul_canc' {M : Int} {a b : Rational} (ha0 : 0 < a.den) (hb0 : 0 < b.den) (ha : a.Fits M) (hb : b.Fits M)
    (hn : |a.num * b.num| ≤ M) (hd : a.den * b.den ≤ M) : ∃ r, mul M a b = .ok r ∧ Canc (a.num * b.num) (a.den * b.den) r := by
  obtain ⟨a1, a2⟩ := a
  obtain ⟨b1, b2⟩ := b
  obtain ⟨fa1, fa2⟩ := ha
  obtain ⟨fb1, fb2⟩ := hb
  simp only at *
  have q1 : gcdT M a1 b2 = .ok (Int.gcd a1 b2 : Int) := gcdT_ok.2 ⟨⟨fa1, fb2⟩, rfl⟩
  have q2 : gcdT M b1 a2 = .ok (Int.gcd b1 a2 : Int) := gcdT_ok.2 ⟨⟨fb1, fa2⟩, rfl⟩
  have g1 : 0 < (Int.gcd a1 b2 : Int) := by exact_mod_cast Int.gcd_pos_iff.2 (Or.inr hb0.ne')
  have g2 : 0 < (Int.gcd b1 a2 : Int) := by exact_mod_cast Int.gcd_pos_iff.2 (Or.inr ha0.ne')
  obtain ⟨x1, e1⟩ := Int.gcd_dvd_left a1 b2
  obtain ⟨y2, e2⟩ := Int.gcd_dvd_right a1 b2
  obtain ⟨y1, e3⟩ := Int.gcd_dvd_left b1 a2
  obtain ⟨x2, e4⟩ := Int.gcd_dvd_right b1 a2
  generalize (Int.gcd a1 b2 : Int) = g at *
  generalize (Int.gcd b1 a2 : Int) = k at *
  have p1 : 0 < x2 := by rw [e4] at ha0; exact pos_of_mul_pos_right ha0 g2.le
  have p2 : 0 < y2 := by rw [e2] at hb0; exact pos_of_mul_pos_right hb0 g1.le
  have gk := mul_pos g1 g2
  have en : a1 * b1 = x1 * y1 * (g * k) := by rw [e1, e3]; ring
  have ed : a2 * b2 = x2 * y2 * (g * k) := by rw [e2, e4]; ring
  have bn : |x1 * y1| ≤ M := by
    refine le_trans ?_ hn
    rw [en, abs_mul (x1 * y1), abs_of_pos gk]
    exact le_mul_of_one_le_right (abs_nonneg _) (by omega)
  have pd := mul_pos p1 p2
  have bd : |x2 * y2| ≤ M := by
    refine le_trans ?_ hd
    rw [ed, abs_of_pos pd]
    exact le_mul_of_one_le_right pd.le (by omega)
  refine ⟨⟨x1 * y1, x2 * y2⟩, ?_, pd, g * k, gk, en.symm, ed.symm⟩
  unfold mul
  simp only
  rw [q1, Res.bind_ok, q2, Res.bind_ok, divT_gcd g1 fa1 e1, Res.bind_ok, divT_gcd g2 fb1 e3, Res.bind_ok,
    chk_ok (inRange_of_abs bn), Res.bind_ok, divT_gcd g2 fa2 e4, Res.bind_ok, divT_gcd g1 fb2 e2, Res.bind_ok,
    chk_ok (inRange_of_abs bd), Res.bind_ok, show decide (x2 * y2 ≠ 0) = true by simpa using ⟨p1.ne', p2.ne'⟩, Res.assert_true,
    Res.bind_ok]

theorem mul_canc {M N1 D1 N2 D2 : Int} {a b : Rational} (ha : Canc N1 D1 a) (hb : Canc N2 D2 b) (h1 : |N1| ≤ M) (h2 : |N2| ≤ M)
    (hn : |N1 * N2| ≤ M) (hd : D1 * D2 ≤ M) : ∃ r, mul M a b = .ok r ∧ Canc (N1 * N2) (D1 * D2) r := by
  have p1 := ha.pos
  have p2 := hb.pos
  have d1 : D1 ≤ M := le_trans (le_mul_of_one_le_right p1.le (by omega)) hd
  have d2 : D2 ≤ M := le_trans (le_mul_of_one_le_left p2.le (by omega)) hd
  obtain ⟨r, r1, r2⟩ := mul_canc' (M := M) ha.1 hb.1 (ha.fits h1 d1) (hb.fits h2 d2)
    (le_trans (by rw [abs_mul, abs_mul]; exact mul_le_mul ha.num_le hb.num_le (abs_nonneg _) (abs_nonneg _)) hn)
    (le_trans (mul_le_mul ha.den_le hb.den_le hb.1.le p1.le) hd)
  refine ⟨r, r1, ?_⟩
  obtain ⟨-, g, g0, rfl, rfl⟩ := ha
  obtain ⟨-, k, k0, rfl, rfl⟩ := hb
  have := r2.scale (mul_pos g0 k0)
  rwa [show a.num * g * (b.num * k) = a.num * b.num * (g * k) by ring,
    show a.den * g * (b.den * k) = a.den * b.den * (g * k) by ring]

theorem add_canc {M N1 N2 D : Int} {a b : Rational} (ha : Canc N1 D a) (hb : Canc N2 D b) (hD : D ≤ M) (hn : |N1| + |N2| ≤ M) :
    ∃ r, add M a b = .ok r ∧ Canc (N1 + N2) D r := by
  have n1 := abs_nonneg N1
  have n2 := abs_nonneg N2
  have D0 := ha.pos
  obtain ⟨fa1, fa2⟩ := ha.fits (M := M) (by omega) hD
  obtain ⟨fb1, fb2⟩ := hb.fits (M := M) (by omega) hD
  obtain ⟨a0, g, g0, e1, e2⟩ := ha
  obtain ⟨b0, k, k0, e3, e4⟩ := hb
  obtain ⟨a1, a2⟩ := a
  obtain ⟨b1, b2⟩ := b
  simp only at *
  have l0 : 0 < (Int.lcm a2 b2 : Int) := by exact_mod_cast Nat.pos_of_ne_zero (Int.lcm_ne_zero a0.ne' b0.ne')
  obtain ⟨x, hx⟩ := Int.dvd_lcm_left a2 b2
  obtain ⟨y, hy⟩ := Int.dvd_lcm_right a2 b2
  obtain ⟨w, hw⟩ : (Int.lcm a2 b2 : Int) ∣ D := Int.coe_lcm_dvd ⟨g, e2.symm⟩ ⟨k, e4.symm⟩
  have hl : lcmT M a2 b2 = .ok (Int.lcm a2 b2 : Int) := by
    refine lcmT_ok.2 ⟨⟨fa2, fb2, ?_⟩, rfl⟩
    exact le_trans (Int.le_of_dvd D0 ⟨w, hw⟩) hD
  generalize (Int.lcm a2 b2 : Int) = l at *
  have w0 : 0 < w := by rw [hw] at D0; exact pos_of_mul_pos_right D0 l0.le
  have x0 : 0 < x := by rw [hx] at l0; exact pos_of_mul_pos_right l0 a0.le
  have y0 : 0 < y := by rw [hy] at l0; exact pos_of_mul_pos_right l0 b0.le
  have gx : g = x * w := by
    have : a2 * g = a2 * (x * w) := by rw [e2, hw, hx]; ring
    exact mul_left_cancel₀ a0.ne' this
  have ky : k = y * w := by
    have : b2 * k = b2 * (y * w) := by rw [e4, hw, hy]; ring
    exact mul_left_cancel₀ b0.ne' this
  have t1 : a1 * x * w = N1 := by rw [← e1, gx]; ring
  have t2 : b1 * y * w = N2 := by rw [← e3, ky]; ring
  have le : ∀ z : Int, |z| ≤ |z * w| := fun z => by
    rw [abs_mul, abs_of_pos w0]; exact le_mul_of_one_le_right (abs_nonneg _) (by omega)
  have c1 : |a1 * x| ≤ M := le_trans (le _) (by rw [t1]; omega)
  have c2 : |b1 * y| ≤ M := le_trans (le _) (by rw [t2]; omega)
  have c3 : |a1 * x + b1 * y| ≤ M := by
    refine le_trans (le _) ?_
    rw [add_mul, t1, t2]
    exact le_trans (abs_add_le _ _) hn
  have lM : |l| ≤ M := by rw [abs_of_pos l0]; exact le_trans (Int.le_of_dvd D0 ⟨w, hw⟩) hD
  obtain ⟨r, r1, r2⟩ := normalize_canc (M := M) c3 (le_trans (le_abs_self _) lM) l0
  refine ⟨r, ?_, ?_⟩
  · unfold add
    simp only
    rw [hl, Res.bind_ok, divT_gcd a0 lM hx, Res.bind_ok, chk_ok (inRange_of_abs c1), Res.bind_ok, divT_gcd b0 lM hy, Res.bind_ok,
      chk_ok (inRange_of_abs c2), Res.bind_ok, chk_ok (inRange_of_abs c3), Res.bind_ok, r1]
  · have := r2.scale w0
    rwa [add_mul, t1, t2, ← hw] at this

theorem cross_fits {M : Int} {a b : Rational} (h1 : |a.num * b.den| ≤ M) (h2 : |b.num * a.den| ≤ M) :
    cross M a b = .ok (a.num * b.den, b.num * a.den) := by
  unfold cross
  rw [chk_ok (inRange_of_abs h1), Res.bind_ok, chk_ok (inRange_of_abs h2), Res.bind_ok]

/-- the products of the comparisons. -/
theorem Canc.cross {N1 D1 N2 D2 M : Int} {a b : Rational} (ha : Canc N1 D1 a) (hb : Canc N2 D2 b) (h : |N1| * D2 ≤ M) :
    |a.num * b.den| ≤ M := by
  rw [abs_mul, abs_of_pos hb.1]
  exact le_trans (mul_le_mul ha.num_le hb.den_le hb.1.le (abs_nonneg _)) h

end Rational

namespace Real
open Rational
variable {env : Env}

theorem pow_canc (h : env.PowOk) {a b : Int} {n : Nat} (hb0 : 0 < b) (hn : (n : Int) ≤ 2 ^ 53)
    (ha : |a ^ n| ≤ 2 ^ 53) (hb : b ^ n ≤ 2 ^ 53) :
    ∃ r, pow env (ofRat ⟨a, b⟩) ⟨n, 1⟩ = .ok (ofRat r) ∧ Canc (a ^ n) (b ^ n) r := by
  have h' := h.toIntOk
  have hM := h.hM
  have hM53 := h.hM53
  have hnM : |(n : Int)| ≤ env.M := by rw [abs_of_nonneg (by positivity)]; omega
  have hbn : 0 < b ^ n := pow_pos hb0 n
  have hf : Rational.Fits env.M ⟨(n : Int), 1⟩ := ⟨hnM, by simpa using hM⟩
  by_cases e0 : n = 0
  · subst e0
    refine ⟨⟨1, 1⟩, ?_, by simpa using canc_self (N := 1) one_pos⟩
    unfold pow powN
    simp only [Nat.cast_zero]
    rw [Rational.eqInt_int hM (abs0 h') (abs0 h'), Res.bind_ok]
    simp only [decide_true, if_true]
    exact ofInt_int h' (abs1 h')
  by_cases e1 : n = 1
  · subst e1
    refine ⟨⟨a, b⟩, ?_, by simpa using canc_self hb0⟩
    rw [pow_one' hM _ _ (by exact_mod_cast hf) rfl one_ne_zero]
  have e0' : ¬ ((n : Int) = 0) := by exact_mod_cast e0
  have e1' : ¬ ((n : Int) = 1) := by exact_mod_cast e1
  have rp : ∀ {a b : Int}, 0 < b → |a ^ n| ≤ 2 ^ 53 → b ^ n ≤ 2 ^ 53 →
      Rational.pow env.M env.fl ⟨a, b⟩ ⟨(n : Int), 1⟩ = Rational.normalize env.M ⟨a ^ n, b ^ n⟩ := by
    intro a b hb0 ha hb
    have hbn : 0 < b ^ n := pow_pos hb0 n
    unfold Rational.pow
    rw [Rational.eqInt_int hM hnM (abs0 h'), Res.bind_ok]
    simp only [e0', decide_false, Bool.false_eq_true, if_false]
    rw [Rational.eqInt_int hM hnM (abs1 h'), Res.bind_ok]
    simp only [e1', decide_false, Bool.false_eq_true, if_false]
    have h53 : |(n : Int)| ≤ 2 ^ 53 := by rw [abs_of_nonneg (by positivity)]; exact hn
    rw [h.exact a n 1 n one_ne_zero (by ring) h53 (by norm_num) ha, Res.bind_ok,
      h.exact b n 1 n one_ne_zero (by ring) h53 (by norm_num) (by rwa [abs_of_pos hbn]), Res.bind_ok]
  obtain ⟨r, r1, r2⟩ := normalize_canc (M := env.M) (le_trans ha hM53) (le_trans hb hM53) hbn
  refine ⟨r, ?_, r2⟩
  rw [pow_pos' hM _ _ hf (by simp; omega) e1']
  have one : Rational.normalize env.M ⟨1, 1⟩ = .ok ⟨1, 1⟩ := Rational.normalize_low (by simpa using hM) hM one_pos (by simp)
  unfold powPos ofRat
  simp only
  rw [show (Rational.isInt ⟨(n : Int), 1⟩) = true from rfl, if_pos rfl, rp hb0 ha hb, r1, Res.bind_ok,
    rp one_pos (by simp) (by simp), one_pow, one, Res.bind_ok]
  exact normalize_ofRat h' (r2.fits (le_trans ha hM53) (le_trans hb hM53))

variable (h : env.IntOk)
include h

theorem mul_ofRat_canc {N1 D1 N2 D2 : Int} {a b : Rational} (ha : Canc N1 D1 a) (hb : Canc N2 D2 b) (h1 : |N1| ≤ env.M)
    (h2 : |N2| ≤ env.M) (hn : |N1 * N2| ≤ env.M) (hd : D1 * D2 ≤ env.M) :
    ∃ r, mul env (ofRat a) (ofRat b) = .ok (ofRat r) ∧ Canc (N1 * N2) (D1 * D2) r := by
  obtain ⟨r, r1, r2⟩ := mul_canc ha hb h1 h2 hn hd
  exact ⟨r, mul_ofRat h r1 (r2.fits hn hd), r2⟩

theorem equiv_ofRat (a b : Rational) : isEquivalentWith env (ofRat a) (ofRat b) = .ok true := by
  unfold isEquivalentWith ofRat
  simp only
  rw [Rational.eq_int (abs1 h) (abs1 h), Res.bind_ok]
  simp only [decide_true, if_true]
  rw [Rational.eqInt_int h.hM (abs1 h) (abs1 h), Res.bind_ok]
  simp

theorem add_ofRat {N1 N2 D : Int} {a b : Rational} (ha : Canc N1 D a) (hb : Canc N2 D b) (hD : D ≤ env.M) (hn : |N1| + |N2| ≤ env.M) :
    ∃ r, add env (ofRat a) (ofRat b) = .ok (ofRat r) ∧ Canc (N1 + N2) D r := by
  obtain ⟨r, r1, r2⟩ := add_canc ha hb hD hn
  refine ⟨r, ?_, r2⟩
  unfold add
  rw [equiv_ofRat h, Res.bind_ok]
  simp only [Bool.not_true, Bool.false_eq_true, if_false]
  rw [show (ofRat a).coe = a from rfl, show (ofRat b).coe = b from rfl, r1, Res.bind_ok]
  exact normalize_ofRat h (r2.fits (le_trans (abs_add_le _ _) hn) hD)

theorem cmpSide_ofRat {a : Rational} (h0 : 0 < a.den) (ha : a.Fits env.M) : cmpSide env a 1 ⟨1, 1⟩ 1 = .ok a := by
  have hM := h.hM
  have hw : wrap env.M ((1 : Nat) : Int) = 1 := wrap_of_range (inRange_of_abs (by simpa using hM))
  have hp : ∀ c : Rational, Rational.pow env.M env.fl c ⟨1, 1⟩ = .ok c := by
    intro c
    unfold Rational.pow
    rw [Rational.eqInt_int h.hM (abs1 h) (abs0 h), Res.bind_ok]
    simp only [one_ne_zero, decide_false, Bool.false_eq_true, if_false]
    rw [Rational.eqInt_int h.hM (abs1 h) (abs1 h), Res.bind_ok]
    simp
  unfold cmpSide ratOfIndex
  rw [hw, Rational.ofInt_eq _ _ (abs1 h) h.hM]
  simp only [Res.bind_ok, hp]
  obtain ⟨a1, a2⟩ := a
  obtain ⟨f1, f2⟩ := ha
  simp only at *
  have d1 : ∀ x : Int, |x| ≤ env.M → divT env.M x 1 = .ok x := fun x hx => divT_gcd one_pos hx (one_mul _).symm
  unfold Rational.mul
  simp only
  rw [gcdT_ok.2 ⟨⟨f1, abs1 h⟩, rfl⟩, Res.bind_ok, gcdT_ok.2 ⟨⟨abs1 h, f2⟩, rfl⟩, Res.bind_ok]
  simp only [Int.gcd_one, Int.one_gcd, Nat.cast_one]
  rw [d1 _ f1, Res.bind_ok, d1 _ (abs1 h), Res.bind_ok, mul_one, chk_ok (inRange_of_abs f1), Res.bind_ok, d1 _ f2, Res.bind_ok,
    Res.bind_ok, mul_one, chk_ok (inRange_of_abs f2), Res.bind_ok, show decide (a2 ≠ 0) = true by simpa using h0.ne', Res.assert_true,
    Res.bind_ok]

theorem gt_ofRat {N1 N2 D : Int} {a b : Rational} (ha : Canc N1 D a) (hb : Canc N2 D b) (hD : D ≤ env.M) (h1 : |N1| * D ≤ env.M)
    (h2 : |N2| * D ≤ env.M) : ∃ v, gt env (ofRat a) (ofRat b) = .ok v := by
  have hM := h.hM
  have D0 := ha.pos
  have m1 : |N1| ≤ env.M := le_trans (le_mul_of_one_le_right (abs_nonneg _) (by omega)) h1
  have m2 : |N2| ≤ env.M := le_trans (le_mul_of_one_le_right (abs_nonneg _) (by omega)) h2
  have hu : mulU env 1 1 = 1 := by
    unfold mulU
    have : ((1 * 1 : Nat) : Int) % (2 * (env.M + 1)) = 1 := by simpa using Int.emod_eq_of_lt (by norm_num) (by omega)
    rw [this]; rfl
  have fa := ha.fits m1 hD
  have fb := hb.fits m2 hD
  have z0 : ∀ {c : Rational}, c.Fits env.M → Rational.cross env.M c ⟨0, 1⟩ = .ok (c.num * 1, 0 * c.den) := by
    intro c hc
    exact cross_fits (by simpa using hc.1) (by simpa using abs0 h)
  have hle : ∀ {c : Rational}, c.Fits env.M → ∃ v, leZero env c = .ok v := by
    intro c hc
    unfold leZero Rational.le
    rw [Rational.ofInt_eq _ _ (abs0 h) h.hM, Res.bind_ok, z0 hc]
    exact ⟨_, rfl⟩
  have hge : ∀ {c : Rational}, c.Fits env.M → ∃ v, geZero env c = .ok v := by
    intro c hc
    unfold geZero Rational.ge
    rw [Rational.ofInt_eq _ _ (abs0 h) h.hM, Res.bind_ok, z0 hc]
    exact ⟨_, rfl⟩
  have cr : ∀ {x y : Rational} {N K : Int}, Canc N D x → Canc K D y → |N| * D ≤ env.M → |K| * D ≤ env.M →
      Rational.cross env.M x y = .ok (x.num * y.den, y.num * x.den) := fun hx hy h1 h2 =>
    cross_fits (hx.cross hy h1) (hy.cross hx h2)
  have ee : ∃ v, eq env (ofRat a) (ofRat b) = .ok v := by
    unfold eq Rational.eq ofRat
    simp only
    rw [cr ha hb h1 h2]
    simp only [Res.bind_ok]
    split
    · rw [Rational.cross_int (abs1 h) (abs1 h), Res.bind_ok]
      simp
    · exact ⟨_, rfl⟩
  have ll : ∃ v, lt env (ofRat a) (ofRat b) = .ok v := by
    obtain ⟨v, hv⟩ := ee
    obtain ⟨v1, e1⟩ := hle fa
    obtain ⟨v2, e2⟩ := hle fb
    obtain ⟨v3, e3⟩ := hge fa
    obtain ⟨v4, e4⟩ := hge fb
    obtain ⟨na, n1, n2⟩ := negate_canc fa.1 (le_trans ha.den_le hD) ha.1
    obtain ⟨nb, n3, n4⟩ := negate_canc fb.1 (le_trans hb.den_le hD) hb.1
    have cna : Canc (-N1) D na := by
      obtain ⟨p, g, g0, x, y⟩ := ha
      have := n2.scale g0
      rwa [neg_mul, x, y] at this
    have cnb : Canc (-N2) D nb := by
      obtain ⟨p, g, g0, x, y⟩ := hb
      have := n4.scale g0
      rwa [neg_mul, x, y] at this
    have s1 := cmpSide_ofRat h cna.1 (cna.fits (by rwa [abs_neg]) hD)
    have s2 := cmpSide_ofRat h cnb.1 (cnb.fits (by rwa [abs_neg]) hD)
    have s3 := cmpSide_ofRat h ha.1 fa
    have s4 := cmpSide_ofRat h hb.1 fb
    have x1 : Rational.gt env.M na nb = .ok (decide (na.num * nb.den > nb.num * na.den)) := by
      unfold Rational.gt
      rw [cr cna cnb (by rwa [abs_neg]) (by rwa [abs_neg]), Res.bind_ok]
    have x2 : Rational.lt env.M a b = .ok (decide (a.num * b.den < b.num * a.den)) := by
      unfold Rational.lt
      rw [cr ha hb h1 h2, Res.bind_ok]
    unfold lt
    rw [hv, Res.bind_ok]
    split
    · exact ⟨_, rfl⟩
    simp only [ofRat, hu, e1, e2, e3, e4, n1, n3, s1, s2, s3, s4, x1, x2, Res.bind_ok]
    cases v1 <;> cases v2 <;> cases v3 <;> cases v4 <;> simp
  obtain ⟨v, hv⟩ := ee
  obtain ⟨w, hw⟩ := ll
  unfold gt
  rw [hw, Res.bind_ok]
  split
  · exact ⟨_, rfl⟩
  · rw [hv, Res.bind_ok]
    exact ⟨_, rfl⟩

end Real
end Symxx.Num
