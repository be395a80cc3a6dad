import Verif.Frac.QuotPow
/-!
# Fractional powers of positive fractions: they return, and in normal form
-/
namespace Symxx.Num

namespace Rational

theorem pow_low {env : Env} (h : env.PowOk) {a b : Int} {n : Nat} (hn0 : n ≠ 0) (hb0 : 0 < b) (hg : Int.gcd a b = 1)
    (hn : (n : Int) ≤ 2 ^ 53) (ha : |a ^ n| ≤ 2 ^ 53) (hb : b ^ n ≤ 2 ^ 53) :
    Rational.pow env.M env.fl ⟨a, b⟩ ⟨(n : Int), 1⟩ = .ok ⟨a ^ n, b ^ n⟩ := by
  have h' := h.toIntOk
  have hM := h.hM
  have hM53 := h.hM53
  have hnM : |(n : Int)| ≤ env.M := by rw [abs_of_nonneg (by positivity)]; omega
  have hbn : 0 < b ^ n := pow_pos hb0 n
  have e0' : ¬ ((n : Int) = 0) := by exact_mod_cast hn0
  unfold Rational.pow
  rw [Rational.eqInt_int hM hnM (Real.abs0 h'), Res.bind_ok]
  simp only [e0', decide_false, Bool.false_eq_true, if_false]
  rw [Rational.eqInt_int hM hnM (Real.abs1 h'), Res.bind_ok]
  by_cases e1 : n = 1
  · subst e1
    simp
  have e1' : ¬ ((n : Int) = 1) := by exact_mod_cast e1
  simp only [e1', decide_false, Bool.false_eq_true, if_false]
  have h53 : |(n : Int)| ≤ 2 ^ 53 := by rw [abs_of_nonneg (by positivity)]; exact hn
  rw [h.exact a n 1 n one_ne_zero (by ring) h53 (by norm_num) ha, Res.bind_ok,
    h.exact b n 1 n one_ne_zero (by ring) h53 (by norm_num) (by rwa [abs_of_pos hbn]), Res.bind_ok]
  refine Rational.normalize_low (le_trans ha hM53) (le_trans hb hM53) hbn ?_
  exact Int.isCoprime_iff_gcd_eq_one.1 ((Int.isCoprime_iff_gcd_eq_one.2 hg).pow)

theorem one_mul' {M : Int} {c : Rational} (hM : 1 ≤ M) (hc : c.Fits M) (hd : 0 < c.den) : mul M ⟨1, 1⟩ c = .ok c := by
  obtain ⟨a, b⟩ := c
  obtain ⟨ha, hb⟩ := hc
  simp only at ha hb hd
  have a1 : |(1 : Int)| ≤ M := by simpa using hM
  have q1 : gcdT M 1 b = .ok 1 := gcdT_ok.2 ⟨⟨a1, hb⟩, by simp⟩
  have q2 : gcdT M a 1 = .ok 1 := gcdT_ok.2 ⟨⟨ha, a1⟩, by simp⟩
  have d3 : ∀ x : Int, |x| ≤ M → divT M x 1 = .ok x := fun x hx => divT_ok.2 ⟨one_ne_zero, inRange_of_abs (by simpa using hx), by simp⟩
  unfold mul
  simp only
  rw [q1, Res.bind_ok, q2, Res.bind_ok, d3 1 a1, Res.bind_ok, d3 a ha, Res.bind_ok, one_mul, chk_ok (inRange_of_abs ha), Res.bind_ok,
    Res.bind_ok, d3 b hb, Res.bind_ok, one_mul, chk_ok (inRange_of_abs hb), Res.bind_ok,
    show decide (b ≠ 0) = true by simpa using hd.ne', Res.assert_true, Res.bind_ok]

end Rational

namespace Real

variable {env : Env} {B : Nat}

theorem outer_pow_simplest {N k e : Nat} (h : Simplest N k) (he : 0 < e) : outer (k * e) (N ^ e) = 1 := by
  by_contra hne
  obtain ⟨p, hp, hd⟩ := Nat.exists_prime_and_dvd hne
  have hN : 0 < N ^ e := pow_pos h.1 e
  have h1 : outer (k * e) (N ^ e) ^ (k * e) ∣ N ^ e := by
    have := free_outer (k := k * e) hN
    exact Dvd.intro_left _ this
  have h2 : p ^ (k * e) ∣ N ^ e := (pow_dvd_pow_of_dvd hd _).trans h1
  have h3 := (hp.pow_dvd_iff_le_factorization hN.ne').1 h2
  rw [Nat.factorization_pow] at h3
  simp only [Finsupp.smul_apply, smul_eq_mul] at h3
  have h4 := h.lt p
  nlinarith

/-- the `k`-th root of `n/d`, as the constructor computes it. -/
theorem root_norm (hg : env.Good B) (k n d : Nat) (hk : 0 < k) (hn : 0 < n) (hd : 0 < d) (hN : cleared k n d ≤ B)
    (hdk : d ^ k ≤ B) : ∃ r, normalize env ⟨k, ⟨n, d⟩, ⟨1, 1⟩⟩ = .ok r ∧ NormOf (cleared k n d) ⟨k, ⟨n, d⟩, ⟨1, 1⟩⟩ r ∧
      0 < r.coe.den ∧ r.coe.Lowest ∧ |r.coe.num| ≤ cleared k n d ∧ r.coe.den ≤ d := by
  have hM1 := hg.M1
  have hcl : 0 < cleared k n d := by unfold cleared; positivity
  have hdB : d ≤ B := le_trans (Nat.le_self_pow hk.ne' _) hdk
  have hdM : (d : Int) ≤ env.M := hg.leM hdB
  have hd' : (0 : Int) < d := by exact_mod_cast hd
  have oB : outer k (cleared k n d) ≤ B := le_trans (outer_le hk hcl) hN
  have key : normalize env ⟨k, ⟨n, d⟩, ⟨1, 1⟩⟩ = normInt env k (cleared k n d) ⟨1, d⟩ := by
    by_cases hd1 : d = 1
    · subst hd1
      rw [cleared_one]
      exact normalize_int k n ⟨1, 1⟩
    · rw [normalize_frac hg k n d hk hn hd hd1 hN hdk]
      unfold Rational.div
      rw [Rational.inverse_pos hM1 hdM hd', Res.bind_ok, Rational.mul_inv hM1 (by simpa using hM1) hdM hd']
      simp
  have hdf : |(⟨1, d⟩ : Rational).num| * outer k (cleared k n d) ≤ env.M ∧ |(⟨1, d⟩ : Rational).den| ≤ env.M :=
    ⟨by simp only [abs_one, one_mul]; exact hg.leM oB, by simp only; rw [abs_of_pos hd']; exact hdM⟩
  obtain ⟨r, hr, c', hs, er⟩ := (normInt_sat hg k _ hk hcl hN ⟨1, d⟩ hd'.ne').defined hdf
  have hc : r.coe = c' := by rw [er]; split <;> rfl
  obtain ⟨s1, s2, s3, s4, s5, s6⟩ := hs
  have s3 : 0 < c'.den := s3 hd'
  refine ⟨r, key.trans hr, ?_, ?_, ?_, ?_, ?_⟩
  · refine (normalize_sat hg k n d hk hn hd hN hdk ⟨1, 1⟩ one_ne_zero).post (key.trans hr)
  · rw [hc]; exact s3
  · rw [hc]; exact s6 (by simp [Rational.Lowest])
  · rw [hc]
    simp only [abs_one, one_mul] at s4
    exact le_trans s4 (by exact_mod_cast outer_le hk hcl)
  · rw [hc]
    simp only at s5
    rwa [abs_of_pos s3, abs_of_pos hd'] at s5

/-- multiplying with `1^(1/q)` changes nothing. -/
theorem index_mul (hg : env.Good B) (hB : 1 ≤ B) {r : Real} {q : Nat} (hr : r.Canon) (h0 : 0 < r.coe.den) (hl : r.coe.Lowest)
    (hf : r.coe.Fits env.M) (hi : r.index ∣ q) (hq : 0 < q) (hq53 : q ≤ 2 ^ 53) (hs : r.rad.num ^ (q / r.index) ≤ B) :
    mul env ⟨q, ⟨1, 1⟩, ⟨1, 1⟩⟩ r = .ok r := by
  have hp := hg.powOk hB
  have hM := hp.hM
  have hM53 := hp.hM53
  have hrc := hr
  obtain ⟨k, rad, c⟩ := r
  obtain ⟨N, e, sm, cd, cz⟩ := hr
  simp only at e sm cd cz hi hs h0 hf hl
  subst e
  obtain ⟨e, rfl⟩ := hi
  have hk : 0 < k := sm.2.1
  have he : 0 < e := Nat.pos_of_mul_pos_left hq
  have q1 : k * e / k = e := Nat.mul_div_cancel_left _ hk
  simp only [q1] at hs
  have he53 : e ≤ 2 ^ 53 := le_trans (Nat.le_mul_of_pos_left _ hk) hq53
  have hNB : N ^ e ≤ B := by exact_mod_cast hs
  have hN53 : ((N : Int) ^ e) ≤ 2 ^ 53 := by
    have := hg.le53 hNB
    exact_mod_cast this
  have hNM : |(N : Int) ^ e| ≤ env.M := by
    rw [abs_of_nonneg (by positivity)]; exact le_trans hN53 hM53
  have ri : ∀ j : Nat, j ≤ 2 ^ 53 → ratOfIndex env j = .ok ⟨j, 1⟩ := by
    intro j hj
    have hj' : |(j : Int)| ≤ env.M := by
      rw [abs_of_nonneg (by positivity)]
      exact le_trans (by exact_mod_cast hj) hM53
    unfold ratOfIndex
    rw [wrap_of_range (inRange_of_abs hj'), Rational.ofInt_eq _ _ hj' hM]
  have hl1 : Nat.lcm (k * e) k = k * e := Nat.lcm_eq_left_iff_dvd.2 (Dvd.intro _ rfl)
  unfold mul lcmU
  simp only
  rw [hl1, if_pos (by
    have : ((k * e : Nat) : Int) ≤ 2 ^ 53 := by exact_mod_cast hq53
    omega), Res.bind_ok, if_neg (by omega), Nat.div_self hq, q1, ri 1 (by norm_num), Res.bind_ok,
    Rational.pow_low hp one_ne_zero one_pos (by simp) (by norm_num) (by norm_num) (by norm_num), Res.bind_ok, ri e he53, Res.bind_ok,
    Rational.pow_low hp he.ne' one_pos (by simp) (by exact_mod_cast he53) (by rw [abs_of_nonneg (by positivity)]; exact hN53) (by norm_num),
    Res.bind_ok]
  simp only [one_pow]
  rw [Rational.mul_int hM (by simpa using hM) hNM (by rwa [one_mul]), Res.bind_ok, Rational.one_mul' hM hf h0, Res.bind_ok, one_mul]
  have hNp : 0 < N ^ e := pow_pos sm.1 e
  have ho := outer_pow_simplest sm he
  obtain ⟨r', hr', nf⟩ := (normInt_norm hg (k * e) (N ^ e) hq hNp hNB c h0.ne').defined (by
    rw [ho]
    exact ⟨by simpa using hf.1, hf.2⟩)
  rw [← normalize_int] at hr'
  push_cast at hr'
  rw [hr']
  have hv : r'.val = Real.val ⟨k, ⟨N, 1⟩, c⟩ := by
    rw [nf.val]
    have v1 := val_mk (k * e) (N ^ e) 1 c
    have v2 := val_mk k N 1 c
    simp only [Nat.cast_one, div_one] at v1 v2
    rw [v1, v2]
    congr 1
    have := rpow_root (N := N) (A := N ^ e) (k := k * e) (g := e) hq (Dvd.intro_left _ rfl) rfl he
    rw [Nat.mul_div_cancel _ he] at this
    exact this.symm
  obtain ⟨u1, u2, u3⟩ := (canon_unique nf.canon hrc).1 hv
  have u4 : r'.coe = c := Rational.ext_lowest (nf.sign h0) h0 (nf.lowest hl) hl u1
  obtain ⟨k', rad', c'⟩ := r'
  simp only at u2 u3 u4
  rw [u2, u3, u4]

/-- a fractional power of a positive fraction returns the normal form of its value. -/
theorem pow_surd (hg : env.Good B) (hB : 1 ≤ B) {n d m q : Nat} (hn : 0 < n) (hd : 0 < d) (hc : Nat.Coprime n d) (hm : 0 < m)
    (hq : 0 < q) (hmq : Nat.Coprime m q) (hm53 : m ≤ 2 ^ 53) (hq53 : q ≤ 2 ^ 53) (hN : cleared q (n ^ m) (d ^ m) ≤ B)
    (hD : (d ^ m) ^ q ≤ B) :
    ∃ r, pow env (ofRat ⟨n, d⟩) ⟨m, q⟩ = .ok r ∧ r.Canon ∧ r.val = ((n : ℝ) / d) ^ ((m : ℝ) / q) ∧ 0 < r.coe.den ∧ r.coe.Lowest ∧
      |r.coe.num| ≤ cleared q (n ^ m) (d ^ m) ∧ r.coe.den ≤ (d : Int) ^ m ∧ r.rad.num ≤ B ∧ r.index ∣ q ∧
      r.rad.num ^ (q / r.index) ≤ cleared q (n ^ m) (d ^ m) := by
  have hp := hg.powOk hB
  have hM := hp.hM
  have hM53 := hp.hM53
  have hnp : 0 < n ^ m := pow_pos hn m
  have hdp : 0 < d ^ m := pow_pos hd m
  have hnB : n ^ m ≤ B := le_trans (Nat.le_mul_of_pos_right _ (by positivity)) hN
  have hdB : d ^ m ≤ B := le_trans (Nat.le_self_pow hq.ne' _) hD
  have hn53 : ((n : Int) ^ m) ≤ 2 ^ 53 := by exact_mod_cast hg.le53 hnB
  have hd53 : ((d : Int) ^ m) ≤ 2 ^ 53 := by exact_mod_cast hg.le53 hdB
  have hd' : (0 : Int) < d := by exact_mod_cast hd
  have hg1 : Int.gcd (n : Int) (d : Int) = 1 := hc
  have hmM : |(m : Int)| ≤ env.M := by
    rw [abs_of_nonneg (by positivity)]; exact le_trans (by exact_mod_cast hm53) hM53
  have hqM : |(q : Int)| ≤ env.M := by
    rw [abs_of_nonneg (by positivity)]; exact le_trans (by exact_mod_cast hq53) hM53
  have hpw := Rational.pow_low hp (a := n) (b := d) hm.ne' hd' hg1 (by exact_mod_cast hm53)
    (by rw [abs_of_nonneg (by positivity)]; exact hn53) hd53
  by_cases hq1 : q = 1
  · subst hq1
    refine ⟨ofRat ⟨(n : Int) ^ m, (d : Int) ^ m⟩, ?_, ?_, ?_, pow_pos hd' m, ?_, ?_, le_rfl, ?_, one_dvd _, ?_⟩
    · exact pow_ofRat hp hd' hg1 (by exact_mod_cast hm53) (by rw [abs_of_nonneg (by positivity)]; exact hn53) hd53
    · refine ⟨1, rfl, ?_, (pow_pos hd' m).ne', fun _ => rfl⟩
      exact (simplest_iff 1 1 (by omega) (by omega)).2 ⟨by simp, fun d h _ => Nat.dvd_one.1 h⟩
    · rw [Nat.cast_one, div_one, Real.rpow_natCast, div_pow]
      simp [ofRat, Real.val, Rational.val]
    · exact Int.isCoprime_iff_gcd_eq_one.1 ((Int.isCoprime_iff_gcd_eq_one.2 hg1).pow)
    · show |(n : Int) ^ m| ≤ ((n ^ m * (d ^ m) ^ (1 - 1) : Nat) : Int)
      rw [abs_of_nonneg (by positivity)]; simp
    · show (1 : Int) ≤ B
      exact_mod_cast hB
    · have : 0 < cleared 1 (n ^ m) (d ^ m) := by unfold cleared; positivity
      show (1 : Int) ^ (1 / 1) ≤ _
      rw [one_pow]
      exact_mod_cast this
  have hf : Rational.Fits env.M ⟨(m : Int), (q : Int)⟩ := ⟨hmM, hqM⟩
  have hne : (m : Int) ≠ q := by
    intro e
    have e : m = q := by exact_mod_cast e
    subst e
    exact hq1 ((Nat.coprime_self m).1 hmq)
  obtain ⟨r, r1, r2, r3, r4, r5, r6⟩ := root_norm hg q (n ^ m) (d ^ m) hq hnp hdp hN hD
  have hmod : ((q : Int) % (2 * (env.M + 1))).toNat = q := by
    have h1 : (q : Int) ≤ 2 ^ 53 := by exact_mod_cast hq53
    rw [Int.emod_eq_of_lt (by positivity) (by omega)]
    exact Int.toNat_natCast _
  have hrB : r.coe.den ≤ B := le_trans r6 (by exact_mod_cast hdB)
  have hfit : r.coe.Fits env.M := by
    have hBM : (B : Int) ≤ env.M := hg.leM le_rfl
    exact ⟨le_trans (le_trans r5 (by exact_mod_cast hN)) hBM, by rw [abs_of_pos r3]; exact le_trans hrB hBM⟩
  have hsm : r.rad.num ^ (q / r.index) ≤ (B : Int) := le_trans r2.small (by exact_mod_cast hN)
  have him := index_mul hg hB r2.canon r3 r4 hfit r2.index hq hq53 hsm
  have hrad : r.rad.num ≤ B := by
    obtain ⟨N, e, sm, -⟩ := r2.canon
    rw [e] at hsm ⊢
    have he : q / r.index ≠ 0 := (Nat.div_pos (Nat.le_of_dvd hq r2.index) sm.2.1).ne'
    refine le_trans ?_ hsm
    show (N : Int) ≤ (N : Int) ^ (q / r.index)
    exact_mod_cast Nat.le_self_pow he N
  refine ⟨r, ?_, r2.canon, ?_, r3, r4, r5, by exact_mod_cast r6, hrad, r2.index, r2.small⟩
  · rw [pow_pos' hM _ _ hf (by simp only; exact_mod_cast hm) hne]
    unfold powPos ofRat
    simp only
    rw [show (Rational.isInt ⟨(m : Int), (q : Int)⟩) = false by simp [Rational.isInt]; exact_mod_cast hq1]
    simp only [Bool.false_eq_true, if_false]
    have h1 := Rational.pow_low hp (a := 1) (b := 1) hm.ne' one_pos (by simp) (by exact_mod_cast hm53) (by simp) (by simp)
    simp only [one_pow] at h1
    rw [Rational.ofInt_eq env.M m hmM hM, Res.bind_ok, h1, Res.bind_ok,
      Env.noWrap_ok _ (b := (0 ≤ ((1 : Nat) : Int) * (q : Int) ∧ ((1 : Nat) : Int) * (q : Int) ≤ 2 * env.M + 1)) (by
        have : (q : Int) ≤ 2 ^ 53 := by exact_mod_cast hq53
        push_cast
        exact ⟨by positivity, by omega⟩), Res.bind_ok, hpw, Res.bind_ok,
      Rational.ofInt_eq env.M 1 (by simpa using hM) hM, Res.bind_ok, Nat.cast_one, one_mul, hmod]
    unfold mk3
    push_cast at r1
    rw [r1, Res.bind_ok, him, Res.bind_ok]
    exact normalize_canon hg r2.canon hrad hfit
  · rw [r2.val]
    have v := val_mk q (n ^ m) (d ^ m) ⟨1, 1⟩
    rw [v]
    simp only [Rational.val]
    push_cast
    rw [div_one, one_mul, ← div_pow, ← Real.rpow_natCast, ← Real.rpow_mul (by positivity)]
    congr 1
    ring

/-- multiplying a normal form with an integer. -/
theorem mul_int_canon (hg : env.Good B) (hB : 1 ≤ B) {i N : Nat} {c c' : Rational} {k : Int} (hr : Canon ⟨i, ⟨N, 1⟩, c'⟩)
    (hi : i ≤ 2 ^ 53) (hN : N ≤ B) (hf : c'.Fits env.M) (he : Rational.mul env.M c ⟨k, 1⟩ = .ok c') :
    mul env ⟨i, ⟨N, 1⟩, c⟩ (int k) = .ok ⟨i, ⟨N, 1⟩, c'⟩ := by
  have hp := hg.powOk hB
  have hM := hp.hM
  have hM53 := hp.hM53
  have hi0 : 0 < i := by obtain ⟨_, -, sm, -⟩ := hr; exact sm.2.1
  have hN53 : (N : Int) ≤ 2 ^ 53 := by exact_mod_cast hg.le53 hN
  have hNM : |(N : Int)| ≤ env.M := by rw [abs_of_nonneg (by positivity)]; exact le_trans hN53 hM53
  have ri : ∀ j : Nat, j ≤ 2 ^ 53 → ratOfIndex env j = .ok ⟨j, 1⟩ := by
    intro j hj
    have hj' : |(j : Int)| ≤ env.M := by
      rw [abs_of_nonneg (by positivity)]
      exact le_trans (by exact_mod_cast hj) hM53
    unfold ratOfIndex
    rw [wrap_of_range (inRange_of_abs hj'), Rational.ofInt_eq _ _ hj' hM]
  unfold mul lcmU int
  simp only
  rw [Nat.lcm_one_right, if_pos (by
    have : (i : Int) ≤ 2 ^ 53 := by exact_mod_cast hi
    omega), Res.bind_ok, if_neg (by omega), Nat.div_self hi0, Nat.div_one, ri 1 (by norm_num), Res.bind_ok,
    Rational.pow_low hp one_ne_zero one_pos (by simp) (by norm_num) (by rw [pow_one, abs_of_nonneg (by positivity)]; exact hN53) (by norm_num),
    Res.bind_ok, ri i hi, Res.bind_ok,
    Rational.pow_low hp hi0.ne' one_pos (by simp) (by exact_mod_cast hi) (by simp) (by simp), Res.bind_ok]
  simp only [one_pow, pow_one]
  rw [Rational.mul_int hM hNM (by simpa using hM) (by rwa [mul_one]), Res.bind_ok, he, Res.bind_ok, mul_one]
  exact normalize_canon hg hr (by show (N : Int) ≤ B; exact_mod_cast hN) hf

end Real
end Symxx.Num

namespace Symxx.Sym
open Symxx.Num
namespace Frac
variable {env : FEnv} {B : Nat}

/-- the fraction `a N^(1/i) / b`. -/
def surd (a : Int) (i N : Nat) (b : Int) : Frac := ⟨[Term.ofReal ⟨i, ⟨N, 1⟩, ⟨a, 1⟩⟩], [Term.con b]⟩

variable (hs : SortOk env.sort) (ht : Poly.SortTotal env) (h1 : SortOne env)
include hs ht h1

theorem ofReal_surd (hg : env.toEnv.Good B) (hB : 1 ≤ B) {i N : Nat} {a b : Int} (hr : Real.Canon ⟨i, ⟨N, 1⟩, ⟨a, b⟩⟩)
    (hi : i ≤ 2 ^ 53) (hN : N ≤ B) (ha : |a| ≤ B) (hb : b ≤ B) (hb0 : 0 < b) (hl : Int.gcd a b = 1) :
    ofReal env ⟨i, ⟨N, 1⟩, ⟨a, b⟩⟩ = .ok (surd a i N b) := by
  have hp := hg.powOk hB
  have h := hp.toIntOk
  have hM := h.hM
  have hBM : (B : Int) ≤ env.M := hg.leM le_rfl
  have haM := le_trans ha hBM
  have hbM := le_trans hb hBM
  have ab : |b| ≤ env.M := by rwa [abs_of_pos hb0]
  have a1 := Real.abs1 h
  have nrm := normalize_single h hs ht h1
  have hc1 : Real.Canon ⟨i, ⟨N, 1⟩, ⟨a, 1⟩⟩ := by
    obtain ⟨N', e, sm, -, z⟩ := hr
    exact ⟨N', e, sm, one_ne_zero, z⟩
  have hf1 : Rational.Fits env.M ⟨a, 1⟩ := ⟨haM, by simpa using hM⟩
  have tm : Term.mul env.toEnv (Term.ofReal ⟨i, ⟨N, 1⟩, ⟨a, b⟩⟩) (Term.con b) = .ok (Term.ofReal ⟨i, ⟨N, 1⟩, ⟨a, 1⟩⟩) := by
    unfold Term.mul Term.con
    simp only [Term.ofReal]
    have : Syms.merge env.M [] [] = .ok [] := by unfold Syms.merge; rfl
    rw [this, Res.bind_ok, Real.mul_int_canon hg hB hc1 hi hN hf1 (Rational.mul_den_cancel hM haM hbM hb0), Res.bind_ok]
    unfold Syms.dropZero
    rfl
  have td : Term.divReal env.toEnv (Term.ofReal ⟨i, ⟨N, 1⟩, ⟨a, 1⟩⟩) (Real.int 1) = .ok (Term.ofReal ⟨i, ⟨N, 1⟩, ⟨a, 1⟩⟩) := by
    unfold Term.divReal Real.div
    simp only [Term.ofReal]
    have hinv : Real.inverse env.toEnv (Real.int 1) = .ok (Real.int 1) := by
      unfold Real.inverse Real.int
      simp only
      rw [Rational.inverse_pos hM hM one_pos, Res.bind_ok, Res.bind_ok]
    rw [hinv, Res.bind_ok,
      Real.mul_int_canon hg hB hc1 hi hN hf1 (Rational.mul_den_cancel hM haM hM one_pos), Res.bind_ok]
    unfold Syms.dropZero
    rfl
  have s1 : scaleAll env.toEnv b [Term.ofReal ⟨i, ⟨N, 1⟩, ⟨a, b⟩⟩] = .ok [Term.ofReal ⟨i, ⟨N, 1⟩, ⟨a, 1⟩⟩] := by
    unfold scaleAll Poly.mapM Term.ofInt
    rw [Real.ofInt_int h ab, Res.bind_ok, Res.bind_ok]
    unfold Poly.mapM
    rw [show Term.ofReal (Real.int b) = Term.con b from rfl, tm]
    rfl
  have s2 : scaleAll env.toEnv b [Term.con 1] = .ok [Term.con b] := by
    have e : Term.mul env.toEnv (Term.con 1) (Term.con b) = .ok (Term.con b) := by
      unfold Term.mul Term.con
      simp only [Term.ofReal]
      have : Syms.merge env.M [] [] = .ok [] := by unfold Syms.merge; rfl
      have e := Rational.mul_int hM a1 ab (by rwa [one_mul])
      rw [one_mul] at e
      have e' : Real.mul env.toEnv (Real.int 1) (Real.int b) = .ok (Real.int b) := Real.mul_ofRat h e ⟨ab, by simpa using hM⟩
      rw [this, Res.bind_ok, e', Res.bind_ok]
      unfold Syms.dropZero
      rfl
    unfold scaleAll Poly.mapM Term.ofInt
    rw [Real.ofInt_int h ab, Res.bind_ok, Res.bind_ok]
    unfold Poly.mapM
    rw [show Term.ofReal (Real.int b) = Term.con b from rfl, e]
    rfl
  have hi1 : Poly.IntLe 0 [Term.con 1] := Poly.intLe_cons.2 ⟨Term.intLe_ofInt 0 1, Poly.intLe_nil 0⟩
  have m1 : multLoop env.M [Term.ofReal ⟨i, ⟨N, 1⟩, ⟨a, b⟩⟩] 1 = .ok b := by
    unfold multLoop
    show (chk env.M (1 * b) >>= _) = _
    rw [one_mul, chk_ok (inRange_of_abs ab), Res.bind_ok]
    rfl
  have tT : ∀ k : Int, |k| ≤ env.M → Rational.toT env.M ⟨k, 1⟩ = .ok k := fun k hk =>
    divT_ok.2 ⟨one_ne_zero, by simp only [Int.tdiv_one]; exact inRange_of_abs hk, by simp⟩
  unfold ofReal ofTerm ofPoly onePoly Term.ofInt Poly.mk'
  rw [nrm, Res.bind_ok, Real.ofInt_int h (Real.abs1 h), Res.bind_ok, Res.bind_ok, nrm, Res.bind_ok]
  unfold normalize
  simp only
  rw [nrm, Res.bind_ok, nrm, Res.bind_ok, show Term.ofReal (Real.int 1) = Term.con 1 from rfl, multLoop_int hM hi1, Res.bind_ok, m1,
    Res.bind_ok, s1, Res.bind_ok, s2, Res.bind_ok]
  simp only
  have g1 : gcdT env.M a b = .ok 1 := gcdT_ok.2 ⟨⟨haM, ab⟩, by rw [hl]; rfl⟩
  have g2 : ∀ g, gcdOuter env.M [Term.con b] [Term.ofReal ⟨i, ⟨N, 1⟩, ⟨a, 1⟩⟩] g = .ok (some g) := fun _ => rfl
  have t1 : Rational.toT env.M (Term.ofReal ⟨i, ⟨N, 1⟩, ⟨a, 1⟩⟩).coe.coe = .ok a := tT a haM
  have t2 : Rational.toT env.M (Term.con b).coe.coe = .ok b := tT b ab
  rw [t1, Res.bind_ok, t2, Res.bind_ok, g1, Res.bind_ok, g2, Res.bind_ok]
  simp only
  rw [Real.ofInt_int h a1, Res.bind_ok]
  have d1 : Poly.divReal env [Term.ofReal ⟨i, ⟨N, 1⟩, ⟨a, 1⟩⟩] (Real.int 1) = .ok [Term.ofReal ⟨i, ⟨N, 1⟩, ⟨a, 1⟩⟩] := by
    unfold Poly.divReal Poly.mapM
    rw [td, Res.bind_ok]
    unfold Poly.mapM
    rw [Res.bind_ok, Res.bind_ok]
    exact nrm _
  have d2 : Poly.divReal env [Term.con b] (Real.int 1) = .ok [Term.con b] := by
    unfold Poly.divReal
    rw [div_single h ab one_pos hM (one_dvd b), Res.bind_ok, Int.ediv_one]
    exact nrm _
  rw [d1, Res.bind_ok, d2, Res.bind_ok]
  rfl

omit hs ht h1 in
/-- the rational number that a fraction of two integers evaluates to. -/
theorem tryEval_quo (h : env.toEnv.IntOk) {j k : Int} (hj : |j| ≤ env.M) (hk : k ≤ env.M) (hk0 : 0 < k) :
    tryEval env (quo j k) = .ok (some (Real.ofRat ⟨j / (Int.gcd j k : Int), k / (Int.gcd j k : Int)⟩)) := by
  have ak : |k| ≤ env.M := by rwa [abs_of_pos hk0]
  unfold tryEval quo
  simp only
  rw [tryEval_single h hj, Res.bind_ok, tryEval_single h ak, Res.bind_ok]
  simp only
  rw [Real.div_ints h hj hk hk0, Res.bind_ok]

/-- fractional powers. -/
theorem pow_quo_surd' (hg : env.toEnv.Good B) (hB : 1 ≤ B) {j k : Int} {n d m q : Nat} (hj : |j| ≤ env.M) (hk : k ≤ env.M)
    (hk0 : 0 < k) (hv : (j : ℝ) / k = (n : ℝ) / d) (hn : 0 < n) (hd : 0 < d) (hc : Nat.Coprime n d) (hm : 0 < m) (hq : 0 < q)
    (hmq : Nat.Coprime m q) (hm53 : m ≤ 2 ^ 53) (hq53 : q ≤ 2 ^ 53) (hN : n ^ m * (d ^ m) ^ (q - 1) ≤ B) (hD : (d ^ m) ^ q ≤ B) :
    ∃ a b i N, pow env (quo j k) ⟨m, q⟩ = .ok (surd a i N b) ∧ 0 < a ∧ 0 < b ∧ Int.gcd a b = 1 ∧ Simplest N i ∧
      (a : ℝ) / b * (N : ℝ) ^ ((1 : ℝ) / i) = ((n : ℝ) / d) ^ ((m : ℝ) / q) ∧
      a ≤ (n : Int) ^ m * ((d : Int) ^ m) ^ (q - 1) ∧ b ≤ (d : Int) ^ m ∧ N ≤ B ∧ i ∣ q ∧ N ^ (q / i) ≤ n ^ m * (d ^ m) ^ (q - 1) := by
  have hp := hg.powOk hB
  have h := hp.toIntOk
  have hd' : (0 : ℝ) < d := by exact_mod_cast hd
  have hk' : (0 : ℝ) < k := by exact_mod_cast hk0
  have er : (⟨j / (Int.gcd j k : Int), k / (Int.gcd j k : Int)⟩ : Rational) = ⟨n, d⟩ := by
    obtain ⟨r1, r2, r3, r4, r5⟩ := red_facts (n := j) hk0.ne'
    have bp : 0 < k / (Int.gcd j k : Int) := lt_of_le_of_ne (Int.ediv_nonneg hk0.le (by positivity)) r1.symm
    refine Rational.ext_lowest bp (by simp only; exact_mod_cast hd) r5 hc ?_
    generalize j / (Int.gcd j k : Int) = a at *
    generalize k / (Int.gcd j k : Int) = b at *
    have b0 : (b : ℝ) ≠ 0 := by exact_mod_cast bp.ne'
    have : (a : ℝ) / b = (n : ℝ) / d := by
      rw [← hv, div_eq_div_iff b0 hk'.ne']
      exact_mod_cast r4.symm
    have : ((Rational.val ⟨a, b⟩ : ℚ) : ℝ) = ((Rational.val ⟨n, d⟩ : ℚ) : ℝ) := by
      simp only [Rational.val]
      push_cast
      exact this
    exact_mod_cast this
  obtain ⟨⟨i, rad, ⟨a, b⟩⟩, p1, p2, p3, p4, p5, p6, p7, p8, p9, p10⟩ :=
    Real.pow_surd hg hB hn hd hc hm hq hmq hm53 hq53 hN hD
  have hcan := p2
  obtain ⟨N, e, sm, -, -⟩ := p2
  simp only at e sm p4 p5 p6 p7 p8 p9 p10
  subst e
  have p8 : (N : Int) ≤ B := p8
  have hNB : N ≤ B := by exact_mod_cast p8
  have hval : (a : ℝ) / b * (N : ℝ) ^ ((1 : ℝ) / i) = ((n : ℝ) / d) ^ ((m : ℝ) / q) := by
    rw [← p3]
    have v := Real.val_mk i N 1 ⟨a, b⟩
    simp only [Nat.cast_one, div_one] at v
    rw [v]
    simp [Rational.val]
  have hapos : 0 < a := by
    have h1 : (0 : ℝ) < ((n : ℝ) / d) ^ ((m : ℝ) / q) := by positivity
    rw [← hval] at h1
    have h2 : (0 : ℝ) < (N : ℝ) ^ ((1 : ℝ) / i) := Real.rpow_pos_of_pos (by exact_mod_cast sm.1) _
    have h3 : (0 : ℝ) < (a : ℝ) / b := pos_of_mul_pos_left h1 h2.le
    have h4 : (0 : ℝ) < b := by exact_mod_cast p4
    exact_mod_cast (div_pos_iff_of_pos_right h4).1 h3
  refine ⟨a, b, i, N, ?_, hapos, p4, p5, sm, hval, by
    rw [abs_of_pos hapos] at p6; exact_mod_cast p6, p7, hNB, p9, by
    have p10 : (N : Int) ^ (q / i) ≤ ((n ^ m * (d ^ m) ^ (q - 1) : Nat) : Int) := p10
    exact_mod_cast p10⟩
  unfold pow
  rw [tryEval_quo h hj hk hk0, Res.bind_ok, er]
  simp only
  rw [p1, Res.bind_ok]
  refine ofReal_surd hs ht h1 hg hB hcan (le_trans (Nat.le_of_dvd hq p9) hq53) hNB ?_ ?_ p4 p5
  · exact le_trans p6 (by exact_mod_cast hN)
  · exact le_trans p7 (by exact_mod_cast le_trans (Nat.le_self_pow hq.ne' _) hD)

/-- fractional powers. -/
theorem pow_quo_surd (hg : env.toEnv.Good B) (hB : 1 ≤ B) {j k : Int} {n d m q : Nat} (hj : |j| ≤ env.M) (hk : k ≤ env.M)
    (hk0 : 0 < k) (hv : (j : ℝ) / k = (n : ℝ) / d) (hn : 0 < n) (hd : 0 < d) (hc : Nat.Coprime n d) (hm : 0 < m) (hq : 0 < q)
    (hmq : Nat.Coprime m q) (hm53 : m ≤ 2 ^ 53) (hq53 : q ≤ 2 ^ 53) (hN : n ^ m * (d ^ m) ^ (q - 1) ≤ B) (hD : (d ^ m) ^ q ≤ B) :
    ∃ a b i N, pow env (quo j k) ⟨m, q⟩ = .ok (surd a i N b) ∧ 0 < a ∧ 0 < b ∧ Int.gcd a b = 1 ∧ Simplest N i ∧
      (a : ℝ) / b * (N : ℝ) ^ ((1 : ℝ) / i) = ((n : ℝ) / d) ^ ((m : ℝ) / q) ∧ a ≤ B ∧ b ≤ B ∧ N ≤ B ∧ i ≤ 2 ^ 53 := by
  obtain ⟨a, b, i, N, p1, p2, p3, p4, p5, p6, p7, p8, p9, p10, -⟩ :=
    pow_quo_surd' hs ht h1 hg hB hj hk hk0 hv hn hd hc hm hq hmq hm53 hq53 hN hD
  refine ⟨a, b, i, N, p1, p2, p3, p4, p5, p6, le_trans p7 (by exact_mod_cast hN), le_trans p8 ?_, p9,
    le_trans (Nat.le_of_dvd hq p10) hq53⟩
  exact_mod_cast le_trans (Nat.le_self_pow hq.ne' _) hD

end Frac
end Symxx.Sym
