import Verif.Frac.QuotFrac
import Verif.Num.RealPowTop
/-!
# Natural powers of fractions of two integers
-/
namespace Symxx.Num

namespace Rational

/-- fractions over a positive denominator, without common factor. -/
theorem inverse_pos {M k : Int} (hM : 1 ≤ M) (hk : k ≤ M) (hk0 : 0 < k) : inverse M ⟨k, 1⟩ = .ok ⟨1, k⟩ := by
  unfold inverse mk2
  simp only
  rw [show decide (k ≠ 0) = true by simpa using hk0.ne', Res.assert_true, Res.bind_ok,
    normalize_eq M 1 k (by simpa using hM) (by rwa [abs_of_pos hk0]) hk0.ne']
  simp only [Int.one_gcd, Nat.cast_one, Int.tdiv_one]
  rw [if_neg (by omega)]

theorem mul_inv {M j k : Int} (hM : 1 ≤ M) (hj : |j| ≤ M) (hk : k ≤ M) (hk0 : 0 < k) :
    mul M ⟨j, 1⟩ ⟨1, k⟩ = .ok ⟨j / (Int.gcd j k : Int), k / (Int.gcd j k : Int)⟩ := by
  have ak : |k| ≤ M := by rwa [abs_of_pos hk0]
  have gp : 0 < (Int.gcd j k : Int) := by exact_mod_cast Int.gcd_pos_iff.2 (Or.inr hk0.ne')
  obtain ⟨a, ha⟩ := Int.gcd_dvd_left j k
  obtain ⟨b, hb⟩ := Int.gcd_dvd_right j k
  have q1 : gcdT M j k = .ok (Int.gcd j k : Int) := gcdT_ok.2 ⟨⟨hj, ak⟩, rfl⟩
  have q2 : gcdT M 1 1 = .ok 1 := gcdT_ok.2 ⟨⟨by simpa using hM, by simpa using hM⟩, by simp⟩
  generalize (Int.gcd j k : Int) = g at *
  have ga : |a| ≤ |j| := by
    rw [ha, abs_mul]; exact le_mul_of_one_le_left (abs_nonneg _) (by rw [abs_of_pos gp]; omega)
  have gb : |b| ≤ |k| := by
    rw [hb, abs_mul]; exact le_mul_of_one_le_left (abs_nonneg _) (by rw [abs_of_pos gp]; omega)
  have b0 : b ≠ 0 := fun e => hk0.ne' (by rw [hb, e, mul_zero])
  have d1 : divT M j g = .ok a := divT_ok.2 (by
    rw [ha, Int.mul_tdiv_cancel_left _ gp.ne']
    exact ⟨gp.ne', inRange_of_abs (by omega), rfl⟩)
  have d2 : divT M k g = .ok b := divT_ok.2 (by
    rw [hb, Int.mul_tdiv_cancel_left _ gp.ne']
    exact ⟨gp.ne', inRange_of_abs (by omega), rfl⟩)
  have d3 : divT M 1 1 = .ok 1 := divT_ok.2 ⟨one_ne_zero, inRange_of_abs (by simpa using hM), by simp⟩
  have e1 : j / g = a := by rw [ha, Int.mul_ediv_cancel_left _ gp.ne']
  have e2 : k / g = b := by rw [hb, Int.mul_ediv_cancel_left _ gp.ne']
  rw [e1, e2]
  unfold mul
  simp only
  rw [q1, Res.bind_ok, q2, Res.bind_ok, d1, Res.bind_ok, d3, Res.bind_ok,
    chk_ok (inRange_of_abs (by rw [mul_one]; omega)), Res.bind_ok, Res.bind_ok, d2,
    Res.bind_ok, chk_ok (inRange_of_abs (by rw [one_mul]; omega)), Res.bind_ok,
    show decide (1 * b ≠ 0) = true by simpa using b0, Res.assert_true, Res.bind_ok, mul_one, one_mul]

theorem mul_den_cancel {M a b : Int} (hM : 1 ≤ M) (ha : |a| ≤ M) (hb : b ≤ M) (hb0 : 0 < b) : mul M ⟨a, b⟩ ⟨b, 1⟩ = .ok ⟨a, 1⟩ := by
  have ab : |b| ≤ M := by rwa [abs_of_pos hb0]
  have a1 : |(1 : Int)| ≤ M := by simpa using hM
  have q1 : gcdT M a 1 = .ok 1 := gcdT_ok.2 ⟨⟨ha, a1⟩, by simp⟩
  have q2 : gcdT M b b = .ok b := gcdT_ok.2 ⟨⟨ab, ab⟩, by
    rw [Int.gcd_self]; omega⟩
  have d1 : divT M a 1 = .ok a := divT_ok.2 ⟨one_ne_zero, inRange_of_abs (by simpa using ha), by simp⟩
  have d2 : divT M b b = .ok 1 := divT_ok.2 ⟨hb0.ne', by rw [Int.tdiv_self hb0.ne']; exact inRange_of_abs a1,
    (Int.tdiv_self hb0.ne').symm⟩
  have d3 : divT M 1 1 = .ok 1 := divT_ok.2 ⟨one_ne_zero, inRange_of_abs (by simpa using hM), by simp⟩
  unfold mul
  simp only
  rw [q1, Res.bind_ok, q2, Res.bind_ok, d1, Res.bind_ok, d2, Res.bind_ok, chk_ok (inRange_of_abs (by rwa [mul_one])), Res.bind_ok,
    Res.bind_ok, d3, Res.bind_ok, chk_ok (inRange_of_abs (by rwa [mul_one])), Res.bind_ok]
  simp [Res.assert_true]

theorem normalize_low {M a b : Int} (ha : |a| ≤ M) (hb : b ≤ M) (hb0 : 0 < b) (hg : Int.gcd a b = 1) : normalize M ⟨a, b⟩ = .ok ⟨a, b⟩ := by
  rw [normalize_eq M a b ha (by rwa [abs_of_pos hb0]) hb0.ne', hg]
  simp only [Nat.cast_one, Int.tdiv_one]
  rw [if_neg (by omega)]

end Rational

namespace Real

/-- the rational number `c`. -/
def ofRat (c : Rational) : Real := ⟨1, ⟨1, 1⟩, c⟩

variable {env : Env} (h : env.IntOk)
include h

theorem normalize_ofRat {c : Rational} (hc : c.Fits env.M) : normalize env (ofRat c) = .ok (ofRat c) := by
  unfold normalize ofRat decompose
  have e1 : (!(Rational.isInt ⟨1, 1⟩)) = false := rfl
  simp only [e1, Bool.false_eq_true, if_false, Res.bind_ok, h.fac1, runLoop, stripAll, ne_eq, not_true_eq_false]
  have e2 : gExp env 1 [] = 1 := by unfold gExp; simp
  rw [e2]
  simp only [not_true_eq_false, if_false, Res.bind_ok]
  rw [Rational.eqInt_int h.hM (abs1 h) (abs1 h), Res.bind_ok, Rational.eqInt_spec env.M c 0 h.hM (by norm_num) hc, Res.bind_ok]
  by_cases hk0 : c.num = 0
  · simp [Rational.ofInt_eq env.M 1 (abs1 h) h.hM, hk0]
  · simp [hk0]

theorem mul_ofRat {a b c : Rational} (he : Rational.mul env.M a b = .ok c) (hc : c.Fits env.M) : mul env (ofRat a) (ofRat b) = .ok (ofRat c) := by
  unfold mul ofRat lcmU ratOfIndex
  have hM := h.hM
  have h1 : ((Nat.lcm 1 1 : Nat) : Int) ≤ 2 * env.M + 1 := by simp; omega
  have hw : wrap env.M ((1 / 1 : Nat) : Int) = 1 := wrap_of_range (inRange_of_abs (by simpa using hM))
  have hl : Nat.lcm 1 1 = 1 := rfl
  have hp : Rational.pow env.M env.fl ⟨1, 1⟩ ⟨1, 1⟩ = .ok ⟨1, 1⟩ := by
    unfold Rational.pow
    rw [Rational.eqInt_int h.hM (abs1 h) (abs0 h), Res.bind_ok]
    simp only [one_ne_zero, decide_false, Bool.false_eq_true, if_false]
    rw [Rational.eqInt_int h.hM (abs1 h) (abs1 h), Res.bind_ok]
    simp
  simp only
  rw [if_pos h1, Res.bind_ok, if_neg (by norm_num), hl, hw, Rational.ofInt_eq _ _ (abs1 h) h.hM, Res.bind_ok, hp]
  simp only [Res.bind_ok, hp]
  rw [Rational.mul_int h.hM (abs1 h) (abs1 h) (by simpa using hM), Res.bind_ok, he, Res.bind_ok]
  exact normalize_ofRat h hc

theorem div_ints {j k : Int} (hj : |j| ≤ env.M) (hk : k ≤ env.M) (hk0 : 0 < k) :
    div env (int j) (int k) = .ok (ofRat ⟨j / (Int.gcd j k : Int), k / (Int.gcd j k : Int)⟩) := by
  have hM := h.hM
  obtain ⟨-, r2, r3, -, -⟩ := Sym.Frac.red_facts (n := j) hk0.ne'
  unfold div inverse int
  simp only
  rw [Rational.inverse_pos hM hk hk0, Res.bind_ok, Rational.inverse_pos hM hM one_pos, Res.bind_ok, Res.bind_ok]
  exact mul_ofRat h (a := ⟨j, 1⟩) (b := ⟨1, k⟩) (Rational.mul_inv hM hj hk hk0)
    ⟨le_trans r2 hj, le_trans r3 (by rwa [abs_of_pos hk0])⟩

omit h in
theorem pow_ofRat (h : env.PowOk) {a b : Int} {n : Nat} (hb0 : 0 < b) (hg : Int.gcd a b = 1) (hn : (n : Int) ≤ 2 ^ 53)
    (ha : |a ^ n| ≤ 2 ^ 53) (hb : b ^ n ≤ 2 ^ 53) :
    pow env (ofRat ⟨a, b⟩) ⟨n, 1⟩ = .ok (ofRat ⟨a ^ n, b ^ n⟩) := by
  have h' := h.toIntOk
  have hM := h.hM
  have hM53 := h.hM53
  have hnM : |(n : Int)| ≤ env.M := by rw [abs_of_nonneg (by positivity)]; omega
  have hbn : 0 < b ^ n := pow_pos hb0 n
  have hf : Rational.Fits env.M ⟨(n : Int), 1⟩ := ⟨hnM, by simpa using hM⟩
  by_cases e0 : n = 0
  · subst e0
    unfold pow powN
    simp only [Nat.cast_zero, pow_zero]
    rw [Rational.eqInt_int hM (abs0 h') (abs0 h'), Res.bind_ok]
    simp only [decide_true, if_true]
    exact ofInt_int h' (abs1 h')
  by_cases e1 : n = 1
  · subst e1
    rw [pow_one' hM _ _ (by exact_mod_cast hf) rfl one_ne_zero, pow_one, pow_one]
  have e0' : ¬ ((n : Int) = 0) := by exact_mod_cast e0
  have e1' : ¬ ((n : Int) = 1) := by exact_mod_cast e1
  rw [pow_pos' hM _ _ hf (by simp; omega) e1']
  have rp : ∀ {a b : Int}, 0 < b → Int.gcd a b = 1 → |a ^ n| ≤ 2 ^ 53 → b ^ n ≤ 2 ^ 53 →
      Rational.pow env.M env.fl ⟨a, b⟩ ⟨(n : Int), 1⟩ = .ok ⟨a ^ n, b ^ n⟩ := by
    intro a b hb0 hg ha hb
    have hbn : 0 < b ^ n := pow_pos hb0 n
    unfold Rational.pow
    rw [Rational.eqInt_int hM hnM (abs0 h'), Res.bind_ok]
    simp only [e0', decide_false, Bool.false_eq_true, if_false]
    rw [Rational.eqInt_int hM hnM (abs1 h'), Res.bind_ok]
    simp only [e1', decide_false, Bool.false_eq_true, if_false]
    have h53 : |(n : Int)| ≤ 2 ^ 53 := by rw [abs_of_nonneg (by positivity)]; exact hn
    rw [h.exact a n 1 n one_ne_zero (by ring) h53 (by norm_num) ha, Res.bind_ok,
      h.exact b n 1 n one_ne_zero (by ring) h53 (by norm_num) (by rwa [abs_of_pos hbn]), Res.bind_ok]
    refine Rational.normalize_low (le_trans ha hM53) (le_trans hb hM53) hbn ?_
    exact Int.isCoprime_iff_gcd_eq_one.1 ((Int.isCoprime_iff_gcd_eq_one.2 hg).pow)
  unfold powPos ofRat
  simp only
  rw [show (Rational.isInt ⟨(n : Int), 1⟩) = true from rfl, if_pos rfl, rp hb0 hg ha hb, Res.bind_ok,
    rp one_pos (by simp) (by simp) (by simp), Res.bind_ok]
  simp only [one_pow]
  exact normalize_ofRat h' ⟨le_trans ha hM53, by simp only; rw [abs_of_pos hbn]; exact le_trans hb hM53⟩

end Real
end Symxx.Num

namespace Symxx.Sym
open Symxx.Num
namespace Frac
variable {env : FEnv}

/-- sorting a list of one term returns. -/
def SortOne (env : FEnv) : Prop := ∀ t : Term, ∃ q, env.sort [t] = .ok q

variable (h : env.toEnv.IntOk) (hs : SortOk env.sort) (ht : Poly.SortTotal env) (h1 : SortOne env)
include h hs ht h1

theorem normalize_single (t : Term) : Poly.normalize env [t] = .ok [t] := by
  obtain ⟨q, hq⟩ := h1 t
  unfold Poly.normalize
  rw [hq, Res.bind_ok, List.perm_singleton.1 (hs _ _ hq)]
  unfold Poly.mergeAdj
  rfl

theorem normalize_ofRat {a b : Int} (ha : |a| ≤ env.M) (hb : b ≤ env.M) (hb0 : 0 < b) :
    normalize env ⟨[Term.ofReal (Real.ofRat ⟨a, b⟩)], [Term.con 1]⟩ = .ok (red a b) := by
  have hM := h.hM
  have ab : |b| ≤ env.M := by rwa [abs_of_pos hb0]
  have a1 := Real.abs1 h
  have nrm := normalize_single h hs ht h1
  have hi : ∀ k : Int, Poly.IntLe 0 [Term.con k] := fun k => Poly.intLe_cons.2 ⟨Term.intLe_ofInt 0 k, Poly.intLe_nil 0⟩
  have sc : ∀ {x y c : Rational}, Rational.mul env.M x y = .ok c → c.Fits env.M → y = ⟨b, 1⟩ →
      scaleAll env.toEnv b [Term.ofReal (Real.ofRat x)] = .ok [Term.ofReal (Real.ofRat c)] := by
    rintro x y c he hc rfl
    have e : Term.mul env.toEnv (Term.ofReal (Real.ofRat x)) (Term.con b) = .ok (Term.ofReal (Real.ofRat c)) := by
      unfold Term.mul Term.con
      simp only [Term.ofReal]
      have : Syms.merge env.M [] [] = .ok [] := by unfold Syms.merge; rfl
      rw [this, Res.bind_ok, show Real.int b = Real.ofRat ⟨b, 1⟩ from rfl, Real.mul_ofRat h he hc, Res.bind_ok]
      unfold Syms.dropZero
      rfl
    unfold scaleAll Poly.mapM Term.ofInt
    rw [Real.ofInt_int h ab, Res.bind_ok, Res.bind_ok]
    unfold Poly.mapM
    rw [show Term.ofReal (Real.int b) = Term.con b from rfl, e]
    rfl
  have key : normalize env ⟨[Term.ofReal (Real.ofRat ⟨a, b⟩)], [Term.con 1]⟩ = normalize env (quo a b) := by
    unfold normalize quo
    simp only
    rw [nrm, Res.bind_ok, nrm, Res.bind_ok, multLoop_int hM (hi 1), Res.bind_ok, nrm, Res.bind_ok, nrm, Res.bind_ok,
      multLoop_int hM (hi b), Res.bind_ok, multLoop_int hM (hi a), Res.bind_ok, scale_single h ha, Res.bind_ok, scale_single h ab,
      Res.bind_ok]
    have e1 : multLoop env.M [Term.ofReal (Real.ofRat ⟨a, b⟩)] 1 = .ok b := by
      unfold multLoop
      show (chk env.M (1 * b) >>= _) = _
      rw [one_mul, chk_ok (inRange_of_abs ab), Res.bind_ok]
      rfl
    have e2 := sc (x := ⟨a, b⟩) (Rational.mul_den_cancel hM ha hb hb0) ⟨ha, by simpa using hM⟩ rfl
    have e3 := sc (x := ⟨1, 1⟩) (Rational.mul_int hM a1 ab (by rwa [one_mul])) ⟨by rwa [one_mul], by simpa using hM⟩ rfl
    rw [one_mul] at e3
    have e3 : scaleAll env.toEnv b [Term.con 1] = .ok [Term.con b] := e3
    rw [e1, Res.bind_ok, e2, Res.bind_ok, e3, Res.bind_ok]
    rfl
  exact key.trans (normalize_quo h hs ht ha ab hb0.ne')

theorem ofReal_ofRat {a b : Int} (ha : |a| ≤ env.M) (hb : b ≤ env.M) (hb0 : 0 < b) (hg : Int.gcd a b = 1) :
    ofReal env (Real.ofRat ⟨a, b⟩) = .ok (quo a b) := by
  have nrm := normalize_single h hs ht h1
  unfold ofReal ofTerm ofPoly onePoly Term.ofInt Poly.mk'
  rw [nrm, Res.bind_ok, Real.ofInt_int h (Real.abs1 h), Res.bind_ok, Res.bind_ok, nrm, Res.bind_ok]
  refine (normalize_ofRat h hs ht h1 ha hb hb0).trans ?_
  simp [red, hg]

omit h in
/-- natural powers. -/
theorem pow_quo (h : env.toEnv.PowOk) {j k : Int} {n : Nat} (hj : |j| ≤ env.M) (hk : k ≤ env.M) (hk0 : 0 < k)
    (hn : (n : Int) ≤ 2 ^ 53) (hjn : |j| ^ n ≤ 2 ^ 53) (hkn : k ^ n ≤ 2 ^ 53) :
    ∃ a b, pow env (quo j k) ⟨n, 1⟩ = .ok (quo a b) ∧ 0 < b ∧ Int.gcd a b = 1 ∧ (a : ℝ) / b = ((j : ℝ) / k) ^ n ∧
      |a| ≤ |j| ^ n ∧ b ≤ k ^ n := by
  have h' := h.toIntOk
  have ak : |k| ≤ env.M := by rwa [abs_of_pos hk0]
  obtain ⟨r1, r2, r3, r4, r5⟩ := red_facts (n := j) hk0.ne'
  have bp : 0 < k / (Int.gcd j k : Int) := lt_of_le_of_ne (Int.ediv_nonneg hk0.le (by positivity)) r1.symm
  have e1 : tryEval env (quo j k) = .ok (some (Real.ofRat ⟨j / (Int.gcd j k : Int), k / (Int.gcd j k : Int)⟩)) := by
    unfold tryEval quo
    simp only
    rw [tryEval_single h' hj, Res.bind_ok, tryEval_single h' ak, Res.bind_ok]
    simp only
    rw [Real.div_ints h' hj hk hk0, Res.bind_ok]
  generalize j / (Int.gcd j k : Int) = a at *
  generalize k / (Int.gcd j k : Int) = b at *
  rw [abs_of_pos bp, abs_of_pos hk0] at r3
  have an : |a| ^ n ≤ |j| ^ n := pow_le_pow_left₀ (abs_nonneg _) r2 n
  have bn : b ^ n ≤ k ^ n := pow_le_pow_left₀ bp.le r3 n
  have hM53 := h.hM53
  have co : Int.gcd (a ^ n) (b ^ n) = 1 := Int.isCoprime_iff_gcd_eq_one.1 ((Int.isCoprime_iff_gcd_eq_one.2 r5).pow)
  have pr := Real.pow_ofRat h (a := a) (b := b) (n := n) bp r5 hn (by rw [abs_pow]; exact le_trans an hjn) (le_trans bn hkn)
  refine ⟨a ^ n, b ^ n, ?_, pow_pos bp n, co, ?_, by rwa [abs_pow], bn⟩
  · unfold pow
    rw [e1, Res.bind_ok]
    simp only
    rw [pr, Res.bind_ok]
    exact ofReal_ofRat h' hs ht h1 (by rw [abs_pow]; exact le_trans an (le_trans hjn hM53)) (le_trans bn (le_trans hkn hM53))
      (pow_pos bp n) co
  · push_cast
    rw [← div_pow]
    congr 1
    have k0 : (k : ℝ) ≠ 0 := by exact_mod_cast hk0.ne'
    have b0 : (b : ℝ) ≠ 0 := by exact_mod_cast bp.ne'
    rw [div_eq_div_iff b0 k0]
    exact_mod_cast r4.symm

end Frac
end Symxx.Sym
