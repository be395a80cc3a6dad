import Verif.Num.RealPow
/-!
# `Real::pow`: the case distinction on the exponent
-/
namespace Symxx.Num
namespace Real
variable {env : Env} {B : Nat} {D : Prop}

theorem ofInt_one (hg : env.Good B) (hB : 1 ≤ B) : ofInt env 1 = .ok ⟨1, ⟨1, 1⟩, ⟨1, 1⟩⟩ := by
  unfold ofInt ofRational mk3
  rw [Rational.ofInt_eq env.M 1 (by simpa using hg.M1) hg.M1]
  simp only [Res.bind_ok]
  refine normalize_canon hg ⟨1, rfl, ?_, by norm_num, fun _ => rfl⟩ (by simp only; exact_mod_cast hB)
    ⟨by simpa using hg.M1, by simpa using hg.M1⟩
  exact (simplest_iff 1 1 (by omega) (by omega)).2 ⟨by simp, fun d h _ => Nat.dvd_one.1 h⟩

theorem pow_zero' (hg : env.Good B) (hB : 1 ≤ B) (a : Real) (p : Rational) (hp : p.Fits env.M) (h0 : p.num = 0) :
    pow env a p = .ok ⟨1, ⟨1, 1⟩, ⟨1, 1⟩⟩ := by
  unfold pow powN
  rw [Rational.eqInt_spec env.M p 0 hg.M1 (by norm_num) hp]
  simp only [h0, Res.bind_ok, zero_mul, decide_true, if_true]
  exact ofInt_one hg hB

theorem pow_one' (hM : 1 ≤ env.M) (a : Real) (p : Rational) (hp : p.Fits env.M) (h0 : p.num = p.den)
    (hd : p.den ≠ 0) : pow env a p = .ok a := by
  unfold pow powN
  rw [Rational.eqInt_spec env.M p 0 hM (by norm_num) hp, Rational.eqInt_spec env.M p 1 hM (by norm_num) hp]
  simp [h0, hd]

theorem lt0 (hM : 1 ≤ env.M) (p : Rational) (hp : |p.num| ≤ env.M) :
    Rational.lt env.M p ⟨0, 1⟩ = .ok (decide (p.num < 0)) := by
  obtain ⟨v, hv, e⟩ := (Rational.lt_sat (M := env.M) p ⟨0, 1⟩).defined (by simp; omega)
  rw [hv, e]; simp

theorem pow_pos' (hM : 1 ≤ env.M) (a : Real) (p : Rational) (hp : p.Fits env.M) (h0 : 0 < p.num)
    (h1 : p.num ≠ p.den) : pow env a p = powPos env a p := by
  unfold pow powN
  rw [Rational.eqInt_spec env.M p 0 hM (by norm_num) hp, Rational.eqInt_spec env.M p 1 hM (by norm_num) hp,
    Rational.ofInt_eq env.M 0 (by simp; omega) hM, ]
  simp only [Res.bind_ok, zero_mul, one_mul, h0.ne', decide_false, Bool.false_eq_true, if_false, h1,
    lt0 hM p hp.1, not_lt.2 h0.le]

theorem negate_nat (M : Int) (m q : Nat) (hq : 0 < q) (hc : Nat.Coprime m q) (h1 : (m : Int) ≤ M) (h2 : (q : Int) ≤ M) :
    Rational.negate M ⟨-(m : Int), q⟩ = .ok ⟨m, q⟩ := by
  have hq' : (q : Int) ≠ 0 := by exact_mod_cast hq.ne'
  obtain ⟨r, hr, -, -⟩ := Rational.normalize_defined M (m : Int) (q : Int)
    (by rwa [abs_of_nonneg (by positivity)]) (by rwa [abs_of_nonneg (by positivity)]) hq'
  have e : Rational.negate M ⟨-(m : Int), q⟩ = .ok r := by
    unfold Rational.negate Rational.mk2
    simp only [neg_neg]
    rw [chk_ok (inRange_of_abs (by rwa [abs_of_nonneg (by positivity)])), Res.bind_ok,
      show decide ((q : Int) ≠ 0) = true by simpa using hq.ne']
    exact hr
  obtain ⟨g1, g2, g3, g4, -⟩ := Rational.negate_spec hq' e
  replace g4 := g4 (by simp only; exact_mod_cast hq)
  rw [e]
  congr 1
  obtain ⟨n, d⟩ := r
  simp only at g3 g4
  have hdq : (d : ℚ) ≠ 0 := by exact_mod_cast g3
  have hqq : (q : ℚ) ≠ 0 := by exact_mod_cast hq.ne'
  have hx : n * q = m * d := by
    unfold Rational.val at g1
    simp only at g1
    push_cast at g1
    rw [neg_div, neg_neg, div_eq_div_iff hdq hqq] at g1
    exact_mod_cast g1
  have hl : Int.gcd n d = 1 := g2
  have hn : 0 ≤ n := by
    by_contra hneg
    push Not at hneg
    have : (0 : Int) < q := by exact_mod_cast hq
    have h3 : n * q < 0 := by nlinarith
    have h4 : (0 : Int) ≤ m * d := by positivity
    omega
  obtain ⟨n', rfl⟩ := Int.eq_ofNat_of_zero_le hn
  obtain ⟨d', rfl⟩ := Int.eq_ofNat_of_zero_le g4.le
  have hx' : n' * q = m * d' := by exact_mod_cast hx
  have hl' : Nat.Coprime n' d' := by simpa using hl
  have e1 : n' ∣ m := hl'.dvd_of_dvd_mul_right (Dvd.intro _ hx')
  have e2 : m ∣ n' := hc.dvd_of_dvd_mul_right (Dvd.intro _ hx'.symm)
  have e3 : d' ∣ q := hl'.symm.dvd_of_dvd_mul_left (Dvd.intro_left _ hx'.symm)
  have e4 : q ∣ d' := hc.symm.dvd_of_dvd_mul_left (Dvd.intro_left _ hx')
  rw [Nat.dvd_antisymm e1 e2, Nat.dvd_antisymm e3 e4]

theorem pow_neg' (hM : 1 ≤ env.M) (a : Real) (m q : Nat) (hm : 0 < m) (hq : 0 < q) (hc : Nat.Coprime m q)
    (h1 : (m : Int) ≤ env.M) (h2 : (q : Int) ≤ env.M) (hmq : ¬ (m = 1 ∧ q = 1)) :
    pow env a ⟨-(m : Int), q⟩ = (do let ia ← inverse env a; powPos env ia ⟨m, q⟩) := by
  have ab : ∀ m : Nat, |(m : Int)| = m := fun m => abs_of_nonneg (by positivity)
  have hf : Rational.Fits env.M ⟨-(m : Int), q⟩ := ⟨by simp only [abs_neg, ab]; exact h1, by simp only [ab]; exact h2⟩
  have hf' : Rational.Fits env.M ⟨(m : Int), q⟩ := ⟨by simp only [ab]; exact h1, by simp only [ab]; exact h2⟩
  have n0 : ¬ (-(m : Int) = 0) := by omega
  have n1 : ¬ (-(m : Int) = (q : Int)) := by omega
  have n2 : -(m : Int) < 0 := by omega
  have n3 : ¬ ((m : Int) = 0) := by omega
  have n4 : ¬ ((m : Int) < 0) := by omega
  have n5 : ¬ ((m : Int) = (q : Int)) := by
    intro h
    have h : m = q := by exact_mod_cast h
    subst h
    exact hmq ⟨(Nat.coprime_self m).1 hc, (Nat.coprime_self m).1 hc⟩
  unfold pow powN
  rw [Rational.eqInt_spec env.M _ 0 hM (by norm_num) hf, Rational.eqInt_spec env.M _ 1 hM (by norm_num) hf,
    Rational.ofInt_eq env.M 0 (by simp; omega) hM]
  simp only [Res.bind_ok, zero_mul, one_mul, n0, n1, decide_false, Bool.false_eq_true, if_false]
  rw [lt0 hM _ hf.1]
  simp only [n2, decide_true, if_true, Res.bind_ok, negate_nat env.M m q hq hc h1 h2, powN,
    Rational.ofInt_eq env.M 0 (show |(0 : Int)| ≤ env.M by simp; omega) hM,
    Rational.eqInt_spec env.M _ 0 hM (by norm_num) hf', Rational.eqInt_spec env.M _ 1 hM (by norm_num) hf',
    lt0 hM _ hf'.1, zero_mul, one_mul, n3, n4, n5, decide_false, Bool.false_eq_true, if_false]

theorem pow_minus_one (hM : 1 ≤ env.M) (a : Real) : pow env a ⟨-1, 1⟩ = inverse env a := by
  have hf : Rational.Fits env.M ⟨-1, 1⟩ := ⟨by simpa using hM, by simpa using hM⟩
  have hf' : Rational.Fits env.M ⟨1, 1⟩ := ⟨by simpa using hM, by simpa using hM⟩
  have hneg : Rational.negate env.M ⟨-1, 1⟩ = .ok ⟨1, 1⟩ :=
    negate_nat env.M 1 1 (by omega) (by simp) (by exact_mod_cast hM) (by exact_mod_cast hM)
  unfold pow powN
  rw [Rational.eqInt_spec env.M _ 0 hM (by norm_num) hf, Rational.eqInt_spec env.M _ 1 hM (by norm_num) hf,
    Rational.ofInt_eq env.M 0 (by simp; omega) hM]
  simp only [Res.bind_ok]
  rw [lt0 hM _ hf.1, hneg]
  simp only [Res.bind_ok, powN]
  rw [Rational.eqInt_spec env.M _ 0 hM (by norm_num) hf', Rational.eqInt_spec env.M _ 1 hM (by norm_num) hf']
  simp
  cases inverse env a <;> rfl

end Real
end Symxx.Num
