import Verif.Frac.Surd
import Verif.Frac.Cancel
import Verif.Expr.PowEval
/-!
# Evaluating a power with a fraction as exponent
-/
namespace Symxx.Num

namespace Real
variable {env : Env} (h : env.IntOk)
include h

theorem isRational_ofRat {c : Rational} (hc : c.Fits env.M) : isRational env (ofRat c) = .ok true := by
  unfold isRational ofRat
  simp only
  rw [Rational.eqInt_spec env.M c 0 h.hM (by norm_num) hc, Res.bind_ok, Rational.eqInt_int h.hM (abs1 h) (abs1 h)]
  by_cases h0 : c.num = 0 <;> simp [h0]

theorem toRational_ofRat {c : Rational} (hc : c.Fits env.M) (hd : 0 < c.den) (hl : c.Lowest) :
    toRational env (ofRat c) = .ok c := by
  have hM := h.hM
  unfold toRational
  rw [isRational_ofRat h hc, Res.bind_ok]
  obtain ⟨f1, f2⟩ := hc
  rw [abs_of_pos hd] at f2
  have o : Rational.Fits env.M ⟨1, 1⟩ := ⟨by simpa using hM, by simpa using hM⟩
  obtain ⟨r, r1, -⟩ := Rational.mul_canc' (b := ⟨1, 1⟩) hd one_pos ⟨f1, by rwa [abs_of_pos hd]⟩ o (by simpa using f1) (by simpa using f2)
  obtain ⟨v, -, -, -, l, p⟩ := Rational.mul_spec r1
  have e : r = c := by
    refine Rational.ext_lowest (p hd one_pos) hd (l hl (by simp [Rational.Lowest])) hl ?_
    rw [v]; simp [Rational.val]
  subst e
  exact r1

end Real
end Symxx.Num

namespace Symxx.Sym
open Symxx.Num

/-- two fractions with the same value, the second in lowest terms. -/
theorem red_eq {j k : Int} {n : Int} {d : Nat} (hk0 : 0 < k) (hd : 0 < d) (hc : Int.gcd n d = 1) (hv : (j : ℝ) / k = (n : ℝ) / d) :
    (⟨j / (Int.gcd j k : Int), k / (Int.gcd j k : Int)⟩ : Rational) = ⟨n, d⟩ := by
  have hd' : (0 : ℝ) < d := by exact_mod_cast hd
  have hk' : (0 : ℝ) < k := by exact_mod_cast hk0
  obtain ⟨r1, r2, r3, r4, r5⟩ := Frac.red_facts (n := j) hk0.ne'
  have bp : 0 < k / (Int.gcd j k : Int) := lt_of_le_of_ne (Int.ediv_nonneg hk0.le (by positivity)) r1.symm
  refine Rational.ext_lowest bp (by simp only; exact_mod_cast hd) r5 hc ?_
  generalize j / (Int.gcd j k : Int) = a at *
  generalize k / (Int.gcd j k : Int) = b at *
  have b0 : (b : ℝ) ≠ 0 := by exact_mod_cast bp.ne'
  have : (a : ℝ) / b = (n : ℝ) / d := by
    rw [← hv, div_eq_div_iff b0 hk'.ne']
    exact_mod_cast r4.symm
  have : ((Rational.val ⟨a, b⟩ : ℚ) : ℝ) = ((Rational.val ⟨n, d⟩ : ℚ) : ℝ) := by
    simp only [Rational.val]
    push_cast
    exact this
  exact_mod_cast this

namespace Node
variable {env : FEnv}

/-- a power whose exponent is a quotient. -/
theorem root_top (h : env.toEnv.IntOk) {l r : Node} {a x : Frac} {p s : Int} {m q : Nat} (hp : |p| ≤ env.M) (hs : s ≤ env.M)
    (s0 : 0 < s) (q0 : 0 < q) (hmq : Nat.Coprime m q) (hv : (p : ℝ) / s = (m : ℝ) / q)
    (hl : tryEval env l = .ok (some a)) (hr : tryEval env r = .ok (some (Frac.quo p s)))
    (hx : Frac.pow env a ⟨m, q⟩ = .ok x) : normalize env (.op '^' l r) = .ok (.frac x) := by
  have e := red_eq (n := (m : Int)) (d := q) s0 q0 hmq (j := p) (by rw [hv, Int.cast_natCast])
  obtain ⟨-, r2, r3, -, -⟩ := Frac.red_facts (n := p) s0.ne'
  have i1 := congrArg Rational.num e
  have i2 := congrArg Rational.den e
  simp only at i1 i2
  rw [i1] at r2
  rw [i2] at r3
  have f : Rational.Fits env.M ⟨(m : Int), q⟩ := ⟨le_trans r2 hp, le_trans r3 (by rwa [abs_of_pos s0])⟩
  unfold normalize
  rw [hl, Res.bind_ok, hr, Res.bind_ok]
  simp only
  rw [if_neg (by decide), if_neg (by decide), if_neg (by decide), if_neg (by decide), if_pos trivial,
    Frac.tryEval_quo h hp hs s0, e, Res.bind_ok]
  simp only
  rw [Real.isRational_ofRat h f, Res.bind_ok, if_pos rfl,
    Real.toRational_ofRat h f (by simp only; exact_mod_cast q0) hmq, Res.bind_ok, Res.bind_ok]
  simp only
  rw [hx, Res.bind_ok]

end Node
end Symxx.Sym
