import Verif.Cli.Poly
import Verif.Expr.QuoEval
import Verif.Expr.NumericProof
/-!
# Printing a fraction of two integers in a session
-/
namespace Symxx.Num

theorem Rational.div_ints {M j k : Int} (hM : 1 ≤ M) (hj : |j| ≤ M) (hk : |k| ≤ M) (hk0 : k ≠ 0) :
    ∃ r, Rational.div M ⟨j, 1⟩ ⟨k, 1⟩ = .ok r := by
  obtain ⟨u, w, hu, hw, hw0, e⟩ : ∃ u w : Int, |u| = 1 ∧ |w| ≤ M ∧ w ≠ 0 ∧ Rational.inverse M ⟨k, 1⟩ = .ok ⟨u, w⟩ := by
    unfold Rational.inverse Rational.mk2
    simp only
    rw [show decide (k ≠ 0) = true by simpa using hk0, Res.assert_true, Res.bind_ok,
      Rational.normalize_eq M 1 k (by simpa using hM) hk hk0]
    simp only [Int.one_gcd, Nat.cast_one, Int.tdiv_one]
    split
    · exact ⟨-1, 1, by simp, by simpa using hM, one_ne_zero, rfl⟩
    · exact ⟨1, k, by simp, hk, hk0, rfl⟩
  unfold Rational.div
  rw [e, Res.bind_ok]
  unfold Rational.mul
  simp only
  have gp : 0 < (Int.gcd j w : Int) := by exact_mod_cast Int.gcd_pos_iff.2 (Or.inr hw0)
  obtain ⟨a, ha⟩ := Int.gcd_dvd_left j w
  obtain ⟨b, hb⟩ := Int.gcd_dvd_right j w
  have q1 : gcdT M j w = .ok (Int.gcd j w : Int) := gcdT_ok.2 ⟨⟨hj, hw⟩, rfl⟩
  have q2 : gcdT M u 1 = .ok 1 := gcdT_ok.2 ⟨⟨by omega, by simpa using hM⟩, by simp⟩
  generalize (Int.gcd j w : Int) = g at gp ha hb q1
  have ga : |a| ≤ |j| := by
    rw [ha, abs_mul]; exact le_mul_of_one_le_left (abs_nonneg _) (by rw [abs_of_pos gp]; omega)
  have gb : |b| ≤ |w| := by
    rw [hb, abs_mul]; exact le_mul_of_one_le_left (abs_nonneg _) (by rw [abs_of_pos gp]; omega)
  have b0 : b ≠ 0 := fun e => hw0 (by rw [hb, e, mul_zero])
  have d1 : divT M j g = .ok a := divT_ok.2 (by
    rw [ha, Int.mul_tdiv_cancel_left _ gp.ne']
    exact ⟨gp.ne', inRange_of_abs (by omega), rfl⟩)
  have d2 : divT M w g = .ok b := divT_ok.2 (by
    rw [hb, Int.mul_tdiv_cancel_left _ gp.ne']
    exact ⟨gp.ne', inRange_of_abs (by omega), rfl⟩)
  have d3 : ∀ x : Int, |x| ≤ M → divT M x 1 = .ok x := fun x hx => divT_ok.2 ⟨one_ne_zero, inRange_of_abs (by simpa using hx), by simp⟩
  rw [q1, Res.bind_ok, q2, Res.bind_ok, d1, Res.bind_ok, d3 u (by omega), Res.bind_ok,
    chk_ok (inRange_of_abs (by rw [abs_mul, hu, mul_one]; omega)), Res.bind_ok, d3 1 (by simpa using hM), Res.bind_ok, d2,
    Res.bind_ok, chk_ok (inRange_of_abs (by rw [one_mul]; omega)), Res.bind_ok,
    show decide (1 * b ≠ 0) = true by simpa using b0, Res.assert_true, Res.bind_ok]
  exact ⟨_, rfl⟩

end Symxx.Num

namespace Symxx.Cli
open Symxx.Num Symxx.Sym Cmd

variable {E : CEnv}

theorem polyStr_single (h : E.f.toEnv.IntOk) {k : Int} (hk : |k| ≤ E.f.M) :
    Poly.toStr E.f.toEnv [Term.con k] = .ok (toString k).toList := by
  have e := Node.toStr_con h hk
  unfold Node.toStr Frac.toStr Frac.con at e
  simp only [List.isEmpty_cons, Bool.false_eq_true, if_false] at e
  have e1 : Frac.denIsOne E.f.toEnv unitPoly = .ok true := by
    have := Node.coeIs_con h (Real.abs1 h) (Real.abs1 h)
    unfold unitPoly Frac.denIsOne
    unfold Term.con at this
    simp only
    rw [this, Res.bind_ok]
    rfl
  rwa [e1, Res.bind_ok, if_pos rfl] at e

theorem toStr_quo (h : E.f.toEnv.IntOk) {j k : Int} (hj : |j| ≤ E.f.M) (hk : |k| ≤ E.f.M) :
    Node.toStr E.f.toEnv (.frac (Frac.quo j k)) = .ok (quoText j k) := by
  have e1 : Frac.denIsOne E.f.toEnv [Term.con k] = .ok (decide (k = 1)) := by
    unfold Frac.denIsOne
    simp only
    rw [Node.coeIs_con h hk (Real.abs1 h), Res.bind_ok]
    by_cases hk1 : k = 1 <;> simp [hk1, Term.con, Term.ofReal, Term.noSymbols]
  unfold Node.toStr Frac.toStr Frac.quo quoText
  simp only [List.isEmpty_cons, Bool.false_eq_true, if_false]
  rw [e1, Res.bind_ok, polyStr_single h hj, polyStr_single h hk]
  by_cases hk1 : k = 1 <;> simp [hk1]

/-- the test of `print_result` for an integer. -/
theorem isInteger_quo (h : E.f.toEnv.IntOk) {j k : Int} (hj : |j| ≤ E.f.M) (hk : |k| ≤ E.f.M) (hk0 : k ≠ 0) :
    ∃ b, isInteger E (.frac (Frac.quo j k)) = .ok b ∧ (0 < k → (b = true ↔ k ∣ j)) := by
  have e1 : ∀ j : Int, |j| ≤ E.f.M → polyIsRational E.f.toEnv [Term.con j] = .ok true := by
    intro j hj
    unfold polyIsRational Term.isRational
    have : (Term.con j).noSymbols = true := rfl
    rw [this, if_pos rfl]
    have e : Real.isRational E.f.toEnv (Term.con j).coe = .ok true := Frac.isRational_int h hj
    rw [e, Res.bind_ok, if_pos rfl]
    rfl
  have e4 : ∀ j : Int, |j| ≤ E.f.M → Poly.toRational E.f.toEnv [Term.con j] = .ok ⟨j, 1⟩ := by
    intro j hj
    have e : Term.toRational E.f.toEnv (Term.con j) = .ok ⟨j, 1⟩ := Frac.toRational_real h hj
    unfold Poly.toRational Poly.toRationalLoop
    rw [Rational.ofInt_eq _ _ (Real.abs0 h) h.hM, Res.bind_ok, e, Res.bind_ok,
      Rational.add_int h.hM (Real.abs0 h) hj (by rwa [zero_add]), zero_add, Res.bind_ok]
    rfl
  obtain ⟨r, hr⟩ := Rational.div_ints h.hM hj hk hk0
  refine ⟨r.isInt, ?_, fun hk1 => ?_⟩
  · unfold isInteger
    have e2 : Node.tryEval E.f (.frac (Frac.quo j k)) = .ok (some (Frac.quo j k)) := rfl
    rw [e2, Res.bind_ok]
    simp only
    have e3 : (Frac.quo j k).noSymbols = true := rfl
    rw [e3, if_pos rfl]
    unfold fracIsRational Frac.quo
    simp only
    rw [e1 j hj, Res.bind_ok, if_pos rfl, e1 k hk, Res.bind_ok, if_pos rfl]
    unfold Frac.toRational
    simp only
    rw [e4 j hj, Res.bind_ok, e4 k hk, Res.bind_ok, hr, Res.bind_ok]
  · obtain ⟨-, s2, s3, -, -, s6, s7⟩ := Rational.div_spec hr
    have lo := s6 (by simp [Rational.Lowest])
    have pos := s7 (by norm_num) hk1
    have kq : (k : ℚ) ≠ 0 := by exact_mod_cast hk0
    have rq : (r.den : ℚ) ≠ 0 := by exact_mod_cast s3
    have s2 : (r.num : ℚ) / r.den = j / k := by simpa [Rational.val] using s2
    rw [div_eq_div_iff rq kq] at s2
    have s2 : r.num * k = j * r.den := by exact_mod_cast s2
    unfold Rational.isInt
    rw [decide_eq_true_eq]
    constructor
    · intro hd
      rw [hd, mul_one] at s2
      exact ⟨r.num, by rw [← s2, mul_comm]⟩
    · rintro ⟨c, rfl⟩
      have : r.num = c * r.den := by
        have : r.num * k = (c * r.den) * k := by rw [s2]; ring
        exact mul_right_cancel₀ hk0 this
      have hd : r.den ∣ r.num := ⟨c, by rw [this]; ring⟩
      unfold Rational.Lowest at lo
      have : Int.gcd r.num r.den = r.den.natAbs := Int.gcd_eq_natAbs_right hd
      omega

/-- printing a fraction of two integers. -/
theorem printResult_quo (h : E.f.toEnv.IntOk) {j k : Int} (hj : |j| ≤ E.f.M) (hk : |k| ≤ E.f.M) (hk0 : k ≠ 0) (s : St E) :
    ∃ (b : Bool) (x y : E.LD), printResult E (.frac (Frac.quo j k)) s =
        (.ok (), s, quoText j k ++ (if b then [] else " = ".toList ++ E.showLD (E.flt.div x y)) ++ ['\n']) ∧
      (0 < k → (b = true ↔ k ∣ j)) ∧ ∀ (S : FltSem E.flt) (N : Int), S.Exact N → |j| ≤ N → |k| ≤ N →
        S.ld x = some (j : ℝ) ∧ S.ld y = some (k : ℝ) := by
  obtain ⟨b, hb, hd⟩ := isInteger_quo h hj hk hk0
  have e1 : Node.normalize E.f (.frac (Frac.quo j k)) = .ok (.frac (Frac.quo j k)) := rfl
  have ev : ∀ (S : FltSem E.flt) (N : Int), S.Exact N → ∀ k : Int, |k| ≤ N →
      S.ld (E.flt.add (E.flt.ofInt 0) ((Num.Real.int k).toLD E.flt)) = some (k : ℝ) := by
    intro S N hS k hk
    have := hS.add (hS.ofInt 0 hS.abs0) (hS.toLD_int hk) hS.abs0 hk (by rwa [zero_add])
    rwa [zero_add] at this
  refine ⟨b, E.flt.add (E.flt.ofInt 0) ((Num.Real.int j).toLD E.flt), E.flt.add (E.flt.ofInt 0) ((Num.Real.int k).toLD E.flt),
    ?_, hd, fun S N hS h1 h2 => ⟨ev S N hS j h1, ev S N hS k h2⟩⟩
  unfold printResult
  rw [lift_bind, e1]
  simp only
  rw [lift_bind, toStr_quo h hj hk]
  simp only
  rw [bind_def]
  simp only [Cmd.print]
  rw [lift_bind, hb]
  cases b with
  | true => simp [Cmd.print]
  | false =>
    have e2 : ∀ v, Node.tryEvalLD E.flt v (.frac (Frac.quo j k)) = .ok (some (E.flt.div
      (E.flt.add (E.flt.ofInt 0) ((Num.Real.int j).toLD E.flt)) (E.flt.add (E.flt.ofInt 0) ((Num.Real.int k).toLD E.flt)))) := fun _ => rfl
    simp only [Bool.false_eq_true, if_false]
    rw [bind_def]
    simp only [Cmd.get]
    rw [lift_bind, e2]
    simp [Cmd.print]

end Symxx.Cli
