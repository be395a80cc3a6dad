import Verif.Frac.Surd
import Verif.Expr.PowEval
import Verif.Cli.QuoPaste
/-!
# Printing a root in a session
-/
namespace Symxx.Cli
open Symxx.Num Symxx.Sym Cmd

/-- how the program writes `a N^(1/i) / b`: `a_i/N/b`, where `a = 1`, `i = 2` and `b = 1` are left out, and `a/b` if the root
is 1. -/
def surdText (a : Int) (i N : Nat) (b : Int) : List Char :=
  (if N = 1 then (toString a).toList
    else (if a = 1 then [] else (toString a).toList) ++ '_' :: ((if i = 2 then [] else (toString i).toList) ++ '/' :: (toString N).toList)) ++
  (if b = 1 then [] else '/' :: (toString b).toList)

theorem surdText_quo (a b : Int) (i : Nat) : surdText a i 1 b = quoText a b := by
  unfold surdText quoText
  by_cases h : b = 1 <;> simp [h]

variable {E : CEnv}

section
variable (h : E.f.toEnv.IntOk) {a b : Int} {i N : Nat}
include h

theorem surd_coeIs (ha : |a| ≤ E.f.M) (hN : (N : Int) ≤ E.f.M) {j : Int} (hj : |j| ≤ E.f.M) :
    Term.coeIs E.f.toEnv ⟨i, ⟨N, 1⟩, ⟨a, 1⟩⟩ j = .ok (decide (a = j ∧ N = 1 ∧ i = 1)) := by
  unfold Term.coeIs
  rw [Real.ofInt_int h hj, Res.bind_ok]
  unfold Real.eq Real.int
  simp only
  rw [Rational.eq_int ha hj, Res.bind_ok]
  by_cases e : a = j
  · rw [Rational.eq_int (by rwa [abs_of_nonneg (by positivity)]) (Real.abs1 h)]
    by_cases e2 : N = 1
    · subst e2; simp [e]
    · simp [e, e2]
  · simp [e]

theorem surd_isRational (ha : |a| ≤ E.f.M) (ha0 : a ≠ 0) (hN : (N : Int) ≤ E.f.M) (hs : Simplest N i) (hN1 : N ≠ 1) :
    Real.isRational E.f.toEnv ⟨i, ⟨N, 1⟩, ⟨a, 1⟩⟩ = .ok false := by
  have hN' : |(N : Int)| ≤ E.f.M := by rwa [abs_of_nonneg (by positivity)]
  have hi1 : i ≠ 1 := by
    rintro rfl
    exact hs.2.2.1 N (by have := hs.1; omega) (by simp)
  have hi0 : i ≠ 0 := hs.2.1.ne'
  have hN0 : N ≠ 0 := hs.1.ne'
  have hN1' : ¬ ((N : Int) = 1) := by exact_mod_cast hN1
  unfold Real.isRational
  simp only
  rw [Rational.eqInt_int h.hM ha (Real.abs0 h), Res.bind_ok, Rational.eqInt_int h.hM hN' (Real.abs1 h), Rational.eqInt_int h.hM hN' (Real.abs0 h)]
  simp [ha0, hN0, hN1', hi1, hi0]

theorem surd_toStr (ha : |a| ≤ E.f.M) (ha0 : 0 < a) (hN : (N : Int) ≤ E.f.M) (hs : Simplest N i) (hN1 : N ≠ 1) (hb : |b| ≤ E.f.M) :
    Node.toStr E.f.toEnv (.frac (Frac.surd a i N b)) = .ok (surdText a i N b) := by
  have hM := h.hM
  have e1 : Frac.denIsOne E.f.toEnv [Term.con b] = .ok (decide (b = 1)) := by
    unfold Frac.denIsOne
    simp only
    rw [Node.coeIs_con h hb (Real.abs1 h), Res.bind_ok]
    by_cases hk1 : b = 1 <;> simp [hk1, Term.con, Term.ofReal, Term.noSymbols]
  have z : Term.coeIs E.f.toEnv ⟨i, ⟨N, 1⟩, ⟨a, 1⟩⟩ 0 = .ok false := by
    rw [surd_coeIs h ha hN (Real.abs0 h)]; simp [ha0.ne']
  have r : Real.toStr E.f.toEnv ⟨i, ⟨N, 1⟩, ⟨a, 1⟩⟩ =
      .ok ((if a = 1 then [] else (toString a).toList) ++ '_' :: ((if i = 2 then [] else (toString i).toList) ++ '/' :: (toString N).toList)) := by
    unfold Real.toStr
    simp only
    rw [Rational.eqInt_int hM ha (Real.abs0 h), Res.bind_ok, surd_isRational h ha ha0.ne' hN hs hN1,
      Rational.eqInt_int hM ha (Real.abs1 h), Rational.eqInt_int hM ha (by simpa using hM)]
    have e1 : Rational.toStr ⟨(N : Int), 1⟩ = (toString N).toList := by
      unfold Rational.toStr
      rfl
    have e2 : Rational.toStr ⟨a, 1⟩ = (toString a).toList := by simp [Rational.toStr]
    have e3 : ¬ a = -1 := by omega
    rw [e1, e2]
    by_cases a1 : a = 1 <;> by_cases i2 : i = 2 <;> simp [a1, i2, ha0.ne', e3]
  have t : Term.toStr E.f.toEnv (Term.ofReal ⟨i, ⟨N, 1⟩, ⟨a, 1⟩⟩) =
      .ok ((if a = 1 then [] else (toString a).toList) ++ '_' :: ((if i = 2 then [] else (toString i).toList) ++ '/' :: (toString N).toList)) := by
    unfold Term.toStr Term.ofReal
    simp only
    rw [z, Res.bind_ok, surd_coeIs h ha hN (Real.abs1 h), surd_coeIs h ha hN (j := -1) (by simpa using hM)]
    simp only [Bool.false_eq_true, if_false, Res.bind_ok, List.isEmpty_nil, Bool.or_true, if_true, Bool.not_true, Bool.and_false]
    rw [r, Res.bind_ok]
    unfold Term.symsStr
    simp
  have p : Poly.toStr E.f.toEnv [Term.ofReal ⟨i, ⟨N, 1⟩, ⟨a, 1⟩⟩] =
      .ok ((if a = 1 then [] else (toString a).toList) ++ '_' :: ((if i = 2 then [] else (toString i).toList) ++ '/' :: (toString N).toList)) := by
    have z' : Term.coeIs E.f.toEnv (Term.ofReal ⟨i, ⟨N, 1⟩, ⟨a, 1⟩⟩).coe 0 = .ok false := z
    have n : Poly.nonzeros E.f.toEnv [Term.ofReal ⟨i, ⟨N, 1⟩, ⟨a, 1⟩⟩] = .ok 1 := by
      unfold Poly.nonzeros
      rw [z', Res.bind_ok]
      rfl
    unfold Poly.toStr
    simp only [List.isEmpty_cons, Bool.false_eq_true, if_false]
    rw [n, Res.bind_ok, if_neg (by norm_num)]
    unfold Poly.strLoop
    rw [z', Res.bind_ok, if_neg (by simp), if_pos rfl, t, Res.bind_ok]
    unfold Poly.strLoop
    simp
  unfold Node.toStr Frac.toStr Frac.surd surdText
  simp only [List.isEmpty_cons, Bool.false_eq_true, if_false]
  rw [e1, Res.bind_ok, p, polyStr_single h hb, if_neg hN1]
  by_cases hk1 : b = 1 <;> simp [hk1]

theorem surd_isInteger (ha : |a| ≤ E.f.M) (ha0 : 0 < a) (hN : (N : Int) ≤ E.f.M) (hs : Simplest N i) (hN1 : N ≠ 1) :
    isInteger E (.frac (Frac.surd a i N b)) = .ok false := by
  unfold isInteger
  have e2 : Node.tryEval E.f (.frac (Frac.surd a i N b)) = .ok (some (Frac.surd a i N b)) := rfl
  rw [e2, Res.bind_ok]
  simp only
  have e3 : (Frac.surd a i N b).noSymbols = true := rfl
  rw [e3, if_pos rfl]
  have e : polyIsRational E.f.toEnv [Term.ofReal ⟨i, ⟨N, 1⟩, ⟨a, 1⟩⟩] = .ok false := by
    unfold polyIsRational Term.isRational
    rw [show (Term.ofReal ⟨i, ⟨N, 1⟩, ⟨a, 1⟩⟩).noSymbols = true from rfl, if_pos rfl,
      show (Term.ofReal ⟨i, ⟨N, 1⟩, ⟨a, 1⟩⟩).coe = ⟨i, ⟨N, 1⟩, ⟨a, 1⟩⟩ from rfl, surd_isRational h ha ha0.ne' hN hs hN1]
    rfl
  unfold fracIsRational Frac.surd
  simp only
  rw [e]
  rfl

end

/-- the number shown behind a root. -/
def surdLD (F : Flt) (a : Int) (i N : Nat) (b : Int) : F.LD :=
  F.div (F.add (F.ofInt 0) ((⟨i, ⟨N, 1⟩, ⟨a, 1⟩⟩ : Num.Real).toLD F)) (F.add (F.ofInt 0) ((Num.Real.int b).toLD F))

theorem surd_tryEvalLD (F : Flt) (v) (a b : Int) (i N : Nat) :
    Frac.tryEvalLD F v (Frac.surd a i N b) = some (surdLD F a i N b) := rfl

/-- printing a root. -/
theorem printResult_surd (h : E.f.toEnv.IntOk) {a b : Int} {i N : Nat} (ha : a ≤ E.f.M) (ha0 : 0 < a) (hN : (N : Int) ≤ E.f.M)
    (hs : Simplest N i) (hb : b ≤ E.f.M) (hb0 : 0 < b) (s : St E) :
    printResult E (.frac (Frac.surd a i N b)) s = (.ok (), s, surdText a i N b ++
      (if N = 1 ∧ b ∣ a then [] else " = ".toList ++ E.showLD (surdLD E.flt a i N b)) ++ ['\n']) := by
  have ha' : |a| ≤ E.f.M := by rwa [abs_of_pos ha0]
  have hb' : |b| ≤ E.f.M := by rwa [abs_of_pos hb0]
  have e1 : ∀ f, Node.normalize E.f (.frac f) = .ok (.frac f) := fun _ => rfl
  obtain ⟨t, hi⟩ : Node.toStr E.f.toEnv (.frac (Frac.surd a i N b)) = .ok (surdText a i N b) ∧
      isInteger E (.frac (Frac.surd a i N b)) = .ok (decide (N = 1 ∧ b ∣ a)) := by
    by_cases hN1 : N = 1
    · subst hN1
      have hi1 : i = 1 := hs.2.2.2 1 i (by simp) dvd_rfl
      subst hi1
      have eq : Frac.surd a 1 1 b = Frac.quo a b := rfl
      rw [eq, surdText_quo]
      obtain ⟨v, v1, v2⟩ := isInteger_quo h ha' hb' hb0.ne'
      refine ⟨toStr_quo h ha' hb', ?_⟩
      rw [v1]
      have := v2 hb0
      congr 1
      rw [Bool.eq_iff_iff, this]
      simp
    · refine ⟨surd_toStr h ha' ha0 hN hs hN1 hb', ?_⟩
      rw [surd_isInteger h ha' ha0 hN hs hN1]
      simp [hN1]
  unfold printResult
  rw [lift_bind, e1]
  simp only
  rw [lift_bind, t]
  simp only
  rw [bind_def]
  simp only [Cmd.print]
  rw [lift_bind, hi]
  by_cases hw : N = 1 ∧ b ∣ a
  · simp [hw, Cmd.print]
  · have e2 : ∀ v, Node.tryEvalLD E.flt v (.frac (Frac.surd a i N b)) = .ok (some (surdLD E.flt a i N b)) := fun _ => rfl
    simp only [hw, decide_false, Bool.false_eq_true, if_false]
    rw [bind_def]
    simp only [Cmd.get]
    rw [lift_bind, e2]
    simp [Cmd.print]

end Symxx.Cli
