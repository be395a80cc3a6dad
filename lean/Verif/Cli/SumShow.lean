import Verif.Expr.SumEval
import Verif.Frac.SumUnique
import Verif.Expr.PrintNum
import Verif.Cli.Surd
/-!
# Printing a sum of roots in a session
-/
namespace Symxx.Cli
open Symxx.Num Symxx.Sym Cmd

/-- how the program writes `a N^(1/i)`: `a_i/N`, where `a = 1`, the 1 of `a = -1` and `i = 2` are left out, and `a` if the root is 1. -/
def rootText (t : RT) : List Char :=
  if t.N = 1 then (toString t.a).toList
  else (if t.a = 1 then [] else if t.a = -1 then ['-'] else (toString t.a).toList) ++
    '_' :: ((if t.i = 2 then [] else (toString t.i).toList) ++ '/' :: (toString t.N).toList)

/-- the terms that follow the first. -/
def restText : List RT → List Char
  | [] => []
  | t :: l => (if t.a < 0 then '-' :: rootText t.neg else '+' :: rootText t) ++ restText l

/-- how the program writes a sum of roots. -/
def sumText : List RT → List Char
  | [] => ['0']
  | t :: l => rootText t ++ restText l

variable {E : CEnv} {B I R : Nat}

section
variable (hg : E.f.toEnv.Good B) (hB : 1 ≤ B) (hR : R ≤ B) (hI : I ≤ 2 ^ 53)
include hg hR hI

theorem rt_coeOk {t : RT} (h : t.Ok I R) (ha : |t.a| ≤ E.f.M) : CoeOk E.f.M B t.term.coe :=
  ⟨h.canon, one_pos, ⟨ha, by show |(1 : Int)| ≤ _; simpa using hg.M1⟩, by show (t.N : Int) ≤ B; exact_mod_cast le_trans h.rad hR,
    by show (t.i : Int) ≤ E.f.M; exact le_trans (by exact_mod_cast le_trans h.idx hI) hg.hM⟩

theorem rt_coeIs {t : RT} (h : t.Ok I R) (ha : |t.a| ≤ E.f.M) {k : Int} (hk : |k| ≤ 1) :
    Term.coeIs E.f.toEnv t.term.coe k = .ok (decide (t.a = k ∧ t.N = 1)) := by
  rw [coeIs_ok hg (rt_coeOk hg hR hI h ha) hk]
  congr 1
  rw [Bool.eq_iff_iff, decide_eq_true_eq, decide_eq_true_eq]
  have e1 : t.term.coe.coe.num = t.a := rfl
  have e2 : t.term.coe.coe.den = 1 := rfl
  have e3 : t.term.coe.rad = ⟨t.N, 1⟩ := rfl
  rw [e1, e2, e3]
  simp

theorem rt_zero {t : RT} (h : t.Ok I R) (ha : |t.a| ≤ E.f.M) :
    Term.coeIs E.f.toEnv t.term.coe 0 = .ok (decide (t.a = 0)) := by
  rw [rt_coeIs hg hR hI h ha (by norm_num)]
  congr 1
  rw [Bool.eq_iff_iff, decide_eq_true_eq, decide_eq_true_eq]
  exact ⟨fun h => h.1, fun h' => ⟨h', h.zero h'⟩⟩

include hB

theorem rt_toStr {t : RT} (h : t.Ok I R) (ha : |t.a| ≤ E.f.M) (h0 : t.a ≠ 0) : Term.toStr E.f.toEnv t.term = .ok (rootText t) := by
  have hi := (hg.powOk hB).toIntOk
  have hM := hi.hM
  have hN : (t.N : Int) ≤ E.f.M := le_trans (by exact_mod_cast le_trans h.rad hR) (hg.leM le_rfl)
  have r : Real.toStr E.f.toEnv t.term.coe = .ok (rootText t) := by
    unfold rootText
    by_cases hN1 : t.N = 1
    · have hi1 := (simplest_one h.simplest).1 hN1
      have : t.term.coe = Num.Real.int t.a := by
        show (⟨t.i, ⟨t.N, 1⟩, ⟨t.a, 1⟩⟩ : Num.Real) = _
        rw [hN1, hi1]
        rfl
      rw [this, if_pos hN1]
      unfold Real.toStr
      have e0 : Rational.eqInt E.f.M (Num.Real.int t.a).coe 0 = .ok (decide (t.a = 0)) := Rational.eqInt_int hM ha (Real.abs0 hi)
      rw [e0, Res.bind_ok, Frac.isRational_int hi ha]
      simp only [h0, decide_false, Bool.false_eq_true, if_false, Res.bind_ok, if_true]
      simp [Num.Real.int, Rational.toStr]
    · rw [if_neg hN1]
      obtain ⟨i, N, a⟩ := t
      show Real.toStr E.f.toEnv ⟨i, ⟨N, 1⟩, ⟨a, 1⟩⟩ = _
      simp only at ha h0 hN hN1 ⊢
      unfold Real.toStr
      simp only
      rw [Rational.eqInt_int hM ha (Real.abs0 hi), Res.bind_ok, surd_isRational hi ha h0 hN h.simplest hN1,
        Rational.eqInt_int hM ha (Real.abs1 hi), Rational.eqInt_int hM ha (by simpa using hM)]
      have e1 : Rational.toStr ⟨(N : Int), 1⟩ = (toString N).toList := by
        unfold Rational.toStr
        rfl
      have e2 : Rational.toStr ⟨a, 1⟩ = (toString a).toList := by simp [Rational.toStr]
      rw [e1, e2]
      by_cases a1 : a = 1 <;> by_cases i2 : i = 2 <;> by_cases a2 : a = -1 <;> simp_all
  have z := rt_zero hg hR hI h ha
  unfold Term.toStr
  rw [z, Res.bind_ok, rt_coeIs hg hR hI h ha (k := 1) (by norm_num), rt_coeIs hg hR hI h ha (k := -1) (by norm_num)]
  have e : t.term.syms = [] := rfl
  rw [e]
  simp only [h0, decide_false, Bool.false_eq_true, if_false, Res.bind_ok, List.isEmpty_nil, Bool.or_true, if_true, Bool.not_true, Bool.and_false]
  rw [r, Res.bind_ok]
  unfold Term.symsStr
  simp

omit hI in
theorem rt_negate {t : RT} (h : t.Ok I R) (ha : |t.a| ≤ E.f.M) : Term.negate E.f.toEnv t.term = .ok t.neg.term :=
  RT.negate_ok hg hB hR h ha

theorem rest_toStr : ∀ {l : List RT}, (∀ t ∈ l, t.Ok I R) → (∀ t ∈ l, |t.a| ≤ E.f.M) →
    Poly.strLoop E.f.toEnv (l.map RT.term) false = .ok (restText (RT.nz l))
  | [], _, _ => rfl
  | t :: l, h, ha => by
    have ih := rest_toStr (fun t ht => h t (List.mem_cons_of_mem _ ht)) fun t ht => ha t (List.mem_cons_of_mem _ ht)
    have ht := h t (by simp)
    have hat := ha t (by simp)
    rw [List.map_cons]
    unfold Poly.strLoop
    rw [rt_zero hg hR hI ht hat, Res.bind_ok]
    by_cases h0 : t.a = 0
    · rw [RT.nz_cons_zero h0]
      simp only [h0, decide_true, if_true]
      exact ih
    · have e : t.term.coe.coe.num = t.a := rfl
      rw [RT.nz_cons h0, isPositive_ok hg (rt_coeOk hg hR hI ht hat), rt_negate hg hB hR ht hat, rt_toStr hg hB hR hI ht hat h0, ih, e]
      simp only [h0, decide_false, Bool.false_eq_true, if_false, Res.bind_ok]
      rw [show restText (t :: RT.nz l) = (if t.a < 0 then '-' :: rootText t.neg else '+' :: rootText t) ++ restText (RT.nz l) from rfl]
      by_cases hp : 0 < t.a
      · simp [hp, not_lt.2 hp.le]
      · have hn : t.a < 0 := by omega
        rw [rt_toStr hg hB hR hI (RT.neg_ok ht) (by show |-t.a| ≤ _; rwa [abs_neg]) (by show -t.a ≠ 0; omega)]
        simp [hp, hn]

theorem first_toStr : ∀ {l : List RT}, (∀ t ∈ l, t.Ok I R) → (∀ t ∈ l, |t.a| ≤ E.f.M) → RT.nz l ≠ [] →
    Poly.strLoop E.f.toEnv (l.map RT.term) true = .ok (sumText (RT.nz l))
  | [], _, _, h0 => absurd rfl h0
  | t :: l, h, ha, hne => by
    have ht := h t (by simp)
    have hat := ha t (by simp)
    rw [List.map_cons]
    unfold Poly.strLoop
    rw [rt_zero hg hR hI ht hat, Res.bind_ok]
    by_cases h0 : t.a = 0
    · rw [RT.nz_cons_zero h0] at hne ⊢
      simp only [h0, decide_true, if_true]
      exact first_toStr (fun t ht => h t (List.mem_cons_of_mem _ ht)) (fun t ht => ha t (List.mem_cons_of_mem _ ht)) hne
    · rw [RT.nz_cons h0, rt_toStr hg hB hR hI ht hat h0,
        rest_toStr hg hB hR hI (fun t ht => h t (List.mem_cons_of_mem _ ht)) fun t ht => ha t (List.mem_cons_of_mem _ ht)]
      simp [h0, sumText]

omit hB in
theorem sum_nonzeros : ∀ {l : List RT}, (∀ t ∈ l, t.Ok I R) → (∀ t ∈ l, |t.a| ≤ E.f.M) →
    Poly.nonzeros E.f.toEnv (l.map RT.term) = .ok (RT.nz l).length
  | [], _, _ => rfl
  | t :: l, h, ha => by
    rw [List.map_cons]
    unfold Poly.nonzeros
    rw [rt_zero hg hR hI (h t (by simp)) (ha t (by simp)), Res.bind_ok,
      sum_nonzeros (fun t ht => h t (List.mem_cons_of_mem _ ht)) fun t ht => ha t (List.mem_cons_of_mem _ ht), Res.bind_ok]
    by_cases h0 : t.a = 0
    · rw [RT.nz_cons_zero h0]; simp [h0]
    · rw [RT.nz_cons h0]; simp [h0]

/-- the text of a sum of roots. -/
theorem sum_toStr {l : List RT} (h : ∀ t ∈ l, t.Ok I R) (ha : ∀ t ∈ l, |t.a| ≤ E.f.M) (hne : l ≠ []) :
    Node.toStr E.f.toEnv (.frac (RT.frac l)) = .ok (sumText (RT.nz l)) := by
  have hi := (hg.powOk hB).toIntOk
  have e1 : Frac.denIsOne E.f.toEnv [Term.con 1] = .ok true := by
    unfold Frac.denIsOne
    simp only
    rw [Node.coeIs_con hi (Real.abs1 hi) (Real.abs1 hi), Res.bind_ok]
    simp [Term.con, Term.ofReal, Term.noSymbols]
  unfold Node.toStr Frac.toStr RT.frac
  simp only [List.isEmpty_map]
  rw [if_neg (by simpa using hne), e1, Res.bind_ok, if_pos rfl]
  unfold Poly.toStr
  rw [List.isEmpty_map, if_neg (by simpa using hne), sum_nonzeros hg hR hI h ha, Res.bind_ok]
  by_cases hz : RT.nz l = []
  · rw [hz]
    rfl
  · rw [if_neg (by simpa using hz), first_toStr hg hB hR hI h ha hz]

omit hI in
theorem rt_isRational {t : RT} (h : t.Ok I R) (ha : |t.a| ≤ E.f.M) : Term.isRational E.f.toEnv t.term = .ok (decide (t.N = 1)) := by
  have hi := (hg.powOk hB).toIntOk
  have hN : (t.N : Int) ≤ E.f.M := le_trans (by exact_mod_cast le_trans h.rad hR) (hg.leM le_rfl)
  unfold Term.isRational
  rw [show t.term.noSymbols = true from rfl, if_pos rfl]
  by_cases hN1 : t.N = 1
  · have hi1 := (simplest_one h.simplest).1 hN1
    have : t.term.coe = Num.Real.int t.a := by
      show (⟨t.i, ⟨t.N, 1⟩, ⟨t.a, 1⟩⟩ : Num.Real) = _
      rw [hN1, hi1]
      rfl
    rw [this, Frac.isRational_int hi ha]
    simp [hN1]
  · have h0 : t.a ≠ 0 := fun h0 => hN1 (h.zero h0)
    show Real.isRational E.f.toEnv ⟨t.i, ⟨t.N, 1⟩, ⟨t.a, 1⟩⟩ = _
    rw [surd_isRational hi ha h0 hN h.simplest hN1]
    simp [hN1]

omit hI in
theorem sum_isRational : ∀ {l : List RT}, (∀ t ∈ l, t.Ok I R) → (∀ t ∈ l, |t.a| ≤ E.f.M) →
    polyIsRational E.f.toEnv (l.map RT.term) = .ok (decide (∀ t ∈ l, t.N = 1))
  | [], _, _ => by simp [polyIsRational]
  | t :: l, h, ha => by
    rw [List.map_cons]
    unfold polyIsRational
    rw [rt_isRational hg hB hR (h t (by simp)) (ha t (by simp)), Res.bind_ok,
      sum_isRational (fun t ht => h t (List.mem_cons_of_mem _ ht)) fun t ht => ha t (List.mem_cons_of_mem _ ht)]
    by_cases h0 : t.N = 1 <;> simp [h0]

omit hR hI in
theorem sum_toRational : ∀ {l : List RT} {r : Int}, (∀ t ∈ l, t.Ok I R) → |r| + RT.l1 l ≤ E.f.M → (∀ t ∈ l, t.N = 1) →
    ∃ k : Int, |k| ≤ E.f.M ∧ Poly.toRationalLoop E.f.toEnv (l.map RT.term) ⟨r, 1⟩ = .ok ⟨k, 1⟩
  | [], r, _, hr, _ => ⟨r, by have := RT.l1_nonneg []; omega, rfl⟩
  | t :: l, r, h, hr, hN => by
    have hi := (hg.powOk hB).toIntOk
    have n := RT.l1_nonneg l
    have n1 := abs_nonneg r
    have n2 := abs_nonneg t.a
    have n3 := abs_add_le r t.a
    rw [RT.l1_cons] at hr
    have hi1 := (simplest_one (h t (by simp)).simplest).1 (hN t (by simp))
    have hN1 := hN t (by simp)
    have e : Term.toRational E.f.toEnv t.term = .ok ⟨t.a, 1⟩ := by
      unfold Term.toRational
      have : t.term.coe = Num.Real.int t.a := by
        show (⟨t.i, ⟨t.N, 1⟩, ⟨t.a, 1⟩⟩ : Num.Real) = _
        rw [hN1, hi1]
        rfl
      rw [this]
      exact Frac.toRational_real hi (by omega)
    obtain ⟨k, k1, k2⟩ := sum_toRational (l := l) (r := r + t.a) (fun t ht => h t (List.mem_cons_of_mem _ ht)) (by omega)
      fun t ht => hN t (List.mem_cons_of_mem _ ht)
    refine ⟨k, k1, ?_⟩
    rw [List.map_cons]
    unfold Poly.toRationalLoop
    rw [e, Res.bind_ok, Rational.add_int hi.hM (by omega) (by omega) (by omega), Res.bind_ok]
    exact k2

omit hI in
theorem sum_isInteger {l : List RT} (h : ∀ t ∈ l, t.Ok I R) (hl : RT.l1 l ≤ E.f.M) :
    isInteger E (.frac (RT.frac l)) = .ok (decide (∀ t ∈ RT.nz l, t.N = 1)) := by
  have hi := (hg.powOk hB).toIntOk
  have ha : ∀ t ∈ l, |t.a| ≤ E.f.M := fun t ht => le_trans (RT.l1_mem ht) hl
  have hM := hi.hM
  have eq : (∀ t ∈ RT.nz l, t.N = 1) ↔ ∀ t ∈ l, t.N = 1 := by
    refine ⟨fun h' t ht => ?_, fun h' t ht => h' t (RT.mem_nz.1 ht).1⟩
    by_cases h0 : t.a = 0
    · exact (h t ht).zero h0
    · exact h' t (RT.mem_nz.2 ⟨ht, h0⟩)
  simp only [eq]
  unfold isInteger
  have e2 : Node.tryEval E.f (.frac (RT.frac l)) = .ok (some (RT.frac l)) := rfl
  rw [e2, Res.bind_ok]
  simp only
  have e3 : (RT.frac l).noSymbols = true := by
    simp [Frac.noSymbols, Poly.noSymbols, RT.frac, RT.term, Term.noSymbols, Term.ofReal, Term.con]
  rw [e3, if_pos rfl]
  unfold fracIsRational RT.frac
  simp only
  have d1 : polyIsRational E.f.toEnv [Term.con 1] = .ok true := by
    unfold polyIsRational Term.isRational
    have : (Term.con 1).noSymbols = true := rfl
    rw [this, if_pos rfl]
    have e : Real.isRational E.f.toEnv (Term.con 1).coe = .ok true := Frac.isRational_int hi (Real.abs1 hi)
    rw [e, Res.bind_ok, if_pos rfl]
    rfl
  have d2 : Poly.toRational E.f.toEnv [Term.con 1] = .ok ⟨1, 1⟩ := by
    have e : Term.toRational E.f.toEnv (Term.con 1) = .ok ⟨1, 1⟩ := Frac.toRational_real hi (Real.abs1 hi)
    unfold Poly.toRational Poly.toRationalLoop
    rw [Rational.ofInt_eq _ _ (Real.abs0 hi) hM, Res.bind_ok, e, Res.bind_ok,
      Rational.add_int hM (Real.abs0 hi) (Real.abs1 hi) (by simpa using hM), zero_add, Res.bind_ok]
    rfl
  rw [sum_isRational hg hB hR h ha, Res.bind_ok, d1]
  by_cases hN : ∀ t ∈ l, t.N = 1
  · obtain ⟨k, k1, k2⟩ := sum_toRational hg hB (l := l) (r := 0) h (by simpa using hl) hN
    have d3 : Frac.toRational E.f.toEnv ⟨l.map RT.term, [Term.con 1]⟩ = .ok ⟨k, 1⟩ := by
      unfold Frac.toRational
      simp only
      rw [d2]
      unfold Poly.toRational
      rw [Rational.ofInt_eq _ _ (Real.abs0 hi) hM, Res.bind_ok, k2, Res.bind_ok]
      have := Rational.div_int hM (q := k) (t := 1) (by rwa [mul_one]) one_pos hM
      rw [mul_one] at this
      exact this
    rw [if_pos (by simpa using hN), Res.bind_ok, if_pos rfl, d3]
    rw [Res.bind_ok, decide_eq_true (p := ∀ t ∈ l, t.N = 1) hN]
    rfl
  · rw [if_neg (by simpa using hN)]
    simp only [hN, decide_false]
    rfl

omit hg hB hR hI in
theorem sum_tryEvalLD (F : Flt) (v) : ∀ (l : List RT) (r : F.LD), ∃ w, Poly.tryEvalLDLoop F v (l.map RT.term) r = some w ∧
    ∀ v', Poly.tryEvalLDLoop F v' (l.map RT.term) r = some w
  | [], r => ⟨r, rfl, fun _ => rfl⟩
  | _ :: l, _ => sum_tryEvalLD F v l _

/-- printing a sum of roots. -/
theorem printResult_sum {l : List RT} (h : ∀ t ∈ l, t.Ok I R) (hl : RT.l1 l ≤ E.f.M) (hne : l ≠ []) :
    ∃ w : E.LD, (∀ v, Frac.tryEvalLD E.flt v (RT.frac l) = some w) ∧ ∀ s : St E, printResult E (.frac (RT.frac l)) s =
      (.ok (), s, sumText (RT.nz l) ++ (if ∀ t ∈ RT.nz l, t.N = 1 then [] else " = ".toList ++ E.showLD w) ++ ['\n']) := by
  obtain ⟨w, -, hw⟩ := sum_tryEvalLD E.flt [] l (E.flt.ofInt 0)
  have ld : ∀ v, Frac.tryEvalLD E.flt v (RT.frac l) =
      some (E.flt.div w (E.flt.add (E.flt.ofInt 0) ((Num.Real.int 1).toLD E.flt))) := by
    intro v
    unfold Frac.tryEvalLD RT.frac Poly.tryEvalLD
    simp only
    rw [hw v]
    rfl
  refine ⟨_, ld, fun s => ?_⟩
  have ha : ∀ t ∈ l, |t.a| ≤ E.f.M := fun t ht => le_trans (RT.l1_mem ht) hl
  have e1 : ∀ f, Node.normalize E.f (.frac f) = .ok (.frac f) := fun _ => rfl
  unfold printResult
  rw [lift_bind, e1]
  simp only
  rw [lift_bind, sum_toStr hg hB hR hI h ha hne]
  simp only
  rw [bind_def]
  simp only [Cmd.print]
  rw [lift_bind, sum_isInteger hg hB hR h hl]
  by_cases hw : ∀ t ∈ RT.nz l, t.N = 1
  · rw [if_pos hw, decide_eq_true (p := ∀ t ∈ RT.nz l, t.N = 1) hw]
    simp [Cmd.print]
  · have e2 : ∀ v, Node.tryEvalLD E.flt v (.frac (RT.frac l)) =
        .ok (some (E.flt.div w (E.flt.add (E.flt.ofInt 0) ((Num.Real.int 1).toLD E.flt)))) := fun v => by
      unfold Node.tryEvalLD
      rw [ld]
    simp only [hw, decide_false, Bool.false_eq_true, if_false]
    rw [bind_def]
    simp only [Cmd.get]
    rw [lift_bind, e2]
    simp [Cmd.print]

end
end Symxx.Cli
