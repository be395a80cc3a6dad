import Verif.Cli.Calc
/-!
# Printing an integer polynomial in a session
-/
namespace Symxx.Cli
open Symxx.Num Symxx.Sym Cmd

variable {E : CEnv}

theorem findLD_eq (v : Table E.LD) (x : List Char) : findLD E.flt v x = Table.find v x := by
  induction v with
  | nil => rfl
  | cons p t ih =>
    unfold findLD at ih ⊢
    rw [List.find?_cons]
    unfold Table.find
    by_cases h : p.1 = x
    · rw [if_pos h.symm]
      simp [h]
    · rw [if_neg (Ne.symm h), ← ih]
      simp [h]

theorem syms_none {v : Table E.LD} : ∀ {s : Syms}, s ≠ [] → (∀ p ∈ s, Table.find v p.1 = none) → ∀ r, Syms.tryEvalLD E.flt v s r = none
  | [], h, _, _ => absurd rfl h
  | p :: t, _, hv, r => by
    unfold Syms.tryEvalLD
    rw [findLD_eq, hv p (by simp)]

theorem poly_none {v : Table E.LD} : ∀ {p : Poly}, Poly.noSymbols p = false → (∀ t ∈ p, ∀ q ∈ t.syms, Table.find v q.1 = none) →
    ∀ r, Poly.tryEvalLDLoop E.flt v p r = none
  | [], h, _, _ => by simp [Poly.noSymbols] at h
  | t :: ts, h, hv, r => by
    unfold Poly.tryEvalLDLoop
    by_cases hs : t.syms = []
    · have h' : Poly.noSymbols ts = false := by simpa [Poly.noSymbols, Term.noSymbols, hs] using h
      have ih := poly_none h' fun u hu => hv u (by simp [hu])
      split
      · exact ih _
      · rfl
    · have : Term.tryEvalLD E.flt v t = none := syms_none hs (hv t (by simp)) _
      rw [this]

theorem polyIsRational_int (h : E.f.toEnv.IntOk) {D : Int} : ∀ {p : Poly}, p.IntLe D → p.l1 ≤ E.f.M → Poly.noSymbols p = true →
    polyIsRational E.f.toEnv p = .ok true
  | [], _, _, _ => rfl
  | t :: ts, hp, hl, hn => by
    have hl' : |t.coe.coe.num| + Poly.l1 ts ≤ E.f.M := by simpa [Poly.l1] using hl
    have h0 : 0 ≤ Poly.l1 ts := List.sum_nonneg (by simp)
    have h1 : 0 ≤ |t.coe.coe.num| := abs_nonneg _
    have hn' : t.noSymbols = true ∧ Poly.noSymbols ts = true := by simpa [Poly.noSymbols] using hn
    have e : Real.isRational E.f.toEnv t.coe = .ok true := by
      rw [(hp t (by simp)).1]
      exact Frac.isRational_int h (by omega)
    unfold polyIsRational Term.isRational
    rw [if_pos hn'.1, e, Res.bind_ok, if_pos rfl]
    exact polyIsRational_int h (fun u hu => hp u (by simp [hu])) (by omega) hn'.2

theorem toRationalLoop_int (h : E.f.toEnv.IntOk) {D : Int} : ∀ {p : Poly} {r : Int}, p.IntLe D → |r| + p.l1 ≤ E.f.M →
    Poly.noSymbols p = true → ∃ k : Int, |k| ≤ E.f.M ∧ Poly.toRationalLoop E.f.toEnv p ⟨r, 1⟩ = .ok ⟨k, 1⟩
  | [], r, _, hl, _ => ⟨r, by simpa [Poly.l1] using hl, rfl⟩
  | t :: ts, r, hp, hl, hn => by
    have hl' : |r| + (|t.coe.coe.num| + Poly.l1 ts) ≤ E.f.M := by simpa [Poly.l1] using hl
    have h0 : 0 ≤ Poly.l1 ts := List.sum_nonneg (by simp)
    have h1 : 0 ≤ |t.coe.coe.num| := abs_nonneg _
    have h2 : 0 ≤ |r| := abs_nonneg _
    have h3 := abs_add_le r t.coe.coe.num
    have hn' : t.noSymbols = true ∧ Poly.noSymbols ts = true := by simpa [Poly.noSymbols] using hn
    have e : Term.toRational E.f.toEnv t = .ok ⟨t.coe.coe.num, 1⟩ := by
      unfold Term.toRational
      rw [hn'.1, Res.assert_true, Res.bind_ok, (hp t (by simp)).1]
      exact Frac.toRational_real h (by show |t.coe.coe.num| ≤ _; omega)
    unfold Poly.toRationalLoop
    rw [e, Res.bind_ok, Rational.add_int h.hM (by omega) (by omega) (by omega), Res.bind_ok]
    exact toRationalLoop_int h (fun u hu => hp u (by simp [hu])) (by omega) hn'.2

theorem isInteger_closed (h : E.f.toEnv.IntOk) {D : Int} {f : Frac} (hf : f.IntPoly D) (hl : f.num.l1 ≤ E.f.M)
    (hn : Poly.noSymbols f.num = true) : isInteger E (.frac f) = .ok true := by
  obtain ⟨num, den⟩ := f
  obtain ⟨h1, -, h2⟩ := hf
  simp only at h1 h2 hl hn
  subst h2
  have hu : Poly.IntLe 0 unitPoly := unitPoly_int 0
  have hM := h.hM
  have hul : Poly.l1 unitPoly ≤ E.f.M := by
    show (|1| + 0 : Int) ≤ _
    simpa using hM
  have hun : Poly.noSymbols unitPoly = true := rfl
  have e2 : Node.tryEval E.f (.frac ⟨num, unitPoly⟩) = .ok (some ⟨num, unitPoly⟩) := rfl
  have e3 : Frac.noSymbols ⟨num, unitPoly⟩ = true := by simp [Frac.noSymbols, hn, hun]
  unfold isInteger
  rw [e2, Res.bind_ok]
  simp only
  rw [e3, if_pos rfl]
  unfold fracIsRational
  simp only
  rw [polyIsRational_int h h1 hl hn, Res.bind_ok, if_pos rfl, polyIsRational_int h hu hul hun, Res.bind_ok, if_pos rfl]
  unfold Frac.toRational Poly.toRational
  simp only
  obtain ⟨k, hk, k1⟩ := toRationalLoop_int h (r := 0) h1 (by simpa using hl) hn
  have hone : Poly.toRationalLoop E.f.toEnv unitPoly ⟨0, 1⟩ = .ok ⟨1, 1⟩ := by
    have e : Term.toRational E.f.toEnv (Term.con 1) = .ok ⟨1, 1⟩ := Frac.toRational_real h (Real.abs1 h)
    show (Term.toRational E.f.toEnv (Term.con 1) >>= fun x => _) = _
    rw [e, Res.bind_ok, Rational.add_int hM (Real.abs0 h) (Real.abs1 h) (by simpa using hM)]
    rfl
  rw [Rational.ofInt_eq _ _ (Real.abs0 h) hM, Res.bind_ok, k1, Res.bind_ok, Res.bind_ok, hone, Res.bind_ok]
  have := Rational.div_int hM (q := k) (t := 1) (by rwa [mul_one]) one_pos hM
  rw [mul_one] at this
  rw [this]
  rfl

theorem isInteger_open {f : Frac} (hn : Poly.noSymbols f.num = false) : isInteger E (.frac f) = .ok false := by
  have e2 : Node.tryEval E.f (.frac f) = .ok (some f) := rfl
  unfold isInteger
  rw [e2, Res.bind_ok]
  simp [Frac.noSymbols, hn]

/-- a polynomial is printed as its text and nothing else, unless all its symbols are constants. -/
theorem printResult_poly (h : E.f.toEnv.IntOk) {D : Int} {f : Frac} (hf : f.IntPoly D) (hl : f.num.l1 ≤ E.f.M) {t : List Char}
    (ht : Node.toStr E.f.toEnv (.frac f) = .ok t) {s : St E}
    (hc : ∀ u ∈ f.num, ∀ q ∈ u.syms, s.constants.find q.1 = none) :
    printResult E (.frac f) s = (.ok (), s, t ++ ['\n']) := by
  have e1 : Node.normalize E.f (.frac f) = .ok (.frac f) := rfl
  unfold printResult
  rw [lift_bind, e1]
  simp only
  rw [lift_bind, ht]
  simp only
  rw [bind_def]
  simp only [Cmd.print]
  rw [lift_bind]
  cases hn : Poly.noSymbols f.num
  · rw [isInteger_open hn]
    simp only [Bool.false_eq_true, if_false]
    have : Node.tryEvalLD E.flt s.constants (.frac f) = .ok none := by
      unfold Node.tryEvalLD Frac.tryEvalLD Poly.tryEvalLD
      rw [poly_none hn hc]
    rw [bind_def]
    simp only [Cmd.get]
    rw [lift_bind, this]
    rfl
  · rw [isInteger_closed h hf hl hn]
    rfl

end Symxx.Cli
