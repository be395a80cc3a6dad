import Verif.Expr.IntEval
/-!
# Printing a polynomial with integer coefficients and exponents always returns
-/
namespace Symxx.Sym
open Symxx.Num

variable {env : Env}

theorem coeIs_int (h : env.IntOk) {k j : Int} (hk : |k| ≤ env.M) (hj : |j| ≤ env.M) :
    Term.coeIs env (Num.Real.int k) j = .ok (decide (k = j)) := by
  unfold Term.coeIs
  rw [Real.ofInt_int h hj, Res.bind_ok]
  exact Real.eq_int h hk hj

theorem Real.toStr_int_total (h : env.IntOk) {k : Int} (hk : |k| ≤ env.M) : ∃ t, Num.Real.toStr env (Num.Real.int k) = .ok t := by
  unfold Num.Real.toStr
  have : (Num.Real.int k).coe = ⟨k, 1⟩ := rfl
  rw [this, Rational.eqInt_int h.hM hk (Real.abs0 h), Res.bind_ok]
  by_cases hz : k = 0
  · exact ⟨_, by rw [decide_eq_true hz, if_pos rfl]⟩
  · have : Real.isRational env (Num.Real.int k) = .ok true := by
      unfold Num.Real.isRational Num.Real.int
      rw [Rational.eqInt_int h.hM hk (Real.abs0 h), Res.bind_ok]
      split
      · rfl
      rw [Rational.eqInt_int h.hM (Real.abs1 h) (Real.abs1 h), Res.bind_ok]
      rfl
    rw [decide_eq_false hz, if_neg (by simp), this, Res.bind_ok, if_pos rfl]
    exact ⟨_, rfl⟩

theorem symsStr_total (h : env.IntOk) {D : Int} (hD : D ≤ env.M) {s : Syms} (hs : s.IntLe D) : ∃ t, Term.symsStr env s = .ok t := by
  induction s with
  | nil => exact ⟨_, rfl⟩
  | cons p s ih =>
    obtain ⟨t, ht⟩ := ih fun q hq => hs q (List.mem_cons_of_mem _ hq)
    obtain ⟨h1, h2⟩ := hs p List.mem_cons_self
    have e : p.2 = ⟨p.2.num, 1⟩ := by rw [← h1]
    unfold Term.symsStr Term.symStr
    rw [e, Rational.eqInt_int h.hM (le_trans h2 hD) (Real.abs1 h), Res.bind_ok, Res.bind_ok, ht, Res.bind_ok]
    exact ⟨_, rfl⟩

theorem Term.toStr_total (h : env.IntOk) {D : Int} (hD : D ≤ env.M) {t : Term} (ht : t.IntLe D) (hc : |t.coe.coe.num| ≤ env.M) :
    ∃ s, Term.toStr env t = .ok s := by
  obtain ⟨s, hs⟩ := symsStr_total h hD ht.2.1
  obtain ⟨r, hr⟩ := Real.toStr_int_total h hc
  unfold Term.toStr
  rw [ht.1, coeIs_int h hc (Real.abs0 h), Res.bind_ok]
  split
  · exact ⟨_, rfl⟩
  rw [coeIs_int h hc (Real.abs1 h), Res.bind_ok, coeIs_int h hc (by rw [abs_neg]; exact Real.abs1 h), Res.bind_ok, hr, hs]
  split
  · split <;> exact ⟨_, rfl⟩
  · exact ⟨_, rfl⟩

theorem Poly.strLoop_total (h : env.IntOk) {D : Int} (hD : D ≤ env.M) {p : Poly} (hp : p.IntLe D) (hl : p.l1 ≤ env.M) (b : Bool) :
    ∃ s, Poly.strLoop env p b = .ok s := by
  induction p generalizing b with
  | nil => exact ⟨_, rfl⟩
  | cons t ts ih =>
    have e1 : Poly.l1 (t :: ts) = |t.coe.coe.num| + Poly.l1 ts := by simp [Poly.l1]
    have n1 : 0 ≤ Poly.l1 ts := by
      unfold Poly.l1
      exact List.sum_nonneg fun x hx => by
        obtain ⟨u, -, rfl⟩ := List.mem_map.1 hx
        exact abs_nonneg _
    have n2 := abs_nonneg t.coe.coe.num
    have hc : |t.coe.coe.num| ≤ env.M := by omega
    have ht := hp t List.mem_cons_self
    have ih := ih (fun u hu => hp u (List.mem_cons_of_mem _ hu)) (by omega)
    obtain ⟨i1, j1⟩ := ih b
    obtain ⟨i2, j2⟩ := ih false
    obtain ⟨s, hs⟩ := Term.toStr_total h hD ht hc
    obtain ⟨u, u1, u2, u3⟩ := Term.negate_int h ht hD hc
    obtain ⟨s', hs'⟩ := Term.toStr_total h hD u2 (by rw [u3, abs_neg]; exact hc)
    have hgt : ∃ v, Term.isPositive env t = .ok v := by
      unfold Term.isPositive
      rw [Real.ofInt_int h (Real.abs0 h), Res.bind_ok, ht.1]
      exact Real.gt_int h hc (Real.abs0 h)
    obtain ⟨v, hv⟩ := hgt
    have hz : Term.coeIs env t.coe 0 = .ok (decide (t.coe.coe.num = 0)) := by
      rw [ht.1]; exact coeIs_int h hc (Real.abs0 h)
    unfold Poly.strLoop
    rw [hz, Res.bind_ok]
    split
    · exact ⟨i1, j1⟩
    split
    · rw [hs, Res.bind_ok, j2, Res.bind_ok]
      exact ⟨_, rfl⟩
    rw [hv, Res.bind_ok]
    split
    · rw [u1, Res.bind_ok, hs', Res.bind_ok, j2, Res.bind_ok]
      exact ⟨_, rfl⟩
    · rw [hs, Res.bind_ok, j2, Res.bind_ok]
      exact ⟨_, rfl⟩

theorem Poly.toStr_total (h : env.IntOk) {D : Int} (hD : D ≤ env.M) {p : Poly} (hp : p.IntLe D) (hl : p.l1 ≤ env.M) :
    ∃ s, Poly.toStr env p = .ok s := by
  have hn : ∀ p : Poly, p.IntLe D → p.l1 ≤ env.M → ∃ n, Poly.nonzeros env p = .ok n := by
    intro p hp hl
    induction p with
    | nil => exact ⟨_, rfl⟩
    | cons t ts ih =>
      have e1 : Poly.l1 (t :: ts) = |t.coe.coe.num| + Poly.l1 ts := by simp [Poly.l1]
      have n1 : 0 ≤ Poly.l1 ts := by
        unfold Poly.l1
        exact List.sum_nonneg fun x hx => by
          obtain ⟨u, -, rfl⟩ := List.mem_map.1 hx
          exact abs_nonneg _
      have n2 := abs_nonneg t.coe.coe.num
      obtain ⟨n, hn⟩ := ih (fun u hu => hp u (List.mem_cons_of_mem _ hu)) (by omega)
      have hz : Term.coeIs env t.coe 0 = .ok (decide (t.coe.coe.num = 0)) := by
        rw [(hp t List.mem_cons_self).1]; exact coeIs_int h (by omega) (Real.abs0 h)
      unfold Poly.nonzeros
      rw [hz, Res.bind_ok, hn, Res.bind_ok]
      exact ⟨_, rfl⟩
  obtain ⟨n, hn⟩ := hn p hp hl
  obtain ⟨s, hs⟩ := Poly.strLoop_total h hD hp hl true
  unfold Poly.toStr
  split
  · exact ⟨_, rfl⟩
  rw [hn, Res.bind_ok]
  split
  · exact ⟨_, rfl⟩
  · exact ⟨s, hs⟩

theorem Node.toStr_total (h : env.IntOk) {D : Int} (hD : D ≤ env.M) {f : Frac} (hf : f.IntPoly D) (hl : f.num.l1 ≤ env.M) :
    ∃ s, Node.toStr env (.frac f) = .ok s := by
  obtain ⟨s, hs⟩ := Poly.toStr_total h hD hf.num hl
  unfold Node.toStr Frac.toStr
  split
  · exact ⟨_, rfl⟩
  rw [hf.den]
  have : Frac.denIsOne env unitPoly = .ok true := by
    unfold unitPoly Frac.denIsOne
    simp only
    have := coeIs_int h (k := 1) (j := 1) (Real.abs1 h) (Real.abs1 h)
    rw [show (Term.ofReal (Num.Real.int 1)).coe = Num.Real.int 1 from rfl, this, Res.bind_ok]
    rfl
  rw [this, Res.bind_ok, if_pos rfl]
  exact ⟨s, hs⟩

end Symxx.Sym
