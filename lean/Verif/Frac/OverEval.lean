import Verif.Frac.OverRat
/-!
# Dividing an integer polynomial by an integer
-/
namespace Symxx.Sym
open Symxx.Num
namespace Frac
variable {env : FEnv} {B : Nat} {D d : Int} {p : Poly}

theorem mul_one_term (h : env.toEnv.IntOk) (hD0 : 0 ≤ D) (hD : D ≤ env.M) {t : Term} (ht : t.IntLe D) (hz : t.syms.NoZero)
    (hc : |t.coe.coe.num| ≤ env.M) : Term.mul env.toEnv t (Term.con 1) = .ok t := by
  obtain ⟨q, q1, -, -, q2⟩ := scaleAll_int h hD0 hD (p := [t]) (by simpa [Poly.IntLe] using ht)
    (by rw [Poly.l1_cons, Poly.l1_nil, add_zero]; exact hc)
  rw [q2 (by simpa using hz)] at q1
  unfold scaleAll Term.ofInt Poly.mapM Poly.mapM at q1
  rw [Real.ofInt_int h (Real.abs1 h)] at q1
  simp only [Res.bind_ok] at q1
  obtain ⟨u, u1, u2⟩ := Res.bind_eq_ok.1 q1
  injection u2 with u2
  rw [show Term.ofReal (Real.int 1) = Term.con 1 from rfl] at u1
  rw [u1]
  simpa using u2

theorem products_one : ∀ {p : Poly}, (∀ t ∈ p, Term.mul env.toEnv t (Term.con 1) = .ok t) →
    Poly.products env.toEnv p [Term.con 1] = .ok p
  | [], _ => rfl
  | t :: p, h => by
    unfold Poly.products Poly.mapM Poly.mapM
    rw [h t List.mem_cons_self, Res.bind_ok, Res.bind_ok, Res.bind_ok, products_one fun u hu => h u (List.mem_cons_of_mem _ hu)]
    rfl

/-- dividing by an integer is building the quotient. -/
theorem div_number (hg : env.toEnv.Good B) (hB : 1 ≤ B) (hs : SortContract env) (hr : SortReturns env) (ht : Poly.SortTotal env)
    (hD0 : 0 ≤ D) (hD : D ≤ env.M) (hp : p.IntLe D) (hred : p.Reduced) (hd : 0 < d) (hm : p.l1 * d ≤ env.M) :
    div env ⟨p, [Term.con 1]⟩ ⟨[Term.con d], [Term.con 1]⟩ = mk2 env p [Term.con d] := by
  have ok := (hg.powOk hB).toIntOk
  have l0 : 0 < p.l1 := by
    match p, hred, hp with
    | [], hred, _ => exact absurd rfl hred.ne
    | t :: p, hred, _ =>
      rw [Poly.l1_cons]
      have := abs_pos.2 (hred.coe t List.mem_cons_self)
      have := Poly.l1_nonneg p
      omega
  have hdM : d ≤ env.M := by nlinarith
  have hlM : p.l1 ≤ env.M := by nlinarith
  have ad : |d| ≤ env.M := by rw [abs_of_pos hd]; exact hdM
  have rok : ∀ t ∈ p, t.RatOk env.M := fun t ht => by
    have := Term.over_ok hD (hp t ht) (hred.exps t ht) one_pos (le_refl 1)
      (by rw [mul_one]; exact le_trans (Poly.l1_mem ht) hlM)
    rwa [Term.over_one (hp t ht)] at this
  obtain ⟨q, q1, q2, q3⟩ := Poly.normalize_ratOk hg hB hs hr rok hred.distinct
  have e1 : Poly.mulAssign env p [Term.con 1] = .ok q := by
    unfold Poly.mulAssign
    rw [products_one fun t ht => mul_one_term ok hD0 hD (hp t ht) (hred.exps t ht) (le_trans (Poly.l1_mem ht) hlM), Res.bind_ok, q1]
  have e2 : Poly.mulAssign env [Term.con 1] [Term.con d] = .ok [Term.con d] := by
    have := mul_single ok hs.ok ht (Real.abs1 ok) ad (by rw [one_mul]; exact ad)
    rwa [one_mul] at this
  rw [mk2_con hg hB hd hdM]
  unfold div
  simp only
  rw [isZero_single ok ad]
  simp only [Res.bind_ok, hd.ne', decide_false, Bool.not_false, Res.assert_true]
  rw [e1, Res.bind_ok, e2, Res.bind_ok]
  unfold normalize
  simp only
  rw [Poly.normalize_sorted hg hB hs hr (fun t ht => rok t (q2.subset ht)) q3, q1]

end Frac
end Symxx.Sym
