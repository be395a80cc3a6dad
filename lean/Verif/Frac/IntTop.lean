import Verif.Frac.FracInt
/-!
# Polynomial fractions with integer coefficients: the operations return
-/
namespace Symxx.Sym
open Symxx.Num Nat

/-- the denominator of a polynomial. -/
def unitPoly : Poly := [Term.ofReal (Real.int 1)]

theorem unitPoly_int (D : Int) : unitPoly.IntLe D := Poly.intLe_cons.2 ⟨Term.intLe_ofInt D 1, Poly.intLe_nil D⟩
theorem unitPoly_l1 : unitPoly.l1 = 1 := rfl
theorem unitPoly_reduced : unitPoly.Reduced where
  ne := by simp [unitPoly]
  coe t ht := by
    rw [unitPoly, List.mem_singleton] at ht
    subst ht
    exact one_ne_zero
  exps t ht := by
    rw [unitPoly, List.mem_singleton] at ht
    subst ht
    intro p hp
    simp [Term.ofReal] at hp
  distinct := List.pairwise_singleton _ _
theorem unitPoly_abs : ∀ t ∈ unitPoly, |t.coe.coe.num| = 1 := by
  intro t ht
  rw [unitPoly, List.mem_singleton] at ht
  subst ht
  rfl

/-- a fraction that is a polynomial with integer coefficients and exponents. -/
structure Frac.IntPoly (D : Int) (f : Frac) : Prop where
  num : f.num.IntLe D
  ne : f.num ≠ []
  den : f.den = unitPoly

theorem Frac.IntPoly.mono {D D' : Int} {f : Frac} (h : f.IntPoly D) (hD : D ≤ D') : f.IntPoly D' :=
  ⟨h.num.mono hD, h.ne, h.den⟩

namespace Poly
theorem mapM_ne {f : Term → Res Term} {p q : Poly} (h : mapM f p = .ok q) (hp : p ≠ []) : q ≠ [] := by
  match p, hp with
  | t :: ts, _ =>
    unfold mapM at h
    obtain ⟨a, -, h⟩ := Res.bind_eq_ok.1 h
    obtain ⟨b, -, h⟩ := Res.bind_eq_ok.1 h
    injection h with h
    subst h
    simp

theorem products_ne {env : Env} {p q r : Poly} (h : products env p q = .ok r) (hp : p ≠ []) (hq : q ≠ []) : r ≠ [] := by
  match p, hp with
  | t :: ts, _ =>
    unfold products at h
    obtain ⟨a, h1, h⟩ := Res.bind_eq_ok.1 h
    obtain ⟨b, -, h⟩ := Res.bind_eq_ok.1 h
    injection h with h
    subst h
    have := mapM_ne h1 hq
    simp [this]

end Poly

namespace Frac
section
variable {env : FEnv} (h : env.toEnv.IntOk) (hs : SortOk env.sort) (ht : Poly.SortTotal env)
include h hs ht

theorem normPoly_int {D : Int} (hD0 : 0 ≤ D) (hD : D ≤ env.M) {n : Poly} (hn : n.IntLe D) (ln : n.l1 ≤ env.M) (hn0 : n ≠ []) :
    ∃ r, normalize env ⟨n, unitPoly⟩ = .ok r ∧ r.IntPoly D ∧ r.num.l1 ≤ n.l1 := by
  have hM := h.hM
  obtain ⟨r, r1, r2, -, r4, -, r6, -, r8⟩ := normalize_int h hs ht hD0 hD hn (unitPoly_int D) ln (by rw [unitPoly_l1]; omega) hn0
    unitPoly_reduced (Or.inr unitPoly_abs)
  exact ⟨r, r1, ⟨r2, r6, r8 _ rfl⟩, r4⟩

theorem unitPoly_norm : Poly.normalize env unitPoly = .ok unitPoly := by
  have hM := h.hM
  obtain ⟨q, q1, q2⟩ := Poly.normalize_reduced hs ht hM (unitPoly_int 1) (by rw [unitPoly_l1]; omega) unitPoly_reduced
  rw [q1, List.perm_singleton.1 q2]
  rfl

theorem ofPoly_int {D : Int} (hD0 : 0 ≤ D) (hD : D ≤ env.M) {p : Poly} (hp : p.IntLe D) (lp : p.l1 ≤ env.M) (hp0 : p ≠ []) :
    ∃ r, ofPoly env p = .ok r ∧ r.IntPoly D ∧ r.num.l1 ≤ p.l1 := by
  unfold ofPoly
  have e : Frac.onePoly env = .ok unitPoly := by
    unfold Frac.onePoly Term.ofInt
    rw [Real.ofInt_int h (Real.abs1 h), Res.bind_ok, Res.bind_ok]
    exact unitPoly_norm h hs ht
  rw [e, Res.bind_ok]
  exact normPoly_int h hs ht hD0 hD hp lp hp0

theorem eqOne : Poly.eq env.toEnv unitPoly unitPoly = .ok true := by
  unfold Poly.eq
  rw [if_pos rfl]
  unfold unitPoly Poly.eqGo Term.eq
  simp only [Term.ofReal]
  rw [Real.eq_int h (Real.abs1 h) (Real.abs1 h), Res.bind_ok, decide_eq_true rfl, if_pos rfl]
  have : Syms.eq env.M [] [] = .ok true := by unfold Syms.eq; rw [if_pos rfl]; unfold Syms.eqGo; rfl
  rw [this, Res.bind_ok, if_pos rfl]
  unfold Poly.eqGo; rfl

theorem add_int {D : Int} (hD : D ≤ env.M) {a b : Frac} (ha : a.IntPoly D) (hb : b.IntPoly D)
    (hl : a.num.l1 + b.num.l1 ≤ env.M) :
    ∃ r, add env a b = .ok r ∧ r.IntPoly D ∧ r.num.l1 ≤ a.num.l1 + b.num.l1 := by
  obtain ⟨r, r1, r2, r3⟩ := Poly.addAssign_int h hs ht hD ha.num hb.num hl
  unfold add
  rw [ha.den, hb.den, eqOne h hs ht, Res.bind_ok, if_pos rfl, r1, Res.bind_ok]
  exact ⟨_, rfl, ⟨r2, Poly.normalize_ne hs r1 (by simp [ha.ne]), rfl⟩, r3⟩

theorem negate_int {D : Int} (hD0 : 0 ≤ D) (hD : D ≤ env.M) {a : Frac} (ha : a.IntPoly D) (hl : a.num.l1 ≤ env.M) :
    ∃ r, negate env a = .ok r ∧ r.IntPoly D ∧ r.num.l1 ≤ a.num.l1 := by
  obtain ⟨n, n1, n2, n3⟩ := Poly.negate_int h hD ha.num hl
  have nne : n ≠ [] := Poly.mapM_ne n1 ha.ne
  unfold negate mk2
  have e : Poly.isZero env.toEnv a.den = .ok false := by
    rw [ha.den]
    unfold unitPoly Poly.isZero Term.coeIs
    rw [Real.ofInt_int h (Real.abs0 h), Res.bind_ok]
    show (Real.eq env.toEnv (Real.int 1) (Real.int 0) >>= _) = _
    rw [Real.eq_int h (Real.abs1 h) (Real.abs0 h), Res.bind_ok]
    rfl
  have e2 : Res.assert (!false) divisionByZero = .ok () := rfl
  rw [n1, Res.bind_ok, e, Res.bind_ok, e2, Res.bind_ok, ha.den]
  obtain ⟨r, r1, r2, r3⟩ := normPoly_int h hs ht hD0 hD n2 (by omega) nne
  exact ⟨r, r1, r2, by omega⟩

theorem sub_int {D : Int} (hD0 : 0 ≤ D) (hD : D ≤ env.M) {a b : Frac} (ha : a.IntPoly D) (hb : b.IntPoly D)
    (hl : a.num.l1 + b.num.l1 ≤ env.M) :
    ∃ r, sub env a b = .ok r ∧ r.IntPoly D ∧ r.num.l1 ≤ a.num.l1 + b.num.l1 := by
  have n1 := Poly.l1_nonneg a.num
  obtain ⟨nb, e1, e2, e3⟩ := negate_int h hs ht hD0 hD hb (by omega)
  obtain ⟨r, r1, r2, r3⟩ := add_int h hs ht hD ha e2 (by omega)
  unfold sub
  rw [e1, Res.bind_ok]
  exact ⟨r, r1, r2, by omega⟩

theorem unitPoly_mul : Poly.mulAssign env unitPoly unitPoly = .ok unitPoly := by
  have hM := h.hM
  unfold Poly.mulAssign
  have e : Poly.products env.toEnv unitPoly unitPoly = .ok unitPoly := by
    unfold unitPoly Poly.products Poly.mapM
    have : Term.mul env.toEnv (Term.ofReal (Real.int 1)) (Term.ofReal (Real.int 1)) = .ok (Term.ofReal (Real.int 1)) := by
      unfold Term.mul
      have e1 : Syms.merge env.M (Term.ofReal (Real.int 1)).syms (Term.ofReal (Real.int 1)).syms = .ok [] := rfl
      have e2 : Real.mul env.toEnv (Term.ofReal (Real.int 1)).coe (Term.ofReal (Real.int 1)).coe = .ok (Real.int (1 * 1)) :=
        Real.mul_int h (Real.abs1 h) (Real.abs1 h) (by simpa using hM)
      rw [e1, Res.bind_ok, e2, Res.bind_ok]
      rfl
    rw [this, Res.bind_ok]
    rfl
  rw [e, Res.bind_ok]
  exact unitPoly_norm h hs ht

theorem mul_int {D1 D2 : Int} (h1 : 0 ≤ D1) (h2 : 0 ≤ D2) (hD : D1 + D2 ≤ env.M) {a b : Frac} (ha : a.IntPoly D1)
    (hb : b.IntPoly D2) (ka : a.num.l1 ≤ env.M) (kb : b.num.l1 ≤ env.M) (hl : a.num.l1 * b.num.l1 ≤ env.M) :
    ∃ r, mul env a b = .ok r ∧ r.IntPoly (D1 + D2) ∧ r.num.l1 ≤ a.num.l1 * b.num.l1 := by
  obtain ⟨n, n1, n2, n3⟩ := Poly.products_int h h1 h2 hD ha.num hb.num ka kb hl
  obtain ⟨m, m1, m2, m3⟩ := Poly.normalize_int h hs ht hD n2 (by omega)
  have mne := Poly.normalize_ne hs m1 (Poly.products_ne n1 ha.ne hb.ne)
  obtain ⟨r, r1, r2, r3⟩ := normPoly_int h hs ht (add_nonneg h1 h2) hD m2 (by omega) mne
  have e : Poly.mulAssign env a.num b.num = .ok m := by unfold Poly.mulAssign; rw [n1, Res.bind_ok, m1]
  unfold mul
  rw [e, Res.bind_ok, ha.den, hb.den, unitPoly_mul h hs ht, Res.bind_ok]
  exact ⟨r, r1, r2, by omega⟩

end
end Frac

/-! ### the concrete environment -/

theorem insertM_int {env : Env} (h : env.IntOk) {D : Int} (hD : D ≤ env.M) {t : Term} (ht : t.IntLe D)
    (kt : |t.coe.coe.num| ≤ env.M) {p : Poly} (hp : p.IntLe D) (kp : ∀ u ∈ p, |u.coe.coe.num| ≤ env.M) :
    ∃ q, insertM env t p = .ok q := by
  induction p with
  | nil => exact ⟨_, rfl⟩
  | cons u p ih =>
    obtain ⟨h1, h2⟩ := Poly.intLe_cons.1 hp
    obtain ⟨v, hv⟩ := Term.before_int h ht h1 hD kt (kp u List.mem_cons_self)
    obtain ⟨q, hq⟩ := ih h2 fun u hu => kp u (List.mem_cons_of_mem _ hu)
    unfold insertM
    rw [hv, Res.bind_ok]
    split
    · exact ⟨_, rfl⟩
    · rw [hq, Res.bind_ok]
      exact ⟨_, rfl⟩

/-- the insertion sort of the examples returns on every integer polynomial. -/
theorem sortM_total (env : FEnv) (h : env.toEnv.IntOk) (hs : env.sort = sortM env.toEnv) : Poly.SortTotal env := by
  intro D p hD hp hl
  rw [hs]
  induction p with
  | nil => exact ⟨_, rfl⟩
  | cons t p ih =>
    obtain ⟨h1, h2⟩ := Poly.intLe_cons.1 hp
    rw [Poly.l1_cons] at hl
    have n1 := Poly.l1_nonneg p
    have n2 := abs_nonneg t.coe.coe.num
    obtain ⟨q, hq⟩ := ih h2 (by omega)
    have hperm := sortM_ok env.toEnv p q hq
    unfold sortM
    rw [hq, Res.bind_ok]
    exact insertM_int h hD h1 (by omega) (h2.perm hperm) fun u hu =>
      le_trans (Poly.l1_mem (hperm.subset hu)) (by omega)

theorem fenv64_total : Poly.SortTotal fenv64 :=
  sortM_total fenv64 (fenv64_good.powOk (by norm_num)).toIntOk rfl

theorem SortTotal.checked {env : FEnv} (h : Poly.SortTotal env) (B : Nat) : Poly.SortTotal (env.checked B) := h

theorem Term.IntLe.wf {D : Int} {t : Term} (h : t.IntLe D) : t.WF where
  coe := by rw [h.1]; exact re_valid _ 1 (by norm_num)
  syms := h.2.2

theorem Poly.IntLe.wf {D : Int} {p : Poly} (h : p.IntLe D) : p.WF := fun t ht => (h t ht).wf

theorem Frac.IntPoly.wf {D : Int} {f : Frac} (h : f.IntPoly D) : f.WF :=
  ⟨h.num.wf, by rw [h.den]; exact (unitPoly_int 0).wf⟩

end Symxx.Sym
