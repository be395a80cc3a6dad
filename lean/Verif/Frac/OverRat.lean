import Verif.Frac.OverNum
/-!
# A polynomial with rational coefficients over a number

`Frac::normalize` first clears the denominators of the coefficients; what it then does is the case of whole coefficients
(`OverNum.lean`).
-/
namespace Symxx.Sym
open Symxx.Num

/-- a polynomial with rational coefficients in lowest terms, none of them zero, and distinct monomials with whole exponents of magnitude at
most `D`, none of them zero. -/
structure Poly.RatPoly (D : Int) (p : Poly) : Prop where
  ne : p ≠ []
  coe : ∀ t ∈ p, t.coe = Real.ofRat t.coe.coe ∧ 0 < t.coe.coe.den ∧ t.coe.coe.Lowest ∧ t.coe.coe.num ≠ 0
  syms : ∀ t ∈ p, t.syms.IntLe D ∧ t.syms.WF ∧ t.syms.NoZero
  distinct : p.Pairwise fun a b => a.syms ≠ b.syms

/-- the product of the denominators of the coefficients. -/
def Poly.dens (p : Poly) : Int := (p.map fun t => t.coe.coe.den).prod

/-- the term times `m`, with a whole coefficient. -/
def Term.whole (m : Int) (t : Term) : Term := ⟨Real.int (t.coe.coe.num * (m / t.coe.coe.den)), t.syms⟩

namespace Poly
variable {D : Int} {p q : Poly}

theorem RatPoly.perm (h : p.RatPoly D) (hq : q.Perm p) : q.RatPoly D where
  ne := fun e => h.ne (by subst e; exact List.perm_nil.1 hq.symm)
  coe := fun t ht => h.coe t (hq.subset ht)
  syms := fun t ht => h.syms t (hq.subset ht)
  distinct := (hq.pairwise_iff (R := fun a b : Term => a.syms ≠ b.syms) (fun h => Ne.symm h)).2 h.distinct

theorem dens_perm (hq : q.Perm p) : q.dens = p.dens := (hq.map _).prod_eq

theorem dens_cons (t : Term) (p : Poly) : Poly.dens (t :: p) = t.coe.coe.den * Poly.dens p := by simp [dens]

theorem dens_pos (h : ∀ t ∈ p, 0 < t.coe.coe.den) : 0 < p.dens := by
  induction p with
  | nil => simp [dens]
  | cons t p ih =>
    rw [dens_cons]
    exact mul_pos (h t List.mem_cons_self) (ih fun t ht => h t (List.mem_cons_of_mem _ ht))

theorem den_dvd {t : Term} (ht : t ∈ p) : t.coe.coe.den ∣ p.dens := by
  unfold dens
  exact List.dvd_prod (List.mem_map_of_mem ht)

theorem RatPoly.whole {m : Int} (hm : 0 < m) (h : p.RatPoly D) (hd : ∀ t ∈ p, t.coe.coe.den ∣ m) :
    IntLe D (p.map (Term.whole m)) ∧ Reduced (p.map (Term.whole m)) := by
  refine ⟨?_, ?_, ?_, ?_, ?_⟩
  · intro u hu
    obtain ⟨t, ht, rfl⟩ := List.mem_map.1 hu
    exact ⟨rfl, (h.syms t ht).1, (h.syms t ht).2.1⟩
  · simpa using h.ne
  · intro u hu
    obtain ⟨t, ht, rfl⟩ := List.mem_map.1 hu
    exact mul_ne_zero (h.coe t ht).2.2.2 (Int.ediv_pos_of_pos_of_dvd hm (h.coe t ht).2.1.le (hd t ht)).ne'
  · intro u hu
    obtain ⟨t, ht, rfl⟩ := List.mem_map.1 hu
    exact (h.syms t ht).2.2
  · exact List.pairwise_map.2 h.distinct

theorem whole_l1 {m : Int} (hm : 0 < m) (h : ∀ t ∈ p, 0 < t.coe.coe.den) : Poly.l1 (p.map (Term.whole m)) ≤ p.l1 * m := by
  induction p with
  | nil => simp [l1]
  | cons t p ih =>
    rw [List.map_cons, l1_cons, l1_cons, add_mul]
    have h1 := ih fun t ht => h t (List.mem_cons_of_mem _ ht)
    have h2 : |(t.whole m).coe.coe.num| ≤ |t.coe.coe.num| * m := by
      show |t.coe.coe.num * (m / t.coe.coe.den)| ≤ _
      rw [abs_mul, abs_of_nonneg (Int.ediv_nonneg hm.le (h t List.mem_cons_self).le)]
      exact mul_le_mul_of_nonneg_left (Int.ediv_le_self _ hm.le) (abs_nonneg _)
    omega

theorem RatPoly.ratOk {M : Int} (hD : D ≤ M) (h : p.RatPoly D) (hl : p.l1 * p.dens ≤ M) : ∀ t ∈ p, t.RatOk M := by
  intro t ht
  obtain ⟨h1, h2, h3, -⟩ := h.coe t ht
  obtain ⟨s1, s2, s3⟩ := h.syms t ht
  have hI : (t.whole 1).IntLe D := ⟨rfl, s1, s2⟩
  have d0 : 0 < p.dens := dens_pos fun t ht => (h.coe t ht).2.1
  refine ⟨h1, h2, h3, ?_, fun x hx => ⟨(s1 x hx).1, le_trans (s1 x hx).2 hD⟩, (hI.std s3).syms⟩
  exact le_trans (mul_le_mul (l1_mem ht) (Int.le_of_dvd d0 (den_dvd ht)) h2.le (l1_nonneg p)) hl

theorem whole_value {m : Int} (h : p.RatPoly D) (hd : ∀ t ∈ p, t.coe.coe.den ∣ m) (ρ : List Char → ℝ) :
    Poly.value ρ (p.map (Term.whole m)) = Poly.value ρ p * m := by
  have key : ∀ q : Poly, (∀ t ∈ q, t ∈ p) → Poly.value ρ (q.map (Term.whole m)) = Poly.value ρ q * m := by
    intro q hq
    induction q with
    | nil => simp [Poly.value]
    | cons t q ih =>
      rw [List.map_cons, value_cons, value_cons, ih fun t ht => hq t (List.mem_cons_of_mem _ ht), add_mul]
      congr 1
      obtain ⟨h1, h2, -, -⟩ := h.coe t (hq t List.mem_cons_self)
      obtain ⟨k, hk⟩ := hd t (hq t List.mem_cons_self)
      have d0 : (t.coe.coe.den : ℝ) ≠ 0 := by exact_mod_cast h2.ne'
      have e1 : t.coe.val = (t.coe.coe.num : ℝ) / t.coe.coe.den := by
        rw [h1]
        simp [Real.ofRat, Real.val, Rational.val]
      have e2 : (t.whole m).coe.val = (t.coe.coe.num : ℝ) / t.coe.coe.den * m := by
        have : m / t.coe.coe.den = k := by rw [hk, Int.mul_ediv_cancel_left _ h2.ne']
        simp only [Term.whole]
        rw [this, hk]
        simp [Real.int, Real.val, Rational.val]
        field_simp
      unfold Term.value
      rw [e1, e2]
      show _ * t.syms.value ρ = _
      ring
  exact key p fun _ h => h

end Poly

namespace Frac
variable {env : FEnv} {B : Nat} {D d : Int} {p p' : Poly}

theorem multLoop_rat {M : Int} : ∀ {p : Poly} {m : Int}, 0 < m → (∀ t ∈ p, 0 < t.coe.coe.den) → m * p.dens ≤ M →
    multLoop M p m = .ok (m * p.dens)
  | [], m, _, _, _ => by simp [multLoop, Poly.dens]
  | t :: p, m, hm, hp, hM => by
    have t0 := hp t List.mem_cons_self
    have p0 : 0 < Poly.dens p := Poly.dens_pos fun t ht => hp t (List.mem_cons_of_mem _ ht)
    rw [Poly.dens_cons, ← mul_assoc] at hM ⊢
    have hmt := mul_pos hm t0
    unfold multLoop
    rw [chk_ok (inRange_of_abs (by
      rw [abs_of_pos hmt]
      exact le_trans (le_mul_of_one_le_right hmt.le (by omega)) hM)), Res.bind_ok]
    exact multLoop_rat hmt (fun t ht => hp t (List.mem_cons_of_mem _ ht)) hM

theorem scaleAll_rat (hg : env.toEnv.Good B) (hB : 1 ≤ B) {m : Int} (hm : 0 < m) (hmM : m ≤ env.M) {p : Poly}
    (hp : ∀ t ∈ p, t.RatOk env.M) (hz : ∀ t ∈ p, t.syms.NoZero) (hd : ∀ t ∈ p, t.coe.coe.den ∣ m)
    (hl : ∀ t ∈ p, |t.coe.coe.num| * m ≤ env.M) : scaleAll env.toEnv m p = .ok (p.map (Term.whole m)) := by
  have ok := (hg.powOk hB).toIntOk
  have mm : |m| ≤ env.M := by rw [abs_of_pos hm]; exact hmM
  unfold scaleAll Term.ofInt
  rw [Real.ofInt_int ok mm]
  simp only [Res.bind_ok]
  induction p with
  | nil => rfl
  | cons t p ih =>
    have h1 := hp t List.mem_cons_self
    have l1 := hl t List.mem_cons_self
    obtain ⟨k, hk⟩ := hd t List.mem_cons_self
    have n0 := abs_nonneg t.coe.coe.num
    have dle : t.coe.coe.den ≤ m := Int.le_of_dvd hm ⟨k, hk⟩
    have k0 : 0 < k := by
      have := h1.den
      rw [hk] at hm
      exact pos_of_mul_pos_right hm this.le
    have nM : |t.coe.coe.num| ≤ env.M := by nlinarith
    have e : Term.mul env.toEnv t (Term.ofReal (Real.int m)) = .ok (t.whole m) := by
      obtain ⟨r, r1, r2⟩ := Rational.mul_canc (M := env.M) (Rational.canc_self (N := t.coe.coe.num) h1.den)
        (Rational.canc_self (N := m) one_pos) nM mm (by rw [abs_mul, abs_of_pos hm]; exact l1) (by rw [mul_one]; omega)
      obtain ⟨s1, -, -, -, s5, s6⟩ := Rational.mul_spec r1
      have er : r = ⟨t.coe.coe.num * (m / t.coe.coe.den), 1⟩ := by
        have d0 : (t.coe.coe.den : ℚ) ≠ 0 := by exact_mod_cast h1.den.ne'
        have a1 := Rational.ofQ_of (s6 h1.den one_pos) (s5 h1.low (by simp [Rational.Lowest]))
        have a2 : r.val = ((t.coe.coe.num * k : Int) : ℚ) := by
          rw [s1]
          simp only [Rational.val]
          rw [hk]
          push_cast
          field_simp
        rw [a1, a2, show m / t.coe.coe.den = k by rw [hk, Int.mul_ediv_cancel_left _ h1.den.ne']]
        unfold Rational.ofQ
        rw [Rat.num_intCast, Rat.den_intCast]
        rfl
      have hr1 : Rational.mul env.M t.coe.coe ⟨m, 1⟩ = .ok r := r1
      have e3 := Real.mul_ofRat ok hr1 (r2.fits (by rw [abs_mul, abs_of_pos hm]; exact l1) (by rw [mul_one]; omega))
      unfold Term.mul
      have e1 : Syms.merge env.M t.syms (Term.ofReal (Real.int m)).syms = .ok t.syms := rfl
      have e4 : Real.mul env.toEnv t.coe (Term.ofReal (Real.int m)).coe = .ok (Real.ofRat r) := by
        rw [h1.coe]
        exact e3
      rw [e1, Res.bind_ok, e4, Res.bind_ok, Syms.dropZero_id hg.M1 le_rfl h1.exps (hz t List.mem_cons_self), Res.bind_ok, er]
      rfl
    unfold Poly.mapM
    rw [e, Res.bind_ok, ih (fun t ht => hp t (List.mem_cons_of_mem _ ht)) (fun t ht => hz t (List.mem_cons_of_mem _ ht))
      (fun t ht => hd t (List.mem_cons_of_mem _ ht)) (fun t ht => hl t (List.mem_cons_of_mem _ ht)), Res.bind_ok]
    rfl

theorem normalize_number (hg : env.toEnv.Good B) (hB : 1 ≤ B) (hs : SortContract env) (hr : SortReturns env) {k : Int} (hk : |k| ≤ env.M) :
    Poly.normalize env [Term.con k] = .ok [Term.con k] :=
  Poly.normalize_sorted hg hB hs hr (by
    intro t ht
    rw [List.mem_singleton] at ht
    subst ht
    exact ⟨rfl, one_pos, by simp [Rational.Lowest, Term.con, Term.ofReal, Real.int], by
      show |k| * 1 ≤ _
      rw [mul_one]; exact hk, by intro p hp; simp [Term.con, Term.ofReal] at hp, by
      constructor <;> simp [Term.con, Term.ofReal]⟩) (List.pairwise_singleton _ _)

theorem con_ratPoly (D : Int) {k : Int} (hk : k ≠ 0) : Poly.RatPoly D [Term.con k] where
  ne := by simp
  coe := by
    intro t ht
    rw [List.mem_singleton] at ht
    subst ht
    exact ⟨rfl, one_pos, by simp [Rational.Lowest, Term.con, Term.ofReal, Real.int], hk⟩
  syms := by
    intro t ht
    rw [List.mem_singleton] at ht
    subst ht
    exact ⟨by intro p hp; simp [Term.con, Term.ofReal] at hp, by simp [Syms.WF, Term.con, Term.ofReal],
      by intro p hp; simp [Term.con, Term.ofReal] at hp⟩
  distinct := List.pairwise_singleton _ _

/-- clearing the denominators of the coefficients does not change what is built. -/
theorem normalize_clear (hg : env.toEnv.Good B) (hB : 1 ≤ B) (hs : SortContract env) (hr : SortReturns env) (hD : D ≤ env.M)
    (hp : p.RatPoly D) (hd : 0 < d) (hm : p.l1 * p.dens * (d * p.dens) ≤ env.M) :
    ∃ q : Poly, q.Perm p ∧ (q.Pairwise fun a b => b.syms.key < a.syms.key) ∧
      normalize env ⟨p, [Term.con d]⟩ = normalize env ⟨q.map (Term.whole p.dens), [Term.con (d * p.dens)]⟩ := by
  have d0 : 0 < p.dens := Poly.dens_pos fun t ht => (hp.coe t ht).2.1
  have l0 : 0 < p.l1 := by
    match p, hp with
    | [], hp => exact absurd rfl hp.ne
    | t :: p, hp =>
      rw [Poly.l1_cons]
      have := abs_pos.2 (hp.coe t List.mem_cons_self).2.2.2
      have := Poly.l1_nonneg p
      omega
  have b1 : 1 ≤ d * p.dens := mul_pos hd d0
  have b2 : p.l1 * p.dens ≤ env.M := le_trans (le_mul_of_one_le_right (mul_pos l0 d0).le b1) hm
  have b3 : d * p.dens ≤ env.M := le_trans (le_mul_of_one_le_left (by omega) (mul_pos l0 d0)) hm
  have b4 : p.dens ≤ env.M := le_trans (le_mul_of_one_le_left d0.le l0) b2
  have b5 : d ≤ env.M := le_trans (le_mul_of_one_le_right hd.le d0) b3
  obtain ⟨q, q1, q2, q3⟩ := Poly.normalize_ratOk hg hB hs hr (hp.ratOk hD b2) hp.distinct
  have hq := hp.perm q2
  have qd : Poly.dens q = p.dens := Poly.dens_perm q2
  have ql : Poly.l1 q = p.l1 := Poly.l1_perm q2
  have rq := hq.ratOk hD (by rw [qd, ql]; exact b2)
  have dv : ∀ t ∈ q, t.coe.coe.den ∣ p.dens := fun t ht => qd ▸ Poly.den_dvd ht
  refine ⟨q, q2, q3, ?_⟩
  have sc := scaleAll_rat hg hB d0 b4 rq (fun t ht => (hq.syms t ht).2.2) dv (fun t ht => by
    refine le_trans (mul_le_mul_of_nonneg_right (Poly.l1_mem ht) d0.le) ?_
    rw [ql]; exact b2)
  have cd := con_ratPoly D hd.ne'
  have cl : Poly.l1 [Term.con d] = d := by simp [Poly.l1, Term.con, Term.ofReal, Real.int, abs_of_pos hd]
  have cn : Poly.dens [Term.con d] = 1 := by simp [Poly.dens, Term.con, Term.ofReal, Real.int]
  have ce : [Term.con d].map (Term.whole p.dens) = [Term.con (d * p.dens)] := by
    simp [Term.whole, Term.con, Term.ofReal, Real.int]
  have sd := scaleAll_rat hg hB d0 b4 (cd.ratOk hD (by rw [cl, cn, mul_one]; exact b5)) (fun t ht => (cd.syms t ht).2.2)
    (fun t ht => by
      rw [List.mem_singleton] at ht
      subst ht
      exact one_dvd _) (fun t ht => by
      rw [List.mem_singleton] at ht
      subst ht
      show |d| * _ ≤ _
      rw [abs_of_pos hd]; exact b3)
  rw [ce] at sd
  -- the cleared fraction
  obtain ⟨w1, w2⟩ := hq.whole d0 dv
  have wl := Poly.whole_l1 (p := q) d0 fun t ht => (hq.coe t ht).2.1
  rw [ql] at wl
  have wr : Poly.RatPoly D (q.map (Term.whole p.dens)) := ⟨w2.ne, fun t ht => by
      obtain ⟨u, -, rfl⟩ := List.mem_map.1 ht
      exact ⟨rfl, one_pos, by simp [Rational.Lowest, Term.whole, Real.int], w2.coe _ ht⟩,
    fun t ht => ⟨(w1 t ht).2.1, (w1 t ht).2.2, w2.exps t ht⟩, w2.distinct⟩
  have wd : Poly.dens (q.map (Term.whole p.dens)) = 1 := by
    unfold Poly.dens
    refine List.prod_eq_one fun x hx => ?_
    obtain ⟨t, ht, rfl⟩ := List.mem_map.1 hx
    obtain ⟨u, -, rfl⟩ := List.mem_map.1 ht
    rfl
  have wok := wr.ratOk hD (by rw [wd, mul_one]; omega)
  have wn : Poly.normalize env (q.map (Term.whole p.dens)) = .ok (q.map (Term.whole p.dens)) :=
    Poly.normalize_sorted hg hB hs hr wok (List.pairwise_map.2 q3)
  have one : ∀ {r : Poly} , r.IntLe D → r.map (Term.whole 1) = r := by
    intro r h
    conv_rhs => rw [← List.map_id r]
    refine List.map_congr_left fun t ht => ?_
    have := (h t ht).1
    obtain ⟨c, s⟩ := t
    simp only [Term.whole, id] at this ⊢
    rw [this]
    simp [Real.int]
  have ws := scaleAll_rat hg hB one_pos hg.M1 wok (fun t ht => (wr.syms t ht).2.2) (fun t ht => by rw [(w1 t ht).1]; exact one_dvd _)
    (fun t ht => by rw [mul_one]; exact le_trans (Poly.l1_mem ht) (le_trans wl b2))
  rw [one w1] at ws
  have cd' := con_ratPoly D (mul_pos hd d0).ne'
  have ci : Poly.IntLe D [Term.con (d * p.dens)] := fun t ht => by
    rw [List.mem_singleton] at ht
    subst ht
    exact ⟨rfl, by intro p hp; simp [Term.con, Term.ofReal] at hp, by constructor <;> simp [Term.con, Term.ofReal]⟩
  have ad : |d * p.dens| ≤ env.M := by rw [abs_of_pos (mul_pos hd d0)]; exact b3
  have cs := scaleAll_rat hg hB one_pos hg.M1 (cd'.ratOk (M := env.M) hD (by
      have : Poly.l1 [Term.con (d * p.dens)] = |d * p.dens| := by simp [Poly.l1, Term.con, Term.ofReal, Real.int]
      rw [this]
      show _ * (1 * 1) ≤ _
      simpa using ad)) (fun t ht => (cd'.syms t ht).2.2)
    (fun t ht => by rw [(ci t ht).1]; exact one_dvd _) (fun t ht => by
      rw [List.mem_singleton] at ht
      subst ht
      show |d * p.dens| * 1 ≤ _
      rw [mul_one]; exact ad)
  rw [one ci] at cs
  have m1 : multLoop env.M [Term.con d] 1 = .ok 1 := by
    have := multLoop_rat (M := env.M) (p := [Term.con d]) one_pos (fun t ht => (cd.coe t ht).2.1) (by rw [cn]; simpa using hg.M1)
    rwa [cn, mul_one] at this
  have m2 : multLoop env.M q 1 = .ok p.dens := by
    have := multLoop_rat (M := env.M) (p := q) one_pos (fun t ht => (hq.coe t ht).2.1) (by rw [qd, one_mul]; exact b4)
    rwa [qd, one_mul] at this
  have e1 : normalize env ⟨p, [Term.con d]⟩ = normalize env ⟨q.map (Term.whole p.dens), [Term.con (d * p.dens)]⟩ := by
    unfold normalize
    simp only
    rw [q1, Res.bind_ok, normalize_number hg hB hs hr (by rw [abs_of_pos hd]; exact b5), Res.bind_ok, m1, Res.bind_ok, m2, Res.bind_ok,
      sc, Res.bind_ok, sd, Res.bind_ok, wn, Res.bind_ok, normalize_number hg hB hs hr ad, Res.bind_ok, multLoop_int hg.M1 ci, Res.bind_ok,
      multLoop_int hg.M1 w1, Res.bind_ok, ws, Res.bind_ok, cs, Res.bind_ok]
  exact e1

/-- the constructor on a non-zero number only normalises. -/
theorem mk2_con (hg : env.toEnv.Good B) (hB : 1 ≤ B) (hd : 0 < d) (hdM : d ≤ env.M) :
    mk2 env p [Term.con d] = normalize env ⟨p, [Term.con d]⟩ := by
  have ok := (hg.powOk hB).toIntOk
  have z : Poly.isZero env.toEnv [Term.con d] = .ok false := by
    unfold Poly.isZero Term.coeIs
    rw [Real.ofInt_int ok (Real.abs0 ok), Res.bind_ok, show (Term.con d).coe = Real.int d from rfl,
      Real.eq_int ok (by rw [abs_of_pos hd]; exact hdM) (Real.abs0 ok), Res.bind_ok]
    simp [hd.ne']
  unfold mk2
  rw [z, Res.bind_ok, Bool.not_false, Res.assert_true, Res.bind_ok]

/-- clearing the denominators of the coefficients does not change what is built; the cleared polynomial meets the conditions of
`OverNum.lean`. -/
theorem mk2_clear (hg : env.toEnv.Good B) (hB : 1 ≤ B) (hs : SortContract env) (hr : SortReturns env) (hD : D ≤ env.M)
    (hp : p.RatPoly D) (hd : 0 < d) (hm : p.l1 * p.dens * (d * p.dens) ≤ env.M) :
    ∃ q : Poly, q.Perm p ∧ (q.Pairwise fun a b => b.syms.key < a.syms.key) ∧
      mk2 env p [Term.con d] = mk2 env (q.map (Term.whole p.dens)) [Term.con (d * p.dens)] ∧
      Poly.IntLe D (q.map (Term.whole p.dens)) ∧ Poly.Reduced (q.map (Term.whole p.dens)) ∧ 0 < d * p.dens ∧
      Poly.l1 (q.map (Term.whole p.dens)) * (d * p.dens) ≤ env.M ∧
      ∀ ρ, Poly.value ρ (q.map (Term.whole p.dens)) / ((d * p.dens : Int) : ℝ) = Poly.value ρ p / d := by
  have d0 : 0 < p.dens := Poly.dens_pos fun t ht => (hp.coe t ht).2.1
  have l0 : 0 < p.l1 := by
    match p, hp with
    | [], hp => exact absurd rfl hp.ne
    | t :: p, hp =>
      rw [Poly.l1_cons]
      have := abs_pos.2 (hp.coe t List.mem_cons_self).2.2.2
      have := Poly.l1_nonneg p
      omega
  have b1 : 1 ≤ d * p.dens := mul_pos hd d0
  have b3 : d * p.dens ≤ env.M := le_trans (le_mul_of_one_le_left (by omega) (mul_pos l0 d0)) hm
  have b5 : d ≤ env.M := le_trans (le_mul_of_one_le_right hd.le d0) b3
  obtain ⟨q, q1, q2, q3⟩ := normalize_clear hg hB hs hr hD hp hd hm
  have hq := hp.perm q1
  have dv : ∀ t ∈ q, t.coe.coe.den ∣ p.dens := fun t ht => (Poly.dens_perm q1) ▸ Poly.den_dvd ht
  obtain ⟨w1, w2⟩ := hq.whole d0 dv
  have wl := Poly.whole_l1 (p := q) d0 fun t ht => (hq.coe t ht).2.1
  rw [Poly.l1_perm q1] at wl
  refine ⟨q, q1, q2, ?_, w1, w2, by omega, le_trans (mul_le_mul_of_nonneg_right wl (by omega)) hm, fun ρ => ?_⟩
  · rw [mk2_con hg hB hd b5, mk2_con hg hB (by omega) b3, q3]
  · have h1 : Poly.value ρ q = Poly.value ρ p := (q1.map _).sum_eq
    rw [Poly.whole_value hq dv, h1]
    have c1 : (d : ℝ) ≠ 0 := by exact_mod_cast hd.ne'
    have c2 : (p.dens : ℝ) ≠ 0 := by exact_mod_cast d0.ne'
    push_cast
    field_simp

/-- what is built, in terms of the quotients of the coefficients and the denominator. -/
theorem mk2_quot_rat (hg : env.toEnv.Good B) (hB : 1 ≤ B) (hs : SortContract env) (hr : SortReturns env) (hD0 : 0 ≤ D) (hD : D ≤ env.M)
    (hp : p.RatPoly D) (hd : 0 < d) (hm : p.l1 * p.dens * (d * p.dens) ≤ env.M) :
    ∃ q : Poly, q.Perm p ∧ (q.Pairwise fun a b => b.syms.key < a.syms.key) ∧
      mk2 env p [Term.con d] = .ok (quotForm (q.map fun t => (t.coe.coe.val / d, t.syms))) := by
  obtain ⟨q, q1, q2, q3, w1, w2, w3, w4, -⟩ := mk2_clear hg hB hs hr hD hp hd hm
  obtain ⟨r, r1, r2, r3⟩ := mk2_quot hg hB hs hr hD0 hD w1 w2 w3 w4
  have er : r = q.map (Term.whole p.dens) :=
    List.Perm.eq_of_pairwise (le := fun a b : Term => b.syms.key < a.syms.key)
      (fun a b _ _ h h' => absurd h' (lt_asymm h)) r2 (List.pairwise_map.2 q2) r1
  refine ⟨q, q1, q2, ?_⟩
  rw [q3, r3, er, List.map_map]
  congr 2
  refine List.map_congr_left fun t ht => ?_
  have t0 := (hp.coe t (q1.subset ht)).2.1
  obtain ⟨k, hk⟩ := Poly.den_dvd (q1.subset ht)
  have d0 : 0 < p.dens := Poly.dens_pos fun t ht => (hp.coe t ht).2.1
  show (((t.coe.coe.num * (p.dens / t.coe.coe.den) : Int) : ℚ) / ((d * p.dens : Int) : ℚ), t.syms) = _
  congr 1
  rw [show p.dens / t.coe.coe.den = k by rw [hk, Int.mul_ediv_cancel_left _ t0.ne']]
  have c1 : (d : ℚ) ≠ 0 := by exact_mod_cast hd.ne'
  have c2 : (t.coe.coe.den : ℚ) ≠ 0 := by exact_mod_cast t0.ne'
  have c3 : (k : ℚ) ≠ 0 := by
    rintro h
    have : k = 0 := by exact_mod_cast h
    rw [hk, this, mul_zero] at d0
    exact lt_irrefl _ d0
  unfold Rational.val
  rw [hk]
  push_cast
  field_simp

/-- what was built stays as it is. -/
theorem mk2_again (hg : env.toEnv.Good B) (hB : 1 ≤ B) (hs : SortContract env) (hr : SortReturns env) (hD0 : 0 ≤ D) (hD : D ≤ env.M)
    (hp : p.RatPoly D) (hd : 0 < d) (hm : p.l1 * p.dens * (d * p.dens) ≤ env.M) :
    ∃ (n : Poly) (b : Int), mk2 env p [Term.con d] = .ok ⟨n, [Term.con b]⟩ ∧ n.RatPoly D ∧ 0 < b ∧
      (n.l1 * n.dens * (b * n.dens) ≤ env.M → mk2 env n [Term.con b] = .ok ⟨n, [Term.con b]⟩) := by
  obtain ⟨q, q1, q2, q3⟩ := mk2_quot_rat hg hB hs hr hD0 hD hp hd hm
  have hq := hp.perm q1
  match q, q2, q3, hq with
  | [], _, _, hq => exact absurd rfl hq.ne
  | t :: ts, q2, q3, hq =>
    set b : ℕ := (t.coe.coe.val / d).den with hb
    have b0 : 0 < (b : Int) := by exact_mod_cast (t.coe.coe.val / d).den_pos
    set n : Poly := (t :: ts).map fun u => (⟨Real.ofRat (Rational.ofQ (u.coe.coe.val / d * b)), u.syms⟩ : Term) with hn
    have e : quotForm ((t :: ts).map fun t : Term => (t.coe.coe.val / d, t.syms)) = ⟨n, [Term.con b]⟩ := by
      rw [hn]
      show (⟨((t :: ts).map fun t : Term => (t.coe.coe.val / d, t.syms)).map _, _⟩ : Frac) = _
      rw [List.map_map]
      rfl
    have hn' : n.RatPoly D := by
      refine ⟨by simp [hn], ?_, ?_, ?_⟩
      · intro u hu
        obtain ⟨v, hv, rfl⟩ := List.mem_map.1 hu
        refine ⟨rfl, ?_, ?_, ?_⟩
        · show (0 : Int) < ((v.coe.coe.val / d * b).den : Int)
          exact_mod_cast Rat.den_pos _
        · exact (v.coe.coe.val / d * b).reduced
        · show (v.coe.coe.val / d * b).num ≠ 0
          have h1 := hq.coe v hv
          have c1 : (v.coe.coe.num : ℚ) ≠ 0 := by exact_mod_cast h1.2.2.2
          have c2 : (v.coe.coe.den : ℚ) ≠ 0 := by exact_mod_cast h1.2.1.ne'
          have c3 : (d : ℚ) ≠ 0 := by exact_mod_cast hd.ne'
          have c4 : (b : ℚ) ≠ 0 := by exact_mod_cast b0.ne'
          rw [Ne, Rat.num_eq_zero]
          unfold Rational.val
          positivity
      · intro u hu
        obtain ⟨v, hv, rfl⟩ := List.mem_map.1 hu
        exact hq.syms v hv
      · rw [hn]
        exact List.pairwise_map.2 hq.distinct
    refine ⟨n, b, by rw [q3, e], hn', b0, fun hm' => ?_⟩
    obtain ⟨r, r1, r2, r3⟩ := mk2_quot_rat hg hB hs hr hD0 hD hn' b0 hm'
    have ns : n.Pairwise fun a b => b.syms.key < a.syms.key := by
      rw [hn]
      exact List.pairwise_map.2 q2
    have er : r = n := List.Perm.eq_of_pairwise (le := fun a b : Term => b.syms.key < a.syms.key)
      (fun a b _ _ h h' => absurd h' (lt_asymm h)) r2 ns r1
    rw [r3, er, ← e]
    congr 2
    rw [hn, List.map_map]
    refine List.map_congr_left fun u _ => ?_
    show ((Rational.ofQ (u.coe.coe.val / d * b)).val / ((b : Int) : ℚ), u.syms) = _
    have c4 : (b : ℚ) ≠ 0 := by exact_mod_cast b0.ne'
    have : (Rational.ofQ (u.coe.coe.val / d * b)).val = u.coe.coe.val / d * b := by
      unfold Rational.val Rational.ofQ
      push_cast
      exact Rat.num_div_den _
    rw [this]
    congr 1
    push_cast
    field_simp

/-- a polynomial made into a fraction. -/
theorem ofPoly_con (hg : env.toEnv.Good B) (hB : 1 ≤ B) (hs : SortContract env) (hr : SortReturns env) :
    ofPoly env p = mk2 env p [Term.con 1] := by
  have ok := (hg.powOk hB).toIntOk
  rw [mk2_con hg hB one_pos hg.M1]
  unfold ofPoly onePoly Term.ofInt Poly.mk'
  rw [Real.ofInt_int ok (Real.abs1 ok)]
  simp only [Res.bind_ok]
  rw [show Term.ofReal (Real.int 1) = Term.con 1 from rfl, normalize_number hg hB hs hr (by simpa using hg.M1), Res.bind_ok]

end Frac
end Symxx.Sym
