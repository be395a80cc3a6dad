import Verif.Frac.IntPow
/-!
# Fractions of integer polynomials: normalisation returns
-/
namespace Symxx.Num
namespace Real

/-- exact division of integers. -/
theorem div_int {env : Env} (h : env.IntOk) {q t : Int} (hq : |q * t| ≤ env.M) (ht : 0 < t) (htM : t ≤ env.M) :
    div env (int (q * t)) (int t) = .ok (int q) := by
  have hM := h.hM
  have h1 : |(1 : Int)| ≤ env.M := by simpa using hM
  have ht' : |t| ≤ env.M := by rw [abs_of_pos ht]; exact htM
  have hqM : |q| ≤ env.M := by
    rw [abs_mul, abs_of_pos ht] at hq
    have := abs_nonneg q
    nlinarith
  have e1 : Rational.inverse env.M ⟨t, 1⟩ = .ok ⟨1, t⟩ := by
    unfold Rational.inverse Rational.mk2
    have e0 : Res.assert (decide (t ≠ 0)) divisionByZero = .ok () := by simp [Res.assert, ht.ne']
    rw [e0, Res.bind_ok, Rational.normalize_eq env.M 1 t h1 ht' ht.ne']
    have hg : (Int.gcd 1 t : Int) = 1 := by simp
    simp only [hg, Int.tdiv_one]
    rw [if_neg (by omega)]
  have e2 : Rational.inverse env.M ⟨1, 1⟩ = .ok ⟨1, 1⟩ := by
    unfold Rational.inverse Rational.mk2
    have e0 : Res.assert (decide ((1 : Int) ≠ 0)) divisionByZero = .ok () := rfl
    rw [e0, Res.bind_ok]
    exact Rational.normalize_int env.M 1 h1 hM
  have e3 := Rational.div_int (M := env.M) (q := q) (t := t) hM hq ht htM
  unfold Rational.div at e3
  rw [e1, Res.bind_ok] at e3
  unfold div inverse
  simp only [int]
  rw [e1, Res.bind_ok, e2, Res.bind_ok, Res.bind_ok]
  unfold mul lcmU ratOfIndex
  have hl1 : ((Nat.lcm 1 1 : Nat) : Int) ≤ 2 * env.M + 1 := by simp; omega
  have hw : wrap env.M ((1 / 1 : Nat) : Int) = 1 := wrap_of_range (inRange_of_abs (by simpa using hM))
  have hl : Nat.lcm 1 1 = 1 := rfl
  have hp : Rational.pow env.M env.fl ⟨1, 1⟩ ⟨1, 1⟩ = .ok ⟨1, 1⟩ := by
    unfold Rational.pow
    rw [Rational.eqInt_int h.hM (abs1 h) (abs0 h), Res.bind_ok]
    simp only [one_ne_zero, decide_false, Bool.false_eq_true, if_false]
    rw [Rational.eqInt_int h.hM (abs1 h) (abs1 h), Res.bind_ok]
    simp
  simp only
  rw [if_pos hl1, Res.bind_ok, if_neg (by norm_num), hl, hw, Rational.ofInt_eq _ _ (abs1 h) h.hM, Res.bind_ok, hp]
  simp only [Res.bind_ok, hp]
  rw [Rational.mul_int h.hM (abs1 h) (abs1 h) (by simpa using hM), Res.bind_ok, e3, Res.bind_ok]
  exact normalize_int' h hqM

end Real
end Symxx.Num

namespace Symxx.Sym
open Symxx.Num

/-- no exponent is zero. -/
def Syms.NoZero (s : Syms) : Prop := ∀ p ∈ s, p.2.num ≠ 0

theorem Syms.dropZero_id {M D : Int} (hM : 1 ≤ M) (hD : D ≤ M) {s : Syms} (hs : s.IntLe D) (hz : s.NoZero) :
    dropZero M s = .ok s := by
  induction s with
  | nil => rfl
  | cons p s ih =>
    obtain ⟨k, v⟩ := p
    obtain ⟨⟨v1, v2⟩, v3⟩ := intLe_cons.1 hs
    simp only at v1 v2
    have hv : v.num ≠ 0 := hz _ List.mem_cons_self
    unfold dropZero
    have e3 : Rational.eqInt M v 0 = .ok (decide (v.num = 0)) := by
      rw [den_one v1]
      exact Rational.eqInt_int hM (le_trans v2 hD) (by simp; omega)
    rw [e3, Res.bind_ok, ih v3 fun p hp => hz p (List.mem_cons_of_mem _ hp), Res.bind_ok]
    simp [hv]

theorem Syms.eq_ne {M D : Int} (hD : D ≤ M) {s t : Syms} (hs : s.IntLe D) (ht : t.IntLe D) (hne : s ≠ t) :
    eq M s t = .ok false := by
  unfold eq
  split
  swap
  · rfl
  rename_i hl
  clear * - hs ht hD hne hl
  induction s generalizing t with
  | nil => exact absurd (List.length_eq_zero_iff.1 hl.symm).symm hne
  | cons p s ih =>
    match t, ht with
    | [], _ => simp at hl
    | q :: t, ht =>
      obtain ⟨k, v⟩ := p
      obtain ⟨k', v'⟩ := q
      obtain ⟨⟨a1, a2⟩, a3⟩ := intLe_cons.1 hs
      obtain ⟨⟨b1, b2⟩, b3⟩ := intLe_cons.1 ht
      simp only at a1 a2 b1 b2
      unfold eqGo
      by_cases hk : k = k'
      swap
      · rw [if_neg hk]
      rw [if_pos hk]
      have : Rational.eq M v v' = .ok (decide (v.num = v'.num)) := by
        rw [den_one a1, den_one b1]
        exact Rational.eq_int (le_trans a2 hD) (le_trans b2 hD)
      rw [this, Res.bind_ok]
      by_cases hv : v.num = v'.num
      swap
      · simp [hv]
      rw [decide_eq_true hv, if_pos rfl]
      refine ih a3 b3 (fun e => hne ?_) (by simpa using hl)
      rw [den_one a1, den_one b1, hv, hk, e]

/-- distinct monomials, non-zero coefficients, no zero exponents. -/
structure Poly.Reduced (p : Poly) : Prop where
  ne : p ≠ []
  coe : ∀ t ∈ p, t.coe.coe.num ≠ 0
  exps : ∀ t ∈ p, t.syms.NoZero
  distinct : p.Pairwise fun a b => a.syms ≠ b.syms

namespace Poly
variable {env : FEnv}

theorem mergeAdj_id {env : Env} {D : Int} (hD : D ≤ env.M) : ∀ {p : Poly}, IntLe D p →
    p.Pairwise (fun a b => a.syms ≠ b.syms) → mergeAdj env p = .ok p
  | [], _, _ => by unfold mergeAdj; rfl
  | [t], _, _ => by unfold mergeAdj; rfl
  | a :: b :: rest, hp, hd => by
    obtain ⟨ha, hp'⟩ := intLe_cons.1 hp
    obtain ⟨hb, hr⟩ := intLe_cons.1 hp'
    have e : Term.isEquivalentWith env a b = .ok false := by
      unfold Term.isEquivalentWith
      rw [Syms.eq_ne hD ha.2.1 hb.2.1 ((List.pairwise_cons.1 hd).1 b List.mem_cons_self), Res.bind_ok]
      rfl
    unfold mergeAdj
    rw [e, Res.bind_ok, if_neg (by simp), mergeAdj_id hD hp' (List.pairwise_cons.1 hd).2, Res.bind_ok]
termination_by p => p.length

theorem mergeAdj_ne {env : Env} : ∀ {p q : Poly}, mergeAdj env p = .ok q → p ≠ [] → q ≠ []
  | [], _, _, hne => absurd rfl hne
  | [t], q, h, _ => by
    unfold mergeAdj at h
    injection h with h
    subst h
    simp
  | a :: b :: rest, q, h, _ => by
    unfold mergeAdj at h
    obtain ⟨v, h1, h⟩ := Res.bind_eq_ok.1 h
    split at h
    · obtain ⟨c, h2, h⟩ := Res.bind_eq_ok.1 h
      obtain ⟨t, h3, h⟩ := Res.bind_eq_ok.1 h
      exact mergeAdj_ne h (by simp)
    · obtain ⟨c, h2, h⟩ := Res.bind_eq_ok.1 h
      injection h with h
      subst h
      simp
termination_by p => p.length

theorem normalize_ne (hs : SortOk env.sort) {p q : Poly} (h : normalize env p = .ok q) (hne : p ≠ []) : q ≠ [] := by
  unfold normalize at h
  obtain ⟨p', h1, h⟩ := Res.bind_eq_ok.1 h
  refine mergeAdj_ne h ?_
  rintro rfl
  exact hne (List.Perm.nil_eq (hs _ _ h1)).symm

theorem Reduced.perm {p q : Poly} (h : p.Reduced) (hq : q.Perm p) : q.Reduced where
  ne := by
    rintro rfl
    exact h.ne (List.Perm.nil_eq hq).symm
  coe t ht := h.coe t (hq.subset ht)
  exps t ht := h.exps t (hq.subset ht)
  distinct := (hq.pairwise_iff (R := fun a b => a.syms ≠ b.syms) (fun h => Ne.symm h)).2 h.distinct

theorem IntLe.perm {D : Int} {p q : Poly} (h : IntLe D p) (hq : q.Perm p) : IntLe D q := fun t ht => h t (hq.subset ht)

theorem normalize_reduced (hs : SortOk env.sort) (ht : SortTotal env) {D : Int} (hD : D ≤ env.M) {p : Poly}
    (hp : IntLe D p) (hl : l1 p ≤ env.M) (hr : p.Reduced) : ∃ q, normalize env p = .ok q ∧ q.Perm p := by
  obtain ⟨p', e⟩ := ht D p hD hp hl
  have hperm := hs p p' e
  unfold normalize
  rw [e, Res.bind_ok, mergeAdj_id hD (hp.perm hperm) (hr.perm hperm).distinct]
  exact ⟨_, rfl, hperm⟩

end Poly

namespace Frac

theorem multLoop_int {M D : Int} (hM : 1 ≤ M) {p : Poly} (hp : Poly.IntLe D p) : multLoop M p 1 = .ok 1 := by
  induction p with
  | nil => rfl
  | cons t p ih =>
    obtain ⟨h1, h2⟩ := Poly.intLe_cons.1 hp
    unfold multLoop
    have : t.coe.coe.den = 1 := by rw [h1.1]; rfl
    rw [this, mul_one, chk_ok (inRange_of_abs (by simpa using hM)), Res.bind_ok]
    exact ih h2

theorem scaleAll_int {env : Env} (h : env.IntOk) {D : Int} (hD0 : 0 ≤ D) (hD : D ≤ env.M) {p : Poly} (hp : Poly.IntLe D p)
    (hl : p.l1 ≤ env.M) : ∃ q, scaleAll env 1 p = .ok q ∧ q.IntLe D ∧ q.map (·.coe.coe.num) = p.map (·.coe.coe.num) ∧
      ((∀ t ∈ p, t.syms.NoZero) → q = p) := by
  unfold scaleAll Term.ofInt
  rw [Real.ofInt_int h (Real.abs1 h)]
  simp only [Res.bind_ok]
  induction p with
  | nil => exact ⟨_, rfl, Poly.intLe_nil _, rfl, fun _ => rfl⟩
  | cons t p ih =>
    obtain ⟨h1, h2⟩ := Poly.intLe_cons.1 hp
    rw [Poly.l1_cons] at hl
    have n1 := Poly.l1_nonneg p
    have n2 := abs_nonneg t.coe.coe.num
    obtain ⟨q, q1, q2, q3, q4⟩ := ih h2 (by omega)
    have hone : (Term.ofReal (Real.int 1)).coe.coe.num = 1 := rfl
    obtain ⟨u, u1, u2, u3⟩ := Term.mul_int h h1 (Term.intLe_ofInt 0 1) hD0 le_rfl (by omega) (by omega) (Real.abs1 h)
      (by rw [hone, mul_one]; omega)
    rw [hone, mul_one] at u3
    rw [add_zero] at u2
    unfold Poly.mapM
    rw [u1, Res.bind_ok, q1, Res.bind_ok]
    refine ⟨_, rfl, Poly.intLe_cons.2 ⟨u2, q2⟩, by simp [q3, u3], fun hz => ?_⟩
    rw [q4 fun t ht => hz t (List.mem_cons_of_mem _ ht)]
    congr 1
    unfold Term.mul at u1
    have e1 : Syms.merge env.M t.syms (Term.ofReal (Real.int 1)).syms = .ok t.syms := rfl
    obtain ⟨c, c1, u1⟩ := Res.bind_eq_ok.1 u1
    rw [e1] at c1
    injection c1 with c1
    subst c1
    obtain ⟨c, -, u1⟩ := Res.bind_eq_ok.1 u1
    rw [Syms.dropZero_id h.hM hD h1.2.1 (hz t List.mem_cons_self), Res.bind_ok] at u1
    injection u1 with u1
    have hc : u.coe = t.coe := by rw [u2.1, h1.1, u3]
    have hsy : u.syms = t.syms := by rw [← u1]
    cases u; cases t; simp_all

theorem toT_int {M k : Int} (hk : |k| ≤ M) : Rational.toT M ⟨k, 1⟩ = .ok k :=
  divT_ok.2 ⟨by norm_num, inRange_of_abs (by simpa using hk), by simp⟩

theorem gcdInner_int {M D : Int} {n : Term} (hn : n.IntLe D) (kn : |n.coe.coe.num| ≤ M) {ds : Poly} (hd : Poly.IntLe D ds)
    (kd : ∀ t ∈ ds, |t.coe.coe.num| ≤ M) (hz : ∀ t ∈ ds, t.coe.coe.num ≠ 0) {g : Int} (hg : 0 < g) :
    ∃ v, gcdInner M n ds g = .ok v ∧ ∀ r, v = some r → 0 < r ∧ r ∣ g ∧ (∀ t ∈ ds, r ∣ t.coe.coe.num) ∧
      (ds ≠ [] → r ∣ n.coe.coe.num) := by
  induction ds generalizing g with
  | nil => exact ⟨_, rfl, by rintro r ⟨⟩; exact ⟨hg, dvd_rfl, by simp, by simp⟩⟩
  | cons d ds ih =>
    obtain ⟨h1, h2⟩ := Poly.intLe_cons.1 hd
    have k1 := kd d List.mem_cons_self
    have z1 := hz d List.mem_cons_self
    have e1 : Rational.toT M n.coe.coe = .ok n.coe.coe.num := by
      have : n.coe.coe = ⟨n.coe.coe.num, 1⟩ := by rw [hn.1]; rfl
      rw [this]; exact toT_int kn
    have e2 : Rational.toT M d.coe.coe = .ok d.coe.coe.num := by
      have : d.coe.coe = ⟨d.coe.coe.num, 1⟩ := by rw [h1.1]; rfl
      rw [this]; exact toT_int k1
    have e3 : gcdT M n.coe.coe.num d.coe.coe.num = .ok (Int.gcd n.coe.coe.num d.coe.coe.num : Int) :=
      gcdT_ok.2 ⟨⟨kn, k1⟩, rfl⟩
    have gp : 0 < (Int.gcd n.coe.coe.num d.coe.coe.num : Int) := by
      exact_mod_cast Int.gcd_pos_iff.2 (Or.inr z1)
    unfold gcdInner
    rw [e1, Res.bind_ok, e2, Res.bind_ok, e3, Res.bind_ok, if_neg gp.ne']
    split
    swap
    · exact ⟨_, rfl, by simp⟩
    rename_i hm
    have hdv : (Int.gcd n.coe.coe.num d.coe.coe.num : Int) ∣ g := Int.dvd_of_tmod_eq_zero hm
    have hmin : min g (Int.gcd n.coe.coe.num d.coe.coe.num : Int) = (Int.gcd n.coe.coe.num d.coe.coe.num : Int) :=
      min_eq_right (Int.le_of_dvd hg hdv)
    rw [hmin]
    obtain ⟨v, v1, v2⟩ := ih h2 (fun t ht => kd t (List.mem_cons_of_mem _ ht)) (fun t ht => hz t (List.mem_cons_of_mem _ ht)) gp
    refine ⟨v, v1, fun r hr => ?_⟩
    obtain ⟨r1, r2, r3, -⟩ := v2 r hr
    refine ⟨r1, r2.trans hdv, ?_, fun _ => r2.trans (Int.gcd_dvd_left ..)⟩
    intro t ht
    rcases List.mem_cons.1 ht with rfl | ht
    · exact r2.trans (Int.gcd_dvd_right ..)
    · exact r3 t ht

theorem gcdOuter_int {M D : Int} {den : Poly} (hd : Poly.IntLe D den)
    (kd : ∀ t ∈ den, |t.coe.coe.num| ≤ M) (hz : ∀ t ∈ den, t.coe.coe.num ≠ 0) {ns : Poly} (hn : Poly.IntLe D ns)
    (kn : ∀ t ∈ ns, |t.coe.coe.num| ≤ M) {g : Int} (hg : 0 < g) :
    ∃ v, gcdOuter M den ns g = .ok v ∧ ∀ r, v = some r → 0 < r ∧ r ∣ g ∧ (ns ≠ [] → ∀ t ∈ den.tail, r ∣ t.coe.coe.num) ∧
      (den.tail ≠ [] → ∀ t ∈ ns, r ∣ t.coe.coe.num) := by
  have ht : ∀ t ∈ den.tail, t ∈ den := fun t ht => List.mem_of_mem_tail ht
  induction ns generalizing g with
  | nil => exact ⟨_, rfl, by rintro r ⟨⟩; exact ⟨hg, dvd_rfl, by simp, by simp⟩⟩
  | cons n ns ih =>
    obtain ⟨h1, h2⟩ := Poly.intLe_cons.1 hn
    obtain ⟨v, v1, v2⟩ := gcdInner_int (ds := den.tail) h1 (kn n List.mem_cons_self) (fun t h => hd t (ht t h))
      (fun t h => kd t (ht t h)) (fun t h => hz t (ht t h)) hg
    unfold gcdOuter
    rw [v1, Res.bind_ok]
    cases v with
    | none => exact ⟨_, rfl, by simp⟩
    | some g' =>
      obtain ⟨a1, a2, a3, a4⟩ := v2 g' rfl
      obtain ⟨w, w1, w2⟩ := ih h2 (fun t ht => kn t (List.mem_cons_of_mem _ ht)) a1
      refine ⟨w, w1, fun r hr => ?_⟩
      obtain ⟨b1, b2, -, b4⟩ := w2 r hr
      refine ⟨b1, b2.trans a2, fun _ t ht => b2.trans (a3 t ht), fun hne t ht => ?_⟩
      rcases List.mem_cons.1 ht with rfl | ht
      · exact b2.trans (a4 hne)
      · exact b4 hne t ht

theorem mapDiv_int {env : Env} (h : env.IntOk) {D g : Int} (hD : D ≤ env.M) (hg : 0 < g) (hgM : g ≤ env.M) {p : Poly}
    (hp : Poly.IntLe D p) (hl : p.l1 ≤ env.M) (hd : ∀ t ∈ p, g ∣ t.coe.coe.num) :
    ∃ q, Poly.mapM (fun t => Term.divReal env t (Real.int g)) p = .ok q ∧ q.IntLe D ∧ q.l1 ≤ p.l1 ∧ (p ≠ [] → q ≠ []) ∧
      ((∀ t ∈ p, t.syms.NoZero) → q.map (·.syms) = p.map (·.syms)) ∧
      ((∀ t ∈ p, t.coe.coe.num ≠ 0) → ∀ t ∈ q, t.coe.coe.num ≠ 0) ∧ (g = 1 → (∀ t ∈ p, t.syms.NoZero) → q = p) := by
  induction p with
  | nil => exact ⟨_, rfl, Poly.intLe_nil _, le_rfl, fun h => h, fun _ => rfl, fun _ => by simp, fun _ _ => rfl⟩
  | cons t p ih =>
    obtain ⟨h1, h2⟩ := Poly.intLe_cons.1 hp
    rw [Poly.l1_cons] at hl
    have n1 := Poly.l1_nonneg p
    have n2 := abs_nonneg t.coe.coe.num
    obtain ⟨q, q1, q2, q3, q4, q5, q6, q7⟩ := ih h2 (by omega) fun t ht => hd t (List.mem_cons_of_mem _ ht)
    obtain ⟨c, hc⟩ := hd t List.mem_cons_self
    rw [mul_comm] at hc
    obtain ⟨s, s1, s2⟩ := Syms.dropZero_int h.hM hD h1.2.1
    have e1 : Real.div env t.coe (Real.int g) = .ok (Real.int c) := by
      rw [h1.1, hc]; exact Real.div_int h (by rw [← hc]; omega) hg hgM
    have hcl : |c| ≤ |t.coe.coe.num| := by
      rw [hc, abs_mul, abs_of_pos hg]
      exact le_mul_of_one_le_right (abs_nonneg _) (by omega)
    have e2 : Term.divReal env t (Real.int g) = .ok ⟨Real.int c, s⟩ := by
      unfold Term.divReal
      rw [e1, Res.bind_ok, s1, Res.bind_ok]
    unfold Poly.mapM
    rw [e2, Res.bind_ok, q1, Res.bind_ok]
    refine ⟨_, rfl, Poly.intLe_cons.2 ⟨⟨rfl, s2, Syms.wf_of_checked h1.2.2 s1⟩, q2⟩, ?_, by simp, ?_, ?_, ?_⟩
    · rw [Poly.l1_cons, Poly.l1_cons]
      show |c| + _ ≤ _
      omega
    · intro hz
      rw [List.map_cons, List.map_cons, q5 fun t ht => hz t (List.mem_cons_of_mem _ ht)]
      rw [Syms.dropZero_id h.hM hD h1.2.1 (hz t List.mem_cons_self)] at s1
      injection s1 with s1
      rw [s1]
    · intro hz u hu
      rcases List.mem_cons.1 hu with rfl | hu
      · show c ≠ 0
        rintro rfl
        exact hz t List.mem_cons_self (by rw [hc]; ring)
      · exact q6 (fun t ht => hz t (List.mem_cons_of_mem _ ht)) u hu
    · intro g1 hz
      rw [q7 g1 fun t ht => hz t (List.mem_cons_of_mem _ ht)]
      rw [Syms.dropZero_id h.hM hD h1.2.1 (hz t List.mem_cons_self)] at s1
      injection s1 with s1
      rw [g1, mul_one] at hc
      congr 1
      have := h1.1
      cases t
      simp_all

section
variable {env : FEnv} (h : env.toEnv.IntOk) (hs : SortOk env.sort) (ht : Poly.SortTotal env)
include h hs ht

/-- the normalisation of a fraction of integer polynomials returns, when the denominator is in lowest terms as a
polynomial and is not a single term with a coefficient other than 1, -1. -/
theorem normalize_int {D : Int} (hD0 : 0 ≤ D) (hD : D ≤ env.M) {n d : Poly} (hn : n.IntLe D) (hd : d.IntLe D)
    (ln : n.l1 ≤ env.M) (ld : d.l1 ≤ env.M) (hn0 : n ≠ []) (hr : d.Reduced)
    (hlen : 2 ≤ d.length ∨ ∀ t ∈ d, |t.coe.coe.num| = 1) :
    ∃ r, normalize env ⟨n, d⟩ = .ok r ∧ r.num.IntLe D ∧ r.den.IntLe D ∧ r.num.l1 ≤ n.l1 ∧ r.den.l1 ≤ d.l1 ∧ r.num ≠ [] ∧
      r.den.Reduced ∧ (∀ t : Term, d = [t] → r.den = [t]) := by
  have hM := h.hM
  obtain ⟨n1, en1, n1i, n1l⟩ := Poly.normalize_int h hs ht hD hn ln
  have n1ne : n1 ≠ [] := Poly.normalize_ne hs en1 hn0
  obtain ⟨d1, ed1, dp⟩ := Poly.normalize_reduced hs ht hD hd ld hr
  have d1i := hd.perm dp
  have d1r := hr.perm dp
  have d1l : d1.l1 = d.l1 := Poly.l1_perm dp
  obtain ⟨n2, en2, n2i, n2c, -⟩ := scaleAll_int h hD0 hD n1i (by omega)
  obtain ⟨d2, ed2, d2i, -, d2e⟩ := scaleAll_int h hD0 hD d1i (by omega)
  rw [d2e d1r.exps] at ed2
  clear d2i d2e d2
  have n2l : n2.l1 = n1.l1 := by
    have : ∀ p : Poly, p.l1 = ((p.map (·.coe.coe.num)).map abs).sum := fun p => by
      unfold Poly.l1; rw [List.map_map]; rfl
    rw [this, this, n2c]
  have n2ne : n2 ≠ [] := by
    rintro rfl
    exact n1ne (by simpa using n2c.symm)
  unfold normalize
  simp only
  rw [en1, Res.bind_ok, ed1, Res.bind_ok, multLoop_int hM d1i, Res.bind_ok, multLoop_int hM n1i, Res.bind_ok, en2, Res.bind_ok,
    ed2, Res.bind_ok]
  have kd : ∀ t ∈ d1, |t.coe.coe.num| ≤ env.M := fun t ht => le_trans (Poly.l1_mem ht) (by omega)
  have kn : ∀ t ∈ n2, |t.coe.coe.num| ≤ env.M := fun t ht => le_trans (Poly.l1_mem ht) (by omega)
  have hsing : ∀ t : Term, d = [t] → d1 = [t] := by
    rintro t rfl
    exact List.perm_singleton.1 dp
  match n2, d1, n2ne, d1r, n2i, kn, d1i, kd, hsing, dp, n2l, d1l with
  | n0 :: ns, [], _, d1r, _, _, _, _, _, _, _, _ => exact absurd rfl d1r.ne
  | n0 :: ns, d0 :: ds, _, d1r, n2i, kn, d1i, kd, hsing, dp, n2l, d1l =>
    have k0 := kn n0 List.mem_cons_self
    have l0 := kd d0 List.mem_cons_self
    have e1 : Rational.toT env.M n0.coe.coe = .ok n0.coe.coe.num := by
      have : n0.coe.coe = ⟨n0.coe.coe.num, 1⟩ := by rw [(n2i n0 List.mem_cons_self).1]; rfl
      rw [this]; exact toT_int k0
    have e2 : Rational.toT env.M d0.coe.coe = .ok d0.coe.coe.num := by
      have : d0.coe.coe = ⟨d0.coe.coe.num, 1⟩ := by rw [(d1i d0 List.mem_cons_self).1]; rfl
      rw [this]; exact toT_int l0
    have e3 : gcdT env.M n0.coe.coe.num d0.coe.coe.num = .ok (Int.gcd n0.coe.coe.num d0.coe.coe.num : Int) :=
      gcdT_ok.2 ⟨⟨k0, l0⟩, rfl⟩
    have gp : 0 < (Int.gcd n0.coe.coe.num d0.coe.coe.num : Int) := by
      exact_mod_cast Int.gcd_pos_iff.2 (Or.inr (d1r.coe d0 List.mem_cons_self))
    obtain ⟨v, v1, v2⟩ := gcdOuter_int d1i kd d1r.coe n2i kn gp
    simp only
    rw [e1, Res.bind_ok, e2, Res.bind_ok, e3, Res.bind_ok, v1, Res.bind_ok]
    cases v with
    | none => exact ⟨_, rfl, n2i, d1i, by simp only; omega, by simp only; omega, by simp, d1r, hsing⟩
    | some g =>
      obtain ⟨g1, g2, g3, g4⟩ := v2 g rfl
      have gd0 : g ∣ d0.coe.coe.num := g2.trans (Int.gcd_dvd_right ..)
      have gd : ∀ t ∈ d0 :: ds, g ∣ t.coe.coe.num := by
        intro t ht
        rcases List.mem_cons.1 ht with rfl | ht
        · exact gd0
        · exact g3 (by simp) t ht
      have glen : ds ≠ [] ∨ g = 1 := by
        rcases hlen with hl | hl
        · left
          rintro rfl
          have := dp.length_eq
          simp at this; omega
        · right
          have h1 := hl d0 (dp.subset List.mem_cons_self)
          have := (dvd_abs g _).2 gd0
          rw [h1] at this
          exact Int.eq_one_of_dvd_one g1.le this
      have gn : ∀ t ∈ n0 :: ns, g ∣ t.coe.coe.num := by
        rcases glen with hl | rfl
        · exact g4 hl
        · exact fun t _ => one_dvd _
      have gM : g ≤ env.M := by
        have := Int.le_of_dvd (abs_pos.2 (d1r.coe d0 List.mem_cons_self)) ((dvd_abs g _).2 gd0)
        omega
      obtain ⟨n3, en3, n3i, n3l, n3ne, -, -, -⟩ := mapDiv_int h hD g1 gM n2i (by omega) gn
      obtain ⟨d3, ed3, d3i, d3l, d3ne, d3s, d3c, d3e⟩ := mapDiv_int h hD g1 gM d1i (by omega) gd
      have d3r : d3.Reduced := by
        have hsy := d3s d1r.exps
        refine ⟨d3ne (by simp), d3c d1r.coe, ?_, ?_⟩
        · intro t ht
          have : t.syms ∈ d3.map (·.syms) := List.mem_map_of_mem ht
          rw [hsy] at this
          obtain ⟨u, hu, e⟩ := List.mem_map.1 this
          rw [← e]; exact d1r.exps u hu
        · have : (d3.map (·.syms)).Pairwise (· ≠ ·) := by
            rw [hsy]; exact List.pairwise_map.2 d1r.distinct
          exact List.pairwise_map.1 this
      obtain ⟨n4, en4, n4i, n4l⟩ := Poly.normalize_int h hs ht hD n3i (by omega)
      obtain ⟨d4, ed4, dp4⟩ := Poly.normalize_reduced hs ht hD d3i (by omega) d3r
      have d4l := Poly.l1_perm dp4
      unfold Poly.divReal
      simp only
      rw [Real.ofInt_int h (by rw [abs_of_pos g1]; exact gM), Res.bind_ok, en3, Res.bind_ok, en4, Res.bind_ok, ed3, Res.bind_ok,
        ed4, Res.bind_ok]
      refine ⟨_, rfl, n4i, d3i.perm dp4, by simp only; omega, by simp only; omega, ?_, d3r.perm dp4, ?_⟩
      · exact Poly.normalize_ne hs en4 (n3ne (by simp))
      · rintro t rfl
        have e := hsing t rfl
        injection e with ea eb
        subst ea eb
        have hg1 : g = 1 := by
          rcases glen with hl | hl
          · exact absurd rfl hl
          · exact hl
        rw [d3e hg1 d1r.exps] at dp4
        exact List.perm_singleton.1 dp4

end
end Frac
end Symxx.Sym
