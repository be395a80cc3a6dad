import Verif.Frac.Tidy
import Verif.Frac.Cancel
import Verif.Frac.QuotFrac
import Verif.Frac.SurdSum
import Verif.Frac.Canonical
/-!
# A polynomial over a number

What the constructor `Frac(numerator, denominator)` makes of a polynomial with whole coefficients over a whole number.
-/
namespace Symxx.Num.Rational

/-- the rational number `q`, as the library writes it. -/
def ofQ (q : ℚ) : Rational := ⟨q.num, q.den⟩

theorem ofQ_of {r : Rational} (h0 : 0 < r.den) (hl : r.Lowest) : r = ofQ r.val := by
  obtain ⟨n, d⟩ := r
  have hd : (d.toNat : Int) = d := Int.toNat_of_nonneg h0.le
  have hc : n.natAbs.Coprime d.toNat := by
    have : Int.gcd n d = 1 := hl
    rw [← hd] at this
    exact this
  have hne : d.toNat ≠ 0 := by
    have : 0 < d := h0
    omega
  have e : (⟨n, d⟩ : Rational).val = (⟨n, d.toNat, hne, hc⟩ : ℚ) := by
    unfold val
    rw [Rat.mk_eq_divInt, Rat.divInt_eq_div]
    show (n : ℚ) / (d : ℚ) = _
    rw [hd]
  rw [e]
  unfold ofQ
  simp [hd]

end Symxx.Num.Rational

namespace Symxx.Num.Real
variable {env : Env} (h : env.IntOk)
include h

/-- a whole number over a whole number. -/
theorem div_whole {n g : Int} (hn : |n| ≤ env.M) (hg : 0 < g) (hgM : g ≤ env.M) :
    div env (int n) (int g) = .ok (ofRat (Rational.ofQ ((n : ℚ) / g))) := by
  have hM := h.hM
  have h1 : |(1 : Int)| ≤ env.M := by simpa using hM
  have hg' : |g| ≤ env.M := by rw [abs_of_pos hg]; exact hgM
  have e1 : Rational.inverse env.M ⟨g, 1⟩ = .ok ⟨1, g⟩ := by
    unfold Rational.inverse Rational.mk2
    have e0 : Res.assert (decide (g ≠ 0)) divisionByZero = .ok () := by simp [Res.assert, hg.ne']
    rw [e0, Res.bind_ok, Rational.normalize_eq env.M 1 g h1 hg' hg.ne']
    have hg : (Int.gcd 1 g : Int) = 1 := by simp
    simp only [hg, Int.tdiv_one]
    rw [if_neg (by omega)]
  have e2 : Rational.inverse env.M ⟨1, 1⟩ = .ok ⟨1, 1⟩ := by
    unfold Rational.inverse Rational.mk2
    have e0 : Res.assert (decide ((1 : Int) ≠ 0)) divisionByZero = .ok () := rfl
    rw [e0, Res.bind_ok]
    exact Rational.normalize_int env.M 1 h1 hM
  obtain ⟨r, r1, r2⟩ := Rational.mul_canc (M := env.M) (Rational.canc_self (N := n) one_pos) (Rational.canc_self (N := 1) hg) hn h1
    (by rw [mul_one]; exact hn) (by rw [one_mul]; exact hgM)
  rw [mul_one, one_mul] at r2
  obtain ⟨s1, -, -, -, s5, s6⟩ := Rational.mul_spec r1
  have er : r = Rational.ofQ ((n : ℚ) / g) := by
    rw [Rational.ofQ_of (s6 one_pos hg) (s5 (by simp [Rational.Lowest]) (by simp [Rational.Lowest])), s1]
    congr 1
    simp only [Rational.val]
    push_cast
    ring
  have e3 := mul_ofRat h r1 (r2.fits hn hgM)
  unfold div inverse
  simp only [int]
  rw [e1, Res.bind_ok, e2, Res.bind_ok, Res.bind_ok, ← er]
  exact e3

end Symxx.Num.Real

namespace Symxx.Sym
open Symxx.Num

/-- a term with a rational coefficient in lowest terms and whole exponents. -/
structure Term.RatOk (M : Int) (t : Term) : Prop where
  coe : t.coe = Real.ofRat t.coe.coe
  den : 0 < t.coe.coe.den
  low : t.coe.coe.Lowest
  fits : |t.coe.coe.num| * t.coe.coe.den ≤ M
  exps : t.syms.IntLe M
  std : t.syms.Std

theorem Term.RatOk.normal {M : Int} {t : Term} (h : t.RatOk M) : t.Std where
  canon := by
    rw [h.coe]
    obtain ⟨n, e, h1, -, -⟩ := Real.int_canon 1
    have e' : (⟨1, 1⟩ : Rational) = ⟨(n : Int), 1⟩ := e
    exact ⟨n, e, h1, h.den.ne', fun _ => by injection e' with e'; omega⟩
  den := h.den
  syms := h.std

namespace Poly
variable {env : FEnv} {B : Nat} (hg : env.toEnv.Good B) (hB : 1 ≤ B)
include hg hB

theorem before_ratOk {p : Poly} (hp : ∀ t ∈ p, t.RatOk env.M) (hd : p.Pairwise fun a b => a.syms ≠ b.syms) {a b : Term}
    (ha : a ∈ p) (hb : b ∈ p) : ∃ v, Term.before env.toEnv a b = .ok v ∧ (v = true ↔ b.key < a.key) := by
  have ok := (hg.powOk_checked hB).toIntOk
  have a1 := hp a ha
  have b1 := hp b hb
  have ret : ∃ v, Term.before (env.toEnv.checked B) a b = .ok v := by
    unfold Term.before
    obtain ⟨v, e⟩ := Syms.eq_int (le_refl env.M) a1.exps b1.exps
    have e' : Syms.eq (env.toEnv.checked B).M a.syms b.syms = .ok v := e
    rw [e', Res.bind_ok]
    split
    · exact Syms.lt_int (le_refl env.M) b1.exps a1.exps
    · rename_i hv
      have hab : a.syms = b.syms := by
        by_contra hne
        rw [Syms.eq_ne (le_refl env.M) a1.exps b1.exps hne] at e
        injection e with e
        rw [← e] at hv
        simp at hv
      have : a = b := by
        by_contra hne
        have : Std.Symm fun x y : Term => x.syms ≠ y.syms := ⟨fun x y hxy => Ne.symm hxy⟩
        exact hd.forall ha hb hne hab
      subst this
      have hn : Rational.ne (env.toEnv.checked B).M ⟨1, 1⟩ ⟨1, 1⟩ = .ok false := by
        unfold Rational.ne
        rw [Rational.cross_int (Real.abs1 ok) (Real.abs1 ok), Res.bind_ok]
        simp
      have er : a.coe.rad = ⟨1, 1⟩ := by rw [a1.coe]; rfl
      have fn : a.coe.coe.den ≤ env.M ∨ a.coe.coe.num = 0 := by
        rcases eq_or_ne a.coe.coe.num 0 with h0 | h0
        · exact Or.inr h0
        · refine Or.inl (le_trans ?_ a1.fits)
          have := abs_pos.2 h0
          have := a1.den
          nlinarith
      have fd : a.coe.coe.den ≤ env.M := by
        rcases fn with h | h
        · exact h
        · have := a1.low
          unfold Rational.Lowest at this
          rw [h, Int.gcd_zero_left] at this
          have := a1.den
          have := hg.M1
          omega
      rw [er, hn]
      simp only [ne_eq, not_true_eq_false, if_false, Res.bind_ok, Bool.false_eq_true]
      obtain ⟨v, hv⟩ := Real.gt_ofRat ok (Rational.canc_self (N := a.coe.coe.num) a1.den) (Rational.canc_self a1.den) fd a1.fits a1.fits
      rw [a1.coe]
      exact ⟨v, hv⟩
  obtain ⟨v, hv⟩ := ret
  refine ⟨v, Term.before_mono (Env.checked_le _ B) _ _ _ hv, Term.before_key hg.toBase a1.normal b1.normal ?_ hv⟩
  rw [a1.coe, b1.coe]
  have := hg.hM
  show ((1 * 1 : Nat) : Int) ≤ _
  norm_num
  omega

omit hg hB in
theorem mergeAdj_syms : ∀ {p : Poly}, (∀ t ∈ p, t.syms.IntLe env.M) →
    p.Pairwise (fun a b => a.syms ≠ b.syms) → mergeAdj env.toEnv p = .ok p
  | [], _, _ => by unfold mergeAdj; rfl
  | [t], _, _ => by unfold mergeAdj; rfl
  | a :: b :: rest, hp, hd => by
    have e : Term.isEquivalentWith env.toEnv a b = .ok false := by
      unfold Term.isEquivalentWith
      rw [Syms.eq_ne (le_refl _) (hp a List.mem_cons_self) (hp b (by simp)) ((List.pairwise_cons.1 hd).1 b List.mem_cons_self), Res.bind_ok]
      rfl
    unfold mergeAdj
    rw [e, Res.bind_ok, if_neg (by simp), mergeAdj_syms (fun t ht => hp t (List.mem_cons_of_mem _ ht)) (List.pairwise_cons.1 hd).2, Res.bind_ok]
termination_by p => p.length

omit hg hB in
theorem key_ne {s t : Syms} (hs : s.IntLe env.M) (ht : t.IntLe env.M) (ks : s.Std) (kt : t.Std) (h : s ≠ t) : s.key ≠ t.key := by
  have e := Syms.eq_ne (le_refl env.M) hs ht h
  have := Syms.eq_key ks.wf kt.wf e
  simpa using this

/-- normalising sorts; distinct monomials stay as they are. -/
theorem normalize_ratOk (hs : SortContract env) (hr : SortReturns env) {p : Poly} (hp : ∀ t ∈ p, t.RatOk env.M)
    (hd : p.Pairwise fun a b => a.syms ≠ b.syms) :
    ∃ q, normalize env p = .ok q ∧ q.Perm p ∧ q.Pairwise fun a b => b.syms.key < a.syms.key := by
  have hcmp := fun a (ha : a ∈ p) b (hb : b ∈ p) => before_ratOk hg hB hp hd ha hb
  obtain ⟨q, hq⟩ := hr _ (strictWeak_of_key hcmp)
  obtain ⟨h1, h2⟩ := hs.sorted hq hcmp
  have hd' : q.Pairwise fun a b => a.syms ≠ b.syms :=
    (h1.pairwise_iff (R := fun a b => a.syms ≠ b.syms) (fun h => Ne.symm h)).2 hd
  refine ⟨q, ?_, h1, ?_⟩
  · unfold normalize
    rw [hq, Res.bind_ok]
    exact mergeAdj_syms (fun t ht => (hp t (h1.subset ht)).exps) hd'
  · refine List.Pairwise.imp_of_mem ?_ (h2.and hd')
    rintro a b ha hb ⟨h3, h4⟩
    have a1 := hp a (h1.subset ha)
    have b1 := hp b (h1.subset hb)
    have hne := key_ne b1.exps a1.exps b1.std a1.std (Ne.symm h4)
    unfold Term.key Term.group at h3
    rcases Prod.Lex.toLex_le_toLex.1 h3 with h | h
    · rcases Prod.Lex.toLex_lt_toLex.1 h with h | h
      · exact h
      · exact absurd h.1 hne
    · exact absurd (by have := h.1; simp only [toLex_inj, Prod.mk.injEq] at this; exact this.1) hne

/-- a sorted polynomial stays as it is. -/
theorem normalize_sorted (hs : SortContract env) (hr : SortReturns env) {p : Poly} (hp : ∀ t ∈ p, t.RatOk env.M)
    (hd : p.Pairwise fun a b => b.syms.key < a.syms.key) : normalize env p = .ok p := by
  obtain ⟨q, e, h1, h2⟩ := normalize_ratOk hg hB hs hr hp (hd.imp fun h e => by rw [e] at h; exact lt_irrefl _ h)
  rw [e, List.Perm.eq_of_pairwise (le := fun a b : Term => b.syms.key < a.syms.key)
    (fun a b _ _ h h' => absurd h' (lt_asymm h)) h2 hd h1]

end Poly

/-- the term with its coefficient divided by `g`. -/
def Term.over (g : Int) (t : Term) : Term := ⟨Real.ofRat (Rational.ofQ ((t.coe.coe.num : ℚ) / g)), t.syms⟩

theorem ofQ_bounds {n g : Int} (hg : 0 < g) : |((n : ℚ) / g).num| ≤ |n| ∧ (((n : ℚ) / g).den : Int) ≤ g := by
  have e : (n : ℚ) / g = Rat.divInt n g := (Rat.divInt_eq_div n g).symm
  constructor
  · rcases eq_or_ne n 0 with rfl | h0
    · simp
    · rw [e]
      exact Int.le_of_dvd (abs_pos.2 h0) ((abs_dvd_abs _ _).2 (Rat.num_dvd n hg.ne'))
  · rw [e]
    exact Int.le_of_dvd hg (Rat.den_dvd n g)

theorem Term.over_ok {D M g d : Int} {t : Term} (hD : D ≤ M) (h : t.IntLe D) (hz : t.syms.NoZero) (hg : 0 < g) (hgd : g ≤ d)
    (hm : |t.coe.coe.num| * d ≤ M) : (t.over g).RatOk M where
  coe := rfl
  den := by
    show (0 : Int) < (((t.coe.coe.num : ℚ) / g).den : Int)
    exact_mod_cast Rat.den_pos _
  low := by
    show Int.gcd _ (((t.coe.coe.num : ℚ) / g).den : Int) = 1
    exact ((t.coe.coe.num : ℚ) / g).reduced
  fits := by
    obtain ⟨h1, h2⟩ := ofQ_bounds (n := t.coe.coe.num) hg
    show |((t.coe.coe.num : ℚ) / g).num| * (((t.coe.coe.num : ℚ) / g).den : Int) ≤ M
    refine le_trans (mul_le_mul h1 (le_trans h2 hgd) (Int.natCast_nonneg _) (abs_nonneg _)) hm
  exps := fun p hp => ⟨(h.2.1 p hp).1, le_trans (h.2.1 p hp).2 hD⟩
  std := (h.std hz).syms

theorem Term.over_one {D : Int} {t : Term} (h : t.IntLe D) : t.over 1 = t := by
  unfold over
  have : (Real.ofRat (Rational.ofQ ((t.coe.coe.num : ℚ) / (1 : Int)))) = t.coe := by
    rw [h.1]
    simp [Real.ofRat, Rational.ofQ, Real.int]
  rw [this]

namespace Frac

theorem gcdOuter_one {M : Int} {t : Term} : ∀ {ns : Poly} {g : Int}, gcdOuter M [t] ns g = .ok (some g)
  | [], g => by unfold gcdOuter; rfl
  | n :: ns, g => by
    unfold gcdOuter
    show (gcdInner M n [] g >>= _) = _
    unfold gcdInner
    rw [Res.bind_ok]
    exact gcdOuter_one

variable {env : FEnv} {B : Nat} (hg : env.toEnv.Good B) (hB : 1 ≤ B)
include hg hB

theorem mapDiv_over {D g : Int} (hD : D ≤ env.M) {p : Poly} (hp : p.IntLe D) (hz : ∀ t ∈ p, t.syms.NoZero) (hg0 : 0 < g)
    (hgd : g ≤ env.M) (hm : ∀ t ∈ p, |t.coe.coe.num| ≤ env.M) :
    Poly.mapM (fun t => Term.divReal env.toEnv t (Real.int g)) p = .ok (p.map (Term.over g)) := by
  have ok := (hg.powOk hB).toIntOk
  induction p with
  | nil => rfl
  | cons t p ih =>
    obtain ⟨h1, h2⟩ := Poly.intLe_cons.1 hp
    have e : Term.divReal env.toEnv t (Real.int g) = .ok (t.over g) := by
      unfold Term.divReal
      rw [h1.1, Real.div_whole ok (hm t List.mem_cons_self) hg0 hgd, Res.bind_ok,
        Syms.dropZero_id hg.M1 hD h1.2.1 (hz t List.mem_cons_self), Res.bind_ok]
      rfl
    unfold Poly.mapM
    rw [e, Res.bind_ok, ih h2 (fun t ht => hz t (List.mem_cons_of_mem _ ht)) (fun t ht => hm t (List.mem_cons_of_mem _ ht)), Res.bind_ok]
    rfl

/-- a polynomial over a number: both are divided by the greatest common divisor of the first coefficient and the number. -/
theorem mk2_over (hs : SortContract env) (hr : SortReturns env) {D d : Int} (hD0 : 0 ≤ D) (hD : D ≤ env.M) {p : Poly}
    (hp : p.IntLe D) (hred : p.Reduced) (hd : 0 < d) (hm : p.l1 * d ≤ env.M) :
    ∃ t ts, Poly.mk' env p = .ok (t :: ts) ∧ (t :: ts).Perm p ∧
      ((t :: ts).Pairwise fun a b => b.syms.key < a.syms.key) ∧
      mk2 env p [Term.con d] = .ok ⟨(t :: ts).map (Term.over (Int.gcd t.coe.coe.num d)), [Term.con (d / Int.gcd t.coe.coe.num d)]⟩ := by
  have ok := (hg.powOk hB).toIntOk
  have hM := hg.M1
  have l0 : 0 < p.l1 := by
    match p, hred, hp with
    | [], hred, _ => exact absurd rfl hred.ne
    | t :: p, hred, _ =>
      rw [Poly.l1_cons]
      have := abs_pos.2 (hred.coe t List.mem_cons_self)
      have := Poly.l1_nonneg p
      omega
  have hdM : d ≤ env.M := by nlinarith
  have hlM : p.l1 ≤ env.M := by nlinarith
  have mem1 : ∀ t ∈ p, |t.coe.coe.num| * d ≤ env.M := fun t ht =>
    le_trans (mul_le_mul_of_nonneg_right (Poly.l1_mem ht) hd.le) hm
  have rok : ∀ t ∈ p, t.RatOk env.M := fun t ht => by
    have := Term.over_ok hD (hp t ht) (hred.exps t ht) one_pos (by omega) (mem1 t ht)
    rwa [Term.over_one (hp t ht)] at this
  obtain ⟨q, q1, q2, q3⟩ := Poly.normalize_ratOk hg hB hs hr rok hred.distinct
  have qp : q.IntLe D := hp.perm q2
  have qr : q.Reduced := hred.perm q2
  have ql : q.l1 = p.l1 := Poly.l1_perm q2
  have dok : ∀ {k : Int}, |k| ≤ env.M → Poly.normalize env [Term.con k] = .ok [Term.con k] := fun {k} hk =>
    Poly.normalize_sorted hg hB hs hr (by
      intro t ht
      rw [List.mem_singleton] at ht
      subst ht
      exact ⟨rfl, one_pos, by simp [Rational.Lowest, Term.con, Term.ofReal, Real.int], by
        show |k| * 1 ≤ _
        rw [mul_one]; exact hk, by intro p hp; simp [Term.con, Term.ofReal] at hp, by
        constructor <;> simp [Term.con, Term.ofReal]⟩) (List.pairwise_singleton _ _)
  have di : Poly.IntLe D [Term.con d] := fun t ht => by
    rw [List.mem_singleton] at ht
    subst ht
    exact ⟨rfl, by intro p hp; simp [Term.con, Term.ofReal] at hp, by constructor <;> simp [Term.con, Term.ofReal]⟩
  have dz : ∀ t ∈ [Term.con d], t.syms.NoZero := by
    intro t ht
    rw [List.mem_singleton] at ht
    subst ht
    intro p hp; simp [Term.con, Term.ofReal] at hp
  have dl : Poly.l1 [Term.con d] = d := by
    simp [Poly.l1, Term.con, Term.ofReal, Real.int, abs_of_pos hd]
  obtain ⟨n2, en2, -, -, n2e⟩ := scaleAll_int ok hD0 hD qp (by omega)
  rw [n2e qr.exps] at en2
  obtain ⟨d2, ed2, -, -, d2e⟩ := scaleAll_int ok hD0 hD di (by omega)
  rw [d2e dz] at ed2
  match q, q1, q2, q3, qp, qr, ql, en2 with
  | [], _, _, _, _, qr, _, _ => exact absurd rfl qr.ne
  | t :: ts, q1, q2, q3, qp, qr, ql, en2 =>
    refine ⟨t, ts, q1, q2, q3, ?_⟩
    have tp : t ∈ p := q2.subset List.mem_cons_self
    set g : Int := ((Int.gcd t.coe.coe.num d : Nat) : Int) with hgdef
    have kt : |t.coe.coe.num| ≤ env.M := le_trans (Poly.l1_mem tp) hlM
    have g0 : 0 < g := by
      have : 0 < Int.gcd t.coe.coe.num d := Int.gcd_pos_iff.2 (Or.inr hd.ne')
      rw [hgdef]
      exact_mod_cast this
    have gd : g ∣ d := Int.gcd_dvd_right ..
    have gle : g ≤ d := Int.le_of_dvd hd gd
    have z : Poly.isZero env.toEnv [Term.con d] = .ok false := by
      unfold Poly.isZero Term.coeIs
      rw [Real.ofInt_int ok (Real.abs0 ok), Res.bind_ok, show (Term.con d).coe = Real.int d from rfl,
        Real.eq_int ok (by rw [abs_of_pos hd]; exact hdM) (Real.abs0 ok), Res.bind_ok]
      simp [hd.ne']
    have e1 : Rational.toT env.M t.coe.coe = .ok t.coe.coe.num := by
      have : t.coe.coe = ⟨t.coe.coe.num, 1⟩ := by rw [(qp t List.mem_cons_self).1]; rfl
      rw [this]; exact toT_int kt
    have e2 : Rational.toT env.M (Term.con d).coe.coe = .ok d := toT_int (by rw [abs_of_pos hd]; exact hdM)
    have e3 : gcdT env.M t.coe.coe.num d = .ok g := gcdT_ok.2 ⟨⟨kt, by rw [abs_of_pos hd]; exact hdM⟩, rfl⟩
    have e4 : Poly.divReal env (t :: ts) (Real.int g) = .ok ((t :: ts).map (Term.over g)) := by
      unfold Poly.divReal
      rw [mapDiv_over hg hB hD qp qr.exps g0 (by omega) (fun u hu => le_trans (Poly.l1_mem hu) (by omega)), Res.bind_ok]
      refine Poly.normalize_sorted hg hB hs hr ?_ ?_
      · intro u hu
        obtain ⟨v, hv, rfl⟩ := List.mem_map.1 hu
        exact Term.over_ok hD (qp v hv) (qr.exps v hv) g0 gle (mem1 v (q2.subset hv))
      · exact List.pairwise_map.2 q3
    have e5 : Poly.divReal env [Term.con d] (Real.int g) = .ok [Term.con (d / g)] := by
      unfold Poly.divReal
      have : Term.divReal env.toEnv (Term.con d) (Real.int g) = .ok (Term.con (d / g)) := by
        unfold Term.divReal
        have : Real.div env.toEnv (Real.int d) (Real.int g) = .ok (Real.int (d / g)) := by
          have := Real.div_int ok (q := d / g) (t := g) (by rw [Int.ediv_mul_cancel gd, abs_of_pos hd]; exact hdM) g0 (by omega)
          rwa [Int.ediv_mul_cancel gd] at this
        rw [show (Term.con d).coe = Real.int d from rfl, this, Res.bind_ok]
        rfl
      unfold Poly.mapM
      rw [this, Res.bind_ok]
      unfold Poly.mapM
      rw [Res.bind_ok, Res.bind_ok]
      refine dok ?_
      rw [abs_of_nonneg (Int.ediv_nonneg hd.le g0.le)]
      exact le_trans (Int.ediv_le_self _ hd.le) hdM
    unfold mk2
    rw [z, Res.bind_ok, Bool.not_false, Res.assert_true, Res.bind_ok]
    unfold normalize
    simp only
    rw [q1, Res.bind_ok, dok (by rw [abs_of_pos hd]; exact hdM), Res.bind_ok, multLoop_int hM di, Res.bind_ok, multLoop_int hM qp, Res.bind_ok,
      en2, Res.bind_ok, ed2, Res.bind_ok]
    simp only
    rw [e1, Res.bind_ok, e2, Res.bind_ok, e3, Res.bind_ok, gcdOuter_one, Res.bind_ok]
    simp only
    rw [Real.ofInt_int ok (by rw [abs_of_pos g0]; omega), Res.bind_ok, e4, Res.bind_ok, e5, Res.bind_ok]

omit hg hB in
theorem den_over {n d : Int} (hd : 0 < d) : d / (Int.gcd n d : Int) = (((n : ℚ) / d).den : Int) := by
  rw [← Rat.divInt_eq_div, Rat.den_divInt, if_neg hd.ne']
  rw [Int.natCast_div, Int.natCast_natAbs, abs_of_pos hd, Int.gcd_comm]

/-- the fraction with the given coefficients (the denominator divided out) whose first coefficient and denominator are in lowest terms. -/
def quotForm : List (ℚ × Syms) → Frac
  | [] => ⟨[], []⟩
  | x :: l => ⟨(x :: l).map fun y => ⟨Real.ofRat (Rational.ofQ (y.1 * x.1.den)), y.2⟩, [Term.con x.1.den]⟩

/-- the result in terms of the quotients of the coefficients and the denominator. -/
theorem mk2_quot (hs : SortContract env) (hr : SortReturns env) {D d : Int} (hD0 : 0 ≤ D) (hD : D ≤ env.M) {p : Poly}
    (hp : p.IntLe D) (hred : p.Reduced) (hd : 0 < d) (hm : p.l1 * d ≤ env.M) :
    ∃ q : Poly, q.Perm p ∧ (q.Pairwise fun a b => b.syms.key < a.syms.key) ∧
      mk2 env p [Term.con d] = .ok (quotForm (q.map fun t => ((t.coe.coe.num : ℚ) / d, t.syms))) := by
  obtain ⟨t, ts, -, h2, h3, h4⟩ := mk2_over hg hB hs hr hD0 hD hp hred hd hm
  refine ⟨t :: ts, h2, h3, ?_⟩
  rw [h4, den_over hd]
  show _ = Res.ok (⟨((t :: ts).map fun t : Term => ((t.coe.coe.num : ℚ) / d, t.syms)).map fun y =>
    ⟨Real.ofRat (Rational.ofQ (y.1 * (((t.coe.coe.num : ℚ) / d).den : ℕ))), y.2⟩, [Term.con (((t.coe.coe.num : ℚ) / d).den : ℕ)]⟩ : Frac)
  rw [List.map_map]
  congr 2
  refine List.map_congr_left fun u _ => ?_
  show Term.over _ u = ⟨Real.ofRat (Rational.ofQ ((u.coe.coe.num : ℚ) / d * (((t.coe.coe.num : ℚ) / d).den : ℕ))), u.syms⟩
  unfold Term.over
  congr 3
  have g0 : (Int.gcd t.coe.coe.num d : ℤ) ≠ 0 := by
    exact_mod_cast (Int.gcd_pos_iff.2 (Or.inr hd.ne')).ne'
  have hd' : (d : ℚ) ≠ 0 := by exact_mod_cast hd.ne'
  have e : ((((t.coe.coe.num : ℚ) / d).den : ℕ) : ℚ) = (d : ℚ) / (Int.gcd t.coe.coe.num d : ℤ) := by
    have := den_over (n := t.coe.coe.num) hd
    have h5 : ((((t.coe.coe.num : ℚ) / d).den : ℤ) : ℚ) = ((d / (Int.gcd t.coe.coe.num d : ℤ) : ℤ) : ℚ) := by rw [this]
    rw [Int.cast_div (Int.gcd_dvd_right ..) (by exact_mod_cast g0)] at h5
    exact_mod_cast h5
  rw [e]
  have g1 : ((Int.gcd t.coe.coe.num d : ℤ) : ℚ) ≠ 0 := by exact_mod_cast g0
  field_simp

end Frac

/-- the term times a whole number. -/
def Term.scale (k : Int) (t : Term) : Term := ⟨Real.int (t.coe.coe.num * k), t.syms⟩

theorem Term.scale_value {D k : Int} {t : Term} (h : t.IntLe D) (ρ : List Char → ℝ) : (t.scale k).value ρ = t.value ρ * k := by
  have e : t.coe.val = (t.coe.coe.num : ℝ) := by rw [h.1]; simp [Real.int, Real.val, Rational.val]
  have e' : (t.scale k).coe.val = (t.coe.coe.num : ℝ) * k := by simp [Term.scale, Real.int, Real.val, Rational.val]
  unfold Term.value
  rw [e, e']
  show _ * t.syms.value ρ = _
  ring

namespace Poly

theorem scale_value {D k : Int} {p : Poly} (h : p.IntLe D) (ρ : List Char → ℝ) : Poly.value ρ (p.map (Term.scale k)) = Poly.value ρ p * k := by
  induction p with
  | nil => simp [Poly.value]
  | cons t p ih =>
    obtain ⟨h1, h2⟩ := Poly.intLe_cons.1 h
    rw [List.map_cons, Poly.value_cons, Poly.value_cons, ih h2, Term.scale_value h1]
    ring

theorem scale_tidy {D k : Int} (hk : 0 < k) {p : Poly} (h : p.IntLe D) (hr : p.Reduced)
    (hs : p.Pairwise fun a b => b.syms.key < a.syms.key) :
    Tidy (p.map (Term.scale k)) ∧ IntLe D (p.map (Term.scale k)) ∧ nonzero (p.map (Term.scale k)) = p.map (Term.scale k) := by
  have hi : IntLe D (p.map (Term.scale k)) := by
    intro u hu
    obtain ⟨t, ht, rfl⟩ := List.mem_map.1 hu
    exact ⟨rfl, (h t ht).2⟩
  have hn : nonzero (p.map (Term.scale k)) = p.map (Term.scale k) := by
    unfold nonzero
    rw [List.filter_eq_self]
    intro u hu
    have hu' := hi u hu
    obtain ⟨t, ht, rfl⟩ := List.mem_map.1 hu
    have : (t.scale k).coe.val ≠ 0 := fun h0 => by
      have : t.coe.coe.num * k = 0 := (val_zero hu').1 h0
      rcases mul_eq_zero.1 this with h1 | h1
      · exact hr.coe t ht h1
      · omega
    simpa using this
  refine ⟨⟨?_, ?_⟩, hi, hn⟩
  · intro u hu
    have hu' := hi u hu
    obtain ⟨t, ht, rfl⟩ := List.mem_map.1 hu
    exact (hu'.std (hr.exps t ht)).norm
  · rw [hn, List.pairwise_map]
    refine hs.imp fun {a b} hab => ?_
    unfold Term.group
    exact Prod.Lex.toLex_lt_toLex.2 (Or.inl hab)

end Poly

namespace Frac
variable {env : FEnv} {B : Nat} (hg : env.toEnv.Good B) (hB : 1 ≤ B)
include hg hB

/-- equal quotients are built the same. -/
theorem mk2_same (hs : SortContract env) (hr : SortReturns env) {D d d' : Int} (hD0 : 0 ≤ D) (hD : D ≤ env.M) {p p' : Poly}
    (hp : p.IntLe D) (hred : p.Reduced) (hd : 0 < d) (hm : p.l1 * d ≤ env.M)
    (hp' : p'.IntLe D) (hred' : p'.Reduced) (hd' : 0 < d') (hm' : p'.l1 * d' ≤ env.M)
    (hv : ∀ ρ : List Char → ℝ, (∀ x, 0 < ρ x) → Poly.value ρ p / d = Poly.value ρ p' / d') :
    mk2 env p [Term.con d] = mk2 env p' [Term.con d'] := by
  obtain ⟨q, q1, q2, f2⟩ := mk2_quot hg hB hs hr hD0 hD hp hred hd hm
  obtain ⟨q', q1', q2', f2'⟩ := mk2_quot hg hB hs hr hD0 hD hp' hred' hd' hm'
  have iq := hp.perm q1
  have iq' := hp'.perm q1'
  obtain ⟨a1, a2, a3⟩ := Poly.scale_tidy hd' iq (hred.perm q1) q2
  obtain ⟨b1, b2, b3⟩ := Poly.scale_tidy hd iq' (hred'.perm q1') q2'
  have e := Poly.Tidy.unique a1 b1 a2 b2 fun ρ hρ => by
    rw [Poly.scale_value iq, Poly.scale_value iq']
    have h1 : Poly.value ρ q = Poly.value ρ p := (q1.map _).sum_eq
    have h2 : Poly.value ρ q' = Poly.value ρ p' := (q1'.map _).sum_eq
    have h3 := hv ρ hρ
    have d0 : (d : ℝ) ≠ 0 := by exact_mod_cast hd.ne'
    have d0' : (d' : ℝ) ≠ 0 := by exact_mod_cast hd'.ne'
    rw [div_eq_div_iff d0 d0'] at h3
    rw [h1, h2, h3]
  rw [a3, b3] at e
  have e2 : (q.map fun t => ((t.coe.coe.num : ℚ) / d, t.syms)) = q'.map fun t => ((t.coe.coe.num : ℚ) / d', t.syms) := by
    have d0 : (d : ℚ) ≠ 0 := by exact_mod_cast hd.ne'
    have d0' : (d' : ℚ) ≠ 0 := by exact_mod_cast hd'.ne'
    have := congrArg (List.map fun u : Term => ((u.coe.coe.num : ℚ) / (d * d'), u.syms)) e
    rw [List.map_map, List.map_map] at this
    refine Eq.trans (List.map_congr_left fun t _ => ?_) (this.trans (List.map_congr_left fun t _ => ?_))
    · show _ = (((t.coe.coe.num * d' : Int) : ℚ) / (d * d'), t.syms)
      push_cast
      rw [mul_div_mul_right _ _ d0']
    · show (((t.coe.coe.num * d : Int) : ℚ) / (d * d'), t.syms) = _
      push_cast
      rw [mul_comm (d : ℚ), mul_div_mul_right _ _ d0]
  rw [f2, f2', e2]

omit hg hB in
theorem over_value {D g : Int} {t : Term} (h : t.IntLe D) (ρ : List Char → ℝ) : (t.over g).value ρ = t.value ρ / g := by
  have e : t.coe.val = (t.coe.coe.num : ℝ) := by rw [h.1]; simp [Real.int, Real.val, Rational.val]
  have e' : (t.over g).coe.val = (t.coe.coe.num : ℝ) / g := by
    have : Rational.val (Rational.ofQ ((t.coe.coe.num : ℚ) / g)) = (t.coe.coe.num : ℚ) / g := by
      unfold Rational.val Rational.ofQ
      push_cast
      exact Rat.num_div_den _
    show ((Rational.val (Rational.ofQ ((t.coe.coe.num : ℚ) / g)) : ℚ) : ℝ) * ((Rational.val ⟨1, 1⟩ : ℚ) : ℝ) ^ ((1 : ℝ) / ((1 : ℕ) : ℝ)) = _
    rw [this]
    simp [Rational.val]
  unfold Term.value
  rw [e, e']
  show _ * t.syms.value ρ = _
  ring

/-- the value of what is built. -/
theorem mk2_value (hs : SortContract env) (hr : SortReturns env) {D d : Int} (hD0 : 0 ≤ D) (hD : D ≤ env.M) {p : Poly}
    (hp : p.IntLe D) (hred : p.Reduced) (hd : 0 < d) (hm : p.l1 * d ≤ env.M) :
    ∃ r, mk2 env p [Term.con d] = .ok r ∧ ∀ ρ : List Char → ℝ, r.value ρ = Poly.value ρ p / d := by
  obtain ⟨t, ts, -, h2, -, h4⟩ := mk2_over hg hB hs hr hD0 hD hp hred hd hm
  refine ⟨_, h4, fun ρ => ?_⟩
  have g0 : ((Int.gcd t.coe.coe.num d : ℤ) : ℝ) ≠ 0 := by
    exact_mod_cast (Int.gcd_pos_iff.2 (Or.inr hd.ne')).ne'
  have d0 : (d : ℝ) ≠ 0 := by exact_mod_cast hd.ne'
  have hi := hp.perm h2
  have h1 : Poly.value ρ (t :: ts) = Poly.value ρ p := (h2.map _).sum_eq
  have gen : ∀ q : Poly, q.IntLe D → Poly.value ρ (q.map (Term.over (Int.gcd t.coe.coe.num d : ℤ))) =
      Poly.value ρ q / (Int.gcd t.coe.coe.num d : ℤ) := by
    intro q hq
    induction q with
    | nil => simp [Poly.value]
    | cons u q ih =>
      obtain ⟨k1, k2⟩ := Poly.intLe_cons.1 hq
      rw [List.map_cons, Poly.value_cons, Poly.value_cons, ih k2, over_value k1]
      ring
  have dv : Poly.value ρ [Term.con (d / (Int.gcd t.coe.coe.num d : ℤ))] = (d : ℝ) / (Int.gcd t.coe.coe.num d : ℤ) := by
    rw [← Int.cast_div (Int.gcd_dvd_right ..) g0]
    simp [Poly.value, Term.value, Term.con, Term.ofReal, Real.int, Real.val, Rational.val, Syms.value]
  unfold Frac.value
  simp only
  rw [gen _ hi, dv, h1]
  field_simp

end Frac
end Symxx.Sym
