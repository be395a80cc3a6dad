import Verif.Frac.Cancel
import Verif.Frac.IntTop
/-!
# Sums of rational constants
-/
namespace Symxx.Sym
open Symxx.Num

/-- a rational constant whose denominator divides `L`. -/
def RatConst (L : Int) (t : Term) : Prop := ∃ c : Rational, t = Term.ofReal (Real.ofRat c) ∧ 0 < c.den ∧ c.den ∣ L

/-- `L` times the constant. -/
def Term.times (L : Int) (t : Term) : Int := t.coe.coe.num * (L / t.coe.coe.den)

/-- the sort returns on rational constants if the products of their comparisons fit. -/
def SortRat (env : FEnv) : Prop := ∀ (L : Int) (p : Poly), 0 < L → L ≤ env.M →
  (∀ t ∈ p, RatConst L t ∧ |t.times L| * L ≤ env.M) → ∃ q, env.sort p = .ok q

theorem RatConst.canc {L : Int} {t : Term} (h : RatConst L t) (hL : 0 < L) :
    ∃ c, t = Term.ofReal (Real.ofRat c) ∧ c.Canc (t.times L) L := by
  obtain ⟨c, rfl, c0, k, rfl⟩ := h
  have k0 : 0 < k := pos_of_mul_pos_right hL c0.le
  refine ⟨c, rfl, c0, k, k0, ?_, rfl⟩
  show _ = c.num * (c.den * k / c.den)
  rw [Int.mul_ediv_cancel_left _ c0.ne']

theorem ratConst_of {z L : Int} {c : Rational} (h : c.Canc z L) :
    RatConst L (Term.ofReal (Real.ofRat c)) ∧ (Term.ofReal (Real.ofRat c)).times L = z := by
  obtain ⟨c0, g, g0, rfl, rfl⟩ := h
  refine ⟨⟨c, rfl, c0, g, rfl⟩, ?_⟩
  show c.num * (c.den * g / c.den) = _
  rw [Int.mul_ediv_cancel_left _ c0.ne']

theorem syms_eq_nil (M : Int) : Syms.eq M [] [] = .ok true := by unfold Syms.eq; rw [if_pos rfl]; unfold Syms.eqGo; rfl

section
variable {env : Env} (h : env.IntOk)
include h

theorem Term.before_rat {L : Int} (hL : 0 < L) (hLM : L ≤ env.M) {a b : Term} (ha : RatConst L a) (hb : RatConst L b)
    (ka : |a.times L| * L ≤ env.M) (kb : |b.times L| * L ≤ env.M) : ∃ v, Term.before env a b = .ok v := by
  obtain ⟨c, ea, ca⟩ := ha.canc hL
  obtain ⟨d, eb, cb⟩ := hb.canc hL
  obtain ⟨v, hv⟩ := Real.gt_ofRat h ca cb hLM ka kb
  refine ⟨v, ?_⟩
  rw [ea, eb]
  have hn : Rational.ne env.M ⟨1, 1⟩ ⟨1, 1⟩ = .ok false := by
    unfold Rational.ne
    rw [Rational.cross_int (Real.abs1 h) (Real.abs1 h), Res.bind_ok]
    simp
  unfold Term.before
  show (Syms.eq env.M [] [] >>= fun v => if !v then _ else if (1 : Nat) ≠ 1 then _ else
    (Rational.ne env.M ⟨1, 1⟩ ⟨1, 1⟩ >>= fun v => if v then _ else Real.gt env (Real.ofRat c) (Real.ofRat d))) = _
  rw [syms_eq_nil, Res.bind_ok]
  simp only [Bool.not_true, Bool.false_eq_true, if_false, ne_eq, not_true_eq_false, hn, Res.bind_ok]
  exact hv

theorem insertM_rat {L : Int} (hL : 0 < L) (hLM : L ≤ env.M) {t : Term} (ht : RatConst L t ∧ |t.times L| * L ≤ env.M) {p : Poly}
    (hp : ∀ u ∈ p, RatConst L u ∧ |u.times L| * L ≤ env.M) : ∃ q, insertM env t p = .ok q := by
  induction p with
  | nil => exact ⟨_, rfl⟩
  | cons u p ih =>
    obtain ⟨h1, h2⟩ := hp u List.mem_cons_self
    obtain ⟨v, hv⟩ := Term.before_rat h hL hLM ht.1 h1 ht.2 h2
    obtain ⟨q, hq⟩ := ih fun u hu => hp u (List.mem_cons_of_mem _ hu)
    unfold insertM
    rw [hv, Res.bind_ok]
    split
    · exact ⟨_, rfl⟩
    · rw [hq, Res.bind_ok]
      exact ⟨_, rfl⟩

/-- adding up. -/
theorem Poly.mergeAdj_rat {L : Int} (hL : 0 < L) (hLM : L ≤ env.M) : ∀ {p : Poly}, p ≠ [] → (∀ t ∈ p, RatConst L t) →
    (p.map fun t => |t.times L|).sum ≤ env.M →
    ∃ c, Poly.mergeAdj env p = .ok [Term.ofReal (Real.ofRat c)] ∧ c.Canc ((p.map (Term.times L)).sum) L
  | [], hp, _, _ => absurd rfl hp
  | [t], _, ht, _ => by
    obtain ⟨c, e, hc⟩ := (ht t List.mem_cons_self).canc hL
    refine ⟨c, ?_, by simpa using hc⟩
    unfold Poly.mergeAdj
    rw [e]
  | a :: b :: rest, _, ht, hs => by
    obtain ⟨c, ea, ca⟩ := (ht a List.mem_cons_self).canc hL
    obtain ⟨d, eb, cb⟩ := (ht b (by simp)).canc hL
    have nn : 0 ≤ (rest.map fun t => |t.times L|).sum := List.sum_nonneg fun x hx => by
      obtain ⟨t, -, rfl⟩ := List.mem_map.1 hx
      exact abs_nonneg _
    simp only [List.map_cons, List.sum_cons] at hs
    obtain ⟨r, r1, r2⟩ := Real.add_ofRat h ca cb hLM (by omega)
    obtain ⟨q1, q2⟩ := ratConst_of r2
    obtain ⟨s, s1, s2⟩ := Poly.mergeAdj_rat hL hLM (p := Term.ofReal (Real.ofRat r) :: rest) (by simp) (fun t hm => by
      rcases List.mem_cons.1 hm with rfl | hm
      · exact q1
      · exact ht t (by simp [hm])) (by
      simp only [List.map_cons, List.sum_cons, q2]
      have := abs_add_le (a.times L) (b.times L)
      omega)
    refine ⟨s, ?_, ?_⟩
    · unfold Poly.mergeAdj Term.isEquivalentWith
      have e1 : a.syms = [] := by rw [ea]; rfl
      have e2 : b.syms = [] := by rw [eb]; rfl
      have e3 : a.coe = Real.ofRat c := by rw [ea]; rfl
      have e4 : b.coe = Real.ofRat d := by rw [eb]; rfl
      rw [e1, e2, e3, e4, syms_eq_nil, Res.bind_ok, if_pos rfl, Real.equiv_ofRat h, Res.bind_ok, if_pos rfl, r1, Res.bind_ok]
      exact s1
    · simp only [List.map_cons, List.sum_cons, q2] at s2 ⊢
      rwa [add_assoc] at s2
termination_by p => p.length

end

/-- the insertion sort of the examples returns. -/
theorem sortM_rat (env : FEnv) (h : env.toEnv.IntOk) (hs : env.sort = sortM env.toEnv) : SortRat env := by
  intro L p hL hLM hp
  rw [hs]
  induction p with
  | nil => exact ⟨_, rfl⟩
  | cons t p ih =>
    obtain ⟨q, hq⟩ := ih fun u hu => hp u (List.mem_cons_of_mem _ hu)
    unfold sortM
    rw [hq, Res.bind_ok]
    exact insertM_rat h hL hLM (hp t List.mem_cons_self) fun u hu =>
      hp u (List.mem_cons_of_mem _ ((sortM_ok env.toEnv p q hq).subset hu))

theorem fenv64_rat : SortRat fenv64 := sortM_rat fenv64 (fenv64_good.powOk (by norm_num)).toIntOk rfl

namespace Frac
variable {env : FEnv} (h : env.toEnv.IntOk) (hs : SortOk env.sort) (ht : Poly.SortTotal env) (h1 : SortOne env) (hr : SortRat env)
include h hs ht h1 hr

/-- a sum of rational constants over 1: its value in lowest terms. -/
theorem normalize_rats {L : Int} (hL : 0 < L) (hLM : L ≤ env.M) {p : Poly} (hp : p ≠ []) (ht' : ∀ t ∈ p, RatConst L t)
    (hb : (p.map fun t => |t.times L|).sum * L ≤ env.M) :
    ∃ a b, normalize env ⟨p, unitPoly⟩ = .ok (quo a b) ∧ 0 < b ∧ Int.gcd a b = 1 ∧ |a| ≤ env.M ∧ b ≤ env.M ∧
      (a : ℝ) / b = ((p.map (Term.times L)).sum : ℝ) / L := by
  have nn : 0 ≤ (p.map fun t => |t.times L|).sum := List.sum_nonneg fun x hx => by
    obtain ⟨t, -, rfl⟩ := List.mem_map.1 hx
    exact abs_nonneg _
  have hb' : (p.map fun t => |t.times L|).sum ≤ env.M := le_trans (le_mul_of_one_le_right nn (by omega)) hb
  obtain ⟨q, hq⟩ := hr L p hL hLM fun t htp => ⟨ht' t htp, le_trans (mul_le_mul_of_nonneg_right (by
    exact List.single_le_sum (fun x hx => by
      obtain ⟨t, -, rfl⟩ := List.mem_map.1 hx
      exact abs_nonneg _) _ (List.mem_map.2 ⟨t, htp, rfl⟩)) hL.le) hb⟩
  have pm := hs _ _ hq
  have s1 : (q.map fun t => |t.times L|).sum = (p.map fun t => |t.times L|).sum := (pm.map _).sum_eq
  have s2 : (q.map (Term.times L)).sum = (p.map (Term.times L)).sum := (pm.map _).sum_eq
  obtain ⟨c, c1, c2⟩ := Poly.mergeAdj_rat h hL hLM (p := q) (fun e => hp (by rw [e] at pm; exact List.nil_perm.1 pm))
    (fun t htq => ht' t (pm.subset htq)) (by rw [s1]; exact hb')
  rw [s2] at c2
  have le : |(p.map (Term.times L)).sum| ≤ (p.map fun t => |t.times L|).sum := by
    clear * -
    induction p with
    | nil => simp
    | cons t p ih =>
      simp only [List.map_cons, List.sum_cons]
      exact le_trans (abs_add_le _ _) (by omega)
  obtain ⟨f1, f2⟩ := c2.fits (le_trans le hb') hLM
  have c0 := c2.1
  have hd : c.den ≤ env.M := le_trans c2.den_le hLM
  have nrm := normalize_single h hs ht h1
  have e1 : Poly.normalize env p = .ok [Term.ofReal (Real.ofRat c)] := by unfold Poly.normalize; rw [hq, Res.bind_ok, c1]
  have e2 : normalize env ⟨p, unitPoly⟩ = normalize env ⟨[Term.ofReal (Real.ofRat ⟨c.num, c.den⟩)], [Term.con 1]⟩ := by
    unfold normalize
    simp only
    rw [e1, nrm]
    rfl
  have hv := c2.val
  obtain ⟨r1, r2, r3, r4, r5⟩ := red_facts (n := c.num) c0.ne'
  rw [e2, normalize_ofRat h hs ht h1 f1 hd c0]
  refine ⟨_, _, rfl, lt_of_le_of_ne (Int.ediv_nonneg c0.le (by positivity)) r1.symm, r5, le_trans r2 f1,
    le_trans (le_abs_self _) (le_trans r3 (by rwa [abs_of_pos c0])), ?_⟩
  have hv' : ((c.num : ℝ) / c.den) = ((p.map (Term.times L)).sum : ℝ) / L := by
    unfold Rational.val at hv
    exact_mod_cast congrArg (fun x : ℚ => (x : ℝ)) hv
  rw [← hv', div_eq_div_iff (by exact_mod_cast r1) (by exact_mod_cast c0.ne')]
  exact_mod_cast r4.symm

end Frac
end Symxx.Sym
