import Verif.Frac.ConstFrac
/-!
# Arithmetic of the fractions of two integers
-/
namespace Symxx.Sym
open Symxx.Num

namespace Frac

/-- the fraction with the integers `n` and `d`. -/
def quo (n d : Int) : Frac := ⟨[Term.con n], [Term.con d]⟩

theorem con_eq (n : Int) : con n = quo n 1 := rfl

/-- what `normalize` makes of the fraction of two integers. -/
def red (n d : Int) : Frac := quo (n / (Int.gcd n d : Int)) (d / (Int.gcd n d : Int))

theorem red_facts {n d : Int} (hd : d ≠ 0) : d / (Int.gcd n d : Int) ≠ 0 ∧ |n / (Int.gcd n d : Int)| ≤ |n| ∧
    |d / (Int.gcd n d : Int)| ≤ |d| ∧ n * (d / (Int.gcd n d : Int)) = (n / (Int.gcd n d : Int)) * d ∧
    Int.gcd (n / (Int.gcd n d : Int)) (d / (Int.gcd n d : Int)) = 1 := by
  have gp : 0 < (Int.gcd n d : Int) := by exact_mod_cast Int.gcd_pos_iff.2 (Or.inr hd)
  obtain ⟨a, ha⟩ := Int.gcd_dvd_left n d
  obtain ⟨b, hb⟩ := Int.gcd_dvd_right n d
  have hg : Int.gcd (n / (Int.gcd n d : Int)) (d / (Int.gcd n d : Int)) = 1 :=
    Int.gcd_div_gcd_div_gcd (Int.gcd_pos_iff.2 (Or.inr hd))
  generalize (Int.gcd n d : Int) = g at gp ha hb hg ⊢
  subst ha hb
  rw [Int.mul_ediv_cancel_left _ gp.ne', Int.mul_ediv_cancel_left _ gp.ne'] at *
  have hb0 : b ≠ 0 := fun e => hd (by rw [e, mul_zero])
  refine ⟨hb0, ?_, ?_, by ring, hg⟩
  · rw [abs_mul]; exact le_mul_of_one_le_left (abs_nonneg _) (by rw [abs_of_pos gp]; omega)
  · rw [abs_mul]; exact le_mul_of_one_le_left (abs_nonneg _) (by rw [abs_of_pos gp]; omega)

variable {env : FEnv} (h : env.toEnv.IntOk) (hs : SortOk env.sort) (ht : Poly.SortTotal env)
include h hs ht

theorem norm_single {k : Int} (hk : |k| ≤ env.M) : Poly.normalize env [Term.con k] = .ok [Term.con k] := by
  have := Poly.normalize_consts h hs ht (p := [Term.con k]) (by simp)
    (by intro t ht; rw [List.mem_singleton] at ht; subst ht; rfl) (by rw [Poly.l1_cons, Poly.l1_nil, add_zero]; exact hk)
  rwa [show Poly.total [Term.con k] = k by simp [Poly.total, Term.con, Term.ofReal, Real.int]] at this

omit hs ht in
theorem div_single {k g : Int} (hk : |k| ≤ env.M) (hg : 0 < g) (hgM : g ≤ env.M) (hd : g ∣ k) :
    Poly.mapM (fun t => Term.divReal env.toEnv t (Real.int g)) [Term.con k] = .ok [Term.con (k / g)] := by
  obtain ⟨c, rfl⟩ := hd
  rw [Int.mul_ediv_cancel_left _ hg.ne']
  have e : Real.div env.toEnv (Real.int (g * c)) (Real.int g) = .ok (Real.int c) := by
    rw [mul_comm g c] at hk ⊢
    exact Real.div_int h hk hg hgM
  unfold Poly.mapM Term.divReal Term.con
  simp only [Term.ofReal]
  rw [e, Res.bind_ok]
  unfold Syms.dropZero Poly.mapM
  rfl

omit hs ht in
theorem scale_single {k : Int} (hk : |k| ≤ env.M) : scaleAll env.toEnv 1 [Term.con k] = .ok [Term.con k] := by
  have e : Term.mul env.toEnv (Term.con k) (Term.con 1) = .ok (Term.con k) := by
    unfold Term.mul Term.con
    simp only [Term.ofReal]
    have : Syms.merge env.M [] [] = .ok [] := by unfold Syms.merge; rfl
    rw [this, Res.bind_ok, Real.mul_int h hk (Real.abs1 h) (by rwa [mul_one]), Res.bind_ok, mul_one]
    unfold Syms.dropZero
    rfl
  unfold scaleAll Poly.mapM Term.ofInt
  rw [Real.ofInt_int h (Real.abs1 h)]
  simp only [Res.bind_ok]
  rw [show Term.ofReal (Real.int 1) = Term.con 1 from rfl, e]
  unfold Poly.mapM
  rfl

theorem normalize_quo {n d : Int} (hn : |n| ≤ env.M) (hd : |d| ≤ env.M) (hd0 : d ≠ 0) :
    normalize env (quo n d) = .ok (red n d) := by
  have hi : ∀ k : Int, Poly.IntLe 0 [Term.con k] := fun k => Poly.intLe_cons.2 ⟨Term.intLe_ofInt 0 k, Poly.intLe_nil 0⟩
  have gp : 0 < (Int.gcd n d : Int) := by exact_mod_cast Int.gcd_pos_iff.2 (Or.inr hd0)
  have gd : (Int.gcd n d : Int) ≤ env.M := by
    refine le_trans (Int.le_of_dvd (abs_pos.2 hd0) ?_) hd
    rw [dvd_abs]; exact Int.gcd_dvd_right n d
  have eg : gcdT env.M n d = .ok (Int.gcd n d : Int) := gcdT_ok.2 ⟨⟨hn, hd⟩, rfl⟩
  have eo : gcdOuter env.M [Term.con d] [Term.con n] (Int.gcd n d) = .ok (some (Int.gcd n d : Int)) := by
    unfold gcdOuter
    rw [List.tail_cons]
    unfold gcdInner
    rw [Res.bind_ok]
    simp only
    unfold gcdOuter
    rfl
  obtain ⟨-, r2, r3, -, -⟩ := red_facts (n := n) hd0
  unfold normalize quo
  simp only
  rw [norm_single h hs ht hn, Res.bind_ok, norm_single h hs ht hd, Res.bind_ok, multLoop_int h.hM (hi d), Res.bind_ok,
    multLoop_int h.hM (hi n), Res.bind_ok, scale_single h hn, Res.bind_ok, scale_single h hd, Res.bind_ok]
  simp only
  rw [show (Term.con n).coe.coe = ⟨n, 1⟩ from rfl, toT_int hn, Res.bind_ok, show (Term.con d).coe.coe = ⟨d, 1⟩ from rfl,
    toT_int hd, Res.bind_ok, eg, Res.bind_ok, eo, Res.bind_ok]
  simp only
  rw [Real.ofInt_int h (by rwa [abs_of_pos gp]), Res.bind_ok]
  unfold Poly.divReal
  rw [div_single h hn gp gd (Int.gcd_dvd_left n d), Res.bind_ok, norm_single h hs ht (le_trans r2 hn), Res.bind_ok,
    div_single h hd gp gd (Int.gcd_dvd_right n d), Res.bind_ok, norm_single h hs ht (le_trans r3 hd), Res.bind_ok]
  rfl

omit hs ht in
theorem isZero_single {k : Int} (hk : |k| ≤ env.M) : Poly.isZero env.toEnv [Term.con k] = .ok (decide (k = 0)) := by
  unfold Poly.isZero Term.coeIs Term.con
  rw [Real.ofInt_int h (Real.abs0 h), Res.bind_ok]
  simp only [Term.ofReal]
  rw [Real.eq_int h hk (Real.abs0 h), Res.bind_ok]
  by_cases h0 : k = 0 <;> simp [h0, Poly.isZero]

omit hs ht in
theorem eq_single {j k : Int} (hj : |j| ≤ env.M) (hk : |k| ≤ env.M) :
    Poly.eq env.toEnv [Term.con j] [Term.con k] = .ok (decide (j = k)) := by
  unfold Poly.eq
  rw [if_pos (by rfl)]
  unfold Poly.eqGo Term.eq Term.con
  simp only [Term.ofReal]
  rw [Real.eq_int h hj hk, Res.bind_ok]
  have : Syms.eq env.M [] [] = .ok true := by unfold Syms.eq; rw [if_pos rfl]; unfold Syms.eqGo; rfl
  by_cases h0 : j = k
  · simp [h0, this, Poly.eqGo]
  · simp [h0]

theorem mul_single {j k : Int} (hj : |j| ≤ env.M) (hk : |k| ≤ env.M) (hjk : |j * k| ≤ env.M) :
    Poly.mulAssign env [Term.con j] [Term.con k] = .ok [Term.con (j * k)] := by
  have e : Term.mul env.toEnv (Term.con j) (Term.con k) = .ok (Term.con (j * k)) := by
    unfold Term.mul Term.con
    simp only [Term.ofReal]
    have : Syms.merge env.M [] [] = .ok [] := by unfold Syms.merge; rfl
    rw [this, Res.bind_ok, Real.mul_int h hj hk hjk, Res.bind_ok]
    unfold Syms.dropZero
    rfl
  unfold Poly.mulAssign Poly.products Poly.mapM Poly.products Poly.mapM
  rw [e]
  simp only [Res.bind_ok, List.append_nil]
  exact norm_single h hs ht hjk

theorem add_single {j k : Int} (hjk : |j| + |k| ≤ env.M) :
    Poly.addAssign env [Term.con j] [Term.con k] = .ok [Term.con (j + k)] := by
  unfold Poly.addAssign
  rw [Poly.normalize_consts h hs ht (by simp)
    (by intro t ht; simp only [List.singleton_append, List.mem_cons, List.not_mem_nil, or_false] at ht
        rcases ht with rfl | rfl <;> rfl)
    (by simp only [List.singleton_append, Poly.l1_cons, Poly.l1_nil, add_zero]; exact hjk)]
  simp [Poly.total, Term.con, Term.ofReal, Real.int]

omit hs ht in
theorem tryEval_single {k : Int} (hk : |k| ≤ env.M) : Poly.tryEval env.toEnv [Term.con k] = .ok (some (Real.int k)) := by
  unfold Poly.tryEval
  rw [Real.ofInt_int h (Real.abs0 h), Res.bind_ok]
  unfold Poly.tryEvalLoop
  show (Real.isEquivalentWith env.toEnv (Real.int 0) (Real.int k) >>= _) = _
  rw [Real.isEquivalentWith_int h, Res.bind_ok, if_pos rfl]
  show (Real.add env.toEnv (Real.int 0) (Real.int k) >>= _) = _
  rw [Real.add_int h (Real.abs0 h) hk (by rwa [zero_add]), Res.bind_ok, zero_add]
  rfl

theorem pmul_single {j k : Int} (hj : |j| ≤ env.M) (hk : |k| ≤ env.M) (hjk : |j * k| ≤ env.M) :
    Poly.mul env [Term.con j] [Term.con k] = .ok [Term.con (j * k)] := by
  unfold Poly.mul
  rw [tryEval_single h hj, Res.bind_ok, tryEval_single h hk, Res.bind_ok]
  simp only
  rw [Real.mul_int h hj hk hjk, Res.bind_ok]
  exact norm_single h hs ht hjk

theorem padd_single {j k : Int} (hjk : |j| + |k| ≤ env.M) :
    Poly.add env [Term.con j] [Term.con k] = .ok [Term.con (j + k)] := by
  have h1 := abs_nonneg j
  have h2 := abs_nonneg k
  have h3 := abs_add_le j k
  unfold Poly.add
  rw [tryEval_single h (by omega), Res.bind_ok, tryEval_single h (by omega), Res.bind_ok]
  simp only
  rw [Real.add_int h (by omega) (by omega) (by omega), Res.bind_ok]
  exact norm_single h hs ht (by omega)

/-- addition: fractions with the same denominator are not reduced. -/
theorem add_quo {a b c d : Int} (ha : |a| ≤ env.M) (hb : |b| ≤ env.M) (hc : |c| ≤ env.M) (hd : |d| ≤ env.M) (hb0 : b ≠ 0)
    (hd0 : d ≠ 0) (hn : |a| * |d| + |c| * |b| ≤ env.M) (hm : |b| * |d| ≤ env.M) :
    add env (quo a b) (quo c d) = .ok (if b = d then quo (a + c) b else red (a * d + c * b) (b * d)) := by
  have pb := abs_pos.2 hb0
  have pd := abs_pos.2 hd0
  have na := abs_nonneg a
  have nc := abs_nonneg c
  unfold add quo
  simp only
  rw [eq_single h hb hd, Res.bind_ok]
  by_cases hbd : b = d
  · rw [decide_eq_true hbd, if_pos rfl, add_single h hs ht (by nlinarith), Res.bind_ok, if_pos hbd]
  · have e1 := abs_mul a d
    have e2 := abs_mul c b
    have n1 := abs_nonneg (a * d)
    have n2 := abs_nonneg (c * b)
    rw [decide_eq_false hbd, if_neg (by simp), pmul_single h hs ht ha hd (by omega), Res.bind_ok,
      pmul_single h hs ht hc hb (by omega), Res.bind_ok, padd_single h hs ht (by omega), Res.bind_ok,
      mul_single h hs ht hb hd (by rwa [abs_mul]), Res.bind_ok, if_neg hbd]
    have h3 := abs_add_le (a * d) (c * b)
    exact normalize_quo h hs ht (by omega) (by rwa [abs_mul]) (mul_ne_zero hb0 hd0)

theorem negate_quo {c d : Int} (hc : |c| ≤ env.M) (hd : |d| ≤ env.M) (hd0 : d ≠ 0) :
    negate env (quo c d) = .ok (red (-c) d) := by
  have hn : Poly.negate env.toEnv [Term.con c] = .ok [Term.con (-c)] := by
    unfold Poly.negate Poly.mapM Term.negate Term.con
    simp only [Term.ofReal]
    rw [Real.negate_int h hc, Res.bind_ok]
    unfold Term.mk' Syms.dropZero Poly.mapM
    rfl
  unfold negate mk2 quo
  simp only
  rw [hn, Res.bind_ok, isZero_single h hd, Res.bind_ok, decide_eq_false hd0]
  exact normalize_quo h hs ht (by rwa [abs_neg]) hd hd0

theorem mul_quo {a b c d : Int} (ha : |a| ≤ env.M) (hb : |b| ≤ env.M) (hc : |c| ≤ env.M) (hd : |d| ≤ env.M) (hb0 : b ≠ 0)
    (hd0 : d ≠ 0) (hn : |a * c| ≤ env.M) (hm : |b * d| ≤ env.M) :
    mul env (quo a b) (quo c d) = .ok (red (a * c) (b * d)) := by
  unfold mul quo
  simp only
  rw [mul_single h hs ht ha hc hn, Res.bind_ok, mul_single h hs ht hb hd hm, Res.bind_ok]
  exact normalize_quo h hs ht hn hm (mul_ne_zero hb0 hd0)

theorem div_quo {a b c d : Int} (ha : |a| ≤ env.M) (hb : |b| ≤ env.M) (hc : |c| ≤ env.M) (hd : |d| ≤ env.M) (hb0 : b ≠ 0)
    (hn : |a * d| ≤ env.M) (hm : |b * c| ≤ env.M) :
    div env (quo a b) (quo c d) = if c = 0 then .throw divisionByZero else .ok (red (a * d) (b * c)) := by
  unfold div quo
  simp only
  rw [isZero_single h hc, Res.bind_ok]
  by_cases hc0 : c = 0
  · rw [if_pos hc0, decide_eq_true hc0]
    rfl
  · rw [if_neg hc0, decide_eq_false hc0, Bool.not_false, Res.assert_true, Res.bind_ok, mul_single h hs ht ha hd hn, Res.bind_ok,
      mul_single h hs ht hb hc hm, Res.bind_ok]
    exact normalize_quo h hs ht hn hm (mul_ne_zero hb0 hc0)

end Frac
end Symxx.Sym
