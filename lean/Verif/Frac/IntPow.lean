import Verif.Frac.IntPoly
import Verif.Frac.Inst
/-!
# Powers of integer polynomials return
-/
namespace Symxx.Num

namespace Rational

/-- exact division. -/
theorem div_int {M q t : Int} (hM : 1 ≤ M) (hq : |q * t| ≤ M) (ht : 0 < t) (htM : t ≤ M) :
    div M ⟨q * t, 1⟩ ⟨t, 1⟩ = .ok ⟨q, 1⟩ := by
  have ht' : |t| ≤ M := by rw [abs_of_pos ht]; exact htM
  have h1 : |(1 : Int)| ≤ M := by simpa using hM
  have hqM : |q| ≤ M := by
    rw [abs_mul, abs_of_pos ht] at hq
    have := abs_nonneg q
    nlinarith
  unfold div inverse mk2
  have e0 : Res.assert (decide (t ≠ 0)) divisionByZero = .ok () := by simp [Res.assert, ht.ne']
  have e1 : normalize M ⟨1, t⟩ = .ok ⟨1, t⟩ := by
    rw [normalize_eq M 1 t h1 ht' ht.ne']
    have hg : (Int.gcd 1 t : Int) = 1 := by simp
    simp only [hg, Int.tdiv_one]
    rw [if_neg (by omega)]
  rw [e0, Res.bind_ok, e1, Res.bind_ok]
  unfold mul
  have g1 : gcdT M (q * t) t = .ok t := gcdT_ok.2 ⟨⟨hq, ht'⟩, by
    rw [Int.gcd_eq_natAbs, Int.natAbs_mul, Nat.gcd_mul_left_left]; omega⟩
  have g2 : gcdT M 1 1 = .ok 1 := gcdT_ok.2 ⟨⟨h1, h1⟩, by simp⟩
  have d1 : divT M (q * t) t = .ok q := divT_ok.2 ⟨ht.ne', by
    rw [Int.mul_tdiv_cancel _ ht.ne']; exact ⟨inRange_of_abs hqM, rfl⟩⟩
  have d2 : divT M 1 1 = .ok 1 := divT_ok.2 ⟨by norm_num, inRange_of_abs h1, rfl⟩
  have d3 : divT M t t = .ok 1 := divT_ok.2 ⟨ht.ne', by
    rw [Int.tdiv_self ht.ne']; exact ⟨inRange_of_abs h1, rfl⟩⟩
  simp only [g1, g2, d1, d2, d3, Res.bind_ok, mul_one]
  rw [chk_ok (inRange_of_abs hqM), Res.bind_ok, chk_ok (inRange_of_abs h1), Res.bind_ok]
  rfl

theorem pow_int_eq {M : Int} {fl : Fl} (hfl : ∀ (n p q : Int) (k : Nat), q ≠ 0 → p = k * q → |p| ≤ 2 ^ 53 → |q| ≤ 2 ^ 53 →
      |n ^ k| ≤ 2 ^ 53 → fl.powT n p q = .ok (n ^ k)) (hM : (2 : Int) ^ 53 ≤ M) {k : Int} {a : Nat} (hk : |k| ≤ M)
    (h : |k ^ a| ≤ 2 ^ 53) (ha : (a : Int) ≤ 2 ^ 53) : pow M fl ⟨k, 1⟩ ⟨a, 1⟩ = .ok ⟨k ^ a, 1⟩ := by
  have hM1 : 1 ≤ M := le_trans (by norm_num) hM
  have h0 : |(0 : Int)| ≤ M := by simp; omega
  have h1 : |(1 : Int)| ≤ M := by simpa using hM1
  have haM : |(a : Int)| ≤ M := by rw [abs_of_nonneg (by positivity)]; omega
  have haa : |(a : Int)| ≤ 2 ^ 53 := by rw [abs_of_nonneg (by positivity)]; exact ha
  unfold pow
  rw [eqInt_int hM1 haM h0, Res.bind_ok]
  by_cases e0 : a = 0
  · subst e0
    simp [ofInt_eq M 1 h1 hM1]
  have e0' : ¬ ((a : Int) = 0) := by exact_mod_cast e0
  simp only [e0', decide_false, Bool.false_eq_true, if_false]
  rw [eqInt_int hM1 haM h1, Res.bind_ok]
  by_cases e1 : a = 1
  · subst e1
    simp
  have e1' : ¬ ((a : Int) = 1) := by exact_mod_cast e1
  simp only [e1', decide_false, Bool.false_eq_true, if_false]
  rw [hfl k a 1 a (by norm_num) (by ring) haa (by norm_num) h, Res.bind_ok,
    hfl 1 a 1 a (by norm_num) (by ring) haa (by norm_num) (by simp), Res.bind_ok, one_pow]
  exact normalize_int M _ (le_trans h hM) hM1

end Rational

/-- what powers of integers need: exact floating-point powers up to `2^53`. -/
structure Env.PowOk (env : Env) : Prop extends env.IntOk where
  hM53 : (2 : Int) ^ 53 ≤ env.M
  exact : ∀ (n p q : Int) (k : Nat), q ≠ 0 → p = k * q → |p| ≤ 2 ^ 53 → |q| ≤ 2 ^ 53 → |n ^ k| ≤ 2 ^ 53 →
    env.fl.powT n p q = .ok (n ^ k)

theorem Env.Good.powOk {env : Env} {B : Nat} (h : env.Good B) (hB : 1 ≤ B) : env.PowOk where
  hM := h.M1
  fac1 := by have := h.hfac 1 one_pos hB; simpa using this
  hM53 := h.hM
  exact := h.exact.powT

theorem Env.Good.powOk_checked {env : Env} {B : Nat} (h : env.Good B) (hB : 1 ≤ B) : (env.checked B).PowOk where
  hM := h.M1
  fac1 := by
    show (if (0 : Int) < 1 ∧ (1 : Int) ≤ B then _ else _) = _
    rw [if_pos ⟨one_pos, by exact_mod_cast hB⟩, (h.powOk hB).fac1, Res.bind_ok, if_pos (by decide)]
  hM53 := h.hM
  exact n p q k hq hp h1 h2 h3 := by
    show (if q ≠ 0 ∧ q ∣ p ∧ 0 ≤ p / q ∧ |p| ≤ 2 ^ 53 ∧ |q| ≤ 2 ^ 53 ∧ |n ^ (p / q).toNat| ≤ 2 ^ 53 then
          env.fl.powT n p q else .exn "rounding") = _
    have e : p / q = k := by rw [hp, Int.mul_ediv_cancel _ hq]
    rw [if_pos ⟨hq, ⟨k, by rw [hp, mul_comm]⟩, by rw [e]; positivity, h1, h2, by rw [e]; exact h3⟩]
    exact h.exact.powT n p q k hq hp h1 h2 h3

theorem Real.pow_int {env : Env} (h : env.PowOk) {k : Int} {a : Nat} (hk : |k| ≤ env.M)
    (hka : |k ^ a| ≤ 2 ^ 53) (ha : (a : Int) ≤ 2 ^ 53) : Real.pow env (int k) ⟨a, 1⟩ = .ok (int (k ^ a)) := by
  have h' := h.toIntOk
  have hM53 := h.hM53
  have haM : |(a : Int)| ≤ env.M := by rw [abs_of_nonneg (by positivity)]; omega
  unfold Real.pow Real.powN
  rw [Rational.eqInt_int h.hM haM (abs0 h'), Res.bind_ok]
  by_cases e0 : a = 0
  · subst e0
    simp [ofInt_int h' (abs1 h')]
  have e0' : ¬ ((a : Int) = 0) := by exact_mod_cast e0
  simp only [e0', decide_false, Bool.false_eq_true, if_false]
  rw [Rational.eqInt_int h.hM haM (abs1 h'), Res.bind_ok]
  by_cases e1 : a = 1
  · subst e1
    simp
  have e1' : ¬ ((a : Int) = 1) := by exact_mod_cast e1
  simp only [e1', decide_false, Bool.false_eq_true, if_false]
  rw [Rational.ofInt_eq _ _ (abs0 h') h.hM, Res.bind_ok, Rational.lt_int haM (abs0 h'), Res.bind_ok,
    if_neg (by simp)]
  unfold powPos
  have e2 : (Rational.isInt ⟨(a : Int), 1⟩) = true := rfl
  rw [e2, if_pos rfl]
  simp only [int]
  rw [Rational.pow_int_eq h.exact hM53 hk hka ha, Res.bind_ok,
    Rational.pow_int_eq h.exact hM53 (abs1 h') (by simp) ha, Res.bind_ok, one_pow]
  exact normalize_int' h' (le_trans hka hM53)

end Symxx.Num

namespace Symxx.Sym
open Symxx.Num Nat

theorem Syms.scale_int {M D : Int} (hM : 1 ≤ M) {a : Nat} (hD0 : 0 ≤ D) (hD : D ≤ M) (hDa : D * a ≤ M) (ha : (a : Int) ≤ M) {s : Syms}
    (hs : s.IntLe D) : ∃ s', Syms.scale M ⟨a, 1⟩ s = .ok s' ∧ s'.IntLe (D * a) := by
  induction s with
  | nil => exact ⟨_, rfl, by intro p hp; simp at hp⟩
  | cons p s ih =>
    obtain ⟨k, v⟩ := p
    obtain ⟨⟨v1, v2⟩, v3⟩ := Syms.intLe_cons.1 hs
    simp only at v1 v2
    obtain ⟨s', e1, e2⟩ := ih v3
    have hm : |v.num * a| ≤ D * a := by
      rw [abs_mul, abs_of_nonneg (show (0 : Int) ≤ (a : Int) by positivity)]
      exact mul_le_mul_of_nonneg_right v2 (by positivity)
    have e : Rational.mul M v ⟨a, 1⟩ = .ok ⟨v.num * a, 1⟩ := by
      rw [Syms.den_one v1]
      exact Rational.mul_int hM (le_trans v2 hD) (by rw [abs_of_nonneg (by positivity)]; exact ha) (le_trans hm hDa)
    unfold Syms.scale
    rw [e, Res.bind_ok, e1, Res.bind_ok]
    exact ⟨_, rfl, Syms.intLe_cons.2 ⟨⟨rfl, hm⟩, e2⟩⟩

theorem Term.pow_int {env : Env} (h : env.PowOk) {D : Int} {t : Term} (ht : t.IntLe D) {a : Nat} (hD0 : 0 ≤ D) (hD : D ≤ env.M)
    (hDa : D * a ≤ env.M) (ha : (a : Int) ≤ 2 ^ 53) (hk : |t.coe.coe.num| ≤ env.M) (hka : |t.coe.coe.num ^ a| ≤ 2 ^ 53) :
    ∃ r, Term.pow env t ⟨a, 1⟩ = .ok r ∧ r.IntLe (D * a) ∧ r.coe.coe.num = t.coe.coe.num ^ a := by
  have hM53 := h.hM53
  obtain ⟨s, e1, e2⟩ := Syms.scale_int h.hM hD0 hD hDa (by omega) ht.2.1
  obtain ⟨s', e3, e4⟩ := Syms.dropZero_int h.hM hDa e2
  have e5 : Real.pow env t.coe ⟨a, 1⟩ = .ok (Real.int (t.coe.coe.num ^ a)) := by
    rw [ht.1]; exact Real.pow_int h hk hka ha
  unfold Term.pow
  rw [e5, Res.bind_ok, e1, Res.bind_ok, e3, Res.bind_ok]
  have w := (Syms.scale_sound (ρ := fun _ => 1) (fun _ => one_pos) ht.2.2 e1).1
  exact ⟨_, rfl, ⟨rfl, e4, Syms.wf_of_checked w e3⟩, rfl⟩

namespace Poly

theorem divFact_int {M : Int} (hM : 1 ≤ M) : ∀ {n : Nat} {q : Int}, 0 ≤ q → (n : Int) ≤ M → q * (n ! : Int) ≤ M →
    divFact M n ⟨q * (n ! : Int), 1⟩ = .ok ⟨q, 1⟩
  | 0, q, _, _, _ => by unfold divFact; simp
  | n + 1, q, hq, hn, hl => by
    have hf : (((n + 1)! : Nat) : Int) = ((n : Int) + 1) * (n ! : Int) := by
      rw [Nat.factorial_succ]; push_cast; ring
    have hn' : ((n : Int) + 1) ≤ M := by exact_mod_cast hn
    rw [hf] at hl ⊢
    have hpos : (1 : Int) ≤ (n ! : Int) := by exact_mod_cast Nat.factorial_pos n
    have h1 : 0 ≤ q * ((n : Int) + 1) := by positivity
    have h2 : q * ((n : Int) + 1) * (n ! : Int) ≤ M := by rw [mul_assoc]; exact hl
    have h3 : q * ((n : Int) + 1) ≤ M := le_trans (le_mul_of_one_le_right h1 hpos) h2
    unfold divFact
    rw [← mul_assoc, divFact_int hM h1 (by omega) h2, Res.bind_ok,
      Rational.ofInt_eq _ _ (by rw [abs_of_nonneg (by omega)]; exact hn') hM, Res.bind_ok]
    exact Rational.div_int hM (by rw [abs_of_nonneg h1]; exact h3) (by omega) hn'

/-- the product of the factorials. -/
def factProd (v : List Int) : Nat := (v.map fun a => (Int.toNat a)!).prod

theorem divFacts_int {M : Int} (hM : 1 ≤ M) {v : List Int} (hv : ∀ a ∈ v, 0 ≤ a ∧ a ≤ M) {q : Int} (hq : 0 ≤ q)
    (hl : q * (factProd v : Int) ≤ M) : divFacts M v ⟨q * (factProd v : Int), 1⟩ = .ok ⟨q, 1⟩ := by
  induction v with
  | nil => unfold divFacts factProd; simp
  | cons a v ih =>
    have e : q * (factProd (a :: v) : Int) = q * (factProd v : Int) * ((Int.toNat a)! : Int) := by
      unfold factProd; rw [List.map_cons, List.prod_cons]; push_cast; ring
    rw [e] at hl ⊢
    have hpos : (1 : Int) ≤ ((Int.toNat a)! : Int) := by exact_mod_cast Nat.factorial_pos _
    obtain ⟨ha, ha'⟩ := hv a List.mem_cons_self
    have h1 : 0 ≤ q * (factProd v : Int) := by positivity
    unfold divFacts
    rw [divFact_int hM h1 (by omega) hl, Res.bind_ok]
    exact ih (fun b hb => hv b (List.mem_cons_of_mem _ hb)) (le_trans (le_mul_of_one_le_right h1 hpos) hl)

theorem multinomial_dvd {v : List Int} (hv : ∀ a ∈ v, 0 ≤ a) : factProd v ∣ (Int.toNat v.sum)! := by
  induction v with
  | nil => simp [factProd]
  | cons a v ih =>
    have h1 := ih fun b hb => hv b (List.mem_cons_of_mem _ hb)
    have h2 := hv a List.mem_cons_self
    have h3 : 0 ≤ v.sum := List.sum_nonneg fun b hb => hv b (List.mem_cons_of_mem _ hb)
    rw [List.sum_cons, Int.toNat_add h2 h3]
    unfold factProd
    rw [List.map_cons, List.prod_cons]
    exact (mul_dvd_mul_left _ h1).trans (Nat.factorial_mul_factorial_dvd_factorial_add _ _)

/-- the coefficient product. -/
def coeProd (p : Poly) (v : List Int) : Int := (List.zipWith (fun (t : Term) a => t.coe.coe.num ^ Int.toNat a) p v).prod

theorem powerProd_int {env : Env} (h : env.PowOk) {D L K : Int} (hD0 : 0 ≤ D) (hL : 1 ≤ L) (hK : K ≤ 2 ^ 53) :
    ∀ {p : Poly} {v : List Int} {acc : Term} {u n : Nat}, IntLe D p → (∀ t ∈ p, |t.coe.coe.num| ≤ L) → (∀ a ∈ v, 0 ≤ a) →
      acc.IntLe (D * u) → (u : Int) + v.sum = n → D ≤ env.M → D * n ≤ env.M → (n : Int) ≤ 2 ^ 53 →
      (L ^ (Int.toNat v.sum) ≤ K) → |acc.coe.coe.num| * L ^ (Int.toNat v.sum) ≤ K → L ≤ env.M →
      ∃ r, powerProd env p v acc = .ok r ∧ r.IntLe (D * n) ∧ r.coe.coe.num = acc.coe.coe.num * coeProd p v
  | [], v, acc, u, n, _, _, hv, hacc, hun, _, _, _, _, _, _ => by
    have : 0 ≤ v.sum := List.sum_nonneg hv
    refine ⟨acc, by unfold powerProd; rfl, hacc.mono (mul_le_mul_of_nonneg_left (by omega) hD0), by simp [coeProd]⟩
  | t :: p, [], acc, u, n, _, _, hv, hacc, hun, _, _, _, _, _, _ => by
    refine ⟨acc, by unfold powerProd; rfl, hacc.mono (mul_le_mul_of_nonneg_left (by simp at hun; omega) hD0), by simp [coeProd]⟩
  | t :: p, a :: v, acc, u, n, hp, hk, hv, hacc, hun, hDM, hDn, hn, hLK, hac, hLM => by
    have hM53 := h.hM53
    obtain ⟨ht, hp'⟩ := intLe_cons.1 hp
    have hv' : ∀ a ∈ v, 0 ≤ a := fun b hb => hv b (List.mem_cons_of_mem _ hb)
    have ha := hv a List.mem_cons_self
    have hs := List.sum_nonneg hv'
    obtain ⟨A, rfl⟩ := Int.eq_ofNat_of_zero_le ha
    obtain ⟨S, hS⟩ := Int.eq_ofNat_of_zero_le hs
    rw [List.sum_cons, hS] at hun hLK hac
    have hAS : Int.toNat ((A : Int) + (S : Int)) = A + S := by omega
    rw [hAS, pow_add] at hLK hac
    have p1 : (1 : Int) ≤ L ^ S := one_le_pow₀ hL
    have p2 : (1 : Int) ≤ L ^ A := one_le_pow₀ hL
    have tk := hk t List.mem_cons_self
    have tA : |t.coe.coe.num ^ A| ≤ L ^ A := by
      rw [abs_pow]; exact pow_le_pow_left₀ (abs_nonneg _) tk A
    have hLA : L ^ A ≤ K := by nlinarith
    have hLS : L ^ S ≤ K := by nlinarith
    have hDA : D * A ≤ env.M := le_trans (mul_le_mul_of_nonneg_left (by omega) hD0) hDn
    have hDu : D * (u : Int) + D * A ≤ env.M := by
      rw [← mul_add]; exact le_trans (mul_le_mul_of_nonneg_left (by omega) hD0) hDn
    obtain ⟨x, x1, x2, x3⟩ := Term.pow_int h ht (a := A) hD0 hDM hDA (by omega) (by omega) (by omega)
    have n0 := abs_nonneg acc.coe.coe.num
    have hprod : |acc.coe.coe.num * x.coe.coe.num| * L ^ S ≤ K := by
      rw [abs_mul, x3]
      have : |acc.coe.coe.num| * |t.coe.coe.num ^ A| * L ^ S ≤ |acc.coe.coe.num| * L ^ A * L ^ S := by gcongr
      calc _ ≤ _ := this
        _ = |acc.coe.coe.num| * (L ^ A * L ^ S) := by ring
        _ ≤ K := hac
    have hacc0 : |acc.coe.coe.num| ≤ K := by
      refine le_trans ?_ hac
      exact le_mul_of_one_le_right n0 (one_le_mul_of_one_le_of_one_le p2 p1)
    have hpr0 : |acc.coe.coe.num * x.coe.coe.num| ≤ K :=
      le_trans (le_mul_of_one_le_right (abs_nonneg _) p1) hprod
    obtain ⟨y, y1, y2, y3⟩ := Term.mul_int h.toIntOk hacc x2 (by positivity) (by positivity) hDu (by omega) (by rw [x3]; omega)
      (by omega)
    rw [← mul_add] at y2
    obtain ⟨r, r1, r2, r3⟩ := powerProd_int h hD0 hL hK (p := p) (v := v) (acc := y) (u := u + A) (n := n) hp'
      (fun t ht => hk t (List.mem_cons_of_mem _ ht)) hv' (by push_cast; exact y2) (by rw [hS]; push_cast; omega) hDM hDn hn
      (by rw [hS]; exact hLS) (by rw [hS, y3]; exact hprod) hLM
    unfold powerProd
    rw [Rational.ofInt_eq _ _ (by rw [abs_of_nonneg ha]; omega) h.hM, Res.bind_ok, x1, Res.bind_ok, y1, Res.bind_ok]
    refine ⟨r, r1, r2, ?_⟩
    rw [r3, y3, x3]
    simp only [coeProd, List.zipWith_cons_cons, List.prod_cons, Int.toNat_natCast]
    ring

theorem expandOne_int {env : Env} (h : env.PowOk) {D L : Int} (hD0 : 0 ≤ D) (hL : 1 ≤ L) {p : Poly} {v : List Int} {n : Nat}
    (hp : IntLe D p) (hk : ∀ t ∈ p, |t.coe.coe.num| ≤ L) (hv : IsSol n p.length v) (hD : D ≤ env.M) (hDn : D * n ≤ env.M)
    (hn1 : 1 ≤ n) (hn : (n : Int) ≤ 2 ^ 53) (hb : (n ! : Int) * L ^ n ≤ 2 ^ 53) :
    ∃ r, expandOne env p (n ! : Nat) v = .ok r ∧ r.IntLe (D * n) ∧
      ∃ Q : Nat, n ! = Q * factProd v ∧ r.coe.coe.num = Q * coeProd p v := by
  have hM53 := h.hM53
  obtain ⟨hv1, hv2, hv3⟩ := hv
  obtain ⟨Q, hQ⟩ := multinomial_dvd hv2
  rw [hv3, Int.toNat_natCast, mul_comm] at hQ
  have p1 : (1 : Int) ≤ L ^ n := one_le_pow₀ hL
  have f1 : (1 : Int) ≤ (n ! : Int) := by exact_mod_cast Nat.factorial_pos n
  have hf : (n ! : Int) ≤ 2 ^ 53 := le_trans (le_mul_of_one_le_right (by omega) p1) hb
  have hfM : |(n ! : Int)| ≤ env.M := by rw [abs_of_nonneg (by omega)]; omega
  have hQz : (n ! : Int) = (Q : Int) * (factProd v : Int) := by exact_mod_cast hQ
  have fp : (1 : Int) ≤ (factProd v : Int) := by
    have : 0 < factProd v := by
      unfold factProd
      refine List.prod_pos fun a ha => ?_
      obtain ⟨b, -, rfl⟩ := List.mem_map.1 ha
      exact Nat.factorial_pos _
    exact_mod_cast this
  have hQf : (Q : Int) ≤ (n ! : Int) := by rw [hQz]; exact le_mul_of_one_le_right (by positivity) fp
  have hvM : ∀ a ∈ v, 0 ≤ a ∧ a ≤ env.M := fun a ha => ⟨hv2 a ha, by
    have := List.single_le_sum hv2 a ha
    omega⟩
  unfold expandOne
  rw [wrap_of_range (inRange_of_abs hfM), Rational.ofInt_eq _ _ hfM h.hM, Res.bind_ok, hQz,
    divFacts_int h.hM hvM (by positivity) (by omega), Res.bind_ok]
  have hQM : |(Q : Int)| ≤ env.M := by rw [abs_of_nonneg (by positivity)]; omega
  have e1 : Real.ofRational env ⟨(Q : Int), 1⟩ = .ok (Real.int Q) := by
    have := Real.ofInt_int h.toIntOk hQM
    unfold Real.ofInt at this
    rwa [Rational.ofInt_eq _ _ hQM h.hM, Res.bind_ok] at this
  rw [e1, Res.bind_ok]
  have hLM : L ≤ env.M := by
    have : L ≤ L ^ n := le_self_pow₀ hL (by omega)
    nlinarith
  have hLn : L ^ n ≤ 2 ^ 53 := le_trans (le_mul_of_one_le_left (by omega) f1) hb
  obtain ⟨r, r1, r2, r3⟩ := powerProd_int h hD0 hL (K := 2 ^ 53) le_rfl (p := p) (v := v) (acc := Term.ofReal (Real.int Q))
      (u := 0) (n := n) hp hk hv2 (Term.intLe_ofInt _ _) (by rw [hv3]; simp) hD hDn hn (by rw [hv3, Int.toNat_natCast]; exact hLn)
      (by
        rw [hv3, Int.toNat_natCast]
        show |(Q : Int)| * L ^ n ≤ _
        rw [abs_of_nonneg (by positivity)]
        exact le_trans (mul_le_mul_of_nonneg_right hQf (by omega)) hb) hLM
  exact ⟨r, r1, r2, Q, hQ, r3⟩

theorem weight_coe {n : Nat} {p : Poly} {v : List Int} {Q : Nat} (h : n ! = Q * factProd v)
    (hl : p.length = v.length) : (|(Q : ℝ) * (coeProd p v : ℝ)|) = (n ! : ℝ) * weight (p.map fun t => |(t.coe.coe.num : ℝ)|) v := by
  have e : ∀ (p : Poly) (v : List Int), p.length = v.length → (|(coeProd p v : ℝ)|) =
      (factProd v : ℝ) * weight (p.map fun t => |(t.coe.coe.num : ℝ)|) v := by
    intro p
    induction p with
    | nil =>
      intro v hl
      match v, hl with
      | [], _ => simp [coeProd, factProd, weight]
    | cons t p ih =>
      intro v hl
      match v, hl with
      | a :: v, hl =>
        have := ih v (by simpa using hl)
        have hf : ((Int.toNat a)! : ℝ) ≠ 0 := by exact_mod_cast Nat.factorial_ne_zero _
        simp only [coeProd, factProd, weight, List.zipWith_cons_cons, List.prod_cons, List.map_cons, Int.cast_mul,
          Nat.cast_mul, abs_mul, Int.cast_pow, abs_pow] at this ⊢
        rw [this]
        field_simp
  rw [abs_mul, e p v hl, h, Nat.cast_mul, abs_of_nonneg (by positivity)]
  ring

theorem expand_int {env : Env} (h : env.PowOk) {D L : Int} (hD0 : 0 ≤ D) (hL : 1 ≤ L) {p : Poly} {n : Nat}
    (hp : IntLe D p) (hk : ∀ t ∈ p, |t.coe.coe.num| ≤ L) (hD : D ≤ env.M) (hDn : D * n ≤ env.M)
    (hn1 : 1 ≤ n) (hn : (n : Int) ≤ 2 ^ 53) (hb : (n ! : Int) * L ^ n ≤ 2 ^ 53) {vs : List (List Int)}
    (hv : ∀ v ∈ vs, IsSol n p.length v) :
    ∃ r, expand env p (n ! : Nat) vs = .ok r ∧ IntLe (D * n) r ∧
      (l1 r : ℝ) = (n ! : ℝ) * (vs.map (weight (p.map fun t => |(t.coe.coe.num : ℝ)|))).sum := by
  induction vs with
  | nil => exact ⟨[], by unfold expand; rfl, intLe_nil _, by simp [l1_nil]⟩
  | cons v vs ih =>
    obtain ⟨t, t1, t2, Q, t3, t4⟩ := expandOne_int h hD0 hL hp hk (hv v List.mem_cons_self) hD hDn hn1 hn hb
    obtain ⟨r, r1, r2, r3⟩ := ih fun w hw => hv w (List.mem_cons_of_mem _ hw)
    unfold expand
    rw [t1, Res.bind_ok, r1, Res.bind_ok]
    refine ⟨_, rfl, intLe_cons.2 ⟨t2, r2⟩, ?_⟩
    rw [l1_cons, List.map_cons, List.sum_cons, mul_add, ← r3, t4]
    push_cast
    rw [weight_coe t3 (hv v List.mem_cons_self).1.symm]

theorem l1_cast (p : Poly) : (l1 p : ℝ) = (p.map fun t => |(t.coe.coe.num : ℝ)|).sum := by
  induction p with
  | nil => simp [l1_nil]
  | cons t p ih => rw [l1_cons, List.map_cons, List.sum_cons, ← ih]; push_cast; rfl

section
variable {env : FEnv} (h : env.toEnv.PowOk) (hs : SortOk env.sort) (ht : SortTotal env)
include h hs ht

/-- powers of an integer polynomial return whenever `n! * max(1, l1)^n ≤ 2^53`. -/
theorem pow_int {D : Int} (hD0 : 0 ≤ D) {p : Poly} {n : Nat} (hp : IntLe D p) (hD : D ≤ env.M) (hDn : D * n ≤ env.M)
    (hn : (n : Int) ≤ 2 ^ 53) (hl : l1 p ≤ env.M) (hb : (n ! : Int) * (max 1 (l1 p)) ^ n ≤ 2 ^ 53) :
    ∃ r, pow env p ⟨n, 1⟩ = .ok r ∧ IntLe (max D (D * n)) r ∧ l1 r ≤ max 1 (l1 p ^ n) := by
  have h' := h.toIntOk
  have hM53 := h.hM53
  have hM := h.hM
  have hnM : |(n : Int)| ≤ env.M := by rw [abs_of_nonneg (by positivity)]; omega
  have f1 : (1 : Int) ≤ (n ! : Int) := by exact_mod_cast Nat.factorial_pos n
  have hL : (1 : Int) ≤ max 1 (l1 p) := le_max_left _ _
  have hLn : (max 1 (l1 p)) ^ n ≤ 2 ^ 53 := le_trans (le_mul_of_one_le_left (by positivity) f1) hb
  have hln : l1 p ^ n ≤ 2 ^ 53 := le_trans (pow_le_pow_left₀ (l1_nonneg p) (le_max_right _ _) n) hLn
  unfold pow
  rw [Rational.eqInt_int hM hnM (Real.abs0 h'), Res.bind_ok]
  by_cases e0 : n = 0
  · subst e0
    simp only [Nat.cast_zero, decide_true, if_true]
    unfold Term.ofInt
    rw [Real.ofInt_int h' (Real.abs1 h'), Res.bind_ok, Res.bind_ok]
    obtain ⟨r, r1, r2, r3⟩ := mkInt_int h' hs ht hD (Real.abs1 h')
    exact ⟨r, r1, r2.mono (le_max_left _ _), by simp at r3 ⊢; omega⟩
  have e0' : ¬ ((n : Int) = 0) := by exact_mod_cast e0
  simp only [e0', decide_false, Bool.false_eq_true, if_false]
  rw [Rational.eqInt_int hM hnM (Real.abs1 h'), Res.bind_ok]
  by_cases e1 : n = 1
  · subst e1
    simp only [Nat.cast_one, decide_true, if_true]
    exact ⟨p, rfl, hp.mono (le_max_left _ _), by rw [pow_one]; exact le_max_right _ _⟩
  have e1' : ¬ ((n : Int) = 1) := by exact_mod_cast e1
  simp only [e1', decide_false, Bool.false_eq_true, if_false]
  have hpow : ∀ k : Int, |k| ≤ l1 p → |k ^ n| ≤ l1 p ^ n := fun k hk => by
    rw [abs_pow]; exact pow_le_pow_left₀ (abs_nonneg _) hk n
  split
  · rename_i t
    have hk : |t.coe.coe.num| ≤ l1 [t] := l1_mem List.mem_cons_self
    have := hpow _ hk
    obtain ⟨r, r1, r2, r3⟩ := Term.pow_int h (intLe_cons.1 hp).1 (a := n) hD0 hD hDn hn (by omega) (by omega)
    rw [r1, Res.bind_ok]
    have e : l1 [r] = |t.coe.coe.num ^ n| := by rw [l1_cons, l1_nil, r3, add_zero]
    obtain ⟨q, q1, q2, q3⟩ := normalize_int h' hs ht hDn (p := [r]) (intLe_cons.2 ⟨r2, intLe_nil _⟩) (by rw [e]; omega)
    exact ⟨q, q1, q2.mono (le_max_right _ _), by rw [e] at q3; exact le_trans (by omega) (le_max_right _ _)⟩
  · rename_i hlen
    obtain ⟨v, v1, v2⟩ := tryEval_int h' hp hl
    rw [v1, Res.bind_ok]
    cases v with
    | some a =>
      obtain ⟨m, rfl, m2⟩ := v2 a rfl
      have := hpow _ m2
      simp only
      rw [Real.pow_int h (by omega) (by omega) hn, Res.bind_ok]
      obtain ⟨r, r1, r2, r3⟩ := mkInt_int h' hs ht (D := D) hD (k := m ^ n) (by omega)
      exact ⟨r, r1, r2.mono (le_max_left _ _), le_trans (by omega) (le_max_right _ _)⟩
    | none =>
      simp only
      have hlen2 : 2 ≤ p.length := by
        match p, v1, hlen with
        | [], h3, _ =>
          unfold tryEval at h3
          obtain ⟨z, -, h3⟩ := Res.bind_eq_ok.1 h3
          unfold tryEvalLoop at h3
          simp at h3
        | [t], _, hlen => exact absurd rfl (hlen t)
        | _ :: _ :: _, _, _ => simp
      have e2 : Res.assert (Rational.isInt ⟨(n : Int), 1⟩) "Must be a int." = .ok () := rfl
      have e3 : Rational.toT env.M ⟨(n : Int), 1⟩ = .ok n := divT_ok.2 ⟨by norm_num, inRange_of_abs (by simpa using hnM), by simp⟩
      obtain ⟨L, hL1, -, hmem⟩ := solveEq_spec p.length n (by positivity) hlen2
      have hf0 : (n ! : Int) ≤ env.M := by
        have : (n ! : Int) ≤ 2 ^ 53 := le_trans (le_mul_of_one_le_right (by omega) (one_le_pow₀ hL)) hb
        omega
      have hf : factLoop env.M (Int.toNat (n : Int)) = ((n ! : Nat) : Int) := factLoop_eq _ n (by omega)
      have hw : env.toEnv.noWrap ((((n : Int).toNat)! : Int) ≤ env.M) = .ok () := Env.noWrap_ok _ (by simpa using hf0)
      obtain ⟨r, r1, r2, r3⟩ := expand_int h hD0 hL hp (fun t ht => le_trans (l1_mem ht) (le_max_right _ _)) hD hDn (by omega) hn hb
        (fun v hv => (hmem v).1 hv)
      rw [e2, Res.bind_ok, e3, Res.bind_ok, hw, Res.bind_ok, hL1, Res.bind_ok, hf, r1, Res.bind_ok]
      have e4 : l1 r = l1 p ^ n := by
        rw [solve_weight p.length n hlen2 _ (by simp) hL1, ← l1_cast] at r3
        have : (n ! : ℝ) ≠ 0 := by exact_mod_cast n.factorial_ne_zero
        have : (l1 r : ℝ) = (l1 p : ℝ) ^ n := by rw [r3]; field_simp
        exact_mod_cast this
      obtain ⟨q, q1, q2, q3⟩ := normalize_int h' hs ht hDn r2 (by omega)
      exact ⟨q, q1, q2.mono (le_max_right _ _), le_trans (by omega) (le_max_right _ _)⟩

end
end Poly
end Symxx.Sym
