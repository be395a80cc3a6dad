import Verif.Expr.RootSpec
import Verif.Expr.SurdEval
import Verif.Expr.PrintLeaf
import Verif.Frac.SurdMul
/-!
# Evaluating products and quotients of roots
-/
namespace Symxx.Sym
open Symxx.Num

variable {ρ : List Char → ℝ} {M : Int} {B : Nat}

theorem RatPart.value {e : Parser.Expr} {x : ℝ} {A D : Int} (h : RatPart M ρ e x A D) : exprSem ρ e = some x := by
  cases h with
  | arith _ _ _ h => exact h
  | @number n d h0 _ _ _ =>
    have : (d : Int) ≠ 0 := by exact_mod_cast h0.ne'
    simp only [exprSem]
    rw [if_neg this]
    simp [Rational.val]

theorem RootExpr.pos {e : Parser.Expr} {x : ℝ} {A D : Int} {I R : Nat} (h : RootExpr M B ρ e x A I R D) : 0 < x := by
  induction h with
  | rat _ h => exact h
  | @root _ _ _ _ _ _ n d m q _ _ n0 d0 =>
    have : (0 : ℝ) < n := by exact_mod_cast n0
    have : (0 : ℝ) < d := by exact_mod_cast d0
    positivity
  | mul _ _ _ _ _ _ h1 h2 => exact mul_pos h1 h2
  | div _ _ hy _ _ h1 => exact div_pos h1 hy

theorem RootExpr.value {e : Parser.Expr} {x : ℝ} {A D : Int} {I R : Nat} (h : RootExpr M B ρ e x A I R D) : exprSem ρ e = some x := by
  induction h with
  | rat h _ => exact h.value
  | @root _ _ _ _ _ _ n d m q ha hb n0 d0 =>
    have h1 : (0 : ℝ) < n := by exact_mod_cast n0
    have h2 : (0 : ℝ) < d := by exact_mod_cast d0
    simp only [exprSem, ha.value, hb.value, Option.bind_some]
    rw [opSem_pow (by positivity)]
  | mul _ _ _ _ _ _ h1 h2 => simp [exprSem, h1, h2, opSem]
  | div _ hb hy _ _ h1 => simp [exprSem, h1, hb.value, opSem, hy.ne']

namespace Node
variable {env : FEnv} (hs : SortOk env.sort) (ht : Poly.SortTotal env) (ho : Frac.SortOne env)
include hs ht ho

theorem ratPart_eval (h : env.toEnv.PowOk) {e : Parser.Expr} {x : ℝ} {A D : Int} (he : RatPart env.M ρ e x A D) :
    ∃ n, ∃ j k : Int, ofExpr env e = .ok n ∧ tryEval env n = .ok (some (Frac.quo j k)) ∧ normalize env n = .ok (.frac (Frac.quo j k)) ∧
      0 < k ∧ x = (j : ℝ) / k ∧ |j| ≤ A ∧ k ≤ D ∧ A ≤ env.M ∧ D ≤ env.M ∧
      ∀ c a b, e = .node c a b → c = '*' ∨ c = '/' ∨ c = '^' → Int.gcd j k = 1 := by
  cases he with
  | arith h1 h2 h3 h4 =>
    obtain ⟨n, e1, e2⟩ := pow_eval h hs ht ho ρ h1 h2 h3
    obtain ⟨z1, z2⟩ := powSmall_le h.hM h2
    rcases e2 with ⟨j, k, k0, v, t, nn, jn, kn, g⟩ | ⟨v, -⟩
    · rw [h4] at v
      injection v with v
      exact ⟨n, j, k, e1, t, nn, k0, v, jn, kn, z1, z2, g⟩
    · rw [h4] at v; cases v
  | @number n d d0 hc hn hd =>
    have d0' : (0 : Int) < d := by exact_mod_cast d0
    have hl : Rational.Lowest ⟨(n : Int), (d : Int)⟩ := by
      show Int.gcd n d = 1
      rw [Int.gcd_natCast_natCast]; exact hc
    have e := ofLeaf_num h.toIntOk hs ho (p := n) (q := d) ⟨by simpa using hn, by simpa using hd⟩ d0' hl
    refine ⟨.frac (Frac.quo n d), n, d, ?_, rfl, rfl, d0', by simp, by simp, le_rfl, hn, hd, by intro c a b hh; cases hh⟩
    unfold ofExpr
    rw [e]
    rfl

omit hs ht ho in
theorem toRational_quo (h : env.toEnv.IntOk) {p s : Int} (hp : |p| ≤ env.M) (hs : s ≤ env.M) (s0 : 0 < s) :
    Frac.toRational env.toEnv (Frac.quo p s) = .ok ⟨p / (Int.gcd p s : Int), s / (Int.gcd p s : Int)⟩ := by
  have hM := h.hM
  have e : ∀ k : Int, |k| ≤ env.M → Poly.toRational env.toEnv [Term.con k] = .ok ⟨k, 1⟩ := by
    intro k hk
    unfold Poly.toRational
    rw [Rational.ofInt_eq _ _ (Real.abs0 h) hM, Res.bind_ok]
    unfold Poly.toRationalLoop
    have : Term.toRational env.toEnv (Term.con k) = .ok ⟨k, 1⟩ := Frac.toRational_real h hk
    rw [this, Res.bind_ok, Rational.add_int hM (Real.abs0 h) hk (by rwa [zero_add]), Res.bind_ok, zero_add]
    rfl
  unfold Frac.toRational Frac.quo
  simp only
  rw [e p hp, Res.bind_ok, e s (by rwa [abs_of_pos s0]), Res.bind_ok]
  unfold Rational.div
  rw [Rational.inverse_pos hM hs s0, Res.bind_ok]
  exact Rational.mul_inv hM hp hs s0

omit hs ht ho in
/-- a power whose exponent is a quotient. -/
theorem root_top_try (h : env.toEnv.IntOk) {l r : Node} {a x : Frac} {p s : Int} {m q : Nat} (hp : |p| ≤ env.M) (hs : s ≤ env.M)
    (s0 : 0 < s) (q0 : 0 < q) (hmq : Nat.Coprime m q) (hv : (p : ℝ) / s = (m : ℝ) / q)
    (hl : tryEval env l = .ok (some a)) (hr : tryEval env r = .ok (some (Frac.quo p s)))
    (hx : Frac.pow env a ⟨m, q⟩ = .ok x) : tryEval env (.op '^' l r) = .ok (some x) := by
  have e := red_eq (n := (m : Int)) (d := q) s0 q0 hmq (j := p) (by rw [hv, Int.cast_natCast])
  obtain ⟨-, r2, r3, -, -⟩ := Frac.red_facts (n := p) s0.ne'
  have i1 := congrArg Rational.num e
  have i2 := congrArg Rational.den e
  simp only at i1 i2
  rw [i1] at r2
  rw [i2] at r3
  have f : Rational.Fits env.M ⟨(m : Int), q⟩ := ⟨le_trans r2 hp, le_trans r3 (by rwa [abs_of_pos s0])⟩
  unfold tryEval
  rw [hl, Res.bind_ok, hr, Res.bind_ok]
  simp only
  unfold evalOp
  rw [if_neg (by decide), if_neg (by decide), if_neg (by decide), if_neg (by decide), if_pos rfl,
    Frac.tryEval_quo h hp hs s0, e, Res.bind_ok]
  simp only
  rw [Real.isRational_ofRat h f, Res.bind_ok, if_pos rfl, toRational_quo h hp hs s0, e, Res.bind_ok, hx, Res.bind_ok]

omit hs ht ho in
theorem pow_le_of_dvd {N i I L R : Nat} (hi : 0 < i) (hI : i ∣ I) (hL : I ∣ L) (hL0 : 0 < L) (h : N ^ (I / i) ≤ R) :
    N ^ (L / i) ≤ R ^ (L / I) := by
  obtain ⟨u, rfl⟩ := hI
  obtain ⟨w, rfl⟩ := hL
  have hu : 0 < i * u := Nat.pos_of_ne_zero (by rintro h0; rw [h0] at hL0; simp at hL0)
  rw [Nat.mul_div_cancel_left _ hu, Nat.mul_assoc, Nat.mul_div_cancel_left _ hi, pow_mul]
  rw [Nat.mul_div_cancel_left _ hi] at h
  exact Nat.pow_le_pow_left h w

/-- what evaluation makes of such an expression. -/
theorem root_eval {B : Nat} (hg : env.toEnv.Good B) (hB : 1 ≤ B) {e : Parser.Expr} {x : ℝ} {A D : Int} {I R : Nat}
    (he : RootExpr env.M B ρ e x A I R D) :
    ∃ (n : Node) (a b : Int) (i N : Nat), ofExpr env e = .ok n ∧ tryEval env n = .ok (some (Frac.surd a i N b)) ∧
      normalize env n = .ok (.frac (Frac.surd a i N b)) ∧ 0 < a ∧ 0 < b ∧ Simplest N i ∧
      x = (a : ℝ) / b * (N : ℝ) ^ ((1 : ℝ) / i) ∧ a ≤ A ∧ b ≤ D ∧ A ≤ env.M ∧ D ≤ env.M ∧ 0 < I ∧ I ≤ 2 ^ 53 ∧ i ∣ I ∧
      N ^ (I / i) ≤ R ∧ R ≤ B ∧ ∀ c a' b', e = .node c a' b' → c = '*' ∨ c = '/' ∨ c = '^' → Int.gcd a b = 1 := by
  have hp := hg.powOk hB
  have h := hp.toIntOk
  induction he with
  | @rat e x A D hr hx =>
    obtain ⟨n, j, k, e1, e2, e3, k0, v, jA, kD, AM, DM, g⟩ := ratPart_eval hs ht ho hp hr
    have kr : (0 : ℝ) < k := by exact_mod_cast k0
    have j0 : 0 < j := by
      rw [v] at hx
      have : (0 : ℝ) < j := by
        rcases div_pos_iff.1 hx with ⟨h, -⟩ | ⟨-, h⟩
        · exact h
        · exact absurd h (not_lt.2 kr.le)
      exact_mod_cast this
    refine ⟨n, j, k, 1, 1, e1, e2, e3, j0, k0, ?_, by rw [v]; simp, le_trans (le_abs_self j) jA, kD, AM, DM, one_pos, by norm_num, dvd_rfl,
      by simp, hB, g⟩
    refine ⟨one_pos, one_pos, fun m hm hd => ?_, fun m d _ h2 => Nat.dvd_one.1 h2⟩
    have := Nat.le_of_dvd one_pos hd
    rw [pow_one] at this
    omega
  | @root a b A C D F n d m q ha hb n0 d0 m0 q0 cn cm m53 q53 s1 s2 =>
    obtain ⟨L, j, k, l1, l2, -, k0, lv, jA, kD, AM, DM, -⟩ := ratPart_eval hs ht ho hp ha
    obtain ⟨T, p, t, r1, r2, -, t0, rv, pC, tF, CM, FM, -⟩ := ratPart_eval hs ht ho hp hb
    obtain ⟨y, z, i, N, e1, y0, z0, g, sm, ev, ya, zb, NB, iq, NR⟩ := Frac.pow_quo_surd' hs ht ho hg hB (le_trans jA AM) (le_trans kD DM)
      k0 lv.symm n0 d0 cn m0 q0 cm m53 q53 s1 s2
    have nn := root_top h (le_trans pC CM) (le_trans tF FM) t0 q0 cm rv.symm l2 r2 e1
    have nt := root_top_try h (le_trans pC CM) (le_trans tF FM) t0 q0 cm rv.symm l2 r2 e1
    have dB : d ^ m ≤ B := le_trans (Nat.le_self_pow q0.ne' _) s2
    refine ⟨.op '^' L T, y, z, i, N, ?_, nt, nn, y0, z0, sm, ev.symm, by exact_mod_cast ya, by exact_mod_cast zb,
      hg.leM s1, hg.leM dB, q0, q53, iq, NR, s1, fun _ _ _ _ _ => g⟩
    unfold ofExpr
    rw [l1, Res.bind_ok, r1, Res.bind_ok]
  | @mul a b x y A C I J R S D F ha hb hL hR hA hD iha ihb =>
    obtain ⟨l, a1, b1, i, N, l1, l2, -, a10, b10, s1, v1, aA, bD, AM, DM, I0, I53, iI, NR, RB, -⟩ := iha
    obtain ⟨r, a2, b2, j, K, r1, r2, -, a20, b20, s2, v2, aC, bF, CM, FM, J0, J53, jJ, KS, SB, -⟩ := ihb
    have L0 : 0 < Nat.lcm I J := Nat.lcm_pos I0 J0
    have ij : Nat.lcm i j ∣ Nat.lcm I J := Nat.lcm_dvd (dvd_trans iI (Nat.dvd_lcm_left I J)) (dvd_trans jJ (Nat.dvd_lcm_right I J))
    have l0 : 0 < Nat.lcm i j := Nat.lcm_pos s1.2.1 s2.2.1
    have pN : N ^ (Nat.lcm I J / i) ≤ R ^ (Nat.lcm I J / I) := pow_le_of_dvd s1.2.1 iI (Nat.dvd_lcm_left I J) L0 NR
    have pK : K ^ (Nat.lcm I J / j) ≤ S ^ (Nat.lcm I J / J) := pow_le_of_dvd s2.2.1 jJ (Nat.dvd_lcm_right I J) L0 KS
    have hle : N ^ (Nat.lcm i j / i) * K ^ (Nat.lcm i j / j) ≤ R ^ (Nat.lcm I J / I) * S ^ (Nat.lcm I J / J) := by
      refine le_trans (Nat.mul_le_mul ?_ ?_) (Nat.mul_le_mul pN pK)
      · exact Nat.pow_le_pow_right s1.1 (Nat.div_le_div_right (Nat.le_of_dvd L0 ij))
      · exact Nat.pow_le_pow_right s2.1 (Nat.div_le_div_right (Nat.le_of_dvd L0 ij))
    have hle' : ((N ^ (Nat.lcm i j / i) * K ^ (Nat.lcm i j / j) : Nat) : Int) ≤ (R ^ (Nat.lcm I J / I) * S ^ (Nat.lcm I J / J) : Nat) := by
      exact_mod_cast hle
    have oR : ((Real.outer (Nat.lcm i j) (N ^ (Nat.lcm i j / i) * K ^ (Nat.lcm i j / j)) : Nat) : Int) ≤
        ((N ^ (Nat.lcm i j / i) * K ^ (Nat.lcm i j / j) : Nat) : Int) := by
      exact_mod_cast Real.outer_le l0 (Nat.mul_pos (pow_pos s1.1 _) (pow_pos s2.1 _))
    have hac : a1 * a2 ≤ A * C := mul_le_mul aA aC a20.le (by omega)
    have hA1 : a1 * a2 * (Real.outer (Nat.lcm i j) (N ^ (Nat.lcm i j / i) * K ^ (Nat.lcm i j / j)) : Nat) ≤
        A * C * (R ^ (Nat.lcm I J / I) * S ^ (Nat.lcm I J / J) : Nat) :=
      mul_le_mul hac (le_trans oR hle') (by positivity) (le_trans (mul_pos a10 a20).le hac)
    have hD1 : b1 * b2 ≤ D * F := mul_le_mul bD bF b20.le (by omega)
    obtain ⟨A', D', i', N', e1, e2, e3, e4, e5, e6, e7, e8, e9, e10⟩ := Frac.mul_surd hs ht ho hg hB s1 s2 a10 b10 a20 b20
      (le_trans (Nat.le_of_dvd L0 ij) hL) (le_trans hle hR) (le_trans hA1 hA) (le_trans hD1 hD)
    have e1 : fop env '*' (Frac.surd a1 i N b1) (Frac.surd a2 j K b2) = .ok (Frac.surd A' i' N' D') := e1
    obtain ⟨t1, t2⟩ := fop_eval (c := '*') (by simp) l2 r2
    rw [e1] at t1 t2
    have p9 : N' ^ (Nat.lcm I J / i') ≤ R ^ (Nat.lcm I J / I) * S ^ (Nat.lcm I J / J) := by
      have := pow_le_of_dvd e2.2.1 e8 ij L0 e9
      refine le_trans this ?_
      rw [Nat.mul_pow]
      obtain ⟨w, hw⟩ := ij
      refine Nat.mul_le_mul (le_trans (le_of_eq ?_) pN) (le_trans (le_of_eq ?_) pK)
      · rw [← pow_mul, hw, Nat.mul_div_cancel_left _ l0, Nat.mul_comm, ← Nat.mul_div_assoc _ (Nat.dvd_lcm_left i j), Nat.mul_comm]
      · rw [← pow_mul, hw, Nat.mul_div_cancel_left _ l0, Nat.mul_comm, ← Nat.mul_div_assoc _ (Nat.dvd_lcm_right i j), Nat.mul_comm]
    refine ⟨.op '*' l r, A', D', i', N', ?_, t1, t2, e3, e4, e2, by rw [v1, v2, e10], le_trans e6 hA1, le_trans e7 hD1, hA, hD, L0, hL,
      dvd_trans e8 ij, p9, hR, fun _ _ _ _ _ => e5⟩
    unfold ofExpr
    rw [l1, Res.bind_ok, r1, Res.bind_ok]
  | @div a b x y A C I R D F ha hb hy hA hD iha =>
    obtain ⟨l, a1, b1, i, N, l1, l2, -, a10, b10, s1, v1, aA, bD, AM, DM, I0, I53, iI, NR, RB, -⟩ := iha
    obtain ⟨T, p, t, r1, r2, -, t0, rv, pC, tF, CM, FM, -⟩ := ratPart_eval hs ht ho hp hb
    have tr : (0 : ℝ) < t := by exact_mod_cast t0
    have p0 : 0 < p := by
      rw [rv] at hy
      have : (0 : ℝ) < p := by
        rcases div_pos_iff.1 hy with ⟨h, -⟩ | ⟨-, h⟩
        · exact h
        · exact absurd h (not_lt.2 tr.le)
      exact_mod_cast this
    rw [abs_of_pos p0] at pC
    have q0 : I / i ≠ 0 := (Nat.div_pos (Nat.le_of_dvd I0 iI) s1.2.1).ne'
    have NB : N ≤ B := le_trans (le_trans (Nat.le_self_pow q0 N) NR) RB
    have i53 : i ≤ 2 ^ 53 := le_trans (Nat.le_of_dvd I0 iI) I53
    have hA1 : a1 * t ≤ A * F := mul_le_mul aA tF t0.le (by omega)
    have hD1 : b1 * p ≤ D * C := mul_le_mul bD pC p0.le (by omega)
    obtain ⟨A', D', e1, e3, e4, e5, e6, e7, e10⟩ := Frac.div_surd hs ht ho hg hB s1 i53 NB a10 b10 p0 t0 (le_trans hA1 hA) (le_trans hD1 hD)
    have e1 : fop env '/' (Frac.surd a1 i N b1) (Frac.quo p t) = .ok (Frac.surd A' i N D') := e1
    obtain ⟨t1, t2⟩ := fop_eval (c := '/') (by simp) l2 r2
    rw [e1] at t1 t2
    refine ⟨.op '/' l T, A', D', i, N, ?_, t1, t2, e3, e4, s1, by rw [v1, rv, e10], le_trans e6 hA1, le_trans e7 hD1, hA, hD, I0, I53,
      iI, NR, RB, fun _ _ _ _ _ => e5⟩
    unfold ofExpr
    rw [l1, Res.bind_ok, r1, Res.bind_ok]

end Node
end Symxx.Sym
