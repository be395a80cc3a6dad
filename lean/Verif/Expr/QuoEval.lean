import Verif.Expr.QuoSpec
import Verif.Expr.IntEval
import Verif.Frac.QuotFrac
/-!
# Evaluating arithmetic expressions over integers
-/
namespace Symxx.Sym
open Symxx.Num

theorem quoSize_pos : ∀ e : Parser.Expr, 1 ≤ (quoSize e).1 ∧ 1 ≤ (quoSize e).2
  | .leaf (.num _) => ⟨le_max_left _ _, le_rfl⟩
  | .leaf (.sym _) => ⟨le_rfl, le_rfl⟩
  | .node c a b => by
    obtain ⟨a1, a2⟩ := quoSize_pos a
    obtain ⟨b1, b2⟩ := quoSize_pos b
    unfold quoSize
    split
    · constructor <;> dsimp only <;> nlinarith
    split
    · constructor <;> dsimp only <;> nlinarith
    · constructor <;> dsimp only <;> nlinarith

namespace Frac
variable {env : FEnv}

theorem red_value {n d : Int} (hd : d ≠ 0) : ∃ j k, red n d = quo j k ∧ k ≠ 0 ∧ (j : ℝ) / k = n / d ∧ |j| ≤ |n| ∧ |k| ≤ |d| ∧
    Int.gcd j k = 1 ∧ (0 < d → 0 < k) := by
  obtain ⟨r1, r2, r3, r4, r5⟩ := red_facts (n := n) hd
  refine ⟨_, _, rfl, r1, ?_, r2, r3, r5, fun p => lt_of_le_of_ne (Int.ediv_nonneg p.le (by positivity)) r1.symm⟩
  have k0 : ((d / (Int.gcd n d : Int) : Int) : ℝ) ≠ 0 := by exact_mod_cast r1
  have d0 : (d : ℝ) ≠ 0 := by exact_mod_cast hd
  rw [div_eq_div_iff k0 d0]
  exact_mod_cast r4.symm

variable (h : env.toEnv.IntOk) (hs : SortOk env.sort) (ht : Poly.SortTotal env)
include h hs ht

theorem add_value {a b c d : Int} (ha : |a| ≤ env.M) (hb : |b| ≤ env.M) (hc : |c| ≤ env.M) (hd : |d| ≤ env.M) (hb0 : b ≠ 0)
    (hd0 : d ≠ 0) (hn : |a| * |d| + |c| * |b| ≤ env.M) (hm : |b| * |d| ≤ env.M) :
    ∃ j k, add env (quo a b) (quo c d) = .ok (quo j k) ∧ k ≠ 0 ∧ (j : ℝ) / k = a / b + c / d ∧
      |j| ≤ |a| * |d| + |c| * |b| ∧ |k| ≤ |b| * |d| ∧ (0 < b → 0 < d → 0 < k) := by
  have pb := abs_pos.2 hb0
  have pd := abs_pos.2 hd0
  have b0 : (b : ℝ) ≠ 0 := by exact_mod_cast hb0
  have d0 : (d : ℝ) ≠ 0 := by exact_mod_cast hd0
  have na := abs_nonneg a
  have nc := abs_nonneg c
  rw [add_quo h hs ht ha hb hc hd hb0 hd0 hn hm]
  split
  · rename_i e
    subst e
    refine ⟨_, _, rfl, hb0, by push_cast; rw [add_div], ?_, ?_, fun p _ => p⟩
    · have := abs_add_le a c
      nlinarith
    · nlinarith
  · obtain ⟨j, k, e, k0, v, j1, k1, -, kp⟩ := red_value (n := a * d + c * b) (mul_ne_zero hb0 hd0)
    refine ⟨j, k, by rw [e], k0, ?_, ?_, by rwa [abs_mul] at k1, fun p q => kp (mul_pos p q)⟩
    · rw [v]
      push_cast
      field_simp
    · have := abs_add_le (a * d) (c * b)
      rw [abs_mul a d, abs_mul c b] at this
      omega

theorem sub_value {a b c d : Int} (ha : |a| ≤ env.M) (hb : |b| ≤ env.M) (hc : |c| ≤ env.M) (hd : |d| ≤ env.M) (hb0 : b ≠ 0)
    (hd0 : d ≠ 0) (hn : |a| * |d| + |c| * |b| ≤ env.M) (hm : |b| * |d| ≤ env.M) :
    ∃ j k, sub env (quo a b) (quo c d) = .ok (quo j k) ∧ k ≠ 0 ∧ (j : ℝ) / k = a / b - c / d ∧
      |j| ≤ |a| * |d| + |c| * |b| ∧ |k| ≤ |b| * |d| ∧ (0 < b → 0 < d → 0 < k) := by
  have pb := abs_pos.2 hb0
  have na := abs_nonneg a
  obtain ⟨c', d', e, d0, v, c1, d1, -, dp⟩ := red_value (n := -c) hd0
  rw [abs_neg] at c1
  have l1 : |a| * |d'| ≤ |a| * |d| := mul_le_mul_of_nonneg_left d1 na
  have l2 : |c'| * |b| ≤ |c| * |b| := mul_le_mul_of_nonneg_right c1 pb.le
  have l3 : |b| * |d'| ≤ |b| * |d| := mul_le_mul_of_nonneg_left d1 pb.le
  obtain ⟨j, k, e2, k0, v2, j1, k1, kp⟩ := add_value h hs ht (a := a) (b := b) (c := c') (d := d') ha hb (by omega) (by omega) hb0 d0
    (by omega) (by omega)
  refine ⟨j, k, ?_, k0, ?_, by omega, by omega, fun p q => kp p (dp q)⟩
  · unfold sub
    rw [negate_quo h hs ht hc hd hd0, Res.bind_ok, e, e2]
  · rw [v2, v]
    push_cast
    ring

end Frac

namespace Node
variable {env : FEnv}

/-- the four operations of fractions. -/
def fop (env : FEnv) (c : Char) (a b : Frac) : Res Frac :=
  if c = '+' then Frac.add env a b else if c = '-' then Frac.sub env a b else if c = '*' then Frac.mul env a b else Frac.div env a b

theorem fop_eval {c : Char} (hc : c = '+' ∨ c = '-' ∨ c = '*' ∨ c = '/') {x y : Node} {f g : Frac}
    (hx : tryEval env x = .ok (some f)) (hy : tryEval env y = .ok (some g)) :
    tryEval env (.op c x y) = (fop env c f g >>= fun r => .ok (some r)) ∧
      normalize env (.op c x y) = (fop env c f g >>= fun r => .ok (.frac r)) := by
  constructor
  · unfold tryEval
    rw [hx, Res.bind_ok, hy, Res.bind_ok]
    simp only
    rcases hc with rfl | rfl | rfl | rfl <;> simp [evalOp, fop]
  · unfold normalize
    rw [hx, Res.bind_ok, hy, Res.bind_ok]
    simp only
    rcases hc with rfl | rfl | rfl | rfl <;> simp [fop]

/-- what evaluation makes of an expression: a quotient with the right value, or an error if it has none. -/
def QuoVal (env : FEnv) (ρ : List Char → ℝ) (e : Parser.Expr) (n : Node) : Prop :=
  (∃ j k : Int, k ≠ 0 ∧ exprSem ρ e = some ((j : ℝ) / k) ∧ tryEval env n = .ok (some (Frac.quo j k)) ∧
    normalize env n = .ok (.frac (Frac.quo j k)) ∧ |j| ≤ (quoSize e).1 ∧ |k| ≤ (quoSize e).2 ∧
    ∀ a b, e = .node '*' a b ∨ e = .node '/' a b → Int.gcd j k = 1) ∨
  (exprSem ρ e = none ∧ tryEval env n = .throw divisionByZero ∧ normalize env n = .throw divisionByZero)

variable (h : env.toEnv.PowOk) (hs : SortOk env.sort) (ht : Poly.SortTotal env)
include h hs ht

theorem quo_eval (ρ : List Char → ℝ) : ∀ {e : Parser.Expr}, RatExpr e → (quoSize e).1 ≤ env.M → (quoSize e).2 ≤ env.M →
    ∃ n, ofExpr env e = .ok n ∧ QuoVal env ρ e n
  | .leaf (.num ⟨n, d⟩), he, h1, _ => by
    have hd : d = 1 := he
    subst hd
    refine ⟨.frac (Frac.con n), ?_, Or.inl ⟨n, 1, one_ne_zero, ?_, rfl, rfl, le_max_right _ _, ?_, ?_⟩⟩
    · unfold ofExpr
      rw [ofLeaf_const h hs ht (le_trans (le_max_right _ _) h1)]
      rfl
    · simp [exprSem, Rational.val]
    · simp [quoSize]
    · simp
  | .node c a b, he, h1, h2 => by
    have h' := h.toIntOk
    obtain ⟨hc, ha, hb⟩ := he
    obtain ⟨a1, a2⟩ := quoSize_pos a
    obtain ⟨b1, b2⟩ := quoSize_pos b
    generalize hNa : (quoSize a).1 = Na at *
    generalize hDa : (quoSize a).2 = Da at *
    generalize hNb : (quoSize b).1 = Nb at *
    generalize hDb : (quoSize b).2 = Db at *
    have key : Na ≤ env.M ∧ Da ≤ env.M ∧ Nb ≤ env.M ∧ Db ≤ env.M := by
      rcases hc with rfl | rfl | rfl | rfl <;>
        simp only [quoSize, hNa, hDa, hNb, hDb, Char.reduceEq, if_true, if_false] at h1 h2 <;>
        refine ⟨?_, ?_, ?_, ?_⟩ <;> nlinarith
    obtain ⟨k1, k2, k3, k4⟩ := key
    obtain ⟨x, x1, x2⟩ := quo_eval ρ ha (hNa ▸ k1) (hDa ▸ k2)
    obtain ⟨y, y1, y2⟩ := quo_eval ρ hb (hNb ▸ k3) (hDb ▸ k4)
    refine ⟨.op c x y, by unfold ofExpr; rw [x1, Res.bind_ok, y1, Res.bind_ok], ?_⟩
    rcases x2 with ⟨p, q, q0, xs, xt, -, xn, xd, -⟩ | ⟨xs, xt, -⟩
    swap
    · refine Or.inr ⟨by simp [exprSem, xs], ?_, ?_⟩
      · unfold tryEval; rw [xt]; rfl
      · unfold normalize; rw [xt]; rfl
    rcases y2 with ⟨r, s, s0, ys, yt, -, yn, yd, -⟩ | ⟨ys, yt, -⟩
    swap
    · refine Or.inr ⟨by simp [exprSem, xs, ys], ?_, ?_⟩
      · unfold tryEval; rw [xt, Res.bind_ok, yt]; rfl
      · unfold normalize; rw [xt, Res.bind_ok, yt]; rfl
    rw [hNa] at xn; rw [hDa] at xd; rw [hNb] at yn; rw [hDb] at yd
    obtain ⟨e1, e2⟩ := fop_eval hc xt yt
    have es : exprSem ρ (.node c a b) = opSem c ((p : ℝ) / q) ((r : ℝ) / s) := by simp [exprSem, xs, ys]
    have qr : (q : ℝ) ≠ 0 := by exact_mod_cast q0
    have sr : (s : ℝ) ≠ 0 := by exact_mod_cast s0
    have np := abs_nonneg p
    have nq := abs_pos.2 q0
    have nr := abs_nonneg r
    have ns := abs_pos.2 s0
    unfold QuoVal
    rw [es, e1, e2]
    clear es e1 e2
    rcases hc with rfl | rfl | rfl | rfl
    · simp only [quoSize, hNa, hDa, hNb, hDb, Char.reduceEq, if_false] at h1 h2 ⊢
      have m1 : |p| * |s| ≤ Na * Db := mul_le_mul xn yd ns.le (by omega)
      have m2 : |r| * |q| ≤ Nb * Da := mul_le_mul yn xd nq.le (by omega)
      have m3 : |q| * |s| ≤ Da * Db := mul_le_mul xd yd ns.le (by omega)
      obtain ⟨j, k, e, k0, v, j1, l1, -⟩ := Frac.add_value h' hs ht (a := p) (b := q) (c := r) (d := s) (by omega) (by omega)
        (by omega) (by omega) q0 s0 (by omega) (by omega)
      have e : fop env '+' (Frac.quo p q) (Frac.quo r s) = .ok (Frac.quo j k) := e
      rw [e]
      exact Or.inl ⟨j, k, k0, by simp [opSem, v], rfl, rfl, by omega, by omega, by simp⟩
    · simp only [quoSize, hNa, hDa, hNb, hDb, Char.reduceEq, if_false] at h1 h2 ⊢
      have m1 : |p| * |s| ≤ Na * Db := mul_le_mul xn yd ns.le (by omega)
      have m2 : |r| * |q| ≤ Nb * Da := mul_le_mul yn xd nq.le (by omega)
      have m3 : |q| * |s| ≤ Da * Db := mul_le_mul xd yd ns.le (by omega)
      obtain ⟨j, k, e, k0, v, j1, l1, -⟩ := Frac.sub_value h' hs ht (a := p) (b := q) (c := r) (d := s) (by omega) (by omega)
        (by omega) (by omega) q0 s0 (by omega) (by omega)
      have e : fop env '-' (Frac.quo p q) (Frac.quo r s) = .ok (Frac.quo j k) := e
      rw [e]
      exact Or.inl ⟨j, k, k0, by simp [opSem, v], rfl, rfl, by omega, by omega, by simp⟩
    · simp only [quoSize, hNa, hDa, hNb, hDb, Char.reduceEq, if_true] at h1 h2 ⊢
      have m1 : |p * r| ≤ Na * Nb := by rw [abs_mul]; exact mul_le_mul xn yn nr (by omega)
      have m3 : |q * s| ≤ Da * Db := by rw [abs_mul]; exact mul_le_mul xd yd ns.le (by omega)
      have e : fop env '*' (Frac.quo p q) (Frac.quo r s) = .ok (Frac.red (p * r) (q * s)) :=
        Frac.mul_quo h' hs ht (a := p) (b := q) (c := r) (d := s) (by omega) (by omega) (by omega) (by omega) q0 s0
          (by omega) (by omega)
      obtain ⟨j, k, e3, k0, v, j1, l1, g, -⟩ := Frac.red_value (n := p * r) (mul_ne_zero q0 s0)
      rw [e, e3]
      exact Or.inl ⟨j, k, k0, by simp [opSem, v, div_mul_div_comm], rfl, rfl, by omega, by omega, fun _ _ _ => g⟩
    · simp only [quoSize, hNa, hDa, hNb, hDb, Char.reduceEq, if_true, if_false] at h1 h2 ⊢
      have m1 : |p * s| ≤ Na * Db := by rw [abs_mul]; exact mul_le_mul xn yd ns.le (by omega)
      have m3 : |q * r| ≤ Da * Nb := by rw [abs_mul]; exact mul_le_mul xd yn nr (by omega)
      have e : fop env '/' (Frac.quo p q) (Frac.quo r s) = if r = 0 then .throw divisionByZero else .ok (Frac.red (p * s) (q * r)) :=
        Frac.div_quo h' hs ht (a := p) (b := q) (c := r) (d := s) (by omega) (by omega) (by omega) (by omega) q0
          (by omega) (by omega)
      rw [e]
      by_cases r0 : r = 0
      · rw [if_pos r0]
        exact Or.inr ⟨by simp [opSem, r0], rfl, rfl⟩
      · obtain ⟨j, k, e3, k0, v, j1, l1, g, -⟩ := Frac.red_value (n := p * s) (mul_ne_zero q0 r0)
        rw [if_neg r0, e3]
        have rr : (r : ℝ) ≠ 0 := by exact_mod_cast r0
        refine Or.inl ⟨j, k, k0, ?_, rfl, rfl, by omega, by omega, fun _ _ _ => g⟩
        simp only [opSem, Char.reduceEq, if_false, if_true]
        rw [if_neg (div_ne_zero rr sr), v]
        push_cast
        rw [div_div_div_eq]

end Node
end Symxx.Sym
