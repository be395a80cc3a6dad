import Verif.Expr.QuoEval
import Verif.Expr.Total
import Verif.Frac.QuotPow
/-!
# Evaluating arithmetic expressions over integers, with powers
-/
namespace Symxx.Sym
open Symxx.Num

theorem powSize_pos : ∀ e : Parser.Expr, 1 ≤ (powSize e).1 ∧ 1 ≤ (powSize e).2
  | .leaf (.num _) => ⟨le_max_left _ _, le_rfl⟩
  | .leaf (.sym _) => ⟨le_rfl, le_rfl⟩
  | .node c a b => by
    obtain ⟨a1, a2⟩ := powSize_pos a
    obtain ⟨b1, b2⟩ := powSize_pos b
    unfold powSize
    split
    · constructor <;> dsimp only <;> nlinarith
    split
    · constructor <;> dsimp only <;> nlinarith
    split
    · exact ⟨one_le_pow₀ a1, one_le_pow₀ a2⟩
    · constructor <;> dsimp only <;> nlinarith

theorem powSmall_le {M : Int} (hM : 1 ≤ M) : ∀ {e : Parser.Expr}, PowSmall M e → (powSize e).1 ≤ M ∧ (powSize e).2 ≤ M
  | .leaf (.num _), h => ⟨h, hM⟩
  | .leaf (.sym _), h => ⟨h, hM⟩
  | .node _ _ _, h => ⟨h.2.2.1, h.2.2.2.1⟩

namespace Node
variable {env : FEnv}

/-- what evaluation makes of an expression: a quotient over a positive number with the right value, or an error if it has none. -/
def PowVal (env : FEnv) (ρ : List Char → ℝ) (e : Parser.Expr) (n : Node) : Prop :=
  (∃ j k : Int, 0 < k ∧ exprSem ρ e = some ((j : ℝ) / k) ∧ tryEval env n = .ok (some (Frac.quo j k)) ∧
    normalize env n = .ok (.frac (Frac.quo j k)) ∧ |j| ≤ (powSize e).1 ∧ k ≤ (powSize e).2 ∧
    ∀ c a b, e = .node c a b → c = '*' ∨ c = '/' ∨ c = '^' → Int.gcd j k = 1) ∨
  (exprSem ρ e = none ∧ tryEval env n = .throw divisionByZero ∧ normalize env n = .throw divisionByZero)

variable (h : env.toEnv.PowOk) (hs : SortOk env.sort) (ht : Poly.SortTotal env) (ho : Frac.SortOne env)
include h hs ht ho

theorem pow_eval (ρ : List Char → ℝ) : ∀ {e : Parser.Expr}, PowRat e → PowSmall env.M e → PosDiv ρ e →
    ∃ n, ofExpr env e = .ok n ∧ PowVal env ρ e n
  | .leaf (.num ⟨n, d⟩), he, h1, _ => by
    have hd : d = 1 := he
    subst hd
    refine ⟨.frac (Frac.con n), ?_, Or.inl ⟨n, 1, one_pos, ?_, rfl, rfl, le_max_right _ _, ?_, ?_⟩⟩
    · unfold ofExpr
      rw [ofLeaf_const h hs ht (le_trans (le_max_right _ _) h1)]
      rfl
    · simp [exprSem, Rational.val]
    · simp [powSize]
    · simp
  | .node c a b, he, hsm, hpd => by
    have h' := h.toIntOk
    have hM := h.hM
    obtain ⟨sa, sb, h1, h2, h3⟩ := hsm
    obtain ⟨pa, pb, pc⟩ := hpd
    obtain ⟨a1, a2⟩ := powSize_pos a
    obtain ⟨b1, b2⟩ := powSize_pos b
    generalize hNa : (powSize a).1 = Na at *
    generalize hDa : (powSize a).2 = Da at *
    generalize hNb : (powSize b).1 = Nb at *
    generalize hDb : (powSize b).2 = Db at *
    rcases he with ⟨hc, ha, hb⟩ | ⟨rfl, ha, m, rfl⟩
    · have key : Na ≤ env.M ∧ Da ≤ env.M ∧ Nb ≤ env.M ∧ Db ≤ env.M := by
        clear h3 sb
        rcases hc with rfl | rfl | rfl | rfl <;>
          simp only [powSize, hNa, hDa, hNb, hDb, Char.reduceEq, if_true, if_false] at h1 h2 <;>
          refine ⟨?_, ?_, ?_, ?_⟩ <;> nlinarith
      clear h3
      obtain ⟨k1, k2, k3, k4⟩ := key
      have hcp : c ≠ '^' := by rcases hc with rfl | rfl | rfl | rfl <;> simp
      obtain ⟨x, x1, x2⟩ := pow_eval ρ ha sa pa
      obtain ⟨y, y1, y2⟩ := pow_eval ρ hb (sb hcp) pb
      refine ⟨.op c x y, by unfold ofExpr; rw [x1, Res.bind_ok, y1, Res.bind_ok], ?_⟩
      rcases x2 with ⟨p, q, q0, xs, xt, -, xn, xd, -⟩ | ⟨xs, xt, -⟩
      swap
      · refine Or.inr ⟨by simp [exprSem, xs], ?_, ?_⟩
        · unfold tryEval; rw [xt]; rfl
        · unfold normalize; rw [xt]; rfl
      rcases y2 with ⟨r, s, s0, ys, yt, -, yn, yd, -⟩ | ⟨ys, yt, -⟩
      swap
      · refine Or.inr ⟨by simp [exprSem, xs, ys], ?_, ?_⟩
        · unfold tryEval; rw [xt, Res.bind_ok, yt]; rfl
        · unfold normalize; rw [xt, Res.bind_ok, yt]; rfl
      rw [hNa] at xn; rw [hDa] at xd; rw [hNb] at yn; rw [hDb] at yd
      obtain ⟨e1, e2⟩ := fop_eval hc xt yt
      have es : exprSem ρ (.node c a b) = opSem c ((p : ℝ) / q) ((r : ℝ) / s) := by simp [exprSem, xs, ys]
      have qr : (0 : ℝ) < q := by exact_mod_cast q0
      have sr : (0 : ℝ) < s := by exact_mod_cast s0
      have np := abs_nonneg p
      have nr := abs_nonneg r
      have qa : |q| = q := abs_of_pos q0
      have sa : |s| = s := abs_of_pos s0
      rw [ys] at pc
      unfold PowVal
      rw [es, e1, e2]
      clear es e1 e2 sb
      rcases hc with rfl | rfl | rfl | rfl
      · simp only [powSize, hNa, hDa, hNb, hDb, Char.reduceEq, if_false] at h1 h2 ⊢
        have m1 : |p| * |s| ≤ Na * Db := by rw [sa]; exact mul_le_mul xn yd s0.le (by omega)
        have m2 : |r| * |q| ≤ Nb * Da := by rw [qa]; exact mul_le_mul yn xd q0.le (by omega)
        have m3 : |q| * |s| ≤ Da * Db := by rw [qa, sa]; exact mul_le_mul xd yd s0.le (by omega)
        obtain ⟨j, k, e, k0, v, j1, l1, kp⟩ := Frac.add_value h' hs ht (a := p) (b := q) (c := r) (d := s) (by omega) (by omega)
          (by omega) (by omega) q0.ne' s0.ne' (by omega) (by omega)
        have e : fop env '+' (Frac.quo p q) (Frac.quo r s) = .ok (Frac.quo j k) := e
        rw [e]
        have kp := kp q0 s0
        rw [abs_of_pos kp] at l1
        exact Or.inl ⟨j, k, kp, by simp [opSem, v], rfl, rfl, by omega, by omega, by rintro c a b ⟨rfl, -, -⟩; simp⟩
      · simp only [powSize, hNa, hDa, hNb, hDb, Char.reduceEq, if_false] at h1 h2 ⊢
        have m1 : |p| * |s| ≤ Na * Db := by rw [sa]; exact mul_le_mul xn yd s0.le (by omega)
        have m2 : |r| * |q| ≤ Nb * Da := by rw [qa]; exact mul_le_mul yn xd q0.le (by omega)
        have m3 : |q| * |s| ≤ Da * Db := by rw [qa, sa]; exact mul_le_mul xd yd s0.le (by omega)
        obtain ⟨j, k, e, k0, v, j1, l1, kp⟩ := Frac.sub_value h' hs ht (a := p) (b := q) (c := r) (d := s) (by omega) (by omega)
          (by omega) (by omega) q0.ne' s0.ne' (by omega) (by omega)
        have e : fop env '-' (Frac.quo p q) (Frac.quo r s) = .ok (Frac.quo j k) := e
        rw [e]
        have kp := kp q0 s0
        rw [abs_of_pos kp] at l1
        exact Or.inl ⟨j, k, kp, by simp [opSem, v], rfl, rfl, by omega, by omega, by rintro c a b ⟨rfl, -, -⟩; simp⟩
      · simp only [powSize, hNa, hDa, hNb, hDb, Char.reduceEq, if_true] at h1 h2 ⊢
        have m1 : |p * r| ≤ Na * Nb := by rw [abs_mul]; exact mul_le_mul xn yn nr (by omega)
        have m3 : q * s ≤ Da * Db := mul_le_mul xd yd s0.le (by omega)
        have qs := mul_pos q0 s0
        have m4 : |q * s| = q * s := abs_of_pos qs
        have e : fop env '*' (Frac.quo p q) (Frac.quo r s) = .ok (Frac.red (p * r) (q * s)) :=
          Frac.mul_quo h' hs ht (a := p) (b := q) (c := r) (d := s) (by omega) (by omega) (by omega) (by omega) q0.ne' s0.ne'
            (by omega) (by omega)
        obtain ⟨j, k, e3, k0, v, j1, l1, g, kp⟩ := Frac.red_value (n := p * r) qs.ne'
        have kp := kp qs
        rw [abs_of_pos kp] at l1
        rw [e, e3]
        exact Or.inl ⟨j, k, kp, by simp [opSem, v, div_mul_div_comm], rfl, rfl, by omega, by omega, fun _ _ _ _ _ => g⟩
      · simp only [powSize, hNa, hDa, hNb, hDb, Char.reduceEq, if_true, if_false] at h1 h2 ⊢
        have m1 : |p * s| ≤ Na * Db := by rw [abs_mul, sa]; exact mul_le_mul xn yd s0.le (by omega)
        have m3 : |q * r| ≤ Da * Nb := by rw [abs_mul, qa]; exact mul_le_mul xd yn nr (by omega)
        have e : fop env '/' (Frac.quo p q) (Frac.quo r s) = if r = 0 then .throw divisionByZero else .ok (Frac.red (p * s) (q * r)) :=
          Frac.div_quo h' hs ht (a := p) (b := q) (c := r) (d := s) (by omega) (by omega) (by omega) (by omega) q0.ne'
            (by omega) (by omega)
        rw [e]
        by_cases r0 : r = 0
        · rw [if_pos r0]
          exact Or.inr ⟨by simp [opSem, r0], rfl, rfl⟩
        · have rnn : 0 ≤ (r : ℝ) / s := pc rfl _ rfl
          have rp : 0 < r := by
            rcases lt_or_gt_of_ne r0 with hr | hr
            · exact absurd rnn (not_le.2 (div_neg_of_neg_of_pos (by exact_mod_cast hr) sr))
            · exact hr
          have qp := mul_pos q0 rp
          obtain ⟨j, k, e3, k0, v, j1, l1, g, kp⟩ := Frac.red_value (n := p * s) qp.ne'
          have kp := kp qp
          rw [abs_of_pos kp] at l1
          rw [if_neg r0, e3]
          have rr : (r : ℝ) ≠ 0 := by exact_mod_cast r0
          refine Or.inl ⟨j, k, kp, ?_, rfl, rfl, by omega, by omega, fun _ _ _ _ _ => g⟩
          simp only [opSem, Char.reduceEq, if_false, if_true]
          rw [if_neg (div_ne_zero rr sr.ne'), v]
          push_cast
          rw [div_div_div_eq]
    · clear sb pb pc
      obtain ⟨n1, n2, n3⟩ := h3 rfl
      have ex : expo (.leaf (.num ⟨(m : Int), 1⟩)) = m := rfl
      simp only [powSize, hNa, hDa, Char.reduceEq, if_true, if_false] at h1 h2 n2 n3
      rw [ex] at h1 h2 n1 n2 n3
      obtain ⟨x, x1, x2⟩ := pow_eval ρ ha sa pa
      have mM : (m : Int) ≤ env.M := le_trans n1 h.hM53
      have mf : ofExpr env (.leaf (.num ⟨(m : Int), 1⟩)) = .ok (.frac (Frac.con m)) := by
        unfold ofExpr
        rw [ofLeaf_const h hs ht (by rw [abs_of_nonneg (by positivity)]; exact mM)]
        rfl
      have ms : exprSem ρ (.leaf (.num ⟨(m : Int), 1⟩)) = some (m : ℝ) := by simp [exprSem, Rational.val]
      refine ⟨.op '^' x (.frac (Frac.con m)), by unfold ofExpr; rw [x1, Res.bind_ok, mf, Res.bind_ok], ?_⟩
      rcases x2 with ⟨p, q, q0, xs, xt, -, xn, xd, -⟩ | ⟨xs, xt, -⟩
      swap
      · refine Or.inr ⟨by simp [exprSem, xs], ?_, ?_⟩
        · unfold tryEval; rw [xt]; rfl
        · unfold normalize; rw [xt]; rfl
      rw [hNa] at xn; rw [hDa] at xd
      have l1 : |p| ^ m ≤ Na ^ m := pow_le_pow_left₀ (abs_nonneg _) xn m
      have l2 : q ^ m ≤ Da ^ m := pow_le_pow_left₀ q0.le xd m
      obtain ⟨s1, s2⟩ := powSmall_le hM sa
      rw [hNa] at s1; rw [hDa] at s2
      obtain ⟨j, k, e, k0, g, v, j1, k1⟩ := Frac.pow_quo hs ht ho h (j := p) (k := q) (n := m) (le_trans xn s1) (le_trans xd s2) q0 n1
        (le_trans l1 n2) (le_trans l2 n3)
      obtain ⟨t1, t2⟩ := pow_top h mM xt rfl e
      have t1 : tryEval env (.op '^' x (.frac (Frac.con m))) = .ok (some (Frac.quo j k)) := t1
      have t2 : normalize env (.op '^' x (.frac (Frac.con m))) = .ok (.frac (Frac.quo j k)) := t2
      refine Or.inl ⟨j, k, k0, ?_, t1, t2, ?_, ?_, fun _ _ _ _ _ => g⟩
      · rw [v]
        simp only [exprSem, xs, Option.bind_some]
        have : (if (1 : Int) = 0 then none else some (((Rational.val ⟨(m : Int), 1⟩ : ℚ)) : ℝ)) = some (m : ℝ) := ms
        simp only [this, Option.bind_some, opSem, Char.reduceEq, if_false, if_true]
        rw [if_pos, Real.rpow_natCast]
        rcases lt_trichotomy ((p : ℝ) / q) 0 with l | l | l
        · exact Or.inr (Or.inr ⟨l, m, by simp⟩)
        · exact Or.inr (Or.inl ⟨l, by positivity⟩)
        · exact Or.inl l
      · simp only [powSize, hNa, Char.reduceEq, if_false, if_true]
        exact le_trans j1 l1
      · simp only [powSize, hDa, Char.reduceEq, if_false, if_true]
        exact le_trans k1 l2

end Node
end Symxx.Sym
