import Verif.Props.Quo
import Verif.Expr.PowEval
/-!
# C98: the session as a calculator with fractions and powers

`PowRat e`: integers, `+`, `-`, `*`, `/` and `^` with a natural number as exponent; `PowSmall M e`: the numerators and
denominators that arise when nothing is reduced fit the type, those of powers a double; `PosDiv ρ e`: no divisor has a negative
value (`Verif/Expr/QuoSpec.lean`).
-/
namespace Symxx.Cli
open Symxx.Num Symxx.Sym Cmd

variable {E : CEnv} {B : Nat}

/-- the line is such an expression. -/
structure PowLine (s : St E) (line : List Char) (ρ : List Char → ℝ) (e : Parser.Expr) : Prop where
  isExpr : IsExpr s line
  parse : Parser.parse E.f.M E.dec line = .ok e
  rat : PowRat e
  small : PowSmall E.f.M e
  pos : PosDiv ρ e

/-- the line prints a fraction with the exact value of the expression, over a positive denominator, and in lowest terms if the
outermost operation is a product, a quotient or a power. Exactly if the value is not an integer, the quotient of its two parts
as the floating point type computes it follows. Typed again, the fraction prints the same line if it is in lowest terms. -/
theorem C98_value (hg : E.f.toEnv.Good B) (hB : 1 ≤ B) (hs : SortOk E.f.sort) (ht : Poly.SortTotal E.f)
    (ho : Frac.SortOne E.f) {line : List Char} {s : St E} {ρ : List Char → ℝ} {e : Parser.Expr} (h : PowLine s line ρ e) {v : ℝ}
    (hv : exprSem ρ e = some v) :
    ∃ (j k : Int) (b : Bool) (x y : E.LD), 0 < k ∧ v = j / k ∧
      (∀ c l r, e = .node c l r → c = '*' ∨ c = '/' ∨ c = '^' → Int.gcd j k = 1) ∧
      dispatch E line s =
        (.ok false, s, quoText j k ++ (if b then [] else " = ".toList ++ E.showLD (E.flt.div x y)) ++ ['\n']) ∧
      (b = true ↔ ∃ z : Int, v = z) ∧
      (∀ (S : FltSem E.flt) (N : Int), S.Exact N → |j| ≤ N → k ≤ N → S.ld x = some (j : ℝ) ∧ S.ld y = some (k : ℝ)) ∧
      (Int.gcd j k = 1 → dispatch E (quoText j k) s = dispatch E line s) := by
  have hp := hg.powOk hB
  have hM : 2 ≤ E.f.M := le_trans (by norm_num) hg.hM
  obtain ⟨n, n1, n2⟩ := Node.pow_eval hp hs ht ho ρ h.rat h.small h.pos
  obtain ⟨z1, z2⟩ := powSmall_le hp.hM h.small
  rcases n2 with ⟨j, k, k0, sem, -, nrm, j1, k1, g⟩ | ⟨sem, -, -⟩
  swap
  · rw [sem] at hv; cases hv
  rw [sem] at hv
  injection hv with hv
  have hj := le_trans j1 z1
  have hk := le_trans k1 z2
  have ak : |k| = k := abs_of_pos k0
  have n1 : Node.ofText E.f E.dec line = .ok n := by unfold Node.ofText; rw [h.parse, Res.bind_ok, n1]
  have sh := line_shown h.isExpr n1 nrm
  obtain ⟨b, x, y, p1, p2, p3⟩ := printResult_quo (E := E) hp.toIntOk hj (by rwa [ak]) k0.ne' s
  refine ⟨j, k, b, x, y, k0, hv.symm, g, ?_, ?_, fun S N hS hjN hkN => p3 S N hS hjN (by rwa [ak]), ?_⟩
  · rw [sh]
    exact then_ok p1
  · rw [p2 k0, ← hv]
    have k0' : (k : ℝ) ≠ 0 := by exact_mod_cast k0.ne'
    constructor
    · rintro ⟨z, rfl⟩
      exact ⟨z, by push_cast; field_simp⟩
    · rintro ⟨z, hz⟩
      rw [div_eq_iff k0'] at hz
      exact ⟨z, by rw [mul_comm]; exact_mod_cast hz⟩
  · intro g
    obtain ⟨m, m1, m2⟩ := quo_again hp hs ht hM E.dec hj hk k0
    rw [show Frac.red j k = Frac.quo j k by simp [Frac.red, g]] at m2
    rw [line_shown (quo_isExpr s j k) m1 m2, sh]

/-- a division by zero anywhere in the expression is reported; nothing is printed and nothing changes. -/
theorem C98_zero (hg : E.f.toEnv.Good B) (hB : 1 ≤ B) (hs : SortOk E.f.sort) (ht : Poly.SortTotal E.f)
    (ho : Frac.SortOne E.f) {line : List Char} {s : St E} {ρ : List Char → ℝ} {e : Parser.Expr} (h : PowLine s line ρ e)
    (hv : exprSem ρ e = none) : dispatch E line s = (.throw divisionByZero, s, []) := by
  obtain ⟨n, n1, n2⟩ := Node.pow_eval (hg.powOk hB) hs ht ho ρ h.rat h.small h.pos
  rcases n2 with ⟨j, k, k0, sem, -⟩ | ⟨-, -, nrm⟩
  · rw [sem] at hv; cases hv
  rw [dispatch_other h.isExpr.1]
  refine then_throw ?_
  rw [cmdOther_expr h.isExpr.2]
  unfold cmdNormalize parseNormal Node.ofText
  rw [lift_bind, h.parse, Res.bind_ok, n1, Res.bind_ok, nrm]

/-! ### a session -/

instance decPowSmall (M : Int) : (e : Parser.Expr) → Decidable (PowSmall M e)
  | .leaf q => inferInstanceAs (Decidable ((powSize (.leaf q)).1 ≤ M))
  | .node c a b => by
    have := decPowSmall M a
    have := decPowSmall M b
    unfold PowSmall
    infer_instance

theorem fenv64_one : Frac.SortOne fenv64 := fun t => ⟨[t], rfl⟩

/-- `(2/3)^3*(1-1/4)^2`. -/
def powEx : Parser.Expr :=
  .node '*' (.node '^' (.node '/' (.leaf (.num ⟨2, 1⟩)) (.leaf (.num ⟨3, 1⟩))) (.leaf (.num ⟨3, 1⟩)))
    (.node '^' (.node '-' (.leaf (.num ⟨1, 1⟩)) (.node '/' (.leaf (.num ⟨1, 1⟩)) (.leaf (.num ⟨4, 1⟩)))) (.leaf (.num ⟨2, 1⟩)))
theorem powEx_value (ρ : List Char → ℝ) : exprSem ρ powEx = some (1 / 6) := by
  have p3 : (2 / 3 : ℝ) ^ (3 : ℝ) = 8 / 27 := by
    conv_lhs => rw [show (3 : ℝ) = ((3 : ℕ) : ℝ) by norm_num, Real.rpow_natCast]
    norm_num
  simp [exprSem, powEx, opSem, Rational.val]
  norm_num
theorem powEx_line (ρ : List Char → ℝ) : PowLine start "(2/3)^3*(1-1/4)^2".toList ρ powEx :=
  ⟨start_expr _ (by decide), by decide +kernel,
    by simp only [PowRat, powEx]; simp; exact ⟨⟨3, rfl⟩, ⟨2, rfl⟩⟩, by decide +kernel,
    by simp [PosDiv, powEx, exprSem, Rational.val]⟩
example (ρ : List Char → ℝ) := C98_value (E := cenv64) fenv64_good (by norm_num) fenv64_sort fenv64_total fenv64_one
  (powEx_line ρ) (powEx_value ρ)

/-- `1/(1-1)^3`. -/
def powZero : Parser.Expr :=
  .node '/' (.leaf (.num ⟨1, 1⟩)) (.node '^' (.node '-' (.leaf (.num ⟨1, 1⟩)) (.leaf (.num ⟨1, 1⟩))) (.leaf (.num ⟨3, 1⟩)))
theorem powZero_value (ρ : List Char → ℝ) : exprSem ρ powZero = none := by
  simp [exprSem, powZero, opSem, Rational.val]
theorem powZero_line (ρ : List Char → ℝ) : PowLine start "1/(1-1)^3".toList ρ powZero :=
  ⟨start_expr _ (by decide), by decide +kernel, by simp only [PowRat, powZero]; simp; exact ⟨3, rfl⟩,
    by decide +kernel, by simp [PosDiv, powZero, exprSem, opSem, Rational.val]⟩
example (ρ : List Char → ℝ) := C98_zero (E := cenv64) fenv64_good (by norm_num) fenv64_sort fenv64_total fenv64_one
  (powZero_line ρ) (powZero_value ρ)

/-- the two lines, and the first one's output typed again. -/
theorem C98_example : does start "(2/3)^3*(1-1/4)^2" = (.ok false, "1/6 = 0.166667\n".toList) ∧
    does start "1/(1-1)^3" = (.throw divisionByZero, []) ∧ does start "1/6" = (.ok false, "1/6 = 0.166667\n".toList) ∧
    does start "(0-1/2)^3" = (.ok false, "-1/8 = -0.125\n".toList) ∧ does start "(4/2)^3" = (.ok false, "8\n".toList) := by
  decide +kernel

/-- F61. The power of a fraction with a negative divisor is printed as a chain of quotients, which is not accepted when it
is typed. -/
theorem C98_sign : does start "(1/(0-2))^3" = (.ok false, "-1/-1/-8 = -0.125\n".toList) ∧
    does start "((0-3)/(0-2))^1" = (.ok false, "3/-1/-2 = 1.5\n".toList) ∧
    does start "-1/-1/-8" = (.throw "Invaild string.", []) := by decide +kernel

end Symxx.Cli
