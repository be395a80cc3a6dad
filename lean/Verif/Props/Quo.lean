import Verif.Props.Calc
import Verif.Cli.QuoPaste
/-!
# C95: the session as a calculator with fractions; C97: its output typed again; C96: conversion to an integer

`RatExpr e`: integers, `+`, `-`, `*`, `/`; `quoSize e`: the numerator and denominator that arise when nothing is reduced;
`quoText j k`: `j/k`, or `j` if `k` is 1 (`Verif/Expr/QuoSpec.lean`). `exprSem ρ e` (`Verif/Expr/Spec.lean`) is the real number
the expression denotes, none if there is a division by zero.
-/
namespace Symxx.Cli
open Symxx.Num Symxx.Sym Cmd

variable {E : CEnv} {B : Nat}

/-- the line is an expression over integers with the four operations, small enough for the type. -/
structure QuoLine (s : St E) (line : List Char) (e : Parser.Expr) : Prop where
  isExpr : IsExpr s line
  parse : Parser.parse E.f.M E.dec line = .ok e
  rat : RatExpr e
  num : (quoSize e).1 ≤ E.f.M
  den : (quoSize e).2 ≤ E.f.M

/-- the line prints a fraction with the exact value of the expression, in lowest terms if the outermost operation is a product
or a quotient. If the value is not an integer, the quotient of its two parts as the floating point type computes it follows
(for positive denominators exactly then); the two parts are converted exactly if the type represents them. -/
theorem C95_value (hg : E.f.toEnv.Good B) (hB : 1 ≤ B) (hs : SortOk E.f.sort) (ht : Poly.SortTotal E.f) {line : List Char}
    {s : St E} {e : Parser.Expr} (h : QuoLine s line e) {ρ : List Char → ℝ} {v : ℝ} (hv : exprSem ρ e = some v) :
    ∃ (j k : Int) (b : Bool) (x y : E.LD), k ≠ 0 ∧ v = j / k ∧
      (∀ a c, e = .node '*' a c ∨ e = .node '/' a c → Int.gcd j k = 1) ∧
      dispatch E line s =
        (.ok false, s, quoText j k ++ (if b then [] else " = ".toList ++ E.showLD (E.flt.div x y)) ++ ['\n']) ∧
      (0 < k → (b = true ↔ k ∣ j)) ∧
      ∀ (S : FltSem E.flt) (N : Int), S.Exact N → |j| ≤ N → |k| ≤ N → S.ld x = some (j : ℝ) ∧ S.ld y = some (k : ℝ) := by
  have hp := hg.powOk hB
  obtain ⟨n, n1, n2⟩ := Node.quo_eval hp hs ht ρ h.rat h.num h.den
  rcases n2 with ⟨j, k, k0, sem, -, nrm, j1, k1, g⟩ | ⟨sem, -, -⟩
  swap
  · rw [sem] at hv; cases hv
  rw [sem] at hv
  injection hv with hv
  obtain ⟨b, x, y, p1, p2, p3⟩ := printResult_quo (E := E) hp.toIntOk (le_trans j1 h.num) (le_trans k1 h.den) k0 s
  refine ⟨j, k, b, x, y, k0, hv.symm, g, ?_, p2, p3⟩
  rw [dispatch_other h.isExpr.1]
  refine then_ok ?_
  rw [cmdOther_expr h.isExpr.2]
  unfold cmdNormalize parseNormal Node.ofText
  rw [lift_bind, h.parse, Res.bind_ok, n1, Res.bind_ok, nrm]
  exact p1

/-- a division by zero anywhere in the expression is reported; nothing is printed and nothing changes. -/
theorem C95_zero (hg : E.f.toEnv.Good B) (hB : 1 ≤ B) (hs : SortOk E.f.sort) (ht : Poly.SortTotal E.f) {line : List Char}
    {s : St E} {e : Parser.Expr} (h : QuoLine s line e) {ρ : List Char → ℝ} (hv : exprSem ρ e = none) :
    dispatch E line s = (.throw divisionByZero, s, []) := by
  obtain ⟨n, n1, n2⟩ := Node.quo_eval (hg.powOk hB) hs ht ρ h.rat h.num h.den
  rcases n2 with ⟨j, k, k0, sem, -⟩ | ⟨-, -, nrm⟩
  · rw [sem] at hv; cases hv
  rw [dispatch_other h.isExpr.1]
  refine then_throw ?_
  rw [cmdOther_expr h.isExpr.2]
  unfold cmdNormalize parseNormal Node.ofText
  rw [lift_bind, h.parse, Res.bind_ok, n1, Res.bind_ok, nrm]

/-! ### C97 -/

/-- a fraction with a positive denominator, typed as a line, prints the same number in lowest terms. -/
theorem C97_again (hg : E.f.toEnv.Good B) (hB : 1 ≤ B) (hs : SortOk E.f.sort) (ht : Poly.SortTotal E.f) {j k : Int}
    (hj : |j| ≤ E.f.M) (hk : k ≤ E.f.M) (hk0 : 0 < k) (s : St E) :
    ∃ (j' k' : Int) (r : List Char), 0 < k' ∧ Int.gcd j' k' = 1 ∧ j * k' = j' * k ∧
      dispatch E (quoText j k) s = (.ok false, s, quoText j' k' ++ r) ∧ (r = ['\n'] ∨ " = ".toList <+: r) := by
  have hp := hg.powOk hB
  have ak : |k| ≤ E.f.M := by rwa [abs_of_pos hk0]
  obtain ⟨n, n1, n2⟩ := quo_again hp hs ht (le_trans (by norm_num) hg.hM) E.dec hj hk hk0
  obtain ⟨r1, r2, r3, r4, r5⟩ := Frac.red_facts (n := j) hk0.ne'
  obtain ⟨b, x, y, p1, -, -⟩ := printResult_quo (E := E) hp.toIntOk (le_trans r2 hj) (le_trans r3 ak) r1 s
  refine ⟨_, _, (if b then [] else " = ".toList ++ E.showLD (E.flt.div x y)) ++ ['\n'],
    lt_of_le_of_ne (Int.ediv_nonneg hk0.le (by positivity)) r1.symm, r5, r4, ?_, ?_⟩
  · rw [line_shown (quo_isExpr s j k) n1 n2, ← List.append_assoc]
    exact then_ok p1
  · cases b
    · right; simp
    · left; rfl

/-- one in lowest terms, with a positive denominator, prints itself. -/
theorem C97_fixed (hg : E.f.toEnv.Good B) (hB : 1 ≤ B) (hs : SortOk E.f.sort) (ht : Poly.SortTotal E.f) {j k : Int}
    (hj : |j| ≤ E.f.M) (hk : k ≤ E.f.M) (hk0 : 0 < k) (hl : Int.gcd j k = 1) (s : St E) :
    ∃ r, dispatch E (quoText j k) s = (.ok false, s, quoText j k ++ r) ∧ (r = ['\n'] ∨ " = ".toList <+: r) := by
  obtain ⟨j', k', r, h1, h2, h3, h4⟩ := C97_again hg hB hs ht hj hk hk0 s
  obtain ⟨rfl, rfl⟩ : j' = j ∧ k' = k := by
    have d1 : k ∣ k' := (Int.isCoprime_iff_gcd_eq_one.2 hl).symm.dvd_of_dvd_mul_left ⟨j', by rw [h3, mul_comm]⟩
    have d2 : k' ∣ k := (Int.isCoprime_iff_gcd_eq_one.2 h2).symm.dvd_of_dvd_mul_left ⟨j, by rw [← h3, mul_comm]⟩
    have : k' = k := Int.dvd_antisymm h1.le hk0.le d2 d1
    subst this
    exact ⟨(mul_right_cancel₀ hk0.ne' h3).symm, rfl⟩
  exact ⟨r, h4⟩

/-- one with a negative denominator is refused. -/
theorem C97_refused (hM : 2 ≤ E.f.M) {j k : Int} (hj : |j| ≤ E.f.M) (hk : |k| ≤ E.f.M) (hk0 : k < 0) (s : St E) :
    dispatch E (quoText j k) s = (.throw "Invaild string.", s, []) := by
  have h := quo_isExpr s j k
  rw [dispatch_other h.1]
  refine then_throw ?_
  rw [cmdOther_expr h.2]
  unfold cmdNormalize parseNormal Node.ofText
  rw [lift_bind, quo_refused hM E.dec hj hk hk0]
  rfl

/-- **C97** for the output of a line: the fraction it prints, typed again, prints the same line if it is in lowest terms over a
positive denominator; in any case over a positive denominator a number that is, with the same value; over a negative
denominator it is refused. -/
theorem C97_line (hg : E.f.toEnv.Good B) (hB : 1 ≤ B) (hs : SortOk E.f.sort) (ht : Poly.SortTotal E.f) {line : List Char}
    {s : St E} {e : Parser.Expr} (h : QuoLine s line e) {ρ : List Char → ℝ} {v : ℝ} (hv : exprSem ρ e = some v) :
    ∃ (j k : Int) (r : List Char), v = j / k ∧ dispatch E line s = (.ok false, s, quoText j k ++ r) ∧
      (r = ['\n'] ∨ " = ".toList <+: r) ∧
      (0 < k → Int.gcd j k = 1 → dispatch E (quoText j k) s = dispatch E line s) ∧
      (0 < k → ∃ (j' k' : Int) (r' : List Char), 0 < k' ∧ Int.gcd j' k' = 1 ∧ v = j' / k' ∧
        dispatch E (quoText j k) s = (.ok false, s, quoText j' k' ++ r') ∧ dispatch E (quoText j' k') s = dispatch E (quoText j k) s) ∧
      (k < 0 → dispatch E (quoText j k) s = (.throw "Invaild string.", s, [])) := by
  have hp := hg.powOk hB
  have hM : 2 ≤ E.f.M := le_trans (by norm_num) hg.hM
  obtain ⟨n, n1, n2⟩ := Node.quo_eval hp hs ht ρ h.rat h.num h.den
  rcases n2 with ⟨j, k, k0, sem, -, nrm, j1, k1, -⟩ | ⟨sem, -, -⟩
  swap
  · rw [sem] at hv; cases hv
  rw [sem] at hv
  injection hv with hv
  have hj := le_trans j1 h.num
  have hk := le_trans k1 h.den
  have n1 : Node.ofText E.f E.dec line = .ok n := by unfold Node.ofText; rw [h.parse, Res.bind_ok, n1]
  have sh := line_shown h.isExpr n1 nrm
  have lo : ∀ {a b : Int}, |a| ≤ E.f.M → |b| ≤ E.f.M → 0 < b → Int.gcd a b = 1 →
      dispatch E (quoText a b) s = (do printResult E (.frac (Frac.quo a b)); Cmd.pure false : Cmd E Bool) s := by
    intro a b ha hb hb0 g
    obtain ⟨m, m1, m2⟩ := quo_again hp hs ht hM E.dec ha (le_trans (le_abs_self _) hb) hb0
    rw [show Frac.red a b = Frac.quo a b by simp [Frac.red, g]] at m2
    exact line_shown (quo_isExpr s a b) m1 m2
  obtain ⟨b, x, y, p1, -, -⟩ := printResult_quo (E := E) hp.toIntOk hj hk k0 s
  refine ⟨j, k, (if b then [] else " = ".toList ++ E.showLD (E.flt.div x y)) ++ ['\n'], hv.symm, ?_, ?_, ?_, ?_,
    fun hk0 => C97_refused hM hj hk hk0 s⟩
  · rw [sh, ← List.append_assoc]
    exact then_ok p1
  · cases b
    · right; simp
    · left; rfl
  · intro hk0 g
    rw [lo hj hk hk0 g, sh]
  · intro hk0
    obtain ⟨r1, r2, r3, r4, r5⟩ := Frac.red_facts (n := j) k0
    have pos : 0 < k / (Int.gcd j k : Int) := lt_of_le_of_ne (Int.ediv_nonneg hk0.le (by positivity)) r1.symm
    obtain ⟨m, m1, m2⟩ := quo_again hp hs ht hM E.dec hj (le_trans (le_abs_self _) hk) hk0
    obtain ⟨b, x, y, p1, -, -⟩ := printResult_quo (E := E) hp.toIntOk (le_trans r2 hj) (le_trans r3 hk) r1 s
    refine ⟨_, _, (if b then [] else " = ".toList ++ E.showLD (E.flt.div x y)) ++ ['\n'], pos, r5, ?_, ?_, ?_⟩
    · rw [← hv, div_eq_div_iff (by exact_mod_cast k0) (by exact_mod_cast r1)]
      exact_mod_cast r4
    · rw [line_shown (quo_isExpr s j k) m1 m2, ← List.append_assoc]
      exact then_ok p1
    · rw [lo (le_trans r2 hj) (le_trans r3 hk) pos r5, line_shown (quo_isExpr s j k) m1 m2]
      rfl

/-! ### a session -/

/-- `(1/3+1/6)*5/(1-3)`. -/
def quoEx : Parser.Expr :=
  .node '/' (.node '*' (.node '+' (.node '/' (.leaf (.num ⟨1, 1⟩)) (.leaf (.num ⟨3, 1⟩)))
    (.node '/' (.leaf (.num ⟨1, 1⟩)) (.leaf (.num ⟨6, 1⟩)))) (.leaf (.num ⟨5, 1⟩)))
    (.node '-' (.leaf (.num ⟨1, 1⟩)) (.leaf (.num ⟨3, 1⟩)))
theorem quoEx_line : QuoLine start "(1/3+1/6)*5/(1-3)".toList quoEx :=
  ⟨start_expr _ (by decide), by decide +kernel, by simp [RatExpr, quoEx], by decide, by decide⟩
theorem quoEx_value (ρ : List Char → ℝ) : exprSem ρ quoEx = some (-5 / 4) := by
  simp [exprSem, quoEx, opSem, Rational.val]
  norm_num
example (ρ : List Char → ℝ) := C95_value (E := cenv64) fenv64_good (by norm_num) fenv64_sort fenv64_total quoEx_line (quoEx_value ρ)

/-- `2/(1/2-1/2)`. -/
def zeroEx : Parser.Expr :=
  .node '/' (.leaf (.num ⟨2, 1⟩)) (.node '-' (.node '/' (.leaf (.num ⟨1, 1⟩)) (.leaf (.num ⟨2, 1⟩)))
    (.node '/' (.leaf (.num ⟨1, 1⟩)) (.leaf (.num ⟨2, 1⟩))))
theorem zeroEx_line : QuoLine start "2/(1/2-1/2)".toList zeroEx :=
  ⟨start_expr _ (by decide), by decide +kernel, by simp [RatExpr, zeroEx], by decide, by decide⟩
theorem zeroEx_value (ρ : List Char → ℝ) : exprSem ρ zeroEx = none := by
  simp [exprSem, zeroEx, opSem, Rational.val]
example (ρ : List Char → ℝ) := C95_zero (E := cenv64) fenv64_good (by norm_num) fenv64_sort fenv64_total zeroEx_line (zeroEx_value ρ)

/-- the two lines above, and a reduced sum. -/
theorem C95_example : does start "(1/3+1/6)*5/(1-3)" = (.ok false, "5/-4 = -1.25\n".toList) ∧
    does start "2/(1/2-1/2)" = (.throw divisionByZero, []) ∧ does start "1/3+1/6" = (.ok false, "1/2 = 0.5\n".toList) := by
  decide +kernel

/-- F58. A sum of fractions with equal denominators is not reduced. -/
theorem C95_unreduced : does start "1/2+1/2" = (.ok false, "2/2\n".toList) ∧
    does start "1/4+1/4" = (.ok false, "2/4 = 0.5\n".toList) ∧ does start "1/2-1/2" = (.ok false, "0/2\n".toList) ∧
    does start "x/2+x/2" = (.ok false, "2x/2\n".toList) := by decide +kernel

/-- F59. A minus sign in the denominator stays there, and then a whole number may be printed with or without its value. -/
theorem C95_sign : does start "1/(0-2)" = (.ok false, "1/-2 = -0.5\n".toList) ∧
    does start "4/(0-2)" = (.ok false, "2/-1\n".toList) ∧
    does start "1/(0-2)+1/(0-2)" = (.ok false, "2/-2 = -1\n".toList) := by decide +kernel

example (ρ : List Char → ℝ) := C97_line (E := cenv64) fenv64_good (by norm_num) fenv64_sort fenv64_total quoEx_line (quoEx_value ρ)
example := C97_again (E := cenv64) fenv64_good (by norm_num) fenv64_sort fenv64_total (j := -6) (k := 4) (by decide) (by decide)
  (by decide) start
example := C97_fixed (E := cenv64) fenv64_good (by norm_num) fenv64_sort fenv64_total (j := -3) (k := 2) (by decide) (by decide)
  (by decide) (by decide) start
example := C97_refused (E := cenv64) (by decide) (j := 5) (k := -4) (by decide) (by decide) (by decide) start

/-- F60. The line above prints a text that is refused when it is typed; an unreduced fraction is reduced when it is typed. -/
theorem C97_example : does start "(1/3+1/6)*5/(1-3)" = (.ok false, "5/-4 = -1.25\n".toList) ∧
    does start "5/-4" = (.throw "Invaild string.", []) ∧ does start "2/2" = (.ok false, "1\n".toList) ∧
    does start "-6/4" = (.ok false, "-3/2 = -1.5\n".toList) ∧ does start "-3/2" = (.ok false, "-3/2 = -1.5\n".toList) := by
  decide +kernel

end Symxx.Cli

namespace Symxx.Num.Rational

/-- C96. The conversion to an integer gives the integer part: of the same sign, not larger in absolute value, and by less than
one away. The only number it cannot convert is the one whose value is one above the largest integer. -/
theorem C96_to_t {M : Int} {r : Rational} (hn : InRange M r.num) (hd : InRange M r.den) (h0 : r.den ≠ 0)
    (hv : r.val ≠ M + 1) :
    ∃ z, toT M r = .ok z ∧ |r.val - z| < 1 ∧ |(z : ℚ)| ≤ |r.val| ∧ 0 ≤ z * r.val := by
  obtain ⟨n, d⟩ := r
  simp only [val] at *
  have hdq : (d : ℚ) ≠ 0 := by exact_mod_cast h0
  have hdp : (0 : ℚ) < |(d : ℚ)| := abs_pos.2 hdq
  have e : d * n.tdiv d + n.tmod d = n := Int.mul_tdiv_add_tmod n d
  have m1 : |n.tmod d| < |d| := by
    have := Int.natAbs_tmod n d
    have l := Nat.mod_lt n.natAbs (Int.natAbs_pos.2 h0)
    rw [Int.abs_eq_natAbs, Int.abs_eq_natAbs, this]
    exact_mod_cast l
  have q1 : |n.tdiv d| * |d| ≤ |n| := by
    have := Int.natAbs_tdiv n d
    have l := Nat.div_mul_le_self n.natAbs d.natAbs
    have this : (n.tdiv d).natAbs = n.natAbs / d.natAbs := this
    rw [← this] at l
    rw [Int.abs_eq_natAbs, Int.abs_eq_natAbs, Int.abs_eq_natAbs]
    exact_mod_cast l
  have s1 : 0 ≤ n.tdiv d * (n * d) := by
    rcases le_total 0 n with a | a <;> rcases lt_or_gt_of_ne h0 with b | b
    · exact mul_nonneg_of_nonpos_of_nonpos (Int.tdiv_nonpos_of_nonneg_of_nonpos a b.le) (mul_nonpos_of_nonneg_of_nonpos a b.le)
    · exact mul_nonneg (Int.tdiv_nonneg a b.le) (mul_nonneg a b.le)
    · exact mul_nonneg (Int.tdiv_nonneg_of_nonpos_of_nonpos a b.le) (mul_nonneg_of_nonpos_of_nonpos a b.le)
    · exact mul_nonneg_of_nonpos_of_nonpos (by have := Int.tdiv_nonneg (a := -n) (b := d) (by omega) b.le; rw [Int.neg_tdiv] at this; omega) (mul_nonpos_of_nonpos_of_nonneg a b.le)
  obtain ⟨q, hq⟩ : ∃ q, q = n.tdiv d := ⟨_, rfl⟩
  obtain ⟨m, hm⟩ : ∃ m, m = n.tmod d := ⟨_, rfl⟩
  rw [← hq] at e q1 s1
  rw [← hm] at e m1
  refine ⟨q, ?_, ?_, ?_, ?_⟩
  · refine divT_ok.2 ⟨h0, ?_, hq⟩
    rw [← hq]
    obtain ⟨n1, n2⟩ := hn
    obtain ⟨d1, d2⟩ := hd
    have d0 := abs_pos.2 h0
    have ql : |q| ≤ |n| := by nlinarith [abs_nonneg q]
    have nl : |n| ≤ M + 1 := abs_le.2 ⟨by omega, by omega⟩
    refine ⟨by have := neg_abs_le q; omega, ?_⟩
    by_contra hc
    have hc : q = M + 1 := by have := le_abs_self q; omega
    apply hv
    have d3 : |d| = 1 := by
      have : |q| = M + 1 := by rw [hc]; exact abs_of_nonneg (by omega)
      by_contra h1
      have : (M + 1) * 2 ≤ |q| * |d| := by rw [this]; exact mul_le_mul_of_nonneg_left (by omega) (by omega)
      omega
    have m0 : m = 0 := by rw [d3] at m1; exact Int.abs_lt_one_iff.1 m1
    rw [m0, add_zero] at e
    rw [← e, hc]
    push_cast
    field_simp
  · rw [show (n : ℚ) / d - q = (n - d * q) / d by field_simp, abs_div, div_lt_one hdp]
    have : (n : ℚ) - d * q = m := by rw [← e]; push_cast; ring
    rw [this]
    exact_mod_cast m1
  · rw [abs_div, le_div_iff₀ hdp]
    exact_mod_cast q1
  · rw [show (q : ℚ) * (n / d) = (q * (n * d)) / (d * d) by field_simp]
    exact div_nonneg (by exact_mod_cast s1) (mul_self_nonneg _)

/-- whole numbers are converted exactly. -/
theorem C96_exact {M : Int} {r : Rational} (hn : InRange M r.num) (hd : InRange M r.den) (h0 : r.den ≠ 0) {k : Int}
    (hk : k ≤ M) (hv : r.val = k) : toT M r = .ok k := by
  obtain ⟨z, h1, h2, -, -⟩ := C96_to_t hn hd h0 (by rw [hv]; exact_mod_cast (by omega : k ≠ M + 1))
  rw [hv] at h2
  have h2 : |k - z| < 1 := by exact_mod_cast h2
  have h2 := Int.abs_lt_one_iff.1 h2
  rw [h1, show z = k by omega]

/-- both signs, in the numerator and in the denominator; the exception is real. -/
theorem C96_examples : toT maxI64 ⟨7, 2⟩ = .ok 3 ∧ toT maxI64 ⟨-7, 2⟩ = .ok (-3) ∧ toT maxI64 ⟨7, -2⟩ = .ok (-3) ∧
    toT maxI64 ⟨4, -2⟩ = .ok (-2) ∧ ∃ m, toT maxI64 ⟨-maxI64 - 1, -1⟩ = .ub m :=
  ⟨by decide, by decide, by decide, by decide, _, rfl⟩
example := C96_to_t (M := maxI64) (r := ⟨-7, 2⟩) (by decide) (by decide) (by decide) (by norm_num [val, maxI64])
example := C96_exact (M := maxI64) (r := ⟨4, -2⟩) (by decide) (by decide) (by decide) (k := -2) (by decide) (by norm_num [val])

end Symxx.Num.Rational
