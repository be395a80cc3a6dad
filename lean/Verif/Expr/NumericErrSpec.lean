import Verif.Expr.NumericSpec
import Mathlib.Analysis.SpecialFunctions.Pow.Real
/-!
# Specification: the accuracy of floating point, and the error of a numeric value
-/
namespace Symxx.Sym
open Symxx.Num

/-- a floating-point arithmetic: integers up to `M` are exact, results up to `hi` are rounded with the relative error `u` (`double`:
`ud`), below `lo` with the absolute error `lo`. -/
structure Prec where
  M : Int
  u : ℝ
  ud : ℝ
  lo : ℝ
  hi : ℝ

/-- the arithmetic has this accuracy. (x86-64: `M = 2^53`; IEEE 754 rounding to nearest has `u = 2^-64`, `ud = 2^-53`, and
`pow` of glibc errs by less than one unit of the last place, so that `u = 2^-63`, `ud = 2^-52` cover all operations;
`lo = 2^-1022` and `hi = 2^1023` cover both types. Sums have no underflow.) -/
structure FltSem.Accurate {F : Flt} (S : FltSem F) (P : Prec) : Prop where
  M1 : 1 ≤ P.M
  u0 : 0 ≤ P.u
  u1 : P.u ≤ 1 / 4
  ud0 : 0 ≤ P.ud
  ud1 : P.ud ≤ 1 / 4
  lo0 : 0 < P.lo
  loM : P.lo * (4 * (P.M : ℝ) ^ 2) ≤ 1
  hiM : 4 * (P.M : ℝ) ^ 2 ≤ P.hi
  ofInt : ∀ n : Int, |n| ≤ P.M → S.ld (F.ofInt n) = some (n : ℝ)
  dOfInt : ∀ n : Int, |n| ≤ P.M → S.d (F.dOfInt n) = some (n : ℝ)
  widen : ∀ a, S.ld (F.widen a) = S.d a
  intDiv : ∀ n : Int, |n| ≤ P.M → S.ld (F.div (F.ofInt n) (F.ofInt 1)) = some (n : ℝ)
  op : ∀ (c : Char) a b (x y r : ℝ), S.ld a = some x → S.ld b = some y → opSem c x y = some r → |r| ≤ P.hi →
    ∃ z, S.ld (fltOp F c a b) = some z ∧ |z - r| ≤ P.u * |r| + P.lo ∧
      (c = '+' ∨ c = '-' ∨ r = 0 ∨ P.lo ≤ |r| → |z - r| ≤ P.u * |r|)
  opD : ∀ (c : Char) a b (x y r : ℝ), c = '/' ∨ c = '^' → S.d a = some x → S.d b = some y → opSem c x y = some r →
    |r| ≤ P.hi → P.lo ≤ |r| → ∃ z, S.d (fltOpD F c a b) = some z ∧ |z - r| ≤ P.ud * |r|

/-- the constants `v` give every symbol in `xs` the value `ρ`. -/
def ConstsReal {F : Flt} (S : FltSem F) (v : List (List Char × F.LD)) (ρ : List Char → ℝ) (xs : List (List Char)) : Prop :=
  ∀ x ∈ xs, ∃ a, findLD F v x = some a ∧ S.ld a = some (ρ x)

/-- zero, or of a size between `2*lo` and `hi/2`. -/
def Prec.Within (P : Prec) (r : ℝ) : Prop := r = 0 ∨ (2 * P.lo ≤ |r| ∧ |r| ≤ P.hi / 2)

/-- the power of the symbol is one the type can compute: an integer exponent (non-negative if the symbol is 0), or a positive
base and a fractional exponent, such that the power is between `e^-K` and `e^K`. -/
def Prec.PowOk (P : Prec) (ρ : List Char → ℝ) (K : Nat) (q : List Char × Rational) : Prop :=
  (q.2.den = 1 ∧ |q.2.num| ≤ P.M ∧ (ρ q.1 = 0 → 0 ≤ q.2.num)) ∨
  (0 < ρ q.1 ∧ |q.2.num| ≤ P.M ∧ |q.2.den| ≤ P.M ∧ q.2.den ≠ 0 ∧ |((q.2.val : ℚ) : ℝ) * Real.log (ρ q.1)| ≤ K)

/-- the powers, and their products with `c` from left to right, are within range. -/
def Prec.SymsOk (P : Prec) (ρ : List Char → ℝ) (K : Nat) : Syms → ℝ → Prop
  | [], _ => True
  | q :: s, c => P.PowOk ρ K q ∧ P.Within (ρ q.1 ^ ((q.2.val : ℚ) : ℝ)) ∧
      P.Within (c * ρ q.1 ^ ((q.2.val : ℚ) : ℝ)) ∧ P.SymsOk ρ K s (c * ρ q.1 ^ ((q.2.val : ℚ) : ℝ))

/-- the coefficient is a rational times a root of a positive rational, of numbers the types hold. -/
structure Prec.CoeOk (P : Prec) (r : Num.Real) : Prop where
  num : |r.coe.num| ≤ P.M
  den : |r.coe.den| ≤ P.M
  den0 : r.coe.den ≠ 0
  rnum : 0 < r.rad.num ∧ r.rad.num ≤ P.M
  rden : 0 < r.rad.den ∧ r.rad.den ≤ P.M
  index : 1 ≤ r.index ∧ (r.index : Int) ≤ P.M

/-- the sum of the absolute values of the terms. -/
noncomputable def Poly.size (ρ : List Char → ℝ) (p : Poly) : ℝ := (p.map fun t => |t.value ρ|).sum

/-- a bound on the relative error of a term of `k` powers in a sum of `n` terms: `s/(1-s)`, where `s` adds up the errors of the
single operations. -/
noncomputable def Prec.gam (P : Prec) (n k K : Nat) : ℝ :=
  (((n + (K + 2) * k + 2 : Nat) : ℝ) * P.u + ((⌈Real.log P.M⌉₊ + 3 : Nat) : ℝ) * P.ud) /
    (1 - (((n + (K + 2) * k + 2 : Nat) : ℝ) * P.u + ((⌈Real.log P.M⌉₊ + 3 : Nat) : ℝ) * P.ud))

/-- what the evaluation of a polynomial at `ρ` needs: coefficients, powers, products and sums within range, at most `k` powers
in a term, and not so many operations that the errors add up to a third. -/
structure Prec.PolyOk (P : Prec) (ρ : List Char → ℝ) (k K : Nat) (p : Poly) : Prop where
  coe : ∀ t ∈ p, P.CoeOk t.coe
  syms : ∀ t ∈ p, P.SymsOk ρ K t.syms t.coe.val
  count : ∀ t ∈ p, t.syms.length ≤ k
  sum : p.size ρ ≤ P.hi / 2
  few : ((p.length + (K + 2) * k + 2 : Nat) : ℝ) * P.u + ((⌈Real.log P.M⌉₊ + 3 : Nat) : ℝ) * P.ud ≤ 1 / 3

/-- the expression has the value `x` at `ρ`, and `E` bounds the error of its evaluation. For a fraction, the errors of numerator
and denominator are relative to the sum of the absolute values of their terms (there may be cancellation). For an operation, `e`
says how much the result can change when the operands are replaced by values within their errors. -/
def Prec.ErrorAt (P : Prec) (ρ : List Char → ℝ) (k K : Nat) : Node → ℝ → ℝ → Prop
  | .frac f, x, E => P.PolyOk ρ k K f.num ∧ P.PolyOk ρ k K f.den ∧ f.den.value ρ ≠ 0 ∧ x = f.num.value ρ / f.den.value ρ ∧
      P.gam f.den.length k K * f.den.size ρ ≤ |f.den.value ρ| / 2 ∧ f.num.size ρ / |f.den.value ρ| ≤ P.hi / 4 ∧
      E = 3 * (P.gam f.num.length k K * f.num.size ρ + |x| * (P.gam f.den.length k K * f.den.size ρ)) / |f.den.value ρ| +
        P.u * |x| + P.lo
  | .op c l r, x, E => ∃ y a z b e, P.ErrorAt ρ k K l y a ∧ P.ErrorAt ρ k K r z b ∧ opSem c y z = some x ∧
      (∀ y' z', |y' - y| ≤ a → |z' - z| ≤ b → ∃ x', opSem c y' z' = some x' ∧ |x' - x| ≤ e) ∧ |x| + e ≤ P.hi ∧
      E = e + P.u * (|x| + e) + P.lo

end Symxx.Sym
