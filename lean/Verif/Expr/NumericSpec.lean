import Verif.Expr.Numeric
import Verif.Expr.Spec
import Verif.Expr.IntEval
/-!
# Specification: what is assumed about floating point, and which evaluations are exact
-/
namespace Symxx.Sym
open Symxx.Num

/-- the real number a floating-point value stands for; `none` for infinities and NaN. -/
structure FltSem (F : Flt) where
  ld : F.LD → Option ℝ
  d : F.D → Option ℝ

/-- the operation of `long double` for an operator of the expression. -/
def fltOp (F : Flt) (c : Char) : F.LD → F.LD → F.LD :=
  if c = '+' then F.add else if c = '-' then F.sub else if c = '*' then F.mul else if c = '/' then F.div else F.pow

/-- the operation of `double`: division or power. -/
def fltOpD (F : Flt) (c : Char) : F.D → F.D → F.D := if c = '/' then F.dDiv else F.dPow

/-- integers up to `N` are exact in both types: conversions, and operations on such integers whose result is such an integer.
(IEEE 754 with `N = 2^53`; for `std::pow` this is the accuracy of glibc on exact cases.) -/
structure FltSem.Exact {F : Flt} (S : FltSem F) (N : Int) : Prop where
  one : 1 ≤ N
  ofInt : ∀ n : Int, |n| ≤ N → S.ld (F.ofInt n) = some (n : ℝ)
  dOfInt : ∀ n : Int, |n| ≤ N → S.d (F.dOfInt n) = some (n : ℝ)
  widen : ∀ a, S.ld (F.widen a) = S.d a
  trunc : ∀ a (n : Int), S.d a = some (n : ℝ) → |n| ≤ N → F.dTrunc a = .ok n
  op : ∀ (c : Char) a b (m n k : Int), S.ld a = some (m : ℝ) → S.ld b = some (n : ℝ) → |m| ≤ N → |n| ≤ N →
    opSem c m n = some (k : ℝ) → |k| ≤ N → S.ld (fltOp F c a b) = some (k : ℝ)
  opD : ∀ (c : Char) a b (m n k : Int), c = '/' ∨ c = '^' → S.d a = some (m : ℝ) → S.d b = some (n : ℝ) → |m| ≤ N → |n| ≤ N →
    opSem c m n = some (k : ℝ) → |k| ≤ N → S.d (fltOpD F c a b) = some (k : ℝ)

/-- the constants `v` give every symbol in `xs` its integer value, within `N`. -/
def ConstsAt {F : Flt} (S : FltSem F) (v : List (List Char × F.LD)) (κ : List Char → Int) (N : Int) (xs : List (List Char)) : Prop :=
  ∀ x ∈ xs, |κ x| ≤ N ∧ ∃ a, findLD F v x = some a ∧ S.ld a = some (κ x : ℝ)

/-- a polynomial with integer coefficients and natural exponents. -/
def Poly.Natural (N : Int) (p : Poly) : Prop :=
  ∀ t ∈ p, t.coe = Num.Real.int t.coe.coe.num ∧ ∀ q ∈ t.syms, NatExp q ∧ q.2.num ≤ N

/-- a bound on the powers of the symbols of a term at integers, and their products. -/
def Term.powSize (κ : List Char → Int) (t : Term) : Int := (t.syms.map fun p => max 1 |κ p.1| ^ p.2.num.toNat).prod
/-- everything computed on the way to the value of a polynomial at integers is within `N`. -/
def Poly.FitsAt (κ : List Char → Int) (N : Int) (p : Poly) : Prop :=
  (∀ t ∈ p, t.powSize κ ≤ N) ∧ (p.map fun t => |t.coe.coe.num| * t.powSize κ).sum ≤ N

/-- evaluating the tree at the integers `κ` gives the integer `k`, and every intermediate result is an integer within `N`. -/
def Node.IntSteps (κ : List Char → Int) (N : Int) : Node → Int → Prop
  | .frac f, k => Poly.Natural N f.num ∧ Poly.Natural N f.den ∧ f.num.FitsAt κ N ∧ f.den.FitsAt κ N ∧
      f.den.at κ ≠ 0 ∧ f.num.at κ = k * f.den.at κ
  | .op c l r, k => ∃ m n, Node.IntSteps κ N l m ∧ Node.IntSteps κ N r n ∧ opSem c (m : ℝ) (n : ℝ) = some (k : ℝ) ∧ |k| ≤ N

/-- the operators of the tree are `+ - * / ^`. -/
def Node.Ops : Node → Prop
  | .frac _ => True
  | .op c l r => (c = '+' ∨ c = '-' ∨ c = '*' ∨ c = '/' ∨ c = '^') ∧ l.Ops ∧ r.Ops

end Symxx.Sym
