import Verif.Expr.Spec
/-!
# Arithmetic expressions over integers: the four operations
-/
namespace Symxx.Sym
open Symxx.Num

/-- an expression over integers with `+`, `-`, `*`, `/`. -/
def RatExpr : Parser.Expr → Prop
  | .leaf (.num q) => q.den = 1
  | .leaf (.sym _) => False
  | .node c a b => (c = '+' ∨ c = '-' ∨ c = '*' ∨ c = '/') ∧ RatExpr a ∧ RatExpr b

/-- bounds for the numerators and denominators met on the way: those of the fractions computed without ever reducing. -/
def quoSize : Parser.Expr → Int × Int
  | .leaf (.num q) => (max 1 |q.num|, 1)
  | .leaf (.sym _) => (1, 1)
  | .node c a b =>
    if c = '*' then ((quoSize a).1 * (quoSize b).1, (quoSize a).2 * (quoSize b).2)
    else if c = '/' then ((quoSize a).1 * (quoSize b).2, (quoSize a).2 * (quoSize b).1)
    else ((quoSize a).1 * (quoSize b).2 + (quoSize b).1 * (quoSize a).2, (quoSize a).2 * (quoSize b).2)

/-- the text of a fraction. -/
def quoText (j k : Int) : List Char := if k = 1 then (toString j).toList else (toString j).toList ++ ['/'] ++ (toString k).toList

/-- an expression over integers with `+`, `-`, `*`, `/` and powers whose exponent is a natural number. -/
def PowRat : Parser.Expr → Prop
  | .leaf (.num q) => q.den = 1
  | .leaf (.sym _) => False
  | .node c a b => ((c = '+' ∨ c = '-' ∨ c = '*' ∨ c = '/') ∧ PowRat a ∧ PowRat b) ∨
    (c = '^' ∧ PowRat a ∧ ∃ n : Nat, b = .leaf (.num ⟨n, 1⟩))

/-- as `quoSize`, with powers. -/
def powSize : Parser.Expr → Int × Int
  | .leaf (.num q) => (max 1 |q.num|, 1)
  | .leaf (.sym _) => (1, 1)
  | .node c a b =>
    if c = '*' then ((powSize a).1 * (powSize b).1, (powSize a).2 * (powSize b).2)
    else if c = '/' then ((powSize a).1 * (powSize b).2, (powSize a).2 * (powSize b).1)
    else if c = '^' then ((powSize a).1 ^ expo b, (powSize a).2 ^ expo b)
    else ((powSize a).1 * (powSize b).2 + (powSize b).1 * (powSize a).2, (powSize a).2 * (powSize b).2)

/-- everything met on the way fits the type, and the results of powers (which are computed with `std::pow`) a double. -/
def PowSmall (M : Int) : Parser.Expr → Prop
  | .leaf q => (powSize (.leaf q)).1 ≤ M
  | .node c a b => PowSmall M a ∧ (c ≠ '^' → PowSmall M b) ∧ (powSize (.node c a b)).1 ≤ M ∧ (powSize (.node c a b)).2 ≤ M ∧
    (c = '^' → (expo b : Int) ≤ 2 ^ 53 ∧ (powSize (.node c a b)).1 ≤ 2 ^ 53 ∧ (powSize (.node c a b)).2 ≤ 2 ^ 53)

/-- no divisor has a negative value. -/
def PosDiv (ρ : List Char → ℝ) : Parser.Expr → Prop
  | .leaf _ => True
  | .node c a b => PosDiv ρ a ∧ PosDiv ρ b ∧ (c = '/' → ∀ v, exprSem ρ b = some v → 0 ≤ v)

end Symxx.Sym
