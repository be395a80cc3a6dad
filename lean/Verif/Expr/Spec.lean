import Verif.Expr.Model
import Verif.Frac.Spec
/-!
# What an expression denotes

`ρ` assigns a real number to every symbol. The value of an expression is a partial function of `ρ`: dividing by zero
and the powers that are not real numbers are undefined. A symbol denotes itself, a fraction denotes numerator over
denominator, `+ - * / ^` denote the operations of the real numbers.
-/
namespace Symxx.Sym
open Symxx.Num

open Classical in
/-- the five operations on real numbers. -/
noncomputable def opSem (c : Char) (x y : ℝ) : Option ℝ :=
  if c = '+' then some (x + y)
  else if c = '-' then some (x - y)
  else if c = '*' then some (x * y)
  else if c = '/' then (if y = 0 then none else some (x / y))
  else if c = '^' then
    if 0 < x ∨ (x = 0 ∧ 0 ≤ y) ∨ (x < 0 ∧ ∃ k : Int, y = k) then some (x ^ y) else none
  else none

/-- the value of a parsed expression. -/
noncomputable def exprSem (ρ : List Char → ℝ) : Parser.Expr → Option ℝ
  | .leaf (.num q) => if q.den = 0 then none else some ((q.val : ℚ) : ℝ)
  | .leaf (.sym x) => some (ρ x)
  | .node c a b => (exprSem ρ a).bind fun x => (exprSem ρ b).bind fun y => opSem c x y

open Classical in
/-- the value of an expression tree. -/
noncomputable def Node.sem (ρ : List Char → ℝ) : Node → Option ℝ
  | .frac f => if Poly.value ρ f.den = 0 then none else some (Frac.value ρ f)
  | .op c l r => (Node.sem ρ l).bind fun x => (Node.sem ρ r).bind fun y => opSem c x y

/-- all fractions of the tree are well-formed. -/
def Node.WF : Node → Prop
  | .frac f => f.WF
  | .op _ l r => l.WF ∧ r.WF

/-- the tree contains no `^`. -/
def Node.NoPow : Node → Prop
  | .frac _ => True
  | .op c l r => c ≠ '^' ∧ l.NoPow ∧ r.NoPow

/-- the exponent of a power, for a natural number. -/
def expo : Parser.Expr → Nat
  | .leaf (.num q) => q.num.toNat
  | _ => 0

/-- an expression over integers, symbols, `+`, `-`, `*` and powers with a natural number as exponent. -/
def IntRing : Parser.Expr → Prop
  | .leaf (.num q) => q.den = 1
  | .leaf (.sym _) => True
  | .node c a b => ((c = '+' ∨ c = '-' ∨ c = '*') ∧ IntRing a ∧ IntRing b) ∨
      (c = '^' ∧ IntRing a ∧ ∃ k : Nat, b = .leaf (.num ⟨k, 1⟩))

/-- the integer an expression over integers denotes when the symbols denote integers. -/
def intVal (κ : List Char → Int) : Parser.Expr → Int
  | .leaf (.num q) => q.num
  | .leaf (.sym x) => κ x
  | .node c a b => if c = '+' then intVal κ a + intVal κ b else if c = '-' then intVal κ a - intVal κ b
      else if c = '*' then intVal κ a * intVal κ b else intVal κ a ^ expo b

/-- a bound for the sum of the absolute values of the coefficients of the expanded polynomial: read a symbol as 1, a
number as its absolute value (at least 1) and `-` as `+`. -/
def ringSize : Parser.Expr → Int
  | .leaf (.num q) => max 1 |q.num|
  | .leaf (.sym _) => 1
  | .node c a b => if c = '*' then ringSize a * ringSize b else if c = '^' then ringSize a ^ expo b else ringSize a + ringSize b

/-- a bound for the degree of the expanded polynomial. -/
def ringDeg : Parser.Expr → Int
  | .leaf (.num _) => 0
  | .leaf (.sym _) => 1
  | .node c a b => if c = '*' then ringDeg a + ringDeg b else if c = '^' then ringDeg a * max 1 (expo b : Int)
      else max (ringDeg a) (ringDeg b)

/-- an expression without `+` and `-`: a product of powers of numbers and symbols. -/
def oneTerm : Parser.Expr → Bool
  | .leaf _ => true
  | .node c a b => (c == '*' && oneTerm a && oneTerm b) || (c == '^' && oneTerm a)

/-- the powers are computed exactly: the `k`-th power of a sum uses `k!`, and everything passes through `double`. -/
def PowFits : Parser.Expr → Prop
  | .leaf _ => True
  | .node c a b => PowFits a ∧ PowFits b ∧ (c = '^' → (expo b : Int) ≤ 2 ^ 53 ∧ ringSize a ≤ 2 ^ 53 ∧ ringSize a ^ expo b ≤ 2 ^ 53 ∧
      (oneTerm a = true ∨ ((expo b).factorial : Int) * ringSize a ^ expo b ≤ 2 ^ 53))

/-! ### what can be printed and read back -/

/-- a symbol the parser can read: one letter, or (in braces) a name of another length without `}`. -/
def SymOk (x : List Char) : Prop := (x.length ≠ 1 ∧ '}' ∉ x) ∨ ∃ c, x = [c] ∧ Parser.isAlpha c = true

/-- a coefficient in normal form, with a positive denominator, within the range of the type. -/
structure CoeOk (M : Int) (B : Nat) (r : Num.Real) : Prop where
  canon : r.Canon
  den : 0 < r.coe.den
  fits : r.coe.Fits M
  rad : r.rad.num ≤ B
  index : (r.index : Int) ≤ M

/-- a term with such a coefficient, readable symbols and natural exponents. -/
structure TermOk (M : Int) (B : Nat) (t : Term) : Prop where
  coe : CoeOk M B t.coe
  syms : ∀ p ∈ t.syms, SymOk p.1 ∧ 0 ≤ p.2.num ∧ p.2.num ≤ M ∧ p.2.den = 1

/-- a polynomial of such terms. -/
def PolyOk (M : Int) (B : Nat) (p : Poly) : Prop := ∀ t ∈ p, TermOk M B t

/-- a term printed as a single operand: a natural number, or one power of a symbol. -/
def TermAtom (t : Term) : Prop :=
  t.coe.rad = ⟨1, 1⟩ ∧ t.coe.coe.den = 1 ∧
    ((0 ≤ t.coe.coe.num ∧ t.syms = []) ∨ (t.coe.coe.num = 1 ∧ ∃ p, t.syms = [p]))

/-- the polynomial is the number 1. -/
def IsOne (p : Poly) : Prop := ∃ t, p = [t] ∧ t.coe.rad = ⟨1, 1⟩ ∧ t.coe.coe.num = t.coe.coe.den ∧ t.syms = []

/-- the polynomial can be printed without parentheses where the grammar wants level `k`: anything (0, the whole text),
a sum with positive first term (1), one term with non-negative coefficient (1, 2), a single operand (3, 4). -/
def PolyAt (k : Nat) (p : Poly) : Prop :=
  if k = 0 then True
  else if k = 1 then (∃ t ts, p = t :: ts ∧ 0 < t.coe.coe.num) ∨ ∃ t, p = [t] ∧ 0 ≤ t.coe.coe.num
  else if k = 2 then ∃ t, p = [t] ∧ 0 ≤ t.coe.coe.num
  else ∃ t, p = [t] ∧ TermAtom t

/-- a fraction whose text is read back: a denominator that is one term must be a single operand. -/
structure FracOk (M : Int) (B : Nat) (f : Frac) : Prop where
  num : PolyOk M B f.num
  den : PolyOk M B f.den
  num_ne : f.num ≠ []
  den_ne : f.den ≠ []
  den_atom : ∀ t, f.den = [t] → TermAtom t

/-- the level the grammar wants for the left operand of `c`. -/
def leftNeed (c : Char) : Nat := if c = '+' ∨ c = '-' then 1 else if c = '*' ∨ c = '/' then 2 else 3
/-- the level that keeps the value for the right operand of `c` (`a+(b-c)` is `a+b-c`, `a*(b/c)` is `a*b/c`). -/
def rightNeed (c : Char) : Nat := if c = '+' then 1 else if c = '-' ∨ c = '*' then 2 else if c = '/' then 3 else 4

/-- a tree whose leaves are such fractions, and a leaf without denominator fits its place. -/
def NodeOk (M : Int) (B : Nat) : Nat → Node → Prop
  | k, .frac f => FracOk M B f ∧ (IsOne f.den → PolyAt k f.num)
  | _, .op c l r => (c = '+' ∨ c = '-' ∨ c = '*' ∨ c = '/' ∨ c = '^') ∧ NodeOk M B (leftNeed c) l ∧ NodeOk M B (rightNeed c) r

/-- a leaf the printer can write back: a non-negative fraction in lowest terms, or such a symbol. -/
def _root_.Symxx.Parser.Leaf.Readable (M : Int) : Parser.Leaf → Prop
  | .num q => 0 ≤ q.num ∧ q.num ≤ M ∧ 0 < q.den ∧ q.den ≤ M ∧ q.Lowest
  | .sym x => SymOk x

/-- an expression whose leaves can be read and whose operators are the five. -/
def _root_.Symxx.Parser.Expr.Readable (M : Int) : Parser.Expr → Prop
  | .leaf l => l.Readable M
  | .node c a b => (c = '+' ∨ c = '-' ∨ c = '*' ∨ c = '/' ∨ c = '^') ∧ a.Readable M ∧ b.Readable M

/-- the decimal conversion of the parser, where it accepts a text of digits and points, yields a non-negative fraction in
lowest terms (`decFloat_lowest`: the conversion of the code does). -/
def DecLowest (M : Int) (dec : List Char → Res Rational) : Prop :=
  ∀ s q, (∀ c ∈ s, isDig c = true ∨ c = '.') → dec s = .ok q → 0 ≤ q.num ∧ q.num ≤ M ∧ 0 < q.den ∧ q.den ≤ M ∧ q.Lowest

end Symxx.Sym
