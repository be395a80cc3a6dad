import Verif.Expr.Print
/-!
# What a TeX formula denotes

The conventional reading of the part of TeX mathematics the program writes: numerals, letters, `\name `, `( … )`,
`\frac{…}{…}`, `\sqrt{…}`, `\sqrt[k]{…}`, superscripts `^{…}` on a single operand, products written by juxtaposition
or `\times `, sums, and a leading minus sign. `Tex.unique` (`Verif/Expr/TexUnique.lean`): a text has at most one reading.
-/
namespace Symxx.Sym
open Symxx.Num Symxx.Parser

/-- a control word that stands for a symbol: two or more letters, and none of the three with another meaning. -/
def TexName (x : List Char) : Prop :=
  2 ≤ x.length ∧ (∀ c ∈ x, isAlpha c = true) ∧ x ≠ "frac".toList ∧ x ≠ "sqrt".toList ∧ x ≠ "times".toList

/-- `Tex l s v`: the text `s` is a formula of level `l` denoting `v`. Levels: sum with optional leading minus (0), sum (1),
product (2), factor (3), operand that can carry a superscript (4). -/
inductive Tex : Nat → List Char → Den → Prop
  | num {ds} : Digits ds → Tex 4 ds (fun _ => some ((digVal ds : Int) : ℝ))
  | letter {c} : isAlpha c = true → Tex 4 [c] (fun ρ => some (ρ [c]))
  | name {x} : TexName x → Tex 4 ("\\".toList ++ x ++ " ".toList) (fun ρ => some (ρ x))
  | paren {s v} : Tex 0 s v → Tex 4 ("(".toList ++ s ++ ")".toList) v
  | pow {s t v w} : Tex 4 s v → Tex 0 t w → Tex 3 (s ++ "^{".toList ++ t ++ "}".toList) (opV '^' v w)
  | powName {x t w} : TexName x → Tex 0 t w →
      Tex 3 ("\\".toList ++ x ++ "^{".toList ++ t ++ "}".toList) (opV '^' (fun ρ => some (ρ x)) w)
  | frac {s t v w} : Tex 0 s v → Tex 0 t w →
      Tex 3 ("\\frac{".toList ++ s ++ "}{".toList ++ t ++ "}".toList) (opV '/' v w)
  | sqrt {s v} : Tex 0 s v → Tex 3 ("\\sqrt{".toList ++ s ++ "}".toList) (opV '^' v (fun _ => some (1 / 2)))
  | root {ds s v} : Digits ds → 0 < digVal ds → Tex 0 s v →
      Tex 3 ("\\sqrt[".toList ++ ds ++ "]{".toList ++ s ++ "}".toList) (opV '^' v (fun _ => some (1 / ((digVal ds : Int) : ℝ))))
  | juxt {s t v w} : Tex 2 s v → Tex 3 t w → (∀ c ∈ t.head?, isDig c = false) → Tex 2 (s ++ t) (opV '*' v w)
  | times {s t v w} : Tex 2 s v → Tex 3 t w → Tex 2 (s ++ "\\times ".toList ++ t) (opV '*' v w)
  | add {l s t v w} : l ≤ 1 → Tex l s v → Tex 2 t w → Tex l (s ++ "+".toList ++ t) (opV '+' v w)
  | sub {l s t v w} : l ≤ 1 → Tex l s v → Tex 2 t w → Tex l (s ++ "-".toList ++ t) (opV '-' v w)
  | neg {s v} : Tex 2 s v → Tex 0 ("-".toList ++ s) (opV '-' (fun _ => some 0) v)
  | up {l s v} : Tex (l + 1) s v → Tex l s v

/-! ### what can be written -/

/-- a symbol the TeX text shows as itself: one letter, or a control word. -/
def TexSym (x : List Char) : Prop := TexName x ∨ ∃ c, x = [c] ∧ isAlpha c = true

/-- a term with a canonical coefficient without roots other than square roots, such symbols and rational exponents. -/
structure TexTermOk (M : Int) (B : Nat) (t : Term) : Prop where
  coe : CoeOk M B t.coe
  square : t.coe.index ≤ 2
  syms : ∀ p ∈ t.syms, TexSym p.1 ∧ p.2.Fits M ∧ 0 < p.2.den

/-- a polynomial of such terms. -/
def TexPolyOk (M : Int) (B : Nat) (p : Poly) : Prop := ∀ t ∈ p, TexTermOk M B t

/-- a term printed as one operand: a natural number or a symbol. -/
def TexAtom (t : Term) : Prop :=
  t.coe.rad = ⟨1, 1⟩ ∧ t.coe.coe.den = 1 ∧
    ((0 ≤ t.coe.coe.num ∧ t.syms = []) ∨ (t.coe.coe.num = 1 ∧ ∃ x n, t.syms = [(x, ⟨n, n⟩)]))

/-- the polynomial can be written without parentheses where level `k` is wanted. -/
def TexAt (k : Nat) (p : Poly) : Prop := if k ≤ 2 then PolyAt k p else ∃ t, p = [t] ∧ TexAtom t

/-- a fraction of such polynomials. -/
structure TexFracOk (M : Int) (B : Nat) (f : Frac) : Prop where
  num : TexPolyOk M B f.num
  den : TexPolyOk M B f.den
  num_ne : f.num ≠ []
  den_ne : f.den ≠ []

/-- the level of an operator in TeX, where a fraction is one factor. -/
def texLevel (c : Char) : Nat := if c = '+' ∨ c = '-' then 1 else if c = '*' then 2 else 3
/-- the level wanted for the left operand of `c` where level `k` is wanted for the result. -/
def texLeft (k : Nat) (c : Char) : Nat :=
  if c = '+' ∨ c = '-' then min k 1 else if c = '*' then 2 else if c = '/' then 0 else 4
/-- the level that keeps the value for the right operand of `c`. -/
def texRight (c : Char) : Nat := if c = '+' then 1 else if c = '-' ∨ c = '*' then 2 else 0

/-- a tree whose leaves are such fractions, and a leaf without denominator fits its place; an operation that does not fit
its place is parenthesised, which then admits everything. -/
def TexNodeOk (M : Int) (B : Nat) : Nat → Node → Prop
  | k, .frac f => TexFracOk M B f ∧ (IsOne f.den → TexAt k f.num)
  | k, .op c l r => (c = '+' ∨ c = '-' ∨ c = '*' ∨ c = '/' ∨ c = '^') ∧
      TexNodeOk M B (texLeft (if texLevel c < k then 0 else k) c) l ∧ TexNodeOk M B (texRight c) r

/-- the powers of symbols in a polynomial are real numbers at `ρ`. -/
def Poly.RealAt (ρ : List Char → ℝ) (p : Poly) : Prop := ∀ t ∈ p, ∀ q ∈ t.syms,
  0 < ρ q.1 ∨ (ρ q.1 = 0 ∧ 0 ≤ q.2.num) ∨ q.2.num = 0 ∨ (ρ q.1 < 0 ∧ q.2.den = 1)

/-- the powers of symbols in the leaves are real numbers at `ρ`. -/
def Node.RealAt (ρ : List Char → ℝ) : Node → Prop
  | .frac f => f.num.RealAt ρ ∧ f.den.RealAt ρ
  | .op _ l r => l.RealAt ρ ∧ r.RealAt ρ

/-- the symbols of an expression can be written in TeX. -/
def TexLeaves (e : Parser.Expr) : Prop := ∀ x, .sym x ∈ e.leaves → TexSym x

end Symxx.Sym
