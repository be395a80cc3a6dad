import Verif.Parser.Model
/-!
# Specification of the expression language, independent of the parser

Three grammar levels of left-associative binary operators, `+ -` (1), `* /` (2), `^` (3), over atoms
(4): numbers, symbols and parenthesised expressions.
-/
namespace Symxx.Parser
open Symxx.Num

/-- operator `c` belongs to grammar level `l`. -/
inductive OpAt : Nat → Char → Prop
  | plus : OpAt 1 '+'
  | minus : OpAt 1 '-'
  | times : OpAt 2 '*'
  | divide : OpAt 2 '/'
  | power : OpAt 3 '^'

/-- `Derives l ts e`: the token sequence `ts` is an expression of level `l` whose tree is `e`. -/
inductive Derives : Nat → List Tok → Expr → Prop
  | num (q : Rational) : Derives 4 [.digit q] (.leaf (.num q))
  | sym (x : List Char) : Derives 4 [.symbol x] (.leaf (.sym x))
  | paren {ts e} : Derives 1 ts e → Derives 4 (.lparen :: (ts ++ [.rparen])) e
  | up {l ts e} : 1 ≤ l → Derives (l + 1) ts e → Derives l ts e
  | bin {l c ts us a b} : OpAt l c → Derives l ts a → Derives (l + 1) us b →
      Derives l (ts ++ .op c :: us) (.node c a b)

/-- level of an operator character. -/
def opLevel (c : Char) : Nat :=
  if c = '+' ∨ c = '-' then 1 else if c = '*' ∨ c = '/' then 2 else if c = '^' then 3 else 0

/-- a tree all of whose operators are arithmetic operators. -/
def Expr.WF : Expr → Prop
  | .leaf _ => True
  | .node c a b => (c = '+' ∨ c = '-' ∨ c = '*' ∨ c = '/' ∨ c = '^') ∧ a.WF ∧ b.WF

def Leaf.tok : Leaf → Tok
  | .num q => .digit q
  | .sym x => .symbol x

/-- conventional rendering at level `l`: parentheses exactly around a subexpression whose operator
binds less tightly than its place requires (the right operand of an operator must bind tighter). -/
def render (l : Nat) : Expr → List Tok
  | .leaf x => [x.tok]
  | .node c a b =>
    let body := render (opLevel c) a ++ .op c :: render (opLevel c + 1) b
    if opLevel c < l then .lparen :: (body ++ [.rparen]) else body

/-- rendering with every operator in parentheses. -/
def renderFull : Expr → List Tok
  | .leaf x => [x.tok]
  | .node c a b => .lparen :: (renderFull a ++ .op c :: renderFull b ++ [.rparen])

/-! ### spelling -/

/-- decimal digits only. -/
def Digits (ds : List Char) : Prop := ds ≠ [] ∧ ∀ c ∈ ds, isDig c = true

/-- the text may follow a number: it does not continue it. -/
def EndsNumber (rest : List Char) : Prop := ∀ c ∈ rest.head?, isDig c = false ∧ c ≠ '.'

/-- `LexPre M z s ts`: the text `s` spells the token sequence `ts` and then continues with `z`; white
space is allowed anywhere between tokens. Numbers are unsigned integers up to `M`. -/
inductive LexPre (M : Int) (z : List Char) : List Char → List Tok → Prop
  | nil : LexPre M z z []
  | space {c s ts} : isSpace c = true → LexPre M z s ts → LexPre M z (c :: s) ts
  | num {ds s ts} : Digits ds → digVal ds ≤ M → EndsNumber s → LexPre M z s ts →
      LexPre M z (ds ++ s) (.digit ⟨digVal ds, 1⟩ :: ts)
  | letter {c s ts} : isAlpha c = true → LexPre M z s ts → LexPre M z (c :: s) (.symbol [c] :: ts)
  | braced {name s ts} : '}' ∉ name → LexPre M z s ts →
      LexPre M z ('{' :: (name ++ '}' :: s)) (.symbol name :: ts)
  | op {c s ts} : (c = '+' ∨ c = '-' ∨ c = '*' ∨ c = '/' ∨ c = '^') → (c = '*' → s.head? ≠ some '*') →
      LexPre M z s ts → LexPre M z (c :: s) (.op c :: ts)
  | starstar {s ts} : LexPre M z s ts → LexPre M z ('*' :: '*' :: s) (.op '^' :: ts)
  | lparen {s ts} : LexPre M z s ts → LexPre M z ('(' :: s) (.lparen :: ts)
  | rparen {s ts} : LexPre M z s ts → LexPre M z (')' :: s) (.rparen :: ts)
  | sqrt {s ts} : LexPre M z s ts → LexPre M z ('_' :: '/' :: s) (.radical ⟨1, 2⟩ :: ts)
  | root {ds s ts} : Digits ds → 0 < digVal ds → digVal ds ≤ M → LexPre M z s ts →
      LexPre M z ('_' :: (ds ++ '/' :: s)) (.radical ⟨1, digVal ds⟩ :: ts)

/-- `Lex M s ts`: the text `s` spells exactly the token sequence `ts`. -/
abbrev Lex (M : Int) (s : List Char) (ts : List Tok) : Prop := LexPre M [] s ts

/-- what is inserted between two neighbouring tokens: `*` where an operand is followed by a symbol, an
opening parenthesis or a root sign; `0` before a sign at the beginning of a (sub)expression. -/
def glue (prev next : Tok) : List Tok :=
  match prev, next with
  | .symbol _, .symbol _ | .symbol _, .lparen | .symbol _, .radical _
  | .digit _, .symbol _ | .digit _, .lparen | .digit _, .radical _
  | .rparen, .symbol _ | .rparen, .lparen | .rparen, .radical _ => [.op '*']
  | .begin, .op c | .lparen, .op c => if c = '+' ∨ c = '-' then [.digit ⟨0, 1⟩] else []
  | _, _ => []

/-- the documented reading of a token sequence: gluing, and `_n/q` read as `(q ^ (1/n))`; a root sign
must be followed by a number. -/
def expand (prev : Tok) : List Tok → Option (List Tok)
  | [] => some []
  | .radical p :: .digit q :: ts =>
    (expand .rparen ts).map fun r =>
      glue prev (.radical p) ++ [.lparen, .digit q, .op '^', .digit p, .rparen] ++ r
  | .radical _ :: _ => none
  | t :: ts => (expand t ts).map fun r => glue prev t ++ t :: r

/-- an operand can end with this token. -/
def Tok.endsOperand : Tok → Bool
  | .digit _ => true
  | .symbol _ => true
  | .rparen => true
  | _ => false

/-- an operand can begin with this token. -/
def Tok.startsOperand : Tok → Bool
  | .digit _ => true
  | .symbol _ => true
  | .lparen => true
  | _ => false

/-- no operand begins immediately after the end of an operand. -/
def NoGap : List Tok → Prop
  | a :: b :: ts => (a.endsOperand = true → b.startsOperand = false) ∧ NoGap (b :: ts)
  | _ => True

/-- a character that can begin no token. -/
def Unexpected (c : Char) : Prop :=
  isSpace c = false ∧ isDig c = false ∧ isAlpha c = false ∧ c ∉ "_.+-*/^(){".toList

end Symxx.Parser
