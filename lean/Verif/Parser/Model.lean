import Verif.Num.Rational
/-!
# Model of `ExprParser<T>` (parser.hpp)

Simplifications: characters are those of `std::string`; `std::isdigit/isspace/isalpha` are those of the
"C" locale, other bytes are "unexpected". The fraction payload of a token is kept as the number or the
symbol name it was built from (`Leaf`); its conversion to `Frac` is modelled in `Verif/Frac`. The
conversion of a numeral containing a '.' (`Rational(std::string)`, num.hpp 131-134, floating point) is
a parameter `dec`.
-/
namespace Symxx.Parser
open Symxx.Num

/-- what a token of type DIGIT or SYMBOL denotes (parser.hpp 43, 249, 291). -/
inductive Leaf where
  | num (q : Rational)
  | sym (s : List Char)
  deriving Repr, DecidableEq

/-- `ExprNode` as built by the parser (expr.hpp 66-82): a fraction or an operator with two children. -/
inductive Expr where
  | leaf (l : Leaf)
  | node (op : Char) (lhs rhs : Expr)
  deriving Repr, DecidableEq

/-- `ExprToken` (parser.hpp 27-66). -/
inductive Tok where
  | begin
  | fin
  | radical (p : Rational)
  | op (c : Char)
  | lparen
  | rparen
  | digit (q : Rational)
  | symbol (s : List Char)
  deriving Repr, DecidableEq

/-! ### the operator precedence loop -/

/-- `priority.at(c)` (parser.hpp 299-306); `std::map::at` raises `std::out_of_range` on other keys. -/
def priority (c : Char) : Res Nat :=
  if c = '(' then .ok 0
  else if c = '+' ∨ c = '-' then .ok 10
  else if c = '*' ∨ c = '/' then .ok 100
  else if c = '^' then .ok 1000
  else .exn "map::at"

/-- `great_or_equal` (parser.hpp 297-307). -/
def greatOrEqual (a b : Char) : Res Bool := do
  let x ← priority a
  let y ← priority b
  .ok (decide (x ≥ y))

/-- the two stacks `nodes`, `op` (parser.hpp 100-101), top first. -/
structure St where
  nodes : List Expr
  ops : List Char
  deriving Repr, DecidableEq

/-- `handle` (parser.hpp 102-111). -/
def handle (s : St) : Res St :=
  match s.nodes, s.ops with
  | rhs :: lhs :: ns, o :: os => .ok ⟨.node o lhs rhs :: ns, os⟩
  | _, _ => .throw "Invaild string."

/-- `while (!op.empty() && great_or_equal(op.top(), c)) handle();` (parser.hpp 117-120). -/
def popWhile (c : Char) : List Expr → List Char → Res St
  | ns, [] => .ok ⟨ns, []⟩
  | ns, o :: os => do
    if ← greatOrEqual o c then do
      let s ← handle ⟨ns, o :: os⟩
      popWhile c s.nodes os
    else .ok ⟨ns, o :: os⟩

/-- the RPAREN branch (parser.hpp 129-140). -/
def closeParen : List Expr → List Char → Res St
  | _, [] => .throw "Expected '('"
  | ns, o :: os =>
    if ns ≠ [] ∧ o ≠ '(' then do
      let s ← handle ⟨ns, o :: os⟩
      closeParen s.nodes os
    else .ok ⟨ns, os⟩

/-- one iteration of the token loop (parser.hpp 114-149). -/
def step (s : St) (t : Tok) : Res St :=
  match t with
  | .op c => do
    let s ← popWhile c s.nodes s.ops
    .ok { s with ops := c :: s.ops }
  | .lparen => .ok { s with ops := '(' :: s.ops }
  | .rparen => closeParen s.nodes s.ops
  | .digit q => .ok { s with nodes := .leaf (.num q) :: s.nodes }
  | .symbol x => .ok { s with nodes := .leaf (.sym x) :: s.nodes }
  | _ => .throw "Unreachable code: unexpected ExprToken."

/-- the token loop (parser.hpp 112-150). -/
def run : List Tok → St → Res St
  | [], s => .ok s
  | t :: ts, s => do
    let s ← step s t
    run ts s

/-- `while (!op.empty()) handle();` and the final assertions (parser.hpp 151-157). -/
def finish : List Expr → List Char → Res Expr
  | [e], [] => .ok e
  | _, [] => .throw "Invaild string."
  | ns, o :: os => do
    let s ← handle ⟨ns, o :: os⟩
    finish s.nodes os

/-- `parse` after `get_all_tokens` (parser.hpp 100-158), on the tokens between BEGIN and END. -/
def parseToks (ts : List Tok) : Res Expr := do
  let s ← run ts ⟨[], []⟩
  finish s.nodes s.ops

/-! ### the tokeniser -/

/-- `std::isalpha` in the "C" locale. -/
def isAlpha (c : Char) : Bool :=
  (decide ('a' ≤ c) && decide (c ≤ 'z')) || (decide ('A' ≤ c) && decide (c ≤ 'Z'))

/-- the characters of a number after the first one (parser.hpp 208-213). -/
def numChar (hasDot : Bool) (c : Char) : Bool := isDig c || (!hasDot && c == '.')

/-- `parse_a_number` (parser.hpp 204-215) on a non-empty rest of the input. -/
def parseNumber (M : Int) (dec : List Char → Res Rational) (c : Char) (t : List Char) :
    Res (Rational × List Char) := do
  let hasDot := c == '.'
  let q ← Rational.ofStr M dec (c :: t.takeWhile (numChar hasDot))
  .ok (q, t.dropWhile (numChar hasDot))

/-- `get_token` (parser.hpp 217-295): the token and the remaining input. Reading `raw[rawpos]` at the
end yields `'\0'`; `++rawpos` beyond the end leaves nothing. -/
def getToken (M : Int) (dec : List Char → Res Rational) (s : List Char) : Res (Tok × List Char) :=
  match s.dropWhile isSpace with
  | [] => .ok (.fin, [])
  | ch :: t =>
    if ch = '_' then do
      let (power, t) ← (match t with
        | [] => .throw "Unreachable code: Unexpected '_', needs a '/'"
        | d :: t' =>
          if d = '/' then do
            let p ← Rational.ofInt M 2
            .ok (p, d :: t')
          else if isDig d || d == '.' then parseNumber M dec d t'
          else .throw "Unreachable code: Unexpected '_', needs a '/'" : Res (Rational × List Char))
      let p ← Rational.inverse M power
      .ok (.radical p, t.tail)
    else if isDig ch || ch == '.' then do
      let (q, t) ← parseNumber M dec ch t
      .ok (.digit q, t)
    else if ch = '+' ∨ ch = '-' ∨ ch = '*' ∨ ch = '/' ∨ ch = '^' then
      match t with
      | '*' :: t' => if ch = '*' then .ok (.op '^', t') else .ok (.op ch, t)
      | _ => .ok (.op ch, t)
    else if ch = '(' then .ok (.lparen, t)
    else if ch = ')' then .ok (.rparen, t)
    else if ch = '{' then
      .ok (.symbol (t.takeWhile (· ≠ '}')), (t.dropWhile (· ≠ '}')).tail)
    else if isAlpha ch then .ok (.symbol [ch], t)
    else .throw ("Unreachable code: unexpected '" ++ String.ofList [ch] ++ "'.")

/-- the body of the loop of `get_all_tokens` (parser.hpp 167-200): `toks` is the vector, last element
first. -/
def pushTok (toks : List Tok) (t : Tok) : Res (List Tok) :=
  let back := toks.head?.getD .begin
  let juxt : Bool := match t, back with
    | .symbol _, .symbol _ => true
    | .symbol _, .digit _ => true
    | .symbol _, .rparen => true
    | .lparen, .symbol _ => true
    | .lparen, .digit _ => true
    | .lparen, .rparen => true
    | .radical _, .symbol _ => true
    | .radical _, .digit _ => true
    | .radical _, .rparen => true
    | _, _ => false
  if juxt then .ok (t :: .op '*' :: toks)
  else match back with
    | .radical p =>
      (match t with
      | .digit _ => .ok (.rparen :: .digit p :: .op '^' :: t :: .lparen :: toks.tail)
      | _ => .throw "Radical needs a rational.")
    | _ =>
      let unary : Bool := match back, t with
        | .lparen, .op c => c == '+' || c == '-'
        | .begin, .op c => c == '+' || c == '-'
        | _, _ => false
      if unary then .ok (t :: .digit Rational.zero :: toks)
      else .ok (t :: toks)

/-- `get_all_tokens` (parser.hpp 161-202): ends when END has been appended. -/
def tokLoop (M : Int) (dec : List Char → Res Rational) : Nat → List Tok → List Char → Res (List Tok)
  | 0, _, _ => .fuel
  | f + 1, toks, s =>
    if toks.head? = some .fin then .ok toks
    else do
      let (t, s) ← getToken M dec s
      let toks ← pushTok toks t
      tokLoop M dec f toks s

/-- `get_all_tokens` (parser.hpp 161-202), in order, from BEGIN to END. -/
def getAllTokens (M : Int) (dec : List Char → Res Rational) (s : List Char) : Res (List Tok) := do
  let toks ← tokLoop M dec (s.length + 2) [.begin] s
  .ok toks.reverse

/-- `ExprParser(s).parse()` (parser.hpp 77-158): the loop skips the first and the last token. -/
def parse (M : Int) (dec : List Char → Res Rational) (s : List Char) : Res Expr := do
  let toks ← getAllTokens M dec s
  parseToks toks.tail.dropLast

end Symxx.Parser
