import Verif.Frac.Model
import Verif.Parser.Model
/-!
# Model of `ExprNode<T>` (expr.hpp)

`try_eval(const std::map<std::string, long double> &)` (floating point) is in `Verif/Expr/Numeric.lean`. Ownership of the children
(`new`/`delete` in `OpData`) is modelled in `Verif/Heap`; here a node is an inductive tree.
-/
namespace Symxx.Sym
open Symxx.Num

/-- `to<Rational<T>>()` of a term (frac.hpp 162-167). -/
def Term.toRational (env : Env) (a : Term) : Res Rational := do
  Res.assert a.noSymbols "Term must not have symbols."
  Real.toRational env a.coe

/-- the loop of `Poly::to<Rational<T>>()` (frac.hpp 514-517). -/
def Poly.toRationalLoop (env : Env) : Poly → Rational → Res Rational
  | [], r => .ok r
  | t :: ts, r => do
    let x ← Term.toRational env t
    let r ← Rational.add env.M r x
    toRationalLoop env ts r

/-- `Poly::to<Rational<T>>()` (frac.hpp 510-519). -/
def Poly.toRational (env : Env) (p : Poly) : Res Rational := do
  let z ← Rational.ofInt env.M 0
  toRationalLoop env p z

/-- `Frac::to<Rational<T>>()` (frac.hpp 872-876). -/
def Frac.toRational (env : Env) (a : Frac) : Res Rational := do
  let n ← Poly.toRational env a.num
  let d ← Poly.toRational env a.den
  Rational.div env.M n d

/-- `ExprNode` (expr.hpp 66-82): a fraction (`NodeType::FRAC`) or an operator with two children (`NodeType::OP`). -/
inductive Node where
  | frac (f : Frac)
  | op (c : Char) (l r : Node)
  deriving Repr, DecidableEq

namespace Node
variable (env : FEnv)

/-- the fraction built for a leaf by the parser: `Frac<T>{parse_a_number()}` (parser.hpp 249) and
`Frac<T>{{Term<T>{Real<T>{1}, symbol}}}` (parser.hpp 291). -/
def ofLeaf : Parser.Leaf → Res Frac
  | .num q => do
    let r ← Real.ofRational env.toEnv q
    Frac.ofReal env r
  | .sym x => do
    let one ← Real.ofInt env.toEnv 1
    let t ← Term.ofSym env.toEnv one x
    Frac.ofTerm env t

/-- the tree built by the parser. Simplification: the code builds the leaves while it reads the tokens; here the tree
is built first and its leaves are converted afterwards, left to right. -/
def ofExpr : Parser.Expr → Res Node
  | .leaf l => do
    let f ← ofLeaf env l
    .ok (.frac f)
  | .node c a b => do
    let x ← ofExpr a
    let y ← ofExpr b
    .ok (.op c x y)

/-- `ExprParser<T>{s}.parse()` (parser.hpp 77-158) as a tree with fractions as leaves. -/
def ofText (dec : List Char → Res Rational) (s : List Char) : Res Node := do
  let e ← Parser.parse env.M dec s
  ofExpr env e

/-- `symxx_unreachable()` (expr.hpp 128, 210). -/
def unreachable : String := "Unreachable code: "

/-- the `switch` of `try_eval` (expr.hpp 107-131). -/
def evalOp (c : Char) (a b : Frac) : Res (Option Frac) :=
  if c = '+' then do
    let r ← Frac.add env a b
    .ok (some r)
  else if c = '-' then do
    let r ← Frac.sub env a b
    .ok (some r)
  else if c = '*' then do
    let r ← Frac.mul env a b
    .ok (some r)
  else if c = '/' then do
    let r ← Frac.div env a b
    .ok (some r)
  else if c = '^' then do
    match ← Frac.tryEval env b with
    | none => .ok none
    | some power => do
      if ← Real.isRational env.toEnv power then do
        let q ← Frac.toRational env.toEnv b
        let r ← Frac.pow env a q
        .ok (some r)
      else .ok none
  else .throw unreachable

/-- `try_eval()` (expr.hpp 98-132); `none` is the null pointer. -/
def tryEval : Node → Res (Option Frac)
  | .frac f => .ok (some f)
  | .op c l r => do
    let lv ← tryEval l
    let rv ← tryEval r
    match lv, rv with
    | some a, some b => evalOp env c a b
    | _, _ => .ok none

/-- `normalize()` (expr.hpp 168-215). -/
def normalize : Node → Res Node
  | .frac f => .ok (.frac f)
  | .op c l r => do
    let lv ← tryEval env l
    let rv ← tryEval env r
    match lv, rv with
    | some a, some b =>
      if c = '+' then do
        let x ← Frac.add env a b
        .ok (.frac x)
      else if c = '-' then do
        let x ← Frac.sub env a b
        .ok (.frac x)
      else if c = '*' then do
        let x ← Frac.mul env a b
        .ok (.frac x)
      else if c = '/' then do
        let x ← Frac.div env a b
        .ok (.frac x)
      else if c = '^' then do
        let power ← Frac.tryEval env b
        let q ← (match power with
          | none => .ok none
          | some p => do
            if ← Real.isRational env.toEnv p then do
              let q ← Real.toRational env.toEnv p
              .ok (some q)
            else .ok none : Res (Option Rational))
        match q with
        | none => do
          let l ← normalize l
          let r ← normalize r
          .ok (.op c l r)
        | some q => do
          let x ← Frac.pow env a q
          .ok (.frac x)
      else .throw unreachable
    | _, _ => do
      let r ← normalize r
      let l ← normalize l
      .ok (.op c l r)

/-- `substitute` (expr.hpp 84-96). -/
def substitute (e : List (List Char × Num.Real)) : Node → Res Node
  | .frac f => do
    let f ← Frac.substitute env e f
    .ok (.frac f)
  | .op c l r => do
    let l ← substitute e l
    let r ← substitute e r
    normalize env (.op c l r)

/-- the condition on the operator of the left child in `withparen(true)` (expr.hpp 325-336). -/
def leftParen (op leftop : Char) : Bool :=
  if op = '*' ∨ op = '/' then leftop == '+' || leftop == '-'
  else if op = '^' then true
  else false

/-- the condition on the operator of the right child in `withparen(false)` (expr.hpp 348-366). -/
def rightParen (op rightop : Char) : Bool :=
  if op = '*' then rightop == '+' || rightop == '-'
  else if op = '/' then rightop == '+' || rightop == '-' || rightop == '*' || rightop == '/'
  else if op = '-' then rightop == '+' || rightop == '-'
  else if op = '^' then true
  else false

/-- `withparen(true)` of a node with operator `op` and left child `l` (expr.hpp 312-337, 368). -/
def withParenL (env : Env) (op : Char) : Node → Res Bool
  | .frac f => Frac.outputNeedParen env f
  | .op c _ _ => .ok (leftParen op c)

/-- `withparen(false)` of a node with operator `op` and right child `r` (expr.hpp 338-368). -/
def withParenR (env : Env) (op : Char) : Node → Res Bool
  | .frac f => Frac.outputNeedParen env f
  | .op c _ _ => .ok (rightParen op c)

/-- `"(" + s + ")"` or `s`. -/
def wrap (b : Bool) (s : List Char) : List Char := if b then ['('] ++ s ++ [')'] else s

/-- `to_string` (expr.hpp 217-242). -/
def toStr (env : Env) : Node → Res (List Char)
  | .frac f => Frac.toStr env f
  | .op c l r => do
    let pl ← withParenL env c l
    let a ← toStr env l
    let pr ← withParenR env c r
    let b ← toStr env r
    .ok (wrap pl a ++ [c] ++ wrap pr b)

end Node
end Symxx.Sym
