import Verif.Expr.Model
/-!
# Model of `to_tex` (num.hpp 314-326, 638-657, frac.hpp 279-323, 692-724, 995-1004, expr.hpp 244-299)
-/
namespace Symxx.Num

/-- `Real::to_tex` (num.hpp 638-657). -/
def Real.toTex (env : Env) (a : Real) : Res (List Char) := do
  if ← Rational.eqInt env.M a.coe 0 then .ok ['0']
  else if ← isRational env a then .ok a.coe.toTex
  else do
    let one ← Rational.eqInt env.M a.coe 1
    let mone ← (if one then .ok false else Rational.eqInt env.M a.coe (-1))
    let c := if one then [] else if mone then ['-'] else a.coe.toTex
    .ok (c ++ (if a.index ≠ 2 then "\\sqrt[n".toList ++ (toString a.index).toList ++ "]{".toList ++ a.rad.toTex ++ ['}']
      else "\\sqrt{".toList ++ a.rad.toTex ++ ['}']))

end Symxx.Num

namespace Symxx.Sym
open Symxx.Num

namespace Term

/-- one symbol (frac.hpp 298-320). -/
def symTex (env : Env) (p : List Char × Rational) : Res (List Char) := do
  let one ← Rational.eqInt env.M p.2 1
  .ok (if !one then
      (if p.1.length ≠ 1 then ['\\'] ++ p.1 else p.1) ++ ['^', '{'] ++ p.2.toTex ++ ['}']
    else if p.1.length ≠ 1 then ['\\'] ++ p.1 ++ [' '] else p.1)

/-- all symbols (frac.hpp 296-321). -/
def symsTex (env : Env) : Syms → Res (List Char)
  | [] => .ok []
  | p :: t => do
    let a ← symTex env p
    let b ← symsTex env t
    .ok (a ++ b)

/-- `to_tex` (frac.hpp 279-323). -/
def toTex (env : Env) (a : Term) : Res (List Char) := do
  if ← coeIs env a.coe 0 then .ok ['0']
  else do
    let one ← coeIs env a.coe 1
    let head ← (if !one || a.syms.isEmpty then do
        let mone ← coeIs env a.coe (-1)
        if mone && !a.syms.isEmpty then .ok ['-'] else Real.toTex env a.coe
      else .ok [] : Res (List Char))
    let s ← symsTex env a.syms
    .ok (head ++ s)

end Term

namespace Poly

/-- the loop of `to_tex` (frac.hpp 699-722). -/
def texLoop (env : Env) : Poly → Bool → Res (List Char)
  | [], _ => .ok []
  | t :: ts, first => do
    if ← Term.coeIs env t.coe 0 then texLoop env ts first
    else if first then do
      let a ← t.toTex env
      let b ← texLoop env ts false
      .ok (a ++ b)
    else if !(← t.isPositive env) then do
      let n ← t.negate env
      let a ← n.toTex env
      let b ← texLoop env ts false
      .ok (['-'] ++ a ++ b)
    else do
      let a ← t.toTex env
      let b ← texLoop env ts false
      .ok (['+'] ++ a ++ b)

/-- `to_tex` (frac.hpp 692-724). -/
def toTex (env : Env) (p : Poly) : Res (List Char) := do
  if p.isEmpty then .ok ['0']
  else if (← nonzeros env p) = 0 then .ok ['0']
  else texLoop env p true

end Poly

/-- `Frac::to_tex` (frac.hpp 995-1004). -/
def Frac.toTex (env : Env) (a : Frac) : Res (List Char) := do
  if a.num.isEmpty then .ok ['0']
  else if ← denIsOne env a.den then Poly.toTex env a.num
  else do
    let n ← Poly.toTex env a.num
    let d ← Poly.toTex env a.den
    .ok ("\\frac{".toList ++ n ++ "}{".toList ++ d ++ ['}'])

namespace Node

/-- what is written before the left operand (expr.hpp 254-257). -/
def texOpen (c : Char) : List Char := if c = '/' then "\\frac{".toList else []
/-- what is written between the operands (expr.hpp 267-282); nothing for another operator. -/
def texMid (c : Char) : List Char :=
  if c = '/' then "}{".toList
  else if c = '+' ∨ c = '-' then [c]
  else if c = '*' then "\\times ".toList
  else if c = '^' then "^{".toList
  else []
/-- what is written after the right operand (expr.hpp 293-296). -/
def texClose (c : Char) : List Char := if c = '/' ∨ c = '^' then ['}'] else []

/-- `ExprNode::to_tex` (expr.hpp 244-299). -/
def toTex (env : Env) : Node → Res (List Char)
  | .frac f => Frac.toTex env f
  | .op c l r => do
    let pl ← withParenL env c l
    let a ← toTex env l
    let pr ← withParenR env c r
    let b ← toTex env r
    .ok (texOpen c ++ wrap pl a ++ texMid c ++ wrap pr b ++ texClose c)

end Node
end Symxx.Sym
