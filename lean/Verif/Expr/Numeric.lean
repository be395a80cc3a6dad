import Verif.Expr.Model
import Verif.Num.Output
/-!
# Model of the evaluation in `long double` (num.hpp 273-277, 659-677, frac.hpp 175-190, 531-546, 895-902, expr.hpp 134-166)

The floating-point types are abstract (`Flt`): values and operations, including infinities and NaN, are whatever the platform
makes of them; what is assumed about their accuracy is said in `Verif/Expr/NumericSpec.lean`. A null pointer is `none`.
-/
namespace Symxx.Num

/-- the types `double` (`D`) and `long double` (`LD`) with the operations the code uses (num.hpp 276, 675-676, 690-692,
frac.hpp 182, 538, 899, expr.hpp 150-158): conversion of integers, `/` and `std::pow` of doubles, widening, truncation to an
integer (out of range is undefined), and `+ - * / std::pow` of long doubles. -/
structure Flt where
  D : Type
  LD : Type
  dOfInt : Int → D
  dDiv : D → D → D
  dPow : D → D → D
  dTrunc : D → Res Int
  widen : D → LD
  ofInt : Int → LD
  add : LD → LD → LD
  sub : LD → LD → LD
  mul : LD → LD → LD
  div : LD → LD → LD
  pow : LD → LD → LD

/-- x86-64: `double` with 53 and `long double` with 64 significant bits, rounded to nearest even, `none` for every value that is
not finite. Powers with a fractional exponent are left out; this is a computable instance for the examples only. -/
def flt64 : Flt where
  D := Option ℚ
  LD := Option ℚ
  dOfInt n := some (rndEven 53 n)
  dDiv a b := do
    let x ← a
    let y ← b
    if y = 0 then none else some (rndEven 53 (x / y))
  dPow a b := do
    let x ← a
    let y ← b
    let r ← powQ x y
    some (rndEven 53 r)
  dTrunc a := match a with
    | some x => chk 9223372036854775807 (FloatFmt.trunc x)
    | none => .ub "out of range"
  widen a := a
  ofInt n := some (rndEven 64 n)
  add a b := do
    let x ← a
    let y ← b
    some (rndEven 64 (x + y))
  sub a b := do
    let x ← a
    let y ← b
    some (rndEven 64 (x - y))
  mul a b := do
    let x ← a
    let y ← b
    some (rndEven 64 (x * y))
  div a b := do
    let x ← a
    let y ← b
    if y = 0 then none else some (rndEven 64 (x / y))
  pow a b := do
    let x ← a
    let y ← b
    let r ← powQ x y
    some (rndEven 64 r)

variable (F : Flt)

/-- `Rational::to<long double>()` (num.hpp 273-277). -/
def Rational.toLD (q : Rational) : F.LD := F.div (F.ofInt q.num) (F.ofInt q.den)

/-- `Rational::to<double>()` (num.hpp 273-277). -/
def Rational.toD (q : Rational) : F.D := F.dDiv (F.dOfInt q.num) (F.dOfInt q.den)

/-- `adapter_pow(radicand.template to<double>(), 1.0 / static_cast<double>(index))` (num.hpp 676, 691-692,
int_adapter.hpp 55-59): a double, whatever the result type is. -/
def Real.rootD (r : Real) : F.D := F.dPow (r.rad.toD F) (F.dDiv (F.dOfInt 1) (F.dOfInt (r.index : Int)))

/-- `Real::to<long double>()` (num.hpp 659-677). -/
def Real.toLD (r : Real) : F.LD := F.mul (r.coe.toLD F) (F.widen (r.rootD F))

end Symxx.Num

namespace Symxx.Sym
open Symxx.Num
variable (F : Flt)

/-- `v.find(name)` (frac.hpp 180): `v` is a `std::map`, an association list with unique keys. -/
def findLD (v : List (List Char × F.LD)) (x : List Char) : Option F.LD := (v.find? fun p => p.1 = x).map (·.2)

/-- the loop of `Term::try_eval(v)` (frac.hpp 178-188). -/
def Syms.tryEvalLD (v : List (List Char × F.LD)) : Syms → F.LD → Option F.LD
  | [], r => some r
  | p :: t, r =>
    match findLD F v p.1 with
    | some a => tryEvalLD v t (F.mul r (F.pow a (p.2.toLD F)))
    | none => none

/-- `Term::try_eval(v)` (frac.hpp 175-190). -/
def Term.tryEvalLD (v : List (List Char × F.LD)) (t : Term) : Option F.LD := Syms.tryEvalLD F v t.syms (t.coe.toLD F)

/-- the loop of `Poly::try_eval(v)` (frac.hpp 534-544). -/
def Poly.tryEvalLDLoop (v : List (List Char × F.LD)) : Poly → F.LD → Option F.LD
  | [], r => some r
  | t :: ts, r =>
    match t.tryEvalLD F v with
    | some a => tryEvalLDLoop v ts (F.add r a)
    | none => none

/-- `Poly::try_eval(v)` (frac.hpp 531-546). -/
def Poly.tryEvalLD (v : List (List Char × F.LD)) (p : Poly) : Option F.LD := Poly.tryEvalLDLoop F v p (F.ofInt 0)

/-- `Frac::try_eval(v)` (frac.hpp 895-902). -/
def Frac.tryEvalLD (v : List (List Char × F.LD)) (a : Frac) : Option F.LD :=
  match a.num.tryEvalLD F v, a.den.tryEvalLD F v with
  | some n, some d => some (F.div n d)
  | _, _ => none

namespace Node

/-- the `switch` of `try_eval(v)` (expr.hpp 147-165). -/
def numOp (c : Char) (a b : F.LD) : Res (Option F.LD) :=
  if c = '+' then .ok (some (F.add a b))
  else if c = '-' then .ok (some (F.sub a b))
  else if c = '*' then .ok (some (F.mul a b))
  else if c = '/' then .ok (some (F.div a b))
  else if c = '^' then .ok (some (F.pow a b))
  else .throw unreachable

/-- `ExprNode::try_eval(v)` (expr.hpp 134-166). As in the code, both operands are evaluated twice: the variables of the `if`
(line 143) hide those of lines 141-142. -/
def tryEvalLD (v : List (List Char × F.LD)) : Node → Res (Option F.LD)
  | .frac f => .ok (f.tryEvalLD F v)
  | .op c l r => do
    let lv ← tryEvalLD v l
    let rv ← tryEvalLD v r
    let lv' ← tryEvalLD v l
    let rv' ← tryEvalLD v r
    match lv', rv' with
    | some _, some _ =>
      match lv, rv with
      | some a, some b => numOp F c a b
      | _, _ => .ub "*nullptr"
    | _, _ => .ok none

end Node
end Symxx.Sym
