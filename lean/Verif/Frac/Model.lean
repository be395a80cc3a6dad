import Verif.Num.Real
import Mathlib.Data.Char
import Mathlib.Data.List.Lex
import Mathlib.Data.Nat.Factorial.Basic
/-!
# Model of `Term`, `Poly`, `Frac` (frac.hpp)

`std::map<std::string, Rational>` is an association list sorted by key. `std::sort` (frac.hpp 611-626)
is a parameter of the environment: any function that returns a permutation of its argument is a
possible outcome; the comparator is modelled separately (`Term.before`) and used for the concrete
instance of the examples. The conversions to floating point (`to<U>`, `try_eval(map)`) are in `Verif/Expr/Numeric.lean`,
`Term::operator<` (frac.hpp 76-102), which the library does not call, in `Verif/Frac/TermLess.lean`. An exception leaves the object that was
being modified behind in an unspecified state; the model only says that the call fails.
-/
namespace Symxx.Sym
open Symxx.Num

/-- `std::map<std::string, Rational<T>>` (frac.hpp 35). -/
abbrev Syms := List (List Char × Rational)

/-- class `Term` (frac.hpp 31-35). -/
structure Term where
  coe : Num.Real
  syms : Syms
  deriving Repr, DecidableEq

/-- class `Poly` (frac.hpp 368-371). -/
abbrev Poly := List Term

/-- class `Frac` (frac.hpp 736-740). -/
structure Frac where
  num : Poly
  den : Poly
  deriving Repr, DecidableEq

/-- the environment: that of `Real`, and the outcome of `std::sort`. -/
structure FEnv extends Env where
  sort : Poly → Res Poly

/-! ### symbol maps -/

namespace Syms

/-- find, then insert or `+=` (frac.hpp 113-117). -/
def addExp (M : Int) : Syms → List Char → Rational → Res Syms
  | [], k, v => .ok [(k, v)]
  | (k', v') :: t, k, v =>
    if k < k' then .ok ((k, v) :: (k', v') :: t)
    else if k = k' then do
      let s ← Rational.add M v' v
      .ok ((k', s) :: t)
    else do
      let t ← addExp M t k v
      .ok ((k', v') :: t)

/-- `for (auto &r: t.symbols)` (frac.hpp 111-118). -/
def merge (M : Int) : Syms → Syms → Res Syms
  | s, [] => .ok s
  | s, (k, v) :: t => do
    let s ← addExp M s k v
    merge M s t

/-- `r.second *= t` for every symbol (frac.hpp 149-152). -/
def scale (M : Int) (q : Rational) : Syms → Res Syms
  | [] => .ok []
  | (k, v) :: t => do
    let v ← Rational.mul M v q
    let t ← scale M q t
    .ok ((k, v) :: t)

/-- `operator==` of `std::map`: same size, then elementwise (used in frac.hpp 106, 203, 613). -/
def eqGo (M : Int) : Syms → Syms → Res Bool
  | (k, v) :: s, (k', v') :: t =>
    if k = k' then do
      if ← Rational.eq M v v' then eqGo M s t else .ok false
    else .ok false
  | _, _ => .ok true

/-- `operator==` of `std::map` (used in frac.hpp 106, 203, 613). -/
def eq (M : Int) (s t : Syms) : Res Bool := if s.length = t.length then eqGo M s t else .ok false

/-- `operator<` of `std::map` (lexicographic; used in frac.hpp 615). -/
def lt (M : Int) : Syms → Syms → Res Bool
  | [], [] => .ok false
  | [], _ :: _ => .ok true
  | _ :: _, [] => .ok false
  | (k, v) :: s, (k', v') :: t =>
    if k < k' then .ok true
    else if k' < k then .ok false
    else do
      if ← Rational.lt M v v' then .ok true
      else if ← Rational.lt M v' v then .ok false
      else lt M s t

/-- the erasing loop of `Term::normalize` (frac.hpp 216-225). -/
def dropZero (M : Int) : Syms → Res Syms
  | [] => .ok []
  | (k, v) :: t => do
    let z ← Rational.eqInt M v 0
    let t ← dropZero M t
    .ok (if z then t else (k, v) :: t)

end Syms

/-! ### terms -/

namespace Term

/-- `Term(Real, map)` (frac.hpp 38-46). -/
def mk' (env : Env) (c : Num.Real) (s : Syms) : Res Term := do
  let s ← Syms.dropZero env.M s
  .ok ⟨c, s⟩

/-- `Term(Real, std::string)` (frac.hpp 48-49). -/
def ofSym (env : Env) (c : Num.Real) (x : List Char) : Res Term := do
  let one ← Rational.ofInt env.M 1
  .ok ⟨c, [(x, one)]⟩

/-- `Term(Real)` (frac.hpp 51-52). -/
def ofReal (c : Num.Real) : Term := ⟨c, []⟩

/-- `Term(n)` for an integer: conversion to `Real` first (frac.hpp 51-52, num.hpp 395-396). -/
def ofInt (env : Env) (n : Int) : Res Term := do
  let c ← Real.ofInt env n
  .ok (ofReal c)

/-- `e->find(x)`. -/
def lookup (e : List (List Char × Num.Real)) (x : List Char) : Option Num.Real :=
  (e.find? fun p => p.1 = x).map (·.2)

/-- the first loop of `substitute` (frac.hpp 59-66). -/
def substLoop (env : Env) (e : List (List Char × Num.Real)) : Syms → Num.Real → Res Num.Real
  | [], c => .ok c
  | (k, v) :: t, c =>
    match lookup e k with
    | some x => do
      let p ← Real.pow env x v
      let c ← Real.mul env c p
      substLoop env e t c
    | none => substLoop env e t c

/-- `substitute` (frac.hpp 57-75): the second loop erases every name bound in `e`. -/
def substitute (env : Env) (e : List (List Char × Num.Real)) (t : Term) : Res Term := do
  let c ← substLoop env e t.syms t.coe
  .ok ⟨c, t.syms.filter fun p => !(e.any fun q => q.1 = p.1)⟩

/-- `operator*=`, `operator*` (frac.hpp 109-129). -/
def mul (env : Env) (a b : Term) : Res Term := do
  let s ← Syms.merge env.M a.syms b.syms
  let c ← Real.mul env a.coe b.coe
  let s ← Syms.dropZero env.M s
  .ok ⟨c, s⟩

/-- `operator/=`, `operator/` (frac.hpp 131-143). -/
def divReal (env : Env) (a : Term) (r : Num.Real) : Res Term := do
  let c ← Real.div env a.coe r
  let s ← Syms.dropZero env.M a.syms
  .ok ⟨c, s⟩

/-- `pow` (frac.hpp 145-155). -/
def pow (env : Env) (a : Term) (q : Rational) : Res Term := do
  let c ← Real.pow env a.coe q
  let s ← Syms.scale env.M q a.syms
  let s ← Syms.dropZero env.M s
  .ok ⟨c, s⟩

/-- `negate` (frac.hpp 157-160). -/
def negate (env : Env) (a : Term) : Res Term := do
  let c ← Real.negate env a.coe
  mk' env c a.syms

/-- `no_symbols` (frac.hpp 227-230). -/
def noSymbols (a : Term) : Bool := a.syms.isEmpty

/-- `eval` (frac.hpp 169-173). -/
def eval (a : Term) : Res Num.Real := do
  Res.assert a.noSymbols "Term must not have symbols."
  .ok a.coe

/-- `try_eval()` (frac.hpp 192-197). -/
def tryEval (a : Term) : Option Num.Real := if a.noSymbols then some a.coe else none

/-- `operator==` (frac.hpp 104-107). -/
def eq (env : Env) (a b : Term) : Res Bool := do
  if ← Real.eq env a.coe b.coe then Syms.eq env.M a.syms b.syms else .ok false

/-- `is_equivalent_with` (frac.hpp 201-204). -/
def isEquivalentWith (env : Env) (a b : Term) : Res Bool := do
  if ← Syms.eq env.M a.syms b.syms then Real.isEquivalentWith env a.coe b.coe else .ok false

/-- comparison of a coefficient with an integer (`coe == 0` etc.: conversion to `Real`). -/
def coeIs (env : Env) (c : Num.Real) (k : Int) : Res Bool := do
  let x ← Real.ofInt env k
  Real.eq env c x

/-- `is_positive` (frac.hpp 199). -/
def isPositive (env : Env) (a : Term) : Res Bool := do
  let z ← Real.ofInt env 0
  Real.gt env a.coe z

/-- `is_rational` (frac.hpp 232-235). -/
def isRational (env : Env) (a : Term) : Res Bool :=
  if a.noSymbols then Real.isRational env a.coe else .ok false

/-- the text of one symbol (frac.hpp 250-275). -/
def symStr (env : Env) (p : List Char × Rational) : Res (List Char) := do
  let one ← Rational.eqInt env.M p.2 1
  let name := if p.1.length ≠ 1 then ['{'] ++ p.1 ++ ['}'] else p.1
  .ok (if !one then ['('] ++ name ++ ['*', '*'] ++ p.2.toStr ++ [')'] else name)

/-- the texts of all symbols (frac.hpp 250-275). -/
def symsStr (env : Env) : Syms → Res (List Char)
  | [] => .ok []
  | p :: t => do
    let a ← symStr env p
    let b ← symsStr env t
    .ok (a ++ b)

/-- `to_string` (frac.hpp 237-277). -/
def toStr (env : Env) (a : Term) : Res (List Char) := do
  if ← coeIs env a.coe 0 then .ok ['0']
  else do
    let one ← coeIs env a.coe 1
    let head ← (if !one || a.syms.isEmpty then do
        let mone ← coeIs env a.coe (-1)
        if mone && !a.syms.isEmpty then .ok ['-'] else Real.toStr env a.coe
      else .ok [] : Res (List Char))
    let s ← symsStr env a.syms
    .ok (head ++ s)

/-- the comparator of `Poly::normalize` (frac.hpp 611-626). -/
def before (env : Env) (a b : Term) : Res Bool := do
  if !(← Syms.eq env.M a.syms b.syms) then Syms.lt env.M b.syms a.syms
  else if a.coe.index ≠ b.coe.index then .ok (decide (a.coe.index > b.coe.index))
  else if ← Rational.ne env.M a.coe.rad b.coe.rad then Rational.gt env.M a.coe.rad b.coe.rad
  else Real.gt env a.coe b.coe

end Term

/-! ### compositions -/

/-- `solve_variable_eq_helper` (frac.hpp 335-344). -/
def solveHelper (n : Int) : List (Int × Int) := (List.range (n + 1).toNat).map fun i : Nat => ((i : Int), n - i)

/-- the loop of frac.hpp 355-363; `rec` is the recursive call. -/
def solveLoop (rec : Int → Res (List (List Int))) : List (Int × Int) → Res (List (List Int))
  | [] => .ok []
  | r :: t => do
    let l ← rec r.2
    let rest ← solveLoop rec t
    .ok (l.map (r.1 :: ·) ++ rest)

/-- `solve_variable_eq(n, m)` (frac.hpp 346-365); for `m < 2` the recursion does not end (`fuel`)
unless the loop is empty. -/
def solveEq : Nat → Int → Res (List (List Int))
  | 0, n => if n < 0 then .ok [] else .fuel
  | 1, n => if n < 0 then .ok [] else .fuel
  | 2, n => .ok ((solveHelper n).map fun p => [p.1, p.2])
  | m + 3, n => solveLoop (solveEq (m + 2)) (solveHelper n)

/-! ### polynomials -/

namespace Poly

/-- the merging loop of `normalize` (frac.hpp 627-639). -/
def mergeAdj (env : Env) : Poly → Res Poly
  | [] => .ok []
  | [t] => .ok [t]
  | a :: b :: rest => do
    if ← Term.isEquivalentWith env a b then do
      let c ← Real.add env a.coe b.coe
      let t ← Term.mk' env c a.syms
      mergeAdj env (t :: rest)
    else do
      let r ← mergeAdj env (b :: rest)
      .ok (a :: r)
termination_by p => p.length

variable (env : FEnv)

/-- `normalize` (frac.hpp 609-640). -/
def normalize (p : Poly) : Res Poly := do
  let p ← env.sort p
  mergeAdj env.toEnv p

/-- constructors (frac.hpp 374-384). -/
def mk' (p : Poly) : Res Poly := normalize env p

/-- `operator+=` (frac.hpp 386-391). -/
def addAssign (p q : Poly) : Res Poly := normalize env (p ++ q)

/-- the loop of `try_eval()` (frac.hpp 553-569). -/
def tryEvalLoop (env : Env) : Poly → Num.Real → Res (Option Num.Real)
  | [], r => .ok (some r)
  | t :: ts, r =>
    match t.tryEval with
    | none => .ok none
    | some x => do
      if ← Real.isEquivalentWith env r x then do
        let r ← Real.add env r x
        tryEvalLoop env ts r
      else .ok none

/-- `try_eval()` (frac.hpp 548-570). -/
def tryEval (env : Env) (p : Poly) : Res (Option Num.Real) := do
  let z ← Real.ofInt env 0
  tryEvalLoop env p z

/-- `operator+` (frac.hpp 393-402). -/
def add (p q : Poly) : Res Poly := do
  let a ← tryEval env.toEnv p
  let b ← tryEval env.toEnv q
  match a, b with
  | some a, some b => do
    let s ← Real.add env.toEnv a b
    mk' env [Term.ofReal s]
  | _, _ => addAssign env p q

/-- apply a fallible operation to every term. -/
def mapM (f : Term → Res Term) : Poly → Res Poly
  | [] => .ok []
  | t :: ts => do
    let t ← f t
    let ts ← mapM f ts
    .ok (t :: ts)

/-- `negate` (frac.hpp 502-508); no normalisation. -/
def negate (env : Env) (p : Poly) : Res Poly := mapM (Term.negate env) p

/-- `operator-=` (frac.hpp 404-409): normalises twice. -/
def subAssign (p q : Poly) : Res Poly := do
  let nq ← negate env.toEnv q
  let r ← addAssign env p nq
  normalize env r

/-- `operator-` (frac.hpp 411-420). -/
def sub (p q : Poly) : Res Poly := do
  let a ← tryEval env.toEnv p
  let b ← tryEval env.toEnv q
  match a, b with
  | some a, some b => do
    let s ← Real.sub env.toEnv a b
    mk' env [Term.ofReal s]
  | _, _ => subAssign env p q

/-- the two nested loops of `operator*=` (frac.hpp 425-431). -/
def products (env : Env) : Poly → Poly → Res Poly
  | [], _ => .ok []
  | x :: xs, q => do
    let a ← mapM (Term.mul env x) q
    let b ← products env xs q
    .ok (a ++ b)

/-- `operator*=` (frac.hpp 422-435). -/
def mulAssign (p q : Poly) : Res Poly := do
  let r ← products env.toEnv p q
  normalize env r

/-- `operator*` (frac.hpp 437-446). -/
def mul (p q : Poly) : Res Poly := do
  let a ← tryEval env.toEnv p
  let b ← tryEval env.toEnv q
  match a, b with
  | some a, some b => do
    let s ← Real.mul env.toEnv a b
    mk' env [Term.ofReal s]
  | _, _ => mulAssign env p q

/-- `operator/=` by a `Real` (frac.hpp 448-456). -/
def divReal (p : Poly) (r : Num.Real) : Res Poly := do
  let p ← mapM (fun t => Term.divReal env.toEnv t r) p
  normalize env p

/-- `for (pT t = 1; t <= i; ++t) i_factorial *= t;` (frac.hpp 477-481) on the unsigned type. -/
def factLoop (M : Int) : Nat → Int
  | 0 => 1
  | n + 1 => factLoop M n * ((n : Int) + 1) % (2 * (M + 1))

/-- `for (pT t = 1; t <= x; ++t) q /= t;` (frac.hpp 487-490). -/
def divFact (M : Int) : Nat → Rational → Res Rational
  | 0, q => .ok q
  | n + 1, q => do
    let q ← divFact M n q
    let t ← Rational.ofInt M ((n : Int) + 1)
    Rational.div M q t

/-- `for (auto &x: avec)` (frac.hpp 485-491). -/
def divFacts (M : Int) : List Int → Rational → Res Rational
  | [], q => .ok q
  | x :: xs, q => do
    let q ← divFact M x.toNat q
    divFacts M xs q

/-- the loop over `k` (frac.hpp 493-496). -/
def powerProd (env : Env) : Poly → List Int → Term → Res Term
  | t :: ts, a :: as, acc => do
    let e ← Rational.ofInt env.M a
    let x ← Term.pow env t e
    let acc ← Term.mul env acc x
    powerProd env ts as acc
  | _, _, acc => .ok acc

/-- one term of the expansion (frac.hpp 484-497). -/
def expandOne (env : Env) (p : Poly) (fact : Int) (avec : List Int) : Res Term := do
  let q ← Rational.ofInt env.M (wrap env.M fact)
  let q ← divFacts env.M avec q
  let c ← Real.ofRational env q
  powerProd env p avec (Term.ofReal c)

/-- `for (auto &avec: avecvec)` (frac.hpp 482-498). -/
def expand (env : Env) (p : Poly) (fact : Int) : List (List Int) → Res Poly
  | [] => .ok []
  | v :: vs => do
    let t ← expandOne env p fact v
    let ts ← expand env p fact vs
    .ok (t :: ts)

/-- `pow` (frac.hpp 466-500). For a negative exponent the enumeration is empty. (`noWrap` is not in the code and does
nothing outside the strict environment of the proofs.) -/
def pow (p : Poly) (i : Rational) : Res Poly := do
  if ← Rational.eqInt env.M i 0 then do
    let t ← Term.ofInt env.toEnv 1
    mk' env [t]
  else if ← Rational.eqInt env.M i 1 then .ok p
  else match p with
    | [t] => do
      let t ← Term.pow env.toEnv t i
      mk' env [t]
    | _ => do
      match ← tryEval env.toEnv p with
      | some a => do
        let x ← Real.pow env.toEnv a i
        mk' env [Term.ofReal x]
      | none => do
        Res.assert i.isInt "Must be a int."
        let n ← Rational.toT env.M i
        env.noWrap ((n.toNat.factorial : Int) ≤ env.M)
        let vs ← solveEq p.length n
        let res ← expand env.toEnv p (factLoop env.M n.toNat) vs
        mk' env res

/-- the loop of `eval` (frac.hpp 524-527). -/
def evalLoop (env : Env) : Poly → Num.Real → Res Num.Real
  | [], r => .ok r
  | t :: ts, r => do
    let x ← t.eval
    let r ← Real.add env r x
    evalLoop env ts r

/-- `eval` (frac.hpp 521-529). -/
def eval (env : Env) (p : Poly) : Res Num.Real := do
  let z ← Real.ofInt env 0
  evalLoop env p z

/-- `no_symbols` (frac.hpp 572-582). -/
def noSymbols (p : Poly) : Bool := p.all Term.noSymbols

/-- `operator==` (frac.hpp 596-599): `std::vector` equality. -/
def eqGo (env : Env) : Poly → Poly → Res Bool
  | a :: s, b :: t => do
    if ← Term.eq env a b then eqGo env s t else .ok false
  | _, _ => .ok true

/-- `operator==` (frac.hpp 596-599). -/
def eq (env : Env) (p q : Poly) : Res Bool := if p.length = q.length then eqGo env p q else .ok false

/-- `substitute` (frac.hpp 601-607); no normalisation. -/
def substitute (env : Env) (e : List (List Char × Num.Real)) (p : Poly) : Res Poly := mapM (Term.substitute env e) p

/-- `is_zero` (frac.hpp 642-652). -/
def isZero (env : Env) : Poly → Res Bool
  | [] => .ok true
  | t :: ts => do
    if ← Term.coeIs env t.coe 0 then isZero env ts else .ok false

/-- `std::count_if` (frac.hpp 661). -/
def nonzeros (env : Env) : Poly → Res Nat
  | [] => .ok 0
  | t :: ts => do
    let z ← Term.coeIs env t.coe 0
    let n ← nonzeros env ts
    .ok (if z then n else n + 1)

/-- the loop of `to_string` (frac.hpp 665-688); `first` as in the code. -/
def strLoop (env : Env) : Poly → Bool → Res (List Char)
  | [], _ => .ok []
  | t :: ts, first => do
    if ← Term.coeIs env t.coe 0 then strLoop env ts first
    else if first then do
      let a ← t.toStr env
      let b ← strLoop env ts false
      .ok (a ++ b)
    else if !(← t.isPositive env) then do
      let n ← t.negate env
      let a ← n.toStr env
      let b ← strLoop env ts false
      .ok (['-'] ++ a ++ b)
    else do
      let a ← t.toStr env
      let b ← strLoop env ts false
      .ok (['+'] ++ a ++ b)

/-- `to_string` (frac.hpp 658-690). -/
def toStr (env : Env) (p : Poly) : Res (List Char) := do
  if p.isEmpty then .ok ['0']
  else if (← nonzeros env p) = 0 then .ok ['0']
  else strLoop env p true

end Poly

/-! ### fractions -/

namespace Frac
variable (env : FEnv)

/-- the products of denominators (frac.hpp 908-916). -/
def multLoop (M : Int) : Poly → Int → Res Int
  | [], m => .ok m
  | t :: ts, m => do
    let m ← chk M (m * t.coe.coe.den)
    multLoop M ts m

/-- `r *= Term<T>{mult}` for every term (frac.hpp 917-924). -/
def scaleAll (env : Env) (mult : Int) (p : Poly) : Res Poly :=
  Poly.mapM (fun t => do
    let m ← Term.ofInt env mult
    Term.mul env t m) p

/-- the inner loop (frac.hpp 930-941): `none` is the early `return`. -/
def gcdInner (M : Int) (n : Term) : Poly → Int → Res (Option Int)
  | [], g => .ok (some g)
  | d :: ds, g => do
    let x ← Rational.toT M n.coe.coe
    let y ← Rational.toT M d.coe.coe
    let ng ← gcdT M x y
    if ng = 0 then .ub "% 0"
    else if g.tmod ng = 0 then gcdInner M n ds (min g ng)
    else .ok none

/-- the outer loop (frac.hpp 928-942). -/
def gcdOuter (M : Int) (den : Poly) : Poly → Int → Res (Option Int)
  | [], g => .ok (some g)
  | n :: ns, g => do
    match ← gcdInner M n den.tail g with
    | none => .ok none
    | some g => gcdOuter M den ns g

/-- `normalize` (frac.hpp 904-945); `get_poly()[0]` of an empty polynomial is undefined. -/
def normalize (f : Frac) : Res Frac := do
  let num ← Poly.normalize env f.num
  let den ← Poly.normalize env f.den
  let m ← multLoop env.M den 1
  let m ← multLoop env.M num m
  let num ← scaleAll env.toEnv m num
  let den ← scaleAll env.toEnv m den
  match num, den with
  | n0 :: _, d0 :: _ => do
    let x ← Rational.toT env.M n0.coe.coe
    let y ← Rational.toT env.M d0.coe.coe
    let g ← gcdT env.M x y
    match ← gcdOuter env.M den num g with
    | none => .ok ⟨num, den⟩
    | some g => do
      let gr ← Real.ofInt env.toEnv g
      let num ← Poly.divReal env num gr
      let den ← Poly.divReal env den gr
      .ok ⟨num, den⟩
  | _, _ => .ub "index out of range"

/-- the denominator `{Term<T>{1}}` (frac.hpp 744, 750, 756). -/
def onePoly : Res Poly := do
  let t ← Term.ofInt env.toEnv 1
  Poly.mk' env [t]

/-- `Frac(const Poly &)` (frac.hpp 755-759). -/
def ofPoly (p : Poly) : Res Frac := do
  let d ← onePoly env
  normalize env ⟨p, d⟩

/-- `Frac(const Term &)` (frac.hpp 749-753). -/
def ofTerm (t : Term) : Res Frac := do
  let p ← Poly.mk' env [t]
  ofPoly env p

/-- `Frac(const Real &)` (frac.hpp 743-747). -/
def ofReal (r : Num.Real) : Res Frac := ofTerm env (Term.ofReal r)

/-- `Frac(const Poly &, const Poly &)` (frac.hpp 761-766). -/
def mk2 (n d : Poly) : Res Frac := do
  let z ← Poly.isZero env.toEnv d
  Res.assert (!z) divisionByZero
  normalize env ⟨n, d⟩

/-- `operator+=`, `operator+` (frac.hpp 777-798); equal denominators are not normalised. -/
def add (a b : Frac) : Res Frac := do
  if ← Poly.eq env.toEnv a.den b.den then do
    let n ← Poly.addAssign env a.num b.num
    .ok ⟨n, a.den⟩
  else do
    let x ← Poly.mul env a.num b.den
    let y ← Poly.mul env b.num a.den
    let n ← Poly.add env x y
    let d ← Poly.mulAssign env a.den b.den
    normalize env ⟨n, d⟩

/-- `negate` (frac.hpp 947-950). -/
def negate (a : Frac) : Res Frac := do
  let n ← Poly.negate env.toEnv a.num
  mk2 env n a.den

/-- `operator-` (frac.hpp 807-810). -/
def sub (a b : Frac) : Res Frac := do
  let nb ← negate env b
  add env a nb

/-- `operator-=` (frac.hpp 800-805). -/
def subAssign (a b : Frac) : Res Frac := do
  let nb ← negate env b
  let r ← add env a nb
  normalize env r

/-- `operator*=`, `operator*` (frac.hpp 812-825). -/
def mul (a b : Frac) : Res Frac := do
  let n ← Poly.mulAssign env a.num b.num
  let d ← Poly.mulAssign env a.den b.den
  normalize env ⟨n, d⟩

/-- `operator/=`, `operator/` (frac.hpp 827-841). -/
def div (a b : Frac) : Res Frac := do
  let z ← Poly.isZero env.toEnv b.num
  Res.assert (!z) divisionByZero
  let n ← Poly.mulAssign env a.num b.den
  let d ← Poly.mulAssign env a.den b.num
  normalize env ⟨n, d⟩

/-- `inverse` (frac.hpp 952). -/
def inverse (a : Frac) : Res Frac := mk2 env a.den a.num

/-- `try_eval()` (frac.hpp 883-893). -/
def tryEval (a : Frac) : Res (Option Num.Real) := do
  let n ← Poly.tryEval env.toEnv a.num
  let d ← Poly.tryEval env.toEnv a.den
  match n, d with
  | some n, some d => do
    let r ← Real.div env.toEnv n d
    .ok (some r)
  | _, _ => .ok none

/-- `eval` (frac.hpp 878-881). -/
def eval (a : Frac) : Res Num.Real := do
  let n ← Poly.eval env.toEnv a.num
  let d ← Poly.eval env.toEnv a.den
  Real.div env.toEnv n d

/-- `pow` (frac.hpp 844-852). -/
def pow (a : Frac) (i : Rational) : Res Frac := do
  match ← tryEval env a with
  | some r => do
    let x ← Real.pow env.toEnv r i
    ofReal env x
  | none => do
    let n ← Poly.pow env a.num i
    let d ← Poly.pow env a.den i
    normalize env ⟨n, d⟩

/-- `substitute` (frac.hpp 854-860): the check comes after the normalisation. -/
def substitute (e : List (List Char × Num.Real)) (a : Frac) : Res Frac := do
  let n ← Poly.substitute env.toEnv e a.num
  let d ← Poly.substitute env.toEnv e a.den
  let r ← normalize env ⟨n, d⟩
  let z ← Poly.isZero env.toEnv r.den
  Res.assert (!z) divisionByZero
  .ok r

/-- `no_symbols` (frac.hpp 862-865). -/
def noSymbols (a : Frac) : Bool := Poly.noSymbols a.num && Poly.noSymbols a.den

/-- the condition of frac.hpp 956-957 and 967-968. -/
def denIsOne (env : Env) (d : Poly) : Res Bool :=
  match d with
  | [t] => do
    if ← Term.coeIs env t.coe 1 then .ok t.noSymbols else .ok false
  | _ => .ok false

/-- `output_need_paren` (frac.hpp 954-962). -/
def outputNeedParen (env : Env) (a : Frac) : Res Bool := do
  let b ← denIsOne env a.den
  .ok (!b)

/-- `to_string` (frac.hpp 964-993). -/
def toStr (env : Env) (a : Frac) : Res (List Char) := do
  if a.num.isEmpty then .ok ['0']
  else if ← denIsOne env a.den then Poly.toStr env a.num
  else do
    let n ← Poly.toStr env a.num
    let d ← Poly.toStr env a.den
    let n := if a.num.length ≠ 1 then ['('] ++ n ++ [')'] else n
    let d := if a.den.length ≠ 1 then ['('] ++ d ++ [')'] else d
    .ok (n ++ ['/'] ++ d)

end Frac
end Symxx.Sym
