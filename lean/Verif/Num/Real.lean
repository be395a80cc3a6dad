import Verif.Num.Rational
/-!
# Model of `decompose_radicand` and of class `Real<T>` (num.hpp 337-724)
-/
namespace Symxx.Num

/-- everything outside the integer code that a `Real` computation depends on: the maximum `M` of `T`,
the floating-point steps, the outcome of `factorize` (the multiset in its iteration order, i.e.
sorted; by C25 it does not depend on the random draws), and the value `junk` obtained when
`factors.begin()->first` reads the end node of an empty map (num.hpp 567). -/
structure Env where
  M : Int
  fl : Fl
  fac : Int → Res (List Nat)
  junk : Int
  strict : Bool := false

/-- not in the code: the code runs with `strict = false`, where this does nothing. The proofs use a
strict environment to single out the runs in which no unsigned integer wraps around. -/
def Env.noWrap (env : Env) (b : Prop) [Decidable b] : Res Unit :=
  if env.strict = true ∧ ¬ b then .exn "wrap-around" else .ok ()

theorem Env.noWrap_ok (env : Env) {b : Prop} [Decidable b] (h : b) : env.noWrap b = .ok () := if_neg fun hc => hc.2 h

/-- `std::map<unsigned, std::vector<T>>` (num.hpp 350): association list sorted by key. -/
abbrev FMap := List (Nat × List Nat)

/-- find-or-insert (num.hpp 363-371). -/
def FMap.push : FMap → Nat → Nat → FMap
  | [], k, v => [(k, [v])]
  | (k', vs) :: t, k, v =>
    if k < k' then (k, [v]) :: (k', vs) :: t
    else if k = k' then (k', vs ++ [v]) :: t
    else (k', vs) :: FMap.push t k v

/-- the loop over the sorted factors (num.hpp 353-374). -/
def runLoop : List Nat → Nat → FMap → FMap
  | [], _, m => m
  | [x], e, m => m.push e x
  | x :: y :: t, e, m => if x = y then runLoop (y :: t) (e + 1) m else runLoop (y :: t) 1 (m.push e x)

/-- `decompose_radicand` (num.hpp 347-376). -/
def decompose (env : Env) (num : Int) : Res FMap := do
  let fs ← env.fac num
  .ok (runLoop fs 1 [])

/-- class `Real` (num.hpp 379-386). -/
structure Real where
  index : Nat
  rad : Rational
  coe : Rational
  deriving Repr, DecidableEq

namespace Real

/-- `for (auto &i: r.second) { rad /= adapter_pow(i, index); coe *= i; }` (num.hpp 553-557). -/
def stripVals (env : Env) (index : Nat) : List Nat → Int → Rational → Res (Int × Rational)
  | [], rad, coe => .ok (rad, coe)
  | i :: is, rad, coe => do
    let rad ← env.fl.divPow rad i index
    let ri ← Rational.ofInt env.M i
    let coe ← Rational.mul env.M coe ri
    stripVals env index is rad coe

/-- `while (exp >= index)` (num.hpp 551-559); for `index = 0` it does not terminate (`fuel`). -/
def stripWhile (env : Env) (index : Nat) (vs : List Nat) : Nat → Nat → Int → Rational → Res (Int × Rational)
  | 0, _, _, _ => .fuel
  | f + 1, exp, rad, coe =>
    if exp ≥ index then do
      let (rad, coe) ← stripVals env index vs rad coe
      stripWhile env index vs f (exp - index) rad coe
    else .ok (rad, coe)

/-- `for (auto &r: factors)` (num.hpp 548-560). -/
def stripAll (env : Env) (index : Nat) : FMap → Int → Rational → Res (Int × Rational)
  | [], rad, coe => .ok (rad, coe)
  | (exp, vs) :: t, rad, coe => do
    let (rad, coe) ← stripWhile env index vs (exp + 1) exp rad coe
    stripAll env index t rad coe

/-- `for (auto &i: r.second) rad *= adapter_pow(i, r.first / g_exp);` (num.hpp 578-581). -/
def rebuildVals (env : Env) (k : Nat) : List Nat → Int → Res Int
  | [], rad => .ok rad
  | i :: is, rad => do
    let rad ← env.fl.mulPow rad i k
    rebuildVals env k is rad

/-- the loop of num.hpp 576-582. -/
def rebuild (env : Env) (g : Nat) : FMap → Int → Res Int
  | [], rad => .ok rad
  | (e, vs) :: t, rad => do
    let rad ← rebuildVals env (e / g) vs rad
    rebuild env g t rad

/-- `g_exp` (num.hpp 567-572): `begin()->first` of an empty map yields `env.junk`. -/
def gExp (env : Env) (index : Nat) (fs : FMap) : Nat :=
  let g0 : Nat := match fs with
    | [] => env.junk.natAbs
    | (e, _) :: _ => e
  Nat.gcd index (fs.foldl (fun g r => Nat.gcd r.1 g) g0)

/-- `normalize` (num.hpp 538-597). -/
def normalize (env : Env) (r : Real) : Res Real := do
  -- 540-544
  let (coe, radicand) ← (if !r.rad.isInt then do
      let d ← Rational.ofInt env.M r.rad.den
      let coe ← Rational.div env.M r.coe d
      let pd ← env.fl.ofPow r.rad.den r.index
      let radicand ← Rational.mul env.M r.rad pd
      .ok (coe, radicand)
    else .ok (r.coe, r.rad) : Res (Rational × Rational))
  -- 546-560
  let fs ← decompose env radicand.num
  let (rad, coe) ← stripAll env r.index fs radicand.num coe
  -- 562-566
  let (radicand, fs) ← (if rad ≠ radicand.num then do
      let fs ← decompose env rad
      .ok (⟨rad, radicand.den⟩, fs)
    else .ok (radicand, fs) : Res (Rational × FMap))
  -- 567-585
  let g := gExp env r.index fs
  let (radicand, index) ← (if g ≠ 1 then do
      let rad ← rebuild env g fs 1
      let radicand ← Rational.ofInt env.M rad
      .ok (radicand, r.index / g)
    else .ok (radicand, r.index) : Res (Rational × Nat))
  -- 588-596
  let isOne ← Rational.eqInt env.M radicand 1
  let index := if isOne then 1 else index
  let isZero ← Rational.eqInt env.M coe 0
  if isZero then do
    let one ← Rational.ofInt env.M 1
    .ok ⟨1, one, coe⟩
  else .ok ⟨index, radicand, coe⟩

/-- `Real(Rational c, Rational r, IndexT i)` (num.hpp 389-390). -/
def mk3 (env : Env) (c r : Rational) (i : Nat) : Res Real := normalize env ⟨i, r, c⟩

/-- `Real(U c)` for an integral argument (num.hpp 395-396), and `Real(Rational c)`. -/
def ofRational (env : Env) (c : Rational) : Res Real := do
  let one ← Rational.ofInt env.M 1
  mk3 env c one 1

/-- `Real(U c)` for an integral argument (num.hpp 395-396). -/
def ofInt (env : Env) (c : Int) : Res Real := do
  let c ← Rational.ofInt env.M c
  ofRational env c

/-- `Real()` (num.hpp 398). -/
def zero : Real := ⟨1, ⟨1, 1⟩, ⟨0, 1⟩⟩

/-- `is_equivalent_with` (num.hpp 400-409). -/
def isEquivalentWith (env : Env) (a b : Real) : Res Bool := do
  let e ← Rational.eq env.M a.rad b.rad
  let one ← (if e then Rational.eqInt env.M a.rad 1 else .ok false)
  if one then .ok true
  else if a.index = b.index ∧ a.index = 1 then .ok true
  else do
    let e ← Rational.eq env.M a.rad b.rad
    .ok (e && decide (a.index = b.index))

/-- `operator+=`, `operator+` (num.hpp 411-425). -/
def add (env : Env) (a b : Real) : Res Real := do
  let e ← isEquivalentWith env a b
  if !e then .throw "radicand and index must be the same."
  else do
    let c ← Rational.add env.M a.coe b.coe
    normalize env { a with coe := c }

/-- `negate` (num.hpp 599-602). -/
def negate (env : Env) (a : Real) : Res Real := do
  let c ← Rational.negate env.M a.coe
  mk3 env c a.rad a.index

/-- `operator-=`, `operator-` (num.hpp 427-439): normalises twice. -/
def sub (env : Env) (a b : Real) : Res Real := do
  let nb ← negate env b
  let s ← add env a nb
  normalize env s

/-- `std::lcm` on the unsigned index type; a result that is not representable is undefined. -/
def lcmU (env : Env) (a b : Nat) : Res Nat :=
  if (Nat.lcm a b : Int) ≤ 2 * env.M + 1 then .ok (Nat.lcm a b) else .ub "lcm not representable"

/-- implicit conversion of an unsigned index to `Rational` (num.hpp 85-90): conversion to `T`. -/
def ratOfIndex (env : Env) (i : Nat) : Res Rational := Rational.ofInt env.M (wrap env.M i)

/-- `operator*=`, `operator*` (num.hpp 441-456). `l / index` with `index = 0` is undefined. -/
def mul (env : Env) (a b : Real) : Res Real := do
  let l ← lcmU env a.index b.index
  if a.index = 0 ∨ b.index = 0 then .ub "/ 0"
  else do
    let p1 ← ratOfIndex env (l / a.index)
    let r1 ← Rational.pow env.M env.fl a.rad p1
    let p2 ← ratOfIndex env (l / b.index)
    let r2 ← Rational.pow env.M env.fl b.rad p2
    let rad ← Rational.mul env.M r1 r2
    let c ← Rational.mul env.M a.coe b.coe
    normalize env ⟨l, rad, c⟩

/-- `inverse` (num.hpp 609-615); no normalisation. -/
def inverse (env : Env) (a : Real) : Res Real := do
  let c ← Rational.inverse env.M a.coe
  let r ← Rational.inverse env.M a.rad
  .ok ⟨a.index, r, c⟩

/-- `operator/=`, `operator/` (num.hpp 458-467). -/
def div (env : Env) (a b : Real) : Res Real := do
  let ib ← inverse env b
  mul env a ib

/-- the part of `pow` for `p > 0`, `p ≠ 1` (num.hpp 475-490). -/
def powPos (env : Env) (a : Real) (p : Rational) : Res Real := do
  if p.isInt then do
    let c ← Rational.pow env.M env.fl a.coe p
    let r ← Rational.pow env.M env.fl a.rad p
    normalize env ⟨a.index, r, c⟩
  else do
    let pn ← Rational.ofInt env.M p.num
    let r ← Rational.pow env.M env.fl a.rad pn
    env.noWrap (0 ≤ (a.index : Int) * p.den ∧ (a.index : Int) * p.den ≤ 2 * env.M + 1)
    let index := (((a.index : Int) * p.den) % (2 * (env.M + 1))).toNat
    let cb ← Rational.pow env.M env.fl a.coe pn
    let one ← Rational.ofInt env.M 1
    let root ← mk3 env one cb (p.den % (2 * (env.M + 1))).toNat
    let res ← mul env ⟨index, r, one⟩ root
    normalize env res

/-- `pow` (num.hpp 469-491) with the depth of the recursion for `p < 0` bounded. -/
def powN (env : Env) : Nat → Real → Rational → Res Real
  | 0, _, _ => .fuel
  | f + 1, a, p => do
    if ← Rational.eqInt env.M p 0 then ofInt env 1
    else if ← Rational.eqInt env.M p 1 then .ok a
    else do
      let z ← Rational.ofInt env.M 0
      if ← Rational.lt env.M p z then do
        let ia ← inverse env a
        let np ← Rational.negate env.M p
        powN env f ia np
      else powPos env a p

/-- `pow` (num.hpp 469-491). Two recursive calls are enough: `p.negate()` is normalised, so only `p = n/(-1)` can stay
negative, and then only once. -/
def pow (env : Env) (a : Real) (p : Rational) : Res Real := powN env 3 a p

/-- `operator==` (num.hpp 526-529), with short-circuit evaluation. -/
def eq (env : Env) (a b : Real) : Res Bool := do
  if ← Rational.eq env.M a.coe b.coe then
    if ← Rational.eq env.M a.rad b.rad then .ok (decide (a.index = b.index)) else .ok false
  else .ok false

/-- one side of the comparison (num.hpp 520-521, 523): `c.pow(e) * rad.pow(k)`. -/
def cmpSide (env : Env) (c : Rational) (e : Nat) (rad : Rational) (k : Nat) : Res Rational := do
  let pe ← ratOfIndex env e
  let x ← Rational.pow env.M env.fl c pe
  let pk ← ratOfIndex env k
  let y ← Rational.pow env.M env.fl rad pk
  Rational.mul env.M x y

/-- comparison of a `Rational` with the literal 0 (num.hpp 516-518). -/
def leZero (env : Env) (a : Rational) : Res Bool := do
  let z ← Rational.ofInt env.M 0
  Rational.le env.M a z
/-- comparison of a `Rational` with the literal 0 (num.hpp 516-518). -/
def geZero (env : Env) (a : Rational) : Res Bool := do
  let z ← Rational.ofInt env.M 0
  Rational.ge env.M a z

/-- `r.index * index` on the unsigned index type (num.hpp 520-523). -/
def mulU (env : Env) (a b : Nat) : Nat := ((a * b : Nat) : Int) % (2 * (env.M + 1)) |>.toNat

/-- `operator<` (num.hpp 513-524). -/
def lt (env : Env) (a b : Real) : Res Bool := do
  if ← eq env a b then .ok false
  else do
    let al ← leZero env a.coe
    let bg ← (if al then geZero env b.coe else .ok false)
    if al && bg then .ok true
    else do
      let ag ← geZero env a.coe
      let bl ← (if ag then leZero env b.coe else .ok false)
      if ag && bl then .ok false
      else do
        let bl ← (if al then leZero env b.coe else .ok false)
        if al && bl then do
          let na ← Rational.negate env.M a.coe
          let x ← cmpSide env na (mulU env b.index a.index) a.rad b.index
          let nb ← Rational.negate env.M b.coe
          let y ← cmpSide env nb (mulU env b.index a.index) b.rad a.index
          Rational.gt env.M x y
        else do
          let x ← cmpSide env a.coe (mulU env b.index a.index) a.rad b.index
          let y ← cmpSide env b.coe (mulU env b.index a.index) b.rad a.index
          Rational.lt env.M x y

/-- `operator>` (num.hpp 533-536). -/
def gt (env : Env) (a b : Real) : Res Bool := do
  if ← lt env a b then .ok false
  else do
    let e ← eq env a b
    .ok (!e)

/-- `is_rational` (num.hpp 604-607). -/
def isRational (env : Env) (a : Real) : Res Bool := do
  if ← Rational.eqInt env.M a.coe 0 then .ok true
  else if ← Rational.eqInt env.M a.rad 1 then .ok true
  else if ← Rational.eqInt env.M a.rad 0 then .ok true
  else .ok (decide (a.index = 1 ∨ a.index = 0))

/-- `to<Rational>()` (num.hpp 679-684). -/
def toRational (env : Env) (a : Real) : Res Rational := do
  let b ← isRational env a
  Res.assert b "Must be a rational."
  Rational.mul env.M a.coe a.rad

/-- `to_string` (num.hpp 617-636). -/
def toStr (env : Env) (a : Real) : Res (List Char) := do
  if ← Rational.eqInt env.M a.coe 0 then .ok ['0']
  else if ← isRational env a then .ok a.coe.toStr
  else do
    let one ← Rational.eqInt env.M a.coe 1
    let mone ← (if one then .ok false else Rational.eqInt env.M a.coe (-1))
    let c := if one then [] else if mone then ['-'] else a.coe.toStr
    .ok (c ++ (if a.index ≠ 2 then ['_'] ++ (toString a.index).toList ++ ['/'] ++ a.rad.toStr
      else ['_', '/'] ++ a.rad.toStr))

/-- `nth_root` (num.hpp 719-723). -/
def nthRoot (env : Env) (n : Nat) (q : Rational) : Res Real := do
  let one ← Rational.ofInt env.M 1
  mk3 env one q n

end Real
end Symxx.Num
