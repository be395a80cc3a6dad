import Verif.Machine
/-!
# Model of the arithmetic helpers of int_adapter.hpp and of factorize.hpp

`T` is a signed integer type with maximum `M` (`Verif/Machine.lean`); `%` and `/` on `T` truncate
(`Int.tmod`, `Int.tdiv`). The `SYMXX_ENABLE_HUGE` variants (T = Huge) are not modelled; the
`SYMXX_ENABLE_INT128` branches are (for `T = int64_t` they are never taken).
-/
namespace Symxx.Factor

/-- loop of `adapter_mulmod` (int_adapter.hpp 66-73). `a & 1` is the parity, `a >>= 1` the floor
half, `b << 1` is modular (C++20). `fuel` bounds the number of rounds. -/
def mulmodLoop (M m : Int) : Nat → Int → Int → Int → Res Int
  | 0, _, _, _ => .fuel
  | n + 1, a, b, res =>
    if a ≠ 0 then do
      let res ← (if a % 2 = 1 then do
          let s ← chk M (res + b)
          .ok (s.tmod m)
        else .ok res)
      mulmodLoop M m n (a / 2) ((wrap M (2 * b)).tmod m) res
    else .ok res

/-- `adapter_mulmod` (int_adapter.hpp 63-74). One unit of fuel per bit of `a` is enough for
`a ≥ 0`; for `a < 0` the loop does not terminate. `% 0` is undefined. -/
def mulmod (M a b m : Int) : Res Int :=
  if m = 0 then .ub "% 0" else mulmodLoop M m (Nat.log2 a.natAbs + 2) a b 0

/-- loop of `adapter_modpow` (int_adapter.hpp 83-88). -/
def modpowLoop (M m : Int) : Nat → Int → Int → Int → Res Int
  | 0, _, _, _ => .fuel
  | n + 1, base, exp, result =>
    if exp > 0 then do
      let result ← (if exp % 2 = 1 then do
          let s ← chk M (result * base)
          .ok (s.tmod m)
        else .ok result)
      let sq ← chk M (base * base)
      modpowLoop M m n (sq.tmod m) (exp / 2) result
    else .ok result

/-- `adapter_modpow` (int_adapter.hpp 78-90). -/
def modpow (M base exp m : Int) : Res Int :=
  if m = 0 then .ub "% 0"
  else modpowLoop M m (Nat.log2 exp.natAbs + 2) (base.tmod m) exp 1

/-- the trial-division loop of `is_prime_slow_path` (factorize.hpp 49-55). -/
def slowLoop (num sqrtN : Int) : Nat → Int → Bool
  | 0, _ => true
  | n + 1, i =>
    if i < sqrtN then
      if num.tmod i = 0 ∨ num.tmod (i + 2) = 0 then false else slowLoop num sqrtN n (i + 6)
    else true

/-- `is_prime_slow_path` (factorize.hpp 40-57), only reached for `num < 100000`, where
`static_cast<T>(std::sqrt(num))` is the integer square root. -/
def slowPath (num : Int) : Bool :=
  if num < 2 then false
  else if num = 2 ∨ num = 3 then true
  else if num % 2 = 0 then false
  else if num.tmod 3 = 0 then false
  else if num < 9 then true
  else
    let sqrtN : Int := (Nat.sqrt num.toNat : Int) + 1
    slowLoop num sqrtN sqrtN.toNat 5

/-- `n % p` is non-zero for every listed `p` (factorize.hpp 145-148, 167-168, 174-180, 195-197). -/
def noneDivides (n : Int) (ps : List Int) : Bool := ps.all fun p => n.tmod p ≠ 0

/-- `first_prime` (factorize.hpp 62-63). -/
def firstPrime : List Int :=
  [2, 3, 5, 7, 11, 13, 17, 19, 23, 29, 31, 37, 41, 43, 47, 53, 59, 61, 67, 71]

/-- trial divisors up to 43 (factorize.hpp 167-168). -/
def primes43 : List Int := [2, 3, 5, 7, 11, 13, 17, 19, 23, 29, 31, 37, 41, 43]
/-- trial divisors up to 89 (factorize.hpp 195-197). -/
def primes89 : List Int := primes43 ++ [47, 53, 59, 61, 67, 71, 73, 79, 83, 89]
/-- trial divisors up to 101 (factorize.hpp 145-148). -/
def primes101 : List Int := primes89 ++ [97, 101]

/-- choice of the Miller-Rabin bases for `n ≥ 9006403` (factorize.hpp 88-141). -/
def witnesses (n : Int) : List Int :=
  if n ≥ 1543267864443420616877677640751301 then firstPrime.take 20
  else if n ≥ 564132928021909221014087501701 then firstPrime.take 18
  else if n ≥ 59276361075595573263446330101 then firstPrime.take 16
  else if n ≥ 6003094289670105800312596501 then firstPrime.take 15
  else if n ≥ 3317044064679887385961981 then firstPrime.take 14
  else if n ≥ 318665857834031151167461 then firstPrime.take 13
  else if n ≥ 3825123056546413051 then firstPrime.take 12
  else if n ≥ 341550071728321 then firstPrime.take 9
  else if n ≥ 3474749660383 then firstPrime.take 7
  else if n ≥ 2152302898747 then firstPrime.take 6
  else if n ≥ 4759123141 then firstPrime.take 5
  else [2, 7, 61]

/-- `while (!(d & 1)) { d >>= 1; s += 1; }` (factorize.hpp 203-209): returns `(d, s)`. -/
def splitPow2 : Nat → Int → Nat → Res (Int × Nat)
  | 0, _, _ => .fuel
  | n + 1, d, s => if d % 2 = 0 then splitPow2 n (d / 2) (s + 1) else .ok (d, s)

/-- the squaring loop (factorize.hpp 231-239): returns `next`. -/
def squareLoop (M n : Int) : Nat → Int → Res Bool
  | 0, _ => .ok true
  | s + 1, x => do
    let x1 ← chk M (x + 1)
    if x1 = n then .ok false
    else do
      let x ← mulmod M x x n
      squareLoop M n s x

/-- the witness loop (factorize.hpp 210-250); the `break` of line 246 leaves the loop after the
first base that passes with `x ≠ 1`. -/
def witnessLoop (M n d : Int) (s : Nat) : List Int → Res Bool
  | [] => .ok true
  | p :: ws => do
    let x ← modpow M p d n
    if x = 1 then witnessLoop M n d s ws
    else do
      let next ← squareLoop M n s x
      if next then .ok false else .ok true

/-- `is_prime_fast_path` (factorize.hpp 59-251) with `use_probabilistic = false`. -/
def fastPath (M n : Int) : Res Bool :=
  if n ≥ 9006403 then
    if !noneDivides n primes89 then .ok false
    else do
      let (d, s) ← splitPow2 (Nat.log2 n.natAbs + 2) (n - 1) 0
      witnessLoop M n d s (witnesses n)
  else if n ≥ 489997 then
    if noneDivides n primes101 then do
      let hn := n / 2
      let nm1 := n - 1
      let p ← modpow M 2 hn n
      if p = 1 ∨ p = nm1 then do
        let p ← modpow M 3 hn n
        if p = 1 ∨ p = nm1 then do
          let p ← modpow M 5 hn n
          .ok (p = 1 ∨ p = nm1)
        else .ok false
      else .ok false
    else .ok false
  else if n ≥ 42799 then
    if noneDivides n primes43 then do
      let p ← modpow M 2 (n - 1) n
      if p = 1 then do
        let p ← modpow M 5 (n - 1) n
        .ok (p = 1)
      else .ok false
    else .ok false
  else if n ≥ 841 then
    if noneDivides n (primes101 ++ [103]) then do
      let p ← modpow M 2 (n - 1) n
      .ok (p = 1)
    else .ok false
  else if n ≥ 25 then .ok (noneDivides n [2, 3, 5, 7, 11, 13, 17, 19, 23])
  else if n ≥ 4 then .ok (noneDivides n [2, 3])
  else .ok (n > 1)

/-- `is_prime` (factorize.hpp 253-283), deterministic mode. -/
def isPrime (M n : Int) : Res Bool :=
  if n < 100000 then .ok (slowPath n) else fastPath M n

/-- `random_digit(a, b)` (factorize.hpp 27-34) for an arbitrary outcome of the generator, coded by
a natural number; an empty range violates the precondition of `uniform_int_distribution`. -/
def randomDigit (a b : Int) (draw : Nat) : Res Int :=
  if a ≤ b then .ok (a + (draw : Int) % (b - a + 1))
  else .ub "uniform_int_distribution with an empty range"

/-- the witness loop (factorize.hpp 210-250) with `use_probabilistic`: the listed bases only count the rounds, each
round takes a random base in `[2, n - 3]`, one element of `draws` (`fuel` when they are used up). Returns the answer and the
unused draws. -/
def witnessLoopP (M n d : Int) (s : Nat) : List Int → List Nat → Res (Bool × List Nat)
  | [], draws => .ok (true, draws)
  | _ :: _, [] => .fuel
  | _ :: ws, r :: draws => do
    let p ← randomDigit 2 (n - 3) r
    let x ← modpow M p d n
    if x = 1 then witnessLoopP M n d s ws draws
    else do
      let next ← squareLoop M n s x
      if next then .ok (false, draws) else .ok (true, draws)

/-- `is_prime_fast_path(n, true, tolerance)` (factorize.hpp 59-251). `tolerance` (a `bool` here) is only read in the `Huge`
build. Below 9006403 the branches that return are those of the deterministic mode (factorize.hpp 142-192). -/
def fastPathP (M n : Int) (draws : List Nat) : Res (Bool × List Nat) :=
  if n ≥ 9006403 then
    if !noneDivides n primes89 then .ok (false, draws)
    else do
      let (d, s) ← splitPow2 (Nat.log2 n.natAbs + 2) (n - 1) 0
      witnessLoopP M n d s (witnesses n) draws
  else do
    let b ← fastPath M n
    .ok (b, draws)

/-- `is_prime(n, true, tolerance)` (factorize.hpp 253-283). -/
def isPrimeP (M n : Int) (_tolerance : Int) (draws : List Nat) : Res (Bool × List Nat) :=
  if n < 100000 then .ok (slowPath n, draws) else fastPathP M n draws

/-- the function `f` (factorize.hpp 301-305). -/
def rhoF (M num c x : Int) : Res Int := do
  let y ← mulmod M x x num
  let z ← chk M (y + c.tmod num)
  .ok (z.tmod num)

/-- inner `for` loop (factorize.hpp 309-317): `i` counts the remaining rounds. Returns `(t, r, p)`. -/
def rhoInner (M num c : Int) : Nat → Int → Int → Int → Res (Int × Int × Int)
  | 0, t, r, p => .ok (t, r, p)
  | i + 1, t, r, p => do
    let t ← rhoF M num c t
    let r ← rhoF M num c r
    let r ← rhoF M num c r
    if t = r then .ok (t, r, p)
    else do
      let d ← chk M (t - r)
      let q ← mulmod M p (d.natAbs : Int) num
      if q = 0 then .ok (t, r, p) else rhoInner M num c i t r q

/-- the `do ... while (t != r)` loop (factorize.hpp 307-323): `some d` if it returns `d`. -/
def rhoOuter (M num c : Int) : Nat → Int → Int → Int → Res (Option Int)
  | 0, _, _, _ => .fuel
  | n + 1, t, r, p => do
    let (t, r, p) ← rhoInner M num c 128 t r p
    let d : Int := Int.gcd p num
    if d > 1 then .ok (some d)
    else if t ≠ r then rhoOuter M num c n t r p
    else .ok none

/-- the `while (true)` loop (factorize.hpp 298-324): one element of `draws` per random draw; when the
supplied draws are used up the outcome is `fuel`. Returns the divisor and the unused draws. -/
def rhoSearch (M num : Int) : List Nat → Res (Int × List Nat)
  | [] => .fuel
  | r :: draws => do
    let n2 ← chk M (num - 2)
    let c ← randomDigit 1 n2 r
    match ← rhoOuter M num c (num.natAbs + 1) 0 0 1 with
    | some d => .ok (d, draws)
    | none => rhoSearch M num draws

/-- `Pollard_Rho` (factorize.hpp 287-327). -/
def pollardRho (M num : Int) (draws : List Nat) : Res (Int × List Nat) :=
  if num = 4 then .ok (2, draws)
  else do
    if ← isPrime M num then .ok (num, draws) else rhoSearch M num draws

/-- `factorize` (factorize.hpp 330-353); `ret` is the multiset as a list in insertion order,
`fuel` bounds the recursion depth. -/
def factorizeF (M : Int) : Nat → Int → List Int → List Nat → Res (List Int × List Nat)
  | 0, _, _, _ => .fuel
  | fuel + 1, n, ret, draws =>
    if n = 1 then .ok (ret, draws)
    else do
      let (fac, draws) ← pollardRho M n draws
      if fac = 0 then .ub "/ 0"
      else do
        let n := n.tdiv fac
        let (ret, draws) ← (do
          if !(← isPrime M fac) then factorizeF M fuel fac ret draws else .ok (ret ++ [fac], draws))
        if !(← isPrime M n) then factorizeF M fuel n ret draws else .ok (ret ++ [n], draws)

/-- `factorize` (factorize.hpp 330-353) with enough recursion depth for every `n ≥ 1`. -/
def factorize (M n : Int) (draws : List Nat) : Res (List Int × List Nat) :=
  factorizeF M (n.natAbs + 1) n [] draws

end Symxx.Factor
