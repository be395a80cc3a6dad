import Verif.Res
/-!
# Model of `huge.hpp`

`std::vector<digit>` / `std::span<const digit>` are `List Nat`, least significant digit first.
Unsigned arithmetic on `digit = uint32_t` and `twodigits = uint64_t` is arithmetic on `Nat`
followed by the wrap-around `u32` / `u64`.  Values of `sdigit`/`stwodigits` are `Int`.
Simplification: vector sizes fit `int`/`size_t` (fewer than 2^31 digits), so size computations
are done in `Nat`/`Int` without wrap-around.
-/
namespace Symxx.Huge

/-- `SYMXX_HUGE_SHIFT` (huge.hpp 45). -/
abbrev SHIFT : Nat := 30
/-- `SYMXX_HUGE_BASE` (huge.hpp 46), `1 << 30`. -/
def BASE : Nat := 1073741824
/-- `SYMXX_HUGE_LOW_MASK` (huge.hpp 47). -/
abbrev MASK : Nat := 2 ^ 30 - 1
/-- `SYMXX_HUGE_DECIMAL_SHIFT` (huge.hpp 48). -/
abbrev DECSHIFT : Nat := 9
/-- `SYMXX_HUGE_DECIMAL_BASE` (huge.hpp 49). -/
abbrev DECBASE : Nat := 1000000000

/-- conversion to `uint32_t` (`digit`, huge.hpp 41): reduction modulo 2^32. -/
def u32 (n : Nat) : Nat := n % 2 ^ 32
/-- conversion to `uint64_t` (`twodigits`, huge.hpp 43): reduction modulo 2^64. -/
def u64 (n : Nat) : Nat := n % 2 ^ 64
/-- `uint32_t` subtraction with wrap-around. -/
def u32sub (a b : Nat) : Nat := (a + 2 ^ 32 - b % 2 ^ 32) % 2 ^ 32
/-- does the integer fit `sdigit = int32_t` (huge.hpp 42)? -/
def fitsS32 (z : Int) : Bool := decide (-(2 ^ 31) ≤ z) && decide (z < 2 ^ 31)
/-- conversion to `int32_t` (modular since C++20). -/
def s32 (z : Int) : Int := (z + 2 ^ 31) % 2 ^ 32 - 2 ^ 31

/-- loop of `helper::digits_left_shift` (huge.hpp 57-67): returns `z[0,m]` and the carry out. -/
def leftShift (d : Nat) : List Nat → Nat → List Nat × Nat
  | [], carry => ([], carry)
  | x :: xs, carry =>
    let acc := u64 (x <<< d) ||| carry
    let z := u32 acc &&& MASK
    let carry := u32 (acc >>> SHIFT)
    let (zs, c) := leftShift d xs carry
    (z :: zs, c)

/-- loop of `helper::digits_right_shift` (huge.hpp 69-80): the source runs from the most
significant digit down, i.e. the tail is processed first. Returns `z` and the bits shifted out. -/
def rightShift (d : Nat) : List Nat → List Nat × Nat
  | [] => ([], 0)
  | x :: xs =>
    let (zs, carry) := rightShift d xs
    let acc := u64 (carry <<< SHIFT) ||| x
    (u32 (acc >>> d) :: zs, u32 acc &&& (u32 (1 <<< d) - 1))

/-- `helper::k_mul_split` (huge.hpp 82-90), returns `(high, low)`. -/
def kMulSplit (n : List Nat) (size : Nat) : List Nat × List Nat :=
  let k := min n.length size
  (n.drop k, n.take k)

/-- the loop shared by `helper::digits_inplace_add` (huge.hpp 93-107) and `digits_add`
(huge.hpp 142-151): `x` drives the loop, `y` is added while it lasts. -/
def addLoop : List Nat → List Nat → Nat → List Nat × Nat
  | [], _, carry => ([], carry)
  | x :: xs, ys, carry =>
    let carry := u32 (carry + x)
    let carry := match ys with
      | [] => carry
      | y :: _ => u32 (carry + y)
    let (r, c) := addLoop xs ys.tail (carry >>> SHIFT)
    ((carry &&& MASK) :: r, c)

/-- the loop shared by `helper::digits_inplace_sub` (huge.hpp 109-124) and `digits_sub`
(huge.hpp 163-173). -/
def subLoop : List Nat → List Nat → Nat → List Nat × Nat
  | [], _, borrow => ([], borrow)
  | x :: xs, ys, borrow =>
    let borrow := u32sub x borrow
    let borrow := match ys with
      | [] => borrow
      | y :: _ => u32sub borrow y
    let (r, c) := subLoop xs ys.tail ((borrow >>> SHIFT) &&& 1)
    ((borrow &&& MASK) :: r, c)

/-- `helper::digits_rem_by1` (huge.hpp 126-134), the running remainder. -/
def remBy1Loop (y : Nat) : List Nat → Nat
  | [] => 0
  | x :: xs => (u64 (remBy1Loop y xs <<< SHIFT) ||| x) % y

/-- `helper::digits_rem_by1` (huge.hpp 126-134); `% 0` is undefined behaviour. -/
def remBy1 (x : List Nat) (y : Nat) : Res (List Nat) :=
  if y = 0 then .ub "remainder by zero"
  else
    let r := remBy1Loop y x
    .ok (if r ≠ 0 then [u32 r] else [])

/-- `digits_add` (huge.hpp 136-156). -/
def digitsAdd (c d : List Nat) : List Nat :=
  let (a, b) := if c.length > d.length then (c, d) else (d, c)
  let (r, carry) := addLoop a b 0
  if carry ≠ 0 then r ++ [carry] else r

/-- `digits_sub` (huge.hpp 158-174); there is no trimming of leading zero digits. -/
def digitsSub (a b : List Nat) : List Nat := (subLoop a b 0).1

/-- inner loop of `digits_simple_mul` (huge.hpp 182-193). `rs` is `ret` from `itr` on. -/
def mulRow (ai : Nat) : List Nat → List Nat → Nat → Res (List Nat)
  | rs, [], carry =>
    if carry ≠ 0 then
      match rs with
      | [] => .ub "write past the end of ret"
      | r :: rs => .ok (u32 (r + u32 (carry &&& MASK)) :: rs)
    else .ok rs
  | [], _ :: _, _ => .ub "write past the end of ret"
  | r :: rs, b :: bs, carry => do
    let carry := u64 (carry + u64 (r + u64 (b * ai)))
    let rest ← mulRow ai rs bs (carry >>> SHIFT)
    .ok (u32 (carry &&& MASK) :: rest)

/-- outer loop of `digits_simple_mul` (huge.hpp 180-194). -/
def mulLoop (b : List Nat) : List Nat → List Nat → Res (List Nat)
  | [], ret => .ok ret
  | a :: as, ret => do
    let ret ← mulRow a ret b 0
    match ret with
    | [] => .ub "iterator past the end of ret"
    | r :: rs => do
      let rest ← mulLoop b as rs
      .ok (r :: rest)

/-- `while (v.back() == 0) v.pop_back();` on the reversed vector; `back()` of an empty vector
is undefined behaviour. -/
def popZeros : List Nat → Res (List Nat)
  | [] => .ub "back() on an empty vector"
  | x :: xs => if x = 0 then popZeros xs else .ok (x :: xs)

/-- `while (v.back() == 0) v.pop_back();` (huge.hpp 195-198, 289-292, 397, 398). -/
def trimBack (v : List Nat) : Res (List Nat) := do
  let r ← popZeros v.reverse
  .ok r.reverse

/-- `digits_simple_mul` (huge.hpp 176-199). -/
def simpleMul (a b : List Nat) : Res (List Nat) := do
  let ret ← mulLoop b a (List.replicate (a.length + b.length) 0)
  trimBack ret

/-- the `diff` loop of `digits_cmp` (huge.hpp 209-217), most significant digit first. Digits are
below 2^31 so the casts to `sdigit` and the subtraction are exact. -/
def cmpDiff : List Nat → List Nat → Int
  | a :: as, b :: bs =>
    let diff := cmpDiff as bs
    if diff ≠ 0 then diff else (a : Int) - (b : Int)
  | _, _ => 0

/-- `digits_cmp` (huge.hpp 202-221). -/
def digitsCmp (a b : List Nat) (apositive : Bool := true) (bpositive : Bool := true) : Int :=
  let sign : Int := (if apositive then 1 else -1) * (a.length : Int)
                  - (if bpositive then 1 else -1) * (b.length : Int)
  if sign = 0 then
    let diff := cmpDiff a b
    if apositive then diff else -diff
  else sign

/-- `digits_inplace_sub({ret.begin() + shift, i}, y)` on the tail of `ret` (huge.hpp 274, 275). -/
def subAt (shift : Nat) (ret y : List Nat) : List Nat :=
  ret.take shift ++ (subLoop (ret.drop shift) y 0).1

/-- `digits_inplace_add({ret.begin() + shift, i}, y)` on the tail of `ret` (huge.hpp 288). -/
def addAt (shift : Nat) (ret y : List Nat) : List Nat :=
  ret.take shift ++ (addLoop (ret.drop shift) y 0).1

/-- `std::copy(t.begin(), t.end(), ret.begin() + at)` (huge.hpp 267, 271); writing past the end of
`ret` is undefined behaviour. -/
def copyAt (pos : Nat) (ret t : List Nat) : Res (List Nat) :=
  if pos + t.length ≤ ret.length then .ok (ret.take pos ++ t ++ ret.drop (pos + t.length))
  else .ub "copy past the end of ret"

/-- `digits_mul` (huge.hpp 223-293). The recursion is bounded by `fuel`; `digitsMul` supplies
enough (proved: the outcome is never `Res.fuel`). -/
def digitsMulF : Nat → List Nat → List Nat → Res (List Nat)
  | 0, _, _ => .fuel
  | fuel + 1, c, d =>
    if c.isEmpty || d.isEmpty then .ok []
    else
      let (a, b) := if c.length < d.length then (c, d) else (d, c)
      let eq := digitsCmp c d == 0
      let cut := if eq then 140 else 70
      if a.length ≤ cut then simpleMul a b
      else do
        let shift := b.length >>> 1
        let (ah, al) := kMulSplit a shift
        let (bh, bl) := if eq then (ah, al) else kMulSplit b shift
        let ret := List.replicate (a.length + b.length) 0
        let t1 ← digitsMulF fuel ah bh
        let ret ← copyAt (shift * 2) ret t1
        let t2 ← digitsMulF fuel al bl
        let ret ← copyAt 0 ret t2
        let ret := subAt shift ret t2
        let ret := subAt shift ret t1
        let t1 := digitsAdd ah al
        let t2 := if eq then t1 else digitsAdd bh bl
        let t3 ← digitsMulF fuel t1 t2
        let ret := addAt shift ret t3
        trimBack ret

/-- `digits_mul` (huge.hpp 223-293). -/
def digitsMul (c d : List Nat) : Res (List Nat) := digitsMulF (c.length + d.length + 1) c d

/-- loop of `digits_divrem_by1` (huge.hpp 297-305), most significant digit first. -/
def divBy1Loop (b : Nat) : List Nat → List Nat × Nat
  | [] => ([], 0)
  | x :: xs =>
    let (q, remd) := divBy1Loop b xs
    let dividend := u64 (remd <<< SHIFT) ||| x
    (u32 (dividend / b) :: q, u32 (dividend % b))

/-- `digits_divrem_by1` (huge.hpp 295-310), returns `(res, rem)`; `rem` was cleared by the caller.
There is no trimming of the quotient. -/
def divremBy1 (c : List Nat) (b : Nat) : Res (List Nat × List Nat) :=
  if b = 0 then .ub "division by zero"
  else
    let (res, remd) := divBy1Loop b c
    .ok (res, if remd ≠ 0 then [remd] else [])

/-- `std::bit_width` (huge.hpp 341). -/
def bitWidth (n : Nat) : Nat := if n = 0 then 0 else Nat.log2 n + 1

/-- the quotient correction loop (huge.hpp 361-370); at most `2^30` iterations because `r` grows
by `wm1 ≥ 1` and the loop stops at `r ≥ BASE`. Returns the corrected `q`. -/
def adjustQ (wm1 wm2 v2 : Nat) : Nat → Nat → Nat → Res Nat
  | 0, _, _ => .fuel
  | n + 1, q, r =>
    if u64 (wm2 * q) > (u64 (r <<< SHIFT) ||| v2) then
      let q := u32sub q 1
      let r := u32 (r + wm1)
      if r ≥ BASE then .ok q else adjustQ wm1 wm2 v2 n q r
    else .ok q

/-- fuel of the correction loop: more than the number of iterations possible with `wm1 ≥ 1`. -/
def adjFuel : Nat := 2 ^ 30 + 1

/-- multiply-and-subtract loop (huge.hpp 371-380): `v -= q*w`, returns the new digits and `zhi`.
The `int` addition `sdigit(v) + zhi` is checked for signed overflow. -/
def mulSub (q : Nat) : List Nat → List Nat → Int → Res (List Nat × Int)
  | v :: vs, w :: ws, zhi =>
    if fitsS32 (s32 v + zhi) then do
      let z : Int := s32 v + zhi - (q : Int) * (w : Int)
      let v' := (z % 2 ^ 32).toNat &&& MASK
      let (rs, zhi) ← mulSub q vs ws (s32 (z / 2 ^ 30))
      .ok (v' :: rs, zhi)
    else .ub "signed overflow"
  | [], _ :: _, _ => .ub "read past the end of v"
  | vs, [], zhi => .ok (vs, zhi)

/-- the add-back loop (huge.hpp 383-389). -/
def addBack : List Nat → List Nat → Nat → List Nat
  | v :: vs, w :: ws, carry =>
    let carry := u32 (carry + u32 (v + w))
    (carry &&& MASK) :: addBack vs ws (carry >>> SHIFT)
  | vs, _, _ => vs

/-- one iteration of the Knuth D loop (huge.hpp 354-393) on `v` from `vk` on: returns the
quotient digit and the updated `v` (from `vk` on; `v[sz_b]` itself is left unchanged). -/
def divStep (w : List Nat) (v : List Nat) : Res (Nat × List Nat) :=
  let szb := w.length
  match v[szb]?, v[szb - 1]?, v[szb - 2]?, w[szb - 1]?, w[szb - 2]? with
  | some vtop, some v1, some v2, some wm1, some wm2 =>
    if wm1 = 0 then .ub "division by zero"
    else do
      let vv := u64 (vtop <<< SHIFT) ||| v1
      let q := u32 (vv / wm1)
      let r := u32 (vv % wm1)
      let q ← adjustQ wm1 wm2 v2 adjFuel q r
      let (v', zhi) ← mulSub q v w 0
      if fitsS32 (s32 vtop + zhi) then
        if s32 vtop + zhi < 0 then .ok (u32sub q 1, addBack v' w 0)
        else .ok (q, v')
      else .ub "signed overflow"
  | _, _, _, _, _ => .ub "read past the end of v or w"

/-- the Knuth D loop (huge.hpp 354-393): `vk` runs from `v.begin()+k-1` down to `v.begin()`, so the
higher positions are processed first. Returns the `k` quotient digits and the final `v`. -/
def divLoop (w : List Nat) : Nat → List Nat → Res (List Nat × List Nat)
  | 0, v => .ok ([], v)
  | _ + 1, [] => .ub "read past the end of v"
  | k + 1, x :: rest => do
    let (qs, rest) ← divLoop w k rest
    let (q, v) ← divStep w (x :: rest)
    .ok (q :: qs, v)

/-- `digits_divrem` (huge.hpp 312-399), returns `(res, rem)`. -/
def digitsDivrem (a b : List Nat) : Res (List Nat × List Nat) :=
  let cmp := digitsCmp a b
  if cmp = 0 then .ok ([1], [])
  else if cmp < 0 then .ok ([], a)
  else if b.length = 1 then
    match b with
    | b0 :: _ => divremBy1 a b0
    | [] => .ub "b[0] of an empty span"
  else
    match b.getLast? with
    | none => .ub "back() of an empty span"
    | some bback => do
      let d := SHIFT - bitWidth bback
      let (w, _) := leftShift d b 0
      let (v, carry) := leftShift d a 0
      let big := carry ≠ 0 ∨ v.getLast?.getD 0 ≥ w.getLast?.getD 0
      let sza := if big then a.length + 1 else a.length
      let v := v ++ [if big then carry else 0]
      let k := sza - b.length
      let (res, v) ← divLoop w k v
      let (rem, _) := rightShift d (v.take b.length)
      let rem ← trimBack rem
      let res ← trimBack res
      .ok (res, rem)

/-- `digits_rem` (huge.hpp 401-420). -/
def digitsRem (a b : List Nat) : Res (List Nat) :=
  if digitsCmp a b < 0 then .ok a
  else if b.length = 1 then
    match b with
    | b0 :: _ => remBy1 a b0
    | [] => .ub "b[0] of an empty span"
  else do
    let (_, rem) ← digitsDivrem a b
    .ok rem

/-- `digits_gcd` (huge.hpp 423-434), Euclid's algorithm; recursion bounded by `fuel`. -/
def digitsGcdF : Nat → List Nat → List Nat → Res (List Nat)
  | 0, _, _ => .fuel
  | fuel + 1, a, b =>
    if b.isEmpty then .ok a
    else do
      let tmp ← digitsRem a b
      digitsGcdF fuel b tmp

/-- `digits_gcd` (huge.hpp 423-434) with enough fuel (the second operand decreases strictly). -/
def digitsGcd (a b : List Nat) : Res (List Nat) :=
  digitsGcdF (2 ^ (32 * b.length) + 1) a b

/-- `while (u != 0) { push(u & MASK); u >>= SHIFT; }` (huge.hpp 478-490, 613-617). Every 64-bit
value is exhausted after three rounds; `fuel` bounds the number of rounds. -/
def pushDigits : Nat → Nat → List Nat
  | 0, _ => []
  | n + 1, u => if u = 0 then [] else (u &&& MASK) :: pushDigits n (u >>> SHIFT)

/-- class `Huge` (huge.hpp 497-504): digit vector and sign flag. -/
structure Huge where
  digits : List Nat
  isPositive : Bool
  deriving Repr, DecidableEq

/-- A native integer type: number of bits and signedness (`int`, `unsigned`, `long`, ...). -/
structure IntTy where
  bits : Nat
  signed : Bool
  deriving Repr, DecidableEq

/-- `numeric_limits<U>::max()`. -/
def IntTy.max (t : IntTy) : Int := if t.signed then 2 ^ (t.bits - 1) - 1 else 2 ^ t.bits - 1
/-- `numeric_limits<U>::lowest()`. -/
def IntTy.min (t : IntTy) : Int := if t.signed then -(2 ^ (t.bits - 1)) else 0
/-- `v` is a value of the type. -/
def IntTy.has (t : IntTy) (v : Int) : Prop := t.min ≤ v ∧ v ≤ t.max

instance (t : IntTy) (v : Int) : Decidable (t.has v) := by unfold IntTy.has; infer_instance

/-- constructor `Huge(U val)` for an integral `U` at least as wide as `int` (huge.hpp 510-536 and
478-490). `std::abs` of the minimum of a signed type is undefined. -/
def ofInt (t : IntTy) (val : Int) : Res Huge :=
  if t.signed && decide (val = t.min) then .ub "std::abs of the minimum"
  else .ok ⟨pushDigits t.bits val.natAbs, decide (val ≥ 0)⟩

/-- `isdigit` for the "C" locale (huge.hpp 562, 581, 586). -/
def isDigit (c : Char) : Bool := decide ('0' ≤ c) && decide (c ≤ '9')

/-- inner digit-gathering loop of the string constructor (huge.hpp 584-595): up to 9 digits; a
non-digit sets `end = pos`, which ends both loops (rest `[]`). Returns `(c, i, rest)`. -/
def gather : List Char → Nat → Nat → Nat × Nat × List Char
  | [], c, i => (c, i, [])
  | ch :: rest, c, i =>
    if i < 9 then
      if isDigit ch then gather rest (u64 (c * 10 + (ch.toNat - '0'.toNat))) (i + 1)
      else (c, i, [])
    else (c, i, ch :: rest)

/-- `for (; i > 1; --i) convmult *= 10;` starting from 10 (huge.hpp 601-603). -/
def convMult : Nat → Nat
  | 0 => 10
  | 1 => 10
  | i + 2 => u64 (convMult (i + 1) * 10)

/-- "put c to digits", the in-place part (huge.hpp 607-612): returns digits and remaining carry. -/
def mulAddLoop (convmult : Nat) : List Nat → Nat → List Nat × Nat
  | [], c => ([], c)
  | p :: ps, c =>
    let c := u64 (c + u64 (p * convmult))
    let (rs, c') := mulAddLoop convmult ps (c >>> SHIFT)
    (u32 (c &&& MASK) :: rs, c')

/-- `while (pos < end)` loop of the string constructor (huge.hpp 579-618); one unit of fuel per
character is enough because every round consumes at least one character. -/
def parseLoop : Nat → List Char → List Nat → List Nat
  | 0, _, digits => digits
  | _ + 1, [], digits => digits
  | n + 1, ch :: rest, digits =>
    if isDigit ch then
      let (c, i, rest) := gather rest (ch.toNat - '0'.toNat) 1
      let convmult := if i ≠ 9 then convMult i else 1000000000
      let (ds, c) := mulAddLoop convmult digits c
      parseLoop n rest (ds ++ pushDigits 3 c)
    else digits

/-- constructor `Huge(const std::string&)` (huge.hpp 558-619). `reserve` has no observable effect. -/
def ofString (s : List Char) : Res Huge := do
  let rest := s.dropWhile fun c => !(isDigit c || c == '+' || c == '-')
  Res.assert (!rest.isEmpty) "Invaild string."
  let s0 := s.head?
  let rest := if s0 == some '+' then rest.tail else rest
  let (pos, rest) := if s0 == some '-' then (false, rest.tail) else (true, rest)
  .ok ⟨parseLoop rest.length rest [], pos⟩

/-- inner loop of `to_string` (huge.hpp 844-849). -/
def decLoop : List Nat → Nat → List Nat × Nat
  | [], hi => ([], hi)
  | j :: js, hi =>
    let z := u64 (j <<< SHIFT) ||| hi
    let hi := u32 (z / DECBASE)
    let j := u32 (u64 (z - hi * DECBASE))
    let (rs, h) := decLoop js hi
    (j :: rs, h)

/-- `while (hi != 0)` (huge.hpp 850-854); a 32-bit value is exhausted after two rounds. -/
def pushDec : Nat → Nat → List Nat
  | 0, _ => []
  | n + 1, hi => if hi = 0 then [] else (hi % DECBASE) :: pushDec n (hi / DECBASE)

/-- outer loop of `to_string` (huge.hpp 841-855), most significant digit first. -/
def toDec : List Nat → List Nat
  | [] => []
  | d :: ds =>
    let (out, hi) := decLoop (toDec ds) d
    out ++ pushDec 4 hi

/-- `while (rem >= tenpow) { tenpow *= 10; len++; }` (huge.hpp 864-868): the increment of `len`. -/
def tenpowLoop (rem : Nat) : Nat → Nat → Res Nat
  | 0, _ => .fuel
  | n + 1, tenpow => if rem ≥ tenpow then do
      let k ← tenpowLoop rem n (u32 (tenpow * 10))
      .ok (k + 1)
    else .ok 0

/-- a decimal digit character `'0' + d` (huge.hpp 877, 884). -/
def digitChar (d : Nat) : Char := Char.ofNat ('0'.toNat + d)

/-- nine characters of a limb, least significant first (huge.hpp 875-879). -/
def limbChars : Nat → Nat → List Char
  | 0, _ => []
  | n + 1, rem => digitChar (rem % 10) :: limbChars n (rem / 10)

/-- the `do ... while (rem != 0)` loop (huge.hpp 882-886); 32-bit values need at most ten rounds. -/
def topChars : Nat → Nat → List Char
  | 0, _ => []
  | n + 1, rem => digitChar (rem % 10) :: (if rem / 10 = 0 then [] else topChars n (rem / 10))

/-- `Huge::to_string` (huge.hpp 838-893). The string of `len` NUL characters is filled from the
right; writing more than `len` characters is undefined behaviour. -/
def toStr (h : Huge) : Res (List Char) := do
  let out := toDec h.digits
  let out := if out.isEmpty then [0] else out
  let back := out.getLast?.getD 0
  let k ← tenpowLoop back 11 10
  let len := (if h.isPositive then 0 else 1) + 1 + (out.length - 1) * DECSHIFT + k
  let low := (out.dropLast.map (limbChars 9)).flatten
  let rev := low ++ topChars 11 back ++ (if h.isPositive then [] else ['-'])
  if rev.length ≤ len then .ok (List.replicate (len - rev.length) '\x00' ++ rev.reverse)
  else .ub "write before the beginning of the string"

/-- `Huge::operator+=` (huge.hpp 621-648). -/
def add (x h : Huge) : Huge :=
  if (h.isPositive && x.isPositive) || (!h.isPositive && !x.isPositive) then
    { x with digits := digitsAdd x.digits h.digits }
  else
    let cmp := digitsCmp x.digits h.digits
    if cmp = 0 then { x with digits := [] }
    else if cmp < 0 then ⟨digitsSub h.digits x.digits, !x.isPositive⟩
    else { x with digits := digitsSub x.digits h.digits }

/-- `Huge::operator-=` (huge.hpp 657-684). -/
def sub (x h : Huge) : Huge :=
  let cmp := digitsCmp x.digits h.digits
  if cmp = 0 then { x with digits := [] }
  else if (h.isPositive && !x.isPositive) || (!h.isPositive && x.isPositive) then
    { x with digits := digitsAdd x.digits h.digits }
  else if cmp < 0 then ⟨digitsSub h.digits x.digits, !x.isPositive⟩
  else { x with digits := digitsSub x.digits h.digits }

/-- sign of a product or quotient (huge.hpp 696, 712, 967). -/
def sameSign (x h : Huge) : Bool :=
  (h.isPositive && x.isPositive) || (!h.isPositive && !x.isPositive)

/-- `Huge::operator*=` (huge.hpp 693-700). -/
def mul (x h : Huge) : Res Huge := do
  let r ← digitsMul x.digits h.digits
  .ok ⟨r, sameSign x h⟩

/-- `Huge::operator/=` (huge.hpp 709-718). -/
def div (x h : Huge) : Res Huge := do
  Res.assert (!h.digits.isEmpty) divisionByZero
  let (res, _) ← digitsDivrem x.digits h.digits
  .ok ⟨res, sameSign x h⟩

/-- `Huge::operator%=` (huge.hpp 758-765); the sign of the dividend is kept. -/
def mod (x h : Huge) : Res Huge := do
  Res.assert (!h.digits.isEmpty) divisionByZero
  let rem ← digitsRem x.digits h.digits
  .ok { x with digits := rem }

/-- free function `divrem` (huge.hpp 963-972); the remainder is built with the default sign `+`. -/
def divrem (h1 h2 : Huge) : Res (Huge × Huge) := do
  Res.assert (!h2.digits.isEmpty) divisionByZero
  let (res, rem) ← digitsDivrem h1.digits h2.digits
  .ok (⟨res, sameSign h1 h2⟩, ⟨rem, true⟩)

/-- unary minus and `negate` (huge.hpp 727-730, 804-807). -/
def neg (x : Huge) : Huge := ⟨x.digits, !x.isPositive⟩

/-- `abs` (huge.hpp 800-803). -/
def abs (x : Huge) : Huge := ⟨x.digits, true⟩

/-- `pow(const Huge&)` and `pow(const double&)` (huge.hpp 782-793): the computation is commented out
and the empty digit vector is returned, whatever the base and the exponent. -/
def pow (_x _e : Huge) : Huge := ⟨[], true⟩

/-- the implicit conversion of the literal `1` in `*this += 1` (huge.hpp 734, 741, 747, 754). -/
def one : Huge := ⟨[1], true⟩

/-- `operator++()` (huge.hpp 732-736). -/
def preInc (x : Huge) : Huge := add x one
/-- `operator++(int)` (huge.hpp 738-743): returns (old value, new object). -/
def postInc (x : Huge) : Huge × Huge := (x, add x one)
/-- `operator--()` (huge.hpp 745-749). -/
def preDec (x : Huge) : Huge := sub x one
/-- `operator--(int)` (huge.hpp 751-756): returns (old value, new object). -/
def postDec (x : Huge) : Huge × Huge := (x, sub x one)

/-- `Huge::gcd` (huge.hpp 775-780). -/
def gcd (x h : Huge) : Res Huge := do
  let r ← digitsGcd x.digits h.digits
  .ok ⟨r, true⟩

/-- comparison used by all six relational operators (huge.hpp 808-836). -/
def cmp (x h : Huge) : Int := digitsCmp x.digits h.digits x.isPositive h.isPositive
/-- `operator<` (huge.hpp 808-811). -/
def lt (x h : Huge) : Bool := decide (cmp x h < 0)
/-- `operator>` (huge.hpp 813-816). -/
def gt (x h : Huge) : Bool := decide (cmp x h > 0)
/-- `operator==` (huge.hpp 818-821). -/
def eq (x h : Huge) : Bool := decide (cmp x h = 0)
/-- `operator!=` (huge.hpp 823-826). -/
def ne (x h : Huge) : Bool := decide (cmp x h ≠ 0)
/-- `operator<=` (huge.hpp 828-831). -/
def le (x h : Huge) : Bool := decide (cmp x h ≤ 0)
/-- `operator>=` (huge.hpp 833-836). -/
def ge (x h : Huge) : Bool := decide (cmp x h ≥ 0)

/-- the accumulation loop of `internal_to(IntTag)` (huge.hpp 933-941) in the unsigned
representation of the type (shifts and conversions are modular since C++20). -/
def toIntLoop (bits : Nat) : List Nat → Nat
  | [] => 0
  | d :: ds => ((toIntLoop bits ds <<< SHIFT) % 2 ^ bits ||| d) % 2 ^ bits

/-- reinterpretation of an unsigned representation as a value of the type. -/
def IntTy.ofRepr (t : IntTy) (n : Nat) : Int :=
  if t.signed && decide (2 ^ (t.bits - 1) ≤ n) then (n : Int) - 2 ^ t.bits else n

/-- `Huge::to<U>` for integral `U` at least as wide as `int` (huge.hpp 895-900, 917-945).
The final multiplication by `±1` is checked for signed overflow. -/
def toInt (t : IntTy) (h : Huge) : Res Int :=
  if h.digits.isEmpty then .ok 0
  else do
    Res.assert (h.isPositive || t.signed) "The Huge is negative but U is unsigned."
    let sgn : Int := if h.isPositive then 1 else -1
    match h.digits with
    | [d] =>
      if (d : Int) ≤ t.max && s32 d ≥ t.min then .ok ((d : Int) * sgn)
      else toIntBig t h sgn
    | _ => toIntBig t h sgn
where
  /-- the `else` branch (huge.hpp 929-943). -/
  toIntBig (t : IntTy) (h : Huge) (sgn : Int) : Res Int := do
    Res.assert ((h.digits.length - 1) * SHIFT ≤ t.bits) "The Huge is too big."
    let r := t.ofRepr (toIntLoop t.bits h.digits) * sgn
    if decide (t.has r) then .ok r
    else if t.signed then .ub "signed overflow" else .ok (r % 2 ^ t.bits)

end Symxx.Huge
