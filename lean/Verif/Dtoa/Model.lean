import Verif.Res
import Verif.Dtoa.Table
/-!
# Model of `dtoa.hpp`

A `double` is its 64-bit pattern (`Nat`, below `2^64`, IEEE-754 binary64). `uint64_t`/`uint32_t` arithmetic is
arithmetic on `Nat` followed by wrap-around; `int` values are `Int` (all stay below 2^12 in magnitude, so no range
check). A shift by a negative amount or by 64 or more, reading outside a table, `back()` of an empty string and
iterators outside a string are undefined behaviour. The loops that the code does not bound are bounded by fuel; the
theorems show that it never runs out for a finite double.
-/
namespace Symxx.Dtoa

/-- conversion to `uint64_t`. -/
def u64 (n : Nat) : Nat := n % 2 ^ 64
/-- conversion to `uint32_t`. -/
def u32 (n : Nat) : Nat := n % 2 ^ 32
/-- `uint64_t` subtraction with wrap-around. -/
def u64sub (a b : Nat) : Nat := (a + 2 ^ 64 - b) % 2 ^ 64
/-- `x << n` on `uint64_t`; undefined unless `0 ≤ n < 64`. -/
def shl (x : Nat) (n : Int) : Res Nat :=
  if 0 ≤ n ∧ n < 64 then .ok (u64 (x <<< n.toNat)) else .ub "shift"
/-- `x >> n` on `uint64_t`; undefined unless `0 ≤ n < 64`. -/
def shr (x : Nat) (n : Int) : Res Nat :=
  if 0 ≤ n ∧ n < 64 then .ok (x >>> n.toNat) else .ub "shift"

/-- `SYMXX_DTOA_DP_SIGNIFICAND_SIZE` (dtoa.hpp 32). -/
abbrev SIGSIZE : Nat := 52
/-- `SYMXX_DTOA_DP_EXPONENT_BIAS` (dtoa.hpp 33). -/
def BIAS : Int := 0x3FF + 52
/-- `SYMXX_DTOA_DP_MIN_EXPONENT` (dtoa.hpp 34). -/
def MINEXP : Int := -BIAS
/-- `SYMXX_DTOA_DP_EXPONENT_MASK` (dtoa.hpp 35). -/
def EXPMASK : Nat := 0x7FF0000000000000
/-- `SYMXX_DTOA_DP_SIGNIFICAND_MASK` (dtoa.hpp 36). -/
def SIGMASK : Nat := 0x000FFFFFFFFFFFFF
/-- `SYMXX_DTOA_DP_HIDDEN_BIT` (dtoa.hpp 37). -/
def HIDDEN : Nat := 0x0010000000000000
/-- `SYMXX_DTOA_DIY_SIGNIFICAND_SIZE` (dtoa.hpp 38). -/
abbrev DIYSIZE : Nat := 64
/-- `SYMXX_DTOA_1_LOG2_10` (dtoa.hpp 39): the double nearest to `0.30102999566398114` is this
integer times `2^-54`. -/
def LOG : Nat := 0x134413509f79fe
/-- `SYMXX_DTOA_TEN9` (dtoa.hpp 40). -/
def TEN9 : Nat := 1000000000
/-- `SYMXX_DTOA_SIGN_MASK` (dtoa.hpp 41). -/
def SIGNMASK : Nat := 0x8000000000000000

/-- the members of `DiyFp` (dtoa.hpp 332-341). -/
structure DiyFp where
  f : Nat
  e : Int
  deriving Repr, DecidableEq

namespace DiyFp

/-- `DiyFp(const double &)` (dtoa.hpp 343-358). -/
def ofBits (d64 : Nat) : DiyFp :=
  let biased := (d64 &&& EXPMASK) >>> SIGSIZE
  let significand := d64 &&& SIGMASK
  if biased ≠ 0 then ⟨u64 (significand + HIDDEN), (biased : Int) - BIAS⟩
  else ⟨significand, MINEXP + 1⟩

/-- `operator-` (dtoa.hpp 360-364). -/
def sub (a x : DiyFp) : Res DiyFp := do
  Res.assert (decide (a.e = x.e ∧ a.f ≥ x.f)) "These DiyFps can not minus."
  .ok ⟨u64sub a.f x.f, a.e⟩

/-- `operator*` (dtoa.hpp 366-381). -/
def mul (s x : DiyFp) : DiyFp :=
  let M32 := 0xFFFFFFFF
  let a := s.f >>> 32
  let b := s.f &&& M32
  let c := x.f >>> 32
  let d := x.f &&& M32
  let ac := u64 (a * c)
  let bc := u64 (b * c)
  let ad := u64 (a * d)
  let bd := u64 (b * d)
  let tmp := u64 ((bd >>> 32) + (ad &&& M32) + (bc &&& M32))
  let tmp := u64 (tmp + u32 (1 <<< 31))
  ⟨u64 (ac + (ad >>> 32) + (bc >>> 32) + (tmp >>> 32)), s.e + x.e + 64⟩

/-- the `while (!(res.f & bit))` loop (dtoa.hpp 386-390, 399-403). After 64 rounds `f` is 0 and the loop of the
program never ends. -/
def shiftUntil (bit : Nat) : Nat → DiyFp → Res DiyFp
  | 0, _ => .fuel
  | n + 1, r => if r.f &&& bit = 0 then shiftUntil bit n ⟨u64 (r.f <<< 1), r.e - 1⟩ else .ok r

/-- `normalize` (dtoa.hpp 383-394). -/
def normalize (a : DiyFp) : Res DiyFp := do
  let r ← shiftUntil HIDDEN 65 a
  let f ← shl r.f (DIYSIZE - SIGSIZE - 1)
  .ok ⟨f, r.e - (DIYSIZE - SIGSIZE - 1)⟩

/-- `normalize_boundary` (dtoa.hpp 396-407). -/
def normalizeBoundary (a : DiyFp) : Res DiyFp := do
  let r ← shiftUntil (HIDDEN <<< 1) 65 a
  let f ← shl r.f (DIYSIZE - SIGSIZE - 2)
  .ok ⟨f, r.e - (DIYSIZE - SIGSIZE - 2)⟩

/-- `normalized_boundaries` (dtoa.hpp 409-429): the pair `{mi, pl}`. -/
def normalizedBoundaries (a : DiyFp) : Res (DiyFp × DiyFp) := do
  let significandIsZero := decide (a.f = HIDDEN)
  let pl ← normalizeBoundary ⟨u64 (u64 (a.f <<< 1) + 1), a.e - 1⟩
  let mi : DiyFp := if significandIsZero then ⟨u64sub (u64 (a.f <<< 2)) 1, a.e - 2⟩
    else ⟨u64sub (u64 (a.f <<< 1)) 1, a.e - 1⟩
  let f ← shl mi.f (mi.e - pl.e)
  .ok (⟨f, pl.e⟩, pl)

end DiyFp

/-- `cached_power` (dtoa.hpp 432-435). -/
def cachedPower (k : Int) : Res DiyFp :=
  if 0 ≤ 343 + k then
    match powersTen[(343 + k).toNat]?, powersTenE[(343 + k).toNat]? with
    | some f, some e => .ok ⟨f, e⟩
    | _, _ => .ub "table index"
  else .ub "table index"

/-- the integer nearest to `p` among those with at most 53 significant bits, ties to even: the significand of a
floating-point product. -/
def round53 (p : Nat) : Nat :=
  if p < 2 ^ 53 then p
  else
    let s := p.log2 - 52
    let q := p >>> s
    let r := p % 2 ^ s
    if 2 * r > 2 ^ s ∨ (2 * r = 2 ^ s ∧ q % 2 = 1) then (q + 1) <<< s else q <<< s

/-- `k_comp` (dtoa.hpp 437-440): the product with the double `LOG * 2^-54` is rounded to nearest even,
then `std::ceil`. -/
def kComp (e alpha : Int) : Int :=
  let n := alpha - e + 63
  let p := round53 (n.natAbs * LOG)
  if 0 ≤ n then ((p + (2 ^ 54 - 1)) / 2 ^ 54 : Nat) else -((p / 2 ^ 54 : Nat) : Int)

/-- `--buffer.back()`. -/
def decBack (b : List Char) : Res (List Char) :=
  match b.getLast? with
  | some c => .ok (b.dropLast ++ [Char.ofNat (c.toNat - 1)])
  | none => .ub "back of an empty string"

/-- `grisu_round` (dtoa.hpp 442-452). -/
def grisuRound (delta tenKappa wpw : Nat) : Nat → List Char → Nat → Res (List Char)
  | 0, _, _ => .fuel
  | n + 1, buffer, rest =>
    if rest < wpw ∧ u64sub delta rest ≥ tenKappa ∧
        (u64 (rest + tenKappa) < wpw ∨ u64sub wpw rest > u64sub (u64 (rest + tenKappa)) wpw) then do
      let buffer ← decBack buffer
      grisuRound delta tenKappa wpw n buffer (u64 (rest + tenKappa))
    else .ok buffer

/-- `if (d || !buffer.empty()) buffer += '0' + d` (dtoa.hpp 467-468, 487-488). -/
def pushDigit (buffer : List Char) (d : Nat) : List Char :=
  if d ≠ 0 ∨ buffer ≠ [] then buffer ++ [Char.ofNat (48 + d)] else buffer

/-- fuel of the rounding loop. -/
abbrev roundFuel : Nat := 20

/-- the second loop of `digit_gen` (dtoa.hpp 480-497); `sh` is `-one.e`, `kappa` the value of the variable. -/
def genFrac (sh : Int) (onef wpw : Nat) : Nat → Nat → Nat → Nat → Int → List Char → Res (List Char × Int)
  | 0, _, _, _, _, _ => .fuel
  | n + 1, p2, delta, unit, kappa, buffer => do
    let p2 := u64 (p2 * 10)
    let delta := u64 (delta * 10)
    let unit := u64 (unit * 10)
    let d ← shr p2 sh
    let buffer := pushDigit buffer d
    let p2 := p2 &&& (onef - 1)
    let kappa := kappa - 1
    if p2 < delta then do
      let buffer ← grisuRound delta onef (u64 (wpw * unit)) roundFuel buffer p2
      .ok (buffer, kappa)
    else genFrac sh onef wpw n p2 delta unit kappa buffer

/-- the first loop of `digit_gen` (dtoa.hpp 463-478), structural in `kappa`; at 0 the second loop follows. -/
def genInt (sh : Int) (onef wpw p2 delta : Nat) : Nat → Nat → Nat → List Char → Res (List Char × Int)
  | 0, _, _, buffer => genFrac sh onef wpw 32 p2 delta 1 0 buffer
  | kappa + 1, p1, div, buffer => do
    if div = 0 then .ub "division by zero" else
    let d := p1 / div
    let buffer := pushDigit buffer d
    let p1 := p1 % div
    let s ← shl p1 sh
    let tmp := u64 (s + p2)
    if tmp ≤ delta then do
      let tk ← shl div sh
      let buffer ← grisuRound delta tk wpw roundFuel buffer tmp
      .ok (buffer, (kappa : Int))
    else genInt sh onef wpw p2 delta kappa p1 (div / 10) buffer

/-- `digit_gen` (dtoa.hpp 454-498) started with the empty buffer and `K`: the buffer and the final `K`. -/
def digitGen (W Mp delta : DiyFp) (K : Int) : Res (List Char × Int) := do
  let onef ← shl 1 (-Mp.e)
  let wpw ← DiyFp.sub Mp W
  let p1 ← shr Mp.f (-Mp.e)
  let p1 := u32 p1
  let p2 := Mp.f &&& u64sub onef 1
  let (buffer, kappa) ← genInt (-Mp.e) onef wpw.f p2 delta.f 10 p1 TEN9 []
  .ok (buffer, K + kappa)

/-- `grisu2` (dtoa.hpp 500-515). -/
def grisu2 (v : Nat) : Res (List Char × Int) := do
  let q : Int := 64
  let alpha : Int := -59
  let (wm, wp) ← (DiyFp.ofBits v).normalizedBoundaries
  let w ← (DiyFp.ofBits v).normalize
  let mk := kComp (wp.e + q) alpha
  let cmk ← cachedPower mk
  let W := w.mul cmk
  let Wp := wp.mul cmk
  let Wm := wm.mul cmk
  let Wm : DiyFp := ⟨u64 (Wm.f + 1), Wm.e⟩
  let Wp : DiyFp := ⟨u64sub Wp.f 1, Wp.e⟩
  let delta ← Wp.sub Wm
  digitGen W Wp delta (-mk)

/-- the character `'0' + d`. -/
def digitChar (d : Int) : Char := Char.ofNat (48 + d).toNat

/-- `fill_exponent` (dtoa.hpp 517-541): what is appended to the buffer. -/
def fillExponent (K : Int) : List Char :=
  let sign := if K < 0 then ['-'] else []
  let K := if K < 0 then -K else K
  sign ++
    (if K ≥ 100 then [digitChar (K / 100), digitChar (K % 100 / 10), digitChar (K % 100 % 10)]
     else if K ≥ 10 then [digitChar (K / 10), digitChar (K % 10)]
     else [digitChar K])

/-- `prettify_string` (dtoa.hpp 543-581). `insert(end, n, '0')` with a negative `n` converts it to a huge `size_t` and
raises `std::length_error`. -/
def prettify (buffer : List Char) (k : Int) : Res (List Char) :=
  let nb : Int := buffer.length
  let kk := nb + k
  if nb ≤ kk ∧ kk ≤ 21 then
    if kk - 1 < 0 then .exn "length_error"
    else .ok (buffer ++ List.replicate (kk - 1).toNat '0' ++ ['.', '0'])
  else if 0 < kk ∧ kk ≤ 21 then
    .ok (buffer.take kk.toNat ++ ['.'] ++ buffer.drop kk.toNat)
  else if -6 < kk ∧ kk ≤ 0 then
    .ok (['0', '.'] ++ List.replicate (-kk).toNat '0' ++ buffer)
  else if nb = 1 then .ok (buffer ++ ['e'] ++ fillExponent (kk - 1))
  else
    match buffer with
    | [] => .ub "iterator range"
    | c :: t => .ok ([c] ++ ['.'] ++ t ++ ['e'] ++ fillExponent (kk - 1))

/-- `fill_double` (dtoa.hpp 583-589). -/
def fillDouble (v : Nat) : Res (List Char) := do
  let (buffer, K) ← grisu2 v
  prettify buffer K

/-- `value == 0` on bit patterns: both zeros. -/
def isZero (v : Nat) : Bool := v % 2 ^ 63 = 0
/-- the pattern of a NaN. -/
def isNaN (v : Nat) : Bool := v % 2 ^ 63 > EXPMASK
/-- `value < 0`: the sign bit, unless zero or NaN. -/
def isNeg (v : Nat) : Bool := !isZero v && !isNaN v && (v &&& SIGNMASK != 0)
/-- `std::abs`: clears the sign bit. -/
def absBits (v : Nat) : Nat := v % 2 ^ 63

/-- `dtoa` (dtoa.hpp 591-605). -/
def dtoa (v : Nat) : Res (List Char) := do
  if isZero v && (v &&& SIGNMASK != 0) then .ok ['-', '0', '.', '0']
  else do
    let buffer ← (if isZero v then .ok ['0', '.', '0'] else fillDouble (absBits v) : Res (List Char))
    if isNeg v then .ok (['-'] ++ buffer) else .ok buffer

end Symxx.Dtoa
