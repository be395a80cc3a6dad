import Verif.Machine
import Mathlib.Data.Nat.Digits.Lemmas
import Mathlib.Data.Nat.Digits.Defs
import Mathlib.Data.Nat.Size
/-!
# 128-bit strings of int_adapter.hpp (model and proofs)
-/
namespace Symxx.Int128

/-- `for (; tmp != 0; tmp >>= 1) ++k;` (int_adapter.hpp 180-183); 128 rounds are enough. -/
def bitLoop : Nat → Nat → Nat → Nat
  | 0, _, k => k
  | f + 1, tmp, k => if tmp ≠ 0 then bitLoop f (tmp >>> 1) (k + 1) else k

/-- `adapter_bit_width(__int128)` (int_adapter.hpp 172-185); `std::abs` of the minimum overflows. -/
def bitWidth (d : Int) : Res Nat :=
  if d = -maxI128 - 1 then .ub "std::abs of the minimum" else .ok (bitLoop 128 d.natAbs 0)

/-- `static_cast<size_t>(double(bw) / 3.32192809488736234) + 1` (int_adapter.hpp 170, 191, 208). The
double division is replaced by the exact quotient of the decimal literal: for the 129 possible
arguments 0..128 no quotient is within 10^-3 of an integer except at 0, so rounding cannot matter. -/
def strSize (bw : Nat) : Nat := bw * 100000000000000000 / 332192809488736234 + 1

/-- the characters written by `for (rem = ...; rem > 0; rem /= 10) *rit++ = '0' + rem % 10`
(int_adapter.hpp 195-198, 211-214), least significant first; 40 rounds are enough. -/
def decChars : Nat → Nat → List Char
  | 0, _ => []
  | f + 1, rem => if rem > 0 then Char.ofNat (48 + rem % 10) :: decChars f (rem / 10) else []

/-- the body of both `adapter_to_string` functions (int_adapter.hpp 187-202, 204-217): a buffer of
`sz` NUL characters is filled from the right, `ret[0] = '-'` for a negative number, and one leading
NUL is erased. -/
def fill (sz : Nat) (neg : Bool) (mag : Nat) : Res (List Char) :=
  let ds := decChars 40 mag
  if sz < ds.length then .ub "write before the beginning of the string"
  else
    let ret := List.replicate (sz - ds.length) '\x00' ++ ds.reverse
    let ret := if neg then ret.set 0 '-' else ret
    .ok (if ret.head? = some '\x00' then ret.drop 1 else ret)

/-- `adapter_to_string(const __int128_t &)` (int_adapter.hpp 187-202). -/
def toStr (num : Int) : Res (List Char) := do
  let bw ← bitWidth num
  let sz := strSize bw
  let sz := if num < 0 then sz + 1 else sz
  fill sz (decide (num < 0)) num.natAbs

/-- `adapter_to_string(const __uint128_t &)` (int_adapter.hpp 204-217): `adapter_bit_width` takes a
signed argument, so `num` is first converted (modularly) to `__int128`. -/
def toStrU (num : Nat) : Res (List Char) := do
  let bw ← bitWidth (wrap maxI128 num)
  fill (strSize bw) false num

/-- loop of `adapter_to_int128` (int_adapter.hpp 229-238): `m *= 10; m += s[i] - 48`. -/
def toInt : List Char → Int → Res Int
  | [], m => .ok m
  | c :: cs, m => do
    let m10 ← chk maxI128 (m * 10)
    let m ← chk maxI128 (m10 + ((c.toNat : Int) - 48))
    toInt cs m

/-- `adapter_to_int<__int128_t>` (int_adapter.hpp 251-255). -/
def ofStr (s : List Char) : Res Int := toInt s 0

/-- `adapter_to_uint128` (int_adapter.hpp 240-249): wrap-around arithmetic; `s[i] - 48` is an `int`
converted to unsigned. -/
def toUInt : List Char → Nat → Nat
  | [], m => m
  | c :: cs, m => toUInt cs ((((m * 10 % 2 ^ 128 : Nat) : Int) + ((c.toNat : Int) - 48)) % 2 ^ 128).toNat

/-! ## Proofs -/

theorem bitLoop_eq (f n k : Nat) (h : n < 2 ^ f) : bitLoop f n k = k + Nat.size n := by
  induction f generalizing n k with
  | zero =>
    have : n = 0 := by simpa using h
    subst this; simp [bitLoop]
  | succ f ih =>
    unfold bitLoop
    by_cases h0 : n = 0
    · subst h0; simp
    · rw [if_pos h0, ih _ _ (by rw [Nat.shiftRight_eq_div_pow, pow_one]; rw [pow_succ] at h; omega)]
      have : Nat.size n = Nat.size (n >>> 1) + 1 := by
        have e := Nat.bit_bodd_div2 n
        have hb : Nat.bit n.bodd n.div2 ≠ 0 := by rw [e]; exact h0
        have := Nat.size_bit hb
        rw [e] at this
        rw [this, Nat.div2_val, Nat.shiftRight_eq_div_pow, pow_one]
      omega

theorem strSize_bounds : ∀ bw < 129, 0 < bw → 2 ^ bw ≤ 10 ^ strSize bw ∧ 10 ^ (strSize bw - 2) ≤ 2 ^ (bw - 1) := by
  decide +kernel

theorem digitChar_ofNat : ∀ d < 10, Nat.digitChar d = Char.ofNat (48 + d) := by decide

theorem decChars_zero (f : Nat) : decChars f 0 = [] := by cases f <;> simp [decChars]

theorem decChars_eq (f n : Nat) (h : n < 10 ^ f) (h0 : 0 < n) :
    (decChars f n).reverse = Nat.toDigits 10 n := by
  induction f generalizing n with
  | zero => rw [pow_zero] at h; omega
  | succ f ih =>
    unfold decChars
    rw [if_pos h0, List.reverse_cons, ← digitChar_ofNat (n % 10) (by omega)]
    by_cases hlt : n < 10
    · have : n / 10 = 0 := by omega
      rw [Nat.toDigits_of_lt_base hlt, this, decChars_zero, Nat.mod_eq_of_lt hlt]; rfl
    · rw [Nat.toDigits_of_base_le (by norm_num) (by omega),
        ih _ (by rw [pow_succ] at h; omega) (by omega)]

theorem toDigits_head (n : Nat) (h : 0 < n) : (Nat.toDigits 10 n).head? ≠ some '\x00' := by
  intro he
  have hm : '\x00' ∈ Nat.toDigits 10 n := List.mem_of_mem_head? he
  have := Nat.isDigit_of_mem_toDigits (by omega) (by omega) hm
  revert this; decide

theorem log_bounds (n : Nat) (h0 : 0 < n) (h : n < 2 ^ 128) :
    (Nat.toDigits 10 n).length ≤ strSize (Nat.size n) ∧
    strSize (Nat.size n) ≤ (Nat.toDigits 10 n).length + 1 := by
  have hs : 0 < Nat.size n := Nat.size_pos.2 h0
  have hs2 : Nat.size n < 129 := Nat.lt_succ_of_le (Nat.size_le.2 h)
  obtain ⟨b1, b2⟩ := strSize_bounds _ hs2 hs
  have l1 : n < 2 ^ Nat.size n := Nat.lt_size_self n
  have l2 : 2 ^ (Nat.size n - 1) ≤ n := by
    have : Nat.size n - 1 < Nat.size n := by omega
    exact Nat.lt_size.1 this
  constructor
  · exact (Nat.length_toDigits_le_iff (by norm_num) (by unfold strSize; omega)).2 (by omega)
  · by_contra hc
    have hc' : (Nat.toDigits 10 n).length ≤ strSize (Nat.size n) - 2 := by omega
    have hp : 0 < strSize (Nat.size n) - 2 := by
      have : 0 < (Nat.toDigits 10 n).length := List.length_pos_iff.2 (Nat.toDigits_ne_nil)
      omega
    have := (Nat.length_toDigits_le_iff (by norm_num) hp).1 hc'
    omega

theorem bitWidth_eq (d : Int) (h1 : -maxI128 ≤ d) (h2 : d ≤ maxI128) :
    bitWidth d = .ok (Nat.size d.natAbs) := by
  unfold bitWidth
  rw [if_neg (by omega), bitLoop_eq _ _ _ (by unfold maxI128 at *; omega), Nat.zero_add]

/-- what `fill` returns for a non-zero magnitude and a buffer that is large enough. -/
theorem fill_eq (sz mag : Nat) (neg : Bool) (h0 : 0 < mag) (h : mag < 10 ^ 40)
    (hl : (Nat.toDigits 10 mag).length ≤ sz) (hneg : neg = true → (Nat.toDigits 10 mag).length < sz) :
    fill sz neg mag = .ok (if neg then '-' :: (List.replicate (sz - 1 - (Nat.toDigits 10 mag).length) '\x00' ++
        Nat.toDigits 10 mag)
      else List.replicate (sz - (Nat.toDigits 10 mag).length - 1) '\x00' ++ Nat.toDigits 10 mag) := by
  have e := decChars_eq 40 mag h h0
  have el : (decChars 40 mag).length = (Nat.toDigits 10 mag).length := by rw [← e, List.length_reverse]
  unfold fill
  simp only [e, el]
  rw [if_neg (by omega)]
  have hhead := toDigits_head mag h0
  generalize hD : Nat.toDigits 10 mag = D at *
  cases neg with
  | true =>
    obtain ⟨k, hk⟩ : ∃ k, sz - D.length = k + 1 := ⟨sz - D.length - 1, by have := hneg rfl; omega⟩
    have hk' : sz - 1 - D.length = k := by omega
    rw [hk, hk']
    simp [List.replicate_succ]
  | false =>
    refine congrArg Res.ok ?_
    simp only [Bool.false_eq_true, if_false]
    cases hk : sz - D.length with
    | zero => simp [hhead]
    | succ k => simp [List.replicate_succ]

theorem pow_bound {n : Nat} (h : n < 2 ^ 128) : n < 10 ^ 40 := lt_trans h (by norm_num)

/-- exact description of `adapter_to_string(__int128)` for every number but the minimum. -/
theorem toStr_spec (n : Int) (h1 : -maxI128 ≤ n) (h2 : n ≤ maxI128) :
    toStr n = .ok (if n = 0 then []
      else if 0 < n then Nat.toDigits 10 n.natAbs
      else '-' :: (List.replicate (strSize (Nat.size n.natAbs) - (Nat.toDigits 10 n.natAbs).length) '\x00' ++
        Nat.toDigits 10 n.natAbs)) := by
  have hlt : n.natAbs < 2 ^ 128 := by unfold maxI128 at *; omega
  unfold toStr
  rw [bitWidth_eq n h1 h2]
  simp only [Res.bind_ok]
  rcases lt_trichotomy n 0 with hn | hn | hn
  · have hb := log_bounds n.natAbs (by omega) hlt
    rw [if_neg (by omega : ¬ n = 0), if_neg (by omega : ¬ 0 < n), if_pos hn,
      fill_eq _ _ _ (by omega) (pow_bound hlt) (by omega) (fun _ => by omega)]
    simp [hn]
  · subst hn; decide
  · have hb := log_bounds n.natAbs (by omega) hlt
    have hn' : ¬ n < 0 := by omega
    rw [if_neg (by omega : ¬ n = 0), if_pos hn, if_neg hn',
      fill_eq _ _ _ (by omega) (pow_bound hlt) (by omega) (fun h => by simp [hn'] at h)]
    have : strSize (Nat.size n.natAbs) - (Nat.toDigits 10 n.natAbs).length - 1 = 0 := by omega
    simp [hn', this]

/-- the numeral value of a digit string, continuing from `m`. -/
theorem toInt_digits (cs : List Char) (hcs : ∀ c ∈ cs, '0' ≤ c ∧ c ≤ '9') (m : Int) (hm : 0 ≤ m) :
    (cs.foldl (fun v c => v * 10 + ((c.toNat : Int) - 48)) m ≤ maxI128 →
      toInt cs m = .ok (cs.foldl (fun v c => v * 10 + ((c.toNat : Int) - 48)) m)) ∧
    m ≤ cs.foldl (fun v c => v * 10 + ((c.toNat : Int) - 48)) m := by
  induction cs generalizing m with
  | nil => exact ⟨fun _ => rfl, le_rfl⟩
  | cons c cs ih =>
    have hc := hcs c (by simp)
    have hc1 : 48 ≤ c.toNat := hc.1
    have hc2 : c.toNat ≤ 57 := hc.2
    obtain ⟨i1, i2⟩ := ih (fun d hd => hcs d (by simp [hd])) (m * 10 + ((c.toNat : Int) - 48)) (by omega)
    simp only [List.foldl_cons]
    refine ⟨fun hle => ?_, by omega⟩
    unfold toInt
    rw [chk_ok ⟨by unfold maxI128 at *; omega, by omega⟩]
    simp only [Res.bind_ok]
    rw [chk_ok ⟨by unfold maxI128 at *; omega, by omega⟩]
    exact i1 hle

theorem toUInt_digits (cs : List Char) (hcs : ∀ c ∈ cs, '0' ≤ c ∧ c ≤ '9') (m : Nat) :
    (toUInt cs (m % 2 ^ 128) : Int) = cs.foldl (fun v c => v * 10 + ((c.toNat : Int) - 48)) (m : Int) % 2 ^ 128 := by
  induction cs generalizing m with
  | nil => simp [toUInt]
  | cons c cs ih =>
    have hc := hcs c (by simp)
    have hc1 : 48 ≤ c.toNat := hc.1
    unfold toUInt
    have e : ((((m % 2 ^ 128 * 10 % 2 ^ 128 : Nat) : Int) + ((c.toNat : Int) - 48)) % 2 ^ 128).toNat =
        (m * 10 + (c.toNat - 48)) % 2 ^ 128 := by omega
    rw [e, ih (fun d hd => hcs d (by simp [hd])), List.foldl_cons]
    congr 2
    push_cast [Nat.cast_sub hc1]
    ring

end Symxx.Int128
