import Verif.Factor.Rho
import Verif.Factor.Any
import Verif.Adapter.Int128
import Mathlib.Data.Nat.Factors
import Mathlib.Tactic.NormNum.Prime
/-!
# Properties of int_adapter.hpp and factorize.hpp (C17-C26)

`M` is the maximum of the signed integer type `T` (`maxI64` for `int64_t`, `maxI128` for
`__int128_t`). `PrimeInt n` says `n` is a (positive) prime number. A list of `draws` stands for the
outcomes of `std::random_device`; the outcome `fuel` means that the supplied draws are used up.
-/
namespace Symxx.Factor

/-! ## C17, C18 decimal strings of 128-bit integers -/

theorem toString_nat (n : Nat) : (toString n).toList = Nat.toDigits 10 n := Nat.toList_repr

theorem toString_int_pos (z : Int) (hz : 0 ≤ z) : (toString z).toList = Nat.toDigits 10 z.natAbs := by
  cases z with
  | ofNat n => exact toString_nat n
  | negSucc n => simp at hz

theorem toString_int_neg (z : Int) (hz : z < 0) : (toString z).toList = '-' :: Nat.toDigits 10 z.natAbs := by
  cases z with
  | ofNat n => simp at hz; omega
  | negSucc n =>
    change ("-" ++ Nat.repr (n + 1)).toList = _
    rw [String.toList_append, Nat.toList_repr]
    rfl

/-- C17 (partial): `adapter_to_string(__int128)` prints the decimal numeral of every positive
number; for a negative number other than the minimum it prints the numeral, possibly with one NUL
character after the sign; for 0 the empty string. Missing: negative numbers whose buffer is one too
long (`C17_negative_nul`), zero (`C17_zero`) and the minimum (`C17_minimum`). -/
theorem C17_int128_to_string_partial (n : Int) (h1 : -maxI128 ≤ n) (h2 : n ≤ maxI128) :
    (0 < n → Int128.toStr n = .ok (toString n).toList) ∧
    (n < 0 → Int128.toStr n = .ok (toString n).toList ∨
      Int128.toStr n = .ok ('-' :: '\x00' :: (toString n).toList.drop 1)) := by
  have hs := Int128.toStr_spec n h1 h2
  constructor
  · intro h
    rw [hs, if_neg (by omega), if_pos h, toString_int_pos n (by omega)]
  · intro h
    have hlt : n.natAbs < 2 ^ 128 := by unfold maxI128 at *; omega
    have hb := Int128.log_bounds n.natAbs (by omega) hlt
    rw [hs, if_neg (by omega), if_neg (by omega), toString_int_neg n h]
    rcases Nat.eq_or_lt_of_le hb.1 with e | e
    · left; rw [e]; simp
    · right
      have : Int128.strSize (Nat.size n.natAbs) - (Nat.toDigits 10 n.natAbs).length = 1 := by omega
      rw [this]; rfl

/-- the same for unsigned numbers below `2^127`. -/
theorem C17_uint128_to_string_partial (n : Nat) (h0 : 0 < n) (h : (n : Int) ≤ maxI128) :
    Int128.toStrU n = .ok (toString n).toList := by
  have hM : maxI128 = 2 ^ 127 - 1 := rfl
  have hp : (0 : Int) ≤ maxI128 := by rw [hM]; norm_num
  have hlt : n < 2 ^ 128 := by
    have : (n : Int) < ((2 ^ 128 : Nat) : Int) := by
      rw [hM] at h; push_cast; exact lt_of_le_of_lt h (by norm_num)
    exact_mod_cast this
  have hb := Int128.log_bounds n h0 hlt
  have hf := Int128.fill_eq (Int128.strSize (Nat.size n)) n false h0 (Int128.pow_bound hlt) hb.1 (by simp)
  have hz : Int128.strSize (Nat.size n) - (Nat.toDigits 10 n).length - 1 = 0 := by omega
  have hw : Int128.bitWidth (wrap maxI128 n) = .ok (Nat.size n) := by
    rw [wrap_of_range ⟨by omega, h⟩, Int128.bitWidth_eq _ (by omega) h, Int.natAbs_natCast]
  unfold Int128.toStrU
  rw [hw, Res.bind_ok, hf, hz, toString_nat]
  rfl

/-- C17 is false: `0` prints as the empty string. -/
theorem C17_zero : Int128.toStr 0 = .ok [] := by decide
/-- C17 is false: `-8` prints with a NUL character, although `-5` prints correctly. -/
theorem C17_negative_nul : Int128.toStr (-8) = .ok ['-', '\x00', '8'] ∧
    Int128.toStr (-5) = .ok ['-', '5'] := by decide +kernel
/-- C17 is false: the minimum is undefined. -/
theorem C17_minimum : Int128.toStr (-maxI128 - 1) = .ub "std::abs of the minimum" := by decide +kernel
/-- C17 is false for unsigned numbers: `2^128 - 1` writes before the beginning of the string. -/
theorem C17_unsigned : Int128.toStrU (2 ^ 128 - 1) =
    .ub "write before the beginning of the string" := by decide +kernel

theorem strSize_le_iff : ∀ b < 129, ∀ k < 41, Int128.strSize b ≤ k ↔ 2 ^ b < 10 ^ k := by decide +kernel

theorem length_digits_le {n : Nat} (h : n < 10 ^ 40) : (Nat.toDigits 10 n).length ≤ 40 :=
  (Nat.length_toDigits_le_iff (by norm_num) (by norm_num)).2 h

/-- C17, exactly: a signed number is printed as its numeral if it is positive, or if it is negative, not the minimum, and the next
power of two above its magnitude (`2^size`) has no more decimal digits than the magnitude; zero is the empty text, the minimum is
undefined, and all other negative numbers have a NUL character after the sign. -/
theorem C17_exact (n : Int) (h1 : -maxI128 - 1 ≤ n) (h2 : n ≤ maxI128) :
    Int128.toStr n = .ok (toString n).toList ↔
      0 < n ∨ (n < 0 ∧ n ≠ -maxI128 - 1 ∧ 2 ^ Nat.size n.natAbs < 10 ^ (toString n.natAbs).length) := by
  by_cases hm : n = -maxI128 - 1
  · subst hm
    rw [C17_minimum]
    refine ⟨fun h => (by cases h), fun h => ?_⟩
    rcases h with h | h
    · exact absurd h (by decide)
    · exact absurd rfl h.2.1
  have hs := Int128.toStr_spec n (by omega) h2
  rcases lt_trichotomy n 0 with h | h | h
  · have hlt : n.natAbs < 2 ^ 128 := by unfold maxI128 at *; omega
    have hb := Int128.log_bounds n.natAbs (by omega) hlt
    have hlen : (toString n.natAbs).length = (Nat.toDigits 10 n.natAbs).length := by
      rw [← String.length_toList, toString_nat]
    have hs2 : Nat.size n.natAbs < 129 := Nat.lt_succ_of_le (Nat.size_le.2 hlt)
    have h40 := length_digits_le (Int128.pow_bound hlt)
    have hiff := strSize_le_iff _ hs2 (Nat.toDigits 10 n.natAbs).length (by omega)
    rw [hs, if_neg (by omega), if_neg (by omega), toString_int_neg n h, hlen, ← hiff]
    constructor
    · intro he
      refine Or.inr ⟨h, hm, ?_⟩
      by_contra hc
      have : Int128.strSize (Nat.size n.natAbs) - (Nat.toDigits 10 n.natAbs).length = 1 := by omega
      rw [this] at he
      have := congrArg List.length (Res.ok.inj he)
      simp at this
    · rintro (h0 | ⟨-, -, h0⟩)
      · omega
      · have : Int128.strSize (Nat.size n.natAbs) - (Nat.toDigits 10 n.natAbs).length = 0 := by omega
        rw [this]
        rfl
  · subst h
    rw [C17_zero]
    refine ⟨fun h => ?_, fun h => by omega⟩
    have := congrArg List.length (Res.ok.inj h)
    revert this
    decide
  · rw [hs, if_neg (by omega), if_pos h, toString_int_pos n (by omega)]
    exact ⟨fun _ => Or.inl h, fun _ => rfl⟩

/-- C17, exactly, for unsigned numbers: printed as the numeral if positive and below `2^127`, or above it and at most `3*2^126`; zero
is the empty text and everything else is undefined. -/
theorem C17_unsigned_exact (n : Nat) (h : n < 2 ^ 128) :
    (0 < n ∧ n < 2 ^ 127 ∨ 2 ^ 127 < n ∧ n ≤ 3 * 2 ^ 126 → Int128.toStrU n = .ok (toString n).toList) ∧
    (n = 0 → Int128.toStrU n = .ok []) ∧
    (n = 2 ^ 127 ∨ 3 * 2 ^ 126 < n → ∃ m, Int128.toStrU n = .ub m) := by
  have hM : maxI128 = 2 ^ 127 - 1 := rfl
  -- the bit width of numbers above `2^127`
  have high : 2 ^ 127 < n → Int128.bitWidth (wrap maxI128 n) = .ok (Nat.size (2 ^ 128 - n)) ∧ (Nat.toDigits 10 n).length = 39 := by
    intro hn
    have hw : wrap maxI128 n = (n : Int) - 2 ^ 128 := by
      unfold wrap
      rw [hM]
      omega
    constructor
    · have hab : ((n : Int) - 2 ^ 128).natAbs = 2 ^ 128 - n := by omega
      rw [hw, Int128.bitWidth_eq _ (by rw [hM]; omega) (by rw [hM]; omega), hab]
    · have a1 := (Nat.length_toDigits_le_iff (n := n) (b := 10) (k := 39) (by norm_num) (by norm_num)).2 (lt_trans h (by norm_num))
      have a2 : ¬ (Nat.toDigits 10 n).length ≤ 38 := fun hc => by
        have := (Nat.length_toDigits_le_iff (n := n) (b := 10) (k := 38) (by norm_num) (by norm_num)).1 hc
        omega
      omega
  refine ⟨?_, ?_, ?_⟩
  · rintro (⟨a, b⟩ | ⟨a, b⟩)
    · exact C17_uint128_to_string_partial n a (by rw [hM]; omega)
    · obtain ⟨h3, h4⟩ := high a
      have hsz : Nat.size (2 ^ 128 - n) = 127 := by
        have a1 : Nat.size (2 ^ 128 - n) ≤ 127 := Nat.size_le.2 (by omega)
        have a2 : 126 < Nat.size (2 ^ 128 - n) := Nat.lt_size.2 (by omega)
        omega
      have hf := Int128.fill_eq (Int128.strSize 127) n false (by omega) (Int128.pow_bound h) (by rw [h4]; decide) (by simp)
      unfold Int128.toStrU
      rw [h3, Res.bind_ok, hsz, hf, h4, toString_nat]
      rfl
  · rintro rfl
    decide +kernel
  · rintro (rfl | hn)
    · exact ⟨"std::abs of the minimum", by decide +kernel⟩
    · obtain ⟨h3, h4⟩ := high (by omega)
      refine ⟨"write before the beginning of the string", ?_⟩
      have hsz : Nat.size (2 ^ 128 - n) ≤ 126 := Nat.size_le.2 (by omega)
      have hss : Int128.strSize (Nat.size (2 ^ 128 - n)) ≤ 38 := by
        unfold Int128.strSize
        omega
      unfold Int128.toStrU
      rw [h3, Res.bind_ok]
      unfold Int128.fill
      have e := Int128.decChars_eq 40 n (Int128.pow_bound h) (by omega)
      have el : (Int128.decChars 40 n).length = (Nat.toDigits 10 n).length := by rw [← e, List.length_reverse]
      simp only [el, h4]
      rw [if_pos (by omega)]

/-- `-5` is right, `-8` is not; `3*2^126` is right, the next number is undefined. -/
example : Int128.toStr (-5) = .ok (toString (-5 : Int)).toList ∧ ¬ Int128.toStr (-8) = .ok (toString (-8 : Int)).toList ∧
    Int128.toStrU (3 * 2 ^ 126) = .ok (toString (3 * 2 ^ 126 : Nat)).toList :=
  ⟨(C17_exact (-5) (by decide) (by decide)).2 (Or.inr ⟨by decide, by decide, by decide +kernel⟩),
    fun h => by
      have := (C17_exact (-8) (by decide) (by decide)).1 h
      revert this
      decide +kernel,
    (C17_unsigned_exact _ (by norm_num)).1 (Or.inr ⟨by norm_num, le_rfl⟩)⟩

example : Int128.toStr (2 ^ 127 - 1) = .ok (toString (2 ^ 127 - 1 : Int)).toList :=
  (C17_int128_to_string_partial _ (by decide) (by decide)).1 (by decide)

/-- the number a string of decimal digits denotes. -/
def numeral (s : List Char) : Int := s.foldl (fun v c => v * 10 + ((c.toNat : Int) - 48)) 0

/-- C18 (partial): every unsigned decimal numeral in range is read exactly. Missing: signs
(`C18_sign`). -/
theorem C18_string_to_int128_partial (s : List Char) (hs : ∀ c ∈ s, '0' ≤ c ∧ c ≤ '9')
    (hr : numeral s ≤ maxI128) : Int128.ofStr s = .ok (numeral s) :=
  (Int128.toInt_digits s hs 0 le_rfl).1 hr

/-- C18 for `adapter_to_uint128`: every string of digits is read as its number modulo `2^128`, so exactly
when it is below `2^128`. -/
theorem C18_string_to_uint128 (s : List Char) (hs : ∀ c ∈ s, '0' ≤ c ∧ c ≤ '9') :
    (Int128.toUInt s 0 : Int) = numeral s % 2 ^ 128 ∧ (numeral s < 2 ^ 128 → Int128.toUInt s 0 = numeral s) := by
  have h : (Int128.toUInt s 0 : Int) = numeral s % 2 ^ 128 := Int128.toUInt_digits s hs 0
  refine ⟨h, fun hl => ?_⟩
  rw [h]
  exact Int.emod_eq_of_lt (le_trans (by norm_num) (Int128.toInt_digits s hs 0 le_rfl).2) hl

/-- the maximum of `unsigned __int128` is read exactly, the next number as zero. -/
theorem uint128_examples :
    Int128.toUInt "340282366920938463463374607431768211455".toList 0 = 2 ^ 128 - 1 ∧
    Int128.toUInt "340282366920938463463374607431768211456".toList 0 = 0 := by decide +kernel
example : (Int128.toUInt "340282366920938463463374607431768211455".toList 0 : Int) =
    numeral "340282366920938463463374607431768211455".toList :=
  (C18_string_to_uint128 _ (by decide +kernel)).2 (by decide +kernel)

/-- the numeral printed by `toString` denotes the number (so C18 composes with C17). -/
theorem numeral_toDigits (n : Nat) : numeral (Nat.toDigits 10 n) = n := by
  induction n using Nat.strong_induction_on with
  | _ n ih =>
    by_cases hlt : n < 10
    · rw [Nat.toDigits_of_lt_base hlt]
      have key : ∀ d < 10, numeral [Nat.digitChar d] = (d : Int) := by decide
      exact key n hlt
    · rw [Nat.toDigits_of_base_le (by norm_num) (by omega)]
      have h := ih (n / 10) (by omega)
      unfold numeral at h ⊢
      rw [List.foldl_append, h]
      have key : ∀ d < 10, ((Nat.digitChar d).toNat : Int) - 48 = (d : Int) := by decide
      simp only [List.foldl_cons, List.foldl_nil]
      rw [key (n % 10) (by omega)]
      omega

/-- C18 with C17: reading back what `adapter_to_string` printed gives the number. -/
theorem C18_roundtrip_partial (n : Int) (h0 : 0 < n) (h : n ≤ maxI128) :
    ∃ s, Int128.toStr n = .ok s ∧ Int128.ofStr s = .ok n := by
  have h1 : -maxI128 ≤ n := by unfold maxI128 at *; omega
  refine ⟨_, (C17_int128_to_string_partial n h1 h).1 h0, ?_⟩
  rw [toString_int_pos n h0.le]
  have e := numeral_toDigits n.natAbs
  rw [C18_string_to_int128_partial _ ?_ (by rw [e]; omega), e]
  · exact congrArg Res.ok (by omega)
  · intro c hc
    have := Nat.isDigit_of_mem_toDigits (by omega) (by omega) hc
    simp only [Char.isDigit, Bool.and_eq_true, decide_eq_true_eq] at this
    exact this

/-- C18 is false for signed numerals: `"-5"` is read as `-25`. -/
theorem C18_sign : Int128.ofStr ['-', '5'] = .ok (-25) := by decide

example : Int128.ofStr ['1', '2', '3'] = .ok 123 := by decide

/-! ## C19 mulmod -/

/-- C19: `adapter_mulmod(a, b, m) = a*b mod m`, without overflow. -/
theorem C19_mulmod (M a b m : Int) (hm : 0 < m) (hM : 2 * m ≤ M) (ha : 0 ≤ a) (hb : 0 ≤ b)
    (hbm : b ≤ m) : mulmod M a b m = .ok (a * b % m) := mulmod_spec M a b m hm hM ha hb hbm

example : mulmod maxI64 (2 ^ 61 + 5) (2 ^ 61 + 3) (2 ^ 62 - 1) =
    .ok ((2 ^ 61 + 5) * (2 ^ 61 + 3) % (2 ^ 62 - 1)) :=
  C19_mulmod _ _ _ _ (by decide) (by decide) (by decide) (by decide) (by decide)

/-! ## C20 modpow -/

/-- C20: `adapter_modpow(b, e, m) = b^e mod m` whenever `(m-1)^2` is representable. -/
theorem C20_modpow (M b e m : Int) (hm : 1 < m) (hM : (m - 1) * (m - 1) ≤ M) (hb : 0 ≤ b)
    (he : 0 ≤ e) : modpow M b e m = .ok (b ^ e.toNat % m) := modpow_spec M b e m hm hM hb he

/-- C20: outside that range an `int64_t` computation overflows, e.g. `2^64 mod (2^40+1)`. -/
theorem C20_overflow : modpow maxI64 2 64 (2 ^ 40 + 1) = .ub "signed overflow" := by decide +kernel

example : modpow maxI64 3 1000 1000003 = .ok (3 ^ 1000 % 1000003) :=
  C20_modpow _ _ _ _ (by decide) (by decide) (by decide) (by decide)

/-! ## C21, C22, C23 is_prime -/

/-- C21 (partial): for every `n < 9006403` other than 9006401 and every type with
`9006402^2 ≤ max`, `is_prime(n)` returns without overflow and is exact. Missing: 9006401
(`C21_fails`). -/
theorem C21_is_prime_small_partial (M n : Int) (hn : n < 9006403) (hex : n ≠ 9006401)
    (hM : 9006402 * 9006402 ≤ M) : ∃ b, isPrime M n = .ok b ∧ (b = true ↔ PrimeInt n) :=
  isPrime_small M n hn hex hM

/-- C21 is false: `is_prime(9006401)` is true, but `9006401 = 1733 * 5197`. -/
theorem C21_fails : isPrime maxI64 9006401 = .ok true ∧ (9006401 : Int) = 1733 * 5197 ∧
    ¬ PrimeInt 9006401 := by
  refine ⟨by decide +kernel, by norm_num, ?_⟩
  rintro ⟨-, h⟩
  revert h
  rw [show Int.toNat 9006401 = 9006401 from rfl]
  norm_num

example : (8999999 : Int) < 9006403 ∧ 9006402 * 9006402 ≤ maxI64 := by decide

/-- C22: every prime `n` with `(n-1)^2` and `2n` representable is accepted, and no composite is
rejected by mistake: a `false` answer proves that `n` is not prime. -/
theorem C22_primes_accepted (M n : Int) (hM : (n - 1) * (n - 1) ≤ M) (hM2 : 2 * n ≤ M)
    (hp : PrimeInt n) : isPrime M n = .ok true := by
  obtain ⟨b, h1, h2, -⟩ := isPrime_total M n (Or.inl ⟨hM, hM2⟩)
  rw [h1, h2 hp]

theorem C22_false_means_composite (M n : Int) (hM : (n - 1) * (n - 1) ≤ M) (hM2 : 2 * n ≤ M)
    (h : isPrime M n = .ok false) : ¬ PrimeInt n := by
  intro hp
  rw [C22_primes_accepted M n hM hM2 hp] at h
  cases h

example : PrimeInt 10000019 ∧ ((10000019 - 1) * (10000019 - 1) : Int) ≤ maxI64 :=
  ⟨⟨by norm_num, by rw [show Int.toNat 10000019 = 10000019 from rfl]; norm_num⟩, by decide⟩

/-- C23 (partial): the answer is always defined; below 9006403 (9006401 excluded) composites are
rejected; above, an accepted number is at least a Fermat pseudoprime to base 2 (so a composite that
fails Fermat's test to base 2 is rejected). Missing: pseudoprimes (`C23_fails`). -/
theorem C23_composites_partial (M n : Int) (hM : (n - 1) * (n - 1) ≤ M) (hM2 : 2 * n ≤ M)
    (hM3 : 9006402 * 9006402 ≤ M) (hc : ¬ PrimeInt n) :
    (n < 9006403 → n ≠ 9006401 → isPrime M n = .ok false) ∧
    (9006403 ≤ n → isPrime M n = .ok false ∨
      (isPrime M n = .ok true ∧ 2 ^ (n.toNat - 1) % n.toNat = 1)) := by
  constructor
  · intro h1 h2
    obtain ⟨b, e, hb⟩ := isPrime_small M n h1 h2 hM3
    have : b = false := by
      cases b with
      | false => rfl
      | true => exact absurd (hb.1 rfl) hc
    rw [e, this]
  · intro h
    obtain ⟨b, h1, -, -, h4⟩ := isPrime_total M n (Or.inl ⟨hM, hM2⟩)
    cases b with
    | false => exact Or.inl h1
    | true => exact Or.inr ⟨h1, h4 rfl h⟩

/-- C23 is false: `is_prime(9056501)` is true, but 9056501 is composite. -/
theorem C23_fails : isPrime maxI64 9056501 = .ok true ∧ ¬ PrimeInt 9056501 := by
  refine ⟨by decide +kernel, ?_⟩
  rintro ⟨-, h⟩
  revert h
  rw [show Int.toNat 9056501 = 9056501 from rfl]
  norm_num

/-! ## C24 Pollard rho -/

/-- C24: for every number `n > 1` for which no overflow can occur and every list of draws:
each round of the search terminates, so either the supplied draws are used up, or the function
returns a divisor `d` of `n` with `1 < d`; `d = n` only if `n` passed `is_prime`, and `d < n`
whenever `is_prime(n)` is false. In particular a prime returns itself. -/
theorem C24_pollard_rho (M n : Int) (hn : 1 < n) (hM : (n - 1) * (n - 1) ≤ M) (hM2 : 2 * n ≤ M)
    (draws : List Nat) :
    (pollardRho M n draws = .fuel ∨
      ∃ d rest, pollardRho M n draws = .ok (d, rest) ∧ 1 < d ∧ d ∣ n ∧
        (isPrime M n = .ok false → d < n) ∧ (d = n → isPrime M n = .ok true)) ∧
    (PrimeInt n → pollardRho M n draws = .ok (n, draws)) := by
  constructor
  · rcases pollardRho_spec M n hn ⟨hM, hM2⟩ draws with h | ⟨d, rest, h1, h2, h3, h4⟩
    · exact Or.inl h
    · right
      refine ⟨d, rest, h1, h2, h3, ?_, ?_⟩
      · rcases h4 with ⟨-, h⟩ | ⟨h, -⟩
        · rw [h]; intro h; cases h
        · exact fun _ => h
      · rcases h4 with ⟨-, h⟩ | ⟨h, -⟩
        · exact fun _ => h
        · omega
  · intro hp
    have h4 : n ≠ 4 := by
      rintro rfl
      have := hp.2
      revert this; decide
    unfold pollardRho
    rw [if_neg h4, C22_primes_accepted M n hM hM2 hp]
    rfl

/-- C24: a run that does return on a composite: `8051 = 83 * 97` with first draw 0 (`c = 1`). -/
example : (∃ d, pollardRho maxI64 8051 [0] = .ok (d, []) ∧ 1 < d ∧ d < 8051) :=
  ⟨97, by decide +kernel, by norm_num, by norm_num⟩

/-- C24: with one draw the search of a composite never runs out of rounds within that draw: the
round ends either with a proper divisor or by asking for the next draw. -/
theorem C24_round_terminates (M n : Int) (hn : 3 < n) (hM : (n - 1) * (n - 1) ≤ M) (hM2 : 2 * n ≤ M)
    (r : Nat) (draws : List Nat) :
    (∃ d, rhoSearch M n (r :: draws) = .ok (d, draws) ∧ 1 < d ∧ d < n ∧ d ∣ n) ∨
    rhoSearch M n (r :: draws) = rhoSearch M n draws := by
  rcases rhoSearch_cons M n hn ⟨hM, hM2⟩ r draws with h | h
  · exact Or.inl h
  · exact Or.inr h

/-! ## C25, C26 factorize -/

/-- C26: for every `n ≥ 1` for which no overflow can occur and every list of draws: either the
draws are used up, or the returned multiset has product `n` and each element is a number greater
than 1 that passes `is_prime`. -/
theorem C26_factorize_product (M n : Int) (hn : 1 ≤ n) (hM : (n - 1) * (n - 1) ≤ M) (hM2 : 2 * n ≤ M)
    (draws : List Nat) :
    factorize M n draws = .fuel ∨
    ∃ fs rest, factorize M n draws = .ok (fs, rest) ∧ fs.prod = n ∧
      ∀ p ∈ fs, 1 < p ∧ isPrime M p = .ok true := by
  rcases factorizeF_spec M (n.natAbs + 1) n [] draws hn ⟨hM, hM2⟩ (by omega) with h | ⟨fs, rest, h1, h2, h3⟩
  · exact Or.inl h
  · exact Or.inr ⟨fs, rest, by rw [factorize, h1]; simp, h2, fun p hp => ⟨(h3 p hp).1, (h3 p hp).2.2⟩⟩

/-- C26: no bound is needed for what is returned: whatever `factorize(n)` returns for `n ≥ 1`, in any integer type and for
any draws, has the product `n` and consists of numbers greater than 1 that pass `is_prime`. -/
theorem C26_whatever_returned (M n : Int) (hn : 1 ≤ n) (draws rest : List Nat) (fs : List Int)
    (h : factorize M n draws = .ok (fs, rest)) : fs.prod = n ∧ ∀ p ∈ fs, 1 < p ∧ isPrime M p = .ok true := by
  obtain ⟨l, rfl, h1, h2⟩ := factorizeF_any hn h
  exact ⟨h1, h2⟩

/-- an argument beyond the range of `C26_factorize_product` (its square exceeds the type). -/
example : factorize maxI64 6074001000 (List.range 16) = .ok ([3, 3, 5, 5, 2, 2, 3, 2, 5, 23, 9781], []) ∧
    ¬ ((6074001000 - 1) * (6074001000 - 1) ≤ maxI64) := by decide +kernel

/-- C26, C25: `n = 0` and negative `n` are undefined (the random range is empty). -/
theorem C26_nonpositive (M n : Int) (hn : n ≤ 0) (hr : -M + 1 ≤ n) (r : Nat)
    (draws : List Nat) :
    factorize M n (r :: draws) = .ub "uniform_int_distribution with an empty range" := by
  have hp : isPrime M n = .ok false := by
    unfold isPrime
    rw [if_pos (by omega)]
    refine congrArg Res.ok ?_
    unfold slowPath
    rw [if_pos (by omega)]
  unfold factorize factorizeF
  rw [if_neg (by omega)]
  unfold pollardRho
  rw [if_neg (by omega), hp]
  simp only [Res.bind_ok, Bool.false_eq_true, if_false]
  unfold rhoSearch
  rw [chk_ok ⟨by omega, by omega⟩]
  simp only [Res.bind_ok]
  unfold randomDigit
  rw [if_neg (by omega)]
  rfl

/-- C25 (partial): for `1 ≤ n < 9006403`, `n ≠ 9006401` and every list of draws, if `factorize(n)`
returns, the result is (a permutation of) the list of prime factors of `n`. Missing: larger `n` with
a pseudoprime divisor (C23) and 9006401 (`C25_fails`). -/
theorem C25_factorize_partial (M n : Int) (hn : 1 ≤ n) (hlt : n < 9006403) (hex : n ≠ 9006401)
    (hM : 9006402 * 9006402 ≤ M) (draws : List Nat) :
    factorize M n draws = .fuel ∨
    ∃ fs rest, factorize M n draws = .ok (fs, rest) ∧
      (fs.map Int.toNat).Perm n.toNat.primeFactorsList := by
  have hMn : (n - 1) * (n - 1) ≤ M := by nlinarith
  have hM2 : 2 * n ≤ M := by omega
  rcases factorizeF_spec M (n.natAbs + 1) n [] draws hn ⟨hMn, hM2⟩ (by omega) with h | ⟨fs, rest, h1, h2, h3⟩
  · exact Or.inl h
  · right
    refine ⟨fs, rest, by rw [factorize, h1]; simp, ?_⟩
    have hpr : ∀ p ∈ fs, PrimeInt p := by
      intro p hp
      obtain ⟨a, b, c⟩ := h3 p hp
      have hne : p ≠ 9006401 := by
        rintro rfl
        have hd : (9006401 : Int) ∣ n := h2 ▸ List.dvd_prod hp
        obtain ⟨k, hk⟩ := hd
        omega
      obtain ⟨bb, e, hb⟩ := isPrime_small M p (by omega) hne hM
      rw [c] at e; injection e with e; exact hb.1 e.symm
    apply Nat.primeFactorsList_unique
    · have : ∀ l : List Int, (∀ p ∈ l, 0 ≤ p) → ((l.map Int.toNat).prod : Int) = l.prod := by
        intro l
        induction l with
        | nil => simp
        | cons a l ih =>
          intro h
          have ha := h a (by simp)
          have := ih fun p hp => h p (by simp [hp])
          rw [List.map_cons, List.prod_cons, List.prod_cons, Nat.cast_mul, this, Int.toNat_of_nonneg ha]
      have := this fs fun p hp => (hpr p hp).1
      rw [h2] at this
      omega
    · intro p hp
      obtain ⟨q, hq, rfl⟩ := List.mem_map.1 hp
      exact (hpr q hq).2

/-- C25 (partial): two runs with different random choices agree. -/
theorem C25_deterministic_partial (M n : Int) (hn : 1 ≤ n) (hlt : n < 9006403) (hex : n ≠ 9006401)
    (hM : 9006402 * 9006402 ≤ M) (d1 d2 : List Nat) (f1 f2 : List Int) (r1 r2 : List Nat)
    (h1 : factorize M n d1 = .ok (f1, r1)) (h2 : factorize M n d2 = .ok (f2, r2)) :
    (f1.map Int.toNat).Perm (f2.map Int.toNat) := by
  rcases C25_factorize_partial M n hn hlt hex hM d1 with h | ⟨_, _, e1, p1⟩
  · rw [h1] at h; cases h
  rcases C25_factorize_partial M n hn hlt hex hM d2 with h | ⟨_, _, e2, p2⟩
  · rw [h2] at h; cases h
  rw [h1] at e1; rw [h2] at e2
  injection e1 with e1; injection e2 with e2
  injection e1 with e1; injection e2 with e2
  subst e1; subst e2
  exact p1.trans p2.symm

/-- C25 is false at 9006401: the composite itself is reported as its only factor. -/
theorem C25_fails (draws : List Nat) : ∃ fs, factorize maxI64 9006401 draws = .ok (fs, draws) ∧
    9006401 ∈ fs := by
  refine ⟨[9006401], ?_, by simp⟩
  unfold factorize factorizeF pollardRho
  rw [if_neg (by norm_num), if_neg (by norm_num), C21_fails.1]
  have h1 : slowPath 1 = false := by decide
  have h2 : isPrime maxI64 1 = .ok false := rfl
  simp only [Res.bind_ok, if_true]
  rw [if_neg (by norm_num), C21_fails.1]
  simp only [Res.bind_ok, show ((9006401 : Int).tdiv 9006401) = 1 from by decide, h2]
  rfl

example : factorize maxI64 360 [0, 1, 2, 3, 0, 0, 0] = .ok ([2, 2, 3, 2, 3, 5], [0, 0]) := by decide +kernel

end Symxx.Factor
