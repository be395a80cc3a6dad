import Verif.Num.RealLow
import Verif.Num.RealPowTop
import Verif.Num.RealCmpSound
import Verif.Props.Factor
/-!
# Properties of class `Real` (C36-C42, C68)

Vocabulary. `r.val : ℝ` is the real number denoted, `coe * radicand^(1/index)`. `Canon` is the normal
form (radicand a positive integer from which no root can be taken and whose index cannot be lowered).
`x.Sat D P`: the call returns a value satisfying `P`, or it overflows (undefined behaviour); when the
size condition `D` holds it does return. In particular it never raises an `Error`.
`env.Good B`: the integer type holds `2^53`, floating point powers are exact up to `2^53`, and
`factorize` returns the prime factors of every number in `1..B` (`env_of_factorize_good` derives that
for the modelled `factorize` up to 9006400).
-/
namespace Symxx.Num.Real
open Symxx

variable {env : Env} {B : Nat}

/-! ## the environment -/

/-- a `Real` environment whose factoriser is the model of `symxx::factorize`, every call with its own
random draws; the multiset is read in increasing order (num.hpp 351-353). -/
def envOf (M : Int) (fl : Fl) (junk : Int) (draws : Int → List Nat) : Env where
  M := M
  fl := fl
  junk := junk
  fac n := do
    let (fs, _) ← Factor.factorize M n (draws n)
    .ok ((fs.map Int.toNat).insertionSort (· ≤ ·))

/-- wherever the modelled `factorize` finishes, the environment built from it is good up to 9006400. -/
theorem env_of_factorize_good (M : Int) (fl : Fl) (junk : Int) (draws : Int → List Nat) (B : Nat)
    (hM : 9006402 * 9006402 ≤ M) (hM' : (2 : Int) ^ 53 ≤ M) (hfl : fl.Exact) (hB : B ≤ 9006400)
    (hd : ∀ n : Nat, 0 < n → n ≤ B → Factor.factorize M n (draws n) ≠ .fuel) :
    (envOf M fl junk draws).Good B := by
  refine ⟨⟨hM', hfl, by omega⟩, fun n h0 hn => ?_⟩
  rcases Factor.C25_factorize_partial M n (by omega) (by omega) (by omega) hM (draws n) with h | ⟨fs, rest, h, hp⟩
  · exact absurd h (hd n h0 hn)
  · unfold envOf
    simp only
    rw [h, Res.bind_ok]
    congr 1
    refine List.Perm.eq_of_pairwise' (r := (· ≤ ·)) ?_ ?_ ?_
    · exact List.pairwise_insertionSort _ _
    · exact (Nat.primeFactorsList_sorted n).pairwise
    · exact (List.perm_insertionSort _ _).trans (by simpa using hp)

/-- the environment built from the modelled `factorize`, in every type of at least 54 bits and for all draws, meets the
assumptions of the theorems about exact runs (`..._exact`). -/
theorem env_of_factorize_base (M : Int) (fl : Fl) (junk : Int) (draws : Int → List Nat) (hM : (2 : Int) ^ 53 ≤ M)
    (hfl : fl.Exact) : (envOf M fl junk draws).Base (2 ^ 53) := ⟨hM, hfl, le_rfl⟩

/-- the environment of the examples: 64-bit integers, exact floating point, trial division (undefined
below 1, like the code). -/
def envI64 : Env where
  M := maxI64
  fl := Fl.ideal
  fac n := if 0 < n then .ok (primesOf n.toNat) else .ub "empty range"
  junk := 12345

theorem envI64_good : envI64.Good (2 ^ 53) :=
  ⟨⟨by decide, Fl.ideal_exact, le_rfl⟩, fun n h _ => by
    have h2 : (0 : Int) < n := by exact_mod_cast h
    simp only [envI64, h2, if_true, Int.toNat_natCast]
    rw [primesOf_eq n h]⟩

/-- the modelled `factorize`, with these draws for every call, is a good factoriser up to 60. -/
def someDraws : List Nat := List.flatten (List.replicate 6 (List.range 12))
example : (envOf maxI64 Fl.ideal 0 fun _ => someDraws).Good 60 :=
  env_of_factorize_good _ _ _ _ _ (by decide) (by decide) Fl.ideal_exact (by norm_num)
    fun n h0 hn => (by decide +kernel : ∀ n : Nat, n < 61 → 0 < n →
      Factor.factorize maxI64 n someDraws ≠ .fuel) n (by omega) h0

/-! ## C36 normalisation preserves the value -/

/-- C36 (partial): `Real(coe, n/d, k)` denotes `coe * (n/d)^(1/k)` and is in normal form, for every
coefficient, every positive radicand `n/d` and every index `k ≥ 1`. Missing: radicands whose cleared
form exceeds `B` (where the code's `factorize`/floating point powers are not known to be exact) and
the radicands 0 and below (undefined, `C36_nonpositive_radicand`). -/
theorem C36_normalize_partial (hg : env.Good B) (k n d : Nat) (hk : 0 < k) (hn : 0 < n) (hd : 0 < d)
    (hN : n * d ^ (k - 1) ≤ B) (hdk : d ^ k ≤ B) (coe : Rational) (hc : coe.den ≠ 0) :
    (mk3 env coe ⟨n, d⟩ k).Sat (|coe.num| * ((n * d ^ (k - 1) : Nat) : Int) ≤ env.M ∧ |coe.den| * d ≤ env.M)
      fun r => r.val = (coe.val : ℝ) * ((n : ℝ) / d) ^ ((1 : ℝ) / k) ∧ r.Canon ∧
        (0 < coe.den → 0 < r.coe.den) ∧ (coe.Lowest → r.coe.Lowest) ∧ r.index ∣ k := by
  refine ((normalize_sat hg k n d hk hn hd hN hdk coe hc).weaken ?_).mono ?_
  · rintro ⟨h1, h2⟩
    refine ⟨le_trans (mul_le_mul_of_nonneg_left ?_ (abs_nonneg _)) h1, h2⟩
    have hpos : 0 < cleared k n d := by unfold cleared; positivity
    exact_mod_cast outer_le hk hpos
  · intro r h
    exact ⟨by rw [h.val, val_mk], h.canon, h.sign, h.lowest, h.index⟩

/-- √12 = 2√3, ∜4 = √2, 3·√(1/2) = 3/2·√2, ∛(16/27) = 2/3·∛2. -/
theorem normalize_examples :
    mk3 envI64 ⟨1, 1⟩ ⟨(12 : Nat), (1 : Nat)⟩ 2 = .ok ⟨2, ⟨3, 1⟩, ⟨2, 1⟩⟩ ∧
    mk3 envI64 ⟨1, 1⟩ ⟨(4 : Nat), (1 : Nat)⟩ 4 = .ok ⟨2, ⟨2, 1⟩, ⟨1, 1⟩⟩ ∧
    mk3 envI64 ⟨3, 1⟩ ⟨(1 : Nat), (2 : Nat)⟩ 2 = .ok ⟨2, ⟨2, 1⟩, ⟨3, 2⟩⟩ ∧
    mk3 envI64 ⟨1, 1⟩ ⟨(16 : Nat), (27 : Nat)⟩ 3 = .ok ⟨3, ⟨2, 1⟩, ⟨2, 3⟩⟩ := by decide +kernel

example : (mk3 envI64 ⟨1, 1⟩ ⟨(16 : Nat), (27 : Nat)⟩ 3).Sat True fun r =>
    r.val = (((⟨1, 1⟩ : Rational).val : ℚ) : ℝ) * (((16 : Nat) : ℝ) / (27 : Nat)) ^ ((1 : ℝ) / (3 : Nat)) :=
  ((C36_normalize_partial envI64_good 3 16 27 (by norm_num) (by norm_num) (by norm_num) (by norm_num)
    (by norm_num) ⟨1, 1⟩ (by norm_num)).weaken fun _ => by decide).mono fun _ h => h.1

/-- normalising a zero or negative radicand calls the factoriser below 1, which draws a random number
from an empty range. -/
theorem C36_nonpositive_radicand (hf : ∀ n : Int, n ≤ 0 → ∃ m, env.fac n = .ub m) (n : Int) (hn : n ≤ 0)
    (k : Nat) (coe : Rational) : ∃ m, mk3 env coe ⟨n, 1⟩ k = .ub m := by
  obtain ⟨m, hm⟩ := hf n hn
  refine ⟨m, ?_⟩
  unfold mk3 normalize decompose
  simp only [Rational.isInt, decide_true, Bool.not_true, Bool.false_eq_true, if_false, Res.bind_ok]
  rw [hm]
  rfl

example : ∃ m, mk3 envI64 ⟨1, 1⟩ ⟨-4, 1⟩ 2 = .ub m :=
  C36_nonpositive_radicand (fun n hn => ⟨"empty range", by simp [envI64, hn]⟩) _ (by norm_num) _ _

/-! ## C37 the normal form is canonical -/

/-- C37: two Reals in normal form denote the same real number exactly when `==` returns true (when the
cross products of the comparison do not overflow). -/
theorem C37_canonical {a b : Real} (ha : a.Canon) (hb : b.Canon) :
    (eq env a b).Sat ((|a.coe.num| * |b.coe.den| ≤ env.M ∧ |b.coe.num| * |a.coe.den| ≤ env.M) ∧
        a.rad.num ≤ env.M ∧ b.rad.num ≤ env.M) fun v => (v = true ↔ a.val = b.val) := eq_sat ha hb

/-- C37, on the representation: with coefficients in lowest terms over a positive denominator, normal
forms denoting the same number are identical. -/
theorem C37_identical {a b : Real} (ha : a.Canon) (hb : b.Canon) (la : a.coe.Lowest) (lb : b.coe.Lowest)
    (da : 0 < a.coe.den) (db : 0 < b.coe.den) : a.val = b.val ↔ a = b := by
  refine ⟨fun h => ?_, fun h => by rw [h]⟩
  obtain ⟨h1, h2, h3⟩ := (canon_unique ha hb).1 h
  have hc : a.coe = b.coe := by
    obtain ⟨ia, ra, n, d⟩ := a
    obtain ⟨ib, rb, n', d'⟩ := b
    simp only at h1 da db la lb ⊢
    have hx : n * d' = n' * d := (Rational.val_eq_iff (a := ⟨n, d⟩) (b := ⟨n', d'⟩) da.ne' db.ne').1 h1
    have la : Int.gcd n d = 1 := la
    have lb : Int.gcd n' d' = 1 := lb
    have e1 : d ∣ d' := by
      have : d ∣ n * d' := ⟨n', by rw [hx]; ring⟩
      exact Int.dvd_of_dvd_mul_right_of_gcd_one this (by rwa [Int.gcd_comm])
    have e2 : d' ∣ d := by
      have : d' ∣ n' * d := ⟨n, by rw [← hx]; ring⟩
      exact Int.dvd_of_dvd_mul_right_of_gcd_one this (by rwa [Int.gcd_comm])
    have e3 : d = d' := Int.dvd_antisymm da.le db.le e1 e2
    subst e3
    have e4 : n = n' := mul_right_cancel₀ da.ne' hx
    rw [e4]
  cases a; cases b
  simp only at hc h2 h3
  subst hc; subst h2; subst h3; rfl

theorem simplest_3_2 : Simplest 3 2 :=
  ⟨by norm_num, by norm_num, fun m hm h => by
      have := Nat.le_of_dvd (by norm_num) h; nlinarith,
    fun m d h hd => by
      have hd' : d ≤ 2 := Nat.le_of_dvd (by norm_num) hd
      interval_cases d
      · simp at hd
      · rfl
      · exfalso
        have : m < 2 := by nlinarith
        interval_cases m <;> omega⟩

theorem simplest_2_2 : Simplest 2 2 :=
  ⟨by norm_num, by norm_num, fun m hm h => by
      have := Nat.le_of_dvd (by norm_num) h; nlinarith,
    fun m d h hd => by
      have hd' : d ≤ 2 := Nat.le_of_dvd (by norm_num) hd
      interval_cases d
      · simp at hd
      · rfl
      · exfalso
        have : m < 2 := by nlinarith
        interval_cases m <;> omega⟩

/-- `2√3` and `-1/3·√2` are in normal form. -/
def twoRootThree : Real := ⟨2, ⟨3, 1⟩, ⟨2, 1⟩⟩
def thirdRootTwo : Real := ⟨2, ⟨2, 1⟩, ⟨-1, 3⟩⟩
theorem canon_a : twoRootThree.Canon := ⟨3, rfl, simplest_3_2, by decide, by decide⟩
theorem canon_b : thirdRootTwo.Canon := ⟨2, rfl, simplest_2_2, by decide, by decide⟩

example : ∃ v, eq envI64 twoRootThree thirdRootTwo = .ok v ∧ (v = true ↔ twoRootThree.val = thirdRootTwo.val) :=
  (C37_canonical canon_a canon_b).defined (by decide)
example : twoRootThree.val ≠ thirdRootTwo.val :=
  fun h => absurd ((C37_identical canon_a canon_b (by decide) (by decide) (by decide) (by decide)).1 h) (by decide)

/-! ## C38 idempotence and the stray read -/

/-- C38 (partial): normalising a Real in normal form returns it unchanged, and for every Real with
positive radicand the value read through `end()` does not influence the result. Missing: radicands
above `B`. -/
theorem C38_idempotent_partial (hg : env.Good B) {r : Real} (hr : r.Canon) (hB : r.rad.num ≤ B)
    (hf : r.coe.Fits env.M) : normalize env r = .ok r := normalize_canon hg hr hB hf

theorem C38_stray_read_partial (hg : env.Good B) (j : Int) (k n d : Nat) (hk : 0 < k) (hn : 0 < n) (hd : 0 < d)
    (hN : n * d ^ (k - 1) ≤ B) (hdk : d ^ k ≤ B) (coe : Rational) (hc : coe.den ≠ 0) :
    normalize { env with junk := j } ⟨k, ⟨n, d⟩, coe⟩ = normalize env ⟨k, ⟨n, d⟩, coe⟩ :=
  normalize_junk hg j k n d hk hn hd hN hdk coe hc

example : normalize envI64 twoRootThree = .ok twoRootThree :=
  C38_idempotent_partial envI64_good canon_a (by decide) (by decide)
example (j : Int) : normalize { envI64 with junk := j } ⟨4, ⟨(1 : Nat), (1 : Nat)⟩, ⟨5, 3⟩⟩ = .ok ⟨1, ⟨1, 1⟩, ⟨5, 3⟩⟩ := by
  rw [C38_stray_read_partial envI64_good j 4 1 1 (by norm_num) (by norm_num) (by norm_num) (by norm_num)
    (by norm_num) ⟨5, 3⟩ (by norm_num)]
  decide +kernel

/-! ## C39 multiplication and division -/

/-- C39 (partial): `a * b` denotes the product of the denoted real numbers and is in normal form.
With `l = lcm(ia, ib)` the radicand `X/Y = (na/da)^(l/ia) * (nb/db)^(l/ib)` is computed first.
Missing: intermediate radicands above `B`. -/
theorem C39_mul_partial (hg : env.Good B) (ia ib na da nb db : Nat) (hia : 0 < ia) (hib : 0 < ib) (hna : 0 < na)
    (hda : 0 < da) (hnb : 0 < nb) (hdb : 0 < db) (ca cb : Rational) (hca : ca.den ≠ 0) (hcb : cb.den ≠ 0)
    (l X Y : Nat) (hl : l = Nat.lcm ia ib) (hX : X = na ^ (l / ia) * nb ^ (l / ib))
    (hY : Y = da ^ (l / ia) * db ^ (l / ib))
    (h1 : l ≤ 2 ^ 53) (h2 : X * Y ^ (l - 1) ≤ B) (h3 : Y ^ l ≤ B) :
    (mul env ⟨ia, ⟨na, da⟩, ca⟩ ⟨ib, ⟨nb, db⟩, cb⟩).Sat
      (ca.Fits env.M ∧ cb.Fits env.M ∧ |ca.num| * |cb.num| * ((X * Y ^ (l - 1) : Nat) : Int) ≤ env.M ∧
        |ca.den| * |cb.den| * Y ≤ env.M) fun r =>
      r.val = Real.val ⟨ia, ⟨na, da⟩, ca⟩ * Real.val ⟨ib, ⟨nb, db⟩, cb⟩ ∧ r.Canon ∧
        (0 < ca.den → 0 < cb.den → 0 < r.coe.den) ∧ (ca.Lowest → cb.Lowest → r.coe.Lowest) := by
  subst hl; subst hX; subst hY
  exact (mul_sat hg ia ib na da nb db hia hib hna hda hnb hdb ca cb hca hcb h1 h2 h3).mono
    fun r h => ⟨h.2.1, h.1, h.2.2.1, h.2.2.2.1⟩

/-- C39 (partial): `a / b` with `b ≠ 0` denotes the quotient. -/
theorem C39_div_partial (hg : env.Good B) (ia ib na da nb db : Nat) (hia : 0 < ia) (hib : 0 < ib) (hna : 0 < na)
    (hda : 0 < da) (hnb : 0 < nb) (hdb : 0 < db) (ca cb : Rational) (hca : ca.den ≠ 0) (hcb : cb.den ≠ 0)
    (hcb0 : cb.num ≠ 0)
    (l X Y : Nat) (hl : l = Nat.lcm ia ib) (hX : X = na ^ (l / ia) * db ^ (l / ib))
    (hY : Y = da ^ (l / ia) * nb ^ (l / ib))
    (h1 : l ≤ 2 ^ 53) (h2 : X * Y ^ (l - 1) ≤ B) (h3 : Y ^ l ≤ B) :
    (div env ⟨ia, ⟨na, da⟩, ca⟩ ⟨ib, ⟨nb, db⟩, cb⟩).Sat
      (ca.Fits env.M ∧ cb.Fits env.M ∧ |ca.num| * |cb.den| * ((X * Y ^ (l - 1) : Nat) : Int) ≤ env.M ∧
        |ca.den| * |cb.num| * Y ≤ env.M) fun r =>
      r.val = Real.val ⟨ia, ⟨na, da⟩, ca⟩ / Real.val ⟨ib, ⟨nb, db⟩, cb⟩ ∧ r.Canon ∧
        (0 < ca.den → 0 < cb.num → 0 < r.coe.den) ∧ (ca.Lowest → r.coe.Lowest) := by
  subst hl; subst hX; subst hY
  exact (div_sat hg ia ib na da nb db hia hib hna hda hnb hdb ca cb hca hcb hcb0 h1 h2 h3).mono
    fun r h => ⟨h.2.1, h.1, h.2.2.1, h.2.2.2⟩

/-- dividing by zero raises "Division by zero". -/
theorem C39_div_zero (a b : Real) (h : b.coe.num = 0) : div env a b = .throw divisionByZero := by
  unfold div inverse Rational.inverse Rational.mk2
  rw [h]
  rfl

/-- `2√3 · ∛2 = 2·⁶√108`, `2√3 / (3∛2) = 1/3·⁶√432`. -/
theorem mul_div_examples :
    mul envI64 ⟨2, ⟨(3 : Nat), (1 : Nat)⟩, ⟨2, 1⟩⟩ ⟨3, ⟨(2 : Nat), (1 : Nat)⟩, ⟨1, 1⟩⟩ = .ok ⟨6, ⟨108, 1⟩, ⟨2, 1⟩⟩ ∧
    div envI64 ⟨2, ⟨(3 : Nat), (1 : Nat)⟩, ⟨2, 1⟩⟩ ⟨3, ⟨(2 : Nat), (1 : Nat)⟩, ⟨3, 1⟩⟩ = .ok ⟨6, ⟨432, 1⟩, ⟨1, 3⟩⟩ := by
  decide +kernel

example : (mul envI64 ⟨2, ⟨(3 : Nat), (1 : Nat)⟩, ⟨2, 1⟩⟩ ⟨3, ⟨(2 : Nat), (1 : Nat)⟩, ⟨1, 1⟩⟩).Sat True fun r =>
    r.val = Real.val ⟨2, ⟨(3 : Nat), (1 : Nat)⟩, ⟨2, 1⟩⟩ * Real.val ⟨3, ⟨(2 : Nat), (1 : Nat)⟩, ⟨1, 1⟩⟩ :=
  ((C39_mul_partial envI64_good 2 3 3 1 2 1 (by norm_num) (by norm_num) (by norm_num) (by norm_num) (by norm_num)
    (by norm_num) ⟨2, 1⟩ ⟨1, 1⟩ (by norm_num) (by norm_num) 6 108 1 (by decide) (by decide) (by decide)
    (by norm_num) (by norm_num) (by norm_num)).weaken fun _ => by decide).mono fun _ h => h.1

example : (div envI64 ⟨2, ⟨(3 : Nat), (1 : Nat)⟩, ⟨2, 1⟩⟩ ⟨3, ⟨(2 : Nat), (1 : Nat)⟩, ⟨3, 1⟩⟩).Sat True fun r =>
    r.val = Real.val ⟨2, ⟨(3 : Nat), (1 : Nat)⟩, ⟨2, 1⟩⟩ / Real.val ⟨3, ⟨(2 : Nat), (1 : Nat)⟩, ⟨3, 1⟩⟩ :=
  ((C39_div_partial envI64_good 2 3 3 1 2 1 (by norm_num) (by norm_num) (by norm_num) (by norm_num) (by norm_num)
    (by norm_num) ⟨2, 1⟩ ⟨3, 1⟩ (by norm_num) (by norm_num) (by norm_num) 6 27 4 (by decide) (by decide) (by decide)
    (by norm_num) (by norm_num) (by norm_num)).weaken fun _ => by decide).mono fun _ h => h.1

/-- F19: `inverse` does not normalise: `1/√2` keeps the radicand `1/2`, and `==` distinguishes it from
the equal number `1/2·√2`. -/
theorem C39_inverse_not_normal :
    inverse envI64 ⟨2, ⟨2, 1⟩, ⟨1, 1⟩⟩ = .ok ⟨2, ⟨1, 2⟩, ⟨1, 1⟩⟩ ∧
    mk3 envI64 ⟨1, 1⟩ ⟨1, 2⟩ 2 = .ok ⟨2, ⟨2, 1⟩, ⟨1, 2⟩⟩ ∧
    eq envI64 ⟨2, ⟨1, 2⟩, ⟨1, 1⟩⟩ ⟨2, ⟨2, 1⟩, ⟨1, 2⟩⟩ = .ok false := by decide +kernel

/-! ## C40 addition -/

/-- C40 (partial): for Reals in normal form that are multiples of the same root, `a + b` and `a - b`
denote the exact sum and difference. -/
theorem C40_add_partial (hg : env.Good B) {a b : Real} (ha : a.Canon) (hb : b.Canon)
    (h1 : a.rad.num ≤ B) (hr : a.rad = b.rad) (hi : a.index = b.index) :
    (add env a b).Sat (∃ S, a.coe.Small S ∧ b.coe.Small S ∧ 2 * (S * S) ≤ env.M) fun r =>
      r.val = a.val + b.val ∧ r.Canon ∧ 0 < r.coe.den ∧ r.coe.Lowest :=
  (add_sat hg ha hb h1 ⟨hr, hi⟩).mono fun r h => ⟨h.2.1, h.1, h.2.2.1, h.2.2.2.1⟩

theorem C40_sub_partial (hg : env.Good B) {a b : Real} (ha : a.Canon) (hb : b.Canon)
    (h1 : a.rad.num ≤ B) (hr : a.rad = b.rad) (hi : a.index = b.index) :
    (sub env a b).Sat (∃ S, a.coe.Small S ∧ b.coe.Small S ∧ 2 * (S * S) ≤ env.M) fun r =>
      r.val = a.val - b.val ∧ r.Canon ∧ 0 < r.coe.den ∧ r.coe.Lowest :=
  (sub_sat hg ha hb h1 ⟨hr, hi⟩).mono fun r h => ⟨h.2.1, h.1, h.2.2⟩

/-- C40: non-zero normal forms have the same root exactly when one is a rational multiple of the other. -/
theorem C40_same_root_iff {a b : Real} (ha : a.Canon) (hb : b.Canon) (ha0 : a.val ≠ 0) (hb0 : b.val ≠ 0) :
    (a.rad = b.rad ∧ a.index = b.index) ↔ ∃ q : ℚ, a.val = q * b.val := differ_irrational ha hb ha0 hb0

/-- C40: otherwise `a + b` and `a - b` raise an `Error`. -/
theorem C40_differ (hg : env.Good B) {a b : Real} (ha : a.Canon) (hb : b.Canon)
    (h1 : a.rad.num ≤ B) (h2 : b.rad.num ≤ B) (hf : b.coe.Fits env.M) (h : ¬ (a.rad = b.rad ∧ a.index = b.index)) :
    add env a b = .throw "radicand and index must be the same." ∧
    sub env a b = .throw "radicand and index must be the same." :=
  ⟨add_differ hg.M1 ha hb (le_trans h1 (hg.leM le_rfl)) (le_trans h2 (hg.leM le_rfl)) h,
    sub_differ hg ha hb h1 h2 hf h⟩

/-- F20: the sum of 0 and √2 raises an `Error`, although 0 is a rational multiple of √2. -/
theorem C40_zero_plus_root_fails :
    add envI64 zero ⟨2, ⟨2, 1⟩, ⟨1, 1⟩⟩ = .throw "radicand and index must be the same." ∧
    add envI64 ⟨2, ⟨2, 1⟩, ⟨1, 1⟩⟩ zero = .throw "radicand and index must be the same." := by decide +kernel

example : (add envI64 twoRootThree { twoRootThree with coe := ⟨1, 3⟩ }).Sat True fun r =>
    r.val = twoRootThree.val + Real.val { twoRootThree with coe := ⟨1, 3⟩ } :=
  ((C40_add_partial envI64_good canon_a (b := { twoRootThree with coe := ⟨1, 3⟩ })
    ⟨3, rfl, simplest_3_2, by decide, by decide⟩ (by decide) rfl rfl).weaken
    fun _ => ⟨3, ⟨by decide, by decide, by decide⟩, ⟨by decide, by decide, by decide⟩, by decide⟩).mono fun _ h => h.1
example : add envI64 twoRootThree { twoRootThree with coe := ⟨1, 3⟩ } = .ok ⟨2, ⟨3, 1⟩, ⟨7, 3⟩⟩ ∧
    sub envI64 twoRootThree { twoRootThree with coe := ⟨1, 3⟩ } = .ok ⟨2, ⟨3, 1⟩, ⟨5, 3⟩⟩ := by decide +kernel
example : add envI64 twoRootThree thirdRootTwo = .throw "radicand and index must be the same." :=
  (C40_differ envI64_good canon_a canon_b (by decide) (by decide) (by decide) (by decide)).1

/-! ## C41 ordering -/

/-- C41 (partial): `a < b` and `a > b` agree with the order of the real numbers, for normal forms with
positive denominators whose compared powers stay within `2^53`. Missing: larger intermediates. -/
theorem C41_order_partial (hM : (2 : Int) ^ 53 ≤ env.M) (hfl : env.fl.Exact) {a b : Real} (ha : a.Canon) (hb : b.Canon)
    (hda : 0 < a.coe.den) (hdb : 0 < b.coe.den) (sab : CmpSizes a b) (sba : CmpSizes b a) :
    (lt env a b).Sat (CmpD env a b) (fun v => (v = true ↔ a.val < b.val)) ∧
    (gt env a b).Sat (CmpD env a b ∧ (|a.coe.num| * |b.coe.den| ≤ env.M ∧ |b.coe.num| * |a.coe.den| ≤ env.M) ∧
        a.rad.num ≤ env.M ∧ b.rad.num ≤ env.M) (fun v => (v = true ↔ a.val > b.val)) :=
  ⟨lt_sat hM hfl ha hb hda hdb sab sba, gt_sat hM hfl ha hb hda hdb sab sba⟩

example : ∃ v, lt envI64 thirdRootTwo twoRootThree = .ok v ∧ (v = true ↔ thirdRootTwo.val < twoRootThree.val) :=
  (C41_order_partial envI64_good.hM envI64_good.exact canon_b canon_a (by decide) (by decide)
    ⟨by decide, by decide, by decide⟩ ⟨by decide, by decide, by decide⟩).1.defined (by unfold CmpD; decide)
example : lt envI64 ⟨2, ⟨2, 1⟩, ⟨1, 1⟩⟩ ⟨3, ⟨3, 1⟩, ⟨1, 1⟩⟩ = .ok true ∧
    gt envI64 ⟨2, ⟨2, 1⟩, ⟨-1, 1⟩⟩ ⟨3, ⟨3, 1⟩, ⟨-1, 1⟩⟩ = .ok true ∧
    lt envI64 ⟨2, ⟨2, 1⟩, ⟨3, 1⟩⟩ ⟨2, ⟨2, 1⟩, ⟨3, 1⟩⟩ = .ok false := by decide +kernel

/-! ## C42 powers -/

/-- C42: the zeroth power is 1. -/
theorem C42_pow_zero (hg : env.Good B) (hB : 1 ≤ B) (a : Real) (p : Rational) (hp : p.Fits env.M) (h0 : p.num = 0) :
    ∃ r, pow env a p = .ok r ∧ r.val = 1 ∧ r.Canon := by
  refine ⟨_, pow_zero' hg hB a p hp h0, by simp [Real.val, Rational.val], 1, rfl, ?_, by norm_num, fun _ => rfl⟩
  exact (simplest_iff 1 1 (by omega) (by omega)).2 ⟨by simp, fun d h _ => Nat.dvd_one.1 h⟩

/-- C42 (partial): a positive integer power denotes the power (any coefficient). Missing: powers that
exceed `B` / `2^53`. -/
theorem C42_pow_nat_partial (hg : env.Good B) (i n d m : Nat) (hi : 0 < i) (hn : 0 < n) (hd : 0 < d)
    (hm0 : 0 < m) (hm : m ≤ 2 ^ 53)
    (c : Rational) (hc : c.den ≠ 0) (h1 : |c.num ^ m| ≤ 2 ^ 53) (h2 : |c.den ^ m| ≤ 2 ^ 53)
    (hN : n ^ m * (d ^ m) ^ (i - 1) ≤ B) (hD : (d ^ m) ^ i ≤ B) :
    (pow env ⟨i, ⟨n, d⟩, c⟩ ⟨m, 1⟩).Sat (|c.num ^ m| * ((n ^ m * (d ^ m) ^ (i - 1) : Nat) : Int) ≤ env.M ∧
        |c.den ^ m| * (d ^ m : Nat) ≤ env.M) fun r =>
      r.val = Real.val ⟨i, ⟨n, d⟩, c⟩ ^ m ∧ (m ≠ 1 → r.Canon) := by
  have hmM : (m : Int) ≤ env.M := le_trans (by exact_mod_cast hm) hg.hM
  have hf : Rational.Fits env.M ⟨m, 1⟩ :=
    ⟨by simp only; rw [abs_of_nonneg (by positivity)]; exact hmM, by simpa using hg.M1⟩
  by_cases e1 : m = 1
  · subst e1
    rw [pow_one' hg.M1 _ _ hf (by simp) (by simp)]
    exact .ok ⟨by simp, fun h => absurd rfl h⟩
  · rw [pow_pos' hg.M1 _ _ hf (by simp only; omega) (by simp only; omega)]
    exact (powPos_int_sat hg i n d m hi hn hd hm c hc h1 h2 hN hD).mono fun r h => ⟨h.2.1, fun _ => h.1⟩

/-- C42 (partial): a negative integer power of a non-zero Real. -/
theorem C42_pow_neg_partial (hg : env.Good B) (i n d m : Nat) (hi : 0 < i) (hn : 0 < n) (hd : 0 < d)
    (hm0 : 0 < m) (hm : m ≤ 2 ^ 53)
    (c : Rational) (hc : c.den ≠ 0) (hc0 : c.num ≠ 0) (h1 : |c.num ^ m| ≤ 2 ^ 53) (h2 : |c.den ^ m| ≤ 2 ^ 53)
    (hN : d ^ m * (n ^ m) ^ (i - 1) ≤ B) (hD : (n ^ m) ^ i ≤ B) :
    (pow env ⟨i, ⟨n, d⟩, c⟩ ⟨-(m : Int), 1⟩).Sat (|c.den ^ m| * ((d ^ m * (n ^ m) ^ (i - 1) : Nat) : Int) ≤ env.M ∧
        |c.num ^ m| * (n ^ m : Nat) ≤ env.M) fun r =>
      r.val = Real.val ⟨i, ⟨n, d⟩, c⟩ ^ (-(m : Int)) ∧ (m ≠ 1 → r.Canon) := by
  have hmM : (m : Int) ≤ env.M := le_trans (by exact_mod_cast hm) hg.hM
  have hnB : n ≤ B := le_trans (Nat.le_self_pow hm0.ne' _) (le_trans (Nat.le_self_pow hi.ne' _) hD)
  have hdB : d ≤ B := le_trans (Nat.le_self_pow hm0.ne' _) (le_trans (Nat.le_mul_of_pos_right _ (by positivity)) hN)
  have self : ∀ x : Int, |x ^ m| ≤ 2 ^ 53 → |x| ≤ 2 ^ 53 := by
    intro x hx
    rw [abs_pow] at hx
    by_cases h0 : |x| = 0
    · rw [h0]; norm_num
    · have : 1 ≤ |x| := by have := abs_nonneg x; omega
      exact le_trans (le_self_pow₀ this hm0.ne') hx
  have hcF : c.Fits env.M := ⟨le_trans (self _ h1) hg.hM, le_trans (self _ h2) hg.hM⟩
  obtain ⟨ia, eia, n', d', c', e, q1, q2, q3, q4, q5, q6, q7, q8, q9, q10, q11, -, q13⟩ :=
    (inverse_sat hg.M1 i n d hn hd (hg.leM hnB) (hg.leM hdB) c hc hc0).defined hcF
  subst e
  by_cases e1 : m = 1
  · subst e1
    rw [show (-((1 : Nat) : Int)) = -1 by norm_num, pow_minus_one hg.M1, eia]
    refine .ok ⟨by rw [q13, zpow_neg, zpow_one], fun h => absurd rfl h⟩
  · rw [show (1 : Int) = ((1 : Nat) : Int) from rfl,
      pow_neg' hg.M1 _ m 1 hm0 (by norm_num) (by simp) hmM (by simpa using hg.M1) (by omega), eia, Res.bind_ok]
    have hcl : n' ^ m * (d' ^ m) ^ (i - 1) ≤ d ^ m * (n ^ m) ^ (i - 1) :=
      Nat.mul_le_mul (Nat.pow_le_pow_left q3 _) (Nat.pow_le_pow_left (Nat.pow_le_pow_left q4 _) _)
    have b1 : |c'.num ^ m| ≤ |c.den ^ m| := by
      rw [abs_pow, abs_pow]; exact pow_le_pow_left₀ (abs_nonneg _) q10 _
    have b2 : |c'.den ^ m| ≤ |c.num ^ m| := by
      rw [abs_pow, abs_pow]; exact pow_le_pow_left₀ (abs_nonneg _) q11 _
    refine ((powPos_int_sat hg i n' d' m hi q1 q2 hm c' q6 (le_trans b1 h2) (le_trans b2 h1)
      (le_trans hcl hN) (le_trans (Nat.pow_le_pow_left (Nat.pow_le_pow_left q4 _) _) hD)).weaken ?_).mono ?_
    · rintro ⟨f1, f2⟩
      refine ⟨le_trans (mul_le_mul b1 ?_ (by positivity) (by positivity)) f1,
        le_trans (mul_le_mul b2 ?_ (by positivity) (by positivity)) f2⟩
      · exact_mod_cast hcl
      · exact_mod_cast Nat.pow_le_pow_left q4 _
    · rintro r ⟨r1, r2, -⟩
      exact ⟨by rw [r2, q13, zpow_neg, zpow_natCast, inv_pow], fun _ => r1⟩

/-- C42 (partial): a fractional power `m/q` of a positive Real, returned without overflow, denotes the
power. -/
theorem C42_pow_frac_partial (hg : env.Good B) (i n d cn cd m q : Nat) (hi : 0 < i) (hn : 0 < n) (hd : 0 < d)
    (hcn : 0 < cn) (hcd : 0 < cd) (hm0 : 0 < m) (hq : 1 < q) (hm : m ≤ 2 ^ 53) (hiq : i * q ≤ 2 ^ 53)
    (hco : Nat.Coprime m q)
    (hN : (n ^ m * (cn ^ m * (cd ^ m) ^ (q - 1)) ^ i) * (d ^ m) ^ (i * q - 1) ≤ B)
    (hD : (d ^ m) ^ (i * q) ≤ B) (hC : (cd ^ m) ^ q ≤ B) :
    (pow env ⟨i, ⟨n, d⟩, ⟨cn, cd⟩⟩ ⟨m, q⟩).Sat False fun r =>
      r.val = Real.val ⟨i, ⟨n, d⟩, ⟨cn, cd⟩⟩ ^ ((m : ℝ) / q) ∧ r.Canon ∧ 0 < r.coe.den := by
  have hmM : (m : Int) ≤ env.M := le_trans (by exact_mod_cast hm) hg.hM
  have hqM : (q : Int) ≤ env.M :=
    le_trans (by exact_mod_cast (le_trans (Nat.le_mul_of_pos_left _ hi) hiq)) hg.hM
  have hf : Rational.Fits env.M ⟨m, q⟩ :=
    ⟨by simp only; rw [abs_of_nonneg (by positivity)]; exact hmM,
      by simp only; rw [abs_of_nonneg (by positivity)]; exact hqM⟩
  have hne : m ≠ q := by
    rintro rfl
    have := (Nat.coprime_self m).1 hco
    omega
  rw [pow_pos' hg.M1 _ _ hf (by simp only; omega) (by simp only; exact_mod_cast hne)]
  exact (powPos_frac_sat hg i n d cn cd m q hi hn hd hcn hcd hq hm hiq hN hD hC).mono
    fun r h => ⟨h.2.1, h.1, h.2.2⟩

/-- C42 (partial): a negative fractional power of a positive Real. -/
theorem C42_pow_neg_frac_partial (hg : env.Good B) (i n d cn cd m q : Nat) (hi : 0 < i) (hn : 0 < n) (hd : 0 < d)
    (hcn : 0 < cn) (hcd : 0 < cd) (hm0 : 0 < m) (hq : 1 < q) (hm : m ≤ 2 ^ 53) (hiq : i * q ≤ 2 ^ 53)
    (hco : Nat.Coprime m q)
    (hN : (d ^ m * (cd ^ m * (cn ^ m) ^ (q - 1)) ^ i) * (n ^ m) ^ (i * q - 1) ≤ B)
    (hD : (n ^ m) ^ (i * q) ≤ B) (hC : (cn ^ m) ^ q ≤ B) :
    (pow env ⟨i, ⟨n, d⟩, ⟨cn, cd⟩⟩ ⟨-(m : Int), q⟩).Sat False fun r =>
      r.val = Real.val ⟨i, ⟨n, d⟩, ⟨cn, cd⟩⟩ ^ (-((m : ℝ) / q)) ∧ r.Canon ∧ 0 < r.coe.den := by
  have hmM : (m : Int) ≤ env.M := le_trans (by exact_mod_cast hm) hg.hM
  have hqM : (q : Int) ≤ env.M :=
    le_trans (by exact_mod_cast (le_trans (Nat.le_mul_of_pos_left _ hi) hiq)) hg.hM
  have hiq0 : 0 < i * q := by positivity
  have hq0 : 0 < q := by omega
  have hnB : n ≤ B := le_trans (Nat.le_self_pow hm0.ne' _) (le_trans (Nat.le_self_pow hiq0.ne' _) hD)
  have hX : d ^ m * (cd ^ m * (cn ^ m) ^ (q - 1)) ^ i ≤ B := le_trans (Nat.le_mul_of_pos_right _ (by positivity)) hN
  have hdB : d ≤ B := le_trans (Nat.le_self_pow hm0.ne' _) (le_trans (Nat.le_mul_of_pos_right _ (by positivity)) hX)
  have hcnB : cn ≤ B := le_trans (Nat.le_self_pow hm0.ne' _) (le_trans (Nat.le_self_pow hq0.ne' _) hC)
  have hcdB : cd ≤ B := by
    refine le_trans (Nat.le_self_pow hm0.ne' _) (le_trans (Nat.le_mul_of_pos_right _ ?_)
      (le_trans (Nat.le_self_pow hi.ne' _) (le_trans (Nat.le_mul_of_pos_left _ ?_) hX)))
    · positivity
    · positivity
  have hcF : Rational.Fits env.M ⟨cn, cd⟩ :=
    ⟨by simp only; rw [abs_of_nonneg (by positivity)]; exact hg.leM hcnB,
      by simp only; rw [abs_of_nonneg (by positivity)]; exact hg.leM hcdB⟩
  obtain ⟨ia, eia, n', d', c', e, q1, q2, q3, q4, q5, q6, q7, q8, q9, q10, q11, -, q13⟩ :=
    (inverse_sat hg.M1 i n d hn hd (hg.leM hnB) (hg.leM hdB) ⟨cn, cd⟩ (by simp only; omega) (by simp only; omega)).defined hcF
  subst e
  replace q9 := q9 (by simp only; omega)
  rw [pow_neg' hg.M1 _ m q hm0 hq0 hco hmM hqM (by omega), eia, Res.bind_ok]
  -- the inverted coefficient is a positive fraction
  obtain ⟨u, v⟩ := c'
  simp only at q6 q7 q9 q10 q11
  have hu : 0 < u := by
    have hp : (0 : ℚ) < (u : ℚ) / v := by
      have := q5
      simp only [Rational.val] at this
      rw [this]
      have : (0 : ℚ) < cn := by exact_mod_cast hcn
      have : (0 : ℚ) < cd := by exact_mod_cast hcd
      push_cast
      positivity
    have hv : (0 : ℚ) < v := by exact_mod_cast q9
    exact_mod_cast (div_pos_iff_of_pos_right hv).1 hp
  obtain ⟨u', rfl⟩ := Int.eq_ofNat_of_zero_le hu.le
  obtain ⟨v', rfl⟩ := Int.eq_ofNat_of_zero_le q9.le
  have hu' : 0 < u' := by exact_mod_cast hu
  have hv' : 0 < v' := by exact_mod_cast q9
  have s1 : u' ≤ cd := by simpa using q10
  have s2 : v' ≤ cn := by simpa using q11
  have pl := fun {a b : Nat} (h : a ≤ b) (k : Nat) => Nat.pow_le_pow_left h k
  refine (powPos_frac_sat hg i n' d' u' v' m q hi q1 q2 hu' hv' hq hm hiq ?_ ?_ ?_).mono ?_
  · refine le_trans (Nat.mul_le_mul (Nat.mul_le_mul (pl q3 _) (pl (Nat.mul_le_mul (pl s1 _) (pl (pl s2 _) _)) _))
      (pl (pl q4 _) _)) hN
  · exact le_trans (pl (pl q4 _) _) hD
  · exact le_trans (pl (pl s2 _) _) hC
  · rintro r ⟨r1, r2, r3⟩
    refine ⟨?_, r1, r3⟩
    have hpos : (0 : ℝ) ≤ Real.val ⟨i, ⟨n, d⟩, ⟨cn, cd⟩⟩ := by
      rw [val_mk]
      simp only [Rational.val]
      push_cast
      positivity
    rw [r2, q13, Real.inv_rpow hpos, ← Real.rpow_neg hpos]

/-- `(2√3)^3 = 24√3`, `(2√3)^-2 = 1/12`, `(2√3)^(1/2) = ⁴√12`, `(2√3)^(-3/2) = 1/12·12^(1/4)`,
and `(√2)^-1` keeps the radicand `1/2`. -/
theorem pow_examples :
    pow envI64 ⟨2, ⟨(3 : Nat), (1 : Nat)⟩, ⟨2, 1⟩⟩ ⟨3, 1⟩ = .ok ⟨2, ⟨3, 1⟩, ⟨24, 1⟩⟩ ∧
    pow envI64 ⟨2, ⟨(3 : Nat), (1 : Nat)⟩, ⟨2, 1⟩⟩ ⟨-2, 1⟩ = .ok ⟨1, ⟨1, 1⟩, ⟨1, 12⟩⟩ ∧
    pow envI64 ⟨2, ⟨(3 : Nat), (1 : Nat)⟩, ⟨2, 1⟩⟩ ⟨1, 2⟩ = .ok ⟨4, ⟨12, 1⟩, ⟨1, 1⟩⟩ ∧
    pow envI64 ⟨2, ⟨(3 : Nat), (1 : Nat)⟩, ⟨2, 1⟩⟩ ⟨-3, 2⟩ = .ok ⟨4, ⟨12, 1⟩, ⟨1, 12⟩⟩ ∧
    pow envI64 ⟨2, ⟨2, 1⟩, ⟨1, 1⟩⟩ ⟨-1, 1⟩ = .ok ⟨2, ⟨1, 2⟩, ⟨1, 1⟩⟩ := by decide +kernel

example : (pow envI64 ⟨2, ⟨(3 : Nat), (1 : Nat)⟩, ⟨2, 1⟩⟩ ⟨(3 : Nat), 1⟩).Sat True fun r =>
    r.val = Real.val ⟨2, ⟨(3 : Nat), (1 : Nat)⟩, ⟨2, 1⟩⟩ ^ 3 :=
  ((C42_pow_nat_partial envI64_good 2 3 1 3 (by norm_num) (by norm_num) (by norm_num) (by norm_num) (by norm_num)
    ⟨2, 1⟩ (by norm_num) (by norm_num) (by norm_num) (by norm_num) (by norm_num)).weaken fun _ => by decide).mono
    fun _ h => h.1
example : (pow envI64 ⟨2, ⟨(3 : Nat), (1 : Nat)⟩, ⟨2, 1⟩⟩ ⟨-((2 : Nat) : Int), 1⟩).Sat True fun r =>
    r.val = Real.val ⟨2, ⟨(3 : Nat), (1 : Nat)⟩, ⟨2, 1⟩⟩ ^ (-((2 : Nat) : Int)) :=
  ((C42_pow_neg_partial envI64_good 2 3 1 2 (by norm_num) (by norm_num) (by norm_num) (by norm_num) (by norm_num)
    ⟨2, 1⟩ (by norm_num) (by norm_num) (by norm_num) (by norm_num) (by norm_num) (by norm_num)).weaken
    fun _ => by decide).mono fun _ h => h.1
example : (pow envI64 ⟨2, ⟨(3 : Nat), (1 : Nat)⟩, ⟨(2 : Nat), (1 : Nat)⟩⟩ ⟨(1 : Nat), (2 : Nat)⟩).Sat False fun r =>
    r.val = Real.val ⟨2, ⟨(3 : Nat), (1 : Nat)⟩, ⟨(2 : Nat), (1 : Nat)⟩⟩ ^ (((1 : Nat) : ℝ) / (2 : Nat)) :=
  (C42_pow_frac_partial envI64_good 2 3 1 2 1 1 2 (by norm_num) (by norm_num) (by norm_num) (by norm_num)
    (by norm_num) (by norm_num) (by norm_num) (by norm_num) (by norm_num) (by norm_num) (by norm_num) (by norm_num)
    (by norm_num)).mono fun _ h => h.1
example : (pow envI64 ⟨2, ⟨(3 : Nat), (1 : Nat)⟩, ⟨(2 : Nat), (1 : Nat)⟩⟩ ⟨-((3 : Nat) : Int), (2 : Nat)⟩).Sat False fun r =>
    r.val = Real.val ⟨2, ⟨(3 : Nat), (1 : Nat)⟩, ⟨(2 : Nat), (1 : Nat)⟩⟩ ^ (-(((3 : Nat) : ℝ) / (2 : Nat))) :=
  (C42_pow_neg_frac_partial envI64_good 2 3 1 2 1 3 2 (by norm_num) (by norm_num) (by norm_num) (by norm_num)
    (by norm_num) (by norm_num) (by norm_num) (by norm_num) (by norm_num) (by norm_num) (by norm_num) (by norm_num)
    (by norm_num)).mono fun _ h => h.1

/-! ## C68 rationality -/

/-- C68: on a Real in normal form `is_rational()` answers whether the denoted number is rational, and
`to<Rational>()` then returns that number, otherwise it raises an `Error`. -/
theorem C68_isRational (hM : 1 ≤ env.M) {a : Real} (ha : a.Canon) (hf : a.coe.Fits env.M) (hr : a.rad.num ≤ env.M) :
    ∃ b, isRational env a = .ok b ∧ (b = true ↔ ∃ q : ℚ, a.val = q) := by
  have hca := ha
  obtain ⟨N, e, hs, hd, hz⟩ := ha
  have hrf : a.rad.Fits env.M := by
    rw [e] at hr ⊢
    have hr : (N : Int) ≤ env.M := hr
    exact ⟨by simp only; rw [abs_of_nonneg (by positivity)]; exact hr, by simpa using hM⟩
  unfold isRational
  rw [Rational.eqInt_spec env.M a.coe 0 hM (by norm_num) hf, Rational.eqInt_spec env.M a.rad 1 hM (by norm_num) hrf,
    Rational.eqInt_spec env.M a.rad 0 hM (by norm_num) hrf, e]
  simp only [Res.bind_ok, zero_mul, mul_one]
  have hN0 : ¬ ((N : Int) = 0) := by have := hs.1; omega
  have hcan1 : Real.Canon ⟨1, ⟨1, 1⟩, ⟨1, 1⟩⟩ :=
    ⟨1, rfl, (simplest_iff 1 1 (by omega) (by omega)).2 ⟨by simp, fun d h _ => Nat.dvd_one.1 h⟩, by norm_num, fun _ => rfl⟩
  have hv1 : Real.val ⟨1, ⟨1, 1⟩, ⟨1, 1⟩⟩ = 1 := by simp [Real.val, Rational.val]
  by_cases h0 : a.coe.num = 0
  · refine ⟨true, by simp [h0], ⟨fun _ => ⟨0, ?_⟩, fun _ => rfl⟩⟩
    rw [(val_zero_iff hca).2 h0]; simp
  · by_cases h1 : N = 1
    · subst h1
      refine ⟨true, by simp [h0], ⟨fun _ => ⟨a.coe.val, ?_⟩, fun _ => rfl⟩⟩
      rw [val_canon e]; simp
    · have hk : a.index ≠ 1 := by
        intro hk
        rw [hk] at hs
        exact h1 hs.idx_one
      have hk0 : a.index ≠ 0 := hs.2.1.ne'
      have h1' : ¬ ((N : Int) = 1) := by omega
      refine ⟨false, by simp [h0, h1, hk, hk0, hs.1.ne'], ?_⟩
      simp only [Bool.false_eq_true, false_iff]
      rintro ⟨q, hq⟩
      refine h1 ?_
      have := (differ_irrational hca hcan1 (fun h => h0 ((val_zero_iff hca).1 h)) (by rw [hv1]; norm_num)).2
        ⟨q, by rw [hv1, hq, mul_one]⟩
      have h2 : a.rad = ⟨1, 1⟩ := this.1
      rw [e] at h2
      injection h2 with h2
      exact_mod_cast h2

theorem C68_toRational (hM : 1 ≤ env.M) {a : Real} (ha : a.Canon) (hf : a.coe.Fits env.M) (hr : a.rad.num ≤ env.M) :
    (∀ q : ℚ, a.val = q → (toRational env a).Sat True fun r => r.val = q) ∧
    ((¬ ∃ q : ℚ, a.val = q) → toRational env a = .throw "Must be a rational.") := by
  obtain ⟨b, hb, hq⟩ := C68_isRational hM ha hf hr
  have hca := ha
  obtain ⟨N, e, hs, hd, hz⟩ := ha
  unfold toRational
  rw [hb]
  constructor
  · intro q hv
    have : b = true := hq.2 ⟨q, hv⟩
    subst this
    simp only [Res.bind_ok, Res.assert, if_true]
    have hN : N = 1 := by
      by_cases h0 : a.coe.num = 0
      · exact hz h0
      · have hcan1 : Real.Canon ⟨1, ⟨1, 1⟩, ⟨1, 1⟩⟩ :=
          ⟨1, rfl, (simplest_iff 1 1 (by omega) (by omega)).2 ⟨by simp, fun d h _ => Nat.dvd_one.1 h⟩, by norm_num, fun _ => rfl⟩
        have hv1 : Real.val ⟨1, ⟨1, 1⟩, ⟨1, 1⟩⟩ = 1 := by simp [Real.val, Rational.val]
        have := (differ_irrational hca hcan1 (fun h => h0 ((val_zero_iff hca).1 h)) (by rw [hv1]; norm_num)).2
          ⟨q, by rw [hv1, hv, mul_one]⟩
        have h2 : a.rad = ⟨1, 1⟩ := this.1
        rw [e] at h2
        injection h2 with h2
        exact_mod_cast h2
    subst hN
    rw [e]
    have hval : a.coe.val = q := by
      have := val_canon e
      rw [hv] at this
      simp at this
      exact_mod_cast this.symm
    have := Rational.mulInt_sat (M := env.M) a.coe 1 hd (by norm_num) hM
    refine (this.weaken fun _ => ?_).mono ?_
    · exact ⟨by simpa using hf.1, hf.2⟩
    · rintro r h
      rw [h.1, hval]; simp
  · intro hn
    have : b = false := by
      cases b with
      | false => rfl
      | true => exact absurd (hq.1 rfl) hn
    subst this
    rfl

example : ∃ b, isRational envI64 twoRootThree = .ok b ∧ (b = true ↔ ∃ q : ℚ, twoRootThree.val = q) :=
  C68_isRational (by decide) canon_a (by decide) (by decide)
example : isRational envI64 twoRootThree = .ok false ∧ isRational envI64 ⟨1, ⟨1, 1⟩, ⟨5, 3⟩⟩ = .ok true ∧
    toRational envI64 twoRootThree = .throw "Must be a rational." ∧
    toRational envI64 ⟨1, ⟨1, 1⟩, ⟨5, 3⟩⟩ = .ok ⟨5, 3⟩ := by decide +kernel

/-! ## Exact runs: no bound on the operands

A run is *exact* when it also succeeds in `env.checked B` (Num/RealMono.lean): no floating-point power is rounded, no integer
overflows, no index wraps around, and every call of `factorize` returned the prime factors. Nothing is assumed about
`factorize` elsewhere. `Valid` holds of every normal form and of its `inverse`. -/

/-- C36, for every exact run: the value is kept and the result is in normal form. -/
theorem C36_exact_partial (hg : env.Base B) {c r : Rational} {i : Nat} {x : Real} (hi : 0 < i) (hr : r.den ≠ 0) (hc : c.den ≠ 0)
    (h : mk3 (env.checked B) c r i = .ok x) :
    mk3 env c r i = .ok x ∧ x.val = (c.val : ℝ) * (r.val : ℝ) ^ ((1 : ℝ) / i) ∧ x.Canon ∧ 0 < r.val :=
  have := mk3_sound hg hi hr hc h
  ⟨normalize_mono (env.checked_le B) _ x h, this.2.1, this.1, this.2.2.1⟩

/-- C36 for `nth_root(n, q)`: in every exact run it is the real `n`-th root of `q`, in normal form. -/
theorem C36_root_exact_partial (hg : env.Base B) {q : Rational} {n : Nat} {x : Real} (hn : 0 < n) (hq : q.den ≠ 0)
    (h : nthRoot (env.checked B) n q = .ok x) :
    nthRoot env n q = .ok x ∧ x.val ^ n = q.val ∧ 0 < x.val ∧ x.Canon := by
  unfold nthRoot at h ⊢
  obtain ⟨o, h1, h⟩ := Res.bind_eq_ok.1 h
  have h1' : Rational.ofInt env.M 1 = .ok o := h1
  obtain ⟨rfl, -⟩ := Rational.ofInt_spec h1
  obtain ⟨e1, e2, e3, e4⟩ := C36_exact_partial hg hn hq (by norm_num) h
  rw [h1']
  have e4' : (0 : ℝ) < (q.val : ℝ) := by exact_mod_cast e4
  have e5 : x.val = (q.val : ℝ) ^ ((1 : ℝ) / n) := by rw [e2]; simp [Rational.val]
  refine ⟨e1, ?_, by rw [e5]; exact Real.rpow_pos_of_pos e4' _, e3⟩
  rw [e5, one_div, Real.rpow_inv_natCast_pow e4'.le hn.ne']

/-- C36 for `nth_root`: it does return, for every positive fraction within the bounds. -/
theorem C36_root_partial (hg : env.Good B) (k n d : Nat) (hk : 0 < k) (hn : 0 < n) (hd : 0 < d)
    (hN : n * d ^ (k - 1) ≤ B) (hdk : d ^ k ≤ B) :
    (nthRoot env k ⟨n, d⟩).Sat (((n * d ^ (k - 1) : Nat) : Int) ≤ env.M ∧ (d : Int) ≤ env.M)
      fun r => r.val ^ k = (n : ℝ) / d ∧ 0 < r.val ∧ r.Canon := by
  unfold nthRoot
  rw [Rational.ofInt_eq env.M 1 (by simpa using hg.M1) hg.M1]
  simp only [Res.bind_ok]
  refine ((C36_normalize_partial hg k n d hk hn hd hN hdk ⟨1, 1⟩ (by norm_num)).weaken ?_).mono ?_
  · rintro ⟨h1, h2⟩
    exact ⟨by simpa using h1, by simpa using h2⟩
  · rintro r ⟨h1, h2, -⟩
    have hp : (0 : ℝ) < (n : ℝ) / d := by positivity
    have e : r.val = ((n : ℝ) / d) ^ ((1 : ℝ) / k) := by rw [h1]; simp [Rational.val]
    refine ⟨?_, by rw [e]; exact Real.rpow_pos_of_pos hp _, h2⟩
    rw [e, one_div, Real.rpow_inv_natCast_pow hp.le hk.ne']

/-- the cube root of 16/27 is 2/3·∛2. -/
theorem nthRoot_example :
    nthRoot envI64 3 ⟨(16 : Nat), (27 : Nat)⟩ = .ok ⟨3, ⟨2, 1⟩, ⟨2, 3⟩⟩ := by decide +kernel
example : Real.val ⟨3, ⟨2, 1⟩, ⟨2, 3⟩⟩ ^ 3 = ((16 : Nat) : ℝ) / (27 : Nat) :=
  ((C36_root_partial envI64_good 3 16 27 (by norm_num) (by norm_num) (by norm_num) (by norm_num)
    (by norm_num)).post nthRoot_example).1

/-- C38, for every exact run: what `normalize` returned is returned unchanged by a second `normalize`. -/
theorem C38_exact_partial (hg : env.Base B) {x r r' : Real} (hi : 0 < x.index) (hr : x.rad.den ≠ 0)
    (hl : x.coe.Lowest) (hd : 0 < x.coe.den)
    (h : normalize (env.checked B) x = .ok r) (h' : normalize (env.checked B) r = .ok r') :
    normalize env x = .ok r ∧ normalize env r = .ok r ∧ r' = r := by
  obtain ⟨c1, v1, -, d1⟩ := normalize_sound hg ⟨hi, hr, hd.ne'⟩ h
  have l1 := normalize_low hg ⟨hi, hr, hd.ne'⟩ hl h
  have p1 := c1.valid.toPre
  obtain ⟨c2, v2, -, d2⟩ := normalize_sound hg p1 h'
  have l2 := normalize_low hg p1 l1 h'
  obtain ⟨e1, e2, e3⟩ := (canon_unique c2 c1).1 v2
  have e4 : r'.coe = r.coe := Rational.ext_lowest (d2 (d1 hd)) (d1 hd) l2 l1 e1
  have e : r' = r := by
    obtain ⟨i, q, c⟩ := r
    obtain ⟨i', q', c'⟩ := r'
    simp only at e2 e3 e4
    rw [e2, e3, e4]
  refine ⟨normalize_mono (env.checked_le B) _ _ h, ?_, e⟩
  rw [normalize_mono (env.checked_le B) _ _ h', e]

/-- C39, for every exact run. -/
theorem C39_exact_partial (hg : env.Base B) {a b r : Real} (ha : a.Valid) (hb : b.Valid) :
    (mul (env.checked B) a b = .ok r → mul env a b = .ok r ∧ r.val = a.val * b.val ∧ r.Canon) ∧
    (div (env.checked B) a b = .ok r → div env a b = .ok r ∧ r.val = a.val / b.val ∧ r.Canon ∧ b.val ≠ 0) :=
  ⟨fun h => have := mul_sound hg ha.toPre hb.toPre ha.pos hb.pos h
    ⟨mul_mono (env.checked_le B) a b r h, this.2, this.1⟩,
   fun h => have := div_sound hg ha hb h
    ⟨div_mono (env.checked_le B) a b r h, this.2.1, this.1, this.2.2⟩⟩

/-- C40, for every exact run. -/
theorem C40_exact_partial (hg : env.Base B) {a b r : Real} (ha : a.Valid) (hb : b.Valid) :
    (add (env.checked B) a b = .ok r → add env a b = .ok r ∧ r.val = a.val + b.val ∧ r.Canon) ∧
    (sub (env.checked B) a b = .ok r → sub env a b = .ok r ∧ r.val = a.val - b.val ∧ r.Canon) :=
  ⟨fun h => have := add_sound hg ha hb h
    ⟨add_mono (env.checked_le B) a b r h, this.2, this.1⟩,
   fun h => have := sub_sound hg ha hb h
    ⟨sub_mono (env.checked_le B) a b r h, this.2, this.1⟩⟩

/-- C41, for every exact run on normal forms (the product of the indices must fit the unsigned type). -/
theorem C41_exact_partial (hg : env.Base B) {a b : Real} {v : Bool} (ha : a.Canon) (hb : b.Canon) (hda : 0 < a.coe.den)
    (hdb : 0 < b.coe.den) (hi : ((b.index * a.index : Nat) : Int) ≤ 2 * env.M + 1) :
    (lt (env.checked B) a b = .ok v → lt env a b = .ok v ∧ (v = true ↔ a.val < b.val)) ∧
    (gt (env.checked B) a b = .ok v → gt env a b = .ok v ∧ (v = true ↔ a.val > b.val)) :=
  ⟨fun h => ⟨lt_mono (env.checked_le B) a b v h, lt_sound hg ha hb hda hdb hi h⟩,
   fun h => ⟨gt_mono (env.checked_le B) a b v h, gt_sound hg ha hb hda hdb hi h⟩⟩

/-- C42, for every exact run: any exponent if the base is positive, any integer exponent otherwise. -/
theorem C42_exact_partial (hg : env.Base B) {a r : Real} {p : Rational} (ha : a.Valid) (hp : p.den ≠ 0)
    (hpos : 0 < a.val ∨ (p.Lowest ∧ ∃ k : Int, p.val = k)) (h : pow (env.checked B) a p = .ok r) :
    pow env a p = .ok r ∧ r.val = a.val ^ ((p.val : ℚ) : ℝ) ∧ r.Valid :=
  have := pow_sound hg ha hp hpos h
  ⟨pow_mono (env.checked_le B) a p r h, this.2, this.1⟩

/-- exact runs with the modelled `factorize`: `√10018800 = 660√23` is beyond the bound of the other theorems. -/
def envFac : Env := envOf maxI64 Fl.ideal 0 fun _ => List.range 40
theorem envFac_base : envFac.Base (2 ^ 53) := env_of_factorize_base _ _ _ _ (by decide) Fl.ideal_exact

def root23 : Real := ⟨2, ⟨23, 1⟩, ⟨660, 1⟩⟩
theorem exact_examples :
    mk3 (envFac.checked (2 ^ 53)) ⟨1, 1⟩ ⟨10018800, 1⟩ 2 = .ok root23 ∧
    mul (envFac.checked (2 ^ 53)) root23 ⟨3, ⟨2, 1⟩, ⟨1, 1⟩⟩ = .ok ⟨6, ⟨48668, 1⟩, ⟨660, 1⟩⟩ ∧
    div (envFac.checked (2 ^ 53)) ⟨2, ⟨3, 1⟩, ⟨1, 2⟩⟩ root23 = .ok ⟨2, ⟨69, 1⟩, ⟨1, 30360⟩⟩ ∧
    add (envFac.checked (2 ^ 53)) root23 ⟨2, ⟨23, 1⟩, ⟨1, 3⟩⟩ = .ok ⟨2, ⟨23, 1⟩, ⟨1981, 3⟩⟩ ∧
    sub (envFac.checked (2 ^ 53)) root23 ⟨2, ⟨23, 1⟩, ⟨660, 1⟩⟩ = .ok ⟨1, ⟨1, 1⟩, ⟨0, 1⟩⟩ ∧
    pow (envFac.checked (2 ^ 53)) root23 ⟨-2, 1⟩ = .ok ⟨1, ⟨1, 1⟩, ⟨1, 10018800⟩⟩ ∧
    lt (envFac.checked (2 ^ 53)) root23 ⟨3, ⟨2, 1⟩, ⟨7, 1⟩⟩ = .exn "rounding" ∧
    lt (envFac.checked (2 ^ 53)) ⟨2, ⟨23, 1⟩, ⟨2, 3⟩⟩ ⟨3, ⟨2, 1⟩, ⟨-7, 1⟩⟩ = .ok false ∧
    lt (envFac.checked (2 ^ 53)) ⟨2, ⟨23, 1⟩, ⟨2, 3⟩⟩ ⟨3, ⟨2, 1⟩, ⟨7, 2⟩⟩ = .ok true := by decide +kernel

example : root23.val = (((⟨1, 1⟩ : Rational).val : ℚ) : ℝ) * (((⟨10018800, 1⟩ : Rational).val : ℚ) : ℝ) ^ ((1 : ℝ) / (2 : Nat)) :=
  (C36_exact_partial envFac_base (by norm_num) (by norm_num) (by norm_num) exact_examples.1).2.1
theorem root23_valid : root23.Valid :=
  (C36_exact_partial envFac_base (by norm_num) (by norm_num) (by norm_num) exact_examples.1).2.2.1.valid
example : Real.val ⟨1, ⟨1, 1⟩, ⟨1, 10018800⟩⟩ = root23.val ^ ((((⟨-2, 1⟩ : Rational).val : ℚ)) : ℝ) :=
  (C42_exact_partial envFac_base root23_valid (by norm_num) (Or.inr ⟨by decide, -2, by simp [Rational.val]⟩)
    exact_examples.2.2.2.2.2.1).2.1

example : normalize envFac ⟨2, ⟨10018800, 1⟩, ⟨1, 1⟩⟩ = .ok root23 ∧ normalize envFac root23 = .ok root23 :=
  have h := C38_exact_partial envFac_base (x := ⟨2, ⟨10018800, 1⟩, ⟨1, 1⟩⟩) (r := root23) (r' := root23)
    (by norm_num) (by norm_num) (by decide) (by norm_num) exact_examples.1 (by decide +kernel)
  ⟨h.1, h.2.1⟩
example : root23.val ^ 2 = (((⟨10018800, 1⟩ : Rational).val : ℚ) : ℝ) :=
  (C36_root_exact_partial envFac_base (n := 2) (by norm_num) (by norm_num) (by decide +kernel)).2.1

end Symxx.Num.Real
