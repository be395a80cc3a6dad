import Verif.Factor.Strong
import Verif.Factor.Live
import Verif.Props.Factor
import Mathlib.Tactic.NormNum.Prime
/-!
# Properties of the primality test: the strong test and the randomised mode (C23, C87, C88)

`M` is the maximum of the integer type, `draws` the outcomes of the random generator: the draw `r` selects the base
`2 + r mod (n - 4)` of `[2, n - 3]`. `isPrimeP M n t draws` is `is_prime(n, true, t)`; it returns the answer and the unused draws.
-/
namespace Symxx.Factor

/-! ## C23: the deterministic mode -/

/-- C23: exactly what the deterministic test decides for a number above 9006402 when `2^d ≠ 1` modulo `n` (`d` the odd part of
`n - 1`): trial division by the primes up to 89 and the strong test to base 2 alone. In every case an accepted number passes
the strong test to base 2. -/
theorem C23_only_base_two (M : Int) (n d : Nat) (h : 9006403 ≤ n) (hM : ((n : Int) - 1) * (n - 1) ≤ M) (hd : OddPart n d) :
    (2 ^ d % n ≠ 1 → (isPrime M n = .ok true ↔ (∀ p, p.Prime → p ≤ 89 → ¬ p ∣ n) ∧ PassesStrong n 2)) ∧
    (isPrime M n = .ok true → (∀ p, p.Prime → p ≤ 89 → ¬ p ∣ n) ∧ PassesStrong n 2) := by
  obtain ⟨b, h1, h2⟩ := fastPath_scan M n h hM hd
  obtain ⟨ws, hws⟩ := witnesses_head n
  have e : isPrime M n = .ok b := by
    unfold isPrime
    rw [if_neg (by omega), h1]
  rw [hws] at h2
  rw [e, Res.ok.injEq, h2]
  constructor
  · intro hne
    unfold Scan
    rw [if_neg (by simpa using hne)]
    rfl
  · rintro ⟨p1, p2⟩
    exact ⟨p1, scan_head hd p2⟩

/-- the composite 9056501 passes the strong test to base 2; `d = 2264125`. -/
theorem oddPart_9056501 : OddPart 9056501 2264125 := ⟨by norm_num, 2, by norm_num⟩
example : isPrime maxI64 9056501 = .ok true ∧ PassesStrong 9056501 2 :=
  have h : isPrime maxI64 9056501 = .ok true := by decide +kernel
  ⟨h, ((C23_only_base_two maxI64 9056501 2264125 (by norm_num) (by decide) oddPart_9056501).2 h).2⟩

/-! ## C87: the randomised mode never errs on primes -/

/-- C87: the randomised test accepts every prime, whatever bases are drawn and whatever the tolerance. -/
theorem C87_primes_accepted (M n t : Int) (hM : (n - 1) * (n - 1) ≤ M) (draws : List Nat) (hl : 20 ≤ draws.length)
    (hM3 : 9006402 * 9006402 ≤ M) (hp : PrimeInt n) : ∃ rest, isPrimeP M n t draws = .ok (true, rest) := by
  by_cases h : n < 9006403
  · have hne : n ≠ 9006401 := by
      rintro rfl
      have := hp.2
      revert this
      rw [show Int.toNat 9006401 = 9006401 from rfl]
      norm_num
    obtain ⟨b, h1, h2⟩ := isPrime_small M n h hne hM3
    have hb := h2.2 hp
    subst hb
    refine ⟨draws, ?_⟩
    unfold isPrime at h1
    unfold isPrimeP fastPathP
    by_cases hs : n < 100000
    · rw [if_pos hs] at h1 ⊢
      rw [Res.ok.injEq] at h1
      rw [h1]
    · rw [if_neg hs] at h1 ⊢
      rw [if_neg (by omega), h1]
      rfl
  · obtain ⟨m, rfl⟩ : ∃ m : Nat, n = m := ⟨n.toNat, by omega⟩
    have hm : m.Prime := by simpa [PrimeInt] using hp
    obtain ⟨d, hd⟩ := exists_oddPart (m := m) (by omega)
    obtain ⟨b, rest, h1, h2⟩ := fastPathP_scan M m (by omega) hM hd draws hl
    have hb : b = true := h2.2 ⟨fun p hp hle hdvd => by
        rcases (Nat.dvd_prime hm).1 hdvd with e | e
        · exact hp.one_lt.ne' e
        · omega, scan_of_all fun p hp => by
        obtain ⟨r, -, rfl⟩ := List.mem_map.1 hp
        have h1 := Int.emod_nonneg (r : Int) (show (m : Int) - 3 - 2 + 1 ≠ 0 by omega)
        have h2 := Int.emod_lt_of_pos (r : Int) (show (0 : Int) < (m : Int) - 3 - 2 + 1 by omega)
        unfold pick
        exact passes_of_prime hm (by omega) (by omega) (by omega)⟩
    subst hb
    refine ⟨rest, ?_⟩
    unfold isPrimeP
    rw [if_neg (by omega), h1]

example (draws : List Nat) (hl : 20 ≤ draws.length) : ∃ rest, isPrimeP maxI64 10000019 30 draws = .ok (true, rest) :=
  C87_primes_accepted maxI64 10000019 30 (by decide) draws hl (by decide)
    ⟨by norm_num, by rw [show Int.toNat 10000019 = 10000019 from rfl]; norm_num⟩

/-- C87: below 9006403 (9006401 excepted) the randomised test is exact and draws nothing. -/
theorem C87_small (M n t : Int) (draws : List Nat) (hn : n < 9006403) (hex : n ≠ 9006401) (hM3 : 9006402 * 9006402 ≤ M) :
    ∃ b, isPrimeP M n t draws = .ok (b, draws) ∧ (b = true ↔ PrimeInt n) := by
  obtain ⟨b, h1, h2⟩ := isPrime_small M n hn hex hM3
  refine ⟨b, ?_, h2⟩
  unfold isPrime at h1
  unfold isPrimeP fastPathP
  by_cases hs : n < 100000
  · rw [if_pos hs] at h1 ⊢
    rw [Res.ok.injEq] at h1
    rw [h1]
  · rw [if_neg hs] at h1 ⊢
    rw [if_neg (by omega), h1]
    rfl

/-! ## C88: how often the randomised mode accepts a composite -/

/-- one draw decides: a first base that fails the strong test rejects, whatever is drawn later. -/
theorem C88_first_base (M t : Int) (n r : Nat) (h : 9006403 ≤ n) (hM : ((n : Int) - 1) * (n - 1) ≤ M) (draws : List Nat)
    (hl : 19 ≤ draws.length) (hb : ¬ PassesStrong n (2 + r % (n - 4))) :
    ∃ rest, isPrimeP M n t (r :: draws) = .ok (false, rest) := by
  obtain ⟨d, hd⟩ := exists_oddPart (m := n) (by omega)
  obtain ⟨b, rest, h1, h2⟩ := fastPathP_scan M n h hM hd (r :: draws) (by simpa using hl)
  have hf : b = false := by
    cases b with
    | false => rfl
    | true =>
      obtain ⟨-, h4⟩ := h2.1 rfl
      obtain ⟨ws, hws⟩ := witnesses_head n
      rw [hws, List.length_cons, List.take_succ_cons, List.map_cons] at h4
      have h5 := scan_head hd h4
      refine absurd ?_ hb
      have e : (pick n r).toNat = 2 + r % (n - 4) := by
        unfold pick
        rw [show (n : Int) - 3 - 2 + 1 = ((n - 4 : Nat) : Int) by omega, ← Int.natCast_mod]
        omega
      rwa [e] at h5
  subst hf
  refine ⟨rest, ?_⟩
  unfold isPrimeP
  rw [if_neg (by omega), h1]

open Classical in
/-- C88: for a composite above 9006402, fewer than a quarter of the `n - 4` possible values of the first random base lead to
acceptance, whatever is drawn later and whatever the tolerance. -/
theorem C88_quarter (M : Int) (n : Nat) (h : 9006403 ≤ n) (hM : ((n : Int) - 1) * (n - 1) ≤ M) (hc : ¬ n.Prime) :
    4 * ((Finset.Icc 2 (n - 3)).filter fun b => ∃ (t : Int) (draws rest : List Nat), 19 ≤ draws.length ∧
        isPrimeP M n t ((b - 2) :: draws) = .ok (true, rest)).card < n - 4 := by
  by_cases hs : ∀ p, p.Prime → p ≤ 89 → ¬ p ∣ n
  · refine liars_drawn (by omega) hc ?_ (hs 3 (by norm_num) (by norm_num)) _ ?_
    · have := hs 2 (by norm_num) (by norm_num)
      omega
    · intro b hb
      rw [Finset.mem_filter, Finset.mem_Icc] at hb
      obtain ⟨⟨h1, h2⟩, t, draws, rest, hl, he⟩ := hb
      refine ⟨h1, h2, ?_⟩
      by_contra hnp
      obtain ⟨rest', e⟩ := C88_first_base M t n (b - 2) h hM draws hl (by
        rwa [Nat.mod_eq_of_lt (by omega), Nat.add_sub_cancel' h1])
      rw [e] at he
      simp at he
  · have : ((Finset.Icc 2 (n - 3)).filter fun b => ∃ (t : Int) (draws rest : List Nat), 19 ≤ draws.length ∧
        isPrimeP M n t ((b - 2) :: draws) = .ok (true, rest)) = ∅ := by
      rw [Finset.filter_eq_empty_iff]
      rintro b - ⟨t, draws, rest, hl, he⟩
      obtain ⟨d, hd⟩ := exists_oddPart (m := n) (by omega)
      obtain ⟨b', rest', h1, h2⟩ := fastPathP_scan M n h hM hd ((b - 2) :: draws) (by simpa using hl)
      unfold isPrimeP at he
      rw [if_neg (by omega), h1] at he
      simp only [Res.ok.injEq, Prod.mk.injEq] at he
      exact hs (h2.1 he.1).1
    rw [this]
    simp; omega

/-- C88 is not improved by repetition: a first base that passes with a power other than 1 accepts the number at once, whatever
would be drawn later and whatever the tolerance: further rounds are not run (the `break` of factorize.hpp 246). -/
theorem C88_no_further_rounds (M t : Int) (n r d : Nat) (h : 9006403 ≤ n) (hM : ((n : Int) - 1) * (n - 1) ≤ M)
    (hd : OddPart n d) (draws : List Nat) (hl : 19 ≤ draws.length) (hs : ∀ p, p.Prime → p ≤ 89 → ¬ p ∣ n)
    (hne : (2 + r % (n - 4)) ^ d % n ≠ 1) (hb : PassesStrong n (2 + r % (n - 4))) :
    ∃ rest, isPrimeP M n t (r :: draws) = .ok (true, rest) := by
  obtain ⟨b, rest, h1, h2⟩ := fastPathP_scan M n h hM hd (r :: draws) (by simpa using hl)
  obtain ⟨ws, hws⟩ := witnesses_head n
  have e : (pick n r).toNat = 2 + r % (n - 4) := by
    unfold pick
    rw [show (n : Int) - 3 - 2 + 1 = ((n - 4 : Nat) : Int) by omega, ← Int.natCast_mod]
    omega
  have hbt : b = true := h2.2 ⟨hs, by
    rw [hws, List.length_cons, List.take_succ_cons, List.map_cons]
    unfold Scan
    rw [e, if_neg hne]
    exact hb⟩
  subst hbt
  refine ⟨rest, ?_⟩
  unfold isPrimeP
  rw [if_neg (by omega), h1]

theorem composite_9056501 : ¬ Nat.Prime 9056501 := by norm_num

/-- the first draw 0 (base 2) accepts the composite 9056501; base 3 rejects it. -/
theorem prob_examples :
    isPrimeP maxI64 9056501 30 (List.replicate 20 0) = .ok (true, List.replicate 19 0) ∧
    isPrimeP maxI64 9056501 30 (1 :: List.replicate 19 0) = .ok (false, List.replicate 19 0) := by decide +kernel

theorem passes_9056501 : PassesStrong 9056501 2 :=
  ((C23_only_base_two maxI64 9056501 2264125 (by norm_num) (by decide) oddPart_9056501).2 (by decide +kernel)).2

open Classical in
example : 4 * ((Finset.Icc 2 (9056501 - 3)).filter fun b => ∃ (t : Int) (draws rest : List Nat), 19 ≤ draws.length ∧
    isPrimeP maxI64 (9056501 : Nat) t ((b - 2) :: draws) = .ok (true, rest)).card < 9056497 :=
  C88_quarter maxI64 9056501 (by norm_num) (by decide) composite_9056501

example (t : Int) (draws : List Nat) (hl : 19 ≤ draws.length) :
    ∃ rest, isPrimeP maxI64 (9056501 : Nat) t (0 :: draws) = .ok (true, rest) :=
  C88_no_further_rounds maxI64 t 9056501 0 2264125 (by norm_num) (by decide) oddPart_9056501 draws hl
    ((noneDivides_primes89 9056501).1 (by decide +kernel)) (by decide +kernel) passes_9056501

/-- base 3 (draw 1) fails: the composite is rejected whatever follows. -/
example (t : Int) (draws : List Nat) (hl : 19 ≤ draws.length) :
    ∃ rest, isPrimeP maxI64 (9056501 : Nat) t (1 :: draws) = .ok (false, rest) := by
  refine C88_first_base maxI64 t 9056501 1 (by norm_num) (by decide) draws hl ?_
  rw [passes_iff (s := 2) (d := 2264125) (by norm_num) (by norm_num)]
  decide +kernel

/-! ## C89: factorisation can always finish -/

/-- C89: for every number `n` that `is_prime` rejects there is a value of the random draw, one of the `n - 2` equally likely
ones, with which the search finds a proper divisor at once, whatever would be drawn afterwards. -/
theorem C89_draw (M : Int) (n : Nat) (h4 : 4 < n) (hM : ((n : Int) - 1) * (n - 1) ≤ M) (hM2 : 2 * (n : Int) ≤ M)
    (hc : isPrime M n = .ok false) :
    ∃ r < n - 2, ∀ draws, ∃ d, pollardRho M n (r :: draws) = .ok (d, draws) ∧ 1 < d ∧ d < n ∧ d ∣ n := by
  obtain ⟨b, hb, hp, -⟩ := isPrime_total M n (Or.inl ⟨hM, hM2⟩)
  rw [hc, Res.ok.injEq] at hb
  subst hb
  obtain ⟨r, h1, h2⟩ := rhoSearch_good M n h4 ⟨hM, hM2⟩ fun h => absurd (hp ⟨by omega, by simpa using h⟩) (by simp)
  refine ⟨r, by omega, fun draws => ?_⟩
  obtain ⟨d, hd⟩ := h2 draws
  refine ⟨d, ?_, hd.2⟩
  unfold pollardRho
  rw [if_neg (by omega), hc]
  exact hd.1

/-- C89: after every sequence of draws, `factorize(n)` can go on so that it returns, and what it returns has product `n` and
consists of numbers greater than 1 that pass `is_prime`. -/
theorem C89_factorize (M n : Int) (hn : 1 ≤ n) (hM : (n - 1) * (n - 1) ≤ M) (hM2 : 2 * n ≤ M) (pre : List Nat) :
    ∃ more fs rest, factorize M n (pre ++ more) = .ok (fs, rest) ∧ fs.prod = n ∧
      ∀ p ∈ fs, 1 < p ∧ isPrime M p = .ok true := by
  obtain ⟨l, fs, rest, h⟩ := (factorizeF_live M (n.natAbs + 1) n [] hn ⟨hM, hM2⟩ (by omega)).live pre
  exact ⟨l, fs, rest, h, C26_whatever_returned M n hn _ rest fs h⟩

/-- C89 with C25: below 9006403 (9006401 excepted) that is the list of the prime factors of `n`. -/
theorem C89_primes_partial (M n : Int) (hn : 1 ≤ n) (hlt : n < 9006403) (hex : n ≠ 9006401) (hM : 9006402 * 9006402 ≤ M)
    (pre : List Nat) : ∃ more fs rest, factorize M n (pre ++ more) = .ok (fs, rest) ∧
      (fs.map Int.toNat).Perm n.toNat.primeFactorsList := by
  obtain ⟨l, fs, rest, h, -⟩ := C89_factorize M n hn (by nlinarith) (by omega) pre
  refine ⟨l, fs, rest, h, ?_⟩
  rcases C25_factorize_partial M n hn hlt hex hM (pre ++ l) with h' | ⟨fs', rest', h', hp⟩
  · rw [h] at h'; cases h'
  · rw [h] at h'
    simp only [Res.ok.injEq, Prod.mk.injEq] at h'
    rw [h'.1]
    exact hp

/-- 25 = 5 * 5: the draw 0 (`c = 1`) fails and asks for another draw, the draw 1 (`c = 2`) finds 5. -/
theorem rho_25 : pollardRho maxI64 25 [0] = .fuel ∧ pollardRho maxI64 25 [0, 1] = .ok (5, []) := by decide +kernel
example (pre : List Nat) : ∃ more fs rest, factorize maxI64 25 (pre ++ more) = .ok (fs, rest) ∧
    (fs.map Int.toNat).Perm (25 : Nat).primeFactorsList :=
  C89_primes_partial maxI64 25 (by norm_num) (by norm_num) (by norm_num) (by decide) pre
example : ∃ r < 9006407 - 2, ∀ draws, ∃ d, pollardRho maxI64 (9006407 : Nat) (r :: draws) = .ok (d, draws) ∧
    1 < d ∧ d < (9006407 : Nat) ∧ d ∣ ((9006407 : Nat) : Int) :=
  C89_draw maxI64 9006407 (by norm_num) (by decide) (by decide) (by decide +kernel)

end Symxx.Factor
