import Verif.Factor.Slow
import Mathlib.FieldTheory.Finite.Basic
import Mathlib.Data.Nat.ModEq
/-!
Kernel-checked enumeration: a composite `n` without small factor that satisfies `2^(n-1) ≡ 1 (mod n)`
is of the form `p * (1 + k * ord_p 2)` with `p` its least prime factor. The finitely many
numbers of this form below the bound are run through the test in the kernel.
-/
namespace Symxx.Factor

/-- modular power, right-to-left binary, on `Nat`. -/
def pm (m : Nat) : Nat → Nat → Nat → Nat → Nat
  | 0, _, _, acc => acc
  | f + 1, b, e, acc => pm m f (b * b % m) (e / 2) (if e % 2 = 1 then acc * b % m else acc)

theorem pm_spec (m f b e acc : Nat) (he : e < 2 ^ f) (ha : acc < m) :
    pm m f b e acc = acc * b ^ e % m := by
  induction f generalizing b e acc with
  | zero =>
    have : e = 0 := by rw [pow_zero] at he; omega
    subst this
    simp [pm, Nat.mod_eq_of_lt ha]
  | succ f ih =>
    unfold pm
    have hm : 0 < m := by omega
    have he2 : e / 2 < 2 ^ f := by rw [pow_succ] at he; omega
    have hpow : (b * b % m) ^ (e / 2) ≡ b ^ (2 * (e / 2)) [MOD m] := by
      rw [pow_mul, pow_two]
      exact (Nat.mod_modEq _ _).pow _
    by_cases h : e % 2 = 1
    · rw [if_pos h, ih _ _ _ he2 (Nat.mod_lt _ hm)]
      have e2 : acc * b ^ e = (acc * b) * b ^ (2 * (e / 2)) := by
        have : e = 2 * (e / 2) + 1 := by omega
        conv_lhs => rw [this, pow_succ]
        ring
      rw [e2]
      exact Nat.ModEq.mul (Nat.mod_modEq _ _) hpow
    · rw [if_neg h, ih _ _ _ he2 ha]
      have e2 : b ^ e = b ^ (2 * (e / 2)) := by
        have : e = 2 * (e / 2) := by omega
        conv_lhs => rw [this]
      rw [e2]
      exact Nat.ModEq.mul rfl hpow

/-- least `j' ≥ j` such that the power of two reached is 1; 0 if not found. -/
def ordLoop (p : Nat) : Nat → Nat → Nat → Nat
  | 0, _, _ => 0
  | f + 1, x, j => if x = 1 then j else ordLoop p f (2 * x % p) (j + 1)

theorem ordLoop_spec (p f x j : Nat) (hx : x = 2 ^ j % p) (hj : 0 < j)
    (hlow : ∀ i, 0 < i → i < j → 2 ^ i % p ≠ 1) (h : ordLoop p f x j ≠ 0) :
    2 ^ (ordLoop p f x j) % p = 1 ∧ ∀ i, 0 < i → i < ordLoop p f x j → 2 ^ i % p ≠ 1 := by
  induction f generalizing x j with
  | zero => simp [ordLoop] at h
  | succ f ih =>
    unfold ordLoop at h ⊢
    by_cases h1 : x = 1
    · rw [if_pos h1]
      exact ⟨by rw [← hx, h1], hlow⟩
    · rw [if_neg h1] at h ⊢
      apply ih
      · rw [hx, pow_succ, mul_comm (2 ^ j) 2, Nat.mul_mod, Nat.mod_mod, ← Nat.mul_mod]
      · omega
      · intro i hi hij
        rcases Nat.lt_succ_iff_lt_or_eq.1 hij with h2 | h2
        · exact hlow i hi h2
        · subst h2; rw [← hx]; exact h1
      · exact h

/-- the order of 2 modulo `p` (0 if the search fails). -/
def ord2 (p : Nat) : Nat := ordLoop p p (2 % p) 1

theorem ord2_dvd (p : Nat) (h : ord2 p ≠ 0) (x : Nat) (hx : 2 ^ x % p = 1) : ord2 p ∣ x := by
  obtain ⟨h1, h2⟩ := ordLoop_spec p p (2 % p) 1 (by rw [pow_one]) (by omega) (by omega) h
  change 2 ^ ord2 p % p = 1 at h1
  change ∀ i, 0 < i → i < ord2 p → 2 ^ i % p ≠ 1 at h2
  have hr : 2 ^ (x % ord2 p) % p = 1 := by
    have h3 : 2 ^ x ≡ 2 ^ (x % ord2 p) [MOD p] := by
      conv_lhs => rw [← Nat.div_add_mod x (ord2 p), pow_add, pow_mul]
      have : (2 ^ ord2 p) ^ (x / ord2 p) ≡ 1 ^ (x / ord2 p) [MOD p] := by
        apply Nat.ModEq.pow
        unfold Nat.ModEq
        rw [h1]
        have hp1 : 1 % p = 1 := by
          rcases Nat.lt_or_ge 1 p with hp | hp
          · exact Nat.mod_eq_of_lt hp
          · interval_cases p
            · rfl
            · simp [Nat.mod_one] at h1
        exact hp1.symm
      simpa using this.mul_right (2 ^ (x % ord2 p))
    unfold Nat.ModEq at h3
    rw [← h3, hx]
  have hlt : x % ord2 p < ord2 p := Nat.mod_lt _ (Nat.pos_of_ne_zero h)
  rcases Nat.eq_zero_or_pos (x % ord2 p) with h0 | h0
  · exact Nat.dvd_of_mod_eq_zero h0
  · exact absurd hr (h2 _ h0 hlt)

/-- run the test on all `p * m`, `m = m₀, m₀ + d, …`, `p * m < hi`, with `p ≤ m` and `m` coprime to `P`. -/
def candLoop (test : Nat → Bool) (P hi p d : Nat) : Nat → Nat → Bool
  | 0, _ => false
  | f + 1, m =>
    if p * m < hi then
      (if p ≤ m ∧ Nat.gcd m P = 1 then !test (p * m) else true) && candLoop test P hi p d f (m + d)
    else true

theorem candLoop_spec (test : Nat → Bool) (P hi p d f m : Nat)
    (h : candLoop test P hi p d f m = true) (k : Nat) (hk : p * (m + k * d) < hi)
    (hp : p ≤ m + k * d) (hg : Nat.gcd (m + k * d) P = 1) : test (p * (m + k * d)) = false := by
  induction f generalizing m k with
  | zero => simp [candLoop] at h
  | succ f ih =>
    unfold candLoop at h
    have hlt : p * m < hi := lt_of_le_of_lt (Nat.mul_le_mul_left p (Nat.le_add_right _ _)) hk
    rw [if_pos hlt, Bool.and_eq_true] at h
    cases k with
    | zero =>
      simp only [Nat.zero_mul, Nat.add_zero] at hk hp hg ⊢
      have h1 := h.1
      rw [if_pos ⟨hp, hg⟩] at h1
      simpa using h1
    | succ k =>
      have e : m + (k + 1) * d = m + d + k * d := by ring
      rw [e] at hk hp hg ⊢
      exact ih (m + d) h.2 k hk hp hg

/-- check all `p` from `p₀` on, `f` of them. -/
def checkLoop (test : Nat → Bool) (P hi : Nat) : Nat → Nat → Bool
  | 0, _ => true
  | f + 1, p =>
    (if Nat.gcd p P = 1 then
      let d := ord2 p
      d != 0 && candLoop test P hi p d (hi / p + 2) 1
     else true) && checkLoop test P hi f (p + 1)

theorem checkLoop_spec (test : Nat → Bool) (P hi f p : Nat) (h : checkLoop test P hi f p = true)
    (q : Nat) (h1 : p ≤ q) (h2 : q < p + f) (hg : Nat.gcd q P = 1) :
    ord2 q ≠ 0 ∧ candLoop test P hi q (ord2 q) (hi / q + 2) 1 = true := by
  induction f generalizing p with
  | zero => omega
  | succ f ih =>
    unfold checkLoop at h
    rw [Bool.and_eq_true] at h
    rcases Nat.eq_or_lt_of_le h1 with he | hlt
    · subst he
      have := h.1
      rw [if_pos hg] at this
      simpa using this
    · exact ih (p + 1) h.2 (by omega) (by omega)

/-- soundness of the enumeration: every composite `n < hi` coprime to `P` whose least prime factor
is in the enumerated range and that satisfies the base-2 Fermat congruence fails the test. -/
theorem check_sound (test : Nat → Bool) (P hi f p0 : Nat) (h : checkLoop test P hi f p0 = true)
    (hb : ∀ q, q * q < hi → q < p0 + f) (n : Nat) (hn : n < hi) (hn1 : 1 < n)
    (hlow : p0 ≤ n.minFac) (hcop : Nat.gcd n P = 1) (hnp : ¬ n.Prime)
    (hf : 2 ^ (n - 1) % n = 1) : test n = false := by
  have hq := Nat.minFac_prime (by omega : n ≠ 1)
  have hqd := Nat.minFac_dvd n
  have hqs : n.minFac ^ 2 ≤ n := Nat.minFac_sq_le_self (by omega) hnp
  have hqm : n.minFac ≤ n / n.minFac := Nat.minFac_le_div (by omega) hnp
  set q := n.minFac with hqdef
  clear_value q
  obtain ⟨m, rfl⟩ := hqd
  have hqpos := hq.pos
  rw [Nat.mul_div_cancel_left m hqpos] at hqm
  have hgq : Nat.gcd q P = 1 := Nat.Coprime.coprime_dvd_left (Dvd.intro m rfl) hcop
  have hgm : Nat.gcd m P = 1 := Nat.Coprime.coprime_dvd_left (Dvd.intro_left q rfl) hcop
  obtain ⟨c1, c2⟩ := checkLoop_spec test P hi f p0 h q hlow
    (hb q (by rw [pow_two] at hqs; omega)) hgq
  -- the order divides n-1 and q-1, hence m-1
  have hq2 := hq.two_le
  have hx1 : 2 ^ (q * m - 1) % q = 1 := by
    have h3 : 2 ^ (q * m - 1) % (q * m) % q = 1 % q := by rw [hf]
    rw [Nat.mod_mul_right_mod, Nat.mod_eq_of_lt hq.one_lt] at h3
    exact h3
  have hq2' : Nat.Coprime 2 q := by
    rw [Nat.coprime_primes Nat.prime_two hq]
    rintro rfl
    have hm0 : 2 * m - 1 ≠ 0 := by omega
    rw [Nat.pow_mod, Nat.mod_self, Nat.zero_pow (Nat.pos_of_ne_zero hm0)] at hx1
    simp at hx1
  have hx2 : 2 ^ (q - 1) % q = 1 := by
    have := Nat.ModEq.pow_totient hq2'
    rw [Nat.totient_prime hq] at this
    unfold Nat.ModEq at this
    rw [this, Nat.mod_eq_of_lt hq.one_lt]
  have d1 := ord2_dvd q c1 _ hx1
  have d2 := ord2_dvd q c1 _ hx2
  have hm1 : 1 ≤ m := by omega
  have d3 : ord2 q ∣ m - 1 := by
    have e : q * m - 1 = (q - 1) * m + (m - 1) := by
      obtain ⟨a, rfl⟩ : ∃ a, q = a + 1 := ⟨q - 1, by omega⟩
      rw [Nat.add_sub_cancel, Nat.add_mul]
      omega
    rw [e] at d1
    exact (Nat.dvd_add_right (d2.mul_right m)).1 d1
  obtain ⟨k, hk⟩ := d3
  have hm' : m = 1 + k * ord2 q := by rw [mul_comm k]; omega
  rw [hm'] at hn hqm hgm ⊢
  exact candLoop_spec test P hi q (ord2 q) _ 1 c2 k hn hqm hgm

/-- product of the primes up to 43. -/
def P43 : Nat := 13082761331670030
/-- product of the primes up to 101. -/
def P101 : Nat := 232862364358497360900063316880507363070

/-- the test of factorize.hpp 165-171. -/
def testA (n : Nat) : Bool := pm n 20 2 (n - 1) 1 == 1 && pm n 20 5 (n - 1) 1 == 1
/-- the test of factorize.hpp 142-164 (without the exception 9006401). -/
def testB (n : Nat) : Bool :=
  n != 9006401 &&
  (let a := pm n 24 2 (n / 2) 1; (a == 1 || a == n - 1)) &&
  (let a := pm n 24 3 (n / 2) 1; (a == 1 || a == n - 1)) &&
  (let a := pm n 24 5 (n / 2) 1; (a == 1 || a == n - 1))

theorem checkA : checkLoop testA P43 489997 654 47 = true := by decide +kernel

/-- the enumeration in pieces (the kernel forgets its caches between declarations). -/
theorem checkLoop_add (test : Nat → Bool) (P hi : Nat) {f g p : Nat} (h1 : checkLoop test P hi f p = true)
    (h2 : checkLoop test P hi g (p + f) = true) : checkLoop test P hi (f + g) p = true := by
  induction f generalizing p with
  | zero => simpa using h2
  | succ f ih =>
    rw [show f + 1 + g = (f + g) + 1 from by omega]
    unfold checkLoop at h1 ⊢
    rw [Bool.and_eq_true] at h1 ⊢
    exact ⟨h1.1, ih h1.2 (by rw [show p + 1 + f = p + (f + 1) from by omega]; exact h2)⟩

theorem checkB0 : checkLoop testB P101 9006403 7 103 = true := by decide +kernel
theorem checkB1 : checkLoop testB P101 9006403 10 110 = true := by decide +kernel
theorem checkB2 : checkLoop testB P101 9006403 10 120 = true := by decide +kernel
theorem checkB3 : checkLoop testB P101 9006403 15 130 = true := by decide +kernel
theorem checkB4 : checkLoop testB P101 9006403 15 145 = true := by decide +kernel
theorem checkB5 : checkLoop testB P101 9006403 20 160 = true := by decide +kernel
theorem checkB6 : checkLoop testB P101 9006403 20 180 = true := by decide +kernel
theorem checkB7 : checkLoop testB P101 9006403 25 200 = true := by decide +kernel
theorem checkB8 : checkLoop testB P101 9006403 30 225 = true := by decide +kernel
theorem checkB9 : checkLoop testB P101 9006403 35 255 = true := by decide +kernel
theorem checkB10 : checkLoop testB P101 9006403 40 290 = true := by decide +kernel
theorem checkB11 : checkLoop testB P101 9006403 50 330 = true := by decide +kernel
theorem checkB12 : checkLoop testB P101 9006403 60 380 = true := by decide +kernel
theorem checkB13 : checkLoop testB P101 9006403 80 440 = true := by decide +kernel
theorem checkB14 : checkLoop testB P101 9006403 100 520 = true := by decide +kernel
theorem checkB15 : checkLoop testB P101 9006403 130 620 = true := by decide +kernel
theorem checkB16 : checkLoop testB P101 9006403 200 750 = true := by decide +kernel
theorem checkB17 : checkLoop testB P101 9006403 350 950 = true := by decide +kernel
theorem checkB18 : checkLoop testB P101 9006403 600 1300 = true := by decide +kernel
theorem checkB19 : checkLoop testB P101 9006403 1102 1900 = true := by decide +kernel

theorem checkB : checkLoop testB P101 9006403 2899 103 = true := by
  have h18 : checkLoop testB P101 9006403 1702 1300 = true :=
    checkLoop_add _ _ _ (f := 600) (g := 1102) (p := 1300) checkB18 checkB19
  have h17 : checkLoop testB P101 9006403 2052 950 = true :=
    checkLoop_add _ _ _ (f := 350) (g := 1702) (p := 950) checkB17 h18
  have h16 : checkLoop testB P101 9006403 2252 750 = true :=
    checkLoop_add _ _ _ (f := 200) (g := 2052) (p := 750) checkB16 h17
  have h15 : checkLoop testB P101 9006403 2382 620 = true :=
    checkLoop_add _ _ _ (f := 130) (g := 2252) (p := 620) checkB15 h16
  have h14 : checkLoop testB P101 9006403 2482 520 = true :=
    checkLoop_add _ _ _ (f := 100) (g := 2382) (p := 520) checkB14 h15
  have h13 : checkLoop testB P101 9006403 2562 440 = true :=
    checkLoop_add _ _ _ (f := 80) (g := 2482) (p := 440) checkB13 h14
  have h12 : checkLoop testB P101 9006403 2622 380 = true :=
    checkLoop_add _ _ _ (f := 60) (g := 2562) (p := 380) checkB12 h13
  have h11 : checkLoop testB P101 9006403 2672 330 = true :=
    checkLoop_add _ _ _ (f := 50) (g := 2622) (p := 330) checkB11 h12
  have h10 : checkLoop testB P101 9006403 2712 290 = true :=
    checkLoop_add _ _ _ (f := 40) (g := 2672) (p := 290) checkB10 h11
  have h9 : checkLoop testB P101 9006403 2747 255 = true :=
    checkLoop_add _ _ _ (f := 35) (g := 2712) (p := 255) checkB9 h10
  have h8 : checkLoop testB P101 9006403 2777 225 = true :=
    checkLoop_add _ _ _ (f := 30) (g := 2747) (p := 225) checkB8 h9
  have h7 : checkLoop testB P101 9006403 2802 200 = true :=
    checkLoop_add _ _ _ (f := 25) (g := 2777) (p := 200) checkB7 h8
  have h6 : checkLoop testB P101 9006403 2822 180 = true :=
    checkLoop_add _ _ _ (f := 20) (g := 2802) (p := 180) checkB6 h7
  have h5 : checkLoop testB P101 9006403 2842 160 = true :=
    checkLoop_add _ _ _ (f := 20) (g := 2822) (p := 160) checkB5 h6
  have h4 : checkLoop testB P101 9006403 2857 145 = true :=
    checkLoop_add _ _ _ (f := 15) (g := 2842) (p := 145) checkB4 h5
  have h3 : checkLoop testB P101 9006403 2872 130 = true :=
    checkLoop_add _ _ _ (f := 15) (g := 2857) (p := 130) checkB3 h4
  have h2 : checkLoop testB P101 9006403 2882 120 = true :=
    checkLoop_add _ _ _ (f := 10) (g := 2872) (p := 120) checkB2 h3
  have h1 : checkLoop testB P101 9006403 2892 110 = true :=
    checkLoop_add _ _ _ (f := 10) (g := 2882) (p := 110) checkB1 h2
  have h0 : checkLoop testB P101 9006403 2899 103 = true :=
    checkLoop_add _ _ _ (f := 7) (g := 2892) (p := 103) checkB0 h1
  exact h0

end Symxx.Factor
