import Verif.Factor.Adapter
import Mathlib.Data.Nat.Prime.Basic
import Mathlib.Tactic.NormNum.Prime
/-! Trial division (`is_prime_slow_path`) decides primality. -/
namespace Symxx.Factor

/-- an integer is prime in the sense of the natural numbers. -/
def PrimeInt (n : Int) : Prop := 0 ≤ n ∧ n.toNat.Prime

theorem slowLoop_spec (num s : Int) (fuel : Nat) (i : Int) (hf : s ≤ i + 6 * fuel) :
    slowLoop num s fuel i = true ↔
      ∀ k : Nat, i + 6 * k < s → ¬ (i + 6 * k ∣ num) ∧ ¬ (i + 6 * k + 2 ∣ num) := by
  induction fuel generalizing i with
  | zero =>
    simp only [slowLoop, true_iff]
    intro k hk
    exfalso
    have : (0 : Int) ≤ k := Int.natCast_nonneg k
    push_cast at hf
    omega
  | succ n ih =>
    unfold slowLoop
    by_cases h : i < s
    · rw [if_pos h]
      have e1 : num.tmod i = 0 ↔ i ∣ num := ⟨Int.dvd_of_tmod_eq_zero, Int.tmod_eq_zero_of_dvd⟩
      have e2 : num.tmod (i + 2) = 0 ↔ (i + 2) ∣ num :=
        ⟨Int.dvd_of_tmod_eq_zero, Int.tmod_eq_zero_of_dvd⟩
      simp only [e1, e2]
      by_cases hd : i ∣ num ∨ (i + 2) ∣ num
      · rw [if_pos hd]
        simp only [Bool.false_eq_true, false_iff, not_forall]
        refine ⟨0, by simpa using h, ?_⟩
        simp only [Nat.cast_zero, mul_zero, add_zero]
        tauto
      · rw [if_neg hd, ih (i + 6) (by push_cast at hf ⊢; omega)]
        constructor
        · intro H k hk
          cases k with
          | zero => simp only [Nat.cast_zero, mul_zero, add_zero]; tauto
          | succ k =>
            have := H k (by push_cast at hk; omega)
            have e : i + 6 * ((k + 1 : Nat) : Int) = i + 6 + 6 * k := by push_cast; ring
            rw [e]; exact this
        · intro H k hk
          have e : i + 6 + 6 * (k : Int) = i + 6 * ((k + 1 : Nat) : Int) := by push_cast; ring
          rw [e] at hk ⊢
          exact H (k + 1) hk
    · rw [if_neg h]
      simp only [true_iff]
      intro k hk
      omega

/-- trial division is exact for every integer. -/
theorem slowPath_spec (n : Int) : slowPath n = true ↔ PrimeInt n := by
  unfold slowPath PrimeInt
  by_cases h2 : n < 2
  · rw [if_pos h2]
    simp only [Bool.false_eq_true, false_iff, not_and]
    intro h0 hp
    have := hp.two_le
    omega
  rw [if_neg h2]
  obtain ⟨m, rfl⟩ : ∃ m : Nat, n = m := ⟨n.toNat, by omega⟩
  simp only [Int.toNat_natCast, Int.natCast_nonneg, true_and]
  by_cases h23 : (m : Int) = 2 ∨ (m : Int) = 3
  · rw [if_pos h23]
    rcases h23 with h | h
    · have : m = 2 := by omega
      subst this; simp [Nat.prime_two]
    · have : m = 3 := by omega
      subst this; simp [Nat.prime_three]
  rw [if_neg h23]
  by_cases he : (m : Int) % 2 = 0
  · rw [if_pos he]
    simp only [Bool.false_eq_true, false_iff]
    intro hp
    have : 2 ∣ m := by omega
    rcases (Nat.dvd_prime hp).1 this with h | h <;> omega
  rw [if_neg he]
  have e3 : ((m : Int).tmod 3 = 0) ↔ 3 ∣ m := by
    rw [tmod_emod (Int.natCast_nonneg m)]; omega
  simp only [e3]
  by_cases h3 : 3 ∣ m
  · rw [if_pos h3]
    simp only [Bool.false_eq_true, false_iff]
    intro hp
    rcases (Nat.dvd_prime hp).1 h3 with h | h <;> omega
  rw [if_neg h3]
  by_cases h9 : (m : Int) < 9
  · rw [if_pos h9]
    simp only [true_iff]
    have : m = 5 ∨ m = 7 := by omega
    rcases this with rfl | rfl <;> norm_num
  rw [if_neg h9]
  rw [slowLoop_spec _ _ _ _ (by omega)]
  have hs1 : Nat.sqrt m * Nat.sqrt m ≤ m := Nat.sqrt_le m
  constructor
  · intro H
    by_contra hnp
    have hm1 : m ≠ 1 := by omega
    have hq := Nat.minFac_prime hm1
    have hqd := Nat.minFac_dvd m
    have hqs : m.minFac ^ 2 ≤ m := Nat.minFac_sq_le_self (by omega) hnp
    set q := m.minFac with hqdef
    clear_value q
    have hqle : q ≤ Nat.sqrt m := Nat.le_sqrt.2 (by rw [pow_two] at hqs; exact hqs)
    have hq2 : ¬ 2 ∣ q := fun h => by
      have := h.trans hqd; omega
    have hq3 : ¬ 3 ∣ q := fun h => h3 (h.trans hqd)
    have hq5 : 5 ≤ q := by
      have := hq.two_le
      by_contra hlt
      have : q = 2 ∨ q = 3 ∨ q = 4 := by omega
      omega
    have hdz : (q : Int) ∣ (m : Int) := by exact_mod_cast hqd
    have h6 : q % 6 = 5 ∨ q % 6 = 1 := by omega
    rcases h6 with h6 | h6
    · have h := H ((q - 5) / 6) (by push_cast; omega)
      have e : (5 : Int) + 6 * (((q - 5) / 6 : Nat) : Int) = q := by push_cast; omega
      rw [e] at h
      exact h.1 hdz
    · have h := H ((q - 7) / 6) (by push_cast; omega)
      have e : (5 : Int) + 6 * (((q - 7) / 6 : Nat) : Int) + 2 = q := by push_cast; omega
      rw [e] at h
      exact h.2 hdz
  · intro hp k hk
    have h5 : 5 ≤ Nat.sqrt m := by omega
    have hlt : Nat.sqrt m + 2 < m := by nlinarith
    have key : ∀ x : Nat, 1 < x → x < m → ¬ ((x : Int) ∣ (m : Int)) := by
      intro x h1 h2 hd
      have hd' : x ∣ m := by exact_mod_cast hd
      rcases (Nat.dvd_prime hp).1 hd' with h | h <;> omega
    constructor
    · have := key (5 + 6 * k) (by omega) (by omega)
      push_cast at this; exact this
    · have := key (5 + 6 * k + 2) (by omega) (by omega)
      push_cast at this; exact this

end Symxx.Factor
