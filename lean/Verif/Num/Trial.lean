import Mathlib.Data.Nat.Factors
import Mathlib.Data.List.Sort
import Mathlib.Tactic.Linarith
/-!
# Trial division (specification only: the prime factors of a number, computably)
-/
namespace Symxx.Num.Real

/-- trial division by `p`, `p + 1`, … -/
def trial : Nat → Nat → Nat → List Nat
  | 0, _, _ => []
  | f + 1, n, p => if n ≤ 1 then [] else if n % p = 0 then p :: trial f (n / p) p else trial f n (p + 1)

theorem trial_spec (f n p : Nat) (hf : 2 * n < f + p) (hn : 0 < n) (hp : 2 ≤ p) (h : ∀ q, q.Prime → q ∣ n → p ≤ q) :
    trial f n p = n.primeFactorsList := by
  suffices H : (trial f n p).prod = n ∧ (∀ q ∈ trial f n p, q.Prime) ∧ (∀ q ∈ trial f n p, p ≤ q) ∧
      (trial f n p).Pairwise (· ≤ ·) by
    exact List.Perm.eq_of_pairwise' (r := (· ≤ ·)) H.2.2.2 (Nat.primeFactorsList_sorted n).pairwise
      (Nat.primeFactorsList_unique H.1 H.2.1)
  induction f generalizing n p with
  | zero =>
    by_cases h1 : n = 1
    · subst h1; simp [trial]
    · have := h _ (Nat.minFac_prime h1) (Nat.minFac_dvd n)
      have := Nat.minFac_le hn
      omega
  | succ f ih =>
    unfold trial
    by_cases h1 : n ≤ 1
    · rw [if_pos h1]; simp; omega
    · rw [if_neg h1]
      have h1' : n ≠ 1 := by omega
      have hpn : p ≤ n := le_trans (h _ (Nat.minFac_prime h1') (Nat.minFac_dvd n)) (Nat.minFac_le hn)
      by_cases hd : n % p = 0
      · rw [if_pos hd]
        obtain ⟨k, rfl⟩ := Nat.dvd_of_mod_eq_zero hd
        rw [Nat.mul_div_cancel_left _ (by omega)]
        have hk : 0 < k := Nat.pos_of_mul_pos_left hn
        have hpp : p.Prime := by
          have hm : p ≤ p.minFac := h _ (Nat.minFac_prime (by omega)) ((Nat.minFac_dvd p).trans (Dvd.intro _ rfl))
          exact Nat.prime_def_minFac.2 ⟨hp, le_antisymm (Nat.minFac_le (by omega)) hm⟩
        obtain ⟨i1, i2, i3, i4⟩ := ih k p (by nlinarith) hk hp
          fun q hq hqk => h q hq (hqk.trans (Dvd.intro_left _ rfl))
        refine ⟨by rw [List.prod_cons, i1], ?_, ?_, ?_⟩
        · intro q hq
          rcases List.mem_cons.1 hq with rfl | hq
          · exact hpp
          · exact i2 q hq
        · intro q hq
          rcases List.mem_cons.1 hq with rfl | hq
          · exact le_rfl
          · exact i3 q hq
        · exact List.pairwise_cons.2 ⟨i3, i4⟩
      · rw [if_neg hd]
        obtain ⟨i1, i2, i3, i4⟩ := ih n (p + 1) (by omega) hn (by omega) fun q hq hqn => by
          have := h q hq hqn
          rcases Nat.lt_or_ge p q with h2 | h2
          · exact h2
          · have : p = q := by omega
            subst this
            exact absurd (Nat.mod_eq_zero_of_dvd hqn) hd
        exact ⟨i1, i2, fun q hq => by have := i3 q hq; omega, i4⟩

/-- the prime factors of `n`, in increasing order. -/
def primesOf (n : Nat) : List Nat := trial (2 * n) n 2

theorem primesOf_eq (n : Nat) (h : 0 < n) : primesOf n = n.primeFactorsList :=
  trial_spec _ _ _ (by omega) h le_rfl fun q hq _ => hq.two_le

end Symxx.Num.Real
