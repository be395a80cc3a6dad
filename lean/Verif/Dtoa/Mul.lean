import Verif.Dtoa.Model
import Verif.Dtoa.Spec
import Mathlib.Tactic
/-!
# Exactness of the `DiyFp` operations
-/
namespace Symxx.Dtoa
namespace DiyFp

theorem and_M32 (n : Nat) : n &&& 0xFFFFFFFF = n % 2 ^ 32 := Nat.and_two_pow_sub_one_eq_mod n 32

/-- the product is the exact product rounded to the nearest multiple of `2^64`, halves up. -/
theorem mul_f {s x : DiyFp} (hs : s.f < 2 ^ 64) (hx : x.f < 2 ^ 64) :
    (s.mul x).f = (s.f * x.f + 2 ^ 63) / 2 ^ 64 := by
  obtain ⟨f, e⟩ := s
  obtain ⟨g, e'⟩ := x
  simp only at hs hx
  simp only [mul, u64, u32, and_M32, Nat.shiftRight_eq_div_pow]
  generalize hq : (2:ℕ)^32 = q at *
  have ha : f / q < q := by subst hq; omega
  have hb : f % q < q := by subst hq; omega
  have hc : g / q < q := by subst hq; omega
  have hd : g % q < q := by subst hq; omega
  have ef : f = q * (f / q) + f % q := (Nat.div_add_mod f q).symm
  have eg : g = q * (g / q) + g % q := (Nat.div_add_mod g q).symm
  generalize f / q = a at *
  generalize f % q = b at *
  generalize g / q = c at *
  generalize g % q = d at *
  have h1 : a * c ≤ (q - 1) * (q - 1) := Nat.mul_le_mul (by omega) (by omega)
  have h2 : b * c ≤ (q - 1) * (q - 1) := Nat.mul_le_mul (by omega) (by omega)
  have h3 : a * d ≤ (q - 1) * (q - 1) := Nat.mul_le_mul (by omega) (by omega)
  have h4 : b * d ≤ (q - 1) * (q - 1) := Nat.mul_le_mul (by omega) (by omega)
  have hp : f * g = q * q * (a * c) + q * (a * d + b * c) + b * d := by rw [ef, eg]; ring
  rw [hp]
  generalize a * c = P at *
  generalize b * c = Q at *
  generalize a * d = R at *
  generalize b * d = S at *
  subst hq
  norm_num [Nat.shiftLeft_eq] at h1 h2 h3 h4 ⊢
  omega

theorem mul_e (s x : DiyFp) : (s.mul x).e = s.e + x.e + 64 := rfl

end DiyFp
end Symxx.Dtoa
