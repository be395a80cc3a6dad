import Verif.Factor.Model
import Mathlib.Tactic.Ring
import Mathlib.Tactic.Linarith
import Mathlib.Tactic.Positivity
import Mathlib.Data.Int.ModEq
/-! `adapter_mulmod` and `adapter_modpow` compute modular product and power. -/
namespace Symxx.Factor

theorem tmod_emod {a m : Int} (ha : 0 ≤ a) : a.tmod m = a % m := Int.tmod_eq_emod_of_nonneg ha

theorem half_lt {a : Int} {n : Nat} (h : a < 2 ^ (n + 1)) : a / 2 < 2 ^ n := by
  rw [pow_succ] at h
  generalize (2 : Int) ^ n = k at h ⊢
  omega

theorem mulmodLoop_spec (M m : Int) (hm : 0 < m) (hM : 2 * m ≤ M) (n : Nat) (a b res : Int)
    (ha : 0 ≤ a) (han : a < 2 ^ n) (hb : 0 ≤ b) (hbm : b ≤ m) (hr : 0 ≤ res) (hrm : res < m) :
    mulmodLoop M m (n + 1) a b res = .ok ((res + a * b) % m) := by
  induction n generalizing a b res with
  | zero =>
    have : a = 0 := by rw [pow_zero] at han; omega
    subst this
    simp [mulmodLoop, Int.emod_eq_of_lt hr hrm]
  | succ n ih =>
    unfold mulmodLoop
    by_cases h0 : a = 0
    · subst h0
      simp [Int.emod_eq_of_lt hr hrm]
    · rw [if_pos h0]
      have hw : wrap M (2 * b) = 2 * b := wrap_of_range ⟨by omega, by omega⟩
      rw [hw, tmod_emod (by omega : 0 ≤ 2 * b)]
      have hb1 := Int.emod_nonneg (2 * b) hm.ne'
      have hb2 := Int.emod_lt_of_pos (2 * b) hm
      have hlt := half_lt han
      by_cases hodd : a % 2 = 1
      · rw [if_pos hodd]
        have hc : chk M (res + b) = .ok (res + b) := chk_ok ⟨by omega, by omega⟩
        rw [hc]
        simp only [Res.bind_ok]
        rw [tmod_emod (by omega : 0 ≤ res + b)]
        rw [ih (a / 2) (2 * b % m) ((res + b) % m) (by omega) hlt hb1 (by omega)
          (Int.emod_nonneg _ hm.ne') (Int.emod_lt_of_pos _ hm)]
        refine congrArg Res.ok ?_
        apply Int.ModEq.eq
        have e : res + a * b = (res + b) + (a / 2) * (2 * b) := by
          have : a = 2 * (a / 2) + 1 := by omega
          calc res + a * b = res + (2 * (a / 2) + 1) * b := by rw [← this]
            _ = _ := by ring
        rw [e]
        exact Int.ModEq.add (Int.mod_modEq _ _) ((Int.ModEq.refl _).mul (Int.mod_modEq _ _))
      · rw [if_neg hodd]
        simp only [Res.bind_ok]
        rw [ih (a / 2) (2 * b % m) res (by omega) hlt hb1 (by omega) hr hrm]
        refine congrArg Res.ok ?_
        apply Int.ModEq.eq
        have e : res + a * b = res + (a / 2) * (2 * b) := by
          have : a = 2 * (a / 2) := by omega
          calc res + a * b = res + (2 * (a / 2)) * b := by rw [← this]
            _ = _ := by ring
        rw [e]
        exact Int.ModEq.add (Int.ModEq.refl _) ((Int.ModEq.refl _).mul (Int.mod_modEq _ _))

theorem lt_pow_log2 (a : Int) (ha : 0 ≤ a) : a < 2 ^ (Nat.log2 a.natAbs + 1) := by
  have h : a.natAbs < 2 ^ (Nat.log2 a.natAbs + 1) := Nat.lt_log2_self
  have h2 : (a.natAbs : Int) < ((2 ^ (Nat.log2 a.natAbs + 1) : Nat) : Int) := by exact_mod_cast h
  rw [Int.natAbs_of_nonneg ha] at h2
  push_cast at h2
  exact h2

/-- `adapter_mulmod` is modular multiplication. -/
theorem mulmod_spec (M a b m : Int) (hm : 0 < m) (hM : 2 * m ≤ M) (ha : 0 ≤ a) (hb : 0 ≤ b)
    (hbm : b ≤ m) : mulmod M a b m = .ok (a * b % m) := by
  unfold mulmod
  rw [if_neg hm.ne', mulmodLoop_spec M m hm hM _ a b 0 ha (lt_pow_log2 a ha) hb hbm le_rfl hm]
  simp

theorem modpowLoop_spec (M m : Int) (hm : 1 < m) (hM : (m - 1) * (m - 1) ≤ M) (n : Nat)
    (base exp result : Int) (he : 0 ≤ exp) (hen : exp < 2 ^ n) (hb : 0 ≤ base) (hbm : base < m)
    (hr : 0 ≤ result) (hrm : result < m) :
    modpowLoop M m (n + 1) base exp result = .ok (result * base ^ exp.toNat % m) := by
  induction n generalizing base exp result with
  | zero =>
    have : exp = 0 := by rw [pow_zero] at hen; omega
    subst this
    simp [modpowLoop, Int.emod_eq_of_lt hr hrm]
  | succ n ih =>
    unfold modpowLoop
    have hm0 : 0 < m := by omega
    by_cases h0 : exp = 0
    · subst h0
      simp [Int.emod_eq_of_lt hr hrm]
    · rw [if_pos (by omega)]
      have hlt := half_lt hen
      have hsq : base * base ≤ (m - 1) * (m - 1) := by nlinarith
      have hsq0 : 0 ≤ base * base := mul_nonneg hb hb
      have hcs : chk M (base * base) = .ok (base * base) := chk_ok ⟨by omega, by omega⟩
      have hs1 := Int.emod_nonneg (base * base) hm0.ne'
      have hs2 := Int.emod_lt_of_pos (base * base) hm0
      have hpow : (base * base % m) ^ (exp / 2).toNat ≡ base ^ (2 * (exp / 2).toNat) [ZMOD m] := by
        rw [pow_mul, pow_two]
        exact (Int.mod_modEq _ _).pow _
      by_cases hodd : exp % 2 = 1
      · rw [if_pos hodd]
        have hrb : result * base ≤ (m - 1) * (m - 1) := by nlinarith
        have hrb0 : 0 ≤ result * base := mul_nonneg hr hb
        have hc : chk M (result * base) = .ok (result * base) := chk_ok ⟨by omega, by omega⟩
        rw [hc]
        simp only [Res.bind_ok]
        rw [hcs]
        simp only [Res.bind_ok]
        rw [tmod_emod hrb0, tmod_emod hsq0]
        rw [ih _ (exp / 2) _ (by omega) hlt hs1 hs2
          (Int.emod_nonneg _ hm0.ne') (Int.emod_lt_of_pos _ hm0)]
        refine congrArg Res.ok ?_
        apply Int.ModEq.eq
        have e : exp.toNat = 2 * (exp / 2).toNat + 1 := by omega
        have e2 : result * base ^ exp.toNat = (result * base) * base ^ (2 * (exp / 2).toNat) := by
          rw [e, pow_succ]; ring
        rw [e2]
        exact Int.ModEq.mul (Int.mod_modEq _ _) hpow
      · rw [if_neg hodd]
        simp only [Res.bind_ok]
        rw [hcs]
        simp only [Res.bind_ok]
        rw [tmod_emod hsq0]
        rw [ih _ (exp / 2) _ (by omega) hlt hs1 hs2 hr hrm]
        refine congrArg Res.ok ?_
        apply Int.ModEq.eq
        have e : exp.toNat = 2 * (exp / 2).toNat := by omega
        rw [e]
        exact Int.ModEq.mul (Int.ModEq.refl _) hpow

/-- `adapter_modpow` is modular exponentiation. -/
theorem modpow_spec (M b e m : Int) (hm : 1 < m) (hM : (m - 1) * (m - 1) ≤ M) (hb : 0 ≤ b)
    (he : 0 ≤ e) : modpow M b e m = .ok (b ^ e.toNat % m) := by
  have hm0 : 0 < m := by omega
  unfold modpow
  rw [if_neg hm0.ne', tmod_emod hb, modpowLoop_spec M m hm hM _ _ e 1 he (lt_pow_log2 e he)
    (Int.emod_nonneg _ hm0.ne') (Int.emod_lt_of_pos _ hm0) (by omega) hm, one_mul]
  refine congrArg Res.ok ?_
  exact ((Int.mod_modEq b m).pow e.toNat).eq

end Symxx.Factor
