import Verif.Dtoa.Check
/-!
# Cached powers and their choice, from the kernel-checked tables
-/
namespace Symxx.Dtoa

attribute [local irreducible] powersTen powersTenE

theorem cachedPower_spec {k : Int} (h1 : -343 ≤ k) (h2 : k ≤ 343) :
    ∃ f : Nat, cachedPower k = .ok ⟨f, powersTenE.getD (343 + k).toNat 0⟩ ∧ 2 ^ 63 ≤ f ∧ f < 2 ^ 64 ∧
      |(f : ℚ) - 10 ^ k / 2 ^ (powersTenE.getD (343 + k).toNat 0)| ≤ 1 / 2 := by
  obtain ⟨i, hi⟩ : ∃ i : Nat, 343 + k = i := ⟨(343 + k).toNat, by omega⟩
  have hi' : i < 687 := by omega
  have hrow := rows i hi'
  have hl1 := powersTen_length
  have hl2 := powersTenE_length
  unfold cachedPower
  rw [if_pos (by omega), hi]
  simp only [Int.toNat_natCast]
  rw [List.getElem?_eq_getElem (by omega), List.getElem?_eq_getElem (by omega)]
  unfold rowOk at hrow
  have hg1 : powersTen.getD i 0 = powersTen[i] := by simp [List.getD_eq_getElem?_getD, hl1, hi']
  have hg2 : powersTenE.getD i 0 = powersTenE[i] := by simp [List.getD_eq_getElem?_getD, hl2, hi']
  rw [hg1, hg2] at hrow
  rw [hg2]
  generalize powersTen[i] = f at *
  generalize powersTenE[i] = e at *
  simp only [Bool.and_eq_true, decide_eq_true_eq] at hrow
  obtain ⟨⟨⟨hf1, hf2⟩, h3⟩, h4⟩ := hrow
  refine ⟨f, rfl, hf1, hf2, ?_⟩
  have hq3 : (2 * (f * (2 ^ e.toNat * 10 ^ (343 - i))) : ℚ) ≤
      2 * (10 ^ (i - 343) * 2 ^ (-e).toNat) + 2 ^ e.toNat * 10 ^ (343 - i) := by exact_mod_cast h3
  have hq4 : (2 * (10 ^ (i - 343) * 2 ^ (-e).toNat) : ℚ) ≤
      2 * (f * (2 ^ e.toNat * 10 ^ (343 - i))) + 2 ^ e.toNat * 10 ^ (343 - i) := by exact_mod_cast h4
  have hk : (10:ℚ) ^ k = 10 ^ (i - 343) / 10 ^ (343 - i) := by
    rw [eq_div_iff (by positivity), ← zpow_natCast, ← zpow_natCast, ← zpow_add₀ (by norm_num)]
    congr 1; omega
  have he : (2:ℚ) ^ e = 2 ^ e.toNat / 2 ^ (-e).toNat := by
    rw [eq_div_iff (by positivity), ← zpow_natCast, ← zpow_natCast, ← zpow_add₀ (by norm_num)]
    congr 1; omega
  rw [hk, he]
  have ha : (0:ℚ) < 10 ^ (343 - i) := by positivity
  have hb : (0:ℚ) < 2 ^ e.toNat := by positivity
  have hc : (0:ℚ) < 2 ^ (-e).toNat := by positivity
  generalize (10:ℚ) ^ (343 - i) = A at *
  generalize (2:ℚ) ^ e.toNat = B at *
  generalize (2:ℚ) ^ (-e).toNat = C at *
  generalize (10:ℚ) ^ (i - 343) = D at *
  have hx : D / A / (B / C) = D * C / (B * A) := by field_simp
  rw [hx, abs_le]
  have hBA : 0 < B * A := by positivity
  constructor
  · have : D * C / (B * A) ≤ f + 1 / 2 := by rw [div_le_iff₀ hBA]; linarith
    linarith
  · have : (f:ℚ) - 1 / 2 ≤ D * C / (B * A) := by rw [le_div_iff₀ hBA]; linarith
    linarith

theorem kComp_spec {p : Int} (h1 : -1137 ≤ p) (h2 : p ≤ 961) :
    -343 ≤ kComp (p + 64) (-59) ∧ kComp (p + 64) (-59) ≤ 343 ∧
      -60 ≤ p + powersTenE.getD (343 + kComp (p + 64) (-59)).toNat 0 + 64 ∧
      p + powersTenE.getD (343 + kComp (p + 64) (-59)).toNat 0 + 64 ≤ -32 := by
  have := choices (p + 1137).toNat (by omega)
  unfold choiceOk at this
  rw [show (((p + 1137).toNat : Int) - 1137) = p by omega] at this
  simpa using this

end Symxx.Dtoa
