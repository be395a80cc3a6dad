import Verif.Dtoa.Grisu
/-!
# Grisu2: error analysis
-/
namespace Symxx.Dtoa

attribute [local irreducible] powersTen powersTenE

/-- lower end of the interval used by the code. -/
def lowQ (f : Nat) (e : Int) : ℚ :=
  if f = 2 ^ 52 then (4 * f - 1 : ℚ) * 2 ^ (e - 2) else (2 * f - 1 : ℚ) * 2 ^ (e - 1)

/-- upper end of the rounding interval. -/
def highQ (f : Nat) (e : Int) : ℚ := (2 * f + 1 : ℚ) * 2 ^ (e - 1)

/-- error of a product with a cached power. -/
theorem mul_error {w c : Nat} {p ec : Int} {T : ℚ} (hw : w < 2 ^ 64) (hc : c < 2 ^ 64) (hT : |(c:ℚ) - T| ≤ 1 / 2) :
    |((DiyFp.mul ⟨w, p⟩ ⟨c, ec⟩).f : ℚ) - w * (T / 2 ^ 64)| < 1 := by
  rw [DiyFp.mul_f hw hc]
  simp only
  have h1 : ((w * c + 2 ^ 63) / 2 ^ 64 : ℕ) * (2:ℚ) ^ 64 ≤ w * c + 2 ^ 63 := by
    exact_mod_cast Nat.div_mul_le_self (w * c + 2 ^ 63) (2 ^ 64)
  have h2 : (w * c + 2 ^ 63 : ℚ) < (((w * c + 2 ^ 63) / 2 ^ 64 : ℕ) + 1) * (2:ℚ) ^ 64 := by
    have := Nat.lt_div_mul_add (a := w * c + 2 ^ 63) (b := 2 ^ 64) (by norm_num)
    have : w * c + 2 ^ 63 < ((w * c + 2 ^ 63) / 2 ^ 64 + 1) * 2 ^ 64 := by omega
    exact_mod_cast this
  generalize (w * c + 2 ^ 63) / 2 ^ 64 = W at *
  have hw' : (w:ℚ) < 2 ^ 64 := by exact_mod_cast hw
  have hw0 : (0:ℚ) ≤ w := by positivity
  rw [abs_le] at hT
  have h3 : (w:ℚ) * (c - T) ≤ w * (1 / 2) := mul_le_mul_of_nonneg_left hT.2 hw0
  have h4 : (w:ℚ) * (-(1 / 2)) ≤ w * (c - T) := mul_le_mul_of_nonneg_left hT.1 hw0
  rw [abs_lt]
  constructor <;> nlinarith

theorem mul_lt {w c : Nat} {p ec : Int} (hw : w < 2 ^ 64) (hc : c < 2 ^ 64) :
    (DiyFp.mul ⟨w, p⟩ ⟨c, ec⟩).f < 2 ^ 64 := by
  rw [DiyFp.mul_f hw hc]
  simp only
  have : w * c ≤ (2 ^ 64 - 1) * (2 ^ 64 - 1) := Nat.mul_le_mul (by omega) (by omega)
  rw [Nat.div_lt_iff_lt_mul (by norm_num)]; omega

/-- what Grisu2 computes for a positive finite double `f * 2^e`. -/
structure Grisu (f : Nat) (e : Int) (b : List Char) (K : Int) : Prop where
  ne : b ≠ []
  dig : b.all isDig = true
  head : b.head? ≠ some '0'
  len : b.length ≤ 17
  low : lowQ f e < digitsVal b * 10 ^ K
  high : digitsVal b * 10 ^ K < highQ f e
  short : ∀ (n : Nat) (k : Int), lowQ f e + 2 ^ e / 256 ≤ n * 10 ^ k → n * 10 ^ k ≤ highQ f e - 2 ^ e / 256 → k ≤ K

theorem lowBnd_cast {f s : Nat} {e : Int} (hf : 0 < f) (hs : 10 ≤ s) : (lowBnd f s : ℚ) * 2 ^ (e - 1 - s) = lowQ f e := by
  unfold lowBnd lowQ
  have h2 : (2:ℚ) ≠ 0 := by norm_num
  split
  · obtain ⟨r, rfl⟩ : ∃ r, s = r + 1 := ⟨s - 1, by omega⟩
    rw [Nat.add_sub_cancel, Nat.cast_mul, Nat.cast_sub (by omega)]
    push_cast
    rw [mul_assoc, ← zpow_natCast, ← zpow_add₀ h2]
    congr 2; ring
  · rw [Nat.cast_mul, Nat.cast_sub (by omega)]
    push_cast
    rw [mul_assoc, ← zpow_natCast, ← zpow_add₀ h2]
    congr 2; ring

theorem highBnd_cast {f s : Nat} {e : Int} : (((2 * f + 1) * 2 ^ s : ℕ) : ℚ) * 2 ^ (e - 1 - s) = highQ f e := by
  unfold highQ
  push_cast
  rw [mul_assoc, ← zpow_natCast, ← zpow_add₀ (by norm_num)]
  congr 2; ring

theorem unit_eq {p ec mk : Int} {sh : Nat} {T t : ℚ} (hsh : p + ec + 64 = -(sh : Int)) (hT : T = 10 ^ mk / 2 ^ ec)
    (ht : t = T / 2 ^ 64) (w : ℚ) : w * 2 ^ p * (10 ^ mk * ((2 ^ sh : ℕ) : ℚ)) = w * t := by
  have h2 : (2:ℚ) ≠ 0 := by norm_num
  have h1 : (2:ℚ) ^ p * 2 ^ (sh : Int) * (2 ^ ec * 2 ^ (64 : Int)) = 1 := by
    rw [← zpow_add₀ h2, ← zpow_add₀ h2, ← zpow_add₀ h2, show p + (sh:Int) + (ec + 64) = 0 by omega, zpow_zero]
  have h3 : (2:ℚ) ^ (64 : Int) = 2 ^ 64 := by norm_num
  have h4 : (2:ℚ) ^ (sh : Int) = ((2 ^ sh : ℕ) : ℚ) := by rw [zpow_natCast]; push_cast; rfl
  rw [h3, h4] at h1
  have h5 : (2:ℚ) ^ p * ((2 ^ sh : ℕ) : ℚ) = 1 / (2 ^ ec * 2 ^ 64) := by
    rw [eq_div_iff (by positivity)]; exact h1
  calc w * 2 ^ p * (10 ^ mk * ((2 ^ sh : ℕ) : ℚ)) = w * 10 ^ mk * (2 ^ p * ((2 ^ sh : ℕ) : ℚ)) := by ring
    _ = w * t := by rw [h5, ht, hT]; field_simp

theorem delta_big {P M F Bt lowt : ℚ} (hBt : 500 ≤ Bt) (hF : F + 1 ≤ 2 ^ 53) 
    (hP : P > 2 * F * Bt + Bt - 1) (hP' : P < (2 * F + 1) * Bt + 1) (hM : M < lowt + 1)
    (h1 : lowt + Bt / 2 ≤ 2 * F * Bt) (h2 : F ≠ 2 ^ 52 → lowt + Bt = 2 * F * Bt) :
    P - 1 < 10 ^ 16 * (P - 1 - (M + 1)) := by
  have hN1 : P - 1 < (2 * F + 1) * Bt := by linarith
  by_cases hf : F = 2 ^ 52
  · have : P - 1 - (M + 1) ≥ 14 / 10 * Bt := by linarith
    rw [hf] at hN1
    linarith
  · have := h2 hf
    have h3 : P - 1 - (M + 1) ≥ 19 / 10 * Bt := by linarith
    have h4 : (2 * F + 1) * Bt ≤ 2 ^ 54 * Bt := mul_le_mul_of_nonneg_right (by linarith) (by linarith)
    linarith

theorem few_digits {D V del N : ℚ} {n : Nat} (hD : (10:ℚ) ^ (n - 1) ≤ D) (h1 : D * V ≤ N) (h2 : del < 10 * V)
    (h3 : N < 10 ^ 16 * del) (h0 : 0 < del) : n ≤ 17 := by
  have hD0 : 0 < D := lt_of_lt_of_le (by positivity) hD
  have h5 : D * del < D * (10 * V) := mul_lt_mul_of_pos_left h2 hD0
  have h6 : D < 10 ^ 17 := by
    by_contra hc
    push Not at hc
    have : (10:ℚ) ^ 17 * del ≤ D * del := mul_le_mul_of_nonneg_right hc h0.le
    linarith
  have := (pow_lt_pow_iff_right₀ (by norm_num : (1:ℚ) < 10)).1 (lt_of_le_of_lt hD h6)
  omega

/-- a multiple of the unit `V` strictly above `N - rest` and at most `N` cannot exist when `N` is `rest` above a multiple. -/
theorem no_multiple {D m : Nat} {V N rest : ℚ} (hV : 0 < V) (h1 : (D:ℚ) * V + rest = N) (h3 : rest < V)
    (ha : N - rest < m * V) (hb : (m:ℚ) * V ≤ N) : False := by
  have hle : m ≤ D := by
    by_contra hlt
    have : ((D + 1 : ℕ) : ℚ) ≤ (m : ℚ) := by exact_mod_cast (by omega : D + 1 ≤ m)
    have := mul_le_mul_of_nonneg_right this hV.le
    push_cast at this
    linarith
  have : (m : ℚ) ≤ (D : ℚ) := by exact_mod_cast hle
  have := mul_le_mul_of_nonneg_right this hV.le
  linarith

theorem grisu2_spec {u f : Nat} {e : Int} (hu : DiyFp.ofBits u = ⟨f, e⟩) (h : Canon f e) :
    ∃ b K, grisu2 u = .ok (b, K) ∧ Grisu f e b K := by
  obtain ⟨s, hs1, hs2, hB1, hB2, hp1, hp2, hnorm, hbnd⟩ := boundaries h
  obtain ⟨hm1, hm2, hx1, hx2⟩ := kComp_spec hp1 hp2
  generalize hmk : kComp (e - 1 - (s:Int) + 64) (-59) = mk at *
  obtain ⟨c, hcp, hc1, hc2, hT⟩ := cachedPower_spec hm1 hm2
  generalize powersTenE.getD (343 + mk).toNat 0 = ec at *
  obtain ⟨sh, hsh⟩ : ∃ sh : Nat, e - 1 - (s:Int) + ec + 64 = -(sh : Int) := ⟨(-(e - 1 - (s:Int) + ec + 64)).toNat, by omega⟩
  -- sizes
  set B : Nat := 2 ^ s with hBdef
  have hBge : 1024 ≤ B := by
    calc 1024 = 2 ^ 10 := by norm_num
      _ ≤ 2 ^ s := Nat.pow_le_pow_right (by norm_num) hs1
  have hf0 := h.pos
  have hlow64 : lowBnd f s < 2 * f * B := by
    unfold lowBnd
    split
    · obtain ⟨r, hr⟩ : ∃ r, s = r + 1 := ⟨s - 1, by omega⟩
      rw [hBdef, hr, Nat.add_sub_cancel, pow_succ, show 2 * f * (2 ^ r * 2) = 4 * f * 2 ^ r by ring]
      exact Nat.mul_lt_mul_of_pos_right (by omega) (by positivity)
    · exact Nat.mul_lt_mul_of_pos_right (by omega) (by omega)
  have hw64 : 2 * f * B < 2 ^ 64 := by nlinarith
  set T : ℚ := 10 ^ mk / 2 ^ ec with hTdef
  set t : ℚ := T / 2 ^ 64 with htdef
  have heW := mul_error (p := e - 1 - (s:Int)) (ec := ec) hw64 hc2 hT
  have heP := mul_error (p := e - 1 - (s:Int)) (ec := ec) hB2 hc2 hT
  have heM := mul_error (p := e - 1 - (s:Int)) (ec := ec) (show lowBnd f s < 2 ^ 64 by omega) hc2 hT
  have hPlt := mul_lt (p := e - 1 - (s:Int)) (ec := ec) hB2 hc2
  have hMlt := mul_lt (p := e - 1 - (s:Int)) (ec := ec) (show lowBnd f s < 2 ^ 64 by omega) hc2
  have hWe : ∀ w, (DiyFp.mul ⟨w, e - 1 - (s:Int)⟩ ⟨c, ec⟩).e = -(sh : Int) := fun w => by rw [DiyFp.mul_e]; exact hsh
  generalize hWg : DiyFp.mul ⟨2 * f * B, e - 1 - (s:Int)⟩ ⟨c, ec⟩ = W at *
  generalize hPg : DiyFp.mul ⟨(2 * f + 1) * B, e - 1 - (s:Int)⟩ ⟨c, ec⟩ = P at *
  generalize hMg : DiyFp.mul ⟨lowBnd f s, e - 1 - (s:Int)⟩ ⟨c, ec⟩ = M at *
  have heW' : W.e = -(sh:Int) := by rw [← hWg]; exact hWe _
  have heP' : P.e = -(sh:Int) := by rw [← hPg]; exact hWe _
  have heM' : M.e = -(sh:Int) := by rw [← hMg]; exact hWe _
  rw [← htdef, abs_lt] at heW heP heM
  have ht : (49:ℚ) / 100 ≤ t := by
    rw [abs_le] at hT
    have : (2:ℚ) ^ 63 ≤ c := by exact_mod_cast hc1
    rw [htdef, le_div_iff₀ (by norm_num)]; linarith [hT.2]
  -- widths, in ℚ
  have hBq : (1024:ℚ) ≤ B := by exact_mod_cast hBge
  have hBt : (500:ℚ) ≤ B * t := by nlinarith
  have hwide : (lowBnd f s : ℚ) + B / 2 ≤ 2 * f * B ∧ (f ≠ 2 ^ 52 → (lowBnd f s : ℚ) + B = 2 * f * B) := by
    unfold lowBnd
    split
    · rename_i hf
      refine ⟨?_, fun h => absurd hf h⟩
      obtain ⟨r, hr⟩ : ∃ r, s = r + 1 := ⟨s - 1, by omega⟩
      rw [hBdef, hr, Nat.add_sub_cancel, Nat.cast_mul, Nat.cast_sub (by omega)]
      push_cast
      rw [pow_succ]; linarith
    · have : (((2 * f - 1) * 2 ^ s : ℕ) : ℚ) + B = 2 * f * B := by
        rw [Nat.cast_mul, Nat.cast_sub (by omega), hBdef]; push_cast; ring
      exact ⟨by linarith, fun _ => this⟩
  have hlow0 : (0:ℚ) ≤ lowBnd f s := by positivity
  have ht0 : 0 < t := by linarith
  have hPq : (P.f : ℚ) > (2 * f * B) * t + B * t - 1 := by
    have := heP.1; push_cast at this; nlinarith
  have hPq' : (P.f : ℚ) < ((2 * f + 1) * B) * t + 1 := by
    have := heP.2; push_cast at this; linarith
  have hWq : (W.f : ℚ) < (2 * f * B) * t + 1 := by
    have := heW.2; push_cast at this; linarith
  have hMq : (M.f : ℚ) < lowBnd f s * t + 1 := by linarith [heM.2]
  have hMq' : (M.f : ℚ) > lowBnd f s * t - 1 := by linarith [heM.1]
  have hlow_t : (lowBnd f s : ℚ) * t + B * t / 2 ≤ 2 * f * B * t := by
    have := mul_le_mul_of_nonneg_right hwide.1 ht0.le; linarith
  have hWP : W.f + 1 ≤ P.f := by
    have : (W.f : ℚ) + 1 ≤ P.f := by linarith
    exact_mod_cast this
  have hMP : M.f + 3 ≤ P.f := by
    have : (M.f : ℚ) + 3 ≤ P.f := by linarith
    exact_mod_cast this
  -- run
  unfold grisu2
  rw [hu]
  simp only
  rw [hbnd, Res.bind_ok]
  simp only
  rw [hnorm, Res.bind_ok, hmk, hcp, Res.bind_ok, hWg, hPg, hMg]
  rw [u64_eq (show M.f + 1 < 2 ^ 64 by omega), u64sub_eq hPlt (by omega)]
  rw [show DiyFp.sub ⟨P.f - 1, P.e⟩ ⟨M.f + 1, M.e⟩ = .ok ⟨P.f - 1 - (M.f + 1), P.e⟩ by
    unfold DiyFp.sub
    rw [show decide ((⟨P.f - 1, P.e⟩ : DiyFp).e = (⟨M.f + 1, M.e⟩ : DiyFp).e ∧ (⟨P.f - 1, P.e⟩ : DiyFp).f ≥ (⟨M.f + 1, M.e⟩ : DiyFp).f) = true by
      simp only [heP', heM', decide_eq_true_eq, true_and]; omega]
    rw [Res.assert_true]
    simp only [Res.bind_ok]
    rw [u64sub_eq (by omega) (by omega)]]
  rw [Res.bind_ok]
  obtain ⟨b, k, hg, hG⟩ := digitGen_spec (W := W) (Mp := ⟨P.f - 1, P.e⟩) (delta := ⟨P.f - 1 - (M.f + 1), P.e⟩) (K := -mk) (sh := sh)
    heP' (by simp only [heW', heP']) (by omega) (by omega) (by simp only; omega) (by simp only; omega) (by simp only; omega)
    (by simp only; omega)
  refine ⟨b, _, hg, hG.ne, hG.dig, hG.head, ?_, ?_, ?_, ?_⟩
  all_goals
    have hGhi := hG.hi
    have hGlo := hG.lo
    obtain ⟨D', rest, hpr1, hpr2, hpr3⟩ := hG.prev
    have hN : ((P.f - 1 : ℕ) : ℚ) = P.f - 1 := by rw [Nat.cast_sub (by omega)]; simp
    have hdel : ((P.f - 1 - (M.f + 1) : ℕ) : ℚ) = P.f - 1 - (M.f + 1) := by
      rw [Nat.cast_sub (by omega), hN]; push_cast; ring
    simp only [hN, hdel] at hGhi hGlo hpr1 hpr2
    have hS : (0:ℚ) < ((2 ^ sh : ℕ) : ℚ) := by positivity
    have h10 : (10:ℚ) ≠ 0 := by norm_num
    have hscale : ∀ x : ℚ, x * 10 ^ (-mk + k) * (10 ^ mk * ((2 ^ sh : ℕ) : ℚ)) = x * 10 ^ k * ((2 ^ sh : ℕ) : ℚ) := by
      intro x
      have : (10:ℚ) ^ (-mk + k) * 10 ^ mk = 10 ^ k := by rw [← zpow_add₀ h10]; congr 1; ring
      rw [← this]; ring
    have hU : (0:ℚ) < 10 ^ mk * ((2 ^ sh : ℕ) : ℚ) := by positivity
    have hunit : ∀ w : ℚ, w * 2 ^ (e - 1 - (s:Int)) * (10 ^ mk * ((2 ^ sh : ℕ) : ℚ)) = w * t := by
      exact unit_eq hsh hTdef htdef
    have hlowU : lowQ f e * (10 ^ mk * ((2 ^ sh : ℕ) : ℚ)) = lowBnd f s * t := by
      rw [← lowBnd_cast hf0 hs1]; exact hunit _
    have hhighU : highQ f e * (10 ^ mk * ((2 ^ sh : ℕ) : ℚ)) = ((2 * f + 1) * B) * t := by
      rw [← highBnd_cast (s := s), hunit]; push_cast [hBdef]; ring
  · -- length
    have hD := ten_pow_le_of_head hG.dig hG.ne hG.head
    have hDq : (10:ℚ) ^ (b.length - 1) ≤ digitsVal b := by exact_mod_cast hD
    have hten : (10:ℚ) ^ (k + 1) = 10 * 10 ^ k := by rw [zpow_add₀ h10]; ring
    have hfq : (f : ℚ) + 1 ≤ 2 ^ 53 := by exact_mod_cast h.lt
    refine few_digits (V := 10 ^ k * ((2 ^ sh : ℕ) : ℚ)) (N := P.f - 1) (del := P.f - 1 - (M.f + 1)) hDq
      (by rw [← mul_assoc]; exact hGhi) (by rw [← mul_assoc, ← hten]; exact lt_of_le_of_lt hpr2 hpr3) ?_ ?_
    · refine delta_big (F := f) (Bt := B * t) (lowt := lowBnd f s * t) hBt hfq (by linarith) (by linarith) hMq
        (by linarith) ?_
      intro hf
      have hw := hwide.2 (by intro h; apply hf; rw [h]; norm_num)
      rw [← mul_assoc, ← hw]; ring
    · have : ((M.f + 3 : ℕ) : ℚ) ≤ P.f := by exact_mod_cast hMP
      push_cast at this; linarith
  · -- lower end
    refine lt_of_mul_lt_mul_right ?_ hU.le
    rw [hscale, hlowU]; linarith
  · refine lt_of_mul_lt_mul_right ?_ hU.le
    rw [hscale, hhighU]; linarith
  · -- no coarser decimal
    intro n j hj1 hj2
    by_contra hc
    have hkj : k + 1 ≤ j + mk := by omega
    have hq : (2:ℚ) ^ e * (10 ^ mk * ((2 ^ sh : ℕ) : ℚ)) = 2 * B * t := by
      rw [← hunit]
      congr 1
      rw [hBdef]
      push_cast
      rw [show (2:ℚ) * 2 ^ s = 2 ^ (((s + 1 : ℕ)) : Int) by rw [zpow_natCast, pow_succ]; ring, ← zpow_add₀ (by norm_num)]
      congr 1; push_cast; ring
    have a1 := mul_le_mul_of_nonneg_right hj1 hU.le
    have a2 := mul_le_mul_of_nonneg_right hj2 hU.le
    rw [add_mul, hlowU, div_mul_eq_mul_div, hq] at a1
    rw [sub_mul, hhighU, div_mul_eq_mul_div, hq] at a2
    -- the decimal is a multiple of the coarser unit
    obtain ⟨m, hm⟩ : ∃ m : Nat, j + mk = k + 1 + m := ⟨(j + mk - (k + 1)).toNat, by omega⟩
    have hmul : (n:ℚ) * 10 ^ j * (10 ^ mk * ((2 ^ sh : ℕ) : ℚ)) = ((n * 10 ^ m : ℕ) : ℚ) * (10 ^ (k + 1) * ((2 ^ sh : ℕ) : ℚ)) := by
      have : (10:ℚ) ^ j * 10 ^ mk = 10 ^ m * 10 ^ (k + 1) := by
        rw [← zpow_add₀ h10, hm, ← zpow_natCast 10 m, ← zpow_add₀ h10]; congr 1; ring
      push_cast
      calc (n:ℚ) * 10 ^ j * (10 ^ mk * 2 ^ sh) = n * (10 ^ j * 10 ^ mk) * 2 ^ sh := by ring
        _ = _ := by rw [this]; ring
    rw [hmul] at a1 a2
    have hV : (0:ℚ) < 10 ^ (k + 1) * ((2 ^ sh : ℕ) : ℚ) := by positivity
    exact no_multiple (D := D') (m := n * 10 ^ m) (N := P.f - 1) (rest := rest) hV (by rw [← mul_assoc]; exact hpr1) hpr3 (by linarith) (by linarith)

end Symxx.Dtoa
