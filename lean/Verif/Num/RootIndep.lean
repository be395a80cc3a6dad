import Mathlib.RingTheory.Trace.Basic
import Mathlib.Analysis.Complex.Polynomial.Basic
import Mathlib.FieldTheory.Minpoly.Field
/-!
# Roots that are no rational multiples of one another are linearly independent

The trace of an irrational real root of a rational number is 0, since its minimal polynomial is `X^e - r` with `e ≥ 2`.
-/
namespace Symxx.Num
open Polynomial

/-- the minimal polynomial of a positive root of a rational number. -/
theorem root_minpoly {β : ℝ} (hβ : 0 < β) {n : ℕ} (hn : 0 < n) {q : ℚ} (hq : β ^ n = q) :
    ∃ r : ℚ, minpoly ℚ β = X ^ (minpoly ℚ β).natDegree - C r := by
  have hint : IsIntegral ℚ β := ⟨X ^ n - C q, monic_X_pow_sub_C q hn.ne', by simp [hq]⟩
  have hm := minpoly.monic hint
  have hdvd : minpoly ℚ β ∣ X ^ n - C q := minpoly.dvd ℚ β (by simp [hq])
  set f := minpoly ℚ β with hf
  set e := f.natDegree with he
  have e0 : 0 < e := minpoly.natDegree_pos hint
  have hsp : (f.map (algebraMap ℚ ℂ)).Splits := IsAlgClosed.splits _
  have hmm : (f.map (algebraMap ℚ ℂ)).Monic := hm.map _
  have hc := hsp.coeff_zero_eq_prod_roots_of_monic hmm
  have hroots : ∀ z ∈ (f.map (algebraMap ℚ ℂ)).roots, ‖z‖ = β := by
    intro z hz
    have hz' := (mem_roots hmm.ne_zero).1 hz
    have : (X ^ n - C q : ℚ[X]).map (algebraMap ℚ ℂ) |>.IsRoot z := hz'.dvd (Polynomial.map_dvd _ hdvd)
    have hzn : z ^ n = (q : ℂ) := by
      have h := this
      simp only [IsRoot, Polynomial.map_sub, Polynomial.map_pow, map_X, map_C, eval_sub, eval_pow, eval_X, eval_C, sub_eq_zero] at h
      simpa using h
    have hzn' : ‖z‖ ^ n = β ^ n := by
      rw [← norm_pow, hzn]
      have : (q : ℂ) = ((β ^ n : ℝ) : ℂ) := by rw [hq]; simp
      rw [this, Complex.norm_real, Real.norm_eq_abs, abs_of_pos (pow_pos hβ n)]
    exact (pow_left_inj₀ (norm_nonneg z) hβ.le hn.ne').1 hzn'
  have hcard : Multiset.card (f.map (algebraMap ℚ ℂ)).roots = e := by
    rw [← hsp.natDegree_eq_card_roots, natDegree_map]
  have hprod : ‖(f.map (algebraMap ℚ ℂ)).roots.prod‖ = β ^ e := by
    have : ∀ s : Multiset ℂ, (∀ z ∈ s, ‖z‖ = β) → ‖s.prod‖ = β ^ Multiset.card s := by
      intro s
      induction s using Multiset.induction with
      | empty => intro _; simp
      | cons a s ih =>
        intro h
        rw [Multiset.prod_cons, norm_mul, h a (by simp), ih (fun z hz => h z (by simp [hz])), Multiset.card_cons, pow_succ, mul_comm]
    rw [this _ hroots, hcard]
  have hnorm : |(f.coeff 0 : ℝ)| = β ^ e := by
    rw [← hprod]
    have h := congrArg norm hc
    rw [norm_mul, norm_pow, norm_neg, norm_one, one_pow, one_mul, coeff_map] at h
    rw [← h]
    have : (algebraMap ℚ ℂ) (f.coeff 0) = (((f.coeff 0 : ℚ) : ℝ) : ℂ) := by simp
    rw [this, Complex.norm_real, Real.norm_eq_abs]
  refine ⟨|f.coeff 0|, ?_⟩
  have hroot : aeval β (X ^ e - C |f.coeff 0| : ℚ[X]) = 0 := by
    simp only [map_sub, map_pow, aeval_X, aeval_C]
    rw [← hnorm]
    simp
  have hd := minpoly.dvd ℚ β hroot
  have hm2 : (X ^ e - C |f.coeff 0| : ℚ[X]).Monic := monic_X_pow_sub_C _ e0.ne'
  exact (eq_of_monic_of_dvd_of_natDegree_le hm hm2 hd (by rw [natDegree_X_pow_sub_C])).symm

theorem root_trace {K : IntermediateField ℚ ℝ} [FiniteDimensional ℚ K] {x : K} (hβ : 0 < (x : ℝ)) {n : ℕ} (hn : 0 < n) {q : ℚ}
    (hq : (x : ℝ) ^ n = q) (hirr : ¬ ∃ r : ℚ, (x : ℝ) = r) : Algebra.trace ℚ K x = 0 := by
  obtain ⟨r, hr⟩ := root_minpoly hβ hn hq
  have hmx : minpoly ℚ x = minpoly ℚ (x : ℝ) := (minpoly.algebraMap_eq (algebraMap K ℝ).injective x).symm
  have hint : IsIntegral ℚ (x : ℝ) := ⟨X ^ n - C q, monic_X_pow_sub_C q hn.ne', by simp [hq]⟩
  have e2 : 2 ≤ (minpoly ℚ (x : ℝ)).natDegree := by
    by_contra hlt
    have e1 : (minpoly ℚ (x : ℝ)).natDegree = 1 := by
      have := minpoly.natDegree_pos hint
      omega
    have h := minpoly.aeval ℚ (x : ℝ)
    rw [hr, e1] at h
    apply hirr
    refine ⟨r, ?_⟩
    simp only [pow_one, map_sub, aeval_X, aeval_C, sub_eq_zero] at h
    simpa using h
  rw [trace_eq_finrank_mul_minpoly_nextCoeff, hmx, nextCoeff_of_natDegree_pos (by omega)]
  generalize (minpoly ℚ (x : ℝ)).natDegree = e at *
  rw [hr, coeff_sub, coeff_X_pow, coeff_C, if_neg (by omega), if_neg (by omega)]
  simp

/-- Besicovitch's theorem. -/
theorem roots_indep {ι : Type*} (s : Finset ι) (α : ι → ℝ) (hpos : ∀ j ∈ s, 0 < α j)
    (hn : ∀ j ∈ s, ∃ n : ℕ, 0 < n ∧ ∃ q : ℚ, α j ^ n = q)
    (hirr : ∀ j ∈ s, ∀ k ∈ s, j ≠ k → ¬ ∃ q : ℚ, α j = q * α k) (c : ι → ℚ) (h : ∑ j ∈ s, (c j : ℝ) * α j = 0) :
    ∀ k ∈ s, c k = 0 := by
  classical
  intro k hk
  have pk := hpos k hk
  have rat : ∀ j ∈ s, ∃ n : ℕ, 0 < n ∧ ∃ q : ℚ, (α j / α k) ^ n = q := by
    intro j hj
    obtain ⟨n, n0, q, hq⟩ := hn j hj
    obtain ⟨m, m0, r, hr⟩ := hn k hk
    refine ⟨n * m, Nat.mul_pos n0 m0, q ^ m / r ^ n, ?_⟩
    rw [div_pow, pow_mul, hq, mul_comm n m, pow_mul, hr]
    push_cast
    ring
  let S : Set ℝ := (fun j => α j / α k) '' s
  have : Finite S := (s.finite_toSet.image _).to_subtype
  have hS : ∀ x ∈ S, IsIntegral ℚ x := by
    rintro x ⟨j, hj, rfl⟩
    obtain ⟨n, n0, q, hq⟩ := rat j hj
    exact ⟨X ^ n - C q, monic_X_pow_sub_C q n0.ne', by simp [hq]⟩
  let K := IntermediateField.adjoin ℚ S
  have : FiniteDimensional ℚ K := IntermediateField.finiteDimensional_adjoin hS
  have mem : ∀ j ∈ s, α j / α k ∈ K := fun j hj => IntermediateField.subset_adjoin ℚ S ⟨j, hj, rfl⟩
  let b : ι → K := fun j => if hj : j ∈ s then ⟨α j / α k, mem j hj⟩ else 0
  have hb : ∀ j ∈ s, ((b j : K) : ℝ) = α j / α k := fun j hj => by simp [b, hj]
  have hsum : ∑ j ∈ s, c j • b j = 0 := by
    apply Subtype.coe_injective
    show ((∑ j ∈ s, c j • b j : K) : ℝ) = 0
    have : ((∑ j ∈ s, c j • b j : K) : ℝ) = ∑ j ∈ s, (c j : ℝ) * (α j / α k) := by
      rw [← IntermediateField.coe_val, map_sum]
      refine Finset.sum_congr rfl fun j hj => ?_
      rw [IntermediateField.coe_val]
      rw [IntermediateField.coe_smul, hb j hj, Rat.smul_def]
    rw [this]
    have e : ∑ j ∈ s, (c j : ℝ) * (α j / α k) = (∑ j ∈ s, (c j : ℝ) * α j) / α k := by
      rw [Finset.sum_div]
      exact Finset.sum_congr rfl fun j _ => by ring
    rw [e, h]
    simp
  have ht := congrArg (Algebra.trace ℚ K) hsum
  rw [map_sum, map_zero] at ht
  have hz : ∀ j ∈ s, j ≠ k → Algebra.trace ℚ K (c j • b j) = 0 := by
    intro j hj hjk
    obtain ⟨n, n0, q, hq⟩ := rat j hj
    rw [map_smul, root_trace (x := b j) (by rw [hb j hj]; exact div_pos (hpos j hj) pk) n0 (by rw [hb j hj]; exact hq), smul_zero]
    rintro ⟨r, hr⟩
    rw [hb j hj, div_eq_iff pk.ne'] at hr
    exact hirr j hj k hk hjk ⟨r, hr⟩
  rw [Finset.sum_eq_single k hz (fun hk' => absurd hk hk')] at ht
  have bk : b k = 1 := by
    apply Subtype.coe_injective
    show ((b k : K) : ℝ) = 1
    rw [hb k hk, div_self pk.ne']
  rw [bk, map_smul, show (1 : K) = algebraMap ℚ K 1 by simp, Algebra.trace_algebraMap] at ht
  have : (Module.finrank ℚ K : ℚ) ≠ 0 := by exact_mod_cast (Module.finrank_pos).ne'
  simpa [this] using ht

end Symxx.Num
