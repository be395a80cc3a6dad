import Verif.Frac.OverRat
import Verif.Props.Over
/-!
# C110: a polynomial with rational coefficients over a number has one form, and keeps it

`Poly.RatPoly D p`: the coefficients of `p` are rational numbers in lowest terms, the monomials are distinct, the exponents whole numbers of
magnitude at most `D`, nothing is zero; `Poly.l1 p`: the sum of the absolute values of the numerators; `Poly.dens p`: the product of the
denominators. `Term.con d` is the number `d`. `Frac.mk2` and `Frac.ofPoly` are the constructors of the library.
-/
namespace Symxx.Cli
open Symxx.Num Symxx.Sym Cmd
variable {env : FEnv} {B : Nat} {D d d' : Int} {p p' : Poly}

/-- The fraction denotes the quotient. -/
theorem C110_value (hg : env.toEnv.Good B) (hB : 1 ≤ B) (hs : SortContract env) (hr : SortReturns env) (hD0 : 0 ≤ D) (hD : D ≤ env.M)
    (hp : p.RatPoly D) (hd : 0 < d) (hm : p.l1 * p.dens * (d * p.dens) ≤ env.M) :
    ∃ f, Frac.mk2 env p [Term.con d] = .ok f ∧ ∀ ρ : List Char → ℝ, f.value ρ = Poly.value ρ p / d := by
  obtain ⟨q, -, -, q3, w1, w2, w3, w4, w5⟩ := Frac.mk2_clear hg hB hs hr hD hp hd hm
  obtain ⟨f, f1, f2⟩ := Frac.mk2_value hg hB hs hr hD0 hD w1 w2 w3 w4
  exact ⟨f, by rw [q3, f1], fun ρ => by rw [f2, w5]⟩

/-- Equal quotients are built as the same fraction, different ones as different fractions. -/
theorem C110_same (hg : env.toEnv.Good B) (hB : 1 ≤ B) (hs : SortContract env) (hr : SortReturns env) (hD0 : 0 ≤ D) (hD : D ≤ env.M)
    (hp : p.RatPoly D) (hd : 0 < d) (hm : p.l1 * p.dens * (d * p.dens) ≤ env.M)
    (hp' : p'.RatPoly D) (hd' : 0 < d') (hm' : p'.l1 * p'.dens * (d' * p'.dens) ≤ env.M) :
    ∃ f f', Frac.mk2 env p [Term.con d] = .ok f ∧ Frac.mk2 env p' [Term.con d'] = .ok f' ∧
      (f = f' ↔ ∀ ρ : List Char → ℝ, (∀ x, 0 < ρ x) → Poly.value ρ p / d = Poly.value ρ p' / d') := by
  obtain ⟨q, -, -, q3, w1, w2, w3, w4, w5⟩ := Frac.mk2_clear hg hB hs hr hD hp hd hm
  obtain ⟨q', -, -, q3', w1', w2', w3', w4', w5'⟩ := Frac.mk2_clear hg hB hs hr hD hp' hd' hm'
  obtain ⟨f, f1, f2⟩ := Frac.mk2_value hg hB hs hr hD0 hD w1 w2 w3 w4
  obtain ⟨f', f1', f2'⟩ := Frac.mk2_value hg hB hs hr hD0 hD w1' w2' w3' w4'
  refine ⟨f, f', by rw [q3, f1], by rw [q3', f1'], ?_, ?_⟩
  · rintro rfl ρ -
    rw [← w5, ← f2, f2', w5']
  · intro hv
    have := Frac.mk2_same hg hB hs hr hD0 hD w1 w2 w3 w4 w1' w2' w3' w4' fun ρ hρ => by rw [w5, w5', hv ρ hρ]
    rw [f1, f1'] at this
    injection this

/-- Building the fraction again from its numerator and its denominator changes nothing. -/
theorem C110_final (hg : env.toEnv.Good B) (hB : 1 ≤ B) (hs : SortContract env) (hr : SortReturns env) (hD0 : 0 ≤ D) (hD : D ≤ env.M)
    (hp : p.RatPoly D) (hd : 0 < d) (hm : p.l1 * p.dens * (d * p.dens) ≤ env.M) :
    ∃ (n : Poly) (b : Int), Frac.mk2 env p [Term.con d] = .ok ⟨n, [Term.con b]⟩ ∧ n.RatPoly D ∧ 0 < b ∧
      (n.l1 * n.dens * (b * n.dens) ≤ env.M → Frac.mk2 env n [Term.con b] = .ok ⟨n, [Term.con b]⟩) :=
  Frac.mk2_again hg hB hs hr hD0 hD hp hd hm

/-- A polynomial made into a fraction is the polynomial over 1. -/
theorem C110_poly (hg : env.toEnv.Good B) (hB : 1 ≤ B) (hs : SortContract env) (hr : SortReturns env) (hD0 : 0 ≤ D) (hD : D ≤ env.M)
    (hp : p.RatPoly D) (hm : p.l1 * p.dens * p.dens ≤ env.M) :
    ∃ f, Frac.ofPoly env p = .ok f ∧ Frac.mk2 env p [Term.con 1] = .ok f ∧ ∀ ρ : List Char → ℝ, f.value ρ = Poly.value ρ p := by
  obtain ⟨f, f1, f2⟩ := C110_value hg hB hs hr hD0 hD hp one_pos (by rwa [one_mul])
  exact ⟨f, by rw [Frac.ofPoly_con hg hB hs hr, f1], f1, fun ρ => by rw [f2]; simp⟩

/-! ### instances -/

/-- `x + 1/2`. -/
def ratEx : Poly := [⟨Real.int 1, [(['x'], ⟨1, 1⟩)]⟩, ⟨Real.ofRat ⟨1, 2⟩, []⟩]

/-- `1/4 + x/2`. -/
def ratEx2 : Poly := [⟨Real.ofRat ⟨1, 4⟩, []⟩, ⟨Real.ofRat ⟨1, 2⟩, [(['x'], ⟨1, 1⟩)]⟩]

theorem ratEx_rat : ratEx.RatPoly 1 := by
  refine ⟨by simp [ratEx], ?_, ?_, by simp [ratEx]⟩
  · intro t ht
    simp only [ratEx, List.mem_cons, List.not_mem_nil, or_false] at ht
    rcases ht with rfl | rfl
    · exact ⟨rfl, by decide, by simp [Rational.Lowest, Real.int], by decide⟩
    · exact ⟨rfl, by decide, by simp [Rational.Lowest, Real.ofRat], by decide⟩
  · intro t ht
    simp only [ratEx, List.mem_cons, List.not_mem_nil, or_false] at ht
    rcases ht with rfl | rfl
    · exact ⟨by intro p hp; simp at hp; subst hp; simp, by simp [Syms.WF], by intro p hp; simp at hp; subst hp; simp⟩
    · exact ⟨by intro p hp; simp at hp, by simp [Syms.WF], by intro p hp; simp at hp⟩

theorem ratEx2_rat : ratEx2.RatPoly 1 := by
  refine ⟨by simp [ratEx2], ?_, ?_, by simp [ratEx2]⟩
  · intro t ht
    simp only [ratEx2, List.mem_cons, List.not_mem_nil, or_false] at ht
    rcases ht with rfl | rfl
    · exact ⟨rfl, by decide, by simp [Rational.Lowest, Real.ofRat], by decide⟩
    · exact ⟨rfl, by decide, by simp [Rational.Lowest, Real.ofRat], by decide⟩
  · intro t ht
    simp only [ratEx2, List.mem_cons, List.not_mem_nil, or_false] at ht
    rcases ht with rfl | rfl
    · exact ⟨by intro p hp; simp at hp, by simp [Syms.WF], by intro p hp; simp at hp⟩
    · exact ⟨by intro p hp; simp at hp; subst hp; simp, by simp [Syms.WF], by intro p hp; simp at hp; subst hp; simp⟩

example := C110_value (env := fenv64) fenv64_good (by norm_num) fenv64_contract fenv64_returns (d := 2) zero_le_one (by decide) ratEx_rat
  (by norm_num) (by decide)
example := C110_final (env := fenv64) fenv64_good (by norm_num) fenv64_contract fenv64_returns (d := 2) zero_le_one (by decide) ratEx_rat
  (by norm_num) (by decide)
example := C110_poly (env := fenv64) fenv64_good (by norm_num) fenv64_contract fenv64_returns zero_le_one (by decide) ratEx2_rat (by decide)

/-- `(x + 1/2) / 2` and `1/4 + x/2` are the same fraction, `(x + 1/2) / 2` is not changed any more. -/
theorem C110_example : Frac.mk2 fenv64 ratEx [Term.con 2] = .ok ⟨ratEx, [Term.con 2]⟩ ∧
    Frac.ofPoly fenv64 ratEx2 = .ok ⟨ratEx, [Term.con 2]⟩ ∧
    does start "(x+1/2)/2" = (.ok false, "(x+1/2)/2\n".toList) ∧ does start "1/4+x/2" = (.ok false, "(x+1/2)/2\n".toList) := by decide +kernel

/-- the hypotheses of `C110_same` for the two. -/
example := C110_same (env := fenv64) fenv64_good (by norm_num) fenv64_contract fenv64_returns (d := 2) (d' := 1) zero_le_one (by decide) ratEx_rat
  (by norm_num) (by decide) ratEx2_rat (by norm_num) (by decide)

end Symxx.Cli
