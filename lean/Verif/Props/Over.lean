import Verif.Frac.OverNum
import Verif.Props.RootSum
/-!
# C106: equal quotients by numbers are built the same; C107: a polynomial over a number, and lowest terms

`Poly.IntLe D p`: the coefficients of `p` are whole numbers, the exponents whole numbers of magnitude at most `D`;
`Poly.Reduced p`: there is a term, the monomials are distinct, no coefficient and no exponent is zero; `Poly.l1 p`: the sum of the
absolute values of the coefficients. `Term.con d` is the number `d`. `Poly.mk'` and `Frac.mk2` are the constructors of the library.
-/
namespace Symxx.Cli
open Symxx.Num Symxx.Sym Cmd

/-- a numerator over the number `b` in lowest terms: whole coefficients, and no number above 1 divides them all and `b`. -/
def LowestTerms (n : Poly) (b : Int) : Prop :=
  (∀ t ∈ n, t.coe.coe.den = 1) ∧ ∀ k : Int, 1 < k → k ∣ b → ¬ ∀ t ∈ n, k ∣ t.coe.coe.num

variable {env : FEnv} {B : Nat}

/-- The numerator and the denominator are divided by the greatest common divisor of the denominator and the first coefficient (in the order
in which the library keeps the terms), whatever the other coefficients are: the monomials stay, a coefficient `c` over `d` becomes the
number `c / g`, in lowest terms, over `d / g`. -/
theorem C107_first (hg : env.toEnv.Good B) (hB : 1 ≤ B) (hs : SortContract env) (hr : SortReturns env) {D d : Int} (hD0 : 0 ≤ D)
    (hD : D ≤ env.M) {p : Poly} (hp : p.IntLe D) (hred : p.Reduced) (hd : 0 < d) (hm : p.l1 * d ≤ env.M) :
    ∃ (t : Term) (ts n : Poly) (g : Int), Poly.mk' env p = .ok (t :: ts) ∧ (t :: ts).Perm p ∧ g = Int.gcd t.coe.coe.num d ∧
      Frac.mk2 env p [Term.con d] = .ok ⟨n, [Term.con (d / g)]⟩ ∧
      List.Forall₂ (fun a c => a.syms = c.syms ∧ a.coe.index = 1 ∧ a.coe.rad = ⟨1, 1⟩ ∧
        a.coe.coe = ⟨((c.coe.coe.num : ℚ) / g).num, ((c.coe.coe.num : ℚ) / g).den⟩) n (t :: ts) := by
  obtain ⟨t, ts, h1, h2, -, h3⟩ := Frac.mk2_over hg hB hs hr hD0 hD hp hred hd hm
  refine ⟨t, ts, _, _, h1, h2, rfl, h3, ?_⟩
  rw [List.forall₂_map_left_iff]
  exact List.forall₂_same.2 fun x _ => ⟨rfl, rfl, rfl, rfl⟩

theorem whole_iff {c g : Int} (hg : 0 < g) : (((c : ℚ) / g).den : Int) = 1 ↔ g ∣ c := by
  constructor
  · intro h
    have h1 : ((c : ℚ) / g).den = 1 := by exact_mod_cast h
    refine ⟨((c : ℚ) / g).num, ?_⟩
    have h2 : (c : ℚ) / g = (((c : ℚ) / g).num : ℚ) := (Rat.coe_int_num_of_den_eq_one h1).symm
    have g0 : (g : ℚ) ≠ 0 := by exact_mod_cast hg.ne'
    rw [div_eq_iff g0] at h2
    have : (c : ℚ) = ((g * ((c : ℚ) / g).num : Int) : ℚ) := by
      push_cast
      linarith
    exact_mod_cast this
  · rintro ⟨k, rfl⟩
    have g0 : (g : ℚ) ≠ 0 := by exact_mod_cast hg.ne'
    have : ((g * k : Int) : ℚ) / g = (k : ℚ) := by
      push_cast
      field_simp
    rw [this]
    simp

theorem whole_num {c g : Int} (hg : 0 < g) (h : g ∣ c) : ((c : ℚ) / g).num = c / g := by
  obtain ⟨k, rfl⟩ := h
  have g0 : (g : ℚ) ≠ 0 := by exact_mod_cast hg.ne'
  have : ((g * k : Int) : ℚ) / g = (k : ℚ) := by
    push_cast
    field_simp
  rw [this, Int.mul_ediv_cancel_left _ hg.ne']
  simp

/-- The fraction is in lowest terms exactly if the common divisor of the first coefficient and the denominator divides every
coefficient. -/
theorem C107_lowest_partial (hg : env.toEnv.Good B) (hB : 1 ≤ B) (hs : SortContract env) (hr : SortReturns env) {D d : Int} (hD0 : 0 ≤ D)
    (hD : D ≤ env.M) {p : Poly} (hp : p.IntLe D) (hred : p.Reduced) (hd : 0 < d) (hm : p.l1 * d ≤ env.M) :
    ∃ (t : Term) (ts n : Poly) (b : Int), Poly.mk' env p = .ok (t :: ts) ∧
      Frac.mk2 env p [Term.con d] = .ok ⟨n, [Term.con b]⟩ ∧ 0 < b ∧ b ∣ d ∧
      (LowestTerms n b ↔ ∀ c ∈ p, (Int.gcd t.coe.coe.num d : Int) ∣ c.coe.coe.num) := by
  obtain ⟨t, ts, h1, h2, -, h3⟩ := Frac.mk2_over hg hB hs hr hD0 hD hp hred hd hm
  have g0 : 0 < (Int.gcd t.coe.coe.num d : Int) := by
    exact_mod_cast Int.gcd_pos_iff.2 (Or.inr hd.ne')
  have gd : (Int.gcd t.coe.coe.num d : Int) ∣ d := Int.gcd_dvd_right ..
  have gt : (Int.gcd t.coe.coe.num d : Int) ∣ t.coe.coe.num := Int.gcd_dvd_left ..
  refine ⟨t, ts, _, _, h1, h3, Int.ediv_pos_of_pos_of_dvd hd g0.le gd, Int.ediv_dvd_of_dvd gd, ?_⟩
  constructor
  · rintro ⟨h4, -⟩ c hc
    exact (whole_iff g0).1 (h4 _ (List.mem_map_of_mem (h2.symm.subset hc)))
  · intro h4
    refine ⟨?_, ?_⟩
    · intro u hu
      obtain ⟨c, hc, rfl⟩ := List.mem_map.1 hu
      exact (whole_iff g0).2 (h4 c (h2.subset hc))
    · intro k k1 kb hk
      have h5 : k ∣ t.coe.coe.num / (Int.gcd t.coe.coe.num d : Int) := by
        have := hk _ (List.mem_map_of_mem (f := Term.over (Int.gcd t.coe.coe.num d : Int)) (List.mem_cons_self (a := t) (l := ts)))
        rwa [← whole_num g0 gt]
      have h6 : (k.natAbs : Int) ∣ 1 := by
        have := Int.dvd_coe_gcd h5 kb
        rw [Int.gcd_div_gcd_div_gcd (by exact_mod_cast g0)] at this
        rwa [Int.natAbs_dvd]
      have := Int.le_of_dvd one_pos h6
      omega

/-- Two quotients of polynomials by numbers that are equal as functions of the symbols are built as the same fraction: the order of the terms
and common factors make no difference. -/
theorem C106_same (hg : env.toEnv.Good B) (hB : 1 ≤ B) (hs : SortContract env) (hr : SortReturns env) {D d d' : Int} (hD0 : 0 ≤ D)
    (hD : D ≤ env.M) {p p' : Poly} (hp : p.IntLe D) (hred : p.Reduced) (hd : 0 < d) (hm : p.l1 * d ≤ env.M)
    (hp' : p'.IntLe D) (hred' : p'.Reduced) (hd' : 0 < d') (hm' : p'.l1 * d' ≤ env.M)
    (hv : ∀ ρ : List Char → ℝ, (∀ x, 0 < ρ x) → Poly.value ρ p / d = Poly.value ρ p' / d') :
    ∃ f, Frac.mk2 env p [Term.con d] = .ok f ∧ Frac.mk2 env p' [Term.con d'] = .ok f := by
  obtain ⟨_, _, _, _, _, _, _, h, -⟩ := C107_first hg hB hs hr hD0 hD hp hred hd hm
  exact ⟨_, h, by rw [← Frac.mk2_same hg hB hs hr hD0 hD hp hred hd hm hp' hred' hd' hm' hv]; exact h⟩

/-- and only they. -/
theorem C106_only (hg : env.toEnv.Good B) (hB : 1 ≤ B) (hs : SortContract env) (hr : SortReturns env) {D d d' : Int} (hD0 : 0 ≤ D)
    (hD : D ≤ env.M) {p p' : Poly} (hp : p.IntLe D) (hred : p.Reduced) (hd : 0 < d) (hm : p.l1 * d ≤ env.M)
    (hp' : p'.IntLe D) (hred' : p'.Reduced) (hd' : 0 < d') (hm' : p'.l1 * d' ≤ env.M)
    (he : Frac.mk2 env p [Term.con d] = Frac.mk2 env p' [Term.con d']) (ρ : List Char → ℝ) :
    Poly.value ρ p / d = Poly.value ρ p' / d' := by
  obtain ⟨r, h1, h2⟩ := Frac.mk2_value hg hB hs hr hD0 hD hp hred hd hm
  obtain ⟨r', h1', h2'⟩ := Frac.mk2_value hg hB hs hr hD0 hD hp' hred' hd' hm'
  rw [← h2, ← h2']
  rw [h1, h1'] at he
  injection he with he
  rw [he]

/-! ### instances -/

/-- `2x + 1`. -/
def overEx : Poly := [⟨Real.int 2, [(['x'], ⟨1, 1⟩)]⟩, Term.con 1]

theorem overEx_int : overEx.IntLe 1 ∧ overEx.Reduced ∧ overEx.l1 * 4 ≤ fenv64.M := by
  refine ⟨?_, ⟨by simp [overEx], ?_, ?_, ?_⟩, by decide⟩
  · intro t ht
    simp only [overEx, List.mem_cons, List.not_mem_nil, or_false] at ht
    rcases ht with rfl | rfl
    · exact ⟨rfl, by intro p hp; simp at hp; subst hp; simp, by simp [Syms.WF]⟩
    · exact ⟨rfl, by intro p hp; simp [Term.con, Term.ofReal] at hp, by simp [Syms.WF, Term.con, Term.ofReal]⟩
  · intro t ht
    simp only [overEx, List.mem_cons, List.not_mem_nil, or_false] at ht
    rcases ht with rfl | rfl <;> simp [Real.int, Term.con, Term.ofReal]
  · intro t ht
    simp only [overEx, List.mem_cons, List.not_mem_nil, or_false] at ht
    rcases ht with rfl | rfl <;> intro p hp <;> simp [Term.con, Term.ofReal] at hp
    subst hp; simp
  · simp [overEx, Term.con, Term.ofReal]

example := C107_first (env := fenv64) fenv64_good (by norm_num) fenv64_contract fenv64_returns (d := 4) zero_le_one (by decide) overEx_int.1
  overEx_int.2.1 (by norm_num) overEx_int.2.2
example := C107_lowest_partial (env := fenv64) fenv64_good (by norm_num) fenv64_contract fenv64_returns (d := 4) zero_le_one (by decide)
  overEx_int.1 overEx_int.2.1 (by norm_num) overEx_int.2.2

/-- `2 + 4x`. -/
def overEx2 : Poly := [Term.con 2, ⟨Real.int 4, [(['x'], ⟨1, 1⟩)]⟩]

theorem overEx2_int : overEx2.IntLe 1 ∧ overEx2.Reduced ∧ overEx2.l1 * 8 ≤ fenv64.M := by
  refine ⟨?_, ⟨by simp [overEx2], ?_, ?_, ?_⟩, by decide⟩
  · intro t ht
    simp only [overEx2, List.mem_cons, List.not_mem_nil, or_false] at ht
    rcases ht with rfl | rfl
    · exact ⟨rfl, by intro p hp; simp [Term.con, Term.ofReal] at hp, by simp [Syms.WF, Term.con, Term.ofReal]⟩
    · exact ⟨rfl, by intro p hp; simp at hp; subst hp; simp, by simp [Syms.WF]⟩
  · intro t ht
    simp only [overEx2, List.mem_cons, List.not_mem_nil, or_false] at ht
    rcases ht with rfl | rfl <;> simp [Real.int, Term.con, Term.ofReal]
  · intro t ht
    simp only [overEx2, List.mem_cons, List.not_mem_nil, or_false] at ht
    rcases ht with rfl | rfl <;> intro p hp <;> simp [Term.con, Term.ofReal] at hp
    subst hp; simp
  · simp [overEx2, Term.con, Term.ofReal]

/-- `(2x + 1) / 4` and `(2 + 4x) / 8`. -/
example := C106_same (env := fenv64) fenv64_good (by norm_num) fenv64_contract fenv64_returns (d := 4) (d' := 8) zero_le_one (by decide)
  overEx_int.1 overEx_int.2.1 (by norm_num) overEx_int.2.2 overEx2_int.1 overEx2_int.2.1 (by norm_num) overEx2_int.2.2 (by
    intro ρ _
    simp [overEx, overEx2, Poly.value, Term.value, Term.con, Term.ofReal, Real.int, Real.val, Rational.val, Syms.value]
    ring)

example := C106_only (env := fenv64) fenv64_good (by norm_num) fenv64_contract fenv64_returns (d := 4) (d' := 8) zero_le_one (by decide)
  overEx_int.1 overEx_int.2.1 (by norm_num) overEx_int.2.2 overEx2_int.1 overEx2_int.2.1 (by norm_num) overEx2_int.2.2 (by decide +kernel)

/-- equal quotients typed as lines. -/
theorem C106_example : does start "(1+2*x)/4" = does start "(2+4*x)/8" ∧ does start "(x-y)/6" = does start "(2*y-2*x)*(0-1)/12" ∧
    does start "x/3+1/2" = does start "(2*x+3)/6" := by decide +kernel

/-- F66. Terms that cancel stay in the polynomial with the coefficient 0 and can be seen later: lines with the same value show different texts, a
number in the denominator keeps its parentheses, and the number behind ` = ` is missing. -/
theorem C106_cancelled : does start "(z-z+y+1)/2" = (.ok false, "1/2y+1/2\n".toList) ∧ does start "(y+1)/2" = (.ok false, "(y+1)/2\n".toList) ∧
    does start "4/(x-x+2)" = (.ok false, "2/(1)\n".toList) ∧ does start "4/2" = (.ok false, "2\n".toList) ∧
    does start "(x-x+1)/2" = (.ok false, "1/2\n".toList) ∧ does start "1/2" = (.ok false, "1/2 = 0.5\n".toList) ∧
    (does start "factor x-x+6").1 = .throw "Invailed string" ∧ does start "factor 6" = (.ok false, "2 3 \n".toList) := by decide +kernel

/-- F65. `(2x + 1) / 4` is turned into `(x + 1/2) / 2`: a value that fits a fraction in lowest terms is not shown as one. -/
theorem C107_fails : ¬ ∀ (p : Poly) (d : Int) (n : Poly) (b : Int), p.IntLe 1 → p.Reduced → 0 < d → p.l1 * d ≤ fenv64.M →
    Frac.mk2 fenv64 p [Term.con d] = .ok ⟨n, [Term.con b]⟩ → LowestTerms n b := by
  intro h
  have e : Frac.mk2 fenv64 overEx [Term.con 4] =
      .ok ⟨[⟨⟨1, ⟨1, 1⟩, ⟨1, 1⟩⟩, [(['x'], ⟨1, 1⟩)]⟩, ⟨⟨1, ⟨1, 1⟩, ⟨1, 2⟩⟩, []⟩], [Term.con 2]⟩ := by decide +kernel
  have := (h overEx 4 _ 2 overEx_int.1 overEx_int.2.1 (by norm_num) overEx_int.2.2 e).1 ⟨⟨1, ⟨1, 1⟩, ⟨1, 2⟩⟩, []⟩ (by simp)
  exact absurd this (by decide)

/-- what the session shows. -/
theorem C107_example : does start "(1+2*x)/4" = (.ok false, "(x+1/2)/2\n".toList) ∧
    does start "x/2+1/3" = (.ok false, "(x+2/3)/2\n".toList) ∧ does start "(2*y+3*x)/2" = (.ok false, "y+3/2x\n".toList) ∧
    does start "(2*x+4)/6" = (.ok false, "(x+2)/3\n".toList) ∧ does start "(3*x+2)/4" = (.ok false, "(3x+2)/4\n".toList) ∧
    exact "1/2+2^(1/2)/3" = "(_/2+3/2)/3".toList ∧ exact "(1+4*5^(1/2))/4" = "_/5+1/4".toList := by decide +kernel

end Symxx.Cli
