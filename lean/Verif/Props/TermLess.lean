import Verif.Frac.TermLess
import Verif.Props.Collect
/-!
# Comparing terms with `<` (C100)

The specification: `Term.degree` (the sum of the exponents, `Verif/Frac/TermLess.lean`) and `StrictWeak`, what C++ asks of
a comparator (`Verif/Frac/OrderSpec.lean`).
-/
namespace Symxx.Sym
open Symxx.Num

variable {env : Env} {B : Nat}

/-- what `a < b` says of terms in normal form, whenever its comparison is exact: the degrees are equal and the coefficient of `a` is
smaller, or `a` has a degree other than 0 and `b` has not. -/
theorem C100_meaning (hg : env.Base B) {a b : Term} {v : Bool} (ha : a.Std) (hb : b.Std)
    (hi : ((b.coe.index * a.coe.index : Nat) : Int) ≤ 2 * env.M + 1) (h : Term.less (env.checked B) a b = .ok v) :
    Term.less env a b = .ok v ∧
      (v = true ↔ (a.degree = b.degree ∧ a.coe.val < b.coe.val) ∨ (a.degree ≠ 0 ∧ b.degree = 0)) :=
  ⟨Term.less_mono (Env.checked_le _ B) _ _ _ h, Term.less_sound hg ha hb hi h⟩

/-- `<` is the strict weak order that `std::sort` and `std::set` require, on terms of which those with a degree other than 0
all have the same degree. Missing: other lists of terms (false, see below). -/
theorem C100_strict_weak_partial (hg : env.Base B) {p : Poly} {d : ℚ} (hp : ∀ t ∈ p, t.Std)
    (hd : ∀ t ∈ p, t.degree = 0 ∨ t.degree = d)
    (hi : ∀ a ∈ p, ∀ b ∈ p, ((b.coe.index * a.coe.index : Nat) : Int) ≤ 2 * env.M + 1)
    (hx : ∀ a ∈ p, ∀ b ∈ p, ∃ v, Term.less (env.checked B) a b = .ok v) : StrictWeak (Term.less env) p := by
  have key : ∀ a ∈ p, ∀ b ∈ p, ∃ v, Term.less env a b = .ok v ∧
      (v = true ↔ (a.degree = b.degree ∧ a.coe.val < b.coe.val) ∨ (a.degree ≠ 0 ∧ b.degree = 0)) := by
    intro a ha b hb
    obtain ⟨v, hv⟩ := hx a ha b hb
    exact ⟨v, C100_meaning hg (hp a ha) (hp b hb) (hi a ha b hb) hv⟩
  have ht : ∀ a ∈ p, ∀ b ∈ p, (Term.less env a b = .ok true ↔
      (a.degree = b.degree ∧ a.coe.val < b.coe.val) ∨ (a.degree ≠ 0 ∧ b.degree = 0)) := by
    intro a ha b hb
    obtain ⟨v, h1, h2⟩ := key a ha b hb
    rw [h1, ← h2]; simp
  have hf : ∀ a ∈ p, ∀ b ∈ p, (Term.less env a b = .ok false ↔
      ¬ ((a.degree = b.degree ∧ a.coe.val < b.coe.val) ∨ (a.degree ≠ 0 ∧ b.degree = 0))) := by
    intro a ha b hb
    obtain ⟨v, h1, h2⟩ := key a ha b hb
    rw [h1, ← h2]; simp
  constructor
  · exact fun a ha b hb => (key a ha b hb).imp fun _ h => h.1
  · intro a ha
    rw [hf a ha a ha]
    rintro (h | h)
    · exact lt_irrefl _ h.2
    · exact h.1 h.2
  · intro a ha b hb c hc h1 h2
    rw [ht a ha b hb] at h1
    rw [ht b hb c hc] at h2
    rw [ht a ha c hc]
    rcases h1 with h1 | h1 <;> rcases h2 with h2 | h2
    · exact Or.inl ⟨h1.1.trans h2.1, h1.2.trans h2.2⟩
    · exact Or.inr ⟨by rw [h1.1]; exact h2.1, h2.2⟩
    · exact Or.inr ⟨h1.1, by rw [← h2.1]; exact h1.2⟩
    · exact absurd h1.2 h2.1
  · intro a ha b hb c hc h1 h2 h3 h4
    rw [hf a ha b hb] at h1
    rw [hf b hb a ha] at h2
    rw [hf b hb c hc] at h3
    rw [hf c hc b hb] at h4
    rw [hf a ha c hc, hf c hc a ha]
    push Not at h1 h2 h3 h4 ⊢
    have hab : a.degree = b.degree := by
      by_cases h0 : a.degree = 0
      · by_contra hn
        exact h2.2 (fun e => hn (h0.trans e.symm)) h0
      · have hb0 := h1.2 h0
        exact ((hd a ha).resolve_left h0).trans ((hd b hb).resolve_left hb0).symm
    have hbc : b.degree = c.degree := by
      by_cases h0 : b.degree = 0
      · by_contra hn
        exact h4.2 (fun e => hn (h0.trans e.symm)) h0
      · have hc0 := h3.2 h0
        exact ((hd b hb).resolve_left h0).trans ((hd c hc).resolve_left hc0).symm
    have e1 : a.coe.val = b.coe.val := le_antisymm (h2.1 hab.symm) (h1.1 hab)
    have e2 : b.coe.val = c.coe.val := le_antisymm (h4.1 hbc.symm) (h3.1 hbc)
    have hac := hab.trans hbc
    refine ⟨⟨fun _ => (e1.trans e2).symm.le, fun h => by rw [← hac]; exact h⟩,
      ⟨fun _ => (e1.trans e2).le, fun h => by rw [hac]; exact h⟩⟩

/-- `3xy`, `√2 x^2`, `-5`, `1/2`. -/
def lessTerms : Poly :=
  [⟨re 3 1, [(['x'], ⟨1, 1⟩), (['y'], ⟨1, 1⟩)]⟩, ⟨root2, [(['x'], ⟨2, 1⟩)]⟩, ⟨re (-5) 1, []⟩, ⟨re 1 2, []⟩]

theorem lessTerms_std : ∀ t ∈ lessTerms, t.Std := by
  intro t ht
  simp only [lessTerms, List.mem_cons, List.not_mem_nil, or_false] at ht
  rcases ht with rfl | rfl | rfl | rfl
  · exact ⟨re_std one_pos, by norm_num [re], by simp [Syms.Std]; decide⟩
  · exact ⟨root2_canon, by norm_num [root2], by simp [Syms.Std]⟩
  · exact ⟨re_std one_pos, by norm_num [re], by simp [Syms.Std]⟩
  · exact ⟨re_std two_pos, by norm_num [re], by simp [Syms.Std]⟩

theorem lessTerms_exact : ∀ a ∈ lessTerms, ∀ b ∈ lessTerms,
    ((b.coe.index * a.coe.index : Nat) : Int) ≤ 2 * fenv64.M + 1 ∧
    (Term.less (fenv64.toEnv.checked (2 ^ 53)) a b).isOk = true := by decide +kernel

example : StrictWeak (Term.less fenv64.toEnv) lessTerms :=
  C100_strict_weak_partial (d := 2) fenv64_good.toBase lessTerms_std
    (by
      intro t ht
      simp only [lessTerms, List.mem_cons, List.not_mem_nil, or_false] at ht
      rcases ht with rfl | rfl | rfl | rfl <;> norm_num [Term.degree, Rational.val])
    (fun a ha b hb => (lessTerms_exact a ha b hb).1) fun a ha b hb => ok_of_dec (lessTerms_exact a ha b hb).2

/-- `√2 x^2 < 3xy`, `3xy < -5`, not `-5 < 3xy`. -/
example : Term.less fenv64.toEnv ⟨root2, [(['x'], ⟨2, 1⟩)]⟩ ⟨re 3 1, [(['x'], ⟨1, 1⟩), (['y'], ⟨1, 1⟩)]⟩ = .ok true ∧
    Term.less fenv64.toEnv (mono 3 1 ['x'] 1) (cst (-5)) = .ok true ∧
    Term.less fenv64.toEnv (cst (-5)) (mono 3 1 ['x'] 1) = .ok false := by decide +kernel

/-- F62. Two degrees other than 0 and it is no strict weak order: `2x` and `x^2` are incomparable, so are `x^2` and `3x`, but
`2x < 3x`. A `std::set` of these terms, or `std::sort` on them, has undefined behaviour. -/
theorem C100_fails : Term.less fenv64.toEnv (mono 2 1 ['x'] 1) (mono 1 1 ['x'] 2) = .ok false ∧
    Term.less fenv64.toEnv (mono 1 1 ['x'] 2) (mono 2 1 ['x'] 1) = .ok false ∧
    Term.less fenv64.toEnv (mono 1 1 ['x'] 2) (mono 3 1 ['x'] 1) = .ok false ∧
    Term.less fenv64.toEnv (mono 3 1 ['x'] 1) (mono 1 1 ['x'] 2) = .ok false ∧
    Term.less fenv64.toEnv (mono 2 1 ['x'] 1) (mono 3 1 ['x'] 1) = .ok true ∧
    ¬ StrictWeak (Term.less fenv64.toEnv) [mono 2 1 ['x'] 1, mono 1 1 ['x'] 2, mono 3 1 ['x'] 1] := by
  have h1 : Term.less fenv64.toEnv (mono 2 1 ['x'] 1) (mono 1 1 ['x'] 2) = .ok false := by decide +kernel
  have h2 : Term.less fenv64.toEnv (mono 1 1 ['x'] 2) (mono 2 1 ['x'] 1) = .ok false := by decide +kernel
  have h3 : Term.less fenv64.toEnv (mono 1 1 ['x'] 2) (mono 3 1 ['x'] 1) = .ok false := by decide +kernel
  have h4 : Term.less fenv64.toEnv (mono 3 1 ['x'] 1) (mono 1 1 ['x'] 2) = .ok false := by decide +kernel
  have h5 : Term.less fenv64.toEnv (mono 2 1 ['x'] 1) (mono 3 1 ['x'] 1) = .ok true := by decide +kernel
  refine ⟨h1, h2, h3, h4, h5, fun h => ?_⟩
  have := (h.incomparable _ (by simp) _ (by simp) _ (by simp) h1 h2 h3 h4).1
  rw [h5] at this
  cases this

end Symxx.Sym
