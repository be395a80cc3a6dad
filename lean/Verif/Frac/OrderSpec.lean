import Verif.Frac.Spec
/-!
# The order of the terms: what C++ asks of a comparator, what `std::sort` promises, what a collected polynomial is

This file is the specification of C90-C92. It mentions the comparator of the code only as the argument `lt`.
-/
namespace Symxx.Sym
open Symxx.Num

/-- the C++ requirements on a comparator (`Compare`, [alg.sorting]) on the elements of `p`: it returns, it is a strict
weak order. Without them `std::sort` is undefined. -/
structure StrictWeak (lt : Term → Term → Res Bool) (p : Poly) : Prop where
  defined : ∀ a ∈ p, ∀ b ∈ p, ∃ v, lt a b = .ok v
  irrefl : ∀ a ∈ p, lt a a = .ok false
  trans : ∀ a ∈ p, ∀ b ∈ p, ∀ c ∈ p, lt a b = .ok true → lt b c = .ok true → lt a c = .ok true
  incomparable : ∀ a ∈ p, ∀ b ∈ p, ∀ c ∈ p, lt a b = .ok false → lt b a = .ok false → lt b c = .ok false →
    lt c b = .ok false → lt a c = .ok false ∧ lt c a = .ok false

/-- what `std::sort` promises: a permutation; if the comparator meets its requirements, no term stands behind a term it
comes before. -/
def SortContract (env : FEnv) : Prop :=
  ∀ p q, env.sort p = .ok q → q.Perm p ∧
    (StrictWeak (Term.before env.toEnv) p → q.Pairwise fun a b => Term.before env.toEnv b a = .ok false)

/-- an exponent as it should be: not zero, over a positive denominator. -/
def Syms.Std (s : Syms) : Prop := s.Pairwise (fun p q => p.1 < q.1) ∧ ∀ p ∈ s, 0 < p.2.den ∧ p.2.num ≠ 0

/-- a term as it should be: the coefficient in normal form over a positive denominator, standard exponents. -/
structure Term.Std (t : Term) : Prop where
  canon : t.coe.Canon
  den : 0 < t.coe.coe.den
  syms : t.syms.Std

/-- the terms that are not zero. -/
noncomputable def Poly.nonzero (p : Poly) : Poly := open Classical in p.filter fun t => t.coe.val ≠ 0

/-- like terms: one is a rational multiple of the other, as functions of the symbols. -/
def Term.Like (a b : Term) : Prop := ∃ q : ℚ, ∀ ρ : List Char → ℝ, (∀ x, 0 < ρ x) → a.value ρ = q * b.value ρ

/-- no two terms other than zero are like terms. -/
def Poly.Collected (p : Poly) : Prop := p.nonzero.Pairwise fun a b => ¬ a.Like b

end Symxx.Sym
