import Verif.Frac.Model
import Verif.Num.RealSound
/-!
# What terms, polynomials and fractions denote

`ρ` assigns a real number to every symbol.
-/
namespace Symxx.Sym
open Symxx.Num

/-- the product of the powers of the symbols. -/
noncomputable def Syms.value (ρ : List Char → ℝ) (s : Syms) : ℝ :=
  (s.map fun p => ρ p.1 ^ ((p.2.val : ℚ) : ℝ)).prod

/-- coefficient times powers. -/
noncomputable def Term.value (ρ : List Char → ℝ) (t : Term) : ℝ := t.coe.val * t.syms.value ρ

/-- the sum of the terms. -/
noncomputable def Poly.value (ρ : List Char → ℝ) (p : Poly) : ℝ := (p.map (Term.value ρ)).sum

/-- numerator over denominator. -/
noncomputable def Frac.value (ρ : List Char → ℝ) (f : Frac) : ℝ := Poly.value ρ f.num / Poly.value ρ f.den

/-- a symbol map: strictly increasing names, exponents with non-zero denominators. -/
def Syms.WF (s : Syms) : Prop := s.Pairwise (fun p q => p.1 < q.1) ∧ ∀ p ∈ s, p.2.den ≠ 0

/-- a term as the library builds it. -/
structure Term.WF (t : Term) : Prop where
  coe : t.coe.Valid
  syms : t.syms.WF

def Poly.WF (p : Poly) : Prop := ∀ t ∈ p, Term.WF t

structure Frac.WF (f : Frac) : Prop where
  num : Poly.WF f.num
  den : Poly.WF f.den

/-- a possible `std::sort`. -/
def SortOk (sort : Poly → Res Poly) : Prop := ∀ p q, sort p = .ok q → q.Perm p

/-- the environment in which inexact steps are refused. -/
def FEnv.checked (env : FEnv) (B : Nat) : FEnv := { env with toEnv := env.toEnv.checked B }

end Symxx.Sym
