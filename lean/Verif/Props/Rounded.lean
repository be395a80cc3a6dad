import Verif.Props.Cli
import Verif.Props.Expr
import Verif.Frac.ConstFrac
import Verif.Num.Double
/-!
# Beyond 2^53: what rounding and overflow do to powers, roots and comparisons

The theorems C34, C36, C39, C41 and C42 are about exact runs. Here: in the environment where every operation on `double` is
correctly rounded (an instance of all assumptions) the unrestricted claims are false.
-/
namespace Symxx.Num.Real

/-- 64-bit integers, correctly rounded doubles, exact factorisation. -/
def envDouble : Env := { envI64 with fl := Fl.double maxI64 }

theorem envDouble_good : envDouble.Good (2 ^ 53) :=
  ⟨⟨by decide, Fl.double_exact (by decide), le_rfl⟩, envI64_good.hfac⟩

/-- `93222358 * sqrt 2`. -/
def pellRoot : Real := ⟨2, ⟨2, 1⟩, ⟨93222358, 1⟩⟩
/-- `131836323`. -/
def pellInt : Real := ⟨1, ⟨1, 1⟩, ⟨131836323, 1⟩⟩

theorem pellRoot_canon : pellRoot.Canon := ⟨2, rfl, simplest_2_2, by decide, by decide⟩

theorem pellRoot_lt : pellRoot.val < pellInt.val := by
  have h : Real.val pellRoot = 93222358 * √2 := by
    simp [pellRoot, Real.val, Rational.val, _root_.Real.sqrt_eq_rpow]
  have h' : Real.val pellInt = 131836323 := by simp [pellInt, Real.val, Rational.val]
  rw [h, h']
  have h2 : (93222358 * √2) ^ 2 < (131836323 : ℝ) ^ 2 := by
    rw [mul_pow, _root_.Real.sq_sqrt (by norm_num)]
    norm_num
  exact lt_of_pow_lt_pow_left₀ 2 (by norm_num) h2

/-- C41 fails beyond `2^53`: each of two different numbers is greater than the other. -/
theorem C41_fails : lt envDouble pellRoot pellInt = .ok false ∧ gt envDouble pellRoot pellInt = .ok true ∧
    gt envDouble pellInt pellRoot = .ok true ∧ pellRoot.val < pellInt.val :=
  ⟨by decide +kernel, by decide +kernel, by decide +kernel, pellRoot_lt⟩

/-- C42 (and C34) fails beyond `2^53`: the 34th power of 3 is an even number. -/
theorem C42_fails : pow envDouble ⟨1, ⟨1, 1⟩, ⟨3, 1⟩⟩ ⟨34, 1⟩ = .ok ⟨1, ⟨1, 1⟩, ⟨16677181699666568, 1⟩⟩ ∧
    Real.val ⟨1, ⟨1, 1⟩, ⟨16677181699666568, 1⟩⟩ ≠ Real.val ⟨1, ⟨1, 1⟩, ⟨3, 1⟩⟩ ^ 34 := by
  refine ⟨by decide +kernel, ?_⟩
  simp [Real.val, Rational.val]
  norm_num

/-- C36 fails when an intermediate number does not fit: the square root of `1/2^32` is `1/2^16`, but its computation is
undefined. -/
theorem C36_overflow : nthRoot envDouble 2 ⟨1, 2 ^ 32⟩ = .ub "signed overflow" ∧
    Real.val ⟨1, ⟨1, 1⟩, ⟨1, 2 ^ 16⟩⟩ ^ 2 = (((⟨1, 2 ^ 32⟩ : Rational).val : ℚ) : ℝ) := by
  refine ⟨by decide +kernel, ?_⟩
  simp [Real.val, Rational.val]
  norm_num

/-- C38 fails beyond `2^53`: `7^20` is rounded to a number that 7 does not divide, so that the normal form of the 20th root of
`1/7` has a radicand that is not an integer; normalising it again is undefined. -/
theorem C38_fails : normalize envDouble ⟨20, ⟨1, 7⟩, ⟨1, 1⟩⟩ = .ok ⟨20, ⟨79792266297612000, 7⟩, ⟨1, 7⟩⟩ ∧
    normalize envDouble ⟨20, ⟨79792266297612000, 7⟩, ⟨1, 7⟩⟩ = .ub "signed overflow" := by
  constructor <;> decide +kernel

/-- C39 fails when an intermediate number does not fit: the square of the square root of `5*10^9` is undefined. -/
theorem C39_overflow : mul envDouble ⟨2, ⟨5000000029, 1⟩, ⟨1, 1⟩⟩ ⟨2, ⟨5000000029, 1⟩, ⟨1, 1⟩⟩ = .ub "signed overflow" := by
  decide +kernel

end Symxx.Num.Real

namespace Symxx.Cli
open Symxx.Sym

/-- the calculator with correctly rounded doubles. -/
def cenvDouble : CEnv := { cenv64 with f := { Num.Real.envDouble with sort := sortM Num.Real.envDouble } }

/-- C42 in a session: `3^33` is right, `3^34` is not. -/
theorem C42_session :
    ((dispatch cenvDouble "3^33".toList ⟨[], []⟩).1, (dispatch cenvDouble "3^33".toList ⟨[], []⟩).2.2) =
      (.ok false, "5559060566555523\n".toList) ∧
    ((dispatch cenvDouble "3^34".toList ⟨[], []⟩).1, (dispatch cenvDouble "3^34".toList ⟨[], []⟩).2.2) =
      (.ok false, "16677181699666568\n".toList) := by decide +kernel

/-- C69 fails beyond `2^53`: the normal form of `3^34`. -/
theorem C69_fails : ∃ n : Node, Node.ofText cenvDouble.f cenvDouble.dec "3^34".toList = .ok n ∧
    Node.normalize cenvDouble.f n = .ok (.frac (Frac.con 16677181699666568)) ∧
    ∀ ρ, n.sem ρ = some (3 ^ (34 : Nat)) ∧ (Node.frac (Frac.con 16677181699666568)).sem ρ = some 16677181699666568 := by
  refine ⟨.op '^' (.frac (Frac.con 3)) (.frac (Frac.con 34)), by decide +kernel, by decide +kernel, fun ρ => ?_⟩
  have e : ∀ k : Int, (Node.frac (Frac.con k)).sem ρ = some (k : ℝ) := by
    intro k
    simp [Node.sem, Frac.con, unitPoly, Frac.value, Poly.value, Term.value, Term.con, Term.ofReal, Syms.value, Num.Real.val,
      Num.Real.int, Num.Rational.val]
  refine ⟨?_, by simpa using e 16677181699666568⟩
  unfold Node.sem
  rw [e 3, e 34]
  simp [opSem]

/-- C70 fails beyond `2^53`: `x^34` at `x = 3`. -/
theorem C70_fails : Node.substitute cenvDouble.f [(['x'], Num.Real.int 3)] (.frac ⟨[⟨Num.Real.int 1, [(['x'], ⟨34, 1⟩)]⟩], unitPoly⟩) =
      .ok (.frac (Frac.con 16677181699666568)) ∧ (16677181699666568 : ℝ) ≠ 3 ^ (34 : Nat) := by
  refine ⟨by decide +kernel, by norm_num⟩

/-- C77 fails beyond `2^53`, in a session. -/
theorem C77_fails : (mainloop cenvDouble 2 ⟨[], []⟩ "func f(x) = x^34\nf(3)\n".toList).2.out =
    "symxx\nsymxx> Function: f(x) = (x**34)\nsymxx> 16677181699666568\n".toList := by decide +kernel

end Symxx.Cli
