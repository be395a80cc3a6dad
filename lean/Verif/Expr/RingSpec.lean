import Verif.Expr.RootSpec
/-!
# Sums, differences, products and powers of roots

`RootRing M B I ρ e x V`: the expression `e` is built with `+`, `-`, `*` and powers with exponents `1, 2, …` (`n!` at most `2^53`) from products of roots of integers
(`RootExpr`, `Verif/Expr/RootSpec.lean`, where the denominator is bounded by 1) and from integer arithmetic, its value is `x`. All indices
divide `I`. With `+` in the place of every `-`, and with 1 in the place of 0, the value is at most `V`.
-/
namespace Symxx.Sym
open Symxx.Num

inductive RootRing (M : Int) (B I : Nat) (ρ : List Char → ℝ) : Parser.Expr → ℝ → ℝ → Prop where
  | int {e x A D V} : RatPart M ρ e x A D → D ≤ 1 → |x| ≤ V → 1 ≤ V → RootRing M B I ρ e x V
  | root {e x A J S D V} : RootExpr M B ρ e x A J S D → D ≤ 1 → J ∣ I → x ≤ V → RootRing M B I ρ e x V
  | add {a b x y V W} : RootRing M B I ρ a x V → RootRing M B I ρ b y W → RootRing M B I ρ (.node '+' a b) (x + y) (V + W)
  | sub {a b x y V W} : RootRing M B I ρ a x V → RootRing M B I ρ b y W → RootRing M B I ρ (.node '-' a b) (x - y) (V + W)
  | mul {a b x y V W} : RootRing M B I ρ a x V → RootRing M B I ρ b y W → RootRing M B I ρ (.node '*' a b) (x * y) (V * W)
  | pow {a x V} {n : Nat} : RootRing M B I ρ a x V → 1 ≤ n → n.factorial ≤ 2 ^ 53 →
      RootRing M B I ρ (.node '^' a (.leaf (.num ⟨n, 1⟩))) (x ^ n) (V ^ n)

end Symxx.Sym
