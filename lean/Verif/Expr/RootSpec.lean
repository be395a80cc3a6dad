import Verif.Expr.QuoSpec
/-!
# Products and quotients of roots of fractions

`RootExpr M B ρ e x A I R D`: the expression `e` is built from positive fractions and positive powers of them with `*` and with `/`
by a fraction, its value is `x`. The other four arguments bound the sizes: whatever is simplified on the way, the value is
`a/b` times an `i`-th root of `N` with `a ≤ A`, `b ≤ D`, where `i` divides `I` and the `I`-th root has a radicand at most `R`; these bounds
fit the integer type `M`, the radicands the bound `B` of the factorisation.
-/
namespace Symxx.Sym
open Symxx.Num

/-- a part without roots: arithmetic over integers with natural powers and no negative divisor, or a number in lowest terms. -/
inductive RatPart (M : Int) (ρ : List Char → ℝ) : Parser.Expr → ℝ → Int → Int → Prop where
  | arith {e x} : PowRat e → PowSmall M e → PosDiv ρ e → exprSem ρ e = some x → RatPart M ρ e x (powSize e).1 (powSize e).2
  | number {n d : Nat} : 0 < d → Nat.Coprime n d → (n : Int) ≤ M → (d : Int) ≤ M →
      RatPart M ρ (.leaf (.num ⟨n, d⟩)) ((n : ℝ) / d) n d

/-- products and quotients of roots. -/
inductive RootExpr (M : Int) (B : Nat) (ρ : List Char → ℝ) : Parser.Expr → ℝ → Int → Nat → Nat → Int → Prop where
  | rat {e x A D} : RatPart M ρ e x A D → 0 < x → RootExpr M B ρ e x A 1 1 D
  | root {a b A C D F} {n d m q : Nat} : RatPart M ρ a ((n : ℝ) / d) A D → RatPart M ρ b ((m : ℝ) / q) C F →
      0 < n → 0 < d → 0 < m → 0 < q → Nat.Coprime n d → Nat.Coprime m q → m ≤ 2 ^ 53 → q ≤ 2 ^ 53 →
      n ^ m * (d ^ m) ^ (q - 1) ≤ B → (d ^ m) ^ q ≤ B →
      RootExpr M B ρ (.node '^' a b) (((n : ℝ) / d) ^ ((m : ℝ) / q)) (n ^ m * (d ^ m) ^ (q - 1) : Nat) q (n ^ m * (d ^ m) ^ (q - 1)) (d ^ m : Nat)
  | mul {a b x y A C I J R S D F} : RootExpr M B ρ a x A I R D → RootExpr M B ρ b y C J S F → Nat.lcm I J ≤ 2 ^ 53 →
      R ^ (Nat.lcm I J / I) * S ^ (Nat.lcm I J / J) ≤ B →
      A * C * (R ^ (Nat.lcm I J / I) * S ^ (Nat.lcm I J / J) : Nat) ≤ M → D * F ≤ M →
      RootExpr M B ρ (.node '*' a b) (x * y) (A * C * (R ^ (Nat.lcm I J / I) * S ^ (Nat.lcm I J / J) : Nat)) (Nat.lcm I J)
        (R ^ (Nat.lcm I J / I) * S ^ (Nat.lcm I J / J)) (D * F)
  | div {a b x y A C I R D F} : RootExpr M B ρ a x A I R D → RatPart M ρ b y C F → 0 < y → A * F ≤ M → D * C ≤ M →
      RootExpr M B ρ (.node '/' a b) (x / y) (A * F) I R (D * C)

end Symxx.Sym
