import Verif.Expr.RootSpec
/-!
# Sums and differences of roots

`RootSum M B I R ρ e x L`: the expression `e` is built with `+` and `-` from products of roots of integers
(`RootExpr`, `Verif/Expr/RootSpec.lean`, where the denominator is bounded by 1) and from integer arithmetic, its value is `x`. All
indices are at most `I`, all radicands at most `R`, and the integers before the roots sum up to at most `L`.
-/
namespace Symxx.Sym
open Symxx.Num

inductive RootSum (M : Int) (B I R : Nat) (ρ : List Char → ℝ) : Parser.Expr → ℝ → Nat → Prop where
  | int {e x A D} {L : Nat} : RatPart M ρ e x A D → D ≤ 1 → A ≤ L → 1 ≤ I → 1 ≤ R → RootSum M B I R ρ e x L
  | root {e x A J S D} {L : Nat} : RootExpr M B ρ e x A J S D → D ≤ 1 → A ≤ L → J ≤ I → S ≤ R → RootSum M B I R ρ e x L
  | add {a b x y K L} : RootSum M B I R ρ a x K → RootSum M B I R ρ b y L → RootSum M B I R ρ (.node '+' a b) (x + y) (K + L)
  | sub {a b x y K L} : RootSum M B I R ρ a x K → RootSum M B I R ρ b y L → RootSum M B I R ρ (.node '-' a b) (x - y) (K + L)

end Symxx.Sym
