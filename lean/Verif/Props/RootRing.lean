import Verif.Props.RootSum
import Verif.Expr.RingEval
/-!
# C105: identities between sums and products of roots in a session

`RootRing M B I ρ e x V` (`Verif/Expr/RingSpec.lean`): `e` is built with `+`, `-`, `*` and powers with exponents `1, 2, …` from integers and
roots of integers and has the value `x`; all indices divide `I`, and with `+` in the place of every `-` (and 1 in the place of 0) the value is at most `V`.
`Tidied`, `sumText`, `shown`, `RT.size`: see `Verif/Props/RootSum.lean`.
-/
namespace Symxx.Sym
open Symxx.Num

theorem RootRing.value {M : Int} {B I : Nat} {ρ : List Char → ℝ} {e : Parser.Expr} {x V : ℝ} (h : RootRing M B I ρ e x V) :
    exprSem ρ e = some x := by
  induction h with
  | int h => exact h.value
  | root h => exact h.value
  | add _ _ i j => simp only [exprSem, i, j, Option.bind_some]; simp [opSem]
  | sub _ _ i j => simp only [exprSem, i, j, Option.bind_some]; simp [opSem]
  | mul _ _ i j => simp only [exprSem, i, j, Option.bind_some]; simp [opSem]
  | @pow a x V n _ _ _ i =>
    have e : exprSem ρ (.leaf (.num ⟨n, 1⟩)) = some (n : ℝ) := by simp [exprSem, Rational.val]
    simp only [exprSem, i, Option.bind_some] at e ⊢
    rw [e]
    exact opSem_nat x n

end Symxx.Sym

namespace Symxx.Cli
open Symxx.Num Symxx.Sym Cmd

variable {E : CEnv} {B : Nat}

/-- the line is arithmetic with `+`, `-`, `*` and powers over integers and roots with the value `x`, within the bounds that comparing and
multiplying its terms needs. -/
structure RootRingLine (E : CEnv) (B : Nat) (s : St E) (line : List Char) (ρ : List Char → ℝ) (e : Parser.Expr) (x : ℝ) : Prop where
  isExpr : IsExpr s line
  parse : Parser.parse E.f.M E.dec line = .ok e
  roots : ∃ I V, RootRing E.f.M B I ρ e x V ∧ 0 < I ∧ I * I ≤ 2 ^ 53 ∧ V ^ (I * I) ≤ 2 ^ 53 ∧ V ^ I ≤ B

section
variable (hg : E.f.toEnv.Good B) (hB : 1 ≤ B) (hs : SortContract E.f) (hr : SortReturns E.f) (ht : Poly.SortTotal E.f) (ho : Frac.SortOne E.f)
include hg hB hs hr ht ho

theorem ring_line {line : List Char} {s : St E} {ρ : List Char → ℝ} {e : Parser.Expr} {x : ℝ} (h : RootRingLine E B s line ρ e x) :
    ∃ (m : List RT) (w : E.LD), Shows E s line x m w ∧
      ((¬ ∃ z : Int, x = z) → ∀ S : FltSem E.flt, S.Accurate x86 → m ≠ [] → ∃ z, S.ld w = some z ∧ |z - x| ≤ RT.size m / 2 ^ 41) := by
  obtain ⟨I, V, he, h1, h2, h3, h4⟩ := h.roots
  have hv : RT.Room B I V := ⟨h1, h2, h3, h4⟩
  obtain ⟨n, l, n1, -, n3, rg, v, ne, dec⟩ := (Node.ring_eval hg hB hs hr ht ho he).2 hv
  have c := RT.ring_class hg.hM hB hv
  obtain ⟨m, w, h1, h2⟩ := terms_line hg hB h.isExpr h.parse n1 n3 (c.ok rg) le_rfl (le_trans (Nat.le_mul_self I) h2) (c.fits rg) (rg.l1 hv) v ne dec
  refine ⟨m, w, h1, fun hx S hS => h2 S hS ?_⟩
  have hI : 2 ≤ I := by
    by_contra hI
    refine hx ⟨(l.map (·.a)).sum, ?_⟩
    rw [← v]
    exact RT.sum_int fun t ht => (rg.1 t ht).int (by omega)
  exact rg.few hv hI

/-- the line prints its value multiplied out, as a sum of different roots in simplest form. A number follows exactly if it is not an integer;
it is the value up to an error of `2^-41` relative to the sum of the absolute values of the terms. -/
theorem C105_ring {line : List Char} {s : St E} {ρ : List Char → ℝ} {e : Parser.Expr} {x : ℝ} (h : RootRingLine E B s line ρ e x) :
    ∃ m : List RT, Tidied m ∧ x = RT.sum m ∧
      (((∃ z : Int, x = z) ∧ dispatch E line s = (.ok false, s, sumText m ++ ['\n'])) ∨
       ((¬ ∃ z : Int, x = z) ∧ ∃ w : E.LD, dispatch E line s = (.ok false, s, sumText m ++ " = ".toList ++ E.showLD w ++ ['\n']) ∧
        ∀ S : FltSem E.flt, S.Accurate x86 → ∃ z, S.ld w = some z ∧ |z - x| ≤ RT.size m / 2 ^ 41)) := by
  obtain ⟨m, w, h1, acc⟩ := ring_line hg hB hs hr ht ho h
  exact ⟨m, h1.tidied, h1.val, (h1.form fun h0 hx S hS => acc hx S hS h0).imp id fun h => ⟨h.1, w, h.2.1, h.2.2 h.1⟩⟩

/-- if the value is an integer, nothing but this integer is printed. -/
theorem C105_integer {line : List Char} {s : St E} {ρ : List Char → ℝ} {e : Parser.Expr} {z : Int} (h : RootRingLine E B s line ρ e z) :
    dispatch E line s = (.ok false, s, (toString z).toList ++ ['\n']) := by
  obtain ⟨m, w, h1, -⟩ := ring_line hg hB hs hr ht ho h
  have d := h1.prints
  rw [if_pos (h1.tidied.integer.1 ⟨z, h1.val.symm⟩), List.append_nil] at d
  rw [d]
  by_cases hz : z = 0
  · have : m = [] := h1.tidied.unique (m' := []) ⟨by simp, List.Pairwise.nil⟩ (by rw [← h1.val, hz]; simp [RT.sum])
    rw [this, hz]
    rfl
  · have : m = [⟨1, 1, z⟩] := h1.tidied.unique (m' := [⟨1, 1, z⟩]) ⟨fun t ht => by rw [List.mem_singleton.1 ht]; exact ⟨hz, RT.simplest11⟩,
      List.pairwise_singleton _ _⟩ (by rw [← h1.val]; simp [RT.sum, RT.val])
    rw [this]
    simp [sumText, rootText, restText]

/-- what the line prints before ` =` is read as an expression with its value. -/
theorem C105_read {line : List Char} {s : St E} {ρ : List Char → ℝ} {e : Parser.Expr} {x : ℝ} (h : RootRingLine E B s line ρ e x) :
    ∃ text rest e', dispatch E line s = (.ok false, s, text ++ rest) ∧
      (rest = ['\n'] ∨ ∃ num, rest = " = ".toList ++ num ++ ['\n']) ∧ Parser.parse E.f.M E.dec text = .ok e' ∧ exprSem ρ e' = exprSem ρ e := by
  obtain ⟨m, w, h1, -⟩ := ring_line hg hB hs hr ht ho h
  obtain ⟨I, V, he, -⟩ := h.roots
  rw [he.value]
  exact h1.read ρ

/-- two such lines show the same text, in any two states, exactly if they have the same value. -/
theorem C105_same {line line' : List Char} {s s' : St E} {ρ : List Char → ℝ} {e e' : Parser.Expr} {x x' : ℝ}
    (h : RootRingLine E B s line ρ e x) (h' : RootRingLine E B s' line' ρ e' x') :
    shown (dispatch E line s).2.2 = shown (dispatch E line' s').2.2 ↔ x = x' := by
  obtain ⟨m, w, h1, -⟩ := ring_line hg hB hs hr ht ho h
  obtain ⟨m', w', h1', -⟩ := ring_line hg hB hs hr ht ho h'
  exact h1.same h1'

end

/-! ### a session -/

section
variable {ρ : List Char → ℝ}

theorem sqrt_ring {n : Nat} {V : ℝ} (h0 : 0 < n) (hn : n ≤ 2 ^ 53) (hV : √(n : ℝ) ≤ V) :
    RootRing fenv64.M (2 ^ 53) 2 ρ (sqrtTree n) (√(n : ℝ)) V := by
  have e : ((n : ℝ) / (1 : ℕ)) ^ (((1 : ℕ) : ℝ) / (2 : ℕ)) = √(n : ℝ) := by rw [Real.sqrt_eq_rpow]; simp
  have h := sqrt_part (ρ := ρ) h0 hn
  rw [e] at h
  exact .root h (by norm_num) (dvd_refl 2) hV

theorem int_ring {n : Nat} (h0 : 0 < n) (hn : n ≤ 2 ^ 53) : RootRing fenv64.M (2 ^ 53) 2 ρ (.leaf (.num ⟨n, 1⟩)) n n := by
  have m : fenv64.M = 2 ^ 63 - 1 := by decide +kernel
  have h : RatPart fenv64.M ρ (.leaf (.num ⟨n, 1⟩)) ((n : ℝ) / (1 : ℕ)) n (1 : ℕ) :=
    .number one_pos (by simp) (by rw [m]; have : (n : Int) ≤ 2 ^ 53 := by exact_mod_cast hn
                                  omega) (by rw [m]; norm_num)
  rw [Nat.cast_one, div_one] at h
  exact .int h (by norm_num) (by simp) (by exact_mod_cast h0)

theorem sqrt_le_nat (n k : Nat) (h : n ≤ k * k) : √(n : ℝ) ≤ k := by
  rw [Real.sqrt_le_left (by positivity)]
  have : (n : ℝ) ≤ k * k := by exact_mod_cast h
  rw [sq]; exact this

/-- `(3^(1/2)+2^(1/2))*(3^(1/2)-2^(1/2))` is 1. -/
theorem ringEx_line (ρ : List Char → ℝ) : RootRingLine cenv64 (2 ^ 53) start "(3^(1/2)+2^(1/2))*(3^(1/2)-2^(1/2))".toList ρ
    (.node '*' (.node '+' (sqrtTree 3) (sqrtTree 2)) (.node '-' (sqrtTree 3) (sqrtTree 2))) ((1 : Int) : ℝ) := by
  refine ⟨start_expr _ (by decide), by decide +kernel, 2, (2 + 2) * (2 + 2), ?_, by norm_num, by norm_num, by norm_num, by norm_num⟩
  have e : ((1 : Int) : ℝ) = (√((3 : ℕ) : ℝ) + √((2 : ℕ) : ℝ)) * (√((3 : ℕ) : ℝ) - √((2 : ℕ) : ℝ)) := by
    have h3 := Real.mul_self_sqrt (show (0 : ℝ) ≤ (3 : ℕ) by norm_num)
    have h2 := Real.mul_self_sqrt (show (0 : ℝ) ≤ (2 : ℕ) by norm_num)
    push_cast at *
    linarith
  rw [e]
  have s3 : √((3 : ℕ) : ℝ) ≤ 2 := sqrt_le_nat 3 2 (by norm_num)
  have s2 : √((2 : ℕ) : ℝ) ≤ 2 := sqrt_le_nat 2 2 (by norm_num)
  exact .mul (.add (sqrt_ring (by norm_num) (by norm_num) s3) (sqrt_ring (by norm_num) (by norm_num) s2))
    (.sub (sqrt_ring (by norm_num) (by norm_num) s3) (sqrt_ring (by norm_num) (by norm_num) s2))

example : does start "(3^(1/2)+2^(1/2))*(3^(1/2)-2^(1/2))" = (.ok false, "1\n".toList) := by
  have := C105_integer (E := cenv64) fenv64_good (by norm_num) fenv64_contract fenv64_returns fenv64_total fenv64_one (ringEx_line fun _ => 0)
  unfold does
  rw [this]
  rfl

/-- `(1+2^(1/2))*(1+2^(1/2))`. -/
theorem ringEx2_line (ρ : List Char → ℝ) : RootRingLine cenv64 (2 ^ 53) start "(1+2^(1/2))*(1+2^(1/2))".toList ρ
    (.node '*' (.node '+' (.leaf (.num ⟨(1 : ℕ), 1⟩)) (sqrtTree 2)) (.node '+' (.leaf (.num ⟨(1 : ℕ), 1⟩)) (sqrtTree 2)))
    ((((1 : ℕ) : ℝ) + √((2 : ℕ) : ℝ)) * (((1 : ℕ) : ℝ) + √((2 : ℕ) : ℝ))) := by
  have s2 : √((2 : ℕ) : ℝ) ≤ 2 := sqrt_le_nat 2 2 (by norm_num)
  refine ⟨start_expr _ (by decide), by decide +kernel, 2, (((1 : ℕ) : ℝ) + 2) * (((1 : ℕ) : ℝ) + 2),
    .mul (.add (int_ring (by norm_num) (by norm_num)) (sqrt_ring (by norm_num) (by norm_num) s2))
      (.add (int_ring (by norm_num) (by norm_num)) (sqrt_ring (by norm_num) (by norm_num) s2)), by norm_num, by norm_num, by norm_num, by norm_num⟩

/-- `3+2*2^(1/2)`. -/
theorem ringEx3_line (ρ : List Char → ℝ) : RootRingLine cenv64 (2 ^ 53) start "3+2*2^(1/2)".toList ρ
    (.node '+' (.leaf (.num ⟨(3 : ℕ), 1⟩)) (.node '*' (.leaf (.num ⟨(2 : ℕ), 1⟩)) (sqrtTree 2)))
    (((3 : ℕ) : ℝ) + ((2 : ℕ) : ℝ) * √((2 : ℕ) : ℝ)) := by
  have s2 : √((2 : ℕ) : ℝ) ≤ 2 := sqrt_le_nat 2 2 (by norm_num)
  refine ⟨start_expr _ (by decide), by decide +kernel, 2, ((3 : ℕ) : ℝ) + ((2 : ℕ) : ℝ) * 2,
    .add (int_ring (by norm_num) (by norm_num)) (.mul (int_ring (by norm_num) (by norm_num)) (sqrt_ring (by norm_num) (by norm_num) s2)),
    by norm_num, by norm_num, by norm_num, by norm_num⟩

example (ρ : List Char → ℝ) :
    shown (dispatch cenv64 "(1+2^(1/2))*(1+2^(1/2))".toList start).2.2 = shown (dispatch cenv64 "3+2*2^(1/2)".toList start).2.2 :=
  (C105_same (E := cenv64) fenv64_good (by norm_num) fenv64_contract fenv64_returns fenv64_total fenv64_one (ringEx2_line ρ)
    (ringEx3_line ρ)).2 (by
      have h2 := Real.mul_self_sqrt (show (0 : ℝ) ≤ (2 : ℕ) by norm_num)
      push_cast at *
      linarith)
example (ρ : List Char → ℝ) :=
  C105_read (E := cenv64) fenv64_good (by norm_num) fenv64_contract fenv64_returns fenv64_total fenv64_one (ringEx2_line ρ)
example (ρ : List Char → ℝ) :=
  C105_ring (E := cenv64) fenv64_good (by norm_num) fenv64_contract fenv64_returns fenv64_total fenv64_one (ringEx3_line ρ)

/-- `(1+2^(1/2))^4*(1-2^(1/2))^4` is 1. -/
theorem ringEx4_line (ρ : List Char → ℝ) : RootRingLine cenv64 (2 ^ 53) start "(1+2^(1/2))^4*(1-2^(1/2))^4".toList ρ
    (.node '*' (.node '^' (.node '+' (.leaf (.num ⟨(1 : ℕ), 1⟩)) (sqrtTree 2)) (.leaf (.num ⟨(4 : ℕ), 1⟩)))
      (.node '^' (.node '-' (.leaf (.num ⟨(1 : ℕ), 1⟩)) (sqrtTree 2)) (.leaf (.num ⟨(4 : ℕ), 1⟩)))) ((1 : Int) : ℝ) := by
  refine ⟨start_expr _ (by decide), by decide +kernel, 2, (((1 : ℕ) : ℝ) + 2) ^ 4 * (((1 : ℕ) : ℝ) + 2) ^ 4, ?_, by norm_num, by norm_num,
    by norm_num, by norm_num⟩
  have e : ((1 : Int) : ℝ) = (((1 : ℕ) : ℝ) + √((2 : ℕ) : ℝ)) ^ 4 * (((1 : ℕ) : ℝ) - √((2 : ℕ) : ℝ)) ^ 4 := by
    have h2 := Real.mul_self_sqrt (show (0 : ℝ) ≤ (2 : ℕ) by norm_num)
    have h : (((1 : ℕ) : ℝ) + √((2 : ℕ) : ℝ)) * (((1 : ℕ) : ℝ) - √((2 : ℕ) : ℝ)) = -1 := by
      push_cast at *
      linarith
    rw [← mul_pow, h]
    norm_num
  rw [e]
  have s2 : √((2 : ℕ) : ℝ) ≤ 2 := sqrt_le_nat 2 2 (by norm_num)
  exact .mul (.pow (.add (int_ring (by norm_num) (by norm_num)) (sqrt_ring (by norm_num) (by norm_num) s2)) (by norm_num) (by decide))
    (.pow (.sub (int_ring (by norm_num) (by norm_num)) (sqrt_ring (by norm_num) (by norm_num) s2)) (by norm_num) (by decide))

example : does start "(1+2^(1/2))^4*(1-2^(1/2))^4" = (.ok false, "1\n".toList) := by
  have := C105_integer (E := cenv64) fenv64_good (by norm_num) fenv64_contract fenv64_returns fenv64_total fenv64_one (ringEx4_line fun _ => 0)
  unfold does
  rw [this]
  rfl

end

/-- arithmetic with roots as it is shown. (The floating-point type of `cenv64` has no roots, so that the number behind ` = ` is left out.) -/
theorem C105_example : does start "(3^(1/2)+2^(1/2))*(3^(1/2)-2^(1/2))" = (.ok false, "1\n".toList) ∧
    exact "(1+2^(1/2))*(1+2^(1/2))" = "2_/2+3".toList ∧ exact "3+2*2^(1/2)" = "2_/2+3".toList ∧
    exact "2^(1/2)*(3^(1/2)-5^(1/2))" = "-_/10+_/6".toList ∧
    exact "(1+2^(1/2))^3" = "5_/2+7".toList ∧ exact "(1+2^(1/2)+3^(1/2))^3" = "6_/6+12_/3+14_/2+16".toList ∧
    does start "(2^(1/3)-1)*(2^(1/3)*2^(1/3)+2^(1/3)+1)" = (.ok false, "1\n".toList) := by decide +kernel

/-- with division two lines with the same value can show different texts: denominators are not made rational. -/
theorem C105_fails : (∀ ρ, ∃ e e', Parser.parse fenv64.M cenv64.dec "1/2^(1/2)".toList = .ok e ∧
      Parser.parse fenv64.M cenv64.dec "2^(1/2)/2".toList = .ok e' ∧ exprSem ρ e = exprSem ρ e' ∧ (exprSem ρ e).isSome) ∧
    exact "1/2^(1/2)" = "1/_/2".toList ∧ exact "2^(1/2)/2" = "_/2/2".toList := by
  refine ⟨fun ρ => ⟨.node '/' (.leaf (.num ⟨(1 : ℕ), 1⟩)) (sqrtTree 2), .node '/' (sqrtTree 2) (.leaf (.num ⟨(2 : ℕ), 1⟩)),
    by decide +kernel, by decide +kernel, ?_⟩, by decide +kernel, by decide +kernel⟩
  have v : exprSem ρ (sqrtTree 2) = some (√((2 : ℕ) : ℝ)) := by
    rw [(sqrt_ring (V := √((2 : ℕ) : ℝ)) (by norm_num) (by norm_num) le_rfl).value]
  have s0 : √((2 : ℕ) : ℝ) ≠ 0 := by positivity
  have e1 : exprSem ρ (.node '/' (.leaf (.num ⟨(1 : ℕ), 1⟩)) (sqrtTree 2)) = some (1 / √((2 : ℕ) : ℝ)) := by
    simp only [exprSem, v, Option.bind_some]
    simp [opSem, Rational.val]
  have e2 : exprSem ρ (.node '/' (sqrtTree 2) (.leaf (.num ⟨(2 : ℕ), 1⟩))) = some (√((2 : ℕ) : ℝ) / 2) := by
    simp only [exprSem, v, Option.bind_some]
    simp [opSem, Rational.val]
  rw [e1, e2]
  refine ⟨?_, rfl⟩
  congr 1
  rw [div_eq_div_iff s0 (by norm_num)]
  have h2 := Real.mul_self_sqrt (show (0 : ℝ) ≤ (2 : ℕ) by norm_num)
  push_cast at *
  linarith

end Symxx.Cli
