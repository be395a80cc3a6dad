import Verif.Cli.SurdPaste
import Verif.Props.Surd
/-!
# C103: products and quotients of roots in a session

`RootExpr M B ρ e x A I R D` (`Verif/Expr/RootSpec.lean`): `e` is built from positive fractions and positive powers of them with `*` and
with `/` by a fraction, has the value `x`, and everything met on the way fits the integer type. `Simplest N i`: `N` is divisible by no
`i`-th power, and is no `d`-th power for a divisor `d` of `i` (`Verif/Num/RealSpec.lean`). `surdText a i N b`
(`Verif/Cli/Surd.lean`): `a_i/N/b` for `a N^(1/i) / b`.
-/
namespace Symxx.Cli
open Symxx.Num Symxx.Sym Cmd

variable {E : CEnv} {B : Nat}

/-- the line is a product, a quotient or a power built from roots of fractions, with the value `x`. -/
structure ProductLine (E : CEnv) (B : Nat) (s : St E) (line : List Char) (ρ : List Char → ℝ) (e : Parser.Expr) (x : ℝ) : Prop where
  isExpr : IsExpr s line
  parse : Parser.parse E.f.M E.dec line = .ok e
  roots : ∃ A I R D, RootExpr E.f.M B ρ e x A I R D
  top : ∃ c a b, e = .node c a b ∧ (c = '*' ∨ c = '/' ∨ c = '^')

theorem ProductLine.value {s : St E} {line : List Char} {ρ : List Char → ℝ} {e : Parser.Expr} {x : ℝ}
    (h : ProductLine E B s line ρ e x) : exprSem ρ e = some x := by
  obtain ⟨A, I, R, D, h⟩ := h.roots
  exact h.value

section
variable (hg : E.f.toEnv.Good B) (hB : 1 ≤ B) (hs : SortOk E.f.sort) (ht : Poly.SortTotal E.f) (ho : Frac.SortOne E.f)
include hg hB hs ht ho

theorem product_line {line : List Char} {s : St E} {ρ : List Char → ℝ} {e : Parser.Expr} {x : ℝ} (h : ProductLine E B s line ρ e x) :
    ∃ (a b : Int) (i N : Nat), 0 < a ∧ 0 < b ∧ Int.gcd a b = 1 ∧ Simplest N i ∧ a ≤ E.f.M ∧ b ≤ E.f.M ∧ N ≤ B ∧ i ≤ 2 ^ 53 ∧
      x = (a : ℝ) / b * (N : ℝ) ^ ((1 : ℝ) / i) ∧ dispatch E line s = (.ok false, s, surdLine E a i N b) := by
  obtain ⟨A, I, R, D, hr⟩ := h.roots
  obtain ⟨c, a', b', et, hc⟩ := h.top
  obtain ⟨n, a, b, i, N, n1, -, n3, a0, b0, sm, v, aA, bD, AM, DM, I0, I53, iI, NR, RB, gg⟩ := Node.root_eval hs ht ho hg hB hr
  have hI := (hg.powOk hB).toIntOk
  have q0 : I / i ≠ 0 := (Nat.div_pos (Nat.le_of_dvd I0 iI) sm.2.1).ne'
  have NB : N ≤ B := le_trans (le_trans (Nat.le_self_pow q0 N) NR) RB
  have NM : (N : Int) ≤ E.f.M := hg.leM NB
  have o1 : Node.ofText E.f E.dec line = .ok n := by
    unfold Node.ofText
    rw [h.parse, Res.bind_ok, n1]
  refine ⟨a, b, i, N, a0, b0, gg _ _ _ et hc, sm, le_trans aA AM, le_trans bD DM, NB, le_trans (Nat.le_of_dvd I0 iI) I53, v, ?_⟩
  rw [line_shown h.isExpr o1 n3]
  exact then_ok (printResult_surd (E := E) hI (le_trans aA AM) a0 NM sm (le_trans bD DM) b0 s)

theorem surd_line {a b : Int} {i N : Nat} (a0 : 0 < a) (b0 : 0 < b) (g : Int.gcd a b = 1) (sm : Simplest N i) (aM : a ≤ E.f.M)
    (bM : b ≤ E.f.M) (NB : N ≤ B) (i53 : i ≤ 2 ^ 53) (s : St E) :
    dispatch E (surdText a i N b) s = (.ok false, s, surdLine E a i N b) := by
  have hI := (hg.powOk hB).toIntOk
  obtain ⟨n, n1, n2⟩ := surd_again hg hB hs ht ho E.dec a0 aM b0 bM g sm i53 NB
  rw [line_shown (surd_isExpr s a i N b) n1 n2]
  exact then_ok (printResult_surd (E := E) hI aM a0 (hg.leM NB) sm bM b0 s)

/-- the line prints its value as one root in its simplest form. Unless it is an integer a number follows; where the integers in the
root are at most `2^53` it is the value up to a relative error of `2^-41`. -/
theorem C103_product {line : List Char} {s : St E} {ρ : List Char → ℝ} {e : Parser.Expr} {x : ℝ} (h : ProductLine E B s line ρ e x) :
    ∃ (a b : Int) (i N : Nat) (w : E.LD), 0 < a ∧ 0 < b ∧ Int.gcd a b = 1 ∧ Simplest N i ∧
      x = (a : ℝ) / b * (N : ℝ) ^ ((1 : ℝ) / i) ∧
      (((∃ z : Int, x = z) ∧ dispatch E line s = (.ok false, s, surdText a i N b ++ ['\n'])) ∨
       ((¬ ∃ z : Int, x = z) ∧ dispatch E line s = (.ok false, s, surdText a i N b ++ " = ".toList ++ E.showLD w ++ ['\n']))) ∧
      (∀ S : FltSem E.flt, S.Accurate x86 → a ≤ 2 ^ 53 → b ≤ 2 ^ 53 → ∃ z, S.ld w = some z ∧ |z - x| ≤ x / 2 ^ 41) := by
  obtain ⟨a, b, i, N, a0, b0, gab, sm, aM, bM, NB, i53, vv, dl⟩ := product_line hg hB hs ht ho h
  have N53 : N ≤ 2 ^ 53 := by exact_mod_cast hg.le53 NB
  refine ⟨a, b, i, N, surdLD E.flt a i N b, a0, b0, gab, sm, vv, ?_, ?_⟩
  · have key : (∃ z : Int, x = z) ↔ N = 1 ∧ b ∣ a := by
      rw [vv, surd_integer a0 b0 gab sm]
      refine and_congr_right fun _ => ⟨fun h => by rw [h]; exact one_dvd _, fun h => ?_⟩
      have : ((Int.gcd a b : Nat) : Int) = b := by
        obtain ⟨c, rfl⟩ := h
        rw [show Int.gcd (b * c) b = b.natAbs by simp]
        exact Int.natAbs_of_nonneg b0.le
      rw [← this, gab]; rfl
    by_cases hw : ∃ z : Int, x = z
    · left
      refine ⟨hw, ?_⟩
      rw [dl, surdLine, if_pos (key.1 hw), List.append_nil]
    · right
      refine ⟨hw, ?_⟩
      rw [dl, surdLine, if_neg (fun h => hw (key.2 h))]
      simp
  · intro S hS a53 b53
    rw [vv]
    exact surd_accurate hS a0 b0 a53 b53 sm.1 N53 sm.2.1 i53

/-- what the line prints before ` =` is read as an expression with its value; given as a line, in any state, it prints the same. -/
theorem C103_again {line : List Char} {s : St E} {ρ : List Char → ℝ} {e : Parser.Expr} {x : ℝ} (h : ProductLine E B s line ρ e x) :
    ∃ text rest e', dispatch E line s = (.ok false, s, text ++ rest) ∧
      (rest = ['\n'] ∨ ∃ num, rest = " = ".toList ++ num ++ ['\n']) ∧ Parser.parse E.f.M E.dec text = .ok e' ∧
      exprSem ρ e' = exprSem ρ e ∧ ∀ s', dispatch E text s' = (.ok false, s', text ++ rest) := by
  obtain ⟨a, b, i, N, a0, b0, gab, sm, aM, bM, NB, i53, vv, dl⟩ := product_line hg hB hs ht ho h
  obtain ⟨e', p, sem⟩ := surd_read (E := E) hg hB a0 b0 sm aM bM NB i53
  have again := surd_line hg hB hs ht ho a0 b0 gab sm aM bM NB i53
  rw [surdLine, List.append_assoc] at dl again
  refine ⟨_, _, e', dl, ?_, p, by rw [sem, h.value, vv], again⟩
  split
  · exact Or.inl rfl
  · exact Or.inr ⟨_, rfl⟩

/-- two such lines print the same, in any two states, exactly if they have the same value. -/
theorem C103_same {line line' : List Char} {s s' : St E} {ρ : List Char → ℝ} {e e' : Parser.Expr} {x x' : ℝ}
    (h : ProductLine E B s line ρ e x) (h' : ProductLine E B s' line' ρ e' x') :
    (dispatch E line s).2.2 = (dispatch E line' s').2.2 ↔ x = x' := by
  obtain ⟨a, b, i, N, a0, b0, gab, sm, aM, bM, NB, i53, vv, dl⟩ := product_line hg hB hs ht ho h
  obtain ⟨a', b', i', N', a0', b0', gab', sm', aM', bM', NB', i53', vv', dl'⟩ := product_line hg hB hs ht ho h'
  rw [dl, dl']
  constructor
  · intro hd
    obtain ⟨y, p, sem⟩ := surd_read (E := E) hg hB a0 b0 sm aM bM NB i53
    obtain ⟨y', p', sem'⟩ := surd_read (E := E) hg hB a0' b0' sm' aM' bM' NB' i53'
    have hd : surdLine E a i N b = surdLine E a' i' N' b' := hd
    have ht := congrArg (List.takeWhile fun c => c != ' ' && c != '\n') hd
    rw [surdLine_text, surdLine_text] at ht
    rw [ht, p'] at p
    injection p with p
    have : some x = some x' := by rw [vv, vv', ← sem ρ, ← sem' ρ, p]
    exact Option.some.inj this
  · intro hv
    rw [vv, vv'] at hv
    obtain ⟨rfl, rfl, rfl, rfl⟩ := surd_unique a0 b0 gab sm a0' b0' gab' sm' hv
    rfl

end

/-! ### a session -/

/-- `6^(1/2)*(3/2)^(1/3)/5`. -/
def prodEx : Parser.Expr :=
  .node '/' (.node '*' (.node '^' (.leaf (.num ⟨6, 1⟩)) (.node '/' (.leaf (.num ⟨1, 1⟩)) (.leaf (.num ⟨2, 1⟩))))
    (.node '^' (.node '/' (.leaf (.num ⟨3, 1⟩)) (.leaf (.num ⟨2, 1⟩))) (.node '/' (.leaf (.num ⟨1, 1⟩)) (.leaf (.num ⟨3, 1⟩)))))
    (.leaf (.num ⟨5, 1⟩))

theorem prodEx_roots (ρ : List Char → ℝ) : ∃ A I R D, RootExpr (fenv64.M) (2 ^ 53) ρ prodEx
    ((((6 : ℕ) : ℝ) / (1 : ℕ)) ^ (((1 : ℕ) : ℝ) / (2 : ℕ)) * (((3 : ℕ) : ℝ) / (2 : ℕ)) ^ (((1 : ℕ) : ℝ) / (3 : ℕ)) / ((5 : ℕ) / (1 : ℕ))) A I R D := by
  have m : fenv64.M = 2 ^ 63 - 1 := by decide +kernel
  have i : ∀ n : Nat, 0 < n → (n : Int) ≤ 2 ^ 63 - 1 → RatPart fenv64.M ρ (.leaf (.num ⟨n, 1⟩)) ((n : ℝ) / (1 : ℕ)) n (1 : ℕ) := fun n _ hn =>
    .number one_pos (by simp) (by rw [m]; exact hn) (by rw [m]; norm_num)
  have q : ∀ n d : Nat, 0 < n → 0 < d → PowSmall fenv64.M (.node '/' (.leaf (.num ⟨n, 1⟩)) (.leaf (.num ⟨d, 1⟩))) →
      RatPart fenv64.M ρ (.node '/' (.leaf (.num ⟨n, 1⟩)) (.leaf (.num ⟨d, 1⟩))) ((n : ℝ) / d)
        (powSize (.node '/' (.leaf (.num ⟨n, 1⟩)) (.leaf (.num ⟨d, 1⟩)))).1 (powSize (.node '/' (.leaf (.num ⟨n, 1⟩)) (.leaf (.num ⟨d, 1⟩)))).2 :=
    fun n d _ hd hs => .arith (by simp [PowRat]) hs (by
      have : (0 : ℝ) < d := by exact_mod_cast hd
      simp [PosDiv, exprSem, Rational.val, this.le]) (by
      have : (d : ℝ) ≠ 0 := by exact_mod_cast hd.ne'
      simp [exprSem, opSem, Rational.val, this])
  have r1 := RootExpr.root (B := 2 ^ 53) (i 6 (by norm_num) (by norm_num)) (q 1 2 (by norm_num) (by norm_num) (by decide +kernel))
    (by norm_num) (by norm_num) (by norm_num) (by norm_num) (by norm_num) (by norm_num) (by norm_num) (by norm_num) (by norm_num) (by norm_num)
  have r2 := RootExpr.root (B := 2 ^ 53) (q 3 2 (by norm_num) (by norm_num) (by decide +kernel)) (q 1 3 (by norm_num) (by norm_num) (by decide +kernel))
    (by norm_num) (by norm_num) (by norm_num) (by norm_num) (by norm_num) (by norm_num) (by norm_num) (by norm_num) (by norm_num) (by norm_num)
  exact ⟨_, _, _, _, .div (.mul r1 r2 (by norm_num) (by norm_num) (by rw [m]; norm_num) (by rw [m]; norm_num)) (i 5 (by norm_num) (by norm_num))
    (by norm_num) (by rw [m]; norm_num) (by rw [m]; norm_num)⟩

theorem prodEx_line (ρ : List Char → ℝ) : ProductLine cenv64 (2 ^ 53) start "6^(1/2)*(3/2)^(1/3)/5".toList ρ prodEx
    ((((6 : ℕ) : ℝ) / (1 : ℕ)) ^ (((1 : ℕ) : ℝ) / (2 : ℕ)) * (((3 : ℕ) : ℝ) / (2 : ℕ)) ^ (((1 : ℕ) : ℝ) / (3 : ℕ)) / ((5 : ℕ) / (1 : ℕ))) :=
  ⟨start_expr _ (by decide), by decide +kernel, prodEx_roots ρ, _, _, _, rfl, Or.inr (Or.inl rfl)⟩
example (ρ : List Char → ℝ) := C103_product (E := cenv64) fenv64_good (by norm_num) fenv64_sort fenv64_total fenv64_one (prodEx_line ρ)
example (ρ : List Char → ℝ) := C103_again (E := cenv64) fenv64_good (by norm_num) fenv64_sort fenv64_total fenv64_one (prodEx_line ρ)

/-- products of roots as they are shown. (The floating-point type of `cenv64` has no roots, so that the number behind ` = ` is left
out.) What is shown can be typed in again. -/
theorem C103_example : exact "6^(1/2)*(3/2)^(1/3)/5" = "_6/486/5".toList ∧ exact "_6/486/5" = "_6/486/5".toList ∧
    exact "2^(1/2)*6^(1/2)" = "2_/3".toList ∧ exact "2_/3" = "2_/3".toList ∧ exact "2^(1/2)*2^(1/3)" = "_6/32".toList ∧
    exact "2^(5/6)" = "_6/32".toList ∧ does start "2^(1/3)*4^(1/3)" = (.ok false, "2\n".toList) ∧
    exact "8^(1/2)*3/4" = "3_/2/2".toList := by decide +kernel

/-- F63 again. A root divided by a root is not brought into one root, so that equal quotients are shown differently. -/
theorem C103_fails : exact "6^(1/2)/2^(1/2)" = "_/6/_/2".toList ∧ exact "3^(1/2)" = "_/3".toList := by decide +kernel

end Symxx.Cli
