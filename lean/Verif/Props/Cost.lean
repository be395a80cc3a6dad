import Verif.Expr.Cost
import Verif.Props.RootSum
import Mathlib.Analysis.SpecificLimits.Normed
/-!
# C108: the work of `normalize`; C109: the work of the numeric evaluation

The work is the number of times a leaf of the tree is evaluated; `Node.leaves` and `Node.depth` are the size of the tree. The counting
functions are those of the model with a counter (`Verif/Expr/Cost.lean`; `Node.normalize_res`, `Node.tryEval_res`, `Node.tryEvalLD_res`).
-/
namespace Symxx.Cli
open Symxx.Num Symxx.Sym

/-- `try_eval()` looks at every leaf at most once, `normalize()` at every leaf at most once for every level of the tree. -/
theorem C108_work (env : FEnv) (n : Node) : (Node.tryEvalCost env n).res = Node.tryEval env n ∧ (Node.tryEvalCost env n).n ≤ n.leaves ∧
    (Node.normalizeCost env n).res = Node.normalize env n ∧ (Node.normalizeCost env n).n ≤ n.leaves * (n.depth + 1) :=
  ⟨Node.tryEval_res env n, Node.tryEvalCost_le env n, Node.normalize_res env n, Node.normalizeCost_le env n⟩

/-- the numeric evaluation evaluates every leaf exactly once for each of the `2^d` ways to choose one of the two evaluations at each of the
`d` operations above it; this lies between `2^depth` and `leaves * 2^depth`. -/
theorem C109_count (F : Flt) (v : List (List Char × F.LD)) {n : Node} (h : n.KnownOps) :
    (Node.tryEvalLDCost F v n).res = Node.tryEvalLD F v n ∧ (Node.tryEvalLDCost F v n).n = n.doubled ∧
      2 ^ n.depth ≤ (Node.tryEvalLDCost F v n).n ∧ (Node.tryEvalLDCost F v n).n ≤ n.leaves * 2 ^ n.depth := by
  obtain ⟨h1, -⟩ := Node.tryEvalLDCost_eq F v h
  have h2 := Node.le_doubled n
  have h3 := Node.leaves_pos n
  exact ⟨Node.tryEvalLD_res F v n, h1, by omega, by rw [h1]; exact Node.doubled_le n⟩

/-- `x^x^...^x` with `k` powers, from the left. -/
def towerEx : Nat → Parser.Expr
  | 0 => .leaf (.sym ['x'])
  | k + 1 => .node '^' (towerEx k) (.leaf (.sym ['x']))

/-- the fraction `x`. -/
def xFrac : Frac := ⟨[⟨Real.int 1, [(['x'], ⟨1, 1⟩)]⟩], [Term.con 1]⟩

/-- the same as a tree of the library. -/
def tower : Nat → Node
  | 0 => .frac xFrac
  | k + 1 => .op '^' (tower k) (.frac xFrac)

theorem tower_build : ∀ k, Node.ofExpr fenv64 (towerEx k) = .ok (tower k)
  | 0 => by decide +kernel
  | k + 1 => by
    have e : Node.ofExpr fenv64 (.leaf (.sym ['x'])) = .ok (.frac xFrac) := by decide +kernel
    show (Node.ofExpr fenv64 (towerEx k) >>= fun l => Node.ofExpr fenv64 (.leaf (.sym ['x'])) >>= fun r => _) = _
    rw [tower_build k, Res.bind_ok, e, Res.bind_ok]
    rfl

theorem tower_none : ∀ k, Node.tryEval fenv64 (tower (k + 1)) = .ok none
  | 0 => by decide +kernel
  | k + 1 => by
    show (Node.tryEval fenv64 (tower (k + 1)) >>= fun lv => Node.tryEval fenv64 (.frac xFrac) >>= fun rv => _) = _
    rw [tower_none k, Res.bind_ok]
    rfl

theorem tower_normal : ∀ k, Node.normalize fenv64 (tower k) = .ok (tower k)
  | 0 => rfl
  | 1 => by decide +kernel
  | k + 2 => by
    have ih := tower_normal (k + 1)
    have e : Node.tryEval fenv64 (.frac xFrac) = .ok (some xFrac) := rfl
    have e' : Node.normalize fenv64 (.frac xFrac) = .ok (.frac xFrac) := rfl
    show Node.normalize fenv64 (.op '^' (tower (k + 1)) (.frac xFrac)) = _
    unfold Node.normalize
    rw [tower_none k, Res.bind_ok, e, Res.bind_ok]
    simp only
    rw [e', Res.bind_ok, ih, Res.bind_ok]
    rfl

theorem tower_size : ∀ k, (tower k).leaves = k + 1 ∧ (tower k).depth = k ∧ (tower k).KnownOps
  | 0 => ⟨rfl, rfl, trivial⟩
  | k + 1 => by
    obtain ⟨h1, h2, h3⟩ := tower_size k
    refine ⟨?_, ?_, by simp, h3, trivial⟩
    · show (tower k).leaves + 1 = _
      omega
    · show max (tower k).depth 0 + 1 = _
      rw [h2]; simp

/-- the tokens of the line. -/
def towerToks : Nat → List Parser.Tok
  | 0 => [.symbol ['x']]
  | k + 1 => towerToks k ++ [.op '^', .symbol ['x']]

/-- the line `x^x^...^x`. -/
def towerText : Nat → List Char
  | 0 => ['x']
  | k + 1 => towerText k ++ ['^', 'x']

theorem towerText_length : ∀ k, (towerText k).length = 2 * k + 1
  | 0 => rfl
  | k + 1 => by
    unfold towerText
    rw [List.length_append, towerText_length k]
    simp
    omega

theorem tower_parse (dec : List Char → Res Rational) (k : Nat) : Parser.parse fenv64.M dec (towerText k) = .ok (towerEx k) := by
  have d : ∀ k, Parser.Derives 3 (towerToks k) (towerEx k) := by
    intro k
    induction k with
    | zero => exact .up (by norm_num) (.sym _)
    | succ k ih => exact .bin .power ih (.sym _)
  have t : ∀ (k : Nat) (rest : List Char) (ts : List Parser.Tok), Parser.Lex fenv64.M rest ts →
      Parser.Lex fenv64.M (towerText k ++ rest) (towerToks k ++ ts) := by
    intro k
    induction k with
    | zero => exact fun rest ts h => .letter (by decide) h
    | succ k ih =>
      intro rest ts h
      unfold towerToks towerText
      rw [List.append_assoc, List.append_assoc]
      exact ih _ _ (.op (by decide) (fun h => absurd h (by decide)) (.letter (by decide) h))
  have h1 := t k [] [] .nil
  rw [List.append_nil, List.append_nil] at h1
  obtain ⟨last, -, h2⟩ := Parser.expand_derives (d k)
  have h3 := h2 .begin [] (Or.inl rfl)
  rw [List.append_nil] at h3
  rw [Parser.parse_lex _ (by decide) dec h1 (us := towerToks k) (h3.trans (by simp [Parser.expand])),
    Parser.parseToks_derives (.up (by norm_num) (.up (by norm_num) (d k)))]

/-- F49. No polynomial in the length of the line bounds the work: `x^x^...^x`. -/
theorem C109_fails (F : Flt) (v : List (List Char × F.LD)) (dec : List Char → Res Rational) : ¬ ∃ K d : Nat, ∀ (s : List Char) (m n : Node),
    Node.ofText fenv64 dec s = .ok m → Node.normalize fenv64 m = .ok n → (Node.tryEvalLDCost F v n).n ≤ K * s.length ^ d := by
  rintro ⟨K, d, h⟩
  have h2 : ∀ k : Nat, 2 ^ k ≤ K * (2 * (k + 1)) ^ d := fun k => by
    obtain ⟨s1, s2, s3⟩ := tower_size k
    have := h (towerText k) _ _ (by unfold Node.ofText; rw [tower_parse, Res.bind_ok]; exact tower_build k) (tower_normal k)
    have h3 := (C109_count F v s3).2.2.1
    rw [s2] at h3
    rw [towerText_length] at this
    exact le_trans h3 (le_trans this (Nat.mul_le_mul_left _ (Nat.pow_le_pow_left (by omega) _)))
  have lim := tendsto_pow_const_div_const_pow_of_one_lt d (r := (2 : ℝ)) (by norm_num)
  have ev := (lim.const_mul (2 * K * 2 ^ d : ℝ)).eventually (gt_mem_nhds (show (2 * K * 2 ^ d : ℝ) * 0 < 1 by simp))
  obtain ⟨N, hN⟩ := Filter.eventually_atTop.1 ev
  have h3 := hN (N + 1) (by omega)
  have h4 := h2 N
  rw [mul_pow] at h4
  have h5 : (2 : ℝ) ^ N ≤ K * (2 ^ d * ((N + 1 : ℕ) : ℝ) ^ d) := by exact_mod_cast h4
  have p : (0 : ℝ) < 2 ^ (N + 1) := by positivity
  rw [← mul_div_assoc, div_lt_one p, pow_succ] at h3
  linarith

/-! ### instances -/

/-- `x^x^x`: 3 leaves, evaluated 10 times. -/
theorem C109_example (F : Flt) (v : List (List Char × F.LD)) : (tower 2).leaves = 3 ∧ (Node.tryEvalLDCost F v (tower 2)).n = 10 :=
  ⟨rfl, (C109_count F v (tower_size 2).2.2).2.1⟩

example : towerText 3 = "x^x^x^x".toList ∧ Parser.parse fenv64.M cenv64.dec (towerText 3) = .ok (towerEx 3) := by decide +kernel

example := C108_work fenv64 (tower 2)

/-- `x^x^x`: `normalize` looks at 3 + 2 + 2 + ... leaves. -/
theorem C108_example : (Node.normalizeCost fenv64 (tower 2)).n = 8 ∧ (Node.tryEvalCost fenv64 (tower 2)).n = 3 := by decide +kernel

end Symxx.Cli
