import Verif.Expr.PolyId
import Verif.Props.Frac
/-!
# C56, C69, C70: evaluation, normalisation and substitution of expressions

`Node.sem ρ n` and `exprSem ρ e` (`Verif/Expr/Spec.lean`) are the value of an expression at `ρ`, where it has one.
"Exact run" is explained in `Verif/Props/Frac.lean`.
-/
namespace Symxx.Sym
open Symxx.Num

variable {env : FEnv} {B : Nat}

/-! ### C56 -/

/-- an exact `try_eval` that yields a fraction: wherever the expression has a value, the fraction has the same value. -/
theorem C56_try_eval_partial (hg : env.toEnv.Base B) (hs : SortOk env.sort) {n : Node} (hn : n.WF) {f : Frac}
    (h : Node.tryEval (env.checked B) n = .ok (some f)) : Node.tryEval env n = .ok (some f) ∧ f.WF ∧
      ∀ ρ, (∀ x, 0 < ρ x) → ∀ v, n.sem ρ = some v → Poly.value ρ f.den ≠ 0 ∧ Frac.value ρ f = v := by
  obtain ⟨w, s⟩ := Node.tryEval_ref hg hs hn h
  exact ⟨Node.tryEval_mono (FEnv.checked_le _ B) n _ h, w, fun ρ hρ v hv => Node.sem_frac.1 (s ρ hρ v hv)⟩

/-- an exact `normalize` keeps the value. -/
theorem C56_normalize_partial (hg : env.toEnv.Base B) (hs : SortOk env.sort) {n m : Node} (hn : n.WF)
    (h : Node.normalize (env.checked B) n = .ok m) : Node.normalize env n = .ok m ∧ m.WF ∧
      ∀ ρ, (∀ x, 0 < ρ x) → ∀ v, n.sem ρ = some v → m.sem ρ = some v := by
  obtain ⟨w, s⟩ := Node.normalize_ref hg hs hn h
  exact ⟨Node.normalize_mono (FEnv.checked_le _ B) n _ h, w, s⟩

/-- without `^`, `try_eval` never yields the null pointer and `normalize` yields the single fraction `try_eval` yields. -/
theorem C56_single_fraction {n m : Node} (hn : n.NoPow) :
    Node.tryEval env n ≠ .ok none ∧
      (Node.normalize env n = .ok m ↔ ∃ f, m = .frac f ∧ Node.tryEval env n = .ok (some f)) := by
  refine ⟨Node.tryEval_noPow hn, ?_⟩
  rw [Node.normalize_noPow hn]
  cases h : Node.tryEval env n with
  | ok o =>
    cases o with
    | none => exact absurd h (Node.tryEval_noPow hn)
    | some f =>
      simp only [Res.bind, Res.ok.injEq, Option.some.injEq]
      constructor
      · intro h; exact ⟨f, h.symm, rfl⟩
      · rintro ⟨g, rfl, rfl⟩; rfl
  | throw m => simp [Res.bind]
  | exn m => simp [Res.bind]
  | ub w => simp [Res.bind]
  | fuel => simp [Res.bind]

/-- where an operand does not evaluate (null pointer), the operator does not either, and `normalize` keeps the operator over
the normalised operands. -/
theorem C56_unevaluable {c : Char} {l r l' r' : Node} {a b : Option Frac} (hl : Node.tryEval env l = .ok a)
    (hr : Node.tryEval env r = .ok b) (h : a = none ∨ b = none) (nl : Node.normalize env l = .ok l')
    (nr : Node.normalize env r = .ok r') :
    Node.tryEval env (.op c l r) = .ok none ∧ Node.normalize env (.op c l r) = .ok (.op c l' r') := by
  rw [Node.tryEval.eq_2, Node.normalize.eq_2, hl, hr]
  simp only [Res.bind_ok]
  cases a with
  | none => simp only [nl, nr, Res.bind_ok, and_self]
  | some a =>
    cases b with
    | none => simp only [nl, nr, Res.bind_ok, and_self]
    | some b => simp at h

theorem lf_wf (n : Int) : Frac.WF ⟨[cst n], [cst 1]⟩ := frac_wf (Poly.wf_singleton (cst_wf n)) (Poly.wf_singleton (cst_wf 1))

/-- an integer leaf. -/
def lf (n : Int) : Node := .frac ⟨[cst n], [cst 1]⟩
/-- a symbol leaf. -/
def ls (x : List Char) : Node := .frac ⟨[mono 1 1 x 1], [cst 1]⟩
theorem ls_wf (x : List Char) : (ls x).WF :=
  frac_wf (Poly.wf_singleton (mono_wf 1 1 (by norm_num) _ _)) (Poly.wf_singleton (cst_wf 1))

/-- `(x+1)^2/(4y)^(1/2) * 3/x`, and a tree with a power that stays a power: `(x + 1)^y * (2x - x)`. -/
def exprA : Node := .op '*' (.op '/' (.op '^' (.op '+' (ls ['x']) (lf 1)) (lf 2))
  (.op '^' (.op '*' (lf 4) (ls ['y'])) (.op '/' (lf 1) (lf 2)))) (.op '/' (lf 3) (ls ['x']))
def exprB : Node := .op '*' (.op '^' (.op '+' (ls ['x']) (lf 1)) (ls ['y'])) (.op '-' (.op '*' (lf 2) (ls ['x'])) (ls ['x']))

theorem expr_examples :
    Node.tryEval (fenv64.checked (2 ^ 53)) exprA = .ok (some ⟨[mono 3 1 ['x'] 2, mono 6 1 ['x'] 1, cst 3],
      [⟨re 2 1, [(['x'], ⟨1, 1⟩), (['y'], ⟨1, 2⟩)]⟩]⟩) ∧
    Node.normalize (fenv64.checked (2 ^ 53)) exprB =
      .ok (.op '*' (.op '^' (.frac ⟨[X, cst 1], [cst 1]⟩) (ls ['y'])) (ls ['x'])) := by decide +kernel

theorem unevaluable_example : Node.tryEval fenv64 (.op '^' (ls ['x']) (ls ['y'])) = .ok none ∧
    Node.tryEval fenv64 (.op '+' (lf 1) (lf 2)) = .ok (some ⟨[cst 3], [cst 1]⟩) ∧
    Node.normalize fenv64 (.op '^' (ls ['x']) (ls ['y'])) = .ok (.op '^' (ls ['x']) (ls ['y'])) ∧
    Node.normalize fenv64 (.op '+' (lf 1) (lf 2)) = .ok (lf 3) := by decide +kernel
example : Node.normalize fenv64 (.op '*' (.op '^' (ls ['x']) (ls ['y'])) (.op '+' (lf 1) (lf 2))) =
    .ok (.op '*' (.op '^' (ls ['x']) (ls ['y'])) (lf 3)) :=
  (C56_unevaluable unevaluable_example.1 unevaluable_example.2.1 (Or.inl rfl) unevaluable_example.2.2.1
    unevaluable_example.2.2.2).2

theorem exprA_wf : exprA.WF :=
  ⟨⟨⟨⟨ls_wf _, lf_wf _⟩, lf_wf _⟩, ⟨lf_wf _, ls_wf _⟩, lf_wf _, lf_wf _⟩, lf_wf _, ls_wf _⟩
theorem exprB_wf : exprB.WF := ⟨⟨⟨ls_wf _, lf_wf _⟩, ls_wf _⟩, ⟨lf_wf _, ls_wf _⟩, ls_wf _⟩

example := C56_try_eval_partial fenv64_good.toBase fenv64_sort exprA_wf expr_examples.1
example := C56_normalize_partial fenv64_good.toBase fenv64_sort exprB_wf expr_examples.2
example : (Node.op '/' (.op '+' (ls ['x']) (lf 1)) (ls ['y'])).NoPow := by simp [Node.NoPow, ls, lf]

/-- the value hypothesis is met: at `x = y = 1`, `exprA` is `4/2 * 3 = 6`. -/
example : exprA.sem (fun _ => 1) = some 6 := by
  have hl : ∀ n : Int, (lf n).sem (fun _ => 1) = some (n : ℝ) := fun n => by
    refine Node.sem_frac.2 ⟨?_, ?_⟩ <;>
      simp [Poly.value, Frac.value, Term.value, Syms.value, cst, re, Num.Real.val, Rational.val]
  have hx : ∀ x, (ls x).sem (fun _ => 1) = some (1 : ℝ) := fun x => by
    refine Node.sem_frac.2 ⟨?_, ?_⟩ <;>
      simp [Poly.value, Frac.value, Term.value, Syms.value, cst, mono, re, Num.Real.val, Rational.val]
  have h4 : ((4 : ℝ) ^ ((1 : ℝ) / 2)) = 2 := by
    rw [show (4 : ℝ) = 2 ^ (2 : ℝ) by norm_num, ← Real.rpow_mul (by norm_num)]; norm_num
  have h2 : ((2 : ℝ) ^ (2 : ℝ)) = 4 := by norm_num
  simp only [exprA, Node.sem]
  simp only [show ∀ n, Node.sem (fun _ => 1) (lf n) = some (n : ℝ) from hl,
    show ∀ x, Node.sem (fun _ => 1) (ls x) = some (1 : ℝ) from hx, Option.bind_some]
  rw [opSem_add, Option.bind_some, opSem_pow (by norm_num), Option.bind_some, opSem_mul, Option.bind_some,
    opSem_div (by norm_num), Option.bind_some, opSem_pow (by norm_num), Option.bind_some]
  norm_num [h4, h2]
  rw [opSem_div (by norm_num), Option.bind_some, opSem_div (by norm_num), Option.bind_some, opSem_mul]
  norm_num

/-- the full claim is false: `8^(1/(0-3))` has the value `1/2`; `try_eval` returns a fraction whose value is larger than 1
(the `(2^64-3)`-rd root of 8: the negative denominator of the exponent becomes an unsigned index). -/
theorem C56_fails : ∃ n f, n.WF ∧ Node.tryEval fenv64 n = .ok (some f) ∧
    ∀ ρ, n.sem ρ = some (1 / 2) ∧ 1 ≤ Frac.value ρ f := by
  refine ⟨.op '^' (lf 8) (.op '/' (lf 1) (.op '-' (lf 0) (lf 3))),
    ⟨[⟨⟨18446744073709551613, ⟨8, 1⟩, ⟨1, 1⟩⟩, []⟩], [cst 1]⟩, ⟨lf_wf _, lf_wf _, lf_wf _, lf_wf _⟩, by decide +kernel,
    fun ρ => ⟨?_, ?_⟩⟩
  · have hl : ∀ n : Int, (lf n).sem ρ = some (n : ℝ) := fun n => by
      refine Node.sem_frac.2 ⟨?_, ?_⟩ <;>
        simp [Poly.value, Frac.value, Term.value, Syms.value, cst, re, Num.Real.val, Rational.val]
    have h8 : ((8 : ℝ) ^ (-(1 : ℝ) / 3)) = 1 / 2 := by
      rw [show (8 : ℝ) = 2 ^ (3 : ℝ) by norm_num, ← Real.rpow_mul (by norm_num)]
      norm_num
    simp only [Node.sem]
    simp only [show ∀ n, Node.sem ρ (lf n) = some (n : ℝ) from hl, Option.bind_some]
    rw [opSem_sub, Option.bind_some, opSem_div (by norm_num), Option.bind_some, opSem_pow (by norm_num), ← h8]
    norm_num
  · have : Frac.value ρ ⟨[⟨⟨18446744073709551613, ⟨8, 1⟩, ⟨1, 1⟩⟩, []⟩], [cst 1]⟩ =
        (8 : ℝ) ^ ((1 : ℝ) / (18446744073709551613 : Nat)) := by
      simp [Poly.value, Frac.value, Term.value, Syms.value, cst, re, Num.Real.val, Rational.val]
    rw [this]
    exact Real.one_le_rpow (by norm_num) (by positivity)

/-! ### C69: from the text to the value -/

/-- whatever tree the parser returns: in exact runs the tree of fractions has the value of the expression read, and
normalisation keeps it. -/
theorem C69_pipeline_partial (hg : env.toEnv.Base B) (hs : SortOk env.sort) {e : Parser.Expr} {n m : Node}
    (he : e.DenOk) (h1 : Node.ofExpr (env.checked B) e = .ok n) (h2 : Node.normalize (env.checked B) n = .ok m) :
    Node.ofExpr env e = .ok n ∧ Node.normalize env n = .ok m ∧ ∀ ρ, (∀ x, 0 < ρ x) →
      n.sem ρ = exprSem ρ e ∧ ∀ v, exprSem ρ e = some v → m.sem ρ = some v := by
  obtain ⟨w, s⟩ := Node.ofExpr_sem hg hs he h1
  obtain ⟨c1, -, c3⟩ := C56_normalize_partial hg hs w h2
  exact ⟨Node.ofExpr_mono (FEnv.checked_le _ B) e _ h1, c1, fun ρ hρ => ⟨s ρ hρ, fun v hv =>
    c3 ρ hρ v (by rw [s ρ hρ, hv])⟩⟩

theorem Node.ring_sem {P : List Char × Rational → Prop} [ClosedNat env.M P] (hg : env.toEnv.Good B) (hB : 1 ≤ B)
    (hs : SortOk env.sort) (ht : Poly.SortTotal env) {e : Parser.Expr} (he : IntRing e) (hpf : PowFits e)
    (hsz : ringSize e ≤ env.M) (hdeg : ringDeg e ≤ env.M) (hP : ∀ x, .sym x ∈ e.leaves → P (x, ⟨1, 1⟩)) :
    ∃ n f, Node.ofExpr env e = .ok n ∧ Node.tryEval env n = .ok (some f) ∧ Node.normalize env n = .ok (.frac f) ∧
      f.IntPoly (ringDeg e) ∧ f.num.l1 ≤ ringSize e ∧ f.In P ∧
      ∀ ρ, (∀ x, 0 < ρ x) → exprSem ρ e = some (Frac.value ρ f) := by
  have : ClosedNat (env.checked B).M P := ‹ClosedNat env.M P›
  obtain ⟨n, f, n1, n2, n3, n4, n5, n6, -⟩ :=
    Node.ring_int (env := env.checked B) (hg.powOk_checked hB) hs ht he hsz hdeg hpf hP
  have hd : e.DenOk := by
    clear * - he
    induction e with
    | leaf l =>
      cases l with
      | num q => show q.den ≠ 0; rw [show q.den = 1 from he]; norm_num
      | sym x => trivial
    | node c a b ia ib =>
      rcases he with ⟨-, ha, hb⟩ | ⟨-, ha, k, rfl⟩
      · exact ⟨ia ha, ib hb⟩
      · exact ⟨ia ha, ib rfl⟩
  obtain ⟨w, s⟩ := Node.ofExpr_sem hg.toBase hs hd n1
  obtain ⟨c1, -, c3⟩ := C56_try_eval_partial hg.toBase hs w n3
  refine ⟨n, f, Node.ofExpr_mono (FEnv.checked_le _ B) e _ n1, c1,
    Node.normalize_mono (FEnv.checked_le _ B) n _ n2, n4, n5, n6, fun ρ hρ => ?_⟩
  have hv : ∃ v, exprSem ρ e = some v := by
    clear * - he
    induction e with
    | leaf l =>
      cases l with
      | num q =>
        have hq : q.den = 1 := he
        exact ⟨_, if_neg (by rw [hq]; norm_num)⟩
      | sym x => exact ⟨_, rfl⟩
    | node c a b ia ib =>
      rcases he with ⟨hc, ha, hb⟩ | ⟨rfl, ha, k, rfl⟩
      · obtain ⟨x, hx⟩ := ia ha
        obtain ⟨y, hy⟩ := ib hb
        unfold exprSem
        rw [hx, hy]
        rcases hc with rfl | rfl | rfl <;> exact ⟨_, rfl⟩
      · obtain ⟨x, hx⟩ := ia ha
        have hy : exprSem ρ (.leaf (.num ⟨(k : Int), 1⟩)) = some (k : ℝ) := by
          simp [exprSem, Rational.val]
        unfold exprSem
        rw [hx, hy]
        refine ⟨x ^ (k : ℝ), ?_⟩
        simp only [Option.bind_some, opSem]
        rw [if_neg (by decide), if_neg (by decide), if_neg (by decide), if_neg (by decide), if_pos trivial, if_pos]
        rcases lt_trichotomy x 0 with h | h | h
        · exact Or.inr (Or.inr ⟨h, k, by push_cast; rfl⟩)
        · exact Or.inr (Or.inl ⟨h, by positivity⟩)
        · exact Or.inl h
  obtain ⟨v, hv⟩ := hv
  rw [hv, (c3 ρ hρ v (by rw [s ρ hρ, hv])).2]

/-- expressions over integers, symbols, `+`, `-`, `*` and powers with natural exponents always evaluate, to a polynomial
with integer coefficients over the denominator 1, if the bound on the coefficients and the degree fit `T` and the powers
fit a `double`; the result is the value of the expression at every assignment, positive or not. -/
theorem C69_ring (hg : env.toEnv.Good B) (hB : 1 ≤ B) (hs : SortOk env.sort) (ht : Poly.SortTotal env) {e : Parser.Expr}
    (he : IntRing e) (hpf : PowFits e) (hsz : ringSize e ≤ env.M) (hdeg : ringDeg e ≤ env.M) :
    ∃ n f, Node.ofExpr env e = .ok n ∧ Node.tryEval env n = .ok (some f) ∧ Node.normalize env n = .ok (.frac f) ∧
      f.IntPoly (ringDeg e) ∧ f.num.l1 ≤ ringSize e ∧ ∀ ρ, exprSem ρ e = some (Frac.value ρ f) := by
  obtain ⟨n, f, n1, n2, n3, n4, n5, hin, n6⟩ := Node.ring_sem (P := NatExp) hg hB hs ht he hpf hsz hdeg
    fun _ _ => ⟨by norm_num, rfl⟩
  exact ⟨n, f, n1, n2, n3, n4, n5, exprSem_everywhere he hin n4.den n6⟩

/-- `(x + 2) * (x - 3)` from its text. -/
theorem text_example : Parser.parse fenv64.M (fun _ => .throw "") "(x+2)*(x-3)".toList =
    .ok (.node '*' (.node '+' (.leaf (.sym ['x'])) (.leaf (.num ⟨2, 1⟩)))
      (.node '-' (.leaf (.sym ['x'])) (.leaf (.num ⟨3, 1⟩)))) := by decide +kernel

example := C69_ring fenv64_good (by norm_num) fenv64_sort fenv64_total
  (e := .node '*' (.node '+' (.leaf (.sym ['x'])) (.leaf (.num ⟨2, 1⟩)))
      (.node '-' (.leaf (.sym ['x'])) (.leaf (.num ⟨3, 1⟩)))) (by simp [IntRing]) (by simp [PowFits]) (by decide) (by decide)

/-- `(2x - y)^5 + x^100` with the terms the program computes for it (`5! * 3^5 ≤ 2^53`). -/
example := C69_ring fenv64_good (by norm_num) fenv64_sort fenv64_total
  (e := .node '+' (.node '^' (.node '-' (.node '*' (.leaf (.num ⟨2, 1⟩)) (.leaf (.sym ['x']))) (.leaf (.sym ['y'])))
      (.leaf (.num ⟨5, 1⟩))) (.node '^' (.leaf (.sym ['x'])) (.leaf (.num ⟨100, 1⟩))))
  (Or.inl ⟨Or.inl rfl, Or.inr ⟨rfl, Or.inl ⟨by simp, Or.inl ⟨by simp, rfl, trivial⟩, trivial⟩, 5, rfl⟩,
    Or.inr ⟨rfl, trivial, 100, rfl⟩⟩)
  (by simp [PowFits, ringSize, expo, oneTerm, Nat.factorial]) (by decide +kernel) (by decide +kernel)

theorem pipeline_example :
    Node.ofExpr (fenv64.checked (2 ^ 53)) (.node '/' (.leaf (.num ⟨3, 2⟩)) (.leaf (.sym ['x']))) =
      .ok (.op '/' (.frac ⟨[cst 3], [cst 2]⟩) (ls ['x'])) ∧
    Node.normalize (fenv64.checked (2 ^ 53)) (.op '/' (.frac ⟨[cst 3], [cst 2]⟩) (ls ['x'])) =
      .ok (.frac ⟨[cst 3], [mono 2 1 ['x'] 1]⟩) := by decide +kernel

example := C69_pipeline_partial fenv64_good.toBase fenv64_sort
  (e := .node '/' (.leaf (.num ⟨3, 2⟩)) (.leaf (.sym ['x']))) ⟨by norm_num [Parser.Expr.DenOk], trivial⟩
  pipeline_example.1 pipeline_example.2

/-! ### C70: substitution -/

/-- an exact `substitute`: the result has at `ρ` the value that the expression has when the bound symbols take their
values. -/
theorem C70_substitute_partial (hg : env.toEnv.Base B) (hs : SortOk env.sort) {e : List (List Char × Num.Real)} {n m : Node}
    (hn : n.WF) (he : n.SubstOk e) (h : Node.substitute (env.checked B) e n = .ok m) :
    Node.substitute env e n = .ok m ∧ m.WF ∧
      ∀ ρ, (∀ x, 0 < ρ x) → ∀ v, n.sem (override e ρ) = some v → m.sem ρ = some v :=
  ⟨Node.substitute_mono (FEnv.checked_le _ B) e n _ h, Node.substitute_ref hg hs hn he h⟩

/-- `x := √2` in `x*x + y`. -/
theorem substitute_example : Node.substitute (fenv64.checked (2 ^ 53)) [(['x'], root2)]
    (.op '+' (.op '*' (ls ['x']) (ls ['x'])) (ls ['y'])) = .ok (.frac ⟨[Y, cst 2], [cst 1]⟩) := by decide +kernel

theorem ls_substOk (x : List Char) : (ls x).SubstOk [(['x'], root2)] :=
  ⟨fun t ht => by rw [List.mem_singleton] at ht; subst ht; exact substOk_root _,
    fun t ht => by rw [List.mem_singleton] at ht; subst ht; exact substOk_root _⟩

example := C70_substitute_partial fenv64_good.toBase fenv64_sort (n := .op '+' (.op '*' (ls ['x']) (ls ['x'])) (ls ['y']))
  ⟨⟨ls_wf _, ls_wf _⟩, ls_wf _⟩ ⟨⟨ls_substOk _, ls_substOk _⟩, ls_substOk _⟩ substitute_example

end Symxx.Sym
