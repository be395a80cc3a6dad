import Verif.Expr.PrintLeaf
import Verif.Expr.DecLeaves
import Verif.Props.Decimal
import Verif.Expr.Names
import Verif.Props.Expr
/-!
# C55, C71, C72: printing and reading back; the symbols of results

`Node.sem ρ n` and `exprSem ρ e` (`Verif/Expr/Spec.lean`) are the value of a tree and of a parsed text at `ρ`. `NodeOk`,
`FracOk`, `PolyOk` there say which trees, fractions and polynomials are printed unambiguously.
-/
namespace Symxx.Sym
open Symxx.Num

variable {env : FEnv} {B : Nat}

/-! ### C55 -/

/-- the text of a tree (operators `+ - * / ^`, any nesting) is accepted by the parser and read as an expression with the
same value at every assignment, provided the leaves are written with natural exponents, and a leaf that is printed without
parentheses fits the place where it stands (see `C55_fails` for the ones that do not). -/
theorem C55_tree_partial {env : Env} (hM : 2 ≤ env.M) (hg : env.Good B) {n : Node} (hn : NodeOk env.M B 0 n) (dec) :
    ∃ s e, Node.toStr env n = .ok s ∧ Parser.parse env.M dec s = .ok e ∧ ∀ ρ, exprSem ρ e = n.sem ρ := by
  obtain ⟨s, s1, s2, -, -⟩ := node_reads hg hn
  obtain ⟨e, e1, e2⟩ := s2.parse hM dec
  exact ⟨s, e, s1, e1, e2⟩

/-- every tree with numbers and symbols as leaves: it is printed, and the text is read as an expression with the same value
at every assignment. -/
theorem C55_expression (hM : 2 ≤ env.M) (hg : env.toEnv.Good B) (hB : 1 ≤ B) (hs : SortOk env.sort)
    (h1 : ∀ t, ∃ q, env.sort [t] = .ok q) {e : Parser.Expr} (he : e.Readable env.M) (dec) :
    ∃ n s e', Node.ofExpr env e = .ok n ∧ (∀ ρ, n.sem ρ = exprSem ρ e) ∧ Node.toStr env.toEnv n = .ok s ∧
      Parser.parse env.M dec s = .ok e' ∧ ∀ ρ, exprSem ρ e' = exprSem ρ e := by
  obtain ⟨n, n1, n2, n3⟩ := Node.ofExpr_ok hg hB hs h1 he
  obtain ⟨s, e', s1, s2, s3⟩ := C55_tree_partial hM hg (n2 0) dec
  exact ⟨n, s, e', n1, n3, s1, s2, fun ρ => by rw [s3, n3]⟩

/-- every accepted text: the tree it denotes is printed as a text that is accepted again and has the same value at every
assignment. Excluded: trees with the operator `(` (an unclosed parenthesis, `C53_fails`) and a braced name of one character
that is no letter (`C55_fails`). -/
theorem C55_text_partial (hM : 2 ≤ env.M) (hg : env.toEnv.Good B) (hB : 1 ≤ B) (hs : SortOk env.sort)
    (h1 : ∀ t, ∃ q, env.sort [t] = .ok q) {dec} (hd : DecLowest env.M dec) {s : List Char} {e : Parser.Expr}
    (hp : Parser.parse env.M dec s = .ok e) (hw : e.WF) (hc : ∀ c, .sym [c] ∈ e.leaves → Parser.isAlpha c = true) :
    ∃ n s' e', Node.ofText env dec s = .ok n ∧ Node.toStr env.toEnv n = .ok s' ∧ Parser.parse env.M dec s' = .ok e' ∧
      ∀ ρ, exprSem ρ e' = exprSem ρ e := by
  obtain ⟨n, s', e', n1, -, n3, n4, n5⟩ := C55_expression hM hg hB hs h1 (parse_readable hM hd hp hw hc) dec
  exact ⟨n, s', e', by unfold Node.ofText; rw [hp, Res.bind_ok, n1], n3, n4, n5⟩

/-- sorting one term needs no comparison. -/
theorem fenv64_sort1 (t : Term) : ∃ q, fenv64.sort [t] = .ok q := ⟨[t], rfl⟩

/-- a decimal conversion that rejects decimals. -/
def nodec : List Char → Res Rational := fun _ => .throw ""
theorem nodec_lowest (M : Int) : DecLowest M nodec := fun _ _ _ h => by cases h

/-- the decimal conversion of the x86-64 program. -/
def dec64 : List Char → Res Rational := decFloat x87 fenv64.M 18 noSpecial
theorem dec64_lowest : DecLowest fenv64.M dec64 := decFloat_lowest x87_nearest _ _ _

/-- decimals in a text, as the x86-64 program reads them. -/
theorem decimal_example : Parser.parse fenv64.M dec64 "0.25*x^1.5".toList = .ok (.node '*' (.leaf (.num ⟨1, 4⟩)) (.node '^'
      (.leaf (.sym ['x'])) (.leaf (.num ⟨3, 2⟩)))) := by decide +kernel

example := C55_text_partial (by decide) fenv64_good (by norm_num) fenv64_sort fenv64_sort1 dec64_lowest decimal_example
  (by simp [Parser.Expr.WF]) (by intro c hc; simp [Parser.Expr.leaves] at hc; subst hc; decide)

/-- the term `2√3·x²` is a writable term. -/
def termR : Term := ⟨⟨2, ⟨3, 1⟩, ⟨2, 1⟩⟩, [(['x'], ⟨2, 1⟩)]⟩

theorem print_examples :
    Node.toStr fenv64.toEnv (.op '*' (.op '-' (.frac ⟨[X, cst 1], [cst 1]⟩) (.op '/' (ls ['y']) (.op '*' (lf 2) (ls ['x']))))
      (.op '^' (.frac ⟨[termR], [X, cst (-3)]⟩) (lf 2))) = .ok "(x+1-y/(2*x))*(2_/3(x**2)/(x-3))^2".toList ∧
    Node.ofText fenv64 nodec "a-(b-c)/{xy}^2".toList = .ok (.op '-' (ls ['a']) (.op '/' (.op '-' (ls ['b']) (ls ['c']))
      (.op '^' (ls ['x', 'y']) (lf 2)))) ∧
    Node.toStr fenv64.toEnv (.op '-' (ls ['a']) (.op '/' (.op '-' (ls ['b']) (ls ['c'])) (.op '^' (ls ['x', 'y']) (lf 2)))) =
      .ok "a-(b-c)/{xy}^2".toList ∧
    Parser.parse fenv64.M nodec "a-(b-c)/{xy}^2".toList = .ok (.node '-' (.leaf (.sym ['a'])) (.node '/'
      (.node '-' (.leaf (.sym ['b'])) (.leaf (.sym ['c']))) (.node '^' (.leaf (.sym ['x', 'y'])) (.leaf (.num ⟨2, 1⟩))))) := by
  decide +kernel

example := C55_text_partial (by decide) fenv64_good (by norm_num) fenv64_sort fenv64_sort1 (nodec_lowest _) print_examples.2.2.2
  (by simp [Parser.Expr.WF]) (by intro c hc; simp [Parser.Expr.leaves] at hc; rcases hc with rfl | rfl | rfl <;> decide)

theorem cst_ok (n : Int) (hn : |n| ≤ fenv64.M) : TermOk fenv64.M (2 ^ 53) (cst n) :=
  ⟨Node.coeOk_int (by decide) (by norm_num) hn, by simp [cst]⟩
theorem var_ok (c : Char) (hc : Parser.isAlpha c = true) (k : Int) (h0 : 0 ≤ k) (hk : k ≤ fenv64.M) :
    TermOk fenv64.M (2 ^ 53) (mono 1 1 [c] k) :=
  ⟨Node.coeOk_int (by decide) (by norm_num) (by decide), fun p hp => by
    rw [mono, List.mem_singleton] at hp
    subst hp
    exact ⟨Or.inr ⟨c, rfl, hc⟩, h0, hk, rfl⟩⟩

/-- `(x+1)/2 - y*x` meets the hypotheses. -/
theorem nodeOk_example : NodeOk fenv64.M (2 ^ 53) 0
    (.op '-' (.frac ⟨[X, cst 1], [cst 2]⟩) (.op '*' (ls ['y']) (ls ['x']))) := by
  have h1 : ∀ n : Int, |n| ≤ fenv64.M → PolyOk fenv64.M (2 ^ 53) [cst n] := fun n hn t ht => by
    rw [List.mem_singleton] at ht; subst ht; exact cst_ok n hn
  have h2 : ∀ c, Parser.isAlpha c = true → PolyOk fenv64.M (2 ^ 53) [mono 1 1 [c] 1] := fun c hc t ht => by
    rw [List.mem_singleton] at ht; subst ht; exact var_ok c hc 1 (by norm_num) (by decide)
  have ha : ∀ n : Int, 0 ≤ n → ∀ t, [cst n] = [t] → TermAtom t := fun n hn t ht => by
    injection ht with ht; subst ht; exact ⟨rfl, rfl, Or.inl ⟨hn, rfl⟩⟩
  have hx : ∀ c, Parser.isAlpha c = true → ∀ k, NodeOk fenv64.M (2 ^ 53) k (ls [c]) := fun c hc k =>
    ⟨⟨h2 c hc, h1 1 (by decide), by simp, by simp, ha 1 (by norm_num)⟩,
      fun _ => Node.polyAt_atom ⟨rfl, rfl, Or.inr ⟨rfl, _, rfl⟩⟩ k⟩
  refine ⟨by simp, ⟨⟨?_, h1 2 (by decide), by simp, by simp, ha 2 (by norm_num)⟩, ?_⟩, by simp, hx 'y' rfl _, hx 'x' rfl _⟩
  · intro t ht
    simp only [List.mem_cons, List.not_mem_nil, or_false] at ht
    rcases ht with rfl | rfl
    · exact var_ok 'x' rfl 1 (by norm_num) (by decide)
    · exact cst_ok 1 (by decide)
  · rintro ⟨t, ht, -, h, -⟩
    injection ht with ht
    subst ht
    simp [cst, re] at h

example := C55_tree_partial (by decide) fenv64_good nodeOk_example nodec
example : (Parser.Expr.node '^' (.leaf (.sym ['x', '1'])) (.leaf (.num ⟨1, 2⟩))).Readable fenv64.M :=
  ⟨by simp, Or.inl ⟨by simp, by decide⟩, by norm_num, by decide, by norm_num, by decide, by decide⟩

/-- what the printer makes of a text after normalisation. -/
def reprint (env : FEnv) (s : String) : Res String := do
  let n ← Node.ofText env nodec s.toList
  let m ← Node.normalize env n
  let t ← Node.toStr env.toEnv m
  .ok (String.ofList t)

/-- the full claim is false. After normalisation `(x+1)^y` is printed as `x+1^y`, `a^b*(x+1)` as `a^b*x+1`, `x^(1/2)` as
`(x**1/2)` (which is `x/2`), `1/(2x)` as `1/2x` (which is `x/2`), the symbol `{1}` as the number `1`; a negative exponent
and a negative operand are printed as texts the parser rejects. -/
theorem C55_fails :
    reprint fenv64 "(x+1)^y" = .ok "x+1^y" ∧ reprint fenv64 "a^b*(x+1)" = .ok "a^b*x+1" ∧
    reprint fenv64 "x^(1/2)" = .ok "(x**1/2)" ∧
    Parser.parse fenv64.M nodec "(x**1/2)".toList =
      .ok (.node '/' (.node '^' (.leaf (.sym ['x'])) (.leaf (.num ⟨1, 1⟩))) (.leaf (.num ⟨2, 1⟩))) ∧
    reprint fenv64 "1/(2x)" = .ok "1/2x" ∧
    Parser.parse fenv64.M nodec "1/2x".toList =
      .ok (.node '*' (.node '/' (.leaf (.num ⟨1, 1⟩)) (.leaf (.num ⟨2, 1⟩))) (.leaf (.sym ['x']))) ∧
    reprint fenv64 "{1}" = .ok "1" ∧
    reprint fenv64 "x^(0-1)" = .ok "(x**-1)" ∧ Parser.parse fenv64.M nodec "(x**-1)".toList = .throw "Invaild string." ∧
    reprint fenv64 "a^b-(0-x)" = .ok "a^b--x" ∧ Parser.parse fenv64.M nodec "a^b--x".toList = .throw "Invaild string." := by
  decide +kernel

/-- the first of them as a change of value: `(x+1)^y` is 9 at `x = y = 2`, its text is read as 3. -/
theorem C55_fails_value : ∃ n s e, Node.normalize fenv64 n = .ok n ∧ Node.toStr fenv64.toEnv n = .ok s ∧
    Parser.parse fenv64.M nodec s = .ok e ∧ n.sem (fun _ => 2) = some 9 ∧ exprSem (fun _ => 2) e = some 3 := by
  refine ⟨.op '^' (.frac ⟨[X, cst 1], [cst 1]⟩) (ls ['y']), "x+1^y".toList,
    .node '+' (.leaf (.sym ['x'])) (.node '^' (.leaf (.num ⟨1, 1⟩)) (.leaf (.sym ['y']))), by decide +kernel, by decide +kernel,
    by decide +kernel, ?_, ?_⟩
  · have h1 : (Node.frac ⟨[X, cst 1], [cst 1]⟩).sem (fun _ => 2) = some (3 : ℝ) := by
      refine Node.sem_frac.2 ⟨?_, ?_⟩ <;>
        norm_num [Poly.value, Frac.value, Term.value, Syms.value, X, cst, mono, re, Num.Real.val, Rational.val]
    have h2 : (ls ['y']).sem (fun _ => 2) = some (2 : ℝ) := by
      refine Node.sem_frac.2 ⟨?_, ?_⟩ <;>
        norm_num [Poly.value, Frac.value, Term.value, Syms.value, cst, mono, re, Num.Real.val, Rational.val]
    show ((Node.sem (fun _ => 2) _).bind fun x => (Node.sem (fun _ => 2) (ls ['y'])).bind fun y => opSem '^' x y) = _
    rw [h1, h2, Option.bind_some, Option.bind_some, opSem_pow (by norm_num)]
    norm_num
  · simp only [exprSem, Rational.val]
    norm_num
    rw [opSem_pow (by norm_num), Option.bind_some, opSem_add]
    norm_num

/-! ### C71: polynomials and fractions -/

/-- the text of a fraction of polynomials (real coefficients with roots, natural exponents; a denominator of one term must
be a number or a power of one symbol) is read as an expression with the value of the fraction, wherever that is defined. -/
theorem C71_fraction_partial {env : Env} (hM : 2 ≤ env.M) (hg : env.Good B) {f : Frac} (hf : FracOk env.M B f) (dec) :
    ∃ s e, Frac.toStr env f = .ok s ∧ Parser.parse env.M dec s = .ok e ∧
      ∀ ρ, (Poly.value ρ f.den ≠ 0 → exprSem ρ e = some (Poly.value ρ f.num / Poly.value ρ f.den)) ∧
        (Poly.value ρ f.den = 0 → exprSem ρ e = none) := by
  obtain ⟨s, -, s1, -, s3, -⟩ := frac_reads hg hf
  obtain ⟨e, e1, e2⟩ := s3.parse hM dec
  refine ⟨s, e, s1, e1, fun ρ => ?_⟩
  rw [e2]
  unfold Node.sem Frac.value
  exact ⟨fun h => if_neg h, fun h => if_pos h⟩

/-- the text of a polynomial with natural exponents is read as an expression with its value at every assignment. -/
theorem C71_polynomial_partial {env : Env} (hM : 2 ≤ env.M) (hg : env.Good B) {p : Poly} (hp : PolyOk env.M B p) (dec) :
    ∃ s e, Poly.toStr env p = .ok s ∧ Parser.parse env.M dec s = .ok e ∧ ∀ ρ, exprSem ρ e = some (Poly.value ρ p) := by
  obtain ⟨s, s1, s2, -⟩ := poly_reads hg hp
  obtain ⟨e, e1, e2⟩ := s2.parse hM dec
  exact ⟨s, e, s1, e1, e2⟩

theorem termR_ok : TermOk fenv64.M (2 ^ 53) termR := by
  refine ⟨⟨⟨3, rfl, ⟨by decide, by decide, ?_, ?_⟩, by decide, fun h => absurd h (by decide)⟩, by decide, by decide, by decide, by decide⟩, ?_⟩
  · intro m hm hd
    have : m ^ 2 ∣ 3 := hd
    have h4 : 4 ≤ m ^ 2 := by nlinarith
    exact absurd (Nat.le_of_dvd (by norm_num) this) (by omega)
  · intro m d hd1 hd2
    have hd1 : d ∣ 2 := by assumption
    have : d ≤ 2 := Nat.le_of_dvd (by norm_num) hd1
    interval_cases d
    · omega
    · rfl
    · exfalso
      have h3 : 3 = m ^ 2 := by assumption
      have : m ≤ 1 := by nlinarith
      interval_cases m <;> omega
  · intro p hp
    rw [termR, List.mem_singleton] at hp
    subst hp
    exact ⟨Or.inr ⟨'x', rfl, rfl⟩, by norm_num, by decide, rfl⟩

theorem polyR_ok : PolyOk fenv64.M (2 ^ 53) [termR, cst (-7)] := by
  intro t ht
  simp only [List.mem_cons, List.not_mem_nil, or_false] at ht
  rcases ht with rfl | rfl
  · exact termR_ok
  · exact cst_ok _ (by decide)

example : Poly.toStr fenv64.toEnv [termR, cst (-7)] = .ok "2_/3(x**2)-7".toList := by decide +kernel
example := C71_polynomial_partial (by decide) fenv64_good polyR_ok nodec
example := C71_fraction_partial (by decide) fenv64_good (f := ⟨[termR, cst (-7)], [X, cst 1]⟩)
  ⟨polyR_ok, fun t ht => by
    simp only [List.mem_cons, List.not_mem_nil, or_false] at ht
    rcases ht with rfl | rfl
    · exact var_ok 'x' rfl 1 (by norm_num) (by decide)
    · exact cst_ok 1 (by decide), by simp, by simp, by simp⟩ nodec

/-- exponents of readable symbols stay natural under addition and natural multiples. -/
instance natExp {M : Int} : ClosedNat M (fun p => SymOk p.1 ∧ 0 ≤ p.2.num ∧ p.2.den = 1) where
  add := by
    rintro x u v w ⟨h1, h2, h3⟩ ⟨-, h5, h6⟩ h
    obtain ⟨g1, g2, g3, -⟩ := Rational.add_spec (by rw [h3]; norm_num) (by rw [h6]; norm_num) h
    have e : (w.num : ℚ) = (u.num + v.num) * w.den := by
      unfold Rational.val at g1
      rw [h3, h6] at g1
      have : (w.den : ℚ) ≠ 0 := by exact_mod_cast g3.ne'
      field_simp at g1
      push_cast at g1
      linarith
    have e : w.num = (u.num + v.num) * w.den := by exact_mod_cast e
    have hd : w.den = 1 := by
      have : Int.gcd w.num w.den = 1 := g2
      rw [e, Int.gcd_mul_left_left] at this
      omega
    refine ⟨h1, ?_, hd⟩
    show 0 ≤ w.num
    rw [e, hd]
    show 0 ≤ (u.num + v.num) * 1
    have h2 : 0 ≤ u.num := h2
    have h5 : 0 ≤ v.num := h5
    omega

  nat := by
    rintro x u w a ha ⟨h1, h2, h3⟩ h
    have h3 : u.den = 1 := h3
    obtain ⟨g1, -, -, -, g2, g3⟩ := Rational.mul_spec h
    have g2 := g2 (by unfold Rational.Lowest; rw [h3]; simp) (by unfold Rational.Lowest; simp)
    have g3 := g3 (by rw [h3]; norm_num) (by norm_num)
    have e : (w.num : ℚ) = (u.num * a) * w.den := by
      unfold Rational.val at g1
      rw [h3] at g1
      have : (w.den : ℚ) ≠ 0 := by exact_mod_cast g3.ne'
      field_simp at g1
      push_cast at g1
      linarith
    have e : w.num = (u.num * a) * w.den := by exact_mod_cast e
    have hd : w.den = 1 := by
      have : Int.gcd w.num w.den = 1 := g2
      rw [e, Int.gcd_mul_left_left] at this
      omega
    refine ⟨h1, ?_, hd⟩
    show 0 ≤ w.num
    rw [e, hd, mul_one]
    exact mul_nonneg h2 ha

/-- from text to value and back: an expression over integers, symbols, `+`, `-`, `*` and natural powers within range is
expanded to a polynomial whose text is accepted again and has the value of the expression at every assignment. -/
theorem C71_ring (hM : 2 ≤ env.M) (hg : env.toEnv.Good B) (hB : 1 ≤ B) (hs : SortOk env.sort) (ht : Poly.SortTotal env)
    {e : Parser.Expr} (he : IntRing e) (hpf : PowFits e) (hsy : ∀ x, .sym x ∈ e.leaves → SymOk x) (hsz : ringSize e ≤ env.M)
    (hdeg : ringDeg e ≤ env.M) (dec) :
    ∃ n m s e', Node.ofExpr env e = .ok n ∧ Node.normalize env n = .ok m ∧ Node.toStr env.toEnv m = .ok s ∧
      Parser.parse env.M dec s = .ok e' ∧ ∀ ρ, exprSem ρ e' = exprSem ρ e := by
  obtain ⟨n, f, n1, n2, n3, n4, n5, hin, n6⟩ := Node.ring_sem (P := fun p => SymOk p.1 ∧ 0 ≤ p.2.num ∧ p.2.den = 1)
    hg hB hs ht he hpf hsz hdeg fun x hx => ⟨hsy x hx, by norm_num, rfl⟩
  have hM1 := hg.M1
  have hf : FracOk env.M B f := by
    have hl : ∀ {p : Poly} {t : Term}, t ∈ p → |t.coe.coe.num| ≤ p.l1 := by
      intro p t ht
      unfold Poly.l1
      exact List.single_le_sum (by simp) _ (List.mem_map.2 ⟨t, ht, rfl⟩)
    refine ⟨fun t ht => ⟨?_, fun p hp => ?_⟩, ?_, n4.ne, by rw [n4.den]; simp [unitPoly], ?_⟩
    · rw [(n4.num t ht).1]
      exact Node.coeOk_int hM1 hB (le_trans (hl ht) (le_trans n5 hsz))
    · obtain ⟨a, b, c⟩ := hin.1 t ht p hp
      exact ⟨a, b, le_trans (le_abs_self _) (le_trans ((n4.num t ht).2.1 p hp).2 hdeg), c⟩
    · rw [n4.den]
      intro t ht
      rw [unitPoly, List.mem_singleton] at ht
      subst ht
      exact ⟨Node.coeOk_int hM1 hB (by simpa using hM1), by simp [Term.ofReal]⟩
    · rw [n4.den]
      intro t ht
      injection ht with ht
      subst ht
      exact ⟨rfl, rfl, Or.inl ⟨by norm_num [Num.Real.int, Term.ofReal], rfl⟩⟩
  obtain ⟨s, e', s1, s2, s3⟩ := C71_fraction_partial hM hg hf dec
  refine ⟨n, .frac f, s, e', n1, n3, s1, s2, fun ρ => ?_⟩
  rw [exprSem_everywhere he ⟨fun t ht p hp => (hin.1 t ht p hp).2, fun t ht p hp => (hin.2 t ht p hp).2⟩ n4.den n6 ρ]
  refine (s3 ρ).1 ?_
  rw [n4.den]
  simp [unitPoly, Poly.value, Term.value, Term.ofReal, Syms.value, Num.Real.val, Num.Real.int, Rational.val]

example := C71_ring (by decide) fenv64_good (by norm_num) fenv64_sort fenv64_total
  (e := .node '*' (.node '+' (.leaf (.sym ['x'])) (.leaf (.num ⟨2, 1⟩)))
      (.node '-' (.leaf (.sym ['x'])) (.leaf (.num ⟨3, 1⟩)))) (by simp [IntRing]) (by simp [PowFits])
  (by intro x hx; simp [Parser.Expr.leaves] at hx; subst hx; exact Or.inr ⟨'x', rfl, rfl⟩) (by decide) (by decide) nodec
/-- `(2x + 1)^3`. -/
example := C71_ring (by decide) fenv64_good (by norm_num) fenv64_sort fenv64_total
  (e := .node '^' (.node '+' (.node '*' (.leaf (.num ⟨2, 1⟩)) (.leaf (.sym ['x']))) (.leaf (.num ⟨1, 1⟩))) (.leaf (.num ⟨3, 1⟩)))
  (Or.inr ⟨rfl, Or.inl ⟨by simp, Or.inl ⟨by simp, rfl, trivial⟩, rfl⟩, 3, rfl⟩)
  (by simp [PowFits, ringSize, expo, Nat.factorial])
  (by intro x hx; simp [Parser.Expr.leaves] at hx; subst hx; exact Or.inr ⟨'x', rfl, rfl⟩) (by decide +kernel) (by decide +kernel) nodec
example : reprint fenv64 "(x+2)*(x-3)" = .ok "(x**2)-x-6" := by decide +kernel

/-! ### C72: no symbol is invented, none bound survives substitution -/

/-- arithmetic, powers, evaluation and normalisation of trees: every symbol of the result is a symbol of an operand. -/
theorem C72_no_new_symbols (hs : SortOk env.sort) :
    (∀ a b r, Frac.add env a b = .ok r ∨ Frac.sub env a b = .ok r ∨ Frac.mul env a b = .ok r ∨ Frac.div env a b = .ok r →
      ∀ x ∈ r.names, x ∈ a.names ∨ x ∈ b.names) ∧
    (∀ a q r, Frac.pow env a q = .ok r → ∀ x ∈ r.names, x ∈ a.names) ∧
    (∀ n f, Node.tryEval env n = .ok (some f) → ∀ x ∈ f.names, x ∈ n.names) ∧
    (∀ n m, Node.normalize env n = .ok m → ∀ x ∈ m.names, x ∈ n.names) ∧
    (∀ e n, Node.ofExpr env e = .ok n → ∀ x ∈ n.names, .sym x ∈ e.leaves) := by
  refine ⟨fun a b r h => ?_, fun a q r h => ?_, fun n f h => ?_, fun n m h => ?_, fun e n h => ?_⟩
  · have ha : a.In (fun p => p.1 ∈ a.names ∨ p.1 ∈ b.names) :=
      Frac.in_iff (N := fun x => x ∈ a.names ∨ x ∈ b.names).2 fun _ => Or.inl
    have hb : b.In (fun p => p.1 ∈ a.names ∨ p.1 ∈ b.names) :=
      Frac.in_iff (N := fun x => x ∈ a.names ∨ x ∈ b.names).2 fun _ => Or.inr
    have : Closed env.M (fun p : List Char × Rational => p.1 ∈ a.names ∨ p.1 ∈ b.names) :=
      (ClosedPow.names env.M fun x => x ∈ a.names ∨ x ∈ b.names).toClosed
    refine Frac.in_iff (N := fun x => x ∈ a.names ∨ x ∈ b.names).1 ?_
    rcases h with h | h | h | h
    · exact Frac.add_in hs ha hb h
    · exact Frac.sub_in hs ha hb h
    · exact Frac.mul_in hs ha hb h
    · exact Frac.div_in hs ha hb h
  · exact Frac.in_iff (N := fun x => x ∈ a.names).1 (Frac.pow_in hs (Frac.in_iff.2 fun _ h => h) h)
  · exact Frac.in_iff (N := fun x => x ∈ n.names).1
      (Node.tryEval_in hs (Or.inr inferInstance) (Node.in_iff.2 fun _ h => h) h)
  · exact Node.in_iff (N := fun x => x ∈ n.names).1
      (Node.normalize_in hs (Or.inr inferInstance) (Node.in_iff.2 fun _ h => h) h)
  · have : Closed env.M (fun p : List Char × Rational => .sym p.1 ∈ e.leaves) :=
      (ClosedPow.names env.M fun x => .sym x ∈ e.leaves).toClosed
    exact Node.in_iff (N := fun x => .sym x ∈ e.leaves).1 (Node.ofExpr_in hs (fun x w hx _ => hx) h)

/-- after `substitute` no bound symbol is left, and no symbol is new. -/
theorem C72_substitute (hs : SortOk env.sort) {e : List (List Char × Num.Real)} {n m : Node}
    (h : Node.substitute env e n = .ok m) : ∀ x ∈ m.names, x ∈ n.names ∧ x ∉ e.map (·.1) := by
  have := Node.substitute_in (P := fun p => p.1 ∈ n.names) hs (Node.in_iff.2 fun _ h => h) h
  exact Node.in_iff (N := fun x => x ∈ n.names ∧ x ∉ e.map (·.1)).1 this

example : ∀ x ∈ (Node.frac ⟨[Y, cst 2], [cst 1]⟩).names, x ∈ (Node.op '+' (.op '*' (ls ['x']) (ls ['x'])) (ls ['y'])).names ∧
    x ∉ ([(['x'], root2)] : List (List Char × Num.Real)).map (·.1) :=
  C72_substitute fenv64_sort (Node.substitute_mono (FEnv.checked_le _ (2 ^ 53)) _ _ _ substitute_example)
example : (Node.frac ⟨[Y, cst 2], [cst 1]⟩).names = [['y']] := by decide
example := (C72_no_new_symbols fenv64_sort).2.2.2.1 _ _
  (Node.normalize_mono (FEnv.checked_le _ (2 ^ 53)) _ _ expr_examples.2)

end Symxx.Sym
