import Verif.Expr.TexUnique
import Verif.Expr.TexProof
import Verif.Props.Calc
/-!
# C82: the TeX text of an expression

`Tex 0 s v` (`Verif/Expr/TexSpec.lean`): the text `s`, read with the usual conventions of TeX mathematics, denotes `v`. There is
at most one such `v` (`C82_one_reading`). `TexNodeOk` there says which trees are written unambiguously.
-/
namespace Symxx.Sym
open Symxx.Num Symxx.Parser Symxx.Cli

variable {env : FEnv} {B : Nat}

/-- a text denotes at most one function of the assignment. -/
theorem C82_one_reading {s : List Char} {v w : Den} (h : Tex 0 s v) (h' : Tex 0 s w) : v = w := h.unique h'

/-- the TeX text of a tree (operators `+ - * / ^`, any nesting; leaves with square roots, negative and rational exponents)
denotes the tree's value at every assignment where the powers of symbols in the leaves are real, provided a leaf that is
written without parentheses fits the place where it stands (see `C82_fails` for the ones that do not). -/
theorem C82_tree_partial {env : Env} (hg : env.Good B) {n : Node} (hn : TexNodeOk env.M B 0 n) :
    ∃ s v, Node.toTex env n = .ok s ∧ Tex 0 s v ∧ ∀ ρ, n.RealAt ρ → v ρ = n.sem ρ := by
  obtain ⟨s, s1, ⟨v, v1, v2⟩, -, -⟩ := node_tex (P := fun ρ => n.RealAt ρ) hg (fun _ h => h) (Nat.zero_le _) hn
  exact ⟨s, v, s1, v1, v2⟩

/-- the TeX text of a fraction of polynomials with canonical coefficients (integers, rationals, square roots) and rational
exponents denotes the quotient. -/
theorem C82_fraction_partial {env : Env} (hg : env.Good B) {f : Frac} (hf : TexFracOk env.M B f) :
    ∃ s v, Frac.toTex env f = .ok s ∧ Tex 0 s v ∧ ∀ ρ, f.num.RealAt ρ → f.den.RealAt ρ →
      (Poly.value ρ f.den ≠ 0 → v ρ = some (Poly.value ρ f.num / Poly.value ρ f.den)) ∧
        (Poly.value ρ f.den = 0 → v ρ = none) := by
  obtain ⟨s, -, s1, -, ⟨v, v1, v2⟩, -⟩ := frac_tex (P := fun ρ => (Node.frac f).RealAt ρ) hg hf (fun _ h => h)
  refine ⟨s, v, s1, v1, fun ρ h1 h2 => ?_⟩
  rw [v2 ρ ⟨h1, h2⟩]
  unfold Node.sem Frac.value
  exact ⟨fun h => if_neg h, fun h => if_pos h⟩

theorem ofLeaf_tex (hg : env.toEnv.Good B) (hB : 1 ≤ B) (hs : SortOk env.sort) (h1 : ∀ t, ∃ q, env.sort [t] = .ok q)
    {l : Parser.Leaf} (hl : l.Readable env.M) (hx : ∀ x, l = .sym x → TexSym x) :
    ∃ f, Node.ofLeaf env l = .ok f ∧ (∀ k, TexNodeOk env.M B k (.frac f)) ∧ ∀ ρ, (Node.frac f).RealAt ρ := by
  have hM := hg.M1
  have h := (hg.powOk hB).toIntOk
  have hT : ∀ n : Int, |n| ≤ env.M → TexPolyOk env.M B [⟨Real.int n, []⟩] := fun n hn t ht => by
    rw [List.mem_singleton] at ht
    rw [ht]
    exact ⟨Node.coeOk_int hM hB hn, by norm_num [Num.Real.int], by simp⟩
  have hR : ∀ (n : Int) ρ, Poly.RealAt ρ [⟨Real.int n, []⟩] := fun n ρ t ht => by
    rw [List.mem_singleton] at ht
    rw [ht]
    simp
  cases l with
  | num q =>
    obtain ⟨p, q⟩ := q
    obtain ⟨a1, a2, a3, a4, a5⟩ := hl
    simp only at a1 a2 a3 a4
    have hf : Rational.Fits env.M ⟨p, q⟩ := ⟨abs_le.2 ⟨by show -env.M ≤ p; omega, a2⟩, abs_le.2 ⟨by show -env.M ≤ q; omega, a4⟩⟩
    refine ⟨_, Node.ofLeaf_num h hs h1 hf a3 a5, fun k => ⟨⟨hT p hf.1, hT q hf.2, by simp, by simp⟩, fun _ => ?_⟩,
      fun ρ => ⟨hR p ρ, hR q ρ⟩⟩
    unfold TexAt
    split
    · exact Node.polyAt_atom ⟨rfl, rfl, Or.inl ⟨a1, rfl⟩⟩ k
    · exact ⟨_, rfl, rfl, rfl, Or.inl ⟨a1, rfl⟩⟩
  | sym x =>
    refine ⟨_, Node.ofLeaf_sym h hs h1 x, fun k => ⟨⟨fun t ht => ?_, hT 1 (Real.abs1 h), by simp, by simp⟩, fun _ => ?_⟩,
      fun ρ => ⟨fun t ht p hp => ?_, hR 1 ρ⟩⟩
    · rw [List.mem_singleton] at ht
      rw [ht]
      refine ⟨Node.coeOk_int hM hB (Real.abs1 h), by norm_num [Num.Real.int], fun p hp => ?_⟩
      rw [List.mem_singleton] at hp
      rw [hp]
      exact ⟨hx x rfl, ⟨Real.abs1 h, Real.abs1 h⟩, by norm_num⟩
    · unfold TexAt
      split
      · exact Node.polyAt_atom ⟨rfl, rfl, Or.inr ⟨rfl, _, rfl⟩⟩ k
      · exact ⟨_, rfl, rfl, rfl, Or.inr ⟨rfl, _, _, rfl⟩⟩
    · rw [List.mem_singleton] at ht
      rw [ht, List.mem_singleton] at hp
      rw [hp]
      rcases lt_trichotomy (ρ x) 0 with h | h | h
      · exact Or.inr (Or.inr (Or.inr ⟨h, rfl⟩))
      · exact Or.inr (Or.inl ⟨h, by norm_num⟩)
      · exact Or.inl h

theorem ofExpr_tex (hg : env.toEnv.Good B) (hB : 1 ≤ B) (hs : SortOk env.sort) (h1 : ∀ t, ∃ q, env.sort [t] = .ok q)
    {e : Parser.Expr} (he : e.Readable env.M) (hx : TexLeaves e) :
    ∃ n, Node.ofExpr env e = .ok n ∧ (∀ k, TexNodeOk env.M B k n) ∧ ∀ ρ, n.RealAt ρ := by
  induction e with
  | leaf l =>
    obtain ⟨f, f1, f2, f3⟩ := ofLeaf_tex hg hB hs h1 he fun x h => hx x (by rw [h]; simp [Parser.Expr.leaves])
    exact ⟨.frac f, by unfold Node.ofExpr; rw [f1, Res.bind_ok], f2, f3⟩
  | node c a b ia ib =>
    obtain ⟨hc, ha, hb⟩ := he
    obtain ⟨x, x1, x2, x3⟩ := ia ha fun y hy => hx y (by simp [Parser.Expr.leaves, hy])
    obtain ⟨y, y1, y2, y3⟩ := ib hb fun y hy => hx y (by simp [Parser.Expr.leaves, hy])
    exact ⟨.op c x y, by unfold Node.ofExpr; rw [x1, Res.bind_ok, y1, Res.bind_ok], fun k => ⟨hc, x2 _, y2 _⟩,
      fun ρ => ⟨x3 ρ, y3 ρ⟩⟩

/-- every tree with numbers and symbols as leaves: its TeX text denotes its value at every assignment. -/
theorem C82_expression (hg : env.toEnv.Good B) (hB : 1 ≤ B) (hs : SortOk env.sort)
    (h1 : ∀ t, ∃ q, env.sort [t] = .ok q) {e : Parser.Expr} (he : e.Readable env.M) (hx : TexLeaves e) :
    ∃ n s, Node.ofExpr env e = .ok n ∧ Node.toTex env.toEnv n = .ok s ∧ Tex 0 s (fun ρ => exprSem ρ e) := by
  obtain ⟨n, n1, n2, n3⟩ := ofExpr_tex hg hB hs h1 he hx
  obtain ⟨n', m1, -, m3⟩ := Node.ofExpr_ok hg hB hs h1 he
  rw [n1] at m1
  injection m1 with m1
  subst m1
  obtain ⟨s, v, s1, s2, s3⟩ := C82_tree_partial hg (n2 0)
  have : v = fun ρ => exprSem ρ e := by
    funext ρ
    rw [s3 ρ (n3 ρ), m3]
  exact ⟨n, s, n1, s1, this ▸ s2⟩

/-- every accepted text whose symbols can be written in TeX: the TeX text of its tree denotes what the text denotes. Excluded:
trees with the operator `(` (an unclosed parenthesis, `C53_fails`). -/
theorem C82_text_partial (hM : 2 ≤ env.M) (hg : env.toEnv.Good B) (hB : 1 ≤ B) (hs : SortOk env.sort)
    (h1 : ∀ t, ∃ q, env.sort [t] = .ok q) {dec} (hd : DecLowest env.M dec) {s : List Char} {e : Parser.Expr}
    (hp : Parser.parse env.M dec s = .ok e) (hw : e.WF) (hx : TexLeaves e) :
    ∃ n t, Node.ofText env dec s = .ok n ∧ Node.toTex env.toEnv n = .ok t ∧ Tex 0 t (fun ρ => exprSem ρ e) := by
  obtain ⟨n, t, n1, n2, n3⟩ := C82_expression hg hB hs h1 (parse_readable hM hd hp hw fun c hc => by
    rcases hx _ hc with h | ⟨d, h, hd⟩
    · have := h.1; simp at this
    · injection h with h; exact h ▸ hd) hx
  exact ⟨n, t, by unfold Node.ofText; rw [hp, Res.bind_ok, n1], n2, n3⟩

/-- an expression over integers, symbols, `+`, `-`, `*` and natural powers within range is expanded to a polynomial whose TeX
text denotes the value of the expression at every assignment. -/
theorem C82_ring (hg : env.toEnv.Good B) (hB : 1 ≤ B) (hs : SortOk env.sort) (ht : Poly.SortTotal env)
    {e : Parser.Expr} (he : IntRing e) (hpf : PowFits e) (hx : TexLeaves e) (hsz : ringSize e ≤ env.M)
    (hdeg : ringDeg e ≤ env.M) :
    ∃ n m s, Node.ofExpr env e = .ok n ∧ Node.normalize env n = .ok m ∧ Node.toTex env.toEnv m = .ok s ∧
      Tex 0 s (fun ρ => exprSem ρ e) := by
  obtain ⟨n, f, n1, n2, n3, n4, n5, hin, n6⟩ := Node.ring_sem (P := fun p => NatExp p ∧ TexSym p.1)
    hg hB hs ht he hpf hsz hdeg fun x hxx => ⟨⟨by norm_num, rfl⟩, hx x hxx⟩
  have hM1 := hg.M1
  have hu : TexPolyOk env.M B unitPoly := fun t ht => by
    rw [unitPoly, List.mem_singleton] at ht
    subst ht
    exact ⟨Node.coeOk_int hM1 hB (by simpa using hM1), by norm_num [Term.ofReal, Num.Real.int], by simp [Term.ofReal]⟩
  have hf : TexFracOk env.M B f := by
    have hl : ∀ {p : Poly} {t : Term}, t ∈ p → |t.coe.coe.num| ≤ p.l1 := by
      intro p t ht
      unfold Poly.l1
      exact List.single_le_sum (by simp) _ (List.mem_map.2 ⟨t, ht, rfl⟩)
    refine ⟨fun t ht => ⟨?_, ?_, fun p hp => ?_⟩, n4.den ▸ hu, n4.ne, by rw [n4.den]; simp [unitPoly]⟩
    · rw [(n4.num t ht).1]
      exact Node.coeOk_int hM1 hB (le_trans (hl ht) (le_trans n5 hsz))
    · rw [(n4.num t ht).1]
      norm_num [Num.Real.int]
    · obtain ⟨⟨a, b⟩, c⟩ := hin.1 t ht p hp
      refine ⟨c, ⟨?_, ?_⟩, by rw [b]; norm_num⟩
      · exact le_trans ((n4.num t ht).2.1 p hp).2 hdeg
      · rw [b]; simpa using hM1
  obtain ⟨s, v, s1, s2, s3⟩ := C82_fraction_partial hg hf
  refine ⟨n, .frac f, s, n1, n3, s1, ?_⟩
  have hr : ∀ {p : Poly}, (∀ t ∈ p, ∀ q ∈ t.syms, NatExp q ∧ TexSym q.1) → ∀ ρ, p.RealAt ρ := by
    intro p hp ρ t ht q hq
    obtain ⟨⟨a, b⟩, -⟩ := hp t ht q hq
    rcases lt_trichotomy (ρ q.1) 0 with h | h | h
    · exact Or.inr (Or.inr (Or.inr ⟨h, b⟩))
    · exact Or.inr (Or.inl ⟨h, a⟩)
    · exact Or.inl h
  have : v = fun ρ => exprSem ρ e := by
    funext ρ
    rw [exprSem_everywhere he ⟨fun t ht p hp => (hin.1 t ht p hp).1, fun t ht p hp => (hin.2 t ht p hp).1⟩ n4.den n6 ρ]
    refine (s3 ρ (hr hin.1 ρ) (hr hin.2 ρ)).1 ?_
    rw [n4.den, unitPoly_value]
    exact one_ne_zero
  exact this ▸ s2

/-! ### in a session -/

variable {E : CEnv}

/-- the line `ntex t`, where `t` is an expression over integers, symbols, `+`, `-`, `*` and natural powers within range, prints
one line that denotes what `t` denotes, and changes nothing. -/
theorem C82_ntex_line (hg : E.f.toEnv.Good B) (hB : 1 ≤ B) (hs : SortOk E.f.sort) (ht : Poly.SortTotal E.f) {line : List Char}
    {e : Parser.Expr} (hl : word line = "ntex".toList) (hp : Parser.parse E.f.M E.dec (rest line) = .ok e) (he : IntRing e)
    (hpf : PowFits e) (hx : TexLeaves e) (hsz : ringSize e ≤ E.f.M) (hdeg : ringDeg e ≤ E.f.M) (s : St E) :
    ∃ t, dispatch E line s = (.ok false, s, t ++ ['\n']) ∧ Tex 0 t (fun ρ => exprSem ρ e) := by
  obtain ⟨n, m, t, n1, n2, n3, n4⟩ := C82_ring hg hB hs ht he hpf hx hsz hdeg
  refine ⟨t, ?_, n4⟩
  rw [dispatch_rest (by rw [hl]; decide) (by rw [hl]; decide), if_pos hl]
  refine then_ok ?_
  unfold cmdNtex parseNormal Node.ofText
  rw [lift_bind, hp, Res.bind_ok, n1, Res.bind_ok, n2]
  simp only
  rw [lift_bind, n3]
  rfl

/-- the line `tex t` first prints a line that denotes what `t` denotes; then it normalises the whole line, as every `tex` line
does (`C63_twice`), and the session continues or fails as that does. -/
theorem C82_tex_line_partial (hM : 2 ≤ E.f.M) (hg : E.f.toEnv.Good B) (hB : 1 ≤ B) (hs : SortOk E.f.sort)
    (h1 : ∀ t, ∃ q, E.f.sort [t] = .ok q) (hd : DecLowest E.f.M E.dec) {line : List Char} {e : Parser.Expr}
    (hl : word line = "tex".toList) (hp : Parser.parse E.f.M E.dec (rest line) = .ok e) (hw : e.WF) (hx : TexLeaves e)
    (s : St E) :
    ∃ t, (dispatch E line s).2.2 = t ++ ['\n'] ++ (cmdNormalize E line s).2.2 ∧ Tex 0 t (fun ρ => exprSem ρ e) := by
  obtain ⟨n, t, n1, n2, n3⟩ := C82_text_partial hM hg hB hs h1 hd hp hw hx
  refine ⟨t, ?_, n3⟩
  have ha : asked E line s = (.ok false, s, t ++ ['\n']) := by
    rw [asked_eq, if_neg (by rw [hl]; decide), if_pos hl]
    refine then_ok ?_
    unfold cmdTex
    rw [lift_bind, n1]
    simp only
    rw [lift_bind, n2]
    rfl
  rw [C63_twice (Or.inr hl), Cmd.bind_def, ha]
  simp only
  rw [Cmd.bind_def]
  rcases cmdNormalize E line s with ⟨r, s', o⟩
  cases r <;> simp [Cmd.pure]

/-! ### instances and counterexamples -/

theorem X_tex : TexSym ['x'] := Or.inr ⟨'x', rfl, rfl⟩
theorem Y_tex : TexSym ['y'] := Or.inr ⟨'y', rfl, rfl⟩
theorem alpha_tex : TexSym "alpha".toList :=
  Or.inl ⟨by decide, by decide, by decide, by decide, by decide⟩

/-- the program's TeX of a text, without and with normalisation. -/
def texOf (s : String) : Res String := do
  let n ← Node.ofText fenv64 dec64 s.toList
  let t ← Node.toTex fenv64.toEnv n
  .ok (String.ofList t)
def ntexOf (s : String) : Res String := do
  let n ← Node.ofText fenv64 dec64 s.toList
  let m ← Node.normalize fenv64 n
  let t ← Node.toTex fenv64.toEnv m
  .ok (String.ofList t)

theorem tex_examples :
    texOf "(x+1)^(y-2)/{alpha}" = .ok "\\frac{(x+1)^{(y-2)}}{\\alpha }" ∧
    texOf "0.25*x^1.5" = .ok "(\\frac{1}{4})\\times x^{(\\frac{3}{2})}" ∧ texOf "x-(y-1)" = .ok "x-(y-1)" ∧
    texOf "x^y^2" = .ok "(x^{y})^{2}" := by
  decide +kernel
theorem ntex_examples :
    ntexOf "(x-1)*(x+{beta})" = .ok "x^{2}-x+\\beta x-\\beta " ∧ ntexOf "2*3^(1/2)*x^(1/2)-7" = .ok "2\\sqrt{3}x^{\\frac{1}{2}}-7" ∧
    ntexOf "1/(2x)" = .ok "\\frac{1}{2x}" := by
  decide +kernel

/-- `0.25*x^1.5`, as the x86-64 program reads decimals. -/
example := C82_text_partial (env := fenv64) (by decide) fenv64_good (by norm_num) fenv64_sort fenv64_sort1 dec64_lowest
  decimal_example (by simp [Parser.Expr.WF]) (by intro x hx; simp [Parser.Expr.leaves] at hx; subst hx; exact X_tex)

/-- `(x+1)^(y-2)/{alpha}`. -/
example := C82_expression fenv64_good (by norm_num) fenv64_sort fenv64_sort1
  (e := .node '/' (.node '^' (.node '+' (.leaf (.sym ['x'])) (.leaf (.num ⟨1, 1⟩))) (.node '-' (.leaf (.sym ['y']))
    (.leaf (.num ⟨2, 1⟩)))) (.leaf (.sym "alpha".toList)))
  ⟨by simp, ⟨by simp, ⟨by simp, Or.inr ⟨'x', rfl, rfl⟩, by norm_num, by decide, by norm_num, by decide, by decide⟩,
    ⟨by simp, Or.inr ⟨'y', rfl, rfl⟩, by norm_num, by decide, by norm_num, by decide, by decide⟩⟩, Or.inl ⟨by decide, by decide⟩⟩
  (by
    intro x hx
    simp [Parser.Expr.leaves] at hx
    rcases hx with rfl | rfl | rfl
    · exact X_tex
    · exact Y_tex
    · exact alpha_tex)

/-- `(2x + 1)^3`. -/
example := C82_ring fenv64_good (by norm_num) fenv64_sort fenv64_total
  (e := .node '^' (.node '+' (.node '*' (.leaf (.num ⟨2, 1⟩)) (.leaf (.sym ['x']))) (.leaf (.num ⟨1, 1⟩))) (.leaf (.num ⟨3, 1⟩)))
  (Or.inr ⟨rfl, Or.inl ⟨by simp, Or.inl ⟨by simp, rfl, trivial⟩, rfl⟩, 3, rfl⟩)
  (by simp [PowFits, ringSize, expo, Nat.factorial])
  (by intro x hx; simp [Parser.Expr.leaves] at hx; subst hx; exact X_tex) (by decide +kernel) (by decide +kernel)

theorem ntex_parse : Parser.parse cenv64.f.M cenv64.dec (rest "ntex (x-1)*(x+{beta})".toList) =
    .ok (.node '*' (.node '-' (.leaf (.sym ['x'])) (.leaf (.num ⟨1, 1⟩)))
      (.node '+' (.leaf (.sym ['x'])) (.leaf (.sym "beta".toList)))) := by decide +kernel
example (s : St cenv64) := C82_ntex_line (E := cenv64) fenv64_good (by norm_num) fenv64_sort fenv64_total (by decide) ntex_parse
  (by simp [IntRing]) (by simp [PowFits])
  (by
    intro x hx
    simp [Parser.Expr.leaves] at hx
    rcases hx with rfl | rfl
    · exact X_tex
    · exact Or.inl ⟨by decide, by decide, by decide, by decide, by decide⟩) (by decide +kernel) (by decide +kernel) s
example : does start "ntex (x-1)*(x+{beta})" = (.ok false, "x^{2}-x+\\beta x-\\beta \n".toList) := by decide +kernel

theorem tex_parse : Parser.parse cenv64.f.M cenv64.dec (rest "tex x-(y-1)".toList) =
    .ok (.node '-' (.leaf (.sym ['x'])) (.node '-' (.leaf (.sym ['y'])) (.leaf (.num ⟨1, 1⟩)))) := by decide +kernel
example (s : St cenv64) := C82_tex_line_partial (E := cenv64) (by decide) fenv64_good
  (by norm_num) fenv64_sort fenv64_sort1 dec64_lowest (by decide) tex_parse (by simp [Parser.Expr.WF])
  (by
    intro x hx
    simp [Parser.Expr.leaves] at hx
    rcases hx with rfl | rfl
    · exact X_tex
    · exact Y_tex) s
example : does start "tex x-(y-1)" = (.ok false, "x-(y-1)\n-y+et(x**2)+1\n".toList) := by decide +kernel

/-- `(2√3·x² - 7)/(x + 1)` meets the hypotheses. -/
theorem fracTex_example : TexFracOk fenv64.M (2 ^ 53) ⟨[termR, cst (-7)], [X, cst 1]⟩ := by
  have hc : ∀ n : Int, |n| ≤ fenv64.M → TexTermOk fenv64.M (2 ^ 53) (cst n) := fun n hn =>
    ⟨(cst_ok n hn).coe, by norm_num [cst, re], by simp [cst]⟩
  have hx : TexTermOk fenv64.M (2 ^ 53) X := ⟨(var_ok 'x' rfl 1 (by norm_num) (by decide)).coe, by norm_num [X, mono, re], by
    intro p hp
    rw [X, mono, List.mem_singleton] at hp
    subst hp
    exact ⟨X_tex, by decide, by norm_num⟩⟩
  refine ⟨fun t ht => ?_, fun t ht => ?_, by simp, by simp⟩ <;> simp only [List.mem_cons, List.not_mem_nil, or_false] at ht <;>
    rcases ht with rfl | rfl
  · refine ⟨termR_ok.coe, by norm_num [termR], fun p hp => ?_⟩
    rw [termR, List.mem_singleton] at hp
    subst hp
    exact ⟨X_tex, by decide, by norm_num⟩
  · exact hc _ (by decide)
  · exact hx
  · exact hc _ (by decide)
example := C82_fraction_partial fenv64_good fracTex_example
example : Frac.toTex fenv64.toEnv ⟨[termR, cst (-7)], [X, cst 1]⟩ = .ok "\\frac{2\\sqrt{3}x^{2}-7}{x+1}".toList := by decide +kernel
example := C82_tree_partial fenv64_good (n := .op '^' (.frac ⟨[termR, cst (-7)], [X, cst 1]⟩) (.frac ⟨[termR, cst (-7)], [X, cst 1]⟩))
  ⟨by simp, ⟨fracTex_example, fun h => by obtain ⟨t, h, -⟩ := h; simp at h⟩, fracTex_example,
    fun h => by obtain ⟨t, h, -⟩ := h; simp at h⟩

/-- a text that `texRead` does not accept has no reading. -/
theorem no_reading {s : List Char} (h : ∀ e, texRead s ≠ some (.ok e)) : ¬ ∃ v, Tex 0 s v := by
  rintro ⟨v, hv⟩
  obtain ⟨e, he, -⟩ := hv.read
  exact h e he

/-- whether `texRead` accepts. -/
def texReadable (s : List Char) : Bool := match texRead s with
  | some (.ok _) => true
  | _ => false
theorem not_texReadable {s : List Char} (h : texReadable s = false) : ¬ ∃ v, Tex 0 s v := by
  refine no_reading fun e he => ?_
  unfold texReadable at h
  rw [he] at h
  simp at h

/-- the full claim is false. These texts are no formulas: a cube root is written `\sqrt[n3]{2}`, the power of a power has two
superscripts, a braced name with a digit is written as a control word with a digit, and a negative leaf is written after
an operator sign. -/
theorem C82_fails : ntexOf "2^(1/3)" = .ok "\\sqrt[n3]{2}" ∧ ntexOf "(x^2)^y" = .ok "x^{2}^{y}" ∧
    texOf "{x1}+1" = .ok "\\x1 +1" ∧ ntexOf "a^b*(0-x)" = .ok "a^{b}\\times -x" ∧
    ∀ s ∈ ["\\sqrt[n3]{2}", "x^{2}^{y}", "\\x1 +1", "a^{b}\\times -x"], ¬ ∃ v, Tex 0 s.toList v := by
  refine ⟨by decide +kernel, by decide +kernel, by decide +kernel, by decide +kernel, fun s hs => not_texReadable ?_⟩
  simp only [List.mem_cons, List.not_mem_nil, or_false] at hs
  rcases hs with rfl | rfl | rfl | rfl <;> decide +kernel

/-- these texts denote something else: `(x+1)^y`, `a^b*(x+1)`, `a^b-(x+1)`, `(2x)^y` normalised lose their parentheses, the
symbol `{1}` becomes the number 1. -/
theorem C82_fails_paren : ntexOf "(x+1)^y" = .ok "x+1^{y}" ∧ ntexOf "a^b*(x+1)" = .ok "a^{b}\\times x+1" ∧
    ntexOf "a^b-(x+1)" = .ok "a^{b}-x+1" ∧ ntexOf "(2x)^y" = .ok "2x^{y}" ∧ texOf "{1}" = .ok "1" := by decide +kernel

/-- the first of them as a change of value: `(x+1)^y` is 9 at `x = y = 2`, what is written denotes 3. -/
theorem C82_fails_value : ∃ n s v, Node.normalize fenv64 n = .ok n ∧ Node.toTex fenv64.toEnv n = .ok s ∧
    n.sem (fun _ => 2) = some 9 ∧ Tex 0 s v ∧ v (fun _ => 2) = some 3 := by
  have h9 : (Node.op '^' (.frac ⟨[X, cst 1], [cst 1]⟩) (ls ['y'])).sem (fun _ => 2) = some 9 := by
    have h1 : (Node.frac ⟨[X, cst 1], [cst 1]⟩).sem (fun _ => 2) = some (3 : ℝ) := by
      refine Node.sem_frac.2 ⟨?_, ?_⟩ <;>
        norm_num [Poly.value, Frac.value, Term.value, Syms.value, X, cst, mono, re, Num.Real.val, Rational.val]
    have h2 : (ls ['y']).sem (fun _ => 2) = some (2 : ℝ) := by
      refine Node.sem_frac.2 ⟨?_, ?_⟩ <;>
        norm_num [Poly.value, Frac.value, Term.value, Syms.value, cst, mono, re, Num.Real.val, Rational.val]
    show ((Node.sem (fun _ => 2) _).bind fun x => (Node.sem (fun _ => 2) (ls ['y'])).bind fun y => opSem '^' x y) = _
    rw [h1, h2, Option.bind_some, Option.bind_some, opSem_pow (by norm_num)]
    norm_num
  have ht : Tex 0 ("x".toList ++ "+".toList ++ ("1".toList ++ "^{".toList ++ "y".toList ++ "}".toList)) _ :=
    .add (Nat.zero_le _) (Tex.down (.letter (c := 'x') rfl) (Nat.zero_le _))
      (.up (.pow (.num (ds := "1".toList) ⟨by decide, by decide⟩) (Tex.down (.letter (c := 'y') rfl) (Nat.zero_le _))))
  refine ⟨_, _, _, by decide +kernel, by decide +kernel, h9, ht, ?_⟩
  have hd : digVal "1".toList = 1 := by decide
  simp only [opV, hd]
  norm_num
  rw [opSem_pow (by norm_num), Option.bind_some, opSem_add]
  norm_num

end Symxx.Sym
