import Verif.Props.Collect
import Verif.Props.Calc
import Verif.Cli.Poly
import Verif.Cli.NoWord
/-!
# C94: algebra in a session

What C92 and C93 say about simplified expressions, said about the lines a user types and the lines the program prints.
`IsExpr` (`Verif/Cli/Spec.lean`): the line is neither a command nor a call of a function the user has defined.
-/
namespace Symxx.Cli
open Symxx.Num Symxx.Sym Cmd

variable {E : CEnv} {B : Nat}

/-- the line is an expression over integers, symbols, `+`, `-`, `*` and natural powers, which is small enough for the type,
none of the symbols being a constant of the session. -/
structure RingLine (s : St E) (line : List Char) (e : Parser.Expr) : Prop where
  isExpr : IsExpr s line
  parse : Parser.parse E.f.M E.dec line = .ok e
  ring : IntRing e
  powers : PowFits e
  size : ringSize e ≤ E.f.M
  degree : ringDeg e ≤ E.f.M
  names : ∀ x, .sym x ∈ e.leaves → s.constants.find x = none

/-- the line prints the text of the simplified expression and a line break, and nothing changes. -/
theorem C94_line (hg : E.f.toEnv.Good B) (hB : 1 ≤ B) (hs : SortContract E.f) (ht : Poly.SortTotal E.f) {line : List Char}
    {s : St E} {e : Parser.Expr} (h : RingLine s line e) :
    ∃ n f t, Node.ofExpr E.f e = .ok n ∧ Node.normalize E.f n = .ok f ∧ Node.toStr E.f.toEnv f = .ok t ∧
      dispatch E line s = (.ok false, s, t ++ ['\n']) := by
  have hi : E.f.toEnv.IntOk := (hg.powOk hB).toIntOk
  have : ClosedNat E.f.M (fun p : List Char × Rational => NatExp p ∧ s.constants.find p.1 = none) :=
    natExp_names E.f.M fun x => s.constants.find x = none
  obtain ⟨n, f, n1, -, n3, n4, n5, -, n8, -⟩ := ring_tidy (P := fun p => NatExp p ∧ s.constants.find p.1 = none)
    hg hB hs ht h.ring h.powers h.size h.degree fun x hx => ⟨⟨by norm_num, rfl⟩, h.names x hx⟩
  obtain ⟨t, hstr⟩ := Node.toStr_total hi h.degree n4 (le_trans n5 h.size)
  refine ⟨n, .frac f, t, n1, n3, hstr, ?_⟩
  rw [dispatch_other h.isExpr.1]
  refine then_ok ?_
  rw [cmdOther_expr h.isExpr.2]
  unfold cmdNormalize parseNormal Node.ofText
  rw [lift_bind, h.parse, Res.bind_ok, n1, Res.bind_ok, n3]
  exact printResult_poly hi n4 (le_trans n5 h.size) hstr fun u hu q hq => (n8.1 u hu q hq).2

/-- two lines that are equal as functions print the same. -/
theorem C94_same (hg : E.f.toEnv.Good B) (hB : 1 ≤ B) (hs : SortContract E.f) (ht : Poly.SortTotal E.f) {line line' : List Char}
    {s s' : St E} {e e' : Parser.Expr} (h : RingLine s line e) (h' : RingLine s' line' e')
    (heq : ∀ ρ, (∀ x, 0 < ρ x) → exprSem ρ e = exprSem ρ e') :
    ∃ t, dispatch E line s = (.ok false, s, t) ∧ dispatch E line' s' = (.ok false, s', t) := by
  obtain ⟨n, f, t, n1, n2, n3, n4⟩ := C94_line hg hB hs ht h
  obtain ⟨n', f', t', m1, m2, m3, m4⟩ := C94_line hg hB hs ht h'
  obtain ⟨k, k', g, g', u, d1, d2, d3, d4, d5, d6⟩ := C92_canonical hg hB hs ht h.ring h.powers h.size h.degree
    h'.ring h'.powers h'.size h'.degree heq
  rw [n1] at d1; injection d1 with d1; subst d1
  rw [n2] at d2; injection d2 with d2; subst d2
  rw [n3] at d3; injection d3 with d3; subst d3
  rw [m1] at d4; injection d4 with d4; subst d4
  rw [m2] at d5; injection d5 with d5; subst d5
  rw [m3] at d6; injection d6 with d6; subst d6
  exact ⟨_, n4, m4⟩

/-- the two lines need not be equal as functions to be told apart: lines that print the same are equal as functions. -/
theorem C94_differ (hg : E.f.toEnv.Good B) (hB : 1 ≤ B) (hs : SortContract E.f) (ht : Poly.SortTotal E.f) {line line' : List Char}
    {s s' : St E} {e e' : Parser.Expr} (h : RingLine s line e) (h' : RingLine s' line' e')
    (hn : ∀ x, .sym x ∈ e.leaves → SymOk x) (hn' : ∀ x, .sym x ∈ e'.leaves → SymOk x)
    (hp : (dispatch E line s).2.2 = (dispatch E line' s').2.2) (ρ : List Char → ℝ) : exprSem ρ e = exprSem ρ e' := by
  have hM2 : 2 ≤ E.f.M := le_trans (by norm_num) hg.hM
  obtain ⟨n, f, t, n1, n2, n3, n4⟩ := C94_line hg hB hs ht h
  obtain ⟨n', f', t', m1, m2, m3, m4⟩ := C94_line hg hB hs ht h'
  rw [n4, m4] at hp
  have hp : t = t' := by simpa using hp
  subst hp
  obtain ⟨k, g, u, x, c1, c2, c3, c4, c5⟩ := C71_ring hM2 hg hB hs.ok ht h.ring h.powers hn h.size h.degree E.dec
  obtain ⟨k', g', u', x', d1, d2, d3, d4, d5⟩ := C71_ring hM2 hg hB hs.ok ht h'.ring h'.powers hn' h'.size h'.degree E.dec
  rw [n1] at c1; injection c1 with c1; subst c1
  rw [n2] at c2; injection c2 with c2; subst c2
  rw [n3] at c3; injection c3 with c3; subst c3
  rw [m1] at d1; injection d1 with d1; subst d1
  rw [m2] at d2; injection d2 with d2; subst d2
  rw [m3] at d3; injection d3 with d3; subst d3
  rw [c4] at d4; injection d4 with d4; subst d4
  rw [← c5, ← d5]

/-- what is printed, typed as a line, prints itself, unless its beginning reads as a call of a function that is defined; it is
never taken for a command. -/
theorem C94_paste (hg : E.f.toEnv.Good B) (hB : 1 ≤ B) (hs : SortContract E.f) (ht : Poly.SortTotal E.f) {line : List Char}
    {s : St E} {e : Parser.Expr} (h : RingLine s line e) (hn : ∀ x, .sym x ∈ e.leaves → SymOk x) (hsz : ringSize e < E.f.M)
    (hdeg : ringDeg e ≤ 2 ^ 53) :
    ∃ t, dispatch E line s = (.ok false, s, t ++ ['\n']) ∧
      ((∀ name inside, Calls t name inside → s.funcs.find name = none) → dispatch E t s = (.ok false, s, t ++ ['\n'])) := by
  have hi : E.f.toEnv.IntOk := (hg.powOk hB).toIntOk
  obtain ⟨n, f, t, n1, n2, n3, n4⟩ := C94_line hg hB hs ht h
  obtain ⟨k, g, u, e', c1, c2, c3, c4, p1, p2, p3, p4, p5, c5⟩ := ring_text hg hB hs ht h.ring h.powers hn hsz hdeg E.dec
  rw [n1] at c1; injection c1 with c1; subst c1
  rw [n2] at c2; injection c2 with c2; subst c2
  rw [n3] at c3; injection c3 with c3; subst c3
  refine ⟨t, n4, fun hl => ?_⟩
  have hw : word t ∉ commandNames := by
    obtain ⟨n', f', m1, -, m3, m4, m5, -, -, -⟩ := ring_tidy (P := NatExp) hg hB hs ht h.ring h.powers h.size h.degree
      fun _ _ => ⟨by norm_num, rfl⟩
    rw [n1] at m1; injection m1 with m1; subst m1
    rw [n2] at m3; injection m3 with m3; subst m3
    have h1 : Frac.toStr E.f.toEnv f' = .ok t := n3
    have m6 := le_trans m5 h.size
    rw [Frac.toStr_int hi m4 m6] at h1
    refine lead_word ?_
    split at h1
    · cases h1
      decide
    · refine poly_lead hi (D := ringDeg e) (p := f'.num.nonzero) (fun v hv => m4.num v (Poly.mem_nonzero.1 hv).1)
        (le_trans ?_ m6) h1
      exact l1_nonzero _
  obtain ⟨w, w1, w2⟩ := C94_same hg hB hs ht h
    ⟨⟨hw, hl⟩, c4, p1, p2, p3, le_trans p4 h.degree, fun x hx => h.names x (p5 x hx)⟩ fun ρ _ => (c5 ρ).symm
  rw [n4] at w1
  injection w1 with _ w1
  injection w1 with _ w1
  rw [w2, w1]

/-- in a session without functions it always prints itself. -/
theorem C94_paste_plain (hg : E.f.toEnv.Good B) (hB : 1 ≤ B) (hs : SortContract E.f) (ht : Poly.SortTotal E.f) {line : List Char}
    {s : St E} {e : Parser.Expr} (h : RingLine s line e) (hn : ∀ x, .sym x ∈ e.leaves → SymOk x) (hsz : ringSize e < E.f.M)
    (hdeg : ringDeg e ≤ 2 ^ 53) (hf : s.funcs = []) :
    ∃ t, dispatch E line s = (.ok false, s, t ++ ['\n']) ∧ dispatch E t s = (.ok false, s, t ++ ['\n']) := by
  obtain ⟨t, h1, h2⟩ := C94_paste hg hB hs ht h hn hsz hdeg
  exact ⟨t, h1, h2 fun _ _ _ => by rw [hf]; rfl⟩

/-! ### a session -/

theorem diffSq_line : RingLine start "(x+y)*(x-y)".toList diffSq :=
  ⟨start_expr _ (by decide), by decide +kernel, by simp [IntRing, diffSq], by simp [PowFits, diffSq], by decide, by decide,
    fun _ _ => rfl⟩
theorem sqDiff_line : RingLine start "x^2-y^2".toList sqDiff :=
  ⟨start_expr _ (by decide), by decide +kernel, Or.inl ⟨by simp, Or.inr ⟨rfl, trivial, 2, rfl⟩, Or.inr ⟨rfl, trivial, 2, rfl⟩⟩,
    by simp [PowFits, sqDiff, ringSize, expo, oneTerm], by decide +kernel, by decide +kernel, fun _ _ => rfl⟩
theorem diffSq_names (x : List Char) (hx : .sym x ∈ diffSq.leaves) : SymOk x := by
  simp [diffSq, Parser.Expr.leaves] at hx
  rcases hx with rfl | rfl | rfl | rfl
  · exact Or.inr ⟨'x', rfl, by decide⟩
  · exact Or.inr ⟨'y', rfl, by decide⟩
  · exact Or.inr ⟨'x', rfl, by decide⟩
  · exact Or.inr ⟨'y', rfl, by decide⟩
theorem sqDiff_names (x : List Char) (hx : .sym x ∈ sqDiff.leaves) : SymOk x := by
  simp [sqDiff, Parser.Expr.leaves] at hx
  rcases hx with rfl | rfl
  · exact Or.inr ⟨'x', rfl, by decide⟩
  · exact Or.inr ⟨'y', rfl, by decide⟩

/-- `(x+y)*(x-y)`, `x^2-y^2` and the text they print. -/
theorem C94_example : does start "(x+y)*(x-y)" = (.ok false, "-(y**2)+(x**2)\n".toList) ∧
    does start "x^2-y^2" = (.ok false, "-(y**2)+(x**2)\n".toList) ∧
    does start "-(y**2)+(x**2)" = (.ok false, "-(y**2)+(x**2)\n".toList) := by decide +kernel

example := C94_line (E := cenv64) fenv64_good (by norm_num) fenv64_contract fenv64_total diffSq_line
example := C94_same (E := cenv64) fenv64_good (by norm_num) fenv64_contract fenv64_total diffSq_line sqDiff_line diffSq_eq
example := C94_differ (E := cenv64) fenv64_good (by norm_num) fenv64_contract fenv64_total diffSq_line sqDiff_line diffSq_names
  sqDiff_names (by decide +kernel)
example := C94_paste (E := cenv64) fenv64_good (by norm_num) fenv64_contract fenv64_total diffSq_line diffSq_names
  (by decide) (by decide)
example := C94_paste_plain (E := cenv64) fenv64_good (by norm_num) fenv64_contract fenv64_total diffSq_line diffSq_names
  (by decide) (by decide) rfl

/-- F57. With a function called `x` the text printed for `x*y^2` is read as a call of it. -/
theorem C94_call : does (after start "func x(a) = a+1") "x*y^2" = (.ok false, "x(y**2)\n".toList) ∧
    does (after start "func x(a) = a+1") "x(y**2)" = (.throw "Invaild string.", []) := by decide +kernel

end Symxx.Cli
