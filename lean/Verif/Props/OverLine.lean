import Verif.Frac.OverEval
import Verif.Frac.IntPos
import Verif.Props.Session
import Verif.Props.Over
import Verif.Props.QuoPow
/-!
# C111: a polynomial over a number in a session

`IsExpr`: the line is neither a command nor a call of a function the user has defined. `IntRing e`: `e` is made of integers, symbols, `+`,
`-`, `*` and natural powers; `PosRing e`: of positive integers, symbols, `+`, `*` and natural powers; `ringSize e` and `ringDeg e` bound its coefficients and exponents. `exprSem ρ e` is the value of `e` when the
symbols have the values `ρ`.
-/
namespace Symxx.Cli
open Symxx.Num Symxx.Sym Cmd

variable {E : CEnv} {B : Nat}

/-- the quotient of `e` and the number `d`. -/
def quotBy (e : Parser.Expr) (d : Int) : Parser.Expr := .node '/' e (.leaf (.num ⟨d, 1⟩))

/-- the line is `e / d`, where `d` is a positive integer and `e` an expression over integers, symbols, `+`, `-`, `*` and natural powers that
is not constant and small enough for the type, none of whose symbols is a constant of the session, and in which no monomial cancels out
(see `C106_cancelled`). -/
structure OverLine (s : St E) (line : List Char) (e : Parser.Expr) (d : Int) : Prop where
  isExpr : IsExpr s line
  parse : Parser.parse E.f.M E.dec line = .ok (quotBy e d)
  ring : IntRing e
  powers : PowFits e
  pos : 0 < d
  size : ringSize e * d ≤ E.f.M
  degree : ringDeg e ≤ E.f.M
  names : ∀ x, .sym x ∈ e.leaves → SymOk x ∧ s.constants.find x = none
  varies : ∃ ρ ρ' : List Char → ℝ, (∀ x, 0 < ρ x) ∧ (∀ x, 0 < ρ' x) ∧ exprSem ρ e ≠ exprSem ρ' e
  clean : ∀ n f, Node.ofExpr E.f e = .ok n → Node.tryEval E.f n = .ok (some f) → ∀ t ∈ f.num, t.coe.val ≠ 0

theorem ringSize_pos : ∀ e : Parser.Expr, 1 ≤ ringSize e
  | .leaf (.num _) => le_max_left _ _
  | .leaf (.sym _) => le_rfl
  | .node c a b => by
    have ha := ringSize_pos a
    have hb := ringSize_pos b
    unfold ringSize
    split
    · nlinarith
    · split
      · exact one_le_pow₀ ha
      · omega

/-- what the line evaluates to. -/
theorem over_core (hg : E.f.toEnv.Good B) (hB : 1 ≤ B) (hs : SortContract E.f) (hr : SortReturns E.f) (ht : Poly.SortTotal E.f) (h1 : Frac.SortOne E.f)
    {line : List Char} {s : St E} {e : Parser.Expr} {d : Int} (h : OverLine s line e d) :
    ∃ (p : Poly) (g : Frac) (n : Node) (t : List Char) (e' : Parser.Expr), p.IntLe (ringDeg e) ∧ p.Reduced ∧ p.l1 * d ≤ E.f.M ∧
      (∀ ρ, (∀ x, 0 < ρ x) → exprSem ρ e = some (Poly.value ρ p)) ∧ Frac.mk2 E.f p [Term.con d] = .ok g ∧
      Node.ofExpr E.f (quotBy e d) = .ok n ∧ Node.normalize E.f n = .ok (.frac g) ∧
      Node.toStr E.f.toEnv (.frac g) = .ok t ∧ Parser.parse E.f.M E.dec t = .ok e' ∧
      (∀ ρ, exprSem ρ e' = (Node.frac g).sem ρ) ∧ (∀ ρ, (Node.frac g).sem ρ = some (Poly.value ρ p / d)) ∧
      dispatch E line s = (.ok false, s, t ++ ['\n']) := by
  have hi : E.f.toEnv.IntOk := (hg.powOk hB).toIntOk
  have hM2 : 2 ≤ E.f.M := le_trans (by norm_num) hg.hM
  have : ClosedNat E.f.M (fun p : List Char × Rational => NatExp p ∧ (SymOk p.1 ∧ s.constants.find p.1 = none)) :=
    natExp_names E.f.M fun x => SymOk x ∧ s.constants.find x = none
  have r0 : 0 ≤ ringSize e := le_trans zero_le_one (ringSize_pos e)
  have hsz : ringSize e ≤ E.f.M := le_trans (le_mul_of_one_le_right r0 h.pos) h.size
  obtain ⟨n, f, n1, n2, -, n4, n5, n6, n8, n9⟩ := ring_tidy (P := fun p => NatExp p ∧ (SymOk p.1 ∧ s.constants.find p.1 = none))
    hg hB hs ht h.ring h.powers hsz h.degree fun x hx => ⟨⟨by norm_num, rfl⟩, h.names x hx⟩
  have hc := h.clean n f n1 n2
  obtain ⟨p, den⟩ := f
  obtain ⟨p1, p2, p3⟩ := n4
  simp only at p1 p2 p3 n5 n6 hc n9
  subst p3
  have hnz : p.nonzero = p := by
    unfold Poly.nonzero
    rw [List.filter_eq_self]
    intro u hu
    simpa using hc u hu
  have hred : p.Reduced := by
    refine ⟨p2, fun t ht h0 => hc t ht ?_, fun t ht => fun q hq => ((n6.norm t ht).syms.2 q hq).2, ?_⟩
    · rw [(p1 t ht).1, h0]; simp [Real.int, Real.val, Rational.val]
    · have := n6.dec
      rw [hnz] at this
      refine List.Pairwise.imp_of_mem ?_ this
      intro a b ha hb hlt he
      have : a.group = b.group := by
        unfold Term.group
        rw [he, (p1 a ha).1, (p1 b hb).1]
        rfl
      rw [this] at hlt
      exact lt_irrefl _ hlt
  have hm : p.l1 * d ≤ E.f.M := le_trans (mul_le_mul_of_nonneg_right n5 h.pos.le) h.size
  have D0 : 0 ≤ ringDeg e := Sym.ringDeg_nonneg e
  have hdM : d ≤ E.f.M := le_trans (le_mul_of_one_le_left h.pos.le (ringSize_pos e)) h.size
  have ad : |d| ≤ E.f.M := by rw [abs_of_pos h.pos]; exact hdM
  obtain ⟨g, g1, g2⟩ := Frac.mk2_value hg hB hs hr D0 h.degree p1 hred h.pos hm
  obtain ⟨t, ts, -, q2, -, g3⟩ := Frac.mk2_over hg hB hs hr D0 h.degree p1 hred h.pos hm
  rw [g1] at g3
  injection g3 with g3
  set k : Int := ((Int.gcd t.coe.coe.num d : Nat) : Int) with hk
  have k0 : 0 < k := by
    have : 0 < Int.gcd t.coe.coe.num d := Int.gcd_pos_iff.2 (Or.inr h.pos.ne')
    rw [hk]
    exact_mod_cast this
  have kd : k ∣ d := Int.gcd_dvd_right ..
  have kle : k ≤ d := Int.le_of_dvd h.pos kd
  have b0 : 0 < d / k := Int.ediv_pos_of_pos_of_dvd h.pos k0.le kd
  have bM : d / k ≤ E.f.M := le_trans (Int.ediv_le_self _ h.pos.le) hdM
  have one : ((1 : Int)) ≤ E.f.M := hg.M1
  -- what is printed
  have okr : ∀ u ∈ t :: ts, (u.over k).RatOk E.f.M := fun u hu =>
    Term.over_ok h.degree (p1 u (q2.subset hu)) (hred.exps u (q2.subset hu)) k0 kle
      (le_trans (mul_le_mul_of_nonneg_right (Poly.l1_mem (q2.subset hu)) h.pos.le) hm)
  have tok : ∀ u ∈ t :: ts, TermOk E.f.M B (u.over k) := fun u hu => by
    have h1 := okr u hu
    have h2 := abs_nonneg (u.over k).coe.coe.num
    refine ⟨⟨h1.normal.canon, h1.den, ?_, ?_, ?_⟩, fun q hq => ?_⟩
    · have hd := h1.den
      have hf := h1.fits
      refine ⟨by nlinarith, ?_⟩
      rw [abs_of_pos hd]
      have := (Sym.ofQ_bounds (n := u.coe.coe.num) k0).2
      exact le_trans this (le_trans kle hdM)
    · show ((1 : Int)) ≤ B
      exact_mod_cast hB
    · show ((1 : Nat) : Int) ≤ _
      exact_mod_cast one
    · have hq : q ∈ u.syms := hq
      obtain ⟨⟨a1, a2⟩, a3, -⟩ := n8.1 u (q2.subset hu) q hq
      exact ⟨a3, a1, le_trans (le_abs_self _) (le_trans ((p1 u (q2.subset hu)).2.1 q hq).2 h.degree), a2⟩
  have fok : FracOk E.f.M B g := by
    rw [g3]
    refine ⟨?_, ?_, by simp, by simp, ?_⟩
    · intro u hu
      obtain ⟨v, hv, rfl⟩ := List.mem_map.1 hu
      exact tok v hv
    · intro u hu
      rw [List.mem_singleton] at hu
      subst hu
      exact ⟨Node.coeOk_int one hB (by rw [abs_of_pos b0]; exact bM), by simp [Term.con, Term.ofReal]⟩
    · intro u hu
      have : Term.con (d / k) = u := by simpa using hu
      subst this
      exact ⟨rfl, rfl, Or.inl ⟨b0.le, rfl⟩⟩
  have nok : NodeOk E.f.M B 0 (.frac g) := ⟨fok, fun _ => by simp [PolyAt]⟩
  obtain ⟨text, e', t1, t2, t3⟩ := C55_tree_partial hM2 hg nok E.dec
  -- the tree
  have ol : Node.ofLeaf E.f (.num ⟨d, 1⟩) = .ok ⟨[Term.con d], [Term.con 1]⟩ :=
    Node.ofLeaf_num hi hs.ok h1 ⟨ad, by simpa using one⟩ one_pos (by simp [Rational.Lowest])
  have on : Node.ofExpr E.f (quotBy e d) = .ok (.op '/' n (.frac ⟨[Term.con d], [Term.con 1]⟩)) := by
    unfold quotBy Node.ofExpr
    rw [n1, Res.bind_ok]
    unfold Node.ofExpr
    rw [ol]
    rfl
  have nn : Node.normalize E.f (.op '/' n (.frac ⟨[Term.con d], [Term.con 1]⟩)) = .ok (.frac g) := by
    have h2 : Node.tryEval E.f (.frac ⟨[Term.con d], [Term.con 1]⟩) = .ok (some ⟨[Term.con d], [Term.con 1]⟩) := rfl
    have h3 : Frac.div E.f ⟨p, unitPoly⟩ ⟨[Term.con d], [Term.con 1]⟩ = .ok g := by
      rw [← g1]
      exact Frac.div_number hg hB hs hr ht D0 h.degree p1 hred h.pos hm
    unfold Node.normalize
    rw [n2, Res.bind_ok, h2, Res.bind_ok]
    simp only
    rw [if_neg (by decide), if_neg (by decide), if_neg (by decide)]
    simp only [if_true]
    rw [h3, Res.bind_ok]
  have hsym : Poly.noSymbols g.num = false := by
    by_contra hcon
    obtain ⟨ρ, ρ', r1, r2, r3⟩ := h.varies
    refine r3 ?_
    rw [n9 ρ r1, n9 ρ' r2]
    have hp : ∀ u ∈ p, u.syms = [] := by
      intro u hu
      have h1 : Poly.noSymbols g.num = true := by simpa using hcon
      rw [g3] at h1
      unfold Poly.noSymbols at h1
      rw [List.all_eq_true] at h1
      have := h1 (u.over k) (List.mem_map_of_mem (q2.symm.subset hu))
      simpa [Term.noSymbols, Term.over] using this
    congr 1
    unfold Poly.value
    congr 1
    refine List.map_congr_left fun u hu => ?_
    unfold Term.value
    rw [hp u hu]
    simp [Syms.value]
  refine ⟨p, g, _, text, e', p1, hred, hm, n9, g1, on, nn, t1, t2, t3, fun ρ => ?_, ?_⟩
  · refine Node.sem_frac.2 ⟨?_, g2 ρ⟩
    rw [g3]
    have : ((d / k : Int) : ℝ) ≠ 0 := by exact_mod_cast b0.ne'
    have e := Node.int_value (d / k) [] ρ
    rw [show Poly.value ρ [Term.con (d / k)] = _ from e]
    simpa [Syms.value] using this
  · rw [dispatch_other h.isExpr.1]
    refine then_ok ?_
    rw [cmdOther_expr h.isExpr.2]
    unfold cmdNormalize parseNormal Node.ofText
    rw [lift_bind, h.parse, Res.bind_ok, on, Res.bind_ok, nn]
    have e1 : Node.normalize E.f (.frac g) = .ok (.frac g) := rfl
    show printResult E (.frac g) s = _
    unfold printResult
    rw [lift_bind, e1]
    simp only
    rw [lift_bind, t1]
    simp only
    rw [bind_def]
    simp only [Cmd.print]
    rw [lift_bind, isInteger_open hsym]
    simp only [Bool.false_eq_true, if_false]
    have : Node.tryEvalLD E.flt s.constants (.frac g) = .ok none := by
      unfold Node.tryEvalLD Frac.tryEvalLD Poly.tryEvalLD
      rw [poly_none hsym]
      intro u hu q hq
      rw [g3] at hu
      obtain ⟨v, hv, rfl⟩ := List.mem_map.1 hu
      exact (n8.1 v (q2.subset hv) q hq).2.2
    rw [bind_def]
    simp only [Cmd.get]
    rw [lift_bind, this]
    rfl

theorem quotBy_sem {e : Parser.Expr} {d : Int} (hd : 0 < d) {ρ : List Char → ℝ} {v : ℝ} (h : exprSem ρ e = some v) :
    exprSem ρ (quotBy e d) = some (v / d) := by
  have d0 : (d : ℝ) ≠ 0 := by exact_mod_cast hd.ne'
  unfold quotBy exprSem
  rw [h]
  simp [exprSem, opSem, Rational.val, d0]

/-- The line prints one text and a line break and changes nothing, and the text reads as an expression that has the value of the line, whatever
the positive values of the symbols are. -/
theorem C111_uncancelled_line (hg : E.f.toEnv.Good B) (hB : 1 ≤ B) (hs : SortContract E.f) (hr : SortReturns E.f) (ht : Poly.SortTotal E.f)
    (h1 : Frac.SortOne E.f) {line : List Char} {s : St E} {e : Parser.Expr} {d : Int} (h : OverLine s line e d) :
    ∃ t e', dispatch E line s = (.ok false, s, t ++ ['\n']) ∧ Parser.parse E.f.M E.dec t = .ok e' ∧
      ∀ ρ, (∀ x, 0 < ρ x) → exprSem ρ e' = exprSem ρ (quotBy e d) := by
  obtain ⟨p, g, n, t, e', -, -, -, c4, -, -, -, -, c9, c10, c11, c12⟩ := over_core hg hB hs hr ht h1 h
  exact ⟨t, e', c12, c9, fun ρ hρ => by rw [c10, c11, quotBy_sem h.pos (c4 ρ hρ)]⟩

/-- Two such lines print the same exactly if they are equal as functions of the symbols. -/
theorem C111_uncancelled_same (hg : E.f.toEnv.Good B) (hB : 1 ≤ B) (hs : SortContract E.f) (hr : SortReturns E.f) (ht : Poly.SortTotal E.f)
    (h1 : Frac.SortOne E.f) {line line' : List Char} {s s' : St E} {e e' : Parser.Expr} {d d' : Int} (h : OverLine s line e d)
    (h' : OverLine s' line' e' d') :
    ∃ t t', dispatch E line s = (.ok false, s, t) ∧ dispatch E line' s' = (.ok false, s', t') ∧
      (t = t' ↔ ∀ ρ, (∀ x, 0 < ρ x) → exprSem ρ (quotBy e d) = exprSem ρ (quotBy e' d')) := by
  obtain ⟨p, g, n, t, u, c1, c2, c3, c4, c5, -, -, c8, c9, c10, c11, c12⟩ := over_core hg hB hs hr ht h1 h
  obtain ⟨p', g', n', t', u', b1, b2, b3, b4, b5, -, -, b8, b9, b10, b11, b12⟩ := over_core hg hB hs hr ht h1 h'
  refine ⟨_, _, c12, b12, ?_, ?_⟩
  · intro he ρ hρ
    have he : t = t' := by simpa using he
    subst he
    rw [c9] at b9
    injection b9 with b9
    subst b9
    rw [quotBy_sem h.pos (c4 ρ hρ), quotBy_sem h'.pos (b4 ρ hρ), ← c11, ← b11, ← c10, ← b10]
  · intro he
    have := Frac.mk2_same hg hB hs hr (D := max (ringDeg e) (ringDeg e')) (le_max_of_le_left (Sym.ringDeg_nonneg e))
      (max_le h.degree h'.degree) (c1.mono (le_max_left _ _)) c2 h.pos c3 (b1.mono (le_max_right _ _)) b2 h'.pos b3 fun ρ hρ => by
        have h2 := he ρ hρ
        rw [quotBy_sem h.pos (c4 ρ hρ), quotBy_sem h'.pos (b4 ρ hρ)] at h2
        injection h2
    rw [c5, b5] at this
    injection this with this
    subst this
    rw [c8] at b8
    injection b8 with b8
    rw [b8]

/-! ### without a hypothesis on what cancels -/

/-- the line is `e / d`, where `d` is a positive integer and `e` an expression over positive integers, symbols, `+`, `*` and natural powers
that is not constant and small enough for the type, none of whose symbols is a constant of the session. -/
structure PosOverLine (s : St E) (line : List Char) (e : Parser.Expr) (d : Int) : Prop where
  isExpr : IsExpr s line
  parse : Parser.parse E.f.M E.dec line = .ok (quotBy e d)
  ring : PosRing e
  powers : PowFits e
  pos : 0 < d
  size : ringSize e * d ≤ E.f.M
  degree : ringDeg e ≤ E.f.M
  names : ∀ x, .sym x ∈ e.leaves → SymOk x ∧ s.constants.find x = none
  varies : ∃ ρ ρ' : List Char → ℝ, (∀ x, 0 < ρ x) ∧ (∀ x, 0 < ρ' x) ∧ exprSem ρ e ≠ exprSem ρ' e

theorem PosOverLine.over (hg : E.f.toEnv.Good B) (hB : 1 ≤ B) (hs : SortContract E.f) (ht : Poly.SortTotal E.f)
    {line : List Char} {s : St E} {e : Parser.Expr} {d : Int} (h : PosOverLine s line e d) : OverLine s line e d where
  isExpr := h.isExpr
  parse := h.parse
  ring := h.ring.ring
  powers := h.powers
  pos := h.pos
  size := h.size
  degree := h.degree
  names := h.names
  varies := h.varies
  clean := by
    intro n f hn hf
    have r0 : 0 ≤ ringSize e := le_trans zero_le_one (ringSize_pos e)
    have hsz : ringSize e ≤ E.f.M := le_trans (le_mul_of_one_le_right r0 h.pos) h.size
    have hp := Node.ring_pos (hg.powOk hB) hs.ok ht h.ring hsz h.degree h.powers hn hf
    have : ClosedNat E.f.M (fun p : List Char × Rational => NatExp p ∧ (SymOk p.1 ∧ s.constants.find p.1 = none)) :=
      natExp_names E.f.M fun x => SymOk x ∧ s.constants.find x = none
    obtain ⟨n', f', n1, n2, -, n4, -⟩ := ring_tidy (P := fun p => NatExp p ∧ (SymOk p.1 ∧ s.constants.find p.1 = none))
      hg hB hs ht h.ring.ring h.powers hsz h.degree fun x hx => ⟨⟨by norm_num, rfl⟩, h.names x hx⟩
    have e1 := Res.same n1 hn
    subst e1
    have e2 := Res.same n2 hf
    injection e2 with e2
    subst e2
    intro t ht
    have h1 := hp t ht
    rw [(n4.num t ht).1]
    have : ((t.coe.coe.num : Int) : ℝ) ≠ 0 := by exact_mod_cast h1.ne'
    simpa [Real.int, Real.val, Rational.val] using this

/-- The line prints one text and a line break and changes nothing, and the text reads as an expression that has the value of the line, whatever
the positive values of the symbols are. -/
theorem C111_line (hg : E.f.toEnv.Good B) (hB : 1 ≤ B) (hs : SortContract E.f) (hr : SortReturns E.f) (ht : Poly.SortTotal E.f)
    (h1 : Frac.SortOne E.f) {line : List Char} {s : St E} {e : Parser.Expr} {d : Int} (h : PosOverLine s line e d) :
    ∃ t e', dispatch E line s = (.ok false, s, t ++ ['\n']) ∧ Parser.parse E.f.M E.dec t = .ok e' ∧
      ∀ ρ, (∀ x, 0 < ρ x) → exprSem ρ e' = exprSem ρ (quotBy e d) :=
  C111_uncancelled_line hg hB hs hr ht h1 (h.over hg hB hs ht)

/-- Two such lines print the same exactly if they are equal as functions of the symbols. -/
theorem C111_same (hg : E.f.toEnv.Good B) (hB : 1 ≤ B) (hs : SortContract E.f) (hr : SortReturns E.f) (ht : Poly.SortTotal E.f)
    (h1 : Frac.SortOne E.f) {line line' : List Char} {s s' : St E} {e e' : Parser.Expr} {d d' : Int} (h : PosOverLine s line e d)
    (h' : PosOverLine s' line' e' d') :
    ∃ t t', dispatch E line s = (.ok false, s, t) ∧ dispatch E line' s' = (.ok false, s', t') ∧
      (t = t' ↔ ∀ ρ, (∀ x, 0 < ρ x) → exprSem ρ (quotBy e d) = exprSem ρ (quotBy e' d')) :=
  C111_uncancelled_same hg hB hs hr ht h1 (h.over hg hB hs ht) (h'.over hg hB hs ht)

/-! ### instances -/

/-- `1 + 2x`. -/
def lineEx : Parser.Expr := .node '+' (.leaf (.num ⟨1, 1⟩)) (.node '*' (.leaf (.num ⟨2, 1⟩)) (.leaf (.sym ['x'])))
/-- `4x + 2`. -/
def lineEx2 : Parser.Expr := .node '+' (.node '*' (.leaf (.num ⟨4, 1⟩)) (.leaf (.sym ['x']))) (.leaf (.num ⟨2, 1⟩))

theorem clean_of {env : FEnv} {e : Parser.Expr} {p : Poly}
    (h : (Node.ofExpr env e >>= Node.tryEval env) = .ok (some ⟨p, unitPoly⟩)) (h0 : ∀ t ∈ p, t.coe.val ≠ 0) :
    ∀ n f, Node.ofExpr env e = .ok n → Node.tryEval env n = .ok (some f) → ∀ t ∈ f.num, t.coe.val ≠ 0 := by
  intro n f h1 h2
  rw [h1, Res.bind_ok, h2] at h
  injection h with h
  injection h with h
  subst h
  exact h0

theorem lineEx_sem (ρ : List Char → ℝ) : exprSem ρ lineEx = some (1 + 2 * ρ ['x']) := by simp [lineEx, exprSem, opSem, Rational.val]
theorem lineEx2_sem (ρ : List Char → ℝ) : exprSem ρ lineEx2 = some (4 * ρ ['x'] + 2) := by simp [lineEx2, exprSem, opSem, Rational.val]

theorem lineEx_line : OverLine start "(1+2*x)/4".toList lineEx 4 where
  isExpr := start_expr _ (by decide)
  parse := by decide +kernel
  ring := by simp [IntRing, lineEx]
  powers := by simp [PowFits, lineEx]
  pos := by norm_num
  size := by decide
  degree := by decide
  names := by
    intro x hx
    simp [lineEx, Parser.Expr.leaves] at hx
    subst hx
    exact ⟨Or.inr ⟨'x', rfl, by decide⟩, rfl⟩
  varies := by
    refine ⟨fun _ => 1, fun _ => 2, fun _ => by norm_num, fun _ => by norm_num, ?_⟩
    rw [lineEx_sem, lineEx_sem]
    norm_num
  clean := clean_of (p := [⟨Real.int 2, [(['x'], ⟨1, 1⟩)]⟩, Term.con 1]) (by decide +kernel) (by
    intro t ht
    simp only [List.mem_cons, List.not_mem_nil, or_false] at ht
    rcases ht with rfl | rfl <;> simp [Term.con, Term.ofReal, Real.int, Real.val, Rational.val])

theorem lineEx2_line : OverLine start "(4*x+2)/8".toList lineEx2 8 where
  isExpr := start_expr _ (by decide)
  parse := by decide +kernel
  ring := by simp [IntRing, lineEx2]
  powers := by simp [PowFits, lineEx2]
  pos := by norm_num
  size := by decide
  degree := by decide
  names := by
    intro x hx
    simp [lineEx2, Parser.Expr.leaves] at hx
    subst hx
    exact ⟨Or.inr ⟨'x', rfl, by decide⟩, rfl⟩
  varies := by
    refine ⟨fun _ => 1, fun _ => 2, fun _ => by norm_num, fun _ => by norm_num, ?_⟩
    rw [lineEx2_sem, lineEx2_sem]
    norm_num
  clean := clean_of (p := [⟨Real.int 4, [(['x'], ⟨1, 1⟩)]⟩, Term.con 2]) (by decide +kernel) (by
    intro t ht
    simp only [List.mem_cons, List.not_mem_nil, or_false] at ht
    rcases ht with rfl | rfl <;> simp [Term.con, Term.ofReal, Real.int, Real.val, Rational.val])

theorem lineEx_eq (ρ : List Char → ℝ) : exprSem ρ (quotBy lineEx 4) = exprSem ρ (quotBy lineEx2 8) := by
  rw [quotBy_sem (by norm_num) (lineEx_sem ρ), quotBy_sem (by norm_num) (lineEx2_sem ρ)]
  congr 1
  push_cast
  ring

example := C111_uncancelled_line (E := cenv64) fenv64_good (by norm_num) fenv64_contract fenv64_returns fenv64_total fenv64_one lineEx_line
example := C111_uncancelled_same (E := cenv64) fenv64_good (by norm_num) fenv64_contract fenv64_returns fenv64_total fenv64_one lineEx_line lineEx2_line

/-- the two lines; a different function; and a line in which monomials cancel, for which C111 fails (F66). -/
theorem C111_example : does start "(1+2*x)/4" = (.ok false, "(x+1/2)/2\n".toList) ∧ does start "(4*x+2)/8" = (.ok false, "(x+1/2)/2\n".toList) ∧
    does start "(2+2*x)/4" = (.ok false, "(x+1)/2\n".toList) ∧
    does start "(z+1+2*x-z)/4" = (.ok false, "1/2x+1/4\n".toList) := by decide +kernel

/-- `((1+x)^2*y+3)/6`. -/
def powLine : Parser.Expr := .node '+' (.node '*' (.node '^' (.node '+' (.leaf (.num ⟨1, 1⟩)) (.leaf (.sym ['x']))) (.leaf (.num ⟨2, 1⟩)))
  (.leaf (.sym ['y']))) (.leaf (.num ⟨3, 1⟩))
/-- `((x+1)*2*(x+1)*y+6)/12`. -/
def powLine2 : Parser.Expr := .node '+' (.node '*' (.node '*' (.node '*' (.node '+' (.leaf (.sym ['x'])) (.leaf (.num ⟨1, 1⟩)))
  (.leaf (.num ⟨2, 1⟩))) (.node '+' (.leaf (.sym ['x'])) (.leaf (.num ⟨1, 1⟩)))) (.leaf (.sym ['y']))) (.leaf (.num ⟨6, 1⟩))

theorem powLine_sem (ρ : List Char → ℝ) (h : ∀ x, 0 < ρ x) : exprSem ρ powLine = some ((1 + ρ ['x']) ^ 2 * ρ ['y'] + 3) := by
  have h1 : 0 < 1 + ρ ['x'] := by have := h ['x']; linarith
  simp [powLine, exprSem, opSem, Rational.val, h1]
theorem powLine2_sem (ρ : List Char → ℝ) : exprSem ρ powLine2 = some ((ρ ['x'] + 1) * 2 * (ρ ['x'] + 1) * ρ ['y'] + 6) := by
  simp [powLine2, exprSem, opSem, Rational.val]

theorem powLine_line : PosOverLine start "((1+x)^2*y+3)/6".toList powLine 6 where
  isExpr := start_expr _ (by decide)
  parse := by decide +kernel
  ring := by
    refine Or.inl ⟨Or.inl rfl, Or.inl ⟨Or.inr rfl, Or.inr ⟨rfl, Or.inl ⟨Or.inl rfl, ⟨rfl, ?_⟩, trivial⟩, 2, rfl⟩, trivial⟩, rfl, ?_⟩ <;>
      norm_num
  powers := by simp [PowFits, powLine, ringSize, expo, oneTerm, Nat.factorial]
  pos := by norm_num
  size := by decide
  degree := by decide
  names := by
    intro x hx
    simp [powLine, Parser.Expr.leaves] at hx
    rcases hx with rfl | rfl
    · exact ⟨Or.inr ⟨'x', rfl, by decide⟩, rfl⟩
    · exact ⟨Or.inr ⟨'y', rfl, by decide⟩, rfl⟩
  varies := by
    refine ⟨fun _ => 1, fun _ => 2, fun _ => by norm_num, fun _ => by norm_num, ?_⟩
    rw [powLine_sem _ (fun _ => by norm_num), powLine_sem _ (fun _ => by norm_num)]
    norm_num

theorem powLine2_line : PosOverLine start "((x+1)*2*(x+1)*y+6)/12".toList powLine2 12 where
  isExpr := start_expr _ (by decide)
  parse := by decide +kernel
  ring := by simp [PosRing, powLine2]
  powers := by simp [PowFits, powLine2]
  pos := by norm_num
  size := by decide
  degree := by decide
  names := by
    intro x hx
    simp [powLine2, Parser.Expr.leaves] at hx
    rcases hx with rfl | rfl
    · exact ⟨Or.inr ⟨'x', rfl, by decide⟩, rfl⟩
    · exact ⟨Or.inr ⟨'y', rfl, by decide⟩, rfl⟩
  varies := by
    refine ⟨fun _ => 1, fun _ => 2, fun _ => by norm_num, fun _ => by norm_num, ?_⟩
    rw [powLine2_sem, powLine2_sem]
    norm_num

/-- the two lines are equal as functions, so they print the same. -/
theorem powLine_eq (ρ : List Char → ℝ) (h : ∀ x, 0 < ρ x) : exprSem ρ (quotBy powLine 6) = exprSem ρ (quotBy powLine2 12) := by
  rw [quotBy_sem (by norm_num) (powLine_sem ρ h), quotBy_sem (by norm_num) (powLine2_sem ρ)]
  congr 1
  push_cast
  ring

example := C111_line (E := cenv64) fenv64_good (by norm_num) fenv64_contract fenv64_returns fenv64_total fenv64_one powLine_line
example := C111_same (E := cenv64) fenv64_good (by norm_num) fenv64_contract fenv64_returns fenv64_total fenv64_one powLine_line powLine2_line

theorem C111_example_pow : does start "((1+x)^2*y+3)/6" = does start "((x+1)*2*(x+1)*y+6)/12" ∧
    (does start "((1+x)^2*y+3)/6").1 = .ok false := by decide +kernel

end Symxx.Cli
