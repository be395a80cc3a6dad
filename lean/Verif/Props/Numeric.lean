import Verif.Expr.NumericInst
import Verif.Expr.PrintInt
import Verif.Num.OutputProof
import Verif.Props.Calc
import Verif.Props.Factor
/-!
# C83–C85: the value printed behind `=`, and `factor`

`FltSem`, `Exact`, `ConstsAt`, `IntSteps` are in `Verif/Expr/NumericSpec.lean`; `decVal` (`Verif/Num/Decimal.lean`) is the number
a decimal text denotes; `intVal κ e` (`Verif/Expr/Spec.lean`) is the integer an expression denotes at the integers `κ`.
-/
namespace Symxx.Sym
open Symxx.Num

variable {F : Flt} {v : List (List Char × F.LD)}

/-! ### C83: evaluation with constants -/

/-- the evaluation returns, and it has a value exactly if every symbol of the expression is bound. -/
theorem C83_defined {n : Node} (hn : n.Ops) :
    ∃ o, Node.tryEvalLD F v n = .ok o ∧ (o ≠ none ↔ ∀ x ∈ n.names, x ∈ v.map (·.1)) := by
  obtain ⟨o, h1, h2⟩ := Node.tryEvalLD_isSome (F := F) (v := v) hn
  refine ⟨o, h1, ?_⟩
  rw [← h2]
  cases o <;> simp

/-- the operators of a tree that has a value anywhere are the five operators. -/
theorem Node.ops_of_sem {n : Node} {ρ : List Char → ℝ} {x : ℝ} (h : n.sem ρ = some x) : n.Ops := by
  induction n generalizing x with
  | frac f => trivial
  | op c l r il ir =>
    obtain ⟨a, h1, h2⟩ := Option.bind_eq_some_iff.1 (show ((Node.sem ρ l).bind fun x => (Node.sem ρ r).bind fun y => opSem c x y) = _ from h)
    obtain ⟨b, h3, h4⟩ := Option.bind_eq_some_iff.1 h2
    exact ⟨opSem_ops h4, il h1, ir h3⟩

/-- at integers, if every step has an integer result the types hold exactly, the result is the value of the expression. -/
theorem C83_exact {S : FltSem F} {N : Int} (h : S.Exact N) {κ : List Char → Int} {n : Node} {k : Int} (hn : n.IntSteps κ N k)
    (hv : ConstsAt S v κ N n.names) :
    n.sem (fun x => (κ x : ℝ)) = some (k : ℝ) ∧ ∃ a, Node.tryEvalLD F v n = .ok (some a) ∧ S.ld a = some (k : ℝ) :=
  ⟨hn.sem, (Node.tryEvalLD_int h hn hv).2⟩

/-- `(x^2 - 3*y)/2 ^ y` at `x = 5`, `y = 3`. -/
def steps : Node := .op '^' (.frac ⟨[mono 1 1 ['x'] 2, mono (-3) 1 ['y'] 1], [cst 2]⟩) (ls ['y'])
/-- `x = 5`, `y = 3`. -/
def kxy (x : List Char) : Int := if x = ['x'] then 5 else if x = ['y'] then 3 else 0
/-- the constants. -/
def vxy : List (List Char × flt64.LD) := [(['x'], some (5 : ℚ)), (['y'], some (3 : ℚ))]

theorem steps_ok : steps.IntSteps kxy (2 ^ 53) 512 := by
  have nat : ∀ (c : Int) (x : List Char) (k : Int), 0 ≤ k → k ≤ 2 ^ 53 →
      (mono c 1 x k).coe = Num.Real.int (mono c 1 x k).coe.coe.num ∧ ∀ q ∈ (mono c 1 x k).syms, NatExp q ∧ q.2.num ≤ 2 ^ 53 := by
    intro c x k h1 h2
    refine ⟨rfl, fun q hq => ?_⟩
    simp only [mono, List.mem_singleton] at hq
    subst hq
    exact ⟨⟨h1, rfl⟩, h2⟩
  have con : ∀ (c : Int), (cst c).coe = Num.Real.int (cst c).coe.coe.num ∧ ∀ q ∈ (cst c).syms, NatExp q ∧ q.2.num ≤ 2 ^ 53 := by
    intro c
    exact ⟨rfl, fun q hq => by simp [cst] at hq⟩
  refine ⟨8, 3, ⟨?_, ?_, ⟨by decide, by decide⟩, ⟨by decide, by decide⟩, by decide, by decide⟩,
    ⟨?_, ?_, ⟨by decide, by decide⟩, ⟨by decide, by decide⟩, by decide, by decide⟩, ?_, by decide⟩
  · intro t ht
    simp only [List.mem_cons, List.not_mem_nil, or_false] at ht
    rcases ht with rfl | rfl
    · exact nat _ _ _ (by norm_num) (by norm_num)
    · exact nat _ _ _ (by norm_num) (by norm_num)
  · intro t ht
    rw [List.mem_singleton] at ht
    subst ht
    exact con 2
  · intro t ht
    rw [List.mem_singleton] at ht
    subst ht
    exact nat _ _ _ (by norm_num) (by norm_num)
  · intro t ht
    rw [List.mem_singleton] at ht
    subst ht
    exact con 1
  · have := opSem_pow_nat 8 3
    norm_num at this ⊢
    exact this

theorem vxy_ok : ConstsAt sem64 vxy kxy (2 ^ 53) steps.names := by
  intro x hx
  have : x = ['x'] ∨ x = ['y'] := by
    have e : steps.names = [['x'], ['y'], ['y']] := by decide
    rw [e] at hx
    simp at hx
    tauto
  rcases this with rfl | rfl
  · exact ⟨by decide, some 5, rfl, by simp [sem64, kxy]⟩
  · exact ⟨by decide, some 3, rfl, by simp [sem64, kxy]⟩

example := C83_exact sem64_exact steps_ok vxy_ok
example := C83_defined (F := flt64) (v := vxy) (n := steps) ⟨by simp, trivial, trivial⟩

/-- the evaluation with `flt64`. -/
def num64 (v : List (List Char × flt64.LD)) (n : Node) : Res (Option (Option ℚ)) := Node.tryEvalLD flt64 v n
/-- without a value for `y`: nothing; division by zero: not a number, no error. -/
theorem C83_examples : num64 vxy steps = .ok (some (some 512)) ∧ num64 (vxy.take 1) steps = .ok none ∧
    num64 vxy (.op '/' (lf 1) (.op '-' (ls ['x']) (lf 5))) = .ok (some none) := by decide +kernel

end Symxx.Sym

namespace Symxx.Num

/-! ### C84: the digits -/

/-- the text printed for a number names a number that is right to six significant digits. -/
theorem C84_digits (q : ℚ) : ∃ r, decVal (showG q) = some r ∧ |r - q| ≤ |q| / 200000 := showG_close q

/-- integers of up to six digits are printed as they are. -/
theorem C84_integers {n : Int} (hn : |n| < 1000000) : showG (n : ℚ) = (toString n).toList := showG_int hn

/-- larger integers are not; zeros at the end are left out; very small and large numbers have an exponent. -/
theorem C84_examples : showG 1234567 = "1.23457e+06".toList ∧ showG (1000000 : ℚ) = "1e+06".toList ∧ showG (1 / 3) = "0.333333".toList ∧
    showG (-5 / 2) = "-2.5".toList ∧ showG (999999.5 : ℚ) = "1e+06".toList ∧ showG (1 / 80000) = "1.25e-05".toList ∧
    showG (1 / 10000) = "0.0001".toList ∧ showG 999999 = "999999".toList := by decide +kernel

example := C84_digits (2 / 3)
example : showG ((-999999 : Int) : ℚ) = (toString (-999999 : Int)).toList := C84_integers (by norm_num)

end Symxx.Num

namespace Symxx.Cli
open Symxx.Num Symxx.Sym Cmd

variable {E : CEnv} {B : Nat}

theorem find_findLD (t : Table E.LD) (x : List Char) : findLD E.flt t x = t.find x := by
  unfold findLD
  induction t with
  | nil => rfl
  | cons p t ih =>
    obtain ⟨k, v⟩ := p
    unfold Table.find
    by_cases h : x = k
    · subst h; rw [if_pos rfl, List.find?_cons_of_pos (by simp)]; rfl
    · rw [if_neg h, List.find?_cons_of_neg (by simpa using fun h' => h h'.symm)]; exact ih

/-- the sizes for which the value at `m` symbols of size at most `K` is exact: `N` is the largest integer in question. -/
structure FitsAt (M N : Int) (e : Parser.Expr) (m : Nat) (K : Int) : Prop where
  size : ringSize e ≤ M
  deg : ringDeg e ≤ M
  degN : ringDeg e ≤ N
  powers : PowFits e
  one : 1 ≤ K
  const : K ≤ N
  all : max 1 (ringSize e) * K ^ ((ringDeg e).toNat * m) ≤ N

theorem ringDeg_nonneg (e : Parser.Expr) : 0 ≤ ringDeg e := by
  induction e with
  | leaf l => cases l <;> simp [ringDeg]
  | node c a b ia ib =>
    unfold ringDeg
    split
    · omega
    · split
      · exact mul_nonneg ia (le_trans zero_le_one (le_max_left _ _))
      · exact le_trans ia (le_max_left _ _)

theorem powSize_le {κ : List Char → Int} {K : Int} {d : Nat} (hK : 1 ≤ K) {s : Syms} (h : ∀ p ∈ s, |κ p.1| ≤ K ∧ p.2.num.toNat ≤ d) :
    (s.map fun p => max 1 |κ p.1| ^ p.2.num.toNat).prod ≤ K ^ (d * s.length) := by
  induction s with
  | nil => simp
  | cons p s ih =>
    obtain ⟨h1, h2⟩ := h p List.mem_cons_self
    have ih := ih fun q hq => h q (List.mem_cons_of_mem _ hq)
    rw [List.map_cons, List.prod_cons, List.length_cons, Nat.mul_succ, Nat.add_comm, pow_add]
    refine mul_le_mul ?_ ih (le_trans zero_le_one (syms_prod_ge _)) (by positivity)
    exact le_trans (pow_le_pow_left₀ (by positivity) (max_le hK h1) _) (pow_le_pow_right₀ hK h2)

/-- a line over integers, `+`, `-`, `*`, natural powers and symbols with integer values: it prints its normal form and, unless
that is a number, behind ` = ` the value of the expression at these integers. -/
theorem C83_line (hg : E.f.toEnv.Good B) (hB : 1 ≤ B) (hs : SortOk E.f.sort) (ht : Poly.SortTotal E.f) {S : FltSem E.flt} {N : Int}
    (hS : S.Exact N) {line : List Char} {s : St E} {e : Parser.Expr} (hl : IsExpr s line)
    (hp : Parser.parse E.f.M E.dec line = .ok e) (he : IntRing e) {xs : List (List Char)} (hx : ∀ x, .sym x ∈ e.leaves → x ∈ xs)
    {κ : List Char → Int} {K : Int} (hF : FitsAt E.f.M N e xs.length K)
    (hv : ∀ x ∈ xs, |κ x| ≤ K ∧ ∃ a, s.constants.find x = some a ∧ S.ld a = some (κ x : ℝ)) :
    ∃ n f t, Node.ofText E.f E.dec line = .ok n ∧ Node.normalize E.f n = .ok (.frac f) ∧ Node.toStr E.f.toEnv (.frac f) = .ok t ∧
      (f.noSymbols = false → ∃ a, S.ld a = some (intVal κ e : ℝ) ∧
        dispatch E line s = (.ok false, s, t ++ " = ".toList ++ E.showLD a ++ ['\n'])) := by
  have h := hg.powOk hB
  obtain ⟨n, f, n1, n2, n3, n4, n5, hin, n6⟩ := Node.ring_sem (P := fun p => NatExp p ∧ p.1 ∈ xs) hg hB hs ht he hF.powers
    hF.size hF.deg fun x h => ⟨⟨by norm_num, rfl⟩, hx x h⟩
  obtain ⟨t, t1⟩ := Node.toStr_total h.toIntOk hF.deg n4 (le_trans n5 hF.size)
  have hn : Node.ofText E.f E.dec line = .ok n := by
    unfold Node.ofText
    rw [hp, Res.bind_ok, n1]
  refine ⟨n, f, t, hn, n3, t1, fun hsy => ?_⟩
  have hd0 := ringDeg_nonneg e
  have hK := hF.one
  have hval : f.num.at κ = intVal κ e :=
    intVal_at κ he ⟨fun t ht p hp => (hin.1 t ht p hp).1, fun t ht p hp => (hin.2 t ht p hp).1⟩ n4 n6
  have hKN : ∀ t ∈ f.num, t.powSize κ ≤ K ^ ((ringDeg e).toNat * xs.length) := by
    intro t ht
    have hw := (n4.num t ht).2.2.1
    have nd : (t.syms.map (·.1)).Nodup := by
      rw [List.nodup_iff_pairwise_ne, List.pairwise_map]
      exact hw.imp fun hlt => ne_of_lt hlt
    have hlen := (List.subperm_of_subset nd (l₂ := xs) fun x hx => by
      obtain ⟨q, hq, rfl⟩ := List.mem_map.1 hx
      exact (hin.1 t ht q hq).2).length_le
    rw [List.length_map] at hlen
    refine le_trans (powSize_le (d := (ringDeg e).toNat) hK fun p hp => ?_) (pow_le_pow_right₀ hK (Nat.mul_le_mul_left _ hlen))
    refine ⟨(hv _ (hin.1 t ht p hp).2).1, ?_⟩
    have := le_trans (le_abs_self _) ((n4.num t ht).2.1 p hp).2
    omega
  have hKp : (1 : Int) ≤ K ^ ((ringDeg e).toNat * xs.length) := one_le_pow₀ hK
  have hall := hF.all
  have hpN : K ^ ((ringDeg e).toNat * xs.length) ≤ N :=
    le_trans (le_mul_of_one_le_left (by positivity) (le_max_left _ _)) hall
  have hN1 := hS.one
  have hsum : ∀ p : Poly, (∀ t ∈ p, t.powSize κ ≤ K ^ ((ringDeg e).toNat * xs.length)) →
      (p.map fun t => |t.coe.coe.num| * t.powSize κ).sum ≤ p.l1 * K ^ ((ringDeg e).toNat * xs.length) := by
    intro p hp
    induction p with
    | nil => simp [Poly.l1]
    | cons t p ih =>
      have e1 : Poly.l1 (t :: p) = |t.coe.coe.num| + Poly.l1 p := by simp [Poly.l1]
      rw [List.map_cons, List.sum_cons, e1, add_mul]
      exact add_le_add (mul_le_mul_of_nonneg_left (hp t List.mem_cons_self) (abs_nonneg _))
        (ih fun u hu => hp u (List.mem_cons_of_mem _ hu))
  have hsteps : Node.IntSteps κ N (.frac f) (intVal κ e) := by
    refine ⟨fun t ht => ⟨(n4.num t ht).1, fun q hq => ⟨(hin.1 t ht q hq).1, ?_⟩⟩, ?_, ⟨fun t ht => le_trans (hKN t ht) hpN, ?_⟩, ?_, ?_, ?_⟩
    · exact le_trans (le_trans (le_abs_self _) ((n4.num t ht).2.1 q hq).2) hF.degN
    · rw [n4.den]
      intro t ht
      rw [unitPoly, List.mem_singleton] at ht
      subst ht
      exact ⟨rfl, fun q hq => by simp [Term.ofReal] at hq⟩
    · refine le_trans (hsum _ hKN) (le_trans (mul_le_mul_of_nonneg_right ?_ (by positivity)) hall)
      exact le_trans n5 (le_max_right _ _)
    · rw [n4.den]
      refine ⟨fun t ht => ?_, ?_⟩
      · rw [unitPoly, List.mem_singleton] at ht
        subst ht
        simpa [Term.powSize, Term.ofReal] using hN1
      · simpa [unitPoly, Term.powSize, Term.ofReal, Num.Real.int] using hN1
    · rw [n4.den]
      simp [unitPoly, Poly.at, Term.ofReal, Syms.at, Num.Real.int]
    · rw [n4.den, hval]
      simp [unitPoly, Poly.at, Term.ofReal, Syms.at, Num.Real.int]
  have hc : ConstsAt S s.constants κ N (Node.frac f).names := by
    intro x hx'
    have hxx : x ∈ xs := by
      rcases List.mem_append.1 hx' with h1 | h1
      · obtain ⟨t, ht, hxt⟩ := List.mem_flatMap.1 h1
        obtain ⟨q, hq, rfl⟩ := List.mem_map.1 hxt
        exact (hin.1 t ht q hq).2
      · obtain ⟨t, ht, hxt⟩ := List.mem_flatMap.1 h1
        obtain ⟨q, hq, rfl⟩ := List.mem_map.1 hxt
        exact (hin.2 t ht q hq).2
    obtain ⟨h1, a, h2, h3⟩ := hv x hxx
    exact ⟨le_trans h1 hF.const, a, by rw [find_findLD]; exact h2, h3⟩
  obtain ⟨a, a1, a2⟩ := (C83_exact hS hsteps hc).2
  refine ⟨a, a2, ?_⟩
  rw [dispatch_other hl.1]
  refine then_ok ?_
  rw [cmdOther_expr hl.2]
  unfold cmdNormalize parseNormal
  rw [lift_bind, hn, Res.bind_ok, n3]
  simp only
  have e1 : Node.normalize E.f (.frac f) = .ok (.frac f) := rfl
  have e2 : isInteger E (.frac f) = .ok false := by
    unfold isInteger
    have : Node.tryEval E.f (.frac f) = .ok (some f) := rfl
    rw [this, Res.bind_ok]
    simp only [hsy]
    rfl
  unfold printResult
  rw [lift_bind, e1]
  simp only
  rw [lift_bind, t1]
  simp only
  rw [bind_def]
  simp only [Cmd.print]
  rw [lift_bind, e2]
  simp only [Bool.false_eq_true, if_false]
  rw [bind_def]
  simp only [Cmd.get]
  rw [lift_bind, a1]
  simp only [Cmd.print, List.append_assoc, List.nil_append]

/-- with the digits: values of up to six digits are printed exactly. -/
theorem C83_line_text (hg : E.f.toEnv.Good B) (hB : 1 ≤ B) (hs : SortOk E.f.sort) (ht : Poly.SortTotal E.f) {S : FltSem E.flt} {N : Int}
    (hS : S.Exact N) (hshow : ∀ a (q : ℚ), S.ld a = some (q : ℝ) → E.showLD a = showG q) {line : List Char} {s : St E} {e : Parser.Expr}
    (hl : IsExpr s line) (hp : Parser.parse E.f.M E.dec line = .ok e) (he : IntRing e) {xs : List (List Char)}
    (hx : ∀ x, .sym x ∈ e.leaves → x ∈ xs) {κ : List Char → Int} {K : Int} (hF : FitsAt E.f.M N e xs.length K)
    (hv : ∀ x ∈ xs, |κ x| ≤ K ∧ ∃ a, s.constants.find x = some a ∧ S.ld a = some (κ x : ℝ)) (h6 : |intVal κ e| < 1000000) :
    ∃ n f t, Node.ofText E.f E.dec line = .ok n ∧ Node.normalize E.f n = .ok (.frac f) ∧ Node.toStr E.f.toEnv (.frac f) = .ok t ∧
      (f.noSymbols = false →
        dispatch E line s = (.ok false, s, t ++ " = ".toList ++ (toString (intVal κ e)).toList ++ ['\n'])) := by
  obtain ⟨n, f, t, h1, h2, h3, h4⟩ := C83_line hg hB hs ht hS hl hp he hx hF hv
  refine ⟨n, f, t, h1, h2, h3, fun h => ?_⟩
  obtain ⟨a, a1, a2⟩ := h4 h
  rw [a2, hshow a (intVal κ e : ℚ) (by rw [a1]; simp), C84_integers h6]

/-! ### C85: `factor` -/

/-- `factor` and an expression over integers with a positive value: the prime factors of the value, in ascending order. -/
theorem C85_factor (hg : E.f.toEnv.Good B) (hB : 1 ≤ B) (hs : SortOk E.f.sort) (ht : Poly.SortTotal E.f) {S : FltSem E.flt} {N : Int}
    (hS : S.Exact N) {line : List Char} {s : St E} {e : Parser.Expr} (hw : word line = "factor".toList)
    (hp : Parser.parse E.f.M E.dec (rest line) = .ok e) (he : IntRing e) (hn : ∀ x, .sym x ∉ e.leaves) (hsz : ringSize e ≤ E.f.M)
    (hpf : PowFits e) (κ : List Char → Int) {v : Nat} (hv : intVal κ e = v) (h0 : 0 < v) (h1 : v ≤ B) :
    dispatch E line s = (.ok false, s, (v.primeFactorsList.flatMap fun p => (toString p).toList ++ [' ']) ++ ['\n']) := by
  have h := hg.powOk hB
  obtain ⟨n, n1, -, n3⟩ := Node.const_eval h hs ht κ he hn hsz hpf
  have hvM : (v : Int) ≤ E.f.M := hg.leM h1
  have habs : |(v : Int)| ≤ E.f.M := by rw [Nat.abs_cast]; exact hvM
  rw [hv] at n3
  have e1 : Node.tryEval E.f (.frac (Frac.con v)) = .ok (some (Frac.con v)) := rfl
  have e2 : Frac.tryEval E.f (Frac.con v) = .ok (some (Num.Real.int v)) := Frac.tryEval_const h habs
  have e3 : realTryTo E (Num.Real.int v) = .ok v := by
    unfold realTryTo
    have : (Num.Real.int (v : Int)).coe = ⟨v, 1⟩ := rfl
    rw [this, if_neg one_ne_zero]
    simp only [Int.tdiv_one]
    rw [chk_ok (inRange_of_abs habs), Res.bind_ok, hS.trunc _ 1 (hS.root_int v) hS.abs1, Res.bind_ok, mul_one,
      chk_ok (inRange_of_abs habs)]
  rw [C63_one_command_partial (by rw [hw]; decide) (by rw [hw]; decide), asked_eq, if_neg (by rw [hw]; decide), if_neg (by rw [hw]; decide),
    if_neg (by rw [hw]; decide), if_neg (by rw [hw]; decide), if_neg (by rw [hw]; decide), if_neg (by rw [hw]; decide), if_pos hw]
  refine then_ok ?_
  unfold cmdFactor parseNormal Node.ofText
  rw [lift_bind, hp, Res.bind_ok, n1, Res.bind_ok, n3]
  simp only
  rw [lift_bind, e1]
  simp only
  rw [lift_bind, e2]
  simp only
  rw [lift_bind, e3]
  simp only
  rw [lift_bind, hg.hfac v h0 h1]
  rfl

/-- `constant x = 5`, `constant y = -3`. -/
def xyState : St cenv64 := after (after start "constant x = 5") "constant y = -3"
theorem C83_session : does xyState "x^2-3*y" = (.ok false, "-3y+(x**2) = 34\n".toList) ∧
    does xyState "x*y/2" = (.ok false, "xy/2 = -7.5\n".toList) ∧ does xyState "x+z" = (.ok false, "z+x\n".toList) ∧
    does xyState "x^10" = (.ok false, "(x**10) = 9.76562e+06\n".toList) ∧ does xyState "x-x" = (.ok false, "0 = 0\n".toList) := by
  decide +kernel

/-- `x^2-3*y`. -/
def xyExpr : Parser.Expr := .node '-' (.node '^' (.leaf (.sym ['x'])) (.leaf (.num ⟨2, 1⟩)))
  (.node '*' (.leaf (.num ⟨3, 1⟩)) (.leaf (.sym ['y'])))
theorem xy_parse : Parser.parse cenv64.f.M cenv64.dec "x^2-3*y".toList = .ok xyExpr := by decide +kernel
/-- `x` is 5, `y` is -3. -/
def xyVal (x : List Char) : Int := if x = ['x'] then 5 else if x = ['y'] then -3 else 0
theorem xy_fits : FitsAt cenv64.f.M (2 ^ 53) xyExpr 2 5 where
  size := by decide +kernel
  deg := by decide +kernel
  degN := by decide +kernel
  powers := by simp [xyExpr, PowFits, ringSize, expo, oneTerm]
  one := by norm_num
  const := by norm_num
  all := by decide +kernel
/-- the value of a constant. -/
def constOf (s : St cenv64) (x : List Char) : Option (Option ℚ) := s.constants.find x
theorem xy_find : constOf xyState ['x'] = some (some 5) ∧
    constOf xyState ['y'] = some (some (-3)) := by
  decide +kernel
theorem xy_isExpr : IsExpr xyState "x^2-3*y".toList := by
  refine ⟨by decide +kernel, fun name inside hc => ?_⟩
  have : xyState.funcs = [] := by decide +kernel
  rw [this]
  rfl
theorem xy_consts : ∀ x ∈ [['x'], ['y']], |xyVal x| ≤ 5 ∧ ∃ a, xyState.constants.find x = some a ∧ sem64.ld a = some (xyVal x : ℝ) := by
  intro x hx
  simp only [List.mem_cons, List.not_mem_nil, or_false] at hx
  rcases hx with rfl | rfl
  · exact ⟨by decide, _, xy_find.1, by simp [sem64, xyVal]⟩
  · exact ⟨by decide, _, xy_find.2, by simp [sem64, xyVal]⟩
theorem show64 (a : cenv64.LD) (q : ℚ) (h : sem64.ld a = some (q : ℝ)) : cenv64.showLD a = showG q := by
  unfold sem64 at h
  dsimp only at h
  obtain ⟨r, h1, h2⟩ := Option.map_eq_some_iff.1 h
  have h2 : r = q := by exact_mod_cast h2
  subst h2
  subst h1
  rfl

example := C83_line_text (E := cenv64) fenv64_good (by norm_num) fenv64_sort fenv64_total sem64_exact show64 xy_isExpr xy_parse
  (Or.inl ⟨Or.inr (Or.inl rfl), Or.inr ⟨rfl, trivial, 2, rfl⟩, by simp [IntRing]⟩) (xs := [['x'], ['y']]) (by simp [xyExpr, Parser.Expr.leaves]) xy_fits xy_consts (by decide +kernel)
/-- `factor 2*5*7-10`. -/
example := C85_factor (E := cenv64) (line := "factor 2*5*7-10".toList) (s := start)
  (e := .node '-' (.node '*' (.node '*' (.leaf (.num ⟨2, 1⟩)) (.leaf (.num ⟨5, 1⟩))) (.leaf (.num ⟨7, 1⟩))) (.leaf (.num ⟨10, 1⟩)))
  fenv64_good (by norm_num) fenv64_sort fenv64_total sem64_exact (by decide +kernel) (by decide +kernel) (by simp [IntRing])
  (by simp [Parser.Expr.leaves]) (by decide) (by simp [PowFits]) (fun _ => 0) (v := 60) (by decide) (by norm_num) (by norm_num)
theorem C85_examples : does start "factor 2*5*7-10" = (.ok false, "2 2 3 5 \n".toList) ∧
    does start "factor 7/2" = (.ok false, "3 \n".toList) ∧ does start "factor x" = (.throw "Invailed string", []) ∧
    (does start "factor 0").1 = .ub "empty range" := by decide +kernel

end Symxx.Cli
