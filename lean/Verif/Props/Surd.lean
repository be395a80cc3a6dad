import Verif.Expr.SurdEval
import Verif.Cli.Surd
import Verif.Props.QuoPow
import Verif.Props.NumericError
import Verif.Props.Print
/-!
# C101: roots in a session

`PowRat`, `PowSmall`, `PosDiv`: arithmetic over integers with natural powers, within the type, without negative divisors
(`Verif/Expr/QuoSpec.lean`). `Simplest N i`: `N` is divisible by no `i`-th power, and is no `d`-th power for a divisor `d` of `i`
(`Verif/Num/RealSpec.lean`). `surdText a i N b` (`Verif/Cli/Surd.lean`): `a_i/N/b` for `a N^(1/i) / b`.
-/
namespace Symxx.Cli
open Symxx.Num Symxx.Sym Cmd

variable {E : CEnv} {B : Nat}

/-- the line is a power: its base has the value `n/d > 0`, its exponent `m/q > 0` (in lowest terms), and the numbers of which the
root is taken are at most `B`. -/
structure RootLine (E : CEnv) (B : Nat) (s : St E) (line : List Char) (ρ : List Char → ℝ) (e : Parser.Expr) (n d m q : Nat) : Prop where
  isExpr : IsExpr s line
  parse : Parser.parse E.f.M E.dec line = .ok e
  power : ∃ a b, e = .node '^' a b ∧ PowRat a ∧ PowSmall E.f.M a ∧ PosDiv ρ a ∧ PowRat b ∧ PowSmall E.f.M b ∧ PosDiv ρ b ∧
    exprSem ρ a = some ((n : ℝ) / d) ∧ exprSem ρ b = some ((m : ℝ) / q)
  pos : 0 < n ∧ 0 < d ∧ 0 < m ∧ 0 < q
  low : Nat.Coprime n d ∧ Nat.Coprime m q
  exponent : m ≤ 2 ^ 53 ∧ q ≤ 2 ^ 53
  small : n ^ m * (d ^ m) ^ (q - 1) ≤ B ∧ (d ^ m) ^ q ≤ B

/-- the value of such a line. -/
theorem RootLine.value {s : St E} {line : List Char} {ρ : List Char → ℝ} {e : Parser.Expr} {n d m q : Nat}
    (h : RootLine E B s line ρ e n d m q) : exprSem ρ e = some (((n : ℝ) / d) ^ ((m : ℝ) / q)) := by
  obtain ⟨a, b, rfl, -, -, -, -, -, -, ea, eb⟩ := h.power
  have hn : (0 : ℝ) < n := by exact_mod_cast h.pos.1
  have hd : (0 : ℝ) < d := by exact_mod_cast h.pos.2.1
  simp only [exprSem, ea, eb, Option.bind_some]
  rw [opSem_pow (by positivity)]

/-- the number behind the root is accurate. -/
theorem surd_accurate {F : Flt} {S : FltSem F} (hS : S.Accurate x86) {a b : Int} {i N : Nat} (ha : 0 < a) (hb : 0 < b)
    (ha53 : a ≤ 2 ^ 53) (hb53 : b ≤ 2 ^ 53) (hN : 0 < N) (hN53 : N ≤ 2 ^ 53) (hi : 0 < i) (hi53 : i ≤ 2 ^ 53) :
    ∃ z, S.ld (surdLD F a i N b) = some z ∧
      |z - (a : ℝ) / b * (N : ℝ) ^ ((1 : ℝ) / i)| ≤ (a : ℝ) / b * (N : ℝ) ^ ((1 : ℝ) / i) / 2 ^ 41 := by
  have hN' : (1 : ℝ) ≤ N := by exact_mod_cast hN
  have hN53' : (N : ℝ) ≤ 2 ^ 53 := by exact_mod_cast hN53
  have hi' : (1 : ℝ) ≤ i := by exact_mod_cast hi
  have ha' : (1 : ℝ) ≤ a := by exact_mod_cast ha
  have hb' : (1 : ℝ) ≤ b := by exact_mod_cast hb
  have ha2 : (a : ℝ) ≤ 2 ^ 53 := by exact_mod_cast ha53
  have hb2 : (b : ℝ) ≤ 2 ^ 53 := by exact_mod_cast hb53
  have r1 : 1 ≤ (N : ℝ) ^ ((1 : ℝ) / i) := Real.one_le_rpow hN' (by positivity)
  have r2 : (N : ℝ) ^ ((1 : ℝ) / i) ≤ 2 ^ 53 := by
    calc (N : ℝ) ^ ((1 : ℝ) / i) ≤ (N : ℝ) ^ (1 : ℝ) :=
          Real.rpow_le_rpow_of_exponent_le hN' (by rw [div_le_one (by linarith)]; exact hi')
      _ = N := Real.rpow_one _
      _ ≤ _ := hN53'
  generalize hr : (N : ℝ) ^ ((1 : ℝ) / i) = r at r1 r2 ⊢
  have vn : ∀ ρ : List Char → ℝ, (Term.ofReal ⟨i, ⟨N, 1⟩, ⟨a, 1⟩⟩).value ρ = a * r := by
    intro ρ
    rw [← hr]
    simp [Term.value, Term.ofReal, Syms.value, Num.Real.val, Rational.val]
  have vd : ∀ ρ : List Char → ℝ, (Term.con b).value ρ = b := by
    intro ρ
    simp [Term.value, Term.con, Term.ofReal, Num.Real.int, Syms.value, Num.Real.val, Rational.val]
  have hi106 : ∀ x : ℝ, x ≤ 2 ^ 106 → x ≤ x86.hi / 2 ∧ x ≤ x86.hi / 4 := by
    intro x hx
    have e : x86.hi / 4 = 2 ^ 1021 := by
      show (2 : ℝ) ^ 1023 / 4 = 2 ^ 1021
      rw [show (2 : ℝ) ^ 1023 = 2 ^ 1021 * 4 by rw [show (1023 : ℕ) = 1021 + 2 from rfl, pow_add]; norm_num]
      field_simp
    have h' : x ≤ 2 ^ 1021 := le_trans hx (pow_le_pow_right₀ (by norm_num) (by norm_num))
    have p : (0 : ℝ) < x86.hi / 4 := by rw [e]; positivity
    rw [← e] at h'
    generalize x86.hi = y at h' p
    exact ⟨by linarith, h'⟩
  have par : (a : ℝ) * r ≤ 2 ^ 106 := by
    calc (a : ℝ) * r ≤ 2 ^ 53 * 2 ^ 53 := mul_le_mul ha2 r2 (by linarith) (by positivity)
      _ = 2 ^ 106 := by norm_num
  have ar0 : 0 < (a : ℝ) * r := by positivity
  have cn : x86.PolyOk (fun _ => 1) 0 0 (Frac.surd a i N b).num := by
    refine ⟨?_, ?_, ?_, ?_, x86_few (by norm_num [Frac.surd])⟩ <;> simp only [Frac.surd, List.mem_singleton, forall_eq]
    · exact ⟨by rw [show (Term.ofReal ⟨i, ⟨N, 1⟩, ⟨a, 1⟩⟩).coe.coe.num = a from rfl, abs_of_pos ha]; exact ha53, by norm_num [x86, Term.ofReal],
        by norm_num [Term.ofReal], ⟨by simp only [Term.ofReal]; exact_mod_cast hN, by simp only [Term.ofReal, x86]; exact_mod_cast hN53⟩,
        by norm_num [x86, Term.ofReal], ⟨hi, by simp only [Term.ofReal, x86]; exact_mod_cast hi53⟩⟩
    · trivial
    · simp [Term.ofReal]
    · simp only [Poly.size, List.map_cons, List.map_nil, List.sum_cons, List.sum_nil, vn, add_zero]
      rw [abs_of_pos ar0]
      exact (hi106 _ par).1
  have cd : x86.PolyOk (fun _ => 1) 0 0 (Frac.surd a i N b).den := by
    refine ⟨?_, ?_, ?_, ?_, x86_few (by norm_num [Frac.surd])⟩ <;> simp only [Frac.surd, List.mem_singleton, forall_eq]
    · exact ⟨by rw [show (Term.con b).coe.coe.num = b from rfl, abs_of_pos hb]; exact hb53, by norm_num [x86, Term.con, Term.ofReal, Num.Real.int],
        by norm_num [Term.con, Term.ofReal, Num.Real.int], by norm_num [x86, Term.con, Term.ofReal, Num.Real.int],
        by norm_num [x86, Term.con, Term.ofReal, Num.Real.int], by norm_num [x86, Term.con, Term.ofReal, Num.Real.int]⟩
    · trivial
    · simp [Term.con, Term.ofReal]
    · simp only [Poly.size, List.map_cons, List.map_nil, List.sum_cons, List.sum_nil, vd, add_zero]
      rw [abs_of_pos (by linarith)]
      exact (hi106 _ (le_trans hb2 (pow_le_pow_right₀ (by norm_num) (by norm_num)))).1
  have en : (Frac.surd a i N b).num.value (fun _ => 1) = a * r := by simp [Poly.value, Frac.surd, vn]
  have ed : (Frac.surd a i N b).den.value (fun _ => 1) = b := by simp [Poly.value, Frac.surd, vd]
  have ev : (Frac.surd a i N b).value (fun _ => 1) = a / b * r := by unfold Frac.value; rw [en, ed]; ring
  have v0 : 0 < (a : ℝ) / b * r := by positivity
  have vle : (a : ℝ) / b * r ≤ 2 ^ 106 := by
    rw [show (a : ℝ) / b * r = a * r / b by ring]
    exact le_trans (div_le_self ar0.le hb') par
  have vge : 1 / 2 ^ 53 ≤ (a : ℝ) / b * r := by
    rw [show (a : ℝ) / b * r = a * r / b by ring, div_le_div_iff₀ (by positivity) (by linarith)]
    nlinarith [mul_le_mul ha' r1 zero_le_one (by linarith : (0 : ℝ) ≤ a)]
  obtain ⟨x, z, z1, z2, z3⟩ := C86_same_sign (v := []) hS cn cd
    (Or.inl (by simp only [Frac.surd, List.mem_singleton, forall_eq]; rw [vn]; exact ar0.le))
    (Or.inl (by simp only [Frac.surd, List.mem_singleton, forall_eq]; rw [vd]; linarith))
    (by rw [ed]; linarith) (by rw [ev, abs_of_pos v0]; exact (hi106 _ vle).2) (by norm_num [Frac.surd]) (by norm_num [Frac.surd])
    (by intro y hy; simp [Frac.names, Poly.names, Term.names, Frac.surd, Term.ofReal, Term.con] at hy)
  rw [surd_tryEvalLD] at z1
  injection z1 with z1
  subst z1
  refine ⟨z, z2, ?_⟩
  rw [ev, abs_of_pos v0] at z3
  refine le_trans z3 ?_
  have e : (1 : ℝ) / 2 ^ 1022 ≤ 1 / 2 ^ 95 :=
    one_div_le_one_div_of_le (by positivity) (pow_le_pow_right₀ (by norm_num) (by norm_num))
  have e2 : (1 : ℝ) / 2 ^ 95 = 1 / 2 ^ 53 / 2 ^ 42 := by norm_num
  have e3 : (1 : ℝ) / 2 ^ 53 / 2 ^ 42 ≤ (a : ℝ) / b * r / 2 ^ 42 := div_le_div_of_nonneg_right vge (by positivity)
  have e4 : (a : ℝ) / b * r / 2 ^ 41 = (1 / 2 ^ 42) * ((a : ℝ) / b * r) + (a : ℝ) / b * r / 2 ^ 42 := by ring
  rw [e4]
  linarith

/-- the root in its simplest form is an integer only if no root is left and the denominator is 1. -/
theorem surd_integer {a b : Int} {i N : Nat} (ha : 0 < a) (hb : 0 < b) (hg : Int.gcd a b = 1) (hs : Simplest N i) :
    (∃ z : Int, (a : ℝ) / b * (N : ℝ) ^ ((1 : ℝ) / i) = z) ↔ N = 1 ∧ b = 1 := by
  constructor
  · rintro ⟨z, hz⟩
    have c1 : Num.Real.Canon ⟨i, ⟨N, 1⟩, ⟨a, b⟩⟩ := ⟨N, rfl, hs, hb.ne', fun h => absurd h ha.ne'⟩
    have v1 : Num.Real.val ⟨i, ⟨N, 1⟩, ⟨a, b⟩⟩ = z := by
      rw [← hz]
      have v := Num.Real.val_mk i N 1 ⟨a, b⟩
      simp only [Nat.cast_one, div_one] at v
      rw [v]
      simp [Rational.val]
    have c2 : Num.Real.Canon (Num.Real.int z) := by
      refine ⟨1, rfl, ⟨one_pos, one_pos, ?_, ?_⟩, one_ne_zero, fun _ => rfl⟩
      · intro m hm hd
        have hd : m ^ 1 ∣ 1 := hd
        have := Nat.le_of_dvd one_pos hd
        simp at this
        omega
      · intro m d h1 h2
        exact Nat.dvd_one.1 h2
    have v2 : (Num.Real.int z).val = z := by simp [Num.Real.int, Num.Real.val, Rational.val]
    obtain ⟨u1, u2, -⟩ := (Num.Real.canon_unique c1 c2).1 (by rw [v1, v2])
    have u2 : (N : Int) = 1 := congrArg Rational.num u2
    refine ⟨by exact_mod_cast u2, ?_⟩
    have : (⟨a, b⟩ : Rational) = ⟨z, 1⟩ := Rational.ext_lowest hb one_pos hg (by simp [Rational.Lowest]) u1
    exact congrArg Rational.den this
  · rintro ⟨rfl, rfl⟩
    exact ⟨a, by simp⟩

/-- the line of a session that shows a root. -/
def surdLine (E : CEnv) (a : Int) (i N : Nat) (b : Int) : List Char :=
  surdText a i N b ++ (if N = 1 ∧ b ∣ a then [] else " = ".toList ++ E.showLD (surdLD E.flt a i N b)) ++ ['\n']

theorem root_line (hg : E.f.toEnv.Good B) (hB : 1 ≤ B) (hs : SortOk E.f.sort) (ht : Poly.SortTotal E.f)
    (ho : Frac.SortOne E.f) {line : List Char} {s : St E} {ρ : List Char → ℝ} {e : Parser.Expr} {n d m q : Nat}
    (h : RootLine E B s line ρ e n d m q) {v : ℝ} (hv : exprSem ρ e = some v) :
    ∃ (a b : Int) (i N : Nat), 0 < a ∧ 0 < b ∧ Int.gcd a b = 1 ∧ Simplest N i ∧ a ≤ B ∧ b ≤ B ∧ N ≤ B ∧ i ≤ 2 ^ 53 ∧
      v = (a : ℝ) / b * (N : ℝ) ^ ((1 : ℝ) / i) ∧ dispatch E line s = (.ok false, s, surdLine E a i N b) := by
  have hp := hg.powOk hB
  have hI := hp.toIntOk
  have hval := h.value
  rw [hv] at hval
  injection hval with hval
  obtain ⟨l, r, rfl, l1, l2, l3, r1, r2, r3, ls, rs⟩ := h.power
  obtain ⟨h1, h2, h3, h4⟩ := h.pos
  obtain ⟨L, L1, L2⟩ := Node.pow_eval hp hs ht ho ρ l1 l2 l3
  obtain ⟨R, R1, R2⟩ := Node.pow_eval hp hs ht ho ρ r1 r2 r3
  obtain ⟨z1, z2⟩ := powSmall_le hp.hM l2
  obtain ⟨w1, w2⟩ := powSmall_le hp.hM r2
  rcases L2 with ⟨j, k, k0, lv, lt, -, jn, kn, -⟩ | ⟨lv, -⟩
  swap
  · rw [ls] at lv; cases lv
  rcases R2 with ⟨p, t, t0, rv, rt, -, pn, tn, -⟩ | ⟨rv, -⟩
  swap
  · rw [rs] at rv; cases rv
  rw [ls] at lv
  rw [rs] at rv
  injection lv with lv
  injection rv with rv
  obtain ⟨a, b, i, N, e1, a0, b0, gab, sm, ev, aB, bB, NB, i53⟩ := Frac.pow_quo_surd hs ht ho hg hB (le_trans jn z1) (le_trans kn z2)
    k0 lv.symm h1 h2 h.low.1 h3 h4 h.low.2 h.exponent.1 h.exponent.2 h.small.1 h.small.2
  have nrm := Node.root_top hI (le_trans pn w1) (le_trans tn w2) t0 h4 h.low.2 rv.symm lt rt e1
  have n1 : Node.ofText E.f E.dec line = .ok (.op '^' L R) := by
    unfold Node.ofText
    rw [h.parse, Res.bind_ok]
    unfold Node.ofExpr
    rw [L1, Res.bind_ok, R1, Res.bind_ok]
  have sh := line_shown h.isExpr n1 nrm
  have BM : (B : Int) ≤ E.f.M := hg.leM le_rfl
  have NB' : (N : Int) ≤ B := by exact_mod_cast NB
  have pr := printResult_surd (E := E) hI (a := a) (b := b) (i := i) (N := N) (le_trans aB BM) a0 (le_trans NB' BM) sm (le_trans bB BM) b0 s
  have vv : v = (a : ℝ) / b * (N : ℝ) ^ ((1 : ℝ) / i) := by rw [ev, hval]
  refine ⟨a, b, i, N, a0, b0, gab, sm, aB, bB, NB, i53, vv, ?_⟩
  rw [sh]
  exact then_ok pr

/-- the line prints the root in its simplest form, with the exact value; unless it is an integer, the number that follows is the
value up to a relative error of `2^-41`. -/
theorem C101_root (hg : E.f.toEnv.Good B) (hB : 1 ≤ B) (hs : SortOk E.f.sort) (ht : Poly.SortTotal E.f)
    (ho : Frac.SortOne E.f) {line : List Char} {s : St E} {ρ : List Char → ℝ} {e : Parser.Expr} {n d m q : Nat}
    (h : RootLine E B s line ρ e n d m q) {v : ℝ} (hv : exprSem ρ e = some v) :
    ∃ (a b : Int) (i N : Nat) (x : E.LD), 0 < a ∧ 0 < b ∧ Int.gcd a b = 1 ∧ Simplest N i ∧
      v = (a : ℝ) / b * (N : ℝ) ^ ((1 : ℝ) / i) ∧
      (((∃ z : Int, v = z) ∧ dispatch E line s = (.ok false, s, surdText a i N b ++ ['\n'])) ∨
       ((¬ ∃ z : Int, v = z) ∧ dispatch E line s = (.ok false, s, surdText a i N b ++ " = ".toList ++ E.showLD x ++ ['\n']))) ∧
      (∀ S : FltSem E.flt, S.Accurate x86 → ∃ z, S.ld x = some z ∧ |z - v| ≤ v / 2 ^ 41) := by
  obtain ⟨a, b, i, N, a0, b0, gab, sm, aB, bB, NB, i53, vv, dl⟩ := root_line hg hB hs ht ho h hv
  have B53 : (B : Int) ≤ 2 ^ 53 := by exact_mod_cast hg.le53 le_rfl
  have NB' : (N : Int) ≤ B := by exact_mod_cast NB
  refine ⟨a, b, i, N, surdLD E.flt a i N b, a0, b0, gab, sm, vv, ?_, ?_⟩
  · have key : (∃ z : Int, v = z) ↔ N = 1 ∧ b ∣ a := by
      rw [vv, surd_integer a0 b0 gab sm]
      refine and_congr_right fun _ => ⟨fun h => by rw [h]; exact one_dvd _, fun h => ?_⟩
      have : ((Int.gcd a b : Nat) : Int) = b := by
        obtain ⟨c, rfl⟩ := h
        rw [show Int.gcd (b * c) b = b.natAbs by simp]
        exact Int.natAbs_of_nonneg b0.le
      rw [← this, gab]; rfl
    by_cases hw : ∃ z : Int, v = z
    · left
      refine ⟨hw, ?_⟩
      rw [dl, surdLine, if_pos (key.1 hw), List.append_nil]
    · right
      refine ⟨hw, ?_⟩
      rw [dl, surdLine, if_neg (fun h => hw (key.2 h))]
      simp
  · intro S hS
    rw [vv]
    exact surd_accurate hS a0 b0 (le_trans aB B53) (le_trans bB B53) sm.1 (by exact_mod_cast le_trans NB' B53) sm.2.1 i53

theorem surd_fracOk (hg : E.f.toEnv.Good B) (hB : 1 ≤ B) {a b : Int} {i N : Nat} (a0 : 0 < a) (b0 : 0 < b) (sm : Simplest N i) (aB : a ≤ E.f.M)
    (bB : b ≤ E.f.M) (NB : N ≤ B) (i53 : i ≤ 2 ^ 53) : FracOk E.f.M B (Frac.surd a i N b) := by
  have BM : (B : Int) ≤ E.f.M := hg.leM le_rfl
  have M1 := hg.M1
  refine ⟨?_, ?_, by simp [Frac.surd], by simp [Frac.surd], ?_⟩
  · intro t ht
    have : t = Term.ofReal ⟨i, ⟨N, 1⟩, ⟨a, 1⟩⟩ := by simpa [Frac.surd] using ht
    subst this
    refine ⟨⟨⟨N, rfl, sm, one_ne_zero, fun h => absurd h a0.ne'⟩, one_pos, ⟨?_, by simpa [Term.ofReal] using M1⟩, ?_, ?_⟩, ?_⟩
    · show |a| ≤ E.f.M
      rw [abs_of_pos a0]; exact aB
    · show (N : Int) ≤ B
      exact_mod_cast NB
    · show (i : Int) ≤ E.f.M
      exact le_trans (by exact_mod_cast i53) hg.hM
    · intro p hp; simp [Term.ofReal] at hp
  · intro t ht
    have : t = Term.con b := by simpa [Frac.surd] using ht
    subst this
    exact ⟨Node.coeOk_int M1 hB (by rw [abs_of_pos b0]; exact bB), by intro p hp; simp [Term.con, Term.ofReal] at hp⟩
  · intro t ht
    have : t = Term.con b := by simpa [Frac.surd, eq_comm] using ht
    subst this
    exact ⟨rfl, rfl, Or.inl ⟨b0.le, rfl⟩⟩

/-- what is printed before ` =` is read as an expression with the value. -/
theorem surd_read (hg : E.f.toEnv.Good B) (hB : 1 ≤ B) {a b : Int} {i N : Nat} (a0 : 0 < a) (b0 : 0 < b) (sm : Simplest N i) (aB : a ≤ E.f.M)
    (bB : b ≤ E.f.M) (NB : N ≤ B) (i53 : i ≤ 2 ^ 53) : ∃ e', Parser.parse E.f.M E.dec (surdText a i N b) = .ok e' ∧
      ∀ ρ, exprSem ρ e' = some ((a : ℝ) / b * (N : ℝ) ^ ((1 : ℝ) / i)) := by
  have hM : 2 ≤ E.f.M := le_trans (by norm_num) hg.hM
  have BM : (B : Int) ≤ E.f.M := hg.leM le_rfl
  have NB' : (N : Int) ≤ B := by exact_mod_cast NB
  obtain ⟨t, e', t1, p, sem⟩ := C71_fraction_partial hM hg (surd_fracOk hg hB a0 b0 sm aB bB NB i53) E.dec
  have hI := (hg.powOk hB).toIntOk
  have e : Frac.toStr E.f.toEnv (Frac.surd a i N b) = .ok (surdText a i N b) := by
    by_cases hN1 : N = 1
    · subst hN1
      have hi1 : i = 1 := sm.2.2.2 1 i (by simp) dvd_rfl
      subst hi1
      rw [show Frac.surd a 1 1 b = Frac.quo a b from rfl, surdText_quo]
      exact toStr_quo hI (by rw [abs_of_pos a0]; exact aB) (by rw [abs_of_pos b0]; exact bB)
    · exact surd_toStr hI (by rw [abs_of_pos a0]; exact aB) a0 (le_trans NB' BM) sm hN1
        (by rw [abs_of_pos b0]; exact bB)
  rw [e] at t1
  injection t1 with t1
  subst t1
  refine ⟨e', p, fun ρ => ?_⟩
  have vd : Poly.value ρ (Frac.surd a i N b).den = b := by
    simp [Poly.value, Frac.surd, Term.value, Term.con, Term.ofReal, Num.Real.int, Syms.value, Num.Real.val, Rational.val]
  have vn : Poly.value ρ (Frac.surd a i N b).num = a * (N : ℝ) ^ ((1 : ℝ) / i) := by
    simp [Poly.value, Frac.surd, Term.value, Term.ofReal, Syms.value, Num.Real.val, Rational.val]
  have hb : (b : ℝ) ≠ 0 := by exact_mod_cast b0.ne'
  rw [(sem ρ).1 (by rw [vd]; exact hb), vd, vn]
  congr 1
  ring

/-- what the line prints before ` =`, read as an expression, has the value of the line. -/
theorem C101_text (hg : E.f.toEnv.Good B) (hB : 1 ≤ B) (hs : SortOk E.f.sort) (ht : Poly.SortTotal E.f)
    (ho : Frac.SortOne E.f) {line : List Char} {s : St E} {ρ : List Char → ℝ} {e : Parser.Expr} {n d m q : Nat}
    (h : RootLine E B s line ρ e n d m q) : ∃ text rest e', dispatch E line s = (.ok false, s, text ++ rest) ∧
      (rest = ['\n'] ∨ ∃ num, rest = " = ".toList ++ num ++ ['\n']) ∧ Parser.parse E.f.M E.dec text = .ok e' ∧
      exprSem ρ e' = exprSem ρ e := by
  obtain ⟨a, b, i, N, a0, b0, gab, sm, aB, bB, NB, i53, vv, dl⟩ := root_line hg hB hs ht ho h h.value
  obtain ⟨e', p, sem⟩ := surd_read (E := E) hg hB a0 b0 sm (le_trans aB (hg.leM le_rfl)) (le_trans bB (hg.leM le_rfl)) NB i53
  rw [surdLine, List.append_assoc] at dl
  refine ⟨_, _, e', dl, ?_, p, by rw [sem, h.value, vv]⟩
  split
  · exact Or.inl rfl
  · exact Or.inr ⟨_, rfl⟩

theorem surdText_clean (a : Int) (i N : Nat) (b : Int) : ∀ c ∈ surdText a i N b, c ≠ ' ' ∧ c ≠ '\n' := by
  have num : ∀ z : Int, ∀ c ∈ (toString z).toList, c ≠ ' ' ∧ c ≠ '\n' := by
    intro z c h
    rcases mem_toString_int h with h | rfl
    · constructor <;> rintro rfl <;> revert h <;> decide
    · decide
  have nat : ∀ n : Nat, ∀ c ∈ (toString n).toList, c ≠ ' ' ∧ c ≠ '\n' := fun n => num n
  intro c hc
  unfold surdText at hc
  simp only [List.mem_append] at hc
  rcases hc with hc | hc
  · split at hc
    · exact num _ c hc
    · simp only [List.mem_append, List.mem_cons] at hc
      rcases hc with hc | rfl | hc | rfl | hc
      · split at hc
        · cases hc
        · exact num _ c hc
      · decide
      · split at hc
        · cases hc
        · exact nat _ c hc
      · decide
      · exact nat _ c hc
  · split at hc
    · cases hc
    · rcases List.mem_cons.1 hc with rfl | hc
      · decide
      · exact num _ c hc

theorem surdLine_text (a : Int) (i N : Nat) (b : Int) :
    (surdLine E a i N b).takeWhile (fun c => c != ' ' && c != '\n') = surdText a i N b := by
  unfold surdLine
  rw [List.append_assoc, List.takeWhile_append_of_pos (by
    intro c hc
    obtain ⟨h1, h2⟩ := surdText_clean a i N b c hc
    simp [h1, h2])]
  split <;> simp

theorem root_same (hg : E.f.toEnv.Good B) (hB : 1 ≤ B) (hs : SortOk E.f.sort) (ht : Poly.SortTotal E.f)
    (ho : Frac.SortOne E.f) {line line' : List Char} {s s' : St E} {ρ : List Char → ℝ} {e e' : Parser.Expr} {n d m q n' d' m' q' : Nat}
    (h : RootLine E B s line ρ e n d m q) (h' : RootLine E B s' line' ρ e' n' d' m' q') (hv : exprSem ρ e = exprSem ρ e') :
    (dispatch E line s).2.2 = (dispatch E line' s').2.2 := by
  obtain ⟨a, b, i, N, a0, b0, gab, sm, aB, bB, NB, i53, vv, dl⟩ := root_line hg hB hs ht ho h h.value
  obtain ⟨a', b', i', N', a0', b0', gab', sm', aB', bB', NB', i53', vv', dl'⟩ := root_line hg hB hs ht ho h' h'.value
  have c1 : Num.Real.Canon ⟨i, ⟨N, 1⟩, ⟨a, b⟩⟩ := ⟨N, rfl, sm, b0.ne', fun h => absurd h a0.ne'⟩
  have c2 : Num.Real.Canon ⟨i', ⟨N', 1⟩, ⟨a', b'⟩⟩ := ⟨N', rfl, sm', b0'.ne', fun h => absurd h a0'.ne'⟩
  have hval : ∀ (a b : Int) (i N : Nat), Num.Real.val ⟨i, ⟨N, 1⟩, ⟨a, b⟩⟩ = (a : ℝ) / b * (N : ℝ) ^ ((1 : ℝ) / i) := by
    intro a b i N
    have v := Num.Real.val_mk i N 1 ⟨a, b⟩
    simp only [Nat.cast_one, div_one] at v
    rw [v]
    simp [Rational.val]
  have hvv : Num.Real.val ⟨i, ⟨N, 1⟩, ⟨a, b⟩⟩ = Num.Real.val ⟨i', ⟨N', 1⟩, ⟨a', b'⟩⟩ := by
    rw [hval, hval, ← vv, ← vv']
    rw [h.value, h'.value] at hv
    exact Option.some.inj hv
  obtain ⟨u1, u2, u3⟩ := (Num.Real.canon_unique c1 c2).1 hvv
  have u1 : (⟨a, b⟩ : Rational) = ⟨a', b'⟩ := Rational.ext_lowest b0 b0' gab gab' u1
  have ea : a = a' := congrArg Rational.num u1
  have eb : b = b' := congrArg Rational.den u1
  have eN : (N : Int) = N' := congrArg Rational.num u2
  have eN : N = N' := by exact_mod_cast eN
  have u3 : i = i' := u3
  subst ea eb eN u3
  rw [dl, dl']

/-- two such lines print the same, in any two states, exactly if they have the same value. -/
theorem C101_same (hg : E.f.toEnv.Good B) (hB : 1 ≤ B) (hs : SortOk E.f.sort) (ht : Poly.SortTotal E.f)
    (ho : Frac.SortOne E.f) {line line' : List Char} {s s' : St E} {ρ : List Char → ℝ} {e e' : Parser.Expr} {n d m q n' d' m' q' : Nat}
    (h : RootLine E B s line ρ e n d m q) (h' : RootLine E B s' line' ρ e' n' d' m' q') :
    (dispatch E line s).2.2 = (dispatch E line' s').2.2 ↔ exprSem ρ e = exprSem ρ e' := by
  refine ⟨fun hd => ?_, root_same hg hB hs ht ho h h'⟩
  obtain ⟨a, b, i, N, a0, b0, gab, sm, aB, bB, NB, i53, vv, dl⟩ := root_line hg hB hs ht ho h h.value
  obtain ⟨a', b', i', N', a0', b0', gab', sm', aB', bB', NB', i53', vv', dl'⟩ := root_line hg hB hs ht ho h' h'.value
  obtain ⟨x, p, sem⟩ := surd_read (E := E) hg hB a0 b0 sm (le_trans aB (hg.leM le_rfl)) (le_trans bB (hg.leM le_rfl)) NB i53
  obtain ⟨x', p', sem'⟩ := surd_read (E := E) hg hB a0' b0' sm' (le_trans aB' (hg.leM le_rfl)) (le_trans bB' (hg.leM le_rfl)) NB' i53'
  rw [dl, dl'] at hd
  have hd : surdLine E a i N b = surdLine E a' i' N' b' := hd
  have ht := congrArg (List.takeWhile fun c => c != ' ' && c != '\n') hd
  rw [surdLine_text, surdLine_text] at ht
  rw [ht, p'] at p
  injection p with p
  rw [h.value, h'.value, vv, vv', ← sem ρ, ← sem' ρ, p]

/-! ### a session -/

/-- `(4/3)^(3/2)`. -/
def rootEx : Parser.Expr :=
  .node '^' (.node '/' (.leaf (.num ⟨4, 1⟩)) (.leaf (.num ⟨3, 1⟩))) (.node '/' (.leaf (.num ⟨3, 1⟩)) (.leaf (.num ⟨2, 1⟩)))
/-- `(64/27)^(1/2)`. -/
def rootEx' : Parser.Expr :=
  .node '^' (.node '/' (.leaf (.num ⟨64, 1⟩)) (.leaf (.num ⟨27, 1⟩))) (.node '/' (.leaf (.num ⟨1, 1⟩)) (.leaf (.num ⟨2, 1⟩)))
theorem rootEx_line (ρ : List Char → ℝ) : RootLine cenv64 (2 ^ 53) start "(4/3)^(3/2)".toList ρ rootEx 4 3 3 2 :=
  ⟨start_expr _ (by decide), by decide +kernel,
    ⟨_, _, rfl, by simp [PowRat], by decide +kernel, by simp [PosDiv, exprSem, Rational.val], by simp [PowRat], by decide +kernel,
      by simp [PosDiv, exprSem, Rational.val], by simp [exprSem, opSem, Rational.val], by simp [exprSem, opSem, Rational.val]⟩,
    by norm_num, by norm_num, by norm_num, by norm_num⟩
theorem rootEx'_line (ρ : List Char → ℝ) : RootLine cenv64 (2 ^ 53) start "(64/27)^(1/2)".toList ρ rootEx' 64 27 1 2 :=
  ⟨start_expr _ (by decide), by decide +kernel,
    ⟨_, _, rfl, by simp [PowRat], by decide +kernel, by simp [PosDiv, exprSem, Rational.val], by simp [PowRat], by decide +kernel,
      by simp [PosDiv, exprSem, Rational.val], by simp [exprSem, opSem, Rational.val], by simp [exprSem, opSem, Rational.val]⟩,
    by norm_num, by norm_num, by norm_num, by norm_num⟩
example (ρ : List Char → ℝ) := C101_root (E := cenv64) fenv64_good (by norm_num) fenv64_sort fenv64_total fenv64_one
  (rootEx_line ρ) (rootEx_line ρ).value
example (ρ : List Char → ℝ) : (dispatch cenv64 "(4/3)^(3/2)".toList start).2.2 = (dispatch cenv64 "(64/27)^(1/2)".toList start).2.2 :=
  (C101_same fenv64_good (by norm_num) fenv64_sort fenv64_total fenv64_one (rootEx_line ρ) (rootEx'_line ρ)).2 (by
    rw [(rootEx_line ρ).value, (rootEx'_line ρ).value]
    have e : ((64 : ℕ) : ℝ) / (27 : ℕ) = (((4 : ℕ) : ℝ) / (3 : ℕ)) ^ (3 : ℝ) := by
      conv_rhs => rw [show (3 : ℝ) = ((3 : ℕ) : ℝ) by norm_num, Real.rpow_natCast]
      norm_num
    rw [e, ← Real.rpow_mul (by positivity)]
    norm_num)

/-- the same line where the number behind ` = ` is computed with rounded real numbers. -/
theorem C101_accurate : ∃ x : cenvR.LD, (∃ a i N b, dispatch cenvR "(4/3)^(3/2)".toList ⟨[], vR⟩ =
      (.ok false, ⟨[], vR⟩, surdText a i N b ++ " = ".toList ++ cenvR.showLD x ++ ['\n'])) ∧
    ∃ z, semR.ld x = some z ∧ |z - (4 / 3 : ℝ) ^ (3 / 2 : ℝ)| ≤ (4 / 3 : ℝ) ^ (3 / 2 : ℝ) / 2 ^ 41 := by
  have hl : RootLine cenvR (2 ^ 53) ⟨[], vR⟩ "(4/3)^(3/2)".toList (fun _ => 1) rootEx 4 3 3 2 :=
    ⟨⟨by decide +kernel, fun _ _ _ => rfl⟩, (rootEx_line fun _ => 1).parse, (rootEx_line fun _ => 1).power, by norm_num, by norm_num,
      by norm_num, by norm_num⟩
  obtain ⟨a, b, i, N, x, a0, b0, gab, sm, vv, d, acc⟩ :=
    C101_root (E := cenvR) fenv64_good (by norm_num) fenv64_sort fenv64_total fenv64_one hl hl.value
  have acc := acc semR semR_accurate
  rcases d with ⟨⟨z, hz⟩, -⟩ | ⟨-, d⟩
  · exfalso
    have p : (((4 : ℕ) : ℝ) / (3 : ℕ)) ^ (((3 : ℕ) : ℝ) / (2 : ℕ)) * (((4 : ℕ) : ℝ) / (3 : ℕ)) ^ (((3 : ℕ) : ℝ) / (2 : ℕ)) =
        64 / 27 := by
      rw [← Real.rpow_add (by positivity), show (((3 : ℕ) : ℝ) / (2 : ℕ)) + ((3 : ℕ) : ℝ) / (2 : ℕ) = ((3 : ℕ) : ℝ) by push_cast; norm_num,
        Real.rpow_natCast]
      norm_num
    rw [hz] at p
    have : 27 * (z * z) = 64 := by
      have : (27 : ℝ) * (z * z) = 64 := by rw [p]; norm_num
      exact_mod_cast this
    omega
  · exact ⟨x, ⟨a, i, N, b, d⟩, by exact_mod_cast acc⟩

/-- what a line prints before ` =`. -/
def exact (line : String) : List Char := (does start line).2.takeWhile fun c => c != ' '
/-- roots as they are shown. (The floating-point type of `cenv64` has no roots, so that the number behind ` = ` is left out.) -/
theorem C101_example : exact "(4/3)^(3/2)" = "8_/3/9".toList ∧ exact "(64/27)^(1/2)" = "8_/3/9".toList ∧ exact "8^(1/2)" = "2_/2".toList ∧
    does start "16^(1/2)" = (.ok false, "4\n".toList) ∧ does start "(4/9)^(3/2)" = (.ok false, "8/27 = 0.296296\n".toList) ∧
    exact "8^(1/4)" = "_4/8".toList ∧ exact "4^(1/4)" = "_/2".toList := by decide +kernel

/-- F63. The root in a denominator stays there, so that the same number is shown in two ways. Roots of zero and of negative
numbers have undefined behaviour. -/
theorem C101_fails : exact "1/2^(1/2)" = "1/_/2".toList ∧ exact "2^(1/2)/2" = "_/2/2".toList ∧
    (does start "0^(1/2)").1 = .ub "empty range" ∧ (does start "(0-8)^(1/3)").1 = .ub "empty range" := by decide +kernel

end Symxx.Cli
