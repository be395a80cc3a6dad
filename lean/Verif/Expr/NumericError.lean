import Verif.Expr.NumericErrSpec
import Verif.Expr.NumericProof
import Mathlib.Analysis.SpecialFunctions.Log.Basic
import Mathlib.Algebra.Order.Ring.Pow
/-!
# The rounding error of the evaluation in `long double`
-/
namespace Symxx.Sym
open Symxx.Num

/-- `z` is `r` up to a factor between `1/X` and `X`. -/
def Near (X z r : ℝ) : Prop := ∃ t, z = r * t ∧ 1 / X ≤ t ∧ t ≤ X

namespace Near

theorem refl (r : ℝ) : Near 1 r r := ⟨1, by ring, by norm_num, le_refl _⟩

theorem mono {X Y z r : ℝ} (h : Near X z r) (hX : 0 < X) (hY : X ≤ Y) : Near Y z r := by
  obtain ⟨t, a, b, c⟩ := h
  exact ⟨t, a, le_trans (one_div_le_one_div_of_le hX hY) b, le_trans c hY⟩

theorem of_rel {u z r : ℝ} (h0 : 0 ≤ u) (h1 : u < 1) (h : |z - r| ≤ u * |r|) : Near (1 / (1 - u)) z r := by
  have hp : 0 < 1 - u := by linarith
  by_cases hr : r = 0
  · subst hr
    have hz : z = 0 := by simpa using h
    subst hz
    refine ⟨1, by simp, ?_, ?_⟩
    · rw [one_div_one_div]; linarith
    · rw [le_div_iff₀ hp]; linarith
  · have e : |z / r - 1| ≤ u := by
      have : z / r - 1 = (z - r) / r := by field_simp
      rw [this, abs_div, div_le_iff₀ (abs_pos.2 hr)]
      exact h
    rw [abs_le] at e
    refine ⟨z / r, by field_simp, ?_, ?_⟩
    · rw [one_div_one_div]; linarith
    · rw [le_div_iff₀ hp]
      nlinarith [mul_nonneg h0 h0]

theorem mul {X Y a b c d : ℝ} (hX : 0 < X) (hY : 0 < Y) (h1 : Near X a b) (h2 : Near Y c d) : Near (X * Y) (a * c) (b * d) := by
  obtain ⟨t, rfl, t1, t2⟩ := h1
  obtain ⟨s, rfl, s1, s2⟩ := h2
  have p1 : 0 < 1 / X := by positivity
  have p2 : 0 < 1 / Y := by positivity
  refine ⟨t * s, by ring, ?_, ?_⟩
  · have : 1 / (X * Y) = (1 / X) * (1 / Y) := by field_simp
    rw [this]
    exact mul_le_mul t1 s1 p2.le (by linarith)
  · exact mul_le_mul t2 s2 (by linarith) hX.le

theorem trans {X Y a b c : ℝ} (hX : 0 < X) (hY : 0 < Y) (h1 : Near X a b) (h2 : Near Y b c) : Near (X * Y) a c := by
  obtain ⟨s, rfl, s1, s2⟩ := h2
  have h := mul hX hY h1 ⟨s, (one_mul s).symm, s1, s2⟩
  obtain ⟨t, rfl, t1, t2⟩ := h1
  have p1 : 0 < 1 / X := by positivity
  have p2 : 0 < 1 / Y := by positivity
  refine ⟨t * s, by ring, ?_, ?_⟩
  · have : 1 / (X * Y) = (1 / X) * (1 / Y) := by field_simp
    rw [this]
    exact mul_le_mul t1 s1 p2.le (by linarith)
  · exact mul_le_mul t2 s2 (by linarith) hX.le

theorem abs_sub {X z r : ℝ} (hX : 1 ≤ X) (h : Near X z r) : |z - r| ≤ (X - 1) * |r| := by
  obtain ⟨t, rfl, t1, t2⟩ := h
  have e : r * t - r = (t - 1) * r := by ring
  rw [e, abs_mul]
  refine mul_le_mul_of_nonneg_right ?_ (abs_nonneg r)
  rw [abs_le]
  refine ⟨?_, by linarith⟩
  have h0 : 0 < X := by linarith
  have : 2 - X ≤ 1 / X := by
    rw [le_div_iff₀ h0]
    nlinarith [sq_nonneg (X - 1)]
  linarith

/-- a factor of at most 2 does not leave the range. -/
theorem within {P : Prec} {X z r : ℝ} (hl : 0 < P.lo) (hX : 0 < X) (h2 : X ≤ 2) (h : Near X z r) (hr : P.Within r) :
    (z = 0 ∨ P.lo ≤ |z|) ∧ |z| ≤ P.hi ∧ (r ≠ 0 → z ≠ 0) ∨ (z = 0 ∧ r = 0) := by
  obtain ⟨t, rfl, t1, t2⟩ := h
  rcases hr with rfl | ⟨a, b⟩
  · right; simp
  · left
    have p1 : 0 < 1 / X := by positivity
    have t0 : 0 < t := by linarith
    have th : 1 / 2 ≤ t := le_trans (one_div_le_one_div_of_le hX h2) t1
    have r0 : 0 < |r| := by linarith
    rw [abs_mul, abs_of_pos t0]
    refine ⟨Or.inr ?_, ?_, fun h => mul_ne_zero h t0.ne'⟩
    · nlinarith
    · nlinarith

end Near

variable {F : Flt} {v : List (List Char × F.LD)} {S : FltSem F} {P : Prec} {ρ : List Char → ℝ} {K : Nat}

/-- the factor of one rounding. -/
noncomputable def Prec.U (P : Prec) : ℝ := 1 / (1 - P.u)
/-- the factor of one rounding in `double`. -/
noncomputable def Prec.Ud (P : Prec) : ℝ := 1 / (1 - P.ud)

theorem one_le_inv {u : ℝ} (h0 : 0 ≤ u) (h1 : u ≤ 1 / 4) : 1 ≤ 1 / (1 - u) := by
  rw [le_div_iff₀ (by linarith)]; linarith

namespace FltSem.Accurate
variable (h : S.Accurate P)
include h

theorem U1 : 1 ≤ P.U := one_le_inv h.u0 h.u1
theorem Ud1 : 1 ≤ P.Ud := one_le_inv h.ud0 h.ud1
theorem U0 : 0 < P.U := lt_of_lt_of_le one_pos h.U1
theorem Ud0 : 0 < P.Ud := lt_of_lt_of_le one_pos h.Ud1
theorem MR : (1 : ℝ) ≤ P.M := by exact_mod_cast h.M1

/-- an operation within range. -/
theorem near {c : Char} {a b : F.LD} {x y r : ℝ} (ha : S.ld a = some x) (hb : S.ld b = some y) (hr : opSem c x y = some r)
    (h1 : |r| ≤ P.hi) (h2 : c = '+' ∨ c = '-' ∨ r = 0 ∨ P.lo ≤ |r|) : ∃ z, S.ld (fltOp F c a b) = some z ∧ Near P.U z r := by
  obtain ⟨z, z1, _, z2⟩ := h.op c a b x y r ha hb hr h1
  exact ⟨z, z1, Near.of_rel h.u0 (by linarith [h.u1]) (z2 h2)⟩

theorem nearD {c : Char} {a b : F.D} {x y r : ℝ} (hc : c = '/' ∨ c = '^') (ha : S.d a = some x) (hb : S.d b = some y)
    (hr : opSem c x y = some r) (h1 : |r| ≤ P.hi) (h2 : P.lo ≤ |r|) : ∃ z, S.d (fltOpD F c a b) = some z ∧ Near P.Ud z r := by
  obtain ⟨z, z1, z2⟩ := h.opD c a b x y r hc ha hb hr h1 h2
  exact ⟨z, z1, Near.of_rel h.ud0 (by linarith [h.ud1]) z2⟩

/-- a quotient of integers is within range. -/
theorem quot_range {m n : Int} (hm : |m| ≤ P.M) (hn : |n| ≤ P.M) (h0 : n ≠ 0) (m0 : m ≠ 0) :
    1 / (P.M : ℝ) ≤ |(m : ℝ) / n| ∧ |(m : ℝ) / n| ≤ P.M := by
  have a1 : (1 : ℝ) ≤ |(m : ℝ)| := by exact_mod_cast Int.one_le_abs m0
  have a2 : (1 : ℝ) ≤ |(n : ℝ)| := by exact_mod_cast Int.one_le_abs h0
  have a3 : |(m : ℝ)| ≤ P.M := by exact_mod_cast hm
  have a4 : |(n : ℝ)| ≤ P.M := by exact_mod_cast hn
  rw [abs_div]
  constructor
  · rw [div_le_div_iff₀ (by linarith) (by linarith)]
    nlinarith
  · rw [div_le_iff₀ (by linarith)]
    nlinarith [h.MR]

theorem lo_le : P.lo ≤ 1 / (4 * (P.M : ℝ) ^ 2) := by
  have := h.MR
  rw [le_div_iff₀ (by positivity)]
  exact h.loM

/-- sizes between `1/(2M²)` and `2M²` are within range. -/
theorem range_ok {r : ℝ} (h1 : 1 / (4 * (P.M : ℝ) ^ 2) ≤ |r|) (h2 : |r| ≤ 4 * (P.M : ℝ) ^ 2) : |r| ≤ P.hi ∧ P.lo ≤ |r| :=
  ⟨le_trans h2 h.hiM, le_trans h.lo_le h1⟩

end FltSem.Accurate

theorem opSem_div' {x y : ℝ} (h : y ≠ 0) : opSem '/' x y = some (x / y) := by
  unfold opSem
  rw [if_neg (by decide), if_neg (by decide), if_neg (by decide), if_pos rfl, if_neg h]

theorem opSem_mul' {x y : ℝ} : opSem '*' x y = some (x * y) := by
  unfold opSem
  simp

theorem opSem_pow' {x y : ℝ} (h : 0 < x ∨ (x = 0 ∧ 0 ≤ y) ∨ (x < 0 ∧ ∃ k : Int, y = k)) : opSem '^' x y = some (x ^ y) := by
  unfold opSem
  rw [if_neg (by decide), if_neg (by decide), if_neg (by decide), if_neg (by decide), if_pos rfl, if_pos h]

/-- a quotient of integers in `long double`. -/
theorem toLD_rel (h : S.Accurate P) {q : Rational} (hn : |q.num| ≤ P.M) (hd : |q.den| ≤ P.M) (h0 : q.den ≠ 0) :
    ∃ z, S.ld (q.toLD F) = some z ∧ |z - ((q.val : ℚ) : ℝ)| ≤ P.u * |((q.val : ℚ) : ℝ)| := by
  have h0' : (q.den : ℝ) ≠ 0 := by exact_mod_cast h0
  have e : ((q.val : ℚ) : ℝ) = (q.num : ℝ) / q.den := by unfold Rational.val; push_cast; rfl
  rw [e]
  have hM := h.MR
  by_cases hz : q.num = 0
  · obtain ⟨z, z1, _, z2⟩ := h.op '/' _ _ _ _ _ (h.ofInt _ hn) (h.ofInt _ hd) (opSem_div' h0')
      (by rw [hz]; simp; nlinarith [h.hiM])
    exact ⟨z, z1, z2 (Or.inr (Or.inr (Or.inl (by rw [hz]; simp))))⟩
  · have ⟨r1, r2⟩ := h.quot_range hn hd h0 hz
    have := h.range_ok (r := (q.num : ℝ) / q.den)
      (le_trans (by rw [div_le_div_iff₀ (by positivity) (by positivity)]; nlinarith) r1) (by nlinarith)
    obtain ⟨z, z1, _, z2⟩ := h.op '/' _ _ _ _ _ (h.ofInt _ hn) (h.ofInt _ hd) (opSem_div' h0') this.1
    exact ⟨z, z1, z2 (Or.inr (Or.inr (Or.inr this.2)))⟩

theorem toLD_near (h : S.Accurate P) {q : Rational} (hn : |q.num| ≤ P.M) (hd : |q.den| ≤ P.M) (h0 : q.den ≠ 0) :
    ∃ z, S.ld (q.toLD F) = some z ∧ Near P.U z ((q.val : ℚ) : ℝ) := by
  obtain ⟨z, z1, z2⟩ := toLD_rel h hn hd h0
  exact ⟨z, z1, Near.of_rel h.u0 (by linarith [h.u1]) z2⟩

/-- a quotient of positive integers in `double`. -/
theorem dDiv_rel (h : S.Accurate P) {m n : Int} (hm : 0 < m ∧ m ≤ P.M) (hn : 0 < n ∧ n ≤ P.M) :
    ∃ z, S.d (F.dDiv (F.dOfInt m) (F.dOfInt n)) = some z ∧ |z - (m : ℝ) / n| ≤ P.ud * |(m : ℝ) / n| := by
  have am : |m| ≤ P.M := by rw [abs_of_pos hm.1]; exact hm.2
  have an : |n| ≤ P.M := by rw [abs_of_pos hn.1]; exact hn.2
  have h0' : (n : ℝ) ≠ 0 := by exact_mod_cast hn.1.ne'
  have hM := h.MR
  have ⟨r1, r2⟩ := h.quot_range am an hn.1.ne' hm.1.ne'
  have := h.range_ok (r := (m : ℝ) / n)
    (le_trans (by rw [div_le_div_iff₀ (by positivity) (by positivity)]; nlinarith) r1) (by nlinarith)
  exact h.opD '/' _ _ _ _ _ (Or.inl rfl) (h.dOfInt _ am) (h.dOfInt _ an) (opSem_div' h0') this.1 this.2

theorem exp_le_inv {u : ℝ} (h1 : u < 1) : Real.exp u ≤ 1 / (1 - u) := by
  rw [le_div_iff₀ (by linarith)]
  have := Real.one_sub_le_exp_neg u
  calc Real.exp u * (1 - u) ≤ Real.exp u * Real.exp (-u) := mul_le_mul_of_nonneg_left this (Real.exp_pos _).le
    _ = 1 := by rw [← Real.exp_add]; simp

/-- a rounded exponent. -/
theorem near_exponent {x e e' u : ℝ} {K : Nat} (hx : 0 < x) (h0 : 0 ≤ u) (h1 : u < 1) (he : |e' - e| ≤ u * |e|)
    (hK : |e * Real.log x| ≤ K) : Near ((1 / (1 - u)) ^ K) (x ^ e') (x ^ e) := by
  have b : |(e' - e) * Real.log x| ≤ u * K := by
    rw [abs_mul]
    calc |e' - e| * |Real.log x| ≤ (u * |e|) * |Real.log x| := mul_le_mul_of_nonneg_right he (abs_nonneg _)
      _ = u * |e * Real.log x| := by rw [abs_mul]; ring
      _ ≤ u * K := mul_le_mul_of_nonneg_left hK h0
  rw [abs_le] at b
  have ex : Real.exp (u * K) ≤ (1 / (1 - u)) ^ K := by
    rw [mul_comm, Real.exp_nat_mul]
    exact pow_le_pow_left₀ (Real.exp_pos _).le (exp_le_inv h1) K
  refine ⟨Real.exp ((e' - e) * Real.log x), ?_, ?_, ?_⟩
  · rw [Real.rpow_def_of_pos hx, Real.rpow_def_of_pos hx, ← Real.exp_add]
    congr 1; ring
  · calc 1 / (1 / (1 - u)) ^ K ≤ 1 / Real.exp (u * K) := one_div_le_one_div_of_le (Real.exp_pos _) ex
      _ = Real.exp (-(u * K)) := by rw [Real.exp_neg, one_div]
      _ ≤ _ := Real.exp_le_exp.2 b.1
  · exact le_trans (Real.exp_le_exp.2 b.2) ex

/-- a rounded base. -/
theorem near_base {z r e X : ℝ} (hr : 0 < r) (hX : 1 ≤ X) (h : Near X z r) (e0 : 0 ≤ e) (e2 : e ≤ 2) :
    Near (X ^ 2) (z ^ e) (r ^ e) := by
  obtain ⟨t, rfl, t1, t2⟩ := h
  have hX0 : 0 < X := by linarith
  have p1 : 0 < 1 / X := by positivity
  have t0 : 0 < t := by linarith
  have ub : X ^ e ≤ X ^ 2 := by
    rw [← Real.rpow_natCast X 2]
    exact Real.rpow_le_rpow_of_exponent_le hX (by simpa using e2)
  refine ⟨t ^ e, Real.mul_rpow hr.le t0.le, ?_, ?_⟩
  · calc 1 / X ^ 2 ≤ 1 / X ^ e := one_div_le_one_div_of_le (Real.rpow_pos_of_pos hX0 _) ub
      _ = (1 / X) ^ e := by rw [one_div, one_div, Real.inv_rpow hX0.le]
      _ ≤ t ^ e := Real.rpow_le_rpow p1.le t1 e0
  · exact le_trans (Real.rpow_le_rpow t0.le t2 e0) ub

theorem near_bounds {X z r a b : ℝ} (hX : 0 < X) (h2 : X ≤ 2) (h : Near X z r) (h1 : a ≤ |r|) (h3 : |r| ≤ b) :
    a / 2 ≤ |z| ∧ |z| ≤ 2 * b := by
  obtain ⟨t, rfl, t1, t2⟩ := h
  have p1 : 0 < 1 / X := by positivity
  have t0 : 0 < t := by linarith
  have th : 1 / 2 ≤ t := le_trans (one_div_le_one_div_of_le hX h2) t1
  rw [abs_mul, abs_of_pos t0]
  constructor
  · nlinarith [abs_nonneg r]
  · nlinarith [abs_nonneg r]

/-- the number of roundings in `double` that account for the root. -/
noncomputable def Prec.J (P : Prec) : Nat := ⌈Real.log P.M⌉₊ + 3

theorem rat_log_le (h : S.Accurate P) {q : Rational} (hn : 0 < q.num ∧ q.num ≤ P.M) (hd : 0 < q.den ∧ q.den ≤ P.M) :
    0 < ((q.val : ℚ) : ℝ) ∧ |Real.log ((q.val : ℚ) : ℝ)| ≤ Real.log P.M := by
  have e : ((q.val : ℚ) : ℝ) = (q.num : ℝ) / q.den := by unfold Rational.val; push_cast; rfl
  have hM := h.MR
  have n0 : (0 : ℝ) < q.num := by exact_mod_cast hn.1
  have d0 : (0 : ℝ) < q.den := by exact_mod_cast hd.1
  have p : (0 : ℝ) < (q.num : ℝ) / q.den := div_pos n0 d0
  have ⟨r1, r2⟩ := h.quot_range (m := q.num) (n := q.den) (by rw [abs_of_pos hn.1]; exact hn.2) (by rw [abs_of_pos hd.1]; exact hd.2)
    hd.1.ne' hn.1.ne'
  rw [abs_of_pos p] at r1 r2
  rw [e]
  refine ⟨p, abs_le.2 ⟨?_, Real.log_le_log p r2⟩⟩
  have := Real.log_le_log (by positivity) r1
  rw [one_div, Real.log_inv] at this
  exact this

/-- the root of the radicand, in `double`. -/
theorem rootD_near (h : S.Accurate P) {r : Num.Real} (hr : P.CoeOk r) (hX : P.Ud ^ P.J ≤ 2) :
    ∃ z, S.d (r.rootD F) = some z ∧ Near (P.Ud ^ P.J) z (((r.rad.val : ℚ) : ℝ) ^ ((1 : ℝ) / r.index)) ∧
      1 / (P.M : ℝ) ≤ ((r.rad.val : ℚ) : ℝ) ^ ((1 : ℝ) / r.index) ∧ ((r.rad.val : ℚ) : ℝ) ^ ((1 : ℝ) / r.index) ≤ P.M := by
  have hM := h.MR
  have hU := h.Ud1
  have hk : (1 : ℝ) ≤ r.index := by exact_mod_cast hr.index.1
  obtain ⟨b, b1, b2⟩ := dDiv_rel h hr.rnum hr.rden
  obtain ⟨e, e1, e2⟩ := dDiv_rel (F := F) h (m := 1) (n := (r.index : Int)) ⟨one_pos, h.M1⟩
    ⟨by exact_mod_cast hr.index.1, hr.index.2⟩
  have ev : (((1 : Int) : ℝ) / (((r.index : Int)) : ℝ)) = 1 / (r.index : ℝ) := by push_cast; rfl
  rw [ev] at e2
  have rv : ((r.rad.val : ℚ) : ℝ) = (r.rad.num : ℝ) / r.rad.den := by unfold Rational.val; push_cast; rfl
  rw [← rv] at b2
  obtain ⟨x0, xl⟩ := rat_log_le h hr.rnum hr.rden
  set x : ℝ := ((r.rad.val : ℚ) : ℝ) with hx
  have k0 : 0 < 1 / (r.index : ℝ) := by positivity
  have k1 : 1 / (r.index : ℝ) ≤ 1 := by rw [div_le_one (by linarith)]; exact hk
  have bn : Near P.Ud b x := Near.of_rel h.ud0 (by linarith [h.ud1]) b2
  have bp : 0 < b := by
    obtain ⟨t, rfl, t1, _⟩ := bn
    have : 0 < 1 / P.Ud := by have := h.Ud0; positivity
    exact mul_pos x0 (by linarith)
  have eb : 0 ≤ e ∧ e ≤ 2 := by
    rw [abs_of_pos k0] at e2
    have := abs_le.1 e2
    have := h.ud1
    have := h.ud0
    constructor <;> nlinarith
  have n1 : Near (P.Ud ^ 2) (b ^ e) (x ^ e) := near_base x0 hU bn eb.1 eb.2
  have n2 : Near (P.Ud ^ ⌈Real.log P.M⌉₊) (x ^ e) (x ^ (1 / (r.index : ℝ))) := by
    refine near_exponent x0 h.ud0 (by linarith [h.ud1]) e2 ?_
    rw [abs_mul, abs_of_pos k0]
    calc 1 / (r.index : ℝ) * |Real.log x| ≤ 1 * |Real.log x| := mul_le_mul_of_nonneg_right k1 (abs_nonneg _)
      _ ≤ Real.log P.M := by rw [one_mul]; exact xl
      _ ≤ _ := Nat.le_ceil _
  have n3 := Near.trans (by positivity) (by positivity) n1 n2
  have lo : 1 / (P.M : ℝ) ≤ x ^ (1 / (r.index : ℝ)) ∧ x ^ (1 / (r.index : ℝ)) ≤ P.M := by
    rw [Real.rpow_def_of_pos x0]
    have ll : |Real.log x * (1 / (r.index : ℝ))| ≤ Real.log P.M := by
      rw [abs_mul, abs_of_pos k0]
      calc |Real.log x| * (1 / (r.index : ℝ)) ≤ |Real.log x| * 1 := mul_le_mul_of_nonneg_left k1 (abs_nonneg _)
        _ ≤ _ := by rw [mul_one]; exact xl
    rw [abs_le] at ll
    have hM0 : (0 : ℝ) < P.M := by linarith
    constructor
    · rw [one_div, ← Real.exp_log hM0, ← Real.exp_neg]
      exact Real.exp_le_exp.2 ll.1
    · conv_rhs => rw [← Real.exp_log hM0]
      exact Real.exp_le_exp.2 ll.2
  have xp : 0 < x ^ (1 / (r.index : ℝ)) := Real.rpow_pos_of_pos x0 _
  have X2 : P.Ud ^ 2 * P.Ud ^ ⌈Real.log P.M⌉₊ ≤ 2 := by
    rw [← pow_add]
    exact le_trans (pow_le_pow_right₀ hU (by unfold Prec.J; omega)) hX
  have rb := near_bounds (a := 1 / (P.M : ℝ)) (b := P.M) (by have := h.Ud0; positivity) X2 n3 (by rw [abs_of_pos xp]; exact lo.1) (by rw [abs_of_pos xp]; exact lo.2)
  have rk := h.range_ok (r := b ^ e)
    (le_trans (by rw [div_div, div_le_div_iff₀ (by positivity) (by positivity)]; nlinarith) rb.1) (by nlinarith)
  obtain ⟨z, z1, z2⟩ := h.nearD (Or.inr rfl) b1 e1 (opSem_pow' (Or.inl bp)) rk.1 rk.2
  refine ⟨z, z1, ?_, lo⟩
  have := Near.trans h.Ud0 (by have := h.Ud0; positivity) z2 n3
  have e3 : P.Ud * (P.Ud ^ 2 * P.Ud ^ ⌈Real.log P.M⌉₊) = P.Ud ^ P.J := by
    rw [← pow_add, ← pow_succ']
    congr 1; unfold Prec.J; omega
  rwa [e3] at this

/-- a coefficient. -/
theorem coe_near (h : S.Accurate P) {r : Num.Real} (hr : P.CoeOk r) (hX : P.U ^ 2 * P.Ud ^ P.J ≤ 2) :
    ∃ z, S.ld (r.toLD F) = some z ∧ Near (P.U ^ 2 * P.Ud ^ P.J) z r.val := by
  have hM := h.MR
  have hU := h.U1
  have hU2 : 1 ≤ P.U ^ 2 := one_le_pow₀ hU
  have hJ : 1 ≤ P.Ud ^ P.J := one_le_pow₀ h.Ud1
  obtain ⟨w, w1, w2, w3, w4⟩ := rootD_near (F := F) h hr (by nlinarith)
  obtain ⟨c, c1, c2⟩ := toLD_near (F := F) h hr.num hr.den hr.den0
  have J0 : 0 < P.Ud ^ P.J := by linarith
  have n1 := Near.mul h.U0 J0 c2 w2
  set y : ℝ := ((r.rad.val : ℚ) : ℝ) ^ ((1 : ℝ) / r.index) with hy
  have y0 : 0 < y := lt_of_lt_of_le (by positivity) w3
  have X2 : P.U * P.Ud ^ P.J ≤ 2 := by nlinarith
  have ce : ((r.coe.val : ℚ) : ℝ) = (r.coe.num : ℝ) / r.coe.den := by unfold Rational.val; push_cast; rfl
  have rng : |c * w| ≤ P.hi ∧ (c * w = 0 ∨ P.lo ≤ |c * w|) := by
    by_cases hz : r.coe.num = 0
    · have : c * w = 0 := by
        obtain ⟨t, e, _⟩ := n1
        rw [e, ce, hz]; simp
      rw [this]
      exact ⟨by simp; nlinarith [h.hiM], Or.inl rfl⟩
    · have ⟨r1, r2⟩ := h.quot_range hr.num hr.den hr.den0 hz
      rw [← ce] at r1 r2
      have b1 : 1 / (P.M : ℝ) ^ 2 ≤ |((r.coe.val : ℚ) : ℝ) * y| := by
        rw [abs_mul, abs_of_pos y0]
        calc 1 / (P.M : ℝ) ^ 2 = 1 / (P.M : ℝ) * (1 / P.M) := by field_simp
          _ ≤ _ := mul_le_mul r1 w3 (by positivity) (abs_nonneg _)
      have b2 : |((r.coe.val : ℚ) : ℝ) * y| ≤ (P.M : ℝ) ^ 2 := by
        rw [abs_mul, abs_of_pos y0, sq]
        exact mul_le_mul r2 w4 y0.le (by linarith)
      have nb := near_bounds (mul_pos h.U0 J0) X2 n1 b1 b2
      have := h.range_ok (r := c * w)
        (le_trans (by rw [div_div, div_le_div_iff₀ (by positivity) (by positivity)]; nlinarith) nb.1) (by nlinarith)
      exact ⟨this.1, Or.inr this.2⟩
  have hw : S.ld (F.widen (r.rootD F)) = some w := by rw [h.widen, w1]
  obtain ⟨z, z1, z2⟩ := h.near (c := '*') c1 hw opSem_mul' rng.1 (Or.inr (Or.inr rng.2))
  refine ⟨z, z1, ?_⟩
  have := Near.trans h.U0 (mul_pos h.U0 J0) z2 n1
  have e3 : P.U * (P.U * P.Ud ^ P.J) = P.U ^ 2 * P.Ud ^ P.J := by ring
  rwa [e3] at this

/-- the exponent of a symbol, and the power. -/
theorem pow_near (h : S.Accurate P) {q : List Char × Rational} (hq : P.PowOk ρ K q) (hw : P.Within (ρ q.1 ^ ((q.2.val : ℚ) : ℝ)))
    (hX : P.U ^ (K + 1) ≤ 2) {a : F.LD} (ha : S.ld a = some (ρ q.1)) :
    ∃ z, S.ld (F.pow a (q.2.toLD F)) = some z ∧ Near (P.U ^ (K + 1)) z (ρ q.1 ^ ((q.2.val : ℚ) : ℝ)) := by
  have hU := h.U1
  have K0 : 0 < P.U ^ K := pow_pos h.U0 K
  have K2 : P.U ^ K ≤ 2 := le_trans (pow_le_pow_right₀ hU (Nat.le_succ K)) hX
  have key : ∃ e, S.ld (q.2.toLD F) = some e ∧ opSem '^' (ρ q.1) e = some (ρ q.1 ^ e) ∧
      Near (P.U ^ K) (ρ q.1 ^ e) (ρ q.1 ^ ((q.2.val : ℚ) : ℝ)) := by
    rcases hq with ⟨h1, h2, h3⟩ | ⟨h1, h2, h3, h4, h5⟩
    · have e : ((q.2.val : ℚ) : ℝ) = (q.2.num : ℝ) := by unfold Rational.val; rw [h1]; push_cast; ring
      rw [e]
      refine ⟨q.2.num, ?_, opSem_pow' ?_, (Near.refl _).mono one_pos (one_le_pow₀ hU)⟩
      · unfold Rational.toLD
        rw [h1]
        exact h.intDiv _ h2
      · rcases lt_trichotomy (ρ q.1) 0 with g | g | g
        · exact Or.inr (Or.inr ⟨g, _, rfl⟩)
        · exact Or.inr (Or.inl ⟨g, by exact_mod_cast h3 g⟩)
        · exact Or.inl g
    · obtain ⟨e, e1, e2⟩ := toLD_rel (F := F) h h2 h3 h4
      exact ⟨e, e1, opSem_pow' (Or.inl h1), near_exponent h1 h.u0 (by linarith [h.u1]) e2 h5⟩
  obtain ⟨e, e1, e2, e3⟩ := key
  have rng : |ρ q.1 ^ e| ≤ P.hi ∧ (ρ q.1 ^ e = 0 ∨ P.lo ≤ |ρ q.1 ^ e|) := by
    rcases e3.within h.lo0 K0 K2 hw with g | g
    · exact ⟨g.2.1, g.1⟩
    · rw [g.1]
      have := h.MR
      exact ⟨by simp; nlinarith [h.hiM], Or.inl rfl⟩
  obtain ⟨z, z1, z2⟩ := h.near (c := '^') ha e1 e2 rng.1 (Or.inr (Or.inr rng.2))
  refine ⟨z, z1, ?_⟩
  have := Near.trans h.U0 K0 z2 e3
  rwa [← pow_succ'] at this

/-- the powers of a term. -/
theorem syms_near (h : S.Accurate P) {s : Syms} {c : ℝ} (hs : P.SymsOk ρ K s c) (hv : ConstsReal S v ρ (s.map (·.1)))
    {r : F.LD} {w X : ℝ} (hr : S.ld r = some w) (hX1 : 1 ≤ X) (hn : Near X w c) (hX : X * P.U ^ ((K + 2) * s.length) ≤ 2) :
    ∃ a z, Syms.tryEvalLD F v s r = some a ∧ S.ld a = some z ∧ Near (X * P.U ^ ((K + 2) * s.length)) z (c * s.value ρ) := by
  have hU := h.U1
  induction s generalizing r w c X with
  | nil =>
    refine ⟨r, w, rfl, hr, ?_⟩
    simpa [Syms.value] using hn
  | cons q s ih =>
    obtain ⟨h1, h2, h3, h4⟩ := hs
    obtain ⟨a, a1, a2⟩ := hv q.1 (by simp)
    have X0 : 0 < X := by linarith
    have V1 : 1 ≤ P.U ^ ((K + 2) * s.length) := one_le_pow₀ hU
    have e0 : X * P.U ^ ((K + 2) * (q :: s).length) = X * P.U ^ (K + 2) * P.U ^ ((K + 2) * s.length) := by
      rw [List.length_cons, mul_assoc, ← pow_add]
      congr 2; ring
    rw [e0] at hX ⊢
    have W1 : 1 ≤ P.U ^ (K + 1) := one_le_pow₀ hU
    have eW : P.U ^ (K + 2) = P.U ^ (K + 1) * P.U := pow_succ _ _
    have XW1 : 1 ≤ X * P.U ^ (K + 1) := by nlinarith
    have T1 : X * P.U ^ (K + 2) ≤ 2 := by
      have : 0 ≤ X * P.U ^ (K + 2) := by positivity
      nlinarith
    have T2 : X * P.U ^ (K + 1) ≤ 2 := by rw [eW] at T1; nlinarith
    have T3 : P.U ^ (K + 1) ≤ 2 := by nlinarith
    obtain ⟨p, p1, p2⟩ := pow_near h h1 h2 T3 a2
    have n1 := Near.mul X0 (by linarith) hn p2
    have rng : |w * p| ≤ P.hi ∧ (w * p = 0 ∨ P.lo ≤ |w * p|) := by
      rcases n1.within h.lo0 (by linarith) T2 h3 with g | g
      · exact ⟨g.2.1, g.1⟩
      · rw [g.1]
        have := h.MR
        exact ⟨by simp; nlinarith [h.hiM], Or.inl rfl⟩
    obtain ⟨z, z1, z2⟩ := h.near (c := '*') hr p1 opSem_mul' rng.1 (Or.inr (Or.inr rng.2))
    have n2 := Near.trans h.U0 (by linarith) z2 n1
    have e1 : P.U * (X * P.U ^ (K + 1)) = X * P.U ^ (K + 2) := by rw [eW]; ring
    rw [e1] at n2
    obtain ⟨b, y, b1, b2, b3⟩ := ih h4 (fun x hx => hv x (by simp at hx ⊢; exact Or.inr hx)) z1
      (by have : 1 ≤ P.U ^ (K + 2) := one_le_pow₀ hU
          nlinarith) n2 hX
    refine ⟨b, y, ?_, b2, ?_⟩
    · unfold Syms.tryEvalLD
      rw [a1]
      exact b1
    · have : c * Syms.value ρ (q :: s) = c * ρ q.1 ^ ((q.2.val : ℚ) : ℝ) * Syms.value ρ s := by
        simp [Syms.value]; ring
      rw [this]
      exact b3

/-- the factor of a term. -/
noncomputable def Prec.T (P : Prec) (k K : Nat) : ℝ := P.U ^ ((K + 2) * k + 2) * P.Ud ^ P.J

/-- a term. -/
theorem term_near (h : S.Accurate P) {t : Term} {k : Nat} (hc : P.CoeOk t.coe) (hs : P.SymsOk ρ K t.syms t.coe.val)
    (hk : t.syms.length ≤ k) (hv : ConstsReal S v ρ t.names) (hX : P.T k K ≤ 2) :
    ∃ a z, t.tryEvalLD F v = some a ∧ S.ld a = some z ∧ Near (P.T k K) z (t.value ρ) := by
  have hU := h.U1
  have J1 : 1 ≤ P.Ud ^ P.J := one_le_pow₀ h.Ud1
  have e : P.T k K = P.U ^ 2 * P.Ud ^ P.J * P.U ^ ((K + 2) * k) := by unfold Prec.T; rw [pow_add]; ring
  have m : P.U ^ ((K + 2) * t.syms.length) ≤ P.U ^ ((K + 2) * k) := pow_le_pow_right₀ hU (Nat.mul_le_mul_left _ hk)
  have V1 : 1 ≤ P.U ^ ((K + 2) * t.syms.length) := one_le_pow₀ hU
  have C1 : 1 ≤ P.U ^ 2 * P.Ud ^ P.J := by
    have : 1 ≤ P.U ^ 2 := one_le_pow₀ hU
    nlinarith
  have le : P.U ^ 2 * P.Ud ^ P.J * P.U ^ ((K + 2) * t.syms.length) ≤ P.T k K := by
    rw [e]; exact mul_le_mul_of_nonneg_left m (by linarith)
  obtain ⟨c, c1, c2⟩ := coe_near (F := F) h hc (by nlinarith)
  obtain ⟨a, z, a1, a2, a3⟩ := syms_near h hs hv c1 C1 c2 (le_trans le hX)
  exact ⟨a, z, a1, a2, a3.mono (by positivity) le⟩

/-- the sum of the terms. -/
theorem sum_near (h : S.Accurate P) {p : Poly} {k : Nat} (hc : ∀ t ∈ p, P.CoeOk t.coe)
    (hs : ∀ t ∈ p, P.SymsOk ρ K t.syms t.coe.val) (hk : ∀ t ∈ p, t.syms.length ≤ k) (hv : ConstsReal S v ρ (Poly.names p))
    {r : F.LD} {w c A Y : ℝ} (hr : S.ld r = some w) (hw : |w - c| ≤ (Y - 1) * A) (hA : |c| ≤ A) (hY : P.T k K ≤ Y)
    (h2 : Y * P.U ^ p.length ≤ 2) (hhi : A + p.size ρ ≤ P.hi / 2) :
    ∃ a z, Poly.tryEvalLDLoop F v p r = some a ∧ S.ld a = some z ∧
      |z - (c + p.value ρ)| ≤ (Y * P.U ^ p.length - 1) * (A + p.size ρ) := by
  have hU := h.U1
  have T1 : 1 ≤ P.T k K := by
    have a1 : 1 ≤ P.U ^ ((K + 2) * k + 2) := one_le_pow₀ hU
    have a2 : 1 ≤ P.Ud ^ P.J := one_le_pow₀ h.Ud1
    unfold Prec.T
    nlinarith
  induction p generalizing r w c A Y with
  | nil =>
    refine ⟨r, w, rfl, hr, ?_⟩
    simpa [Poly.value, Poly.size] using hw
  | cons t p ih =>
    have Y1 : 1 ≤ Y := le_trans T1 hY
    have V1 : 1 ≤ P.U ^ p.length := one_le_pow₀ hU
    have eY : Y * P.U ^ (t :: p).length = Y * P.U * P.U ^ p.length := by rw [List.length_cons, pow_succ']; ring
    rw [eY] at h2 ⊢
    have YU : Y * P.U ≤ 2 := by nlinarith
    have Y2 : Y ≤ 2 := by nlinarith
    have es : Poly.size ρ (t :: p) = |t.value ρ| + Poly.size ρ p := by simp [Poly.size]
    have ev : Poly.value ρ (t :: p) = t.value ρ + Poly.value ρ p := by simp [Poly.value]
    have en : Poly.names (t :: p) = t.names ++ Poly.names p := by simp [Poly.names]
    rw [es, ← add_assoc] at hhi ⊢
    rw [ev, ← add_assoc]
    have p0 : 0 ≤ Poly.size ρ p := List.sum_nonneg (by simp)
    obtain ⟨a, x, a1, a2, a3⟩ := term_near h (hc t (by simp)) (hs t (by simp)) (hk t (by simp))
      (fun y hy => hv y (by rw [en]; exact List.mem_append_left _ hy)) (le_trans hY Y2)
    have x1 := (a3.mono (by linarith) hY).abs_sub Y1
    have A0 : 0 ≤ A := le_trans (abs_nonneg c) hA
    have v0 := abs_nonneg (t.value ρ)
    set B := A + |t.value ρ| with hB
    have B0 : 0 ≤ B := by linarith
    have d1 : |(w + x) - (c + t.value ρ)| ≤ (Y - 1) * B := by
      have e : (w + x) - (c + t.value ρ) = (w - c) + (x - t.value ρ) := by ring
      rw [e]
      calc |(w - c) + (x - t.value ρ)| ≤ |w - c| + |x - t.value ρ| := abs_add_le _ _
        _ ≤ (Y - 1) * A + (Y - 1) * |t.value ρ| := add_le_add hw x1
        _ = (Y - 1) * B := by rw [hB]; ring
    have cv : |c + t.value ρ| ≤ B := le_trans (abs_add_le _ _) (by linarith)
    have d2 : |w + x| ≤ Y * B := by
      have e : w + x = ((w + x) - (c + t.value ρ)) + (c + t.value ρ) := by ring
      rw [e]
      calc _ ≤ |(w + x) - (c + t.value ρ)| + |c + t.value ρ| := abs_add_le _ _
        _ ≤ (Y - 1) * B + B := add_le_add d1 cv
        _ = Y * B := by ring
    obtain ⟨z, z1, _, z2⟩ := h.op '+' r a w x (w + x) hr a2 (by unfold opSem; simp) (by nlinarith)
    have z3 := z2 (Or.inl rfl)
    have u0 := h.u0
    have uU : 1 + P.u ≤ P.U := by
      unfold Prec.U
      rw [le_div_iff₀ (by linarith [h.u1])]
      nlinarith [mul_nonneg u0 u0]
    have d3 : |z - (c + t.value ρ)| ≤ (Y * P.U - 1) * B := by
      have e : z - (c + t.value ρ) = (z - (w + x)) + ((w + x) - (c + t.value ρ)) := by ring
      rw [e]
      calc _ ≤ |z - (w + x)| + |(w + x) - (c + t.value ρ)| := abs_add_le _ _
        _ ≤ P.u * (Y * B) + (Y - 1) * B := add_le_add (le_trans z3 (mul_le_mul_of_nonneg_left d2 u0)) d1
        _ = (Y * (1 + P.u) - 1) * B := by ring
        _ ≤ (Y * P.U - 1) * B := by
          refine mul_le_mul_of_nonneg_right ?_ B0
          have := mul_le_mul_of_nonneg_left uU (show 0 ≤ Y by linarith)
          linarith
    obtain ⟨b, y, b1, b2, b3⟩ := ih (fun t ht => hc t (List.mem_cons_of_mem _ ht)) (fun t ht => hs t (List.mem_cons_of_mem _ ht))
      (fun t ht => hk t (List.mem_cons_of_mem _ ht)) (fun y hy => hv y (by rw [en]; exact List.mem_append_right _ hy))
      z1 d3 cv (by nlinarith) h2 hhi
    refine ⟨b, y, ?_, b2, b3⟩
    unfold Poly.tryEvalLDLoop
    rw [a1]
    exact b1

/-- `1/((1-u)^i (1-ud)^j) ≤ 1/(1-(iu+jud))`. -/
theorem pow_bound (h : S.Accurate P) {i : Nat} (hs : (i : ℝ) * P.u + (P.J : ℝ) * P.ud ≤ 1 / 3) :
    P.U ^ i * P.Ud ^ P.J ≤ 1 / (1 - ((i : ℝ) * P.u + (P.J : ℝ) * P.ud)) := by
  have u0 := h.u0
  have ud0 := h.ud0
  have b1 := one_add_mul_le_pow (a := -P.u) (by linarith [h.u1]) i
  have b2 := one_add_mul_le_pow (a := -P.ud) (by linarith [h.ud1]) P.J
  have i0 : 0 ≤ (i : ℝ) * P.u := by positivity
  have j0 : 0 ≤ (P.J : ℝ) * P.ud := by positivity
  have p1 : 0 < 1 + -P.u := by linarith [h.u1]
  have p2 : 0 < 1 + -P.ud := by linarith [h.ud1]
  unfold Prec.U Prec.Ud
  rw [div_pow, div_pow, one_pow, one_pow, div_mul_div_comm, one_mul]
  refine one_div_le_one_div_of_le (by linarith) ?_
  rw [sub_eq_add_neg 1 P.u, sub_eq_add_neg 1 P.ud]
  have := mul_le_mul b1 b2 (by linarith) (by positivity)
  nlinarith [mul_nonneg i0 j0]

/-- a polynomial. -/
theorem poly_near (h : S.Accurate P) {p : Poly} {k : Nat} (hp : P.PolyOk ρ k K p) (hv : ConstsReal S v ρ (Poly.names p)) :
    ∃ a z, p.tryEvalLD F v = some a ∧ S.ld a = some z ∧ |z - p.value ρ| ≤ P.gam p.length k K * p.size ρ ∧
      P.gam p.length k K ≤ 1 / 2 := by
  have hU := h.U1
  set s : ℝ := ((p.length + (K + 2) * k + 2 : Nat) : ℝ) * P.u + (P.J : ℝ) * P.ud with hs
  have s3 : s ≤ 1 / 3 := hp.few
  have g : P.gam p.length k K = s / (1 - s) := rfl
  have b : P.U ^ (p.length + (K + 2) * k + 2) * P.Ud ^ P.J ≤ 1 / (1 - s) := pow_bound h hp.few
  have e : P.T k K * P.U ^ p.length = P.U ^ (p.length + (K + 2) * k + 2) * P.Ud ^ P.J := by
    unfold Prec.T
    rw [mul_right_comm, ← pow_add]
    congr 2; ring
  have s2 : 1 / (1 - s) ≤ 2 := by rw [div_le_iff₀ (by linarith)]; linarith
  have eg : 1 / (1 - s) - 1 = s / (1 - s) := by
    have : (1 - s) ≠ 0 := by linarith
    field_simp; ring
  obtain ⟨a, z, a1, a2, a3⟩ := sum_near h hp.coe hp.syms hp.count hv (h.ofInt 0 (by simpa using le_trans zero_le_one h.M1))
    (c := 0) (A := 0) (Y := P.T k K) (by simp) (by simp) (le_refl _) (by rw [e]; linarith) (by simpa using hp.sum)
  refine ⟨a, z, a1, a2, ?_, ?_⟩
  · rw [g, ← eg]
    rw [zero_add, zero_add, e] at a3
    refine le_trans a3 (mul_le_mul_of_nonneg_right (by linarith) ?_)
    exact List.sum_nonneg (by simp)
  · rw [g, div_le_iff₀ (by linarith)]; linarith

/-- numerator over denominator, when both are rounded. -/
theorem quot_error {n d N D α β : ℝ} (hd : d ≠ 0) (hN : |N - n| ≤ α) (hD : |D - d| ≤ β) (hβ : β ≤ |d| / 2) :
    D ≠ 0 ∧ |d| / 2 ≤ |D| ∧ |N / D - n / d| ≤ 2 * (α + |n / d| * β) / |d| := by
  have d0 : 0 < |d| := abs_pos.2 hd
  have D1 : |d| / 2 ≤ |D| := by
    have e : d = D - (D - d) := by ring
    have := abs_sub D (D - d)
    rw [← e] at this
    linarith
  have D0 : D ≠ 0 := by
    intro h
    rw [h, abs_zero] at D1
    linarith
  refine ⟨D0, D1, ?_⟩
  have e : N / D - n / d = ((N - n) - n / d * (D - d)) / D := by field_simp; ring
  have α0 : 0 ≤ α := le_trans (abs_nonneg _) hN
  have β0 : 0 ≤ β := le_trans (abs_nonneg _) hD
  rw [e, abs_div]
  have t1 : |N - n - n / d * (D - d)| ≤ α + |n / d| * β := by
    calc _ ≤ |N - n| + |n / d * (D - d)| := abs_sub _ _
      _ ≤ α + |n / d| * β := by
        rw [abs_mul]
        exact add_le_add hN (mul_le_mul_of_nonneg_left hD (abs_nonneg _))
  have s0 : 0 ≤ α + |n / d| * β := le_trans (abs_nonneg _) t1
  rw [div_le_div_iff₀ (abs_pos.2 D0) d0]
  nlinarith

theorem poly_value_le (p : Poly) : |p.value ρ| ≤ p.size ρ := by
  unfold Poly.value Poly.size
  induction p with
  | nil => simp
  | cons t p ih =>
    rw [List.map_cons, List.sum_cons, List.map_cons, List.sum_cons]
    exact le_trans (abs_add_le _ _) (by linarith)

theorem opSem_div_def {x y r : ℝ} (h : opSem '/' x y = some r) : y ≠ 0 ∧ r = x / y := by
  unfold opSem at h
  rw [if_neg (by decide), if_neg (by decide), if_neg (by decide), if_pos rfl] at h
  split at h
  · cases h
  next h0 => exact ⟨h0, (Option.some.inj h).symm⟩

/-- the evaluation of a tree. -/
theorem Node.error (h : S.Accurate P) {k : Nat} {n : Node} {x E : ℝ} (hn : P.ErrorAt ρ k K n x E) (hv : ConstsReal S v ρ n.names) :
    n.sem ρ = some x ∧ ∃ a z, Node.tryEvalLD F v n = .ok (some a) ∧ S.ld a = some z ∧ |z - x| ≤ E := by
  have u0 := h.u0
  have u1 := h.u1
  induction n generalizing x E with
  | frac f =>
    obtain ⟨h1, h2, h3, h4, h5, h6, h7⟩ := hn
    have en : (Node.frac f).names = f.names := rfl
    rw [en] at hv
    unfold Frac.names at hv
    obtain ⟨a, N, a1, a2, a3, a4⟩ := poly_near h h1 (fun y hy => hv y (List.mem_append_left _ hy))
    obtain ⟨b, D, b1, b2, b3, b4⟩ := poly_near h h2 (fun y hy => hv y (List.mem_append_right _ hy))
    refine ⟨?_, ?_⟩
    · rw [h4]
      unfold Node.sem
      rw [if_neg h3]
      rfl
    obtain ⟨D0, D1, q⟩ := quot_error h3 a3 b3 h5
    rw [← h4] at q
    have d0 : 0 < |f.den.value ρ| := abs_pos.2 h3
    set α := P.gam f.num.length k K * f.num.size ρ with hα
    set β := P.gam f.den.length k K * f.den.size ρ with hβ
    have α0 : 0 ≤ α := le_trans (abs_nonneg _) a3
    have β0 : 0 ≤ β := le_trans (abs_nonneg _) b3
    set e := 2 * (α + |x| * β) / |f.den.value ρ| with he
    have s0 : 0 ≤ f.num.size ρ := le_trans (abs_nonneg _) (poly_value_le f.num)
    have N1 : |N| ≤ 3 / 2 * f.num.size ρ := by
      have e : N = (N - f.num.value ρ) + f.num.value ρ := by ring
      rw [e]
      have := poly_value_le (ρ := ρ) f.num
      refine le_trans (abs_add_le _ _) ?_
      nlinarith
    have rng : |N / D| ≤ P.hi := by
      rw [abs_div, div_le_iff₀ (abs_pos.2 D0)]
      rw [div_le_iff₀ d0] at h6
      have : 0 ≤ P.hi := by
        have := h.MR
        nlinarith [h.hiM]
      nlinarith
    obtain ⟨z, z1, z2, _⟩ := h.op '/' a b N D (N / D) a2 b2 (opSem_div' D0) rng
    refine ⟨_, z, ?_, z1, ?_⟩
    · show Res.ok (f.tryEvalLD F v) = _
      unfold Frac.tryEvalLD
      rw [a1, b1]
      rfl
    · have e0 : 0 ≤ e := le_trans (abs_nonneg _) q
      have nd : |N / D| ≤ |x| + e := by
        have e' : N / D = (N / D - x) + x := by ring
        rw [e']
        exact le_trans (abs_add_le _ _) (by linarith)
      have eE : E = 3 / 2 * e + P.u * |x| + P.lo := by rw [h7, he]; ring
      rw [eE]
      have e' : z - x = (z - N / D) + (N / D - x) := by ring
      rw [e']
      calc _ ≤ |z - N / D| + |N / D - x| := abs_add_le _ _
        _ ≤ (P.u * |N / D| + P.lo) + e := add_le_add z2 q
        _ ≤ _ := by nlinarith
  | op c l r il ir =>
    obtain ⟨y, a, w, b, e, hl, hr, h1, h2, h3, h4⟩ := hn
    have en : (Node.op c l r).names = l.names ++ r.names := rfl
    rw [en] at hv
    obtain ⟨s1, A, y', A1, A2, A3⟩ := il hl (fun y hy => hv y (List.mem_append_left _ hy))
    obtain ⟨s2, B, w', B1, B2, B3⟩ := ir hr (fun y hy => hv y (List.mem_append_right _ hy))
    refine ⟨?_, ?_⟩
    · show ((Node.sem ρ l).bind fun x => (Node.sem ρ r).bind fun y => opSem c x y) = _
      rw [s1, s2]
      exact h1
    obtain ⟨x', x1, x2⟩ := h2 y' w' A3 B3
    have e0 : 0 ≤ e := le_trans (abs_nonneg _) x2
    have nx : |x'| ≤ |x| + e := by
      have e' : x' = (x' - x) + x := by ring
      rw [e']
      exact le_trans (abs_add_le _ _) (by linarith)
    obtain ⟨z, z1, z2, _⟩ := h.op c A B y' w' x' A2 B2 x1 (le_trans nx h3)
    refine ⟨_, z, Node.tryEvalLD_op (opSem_ops h1) A1 B1, z1, ?_⟩
    rw [h4]
    have e' : z - x = (z - x') + (x' - x) := by ring
    rw [e']
    calc _ ≤ |z - x'| + |x' - x| := abs_add_le _ _
      _ ≤ (P.u * |x'| + P.lo) + e := add_le_add z2 x2
      _ ≤ _ := by nlinarith

end Symxx.Sym
