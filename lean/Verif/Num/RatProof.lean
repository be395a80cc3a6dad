import Verif.Num.Rational
import Mathlib.Data.Rat.Defs
import Mathlib.Algebra.Order.Field.Rat
import Mathlib.Data.Int.GCD
import Mathlib.RingTheory.Coprime.Lemmas
import Mathlib.RingTheory.Int.Basic
import Mathlib.Tactic.LinearCombination
import Mathlib.Tactic.FieldSimp
import Mathlib.Tactic.Ring
import Mathlib.Tactic.Linarith
import Mathlib.Tactic.Positivity
/-!
# `Rational<T>` denotes a rational number: specification and lemmas
-/
namespace Symxx.Num

/-- the rational number a `Rational` denotes. -/
def Rational.val (r : Rational) : ℚ := (r.num : ℚ) / (r.den : ℚ)
/-- the fraction is in lowest terms. -/
def Rational.Lowest (r : Rational) : Prop := Int.gcd r.num r.den = 1
/-- both members are values of `T` whose negation is also a value (i.e. not the minimum). -/
def Rational.Fits (M : Int) (r : Rational) : Prop := |r.num| ≤ M ∧ |r.den| ≤ M

instance (r : Rational) : Decidable r.Lowest := by unfold Rational.Lowest; infer_instance
instance (M : Int) (r : Rational) : Decidable (r.Fits M) := by unfold Rational.Fits; infer_instance

/-! ### machine operations -/

theorem gcdT_ok {M a b g : Int} : gcdT M a b = .ok g ↔ (|a| ≤ M ∧ |b| ≤ M) ∧ g = Int.gcd a b := by
  unfold gcdT
  rw [Int.abs_eq_natAbs, Int.abs_eq_natAbs]
  split <;> simp_all [eq_comm]

theorem lcmT_ok {M a b g : Int} :
    lcmT M a b = .ok g ↔ (|a| ≤ M ∧ |b| ≤ M ∧ (Int.lcm a b : Int) ≤ M) ∧ g = Int.lcm a b := by
  unfold lcmT
  rw [Int.abs_eq_natAbs, Int.abs_eq_natAbs]
  split <;> simp_all [eq_comm]

theorem divT_ok {M a b q : Int} : divT M a b = .ok q ↔ b ≠ 0 ∧ InRange M (a.tdiv b) ∧ q = a.tdiv b := by
  unfold divT
  split
  · simp_all
  · rw [chk_eq_ok]; simp_all

theorem absT_ok {M a q : Int} : absT M a = .ok q ↔ InRange M |a| ∧ q = |a| := by
  unfold absT
  rw [chk_eq_ok, Int.abs_eq_natAbs]

theorem gcdT_clean (M a b : Int) : (gcdT M a b).Clean := by
  unfold gcdT; split
  · exact .ok _
  · exact .ub _
theorem lcmT_clean (M a b : Int) : (lcmT M a b).Clean := by
  unfold lcmT; split
  · exact .ok _
  · exact .ub _
theorem divT_clean (M a b : Int) : (divT M a b).Clean := by
  unfold divT; split
  · exact .ub _
  · exact chk_clean _ _
theorem absT_clean (M a : Int) : (absT M a).Clean := chk_clean _ _

theorem inRange_of_abs {M a : Int} (h : |a| ≤ M) : InRange M a := by
  have := abs_le.1 h
  exact ⟨by omega, this.2⟩

theorem tdiv_dvd {a g : Int} (h : g ∣ a) : a.tdiv g * g = a := Int.tdiv_mul_cancel h

theorem abs_tdiv_le {a g : Int} : |a.tdiv g| ≤ |a| := by
  rw [Int.abs_eq_natAbs, Int.abs_eq_natAbs, Int.natAbs_tdiv]
  exact_mod_cast Nat.div_le_self _ _

theorem pos_of_mul_pos_right' {a g : Int} (h : 0 < a * g) (hg : 0 < g) : 0 < a := by
  by_contra hc
  have : a * g ≤ 0 := mul_nonpos_of_nonpos_of_nonneg (by omega) hg.le
  omega

namespace Rational

/-- `normalize` divides by the gcd and turns the denominator `-1` into `1`. -/
theorem normalize_eq (M n d : Int) (hn : |n| ≤ M) (hd : |d| ≤ M) (hd0 : d ≠ 0) :
    normalize M ⟨n, d⟩ = .ok (if d.tdiv (Int.gcd n d) = -1 then ⟨-(n.tdiv (Int.gcd n d)), 1⟩
      else ⟨n.tdiv (Int.gcd n d), d.tdiv (Int.gcd n d)⟩) := by
  have hg : (Int.gcd n d : Int) ≠ 0 := by
    intro h
    have := Int.gcd_eq_zero_iff.1 (by exact_mod_cast h)
    exact hd0 this.2
  have hgg : Int.gcd |n| |d| = Int.gcd n d := by
    rw [Int.abs_eq_natAbs, Int.abs_eq_natAbs]; rfl
  unfold normalize
  have e1 : absT M n = .ok |n| := absT_ok.2 ⟨inRange_of_abs (by rwa [abs_abs]), rfl⟩
  have e2 : absT M d = .ok |d| := absT_ok.2 ⟨inRange_of_abs (by rwa [abs_abs]), rfl⟩
  have e3 : gcdT M |n| |d| = .ok (Int.gcd n d : Int) :=
    gcdT_ok.2 ⟨⟨by rwa [abs_abs], by rwa [abs_abs]⟩, by rw [hgg]⟩
  have e4 : divT M n (Int.gcd n d) = .ok (n.tdiv (Int.gcd n d)) :=
    divT_ok.2 ⟨hg, inRange_of_abs (le_trans abs_tdiv_le hn), rfl⟩
  have e5 : divT M d (Int.gcd n d) = .ok (d.tdiv (Int.gcd n d)) :=
    divT_ok.2 ⟨hg, inRange_of_abs (le_trans abs_tdiv_le hd), rfl⟩
  simp only [e1, e2, e3, e4, e5, Res.bind_ok]
  split
  · rw [chk_ok (inRange_of_abs (by rw [abs_neg]; exact le_trans abs_tdiv_le hn))]; rfl
  · rfl

/-- `normalize` never raises. -/
theorem normalize_clean (M : Int) (r : Rational) : (normalize M r).Clean := by
  unfold normalize
  refine .bind (absT_clean _ _) fun _ _ => .bind (absT_clean _ _) fun _ _ =>
    .bind (gcdT_clean _ _ _) fun _ _ => .bind (divT_clean _ _ _) fun _ _ =>
    .bind (divT_clean _ _ _) fun _ _ => .ite (fun _ => .bind (chk_clean _ _) fun _ _ => .ok _) fun _ => .ok _

/-- when `normalize` returns, both members were representable in absolute value. -/
theorem normalize_fits {M : Int} {r r' : Rational} (h : normalize M r = .ok r') :
    r.Fits M ∧ (Int.gcd r.num r.den ≠ 0) := by
  unfold normalize at h
  obtain ⟨_, h1, h⟩ := Res.bind_eq_ok.1 h
  obtain ⟨_, h2, h⟩ := Res.bind_eq_ok.1 h
  obtain ⟨g, h3, h⟩ := Res.bind_eq_ok.1 h
  obtain ⟨_, h4, h⟩ := Res.bind_eq_ok.1 h
  obtain ⟨r1, rfl⟩ := absT_ok.1 h1
  obtain ⟨r2, rfl⟩ := absT_ok.1 h2
  obtain ⟨-, r3⟩ := gcdT_ok.1 h3
  obtain ⟨r4, -⟩ := divT_ok.1 h4
  refine ⟨⟨r1.2, r2.2⟩, ?_⟩
  rw [r3] at r4
  have hgg : Int.gcd |r.num| |r.den| = Int.gcd r.num r.den := by
    rw [Int.abs_eq_natAbs, Int.abs_eq_natAbs]; rfl
  rw [hgg] at r4
  exact_mod_cast r4

theorem gcd_tdiv {n d : Int} (hg : Int.gcd n d ≠ 0) :
    Int.gcd (n.tdiv (Int.gcd n d)) (d.tdiv (Int.gcd n d)) = 1 := by
  have h1 : (Int.gcd n d : Int) ∣ n := Int.gcd_dvd_left ..
  have h2 : (Int.gcd n d : Int) ∣ d := Int.gcd_dvd_right ..
  rw [Int.tdiv_eq_ediv_of_dvd h1, Int.tdiv_eq_ediv_of_dvd h2]
  exact Int.gcd_ediv_gcd_ediv_gcd (Nat.pos_of_ne_zero hg)

/-- what `normalize` guarantees. -/
theorem normalize_spec {M : Int} {r r' : Rational} (h : normalize M r = .ok r') (hd : r.den ≠ 0) :
    r'.val = r.val ∧ r'.Lowest ∧ r'.den ≠ 0 ∧ r'.den ≠ -1 ∧ (0 < r.den → 0 < r'.den) ∧ r'.Fits M ∧
      (r.den < 0 → r'.den = 1 ∨ r'.den < 0) := by
  obtain ⟨⟨hn, hdM⟩, hg⟩ := normalize_fits h
  obtain ⟨n, d⟩ := r
  simp only at *
  rw [normalize_eq M n d hn hdM hd] at h
  injection h with h
  have hgZ : (Int.gcd n d : Int) ≠ 0 := by exact_mod_cast hg
  have hgpos : (0 : Int) < Int.gcd n d := by
    have := Int.natCast_nonneg (Int.gcd n d); omega
  have e1 := tdiv_dvd (Int.gcd_dvd_left n d)
  have e2 := tdiv_dvd (Int.gcd_dvd_right n d)
  have e3 := gcd_tdiv hg
  have f1 : |n.tdiv (Int.gcd n d)| ≤ M := le_trans abs_tdiv_le hn
  have f2 : |d.tdiv (Int.gcd n d)| ≤ M := le_trans abs_tdiv_le hdM
  generalize hgz : (Int.gcd n d : Int) = g at *
  generalize n.tdiv g = n' at *
  generalize d.tdiv g = d' at *
  have hd' : d' ≠ 0 := by rintro rfl; rw [zero_mul] at e2; exact hd e2.symm
  have hval : ((n' : ℚ)) / d' = (n : ℚ) / d := by
    have h1 : (g : ℚ) ≠ 0 := by exact_mod_cast hgZ
    have h2 : (d' : ℚ) ≠ 0 := by exact_mod_cast hd'
    rw [← e1, ← e2]
    push_cast
    rw [mul_div_mul_right _ _ h1]
  have hM : (1 : Int) ≤ M := by
    have : 0 < |d| := abs_pos.2 hd
    omega
  subst h
  by_cases hneg : d' = -1
  · rw [if_pos hneg]
    subst hneg
    refine ⟨?_, ?_, by simp, by simp, by simp, ⟨by simpa using f1, by simpa using hM⟩, fun _ => Or.inl rfl⟩
    · change _ = (n : ℚ) / d
      rw [← hval]; unfold val; push_cast; simp [div_neg]
    · unfold Lowest; simp
  · rw [if_neg hneg]
    refine ⟨hval, e3, hd', hneg, ?_, ⟨f1, f2⟩, ?_⟩
    · intro hp
      rw [← e2] at hp
      exact pos_of_mul_pos_right' hp hgpos
    · intro hp
      rw [← e2] at hp
      right
      simp only
      by_contra hc
      have : 0 ≤ d' * g := mul_nonneg (by omega) hgpos.le
      omega

theorem mk2_spec {M n d : Int} {r : Rational} (h : mk2 M n d = .ok r) :
    d ≠ 0 ∧ normalize M ⟨n, d⟩ = .ok r := by
  unfold mk2 at h
  obtain ⟨_, h1, h⟩ := Res.bind_eq_ok.1 h
  exact ⟨by simpa using Res.assert_eq_ok.1 h1, h⟩

/-- sum. -/
theorem add_spec {M : Int} {a b r : Rational} (ha : a.den ≠ 0) (hb : b.den ≠ 0)
    (h : add M a b = .ok r) : r.val = a.val + b.val ∧ r.Lowest ∧ 0 < r.den ∧ r.Fits M := by
  unfold add at h
  obtain ⟨l, h1, h⟩ := Res.bind_eq_ok.1 h
  obtain ⟨q1, h2, h⟩ := Res.bind_eq_ok.1 h
  obtain ⟨t1, h3, h⟩ := Res.bind_eq_ok.1 h
  obtain ⟨q2, h4, h⟩ := Res.bind_eq_ok.1 h
  obtain ⟨t2, h5, h⟩ := Res.bind_eq_ok.1 h
  obtain ⟨s, h6, h⟩ := Res.bind_eq_ok.1 h
  obtain ⟨-, hl⟩ := lcmT_ok.1 h1
  obtain ⟨-, -, e2⟩ := divT_ok.1 h2
  obtain ⟨-, e3⟩ := chk_eq_ok.1 h3
  obtain ⟨-, -, e4⟩ := divT_ok.1 h4
  obtain ⟨-, e5⟩ := chk_eq_ok.1 h5
  obtain ⟨-, e6⟩ := chk_eq_ok.1 h6
  have d1 : a.den ∣ l := hl ▸ Int.dvd_lcm_left _ _
  have d2 : b.den ∣ l := hl ▸ Int.dvd_lcm_right _ _
  have hl0 : 0 < l := by
    have : Int.lcm a.den b.den ≠ 0 := by
      rw [Ne, Int.lcm_eq_zero_iff]; tauto
    omega
  have k1 : q1 * a.den = l := e2 ▸ tdiv_dvd d1
  have k2 : q2 * b.den = l := e4 ▸ tdiv_dvd d2
  obtain ⟨g1, g2, g3, g4, g5, g6, -⟩ := normalize_spec h hl0.ne'
  refine ⟨?_, g2, g5 hl0, g6⟩
  rw [g1]
  unfold val
  simp only
  have qa : (a.den : ℚ) ≠ 0 := by exact_mod_cast ha
  have qb : (b.den : ℚ) ≠ 0 := by exact_mod_cast hb
  have ql : (l : ℚ) ≠ 0 := by exact_mod_cast hl0.ne'
  have c1 : (q1 : ℚ) * a.den = l := by exact_mod_cast k1
  have c2 : (q2 : ℚ) * b.den = l := by exact_mod_cast k2
  rw [e6, e5, e3]
  push_cast
  rw [div_add_div _ _ qa qb, div_eq_div_iff ql (mul_ne_zero qa qb)]
  linear_combination (a.num : ℚ) * b.den * c1 + (b.num : ℚ) * a.den * c2

theorem add_clean (M : Int) (a b : Rational) : (add M a b).Clean := by
  unfold add
  exact .bind (lcmT_clean _ _ _) fun _ _ => .bind (divT_clean _ _ _) fun _ _ =>
    .bind (chk_clean _ _) fun _ _ => .bind (divT_clean _ _ _) fun _ _ =>
    .bind (chk_clean _ _) fun _ _ => .bind (chk_clean _ _) fun _ _ => normalize_clean _ _

theorem mk2_clean (M n d : Int) (hd : d ≠ 0) : (mk2 M n d).Clean := by
  unfold mk2
  rw [show decide (d ≠ 0) = true by simpa using hd]
  exact normalize_clean _ _

theorem negate_spec {M : Int} {a r : Rational} (ha : a.den ≠ 0) (h : negate M a = .ok r) :
    r.val = - a.val ∧ r.Lowest ∧ r.den ≠ 0 ∧ (0 < a.den → 0 < r.den) ∧ r.Fits M := by
  unfold negate at h
  obtain ⟨n, h1, h⟩ := Res.bind_eq_ok.1 h
  obtain ⟨-, e1⟩ := chk_eq_ok.1 h1
  obtain ⟨-, h⟩ := mk2_spec h
  obtain ⟨g1, g2, g3, g4, g5, g6, -⟩ := normalize_spec h ha
  refine ⟨?_, g2, g3, g5, g6⟩
  rw [g1, e1]; unfold val; push_cast; ring

theorem negate_clean (M : Int) (a : Rational) (ha : a.den ≠ 0) : (negate M a).Clean :=
  .bind (chk_clean _ _) fun _ _ => mk2_clean _ _ _ ha

theorem sub_spec {M : Int} {a b r : Rational} (ha : a.den ≠ 0) (hb : b.den ≠ 0)
    (h : sub M a b = .ok r) : r.val = a.val - b.val ∧ r.Lowest ∧ 0 < r.den ∧ r.Fits M := by
  unfold sub at h
  obtain ⟨nb, h1, h⟩ := Res.bind_eq_ok.1 h
  obtain ⟨e1, -, e3, -⟩ := negate_spec hb h1
  obtain ⟨g1, g2⟩ := add_spec ha e3 h
  exact ⟨by rw [g1, e1]; ring, g2⟩

theorem sub_clean (M : Int) (a b : Rational) (hb : b.den ≠ 0) : (sub M a b).Clean :=
  .bind (negate_clean _ _ hb) fun _ _ => add_clean _ _ _

/-- product. -/
theorem mul_spec {M : Int} {a b r : Rational}
    (h : mul M a b = .ok r) : r.val = a.val * b.val ∧ r.den ≠ 0 ∧ InRange M r.num ∧ InRange M r.den ∧
      (a.Lowest → b.Lowest → r.Lowest) ∧ (0 < a.den → 0 < b.den → 0 < r.den) := by
  unfold mul at h
  obtain ⟨g1, h1, h⟩ := Res.bind_eq_ok.1 h
  obtain ⟨g2, h2, h⟩ := Res.bind_eq_ok.1 h
  obtain ⟨n1, h3, h⟩ := Res.bind_eq_ok.1 h
  obtain ⟨n2, h4, h⟩ := Res.bind_eq_ok.1 h
  obtain ⟨n, h5, h⟩ := Res.bind_eq_ok.1 h
  obtain ⟨d1, h6, h⟩ := Res.bind_eq_ok.1 h
  obtain ⟨d2, h7, h⟩ := Res.bind_eq_ok.1 h
  obtain ⟨d, h8, h⟩ := Res.bind_eq_ok.1 h
  obtain ⟨_, h9, h⟩ := Res.bind_eq_ok.1 h
  injection h with h
  obtain ⟨-, e1⟩ := gcdT_ok.1 h1
  obtain ⟨-, e2⟩ := gcdT_ok.1 h2
  obtain ⟨z1, -, e3⟩ := divT_ok.1 h3
  obtain ⟨z2, -, e4⟩ := divT_ok.1 h4
  obtain ⟨r5, e5⟩ := chk_eq_ok.1 h5
  obtain ⟨-, -, e6⟩ := divT_ok.1 h6
  obtain ⟨-, -, e7⟩ := divT_ok.1 h7
  obtain ⟨r8, e8⟩ := chk_eq_ok.1 h8
  have hd0 : d ≠ 0 := by simpa using Res.assert_eq_ok.1 h9
  have k1 : n1 * g1 = a.num := e3 ▸ tdiv_dvd (e1 ▸ Int.gcd_dvd_left ..)
  have k2 : n2 * g2 = b.num := e4 ▸ tdiv_dvd (e2 ▸ Int.gcd_dvd_left ..)
  have k3 : d1 * g2 = a.den := e6 ▸ tdiv_dvd (e2 ▸ Int.gcd_dvd_right ..)
  have k4 : d2 * g1 = b.den := e7 ▸ tdiv_dvd (e1 ▸ Int.gcd_dvd_right ..)
  have p1 : 0 < g1 := by have := Int.natCast_nonneg (Int.gcd a.num b.den); omega
  have p2 : 0 < g2 := by have := Int.natCast_nonneg (Int.gcd b.num a.den); omega
  subst h
  refine ⟨?_, hd0, e5 ▸ r5, e8 ▸ r8, ?_, ?_⟩
  · unfold val
    simp only
    have qg1 : (g1 : ℚ) ≠ 0 := by exact_mod_cast z1
    have qg2 : (g2 : ℚ) ≠ 0 := by exact_mod_cast z2
    rw [e5, e8, ← k1, ← k2, ← k3, ← k4]
    push_cast
    rw [div_mul_div_comm, show (n1 * g1 * (n2 * g2) : ℚ) = (n1 * n2) * (g1 * g2) by ring,
      show (d1 * g2 * (d2 * g1) : ℚ) = (d1 * d2) * (g1 * g2) by ring,
      mul_div_mul_right _ _ (mul_ne_zero qg1 qg2)]
  · intro la lb
    unfold Lowest at *
    simp only
    have c1 : IsCoprime n1 d2 := by
      rw [Int.isCoprime_iff_gcd_eq_one, e3, e7, e1]
      have hz : Int.gcd a.num b.den ≠ 0 := by rw [e1] at z1; exact_mod_cast z1
      exact gcd_tdiv hz
    have c2 : IsCoprime n2 d1 := by
      rw [Int.isCoprime_iff_gcd_eq_one, e4, e6, e2]
      have hz : Int.gcd b.num a.den ≠ 0 := by rw [e2] at z2; exact_mod_cast z2
      exact gcd_tdiv hz
    have c3 : IsCoprime n1 d1 := by
      have : IsCoprime a.num a.den := Int.isCoprime_iff_gcd_eq_one.2 la
      rw [← k1, ← k3] at this
      exact this.of_mul_left_left.of_mul_right_left
    have c4 : IsCoprime n2 d2 := by
      have : IsCoprime b.num b.den := Int.isCoprime_iff_gcd_eq_one.2 lb
      rw [← k2, ← k4] at this
      exact this.of_mul_left_left.of_mul_right_left
    rw [e5, e8, ← Int.isCoprime_iff_gcd_eq_one]
    exact IsCoprime.mul_left (c3.mul_right c1) (c2.mul_right c4)
  · intro ha0 hb0
    simp only
    rw [e8]
    rw [← k3] at ha0; rw [← k4] at hb0
    exact mul_pos (pos_of_mul_pos_right' ha0 p2) (pos_of_mul_pos_right' hb0 p1)

theorem mul_clean (M : Int) (a b : Rational) (ha : a.den ≠ 0) (hb : b.den ≠ 0) : (mul M a b).Clean := by
  unfold mul
  refine .bind (gcdT_clean _ _ _) fun g1 h1 => .bind (gcdT_clean _ _ _) fun g2 h2 =>
    .bind (divT_clean _ _ _) fun _ _ => .bind (divT_clean _ _ _) fun _ _ =>
    .bind (chk_clean _ _) fun _ _ => .bind (divT_clean _ _ _) fun d1 h6 =>
    .bind (divT_clean _ _ _) fun d2 h7 => .bind (chk_clean _ _) fun d h8 => ?_
  obtain ⟨-, e1⟩ := gcdT_ok.1 h1
  obtain ⟨-, e2⟩ := gcdT_ok.1 h2
  obtain ⟨-, -, e6⟩ := divT_ok.1 h6
  obtain ⟨-, -, e7⟩ := divT_ok.1 h7
  obtain ⟨-, e8⟩ := chk_eq_ok.1 h8
  have k3 : d1 * g2 = a.den := e6 ▸ tdiv_dvd (e2 ▸ Int.gcd_dvd_right ..)
  have k4 : d2 * g1 = b.den := e7 ▸ tdiv_dvd (e1 ▸ Int.gcd_dvd_right ..)
  have hd : d ≠ 0 := by
    rw [e8]
    refine mul_ne_zero ?_ ?_
    · rintro rfl; rw [zero_mul] at k3; exact ha k3.symm
    · rintro rfl; rw [zero_mul] at k4; exact hb k4.symm
  rw [show decide (d ≠ 0) = true by simpa using hd]
  exact .ok _

theorem inverse_spec {M : Int} {a r : Rational} (h : inverse M a = .ok r) :
    a.num ≠ 0 ∧ r.val = (a.val)⁻¹ ∧ r.Lowest ∧ r.den ≠ 0 ∧ (0 < a.num → 0 < r.den) ∧ r.Fits M := by
  obtain ⟨h0, h⟩ := mk2_spec h
  obtain ⟨g1, g2, g3, g4, g5, g6, -⟩ := normalize_spec h h0
  refine ⟨h0, ?_, g2, g3, g5, g6⟩
  rw [g1]; unfold val; rw [inv_div]

/-- quotient. -/
theorem div_spec {M : Int} {a b r : Rational}
    (h : div M a b = .ok r) : b.num ≠ 0 ∧ r.val = a.val / b.val ∧ r.den ≠ 0 ∧ InRange M r.num ∧
      InRange M r.den ∧ (a.Lowest → r.Lowest) ∧ (0 < a.den → 0 < b.num → 0 < r.den) := by
  unfold div at h
  obtain ⟨ib, h1, h⟩ := Res.bind_eq_ok.1 h
  obtain ⟨e1, e2, e3, e4, e5, -⟩ := inverse_spec h1
  obtain ⟨g1, g2, g3, g4, g5, g6⟩ := mul_spec h
  exact ⟨e1, by rw [g1, e2, div_eq_mul_inv], g2, g3, g4, fun l => g5 l e3, fun x y => g6 x (e5 y)⟩

theorem div_clean (M : Int) (a b : Rational) (ha : a.den ≠ 0) (hb : b.num ≠ 0) : (div M a b).Clean := by
  unfold div
  refine .bind (mk2_clean _ _ _ hb) fun ib h => ?_
  obtain ⟨h0, h⟩ := mk2_spec h
  exact mul_clean _ _ _ ha (normalize_spec h h0).2.2.1

theorem div_zero (M : Int) (a b : Rational) (hb : b.num = 0) : div M a b = .throw divisionByZero := by
  unfold div inverse mk2
  rw [hb]
  simp

/-! ### comparisons -/

theorem cross_spec {M : Int} {a b : Rational} {x y : Int} (h : cross M a b = .ok (x, y)) :
    x = a.num * b.den ∧ y = b.num * a.den := by
  unfold cross at h
  obtain ⟨_, h1, h⟩ := Res.bind_eq_ok.1 h
  obtain ⟨_, h2, h⟩ := Res.bind_eq_ok.1 h
  obtain ⟨-, e1⟩ := chk_eq_ok.1 h1
  obtain ⟨-, e2⟩ := chk_eq_ok.1 h2
  injection h with h
  injection h with ha hb
  exact ⟨by rw [← ha, e1], by rw [← hb, e2]⟩

theorem cross_clean (M : Int) (a b : Rational) : (cross M a b).Clean :=
  .bind (chk_clean _ _) fun _ _ => .bind (chk_clean _ _) fun _ _ => .ok _

theorem val_eq_iff {a b : Rational} (ha : a.den ≠ 0) (hb : b.den ≠ 0) :
    a.val = b.val ↔ a.num * b.den = b.num * a.den := by
  unfold val
  have qa : (a.den : ℚ) ≠ 0 := by exact_mod_cast ha
  have qb : (b.den : ℚ) ≠ 0 := by exact_mod_cast hb
  rw [div_eq_div_iff qa qb]
  exact_mod_cast Iff.rfl

theorem val_lt_iff {a b : Rational} (hab : 0 < a.den * b.den) :
    a.val < b.val ↔ a.num * b.den < b.num * a.den := by
  unfold val
  have hq : (0 : ℚ) < a.den * b.den := by exact_mod_cast hab
  have qa : (a.den : ℚ) ≠ 0 := by rintro h; rw [h, zero_mul] at hq; exact lt_irrefl _ hq
  have qb : (b.den : ℚ) ≠ 0 := by rintro h; rw [h, mul_zero] at hq; exact lt_irrefl _ hq
  rw [← mul_lt_mul_iff_left₀ hq, show (a.num / a.den * (a.den * b.den) : ℚ) = a.num * b.den by field_simp,
    show (b.num / b.den * (a.den * b.den) : ℚ) = b.num * a.den by field_simp]
  exact_mod_cast Iff.rfl

theorem val_gt_iff {a b : Rational} (hab : a.den * b.den < 0) :
    b.val < a.val ↔ a.num * b.den < b.num * a.den := by
  unfold val
  have hq : (0 : ℚ) < -(a.den * b.den) := by
    have : ((a.den * b.den : Int) : ℚ) < 0 := by exact_mod_cast hab
    push_cast at this; linarith
  have qa : (a.den : ℚ) ≠ 0 := by rintro h; rw [h] at hq; simp at hq
  have qb : (b.den : ℚ) ≠ 0 := by rintro h; rw [h] at hq; simp at hq
  rw [← mul_lt_mul_iff_left₀ hq, show (a.num / a.den * -(a.den * b.den) : ℚ) = -(a.num * b.den) by field_simp,
    show (b.num / b.den * -(a.den * b.den) : ℚ) = -(b.num * a.den) by field_simp, neg_lt_neg_iff]
  exact_mod_cast Iff.rfl

theorem normalize_int (M k : Int) (hk : |k| ≤ M) (hM : 1 ≤ M) : normalize M ⟨k, 1⟩ = .ok ⟨k, 1⟩ := by
  rw [normalize_eq M k 1 hk (by simpa using hM) (by norm_num)]
  simp

theorem ofInt_eq (M k : Int) (hk : |k| ≤ M) (hM : 1 ≤ M) : ofInt M k = .ok ⟨k, 1⟩ := normalize_int M k hk hM

theorem ext_lowest {a b : Rational} (ha : 0 < a.den) (hb : 0 < b.den) (la : a.Lowest) (lb : b.Lowest)
    (h : a.val = b.val) : a = b := by
  obtain ⟨n, d⟩ := a
  obtain ⟨n', d'⟩ := b
  unfold val at h
  unfold Lowest at la lb
  simp only at *
  have h1 := (Rat.div_int_inj ha hb (by rwa [Int.gcd_def] at la) (by rwa [Int.gcd_def] at lb) h)
  rw [h1.1, h1.2]

theorem ofInt_clean (M k : Int) : (ofInt M k).Clean := normalize_clean _ _

theorem ofInt_spec {M k : Int} {r : Rational} (h : ofInt M k = .ok r) : r = ⟨k, 1⟩ ∧ |k| ≤ M ∧ 1 ≤ M := by
  have hf := (normalize_fits h).1
  have h1 : |k| ≤ M := hf.1
  have h2 : (1 : Int) ≤ M := by have := hf.2; simpa using this
  rw [ofInt_eq M k h1 h2] at h
  injection h with h
  exact ⟨h.symm, h1, h2⟩

end Rational
end Symxx.Num
