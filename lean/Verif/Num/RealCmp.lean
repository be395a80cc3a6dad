import Verif.Num.RealArith
/-!
# `Real`: comparison, addition, powers
-/
namespace Symxx.Num
namespace Rational

theorem eq_sat {M : Int} (a b : Rational) :
    (Rational.eq M a b).Sat (|a.num| * |b.den| ≤ M ∧ |b.num| * |a.den| ≤ M) fun v =>
      v = decide (a.num * b.den = b.num * a.den) := by
  refine .of_clean (.bind (cross_clean _ _ _) fun _ _ => .ok _) ?_ ?_
  · intro v h
    unfold Rational.eq at h
    obtain ⟨⟨x, y⟩, h1, h2⟩ := Res.bind_eq_ok.1 h
    obtain ⟨e1, e2⟩ := cross_spec h1
    injection h2 with h2
    rw [← h2, e1, e2]
  · rintro ⟨h1, h2⟩
    unfold Rational.eq cross
    rw [chk_ok (inRange_of_abs (by rw [abs_mul]; exact h1)), chk_ok (inRange_of_abs (by rw [abs_mul]; exact h2))]
    exact ⟨_, rfl⟩

theorem lt_sat {M : Int} (a b : Rational) :
    (Rational.lt M a b).Sat (|a.num| * |b.den| ≤ M ∧ |b.num| * |a.den| ≤ M) fun v =>
      v = decide (a.num * b.den < b.num * a.den) := by
  refine .of_clean (.bind (cross_clean _ _ _) fun _ _ => .ok _) ?_ ?_
  · intro v h
    unfold Rational.lt at h
    obtain ⟨⟨x, y⟩, h1, h2⟩ := Res.bind_eq_ok.1 h
    obtain ⟨e1, e2⟩ := cross_spec h1
    injection h2 with h2
    rw [← h2, e1, e2]
  · rintro ⟨h1, h2⟩
    unfold Rational.lt cross
    rw [chk_ok (inRange_of_abs (by rw [abs_mul]; exact h1)), chk_ok (inRange_of_abs (by rw [abs_mul]; exact h2))]
    exact ⟨_, rfl⟩

theorem gt_sat {M : Int} (a b : Rational) :
    (Rational.gt M a b).Sat (|a.num| * |b.den| ≤ M ∧ |b.num| * |a.den| ≤ M) fun v =>
      v = decide (a.num * b.den > b.num * a.den) := by
  refine .of_clean (.bind (cross_clean _ _ _) fun _ _ => .ok _) ?_ ?_
  · intro v h
    unfold Rational.gt at h
    obtain ⟨⟨x, y⟩, h1, h2⟩ := Res.bind_eq_ok.1 h
    obtain ⟨e1, e2⟩ := cross_spec h1
    injection h2 with h2
    rw [← h2, e1, e2]
  · rintro ⟨h1, h2⟩
    unfold Rational.gt cross
    rw [chk_ok (inRange_of_abs (by rw [abs_mul]; exact h1)), chk_ok (inRange_of_abs (by rw [abs_mul]; exact h2))]
    exact ⟨_, rfl⟩

end Rational

namespace Real
variable {env : Env} {B : Nat} {D : Prop}

theorem eq_sat {a b : Real} (ha : a.Canon) (hb : b.Canon) :
    (eq env a b).Sat ((|a.coe.num| * |b.coe.den| ≤ env.M ∧ |b.coe.num| * |a.coe.den| ≤ env.M) ∧
        a.rad.num ≤ env.M ∧ b.rad.num ≤ env.M) fun v => (v = true ↔ a.val = b.val) := by
  have hcu := canon_unique ha hb
  obtain ⟨N, ea, sa, da, za⟩ := ha
  obtain ⟨N', eb, sb, db, zb⟩ := hb
  unfold eq
  refine .bind ((Rational.eq_sat a.coe b.coe).weaken fun h => h.1) ?_
  rintro v - rfl
  have hce := Rational.val_eq_iff (a := a.coe) (b := b.coe) da db
  by_cases h1 : a.coe.num * b.coe.den = b.coe.num * a.coe.den
  · simp only [h1, decide_true, if_true]
    refine .bind ((Rational.eq_sat a.rad b.rad).weaken fun h => ?_) ?_
    · rw [ea, eb] at h ⊢
      simpa using h.2
    · rintro v - rfl
      have hre : (a.rad.num * b.rad.den = b.rad.num * a.rad.den) ↔ a.rad = b.rad := by
        rw [ea, eb]; simp
      by_cases h2 : a.rad = b.rad
      · rw [decide_eq_true (hre.2 h2)]
        refine .ok ?_
        rw [hcu, hce]
        simp [h1, h2]
      · rw [decide_eq_false (fun h => h2 (hre.1 h))]
        refine .ok ?_
        rw [hcu]
        simp [h2]
  · simp only [h1, decide_false]
    refine .ok ?_
    rw [hcu, hce]
    simp [h1]

/-- comparison with zero. -/
theorem leZero_ok (hM : 1 ≤ env.M) (c : Rational) (h : |c.num| ≤ env.M) :
    leZero env c = .ok (decide (c.num ≤ 0)) := by
  unfold leZero Rational.le Rational.cross
  rw [Rational.ofInt_eq env.M 0 (by simp; omega) hM]
  simp only [Res.bind_ok, mul_one, zero_mul]
  rw [chk_ok (inRange_of_abs h), Res.bind_ok, chk_ok (inRange_of_abs (by simp; omega))]
  rfl

theorem geZero_ok (hM : 1 ≤ env.M) (c : Rational) (h : |c.num| ≤ env.M) :
    geZero env c = .ok (decide (c.num ≥ 0)) := by
  unfold geZero Rational.ge Rational.cross
  rw [Rational.ofInt_eq env.M 0 (by simp; omega) hM]
  simp only [Res.bind_ok, mul_one, zero_mul]
  rw [chk_ok (inRange_of_abs h), Res.bind_ok, chk_ok (inRange_of_abs (by simp; omega))]
  rfl

/-- a natural power of a positive rational, without `factorize`. -/
theorem ratPow' (hM : (2 : Int) ^ 53 ≤ env.M) (hfl : env.fl.Exact) (n d e : Nat) (hn : 0 < n) (hd : 0 < d)
    (he : e ≤ 2 ^ 53) (h1 : n ^ e ≤ 2 ^ 53) (h2 : d ^ e ≤ 2 ^ 53) :
    ∃ n' d' : Nat, Rational.pow env.M env.fl ⟨n, d⟩ ⟨e, 1⟩ = .ok ⟨n', d'⟩ ∧ 0 < n' ∧ 0 < d' ∧
      n' ≤ n ^ e ∧ d' ≤ d ^ e ∧ ((n' : ℚ) / d' = ((n : ℚ) / d) ^ e) ∧ (d = 1 → n' = n ^ e ∧ d' = 1) := by
  have hg : Env.Good { env with fac := fun n => .ok n.toNat.primeFactorsList } (2 ^ 53) :=
    ⟨⟨hM, hfl, le_rfl⟩, fun n _ _ => by simp⟩
  exact ratPow hg n d e hn hd he h1 h2 _ rfl

theorem ratOfIndex_ok' (hM : (2 : Int) ^ 53 ≤ env.M) (e : Nat) (he : e ≤ 2 ^ 53) :
    ratOfIndex env e = .ok ⟨e, 1⟩ := by
  have h1 : (e : Int) ≤ 2 ^ 53 := by exact_mod_cast he
  unfold ratOfIndex
  rw [wrap_of_range ⟨by omega, by omega⟩]
  exact Rational.ofInt_eq env.M e (by rw [abs_of_nonneg (by positivity)]; omega) (by omega)

/-- one side of a comparison. -/
theorem cmpSide_ok (hM : (2 : Int) ^ 53 ≤ env.M) (hfl : env.fl.Exact) (n d e N k : Nat) (hn : 0 < n) (hd : 0 < d)
    (hN : 0 < N) (he : e ≤ 2 ^ 53) (hk : k ≤ 2 ^ 53) (h1 : n ^ e * N ^ k ≤ 2 ^ 53) (h2 : d ^ e ≤ 2 ^ 53) :
    ∃ a b : Nat, cmpSide env ⟨n, d⟩ e ⟨N, 1⟩ k = .ok ⟨a, b⟩ ∧ 0 < a ∧ 0 < b ∧ a ≤ n ^ e * N ^ k ∧ b ≤ d ^ e ∧
      (a : ℚ) / b = ((n : ℚ) / d) ^ e * (N : ℚ) ^ k := by
  have s1 : n ^ e ≤ 2 ^ 53 := le_trans (Nat.le_mul_of_pos_right _ (by positivity)) h1
  have s2 : N ^ k ≤ 2 ^ 53 := le_trans (Nat.le_mul_of_pos_left _ (by positivity)) h1
  obtain ⟨n1, d1, p1, p2, p3, p4, p5, p6, -⟩ := ratPow' hM hfl n d e hn hd he s1 h2
  obtain ⟨n2, d2, q1, q2, q3, q4, q5, q6, q7⟩ := ratPow' hM hfl N 1 k hN (by omega) hk s2 (by simp)
  obtain ⟨rfl, rfl⟩ := q7 rfl
  unfold cmpSide
  rw [ratOfIndex_ok' hM e he, Res.bind_ok, p1, Res.bind_ok, ratOfIndex_ok' hM k hk, Res.bind_ok]
  have q1 : Rational.pow env.M env.fl ⟨N, 1⟩ ⟨k, 1⟩ = .ok ⟨(N ^ k : Nat), 1⟩ := q1
  rw [q1, Res.bind_ok]
  have hX : ((n ^ e * N ^ k : Nat) : Int) ≤ env.M := le_trans (by exact_mod_cast h1) hM
  have hY : ((d ^ e : Nat) : Int) ≤ env.M := le_trans (by exact_mod_cast h2) hM
  obtain ⟨a, b, r1, r2, r3, r4, r5, r6, -⟩ := ratMul env.M n1 d1 (N ^ k) 1 (n ^ e * N ^ k) (d ^ e) p2 p3
    (by positivity) (by omega) (Nat.mul_le_mul p4 le_rfl) (by rw [mul_one]; exact p5) hX hY
  have r1 : Rational.mul env.M ⟨n1, d1⟩ ⟨(N ^ k : Nat), 1⟩ = .ok ⟨a, b⟩ := r1
  refine ⟨a, b, r1, r2, r3, r4, r5, ?_⟩
  rw [r6, p6]; push_cast; ring

theorem mulU_eq (hM : (2 : Int) ^ 53 ≤ env.M) (a b : Nat) (h : a * b ≤ 2 ^ 53) : mulU env a b = a * b := by
  have h1 : ((a * b : Nat) : Int) ≤ 2 ^ 53 := by exact_mod_cast h
  unfold mulU
  rw [Int.emod_eq_of_lt (by positivity) (by omega)]
  exact Int.toNat_natCast _

/-- sizes occurring in the comparison of `a` and `b`. -/
structure CmpSizes (a b : Real) : Prop where
  idx : b.index * a.index ≤ 2 ^ 53
  num : a.coe.num.natAbs ^ (b.index * a.index) * a.rad.num.natAbs ^ b.index ≤ 2 ^ 53
  den : a.coe.den.natAbs ^ (b.index * a.index) ≤ 2 ^ 53

/-- value of a comparison side. -/
theorem side_val {a : Real} {N n d : Nat} (e : a.rad = ⟨N, 1⟩) (h : 0 < a.index) (j : Nat) (ec : a.coe.val = (n : ℚ) / d)
    {x y : Nat} (hxy : (x : ℚ) / y = ((n : ℚ) / d) ^ (j * a.index) * (N : ℚ) ^ j) :
    ((x : ℝ) / y) = a.val ^ (j * a.index) := by
  have := val_pow e h j
  rw [mul_comm j, this, ec, mul_comm a.index j]
  have := congrArg (fun q : ℚ => (q : ℝ)) hxy
  simpa using this

theorem frac_lt {x y x' y' : Nat} (hy : 0 < y) (hy' : 0 < y') :
    ((x : ℝ) / y < (x' : ℝ) / y') ↔ ((x : Int) * y' < x' * y) := by
  rw [div_lt_div_iff₀ (by exact_mod_cast hy) (by exact_mod_cast hy')]
  exact_mod_cast Iff.rfl

/-- comparison of two positive normal forms as done by the last line of `operator<`. -/
theorem pos_cmp (hM : (2 : Int) ^ 53 ≤ env.M) (hfl : env.fl.Exact) {a b : Real} {N N' na da nb db : Nat}
    (ea : a.rad = ⟨N, 1⟩) (eb : b.rad = ⟨N', 1⟩) (hN : 0 < N) (hN' : 0 < N') (hia : 0 < a.index) (hib : 0 < b.index)
    (hna : 0 < na) (hda : 0 < da) (hnb : 0 < nb) (hdb : 0 < db)
    (va : a.coe.val = (na : ℚ) / da) (vb : b.coe.val = (nb : ℚ) / db)
    (K : b.index * a.index ≤ 2 ^ 53)
    (sa : na ^ (b.index * a.index) * N ^ b.index ≤ 2 ^ 53) (ta : da ^ (b.index * a.index) ≤ 2 ^ 53)
    (sb : nb ^ (b.index * a.index) * N' ^ a.index ≤ 2 ^ 53) (tb : db ^ (b.index * a.index) ≤ 2 ^ 53) :
    ∃ x y x' y' : Nat,
      cmpSide env ⟨na, da⟩ (b.index * a.index) ⟨N, 1⟩ b.index = .ok ⟨x, y⟩ ∧
      cmpSide env ⟨nb, db⟩ (b.index * a.index) ⟨N', 1⟩ a.index = .ok ⟨x', y'⟩ ∧
      x ≤ na ^ (b.index * a.index) * N ^ b.index ∧ y ≤ da ^ (b.index * a.index) ∧
      x' ≤ nb ^ (b.index * a.index) * N' ^ a.index ∧ y' ≤ db ^ (b.index * a.index) ∧
      ((x : Int) * y' < x' * y ↔ a.val < b.val) ∧ ((x : Int) * y' > x' * y ↔ a.val > b.val) := by
  have kb : b.index ≤ 2 ^ 53 := le_trans (Nat.le_mul_of_pos_right _ hia) K
  have ka : a.index ≤ 2 ^ 53 := le_trans (Nat.le_mul_of_pos_left _ hib) K
  obtain ⟨x, y, e1, e2, e3, e4, e5, e6⟩ := cmpSide_ok hM hfl na da _ N b.index hna hda hN K kb sa ta
  obtain ⟨x', y', f1, f2, f3, f4, f5, f6⟩ := cmpSide_ok hM hfl nb db _ N' a.index hnb hdb hN' K ka sb tb
  have pa : 0 < a.val := by
    rw [val_canon ea, va]
    have : (0 : ℝ) < na := by exact_mod_cast hna
    have : (0 : ℝ) < da := by exact_mod_cast hda
    have := rpow_pos' hN ((1 : ℝ) / a.index)
    push_cast
    positivity
  have pb : 0 < b.val := by
    rw [val_canon eb, vb]
    have : (0 : ℝ) < nb := by exact_mod_cast hnb
    have : (0 : ℝ) < db := by exact_mod_cast hdb
    have := rpow_pos' hN' ((1 : ℝ) / b.index)
    push_cast
    positivity
  have g1 := side_val ea hia b.index va e6
  have g2 := side_val eb hib a.index vb (by rw [mul_comm a.index]; exact f6)
  rw [mul_comm a.index] at g2
  have hK0 : b.index * a.index ≠ 0 := (Nat.mul_pos hib hia).ne'
  refine ⟨x, y, x', y', e1, f1, e4, e5, f4, f5, ?_, ?_⟩
  · rw [← frac_lt e3 f3, g1, g2]
    exact pow_lt_pow_iff_left₀ pa.le pb.le hK0
  · rw [gt_iff_lt, gt_iff_lt, ← frac_lt f3 e3, g1, g2]
    exact pow_lt_pow_iff_left₀ pb.le pa.le hK0

/-- negation of a coefficient with positive denominator. -/
theorem negate_ok (M : Int) (c : Rational) (hd : 0 < c.den) (hn : c.num < 0) (hf : c.Fits M) :
    ∃ n d : Nat, Rational.negate M c = .ok ⟨n, d⟩ ∧ 0 < n ∧ 0 < d ∧ n ≤ c.num.natAbs ∧ d ≤ c.den.natAbs ∧
      -c.val = (n : ℚ) / d := by
  have hne : c.den ≠ 0 := hd.ne'
  obtain ⟨r, hr, b1, b2⟩ := Rational.normalize_defined M (-c.num) c.den (by rw [abs_neg]; exact hf.1) hf.2 hne
  have e : Rational.negate M c = .ok r := by
    unfold Rational.negate Rational.mk2
    rw [chk_ok (inRange_of_abs (by rw [abs_neg]; exact hf.1)), Res.bind_ok,
      show decide (c.den ≠ 0) = true by simpa using hne]
    exact hr
  obtain ⟨g1, g2, g3, g4, g5⟩ := Rational.negate_spec hne e
  have hrd := g4 hd
  have hrn : 0 < r.num := by
    refine num_pos_of_val hrd ?_
    rw [g1]
    have h1 : (c.num : ℚ) < 0 := by exact_mod_cast hn
    have h2 : (0 : ℚ) < c.den := by exact_mod_cast hd
    have := div_neg_of_neg_of_pos h1 h2
    unfold Rational.val
    linarith
  obtain ⟨n, d, rfl, hn', hd'⟩ := exists_nat hrn hrd
  rw [abs_neg] at b1
  refine ⟨n, d, e, hn', hd', ?_, ?_, by rw [← g1, natval]⟩
  · simp only [Int.abs_eq_natAbs, Int.natAbs_natCast] at b1; exact_mod_cast b1
  · simp only [Int.abs_eq_natAbs, Int.natAbs_natCast] at b2; exact_mod_cast b2

theorem val_sign {a : Real} (ha : a.Canon) (hd : 0 < a.coe.den) :
    (a.val < 0 ↔ a.coe.num < 0) ∧ (0 < a.val ↔ 0 < a.coe.num) := by
  obtain ⟨N, e, hs, -, -⟩ := ha
  rw [val_canon e]
  have hp := rpow_pos' hs.1 ((1 : ℝ) / a.index)
  have hd' : (0 : ℚ) < a.coe.den := by exact_mod_cast hd
  constructor
  · rw [show ((a.coe.val : ℝ) * (N : ℝ) ^ ((1 : ℝ) / a.index) < 0 ↔ (a.coe.val : ℝ) < 0) from
        ⟨fun h => by by_contra hc; exact absurd h (not_lt.2 (mul_nonneg (not_lt.1 hc) hp.le)),
          fun h => mul_neg_of_neg_of_pos h hp⟩]
    have : a.coe.val < 0 ↔ a.coe.num < 0 := by
      unfold Rational.val
      rw [div_lt_iff₀ hd', zero_mul]; exact_mod_cast Iff.rfl
    rw [← this]; exact_mod_cast Iff.rfl
  · rw [mul_pos_iff_of_pos_right hp]
    have : 0 < a.coe.val ↔ 0 < a.coe.num := by
      unfold Rational.val
      rw [div_pos_iff_of_pos_right hd']; exact_mod_cast Iff.rfl
    rw [← this]; exact_mod_cast Iff.rfl

/-- the cross products of the last comparison are representable. -/
def CmpD (env : Env) (a b : Real) : Prop :=
  ((a.coe.num.natAbs ^ (b.index * a.index) * a.rad.num.natAbs ^ b.index *
      b.coe.den.natAbs ^ (b.index * a.index) : Nat) : Int) ≤ env.M ∧
  ((b.coe.num.natAbs ^ (b.index * a.index) * b.rad.num.natAbs ^ a.index *
      a.coe.den.natAbs ^ (b.index * a.index) : Nat) : Int) ≤ env.M

theorem lt_sat (hM : (2 : Int) ^ 53 ≤ env.M) (hfl : env.fl.Exact) {a b : Real} (ha : a.Canon) (hb : b.Canon)
    (hda : 0 < a.coe.den) (hdb : 0 < b.coe.den) (sab : CmpSizes a b) (sba : CmpSizes b a) :
    (lt env a b).Sat (CmpD env a b) fun v => (v = true ↔ a.val < b.val) := by
  have hM1 : (1 : Int) ≤ env.M := le_trans (by norm_num) hM
  have sga := val_sign ha hda
  have sgb := val_sign hb hdb
  have heq := eq_sat (env := env) ha hb
  obtain ⟨N, ea, sa, -, za⟩ := ha
  obtain ⟨N', eb, sb, -, zb⟩ := hb
  obtain ⟨K, sna, sda⟩ := sab
  obtain ⟨-, snb, sdb⟩ := sba
  have hia := sa.2.1
  have hib := sb.2.1
  have hK0 : b.index * a.index ≠ 0 := (Nat.mul_pos hib hia).ne'
  have h53 : ∀ m : Nat, m ≤ 2 ^ 53 → (m : Int) ≤ env.M := fun m h => le_trans (by exact_mod_cast h) hM
  rw [mul_comm a.index b.index] at snb sdb
  unfold CmpD
  rw [ea] at sna
  rw [eb] at snb
  rw [ea, eb]
  rw [ea, eb] at heq
  simp only [Int.natAbs_natCast] at sna snb ⊢
  have dna : a.coe.den.natAbs ≤ 2 ^ 53 := le_trans (Nat.le_self_pow hK0 _) sda
  have dnb : b.coe.den.natAbs ≤ 2 ^ 53 := le_trans (Nat.le_self_pow hK0 _) sdb
  have nna : a.coe.num.natAbs ≤ 2 ^ 53 := by
    refine le_trans (Nat.le_self_pow hK0 _) (le_trans (Nat.le_mul_of_pos_right _ ?_) sna)
    exact Nat.pow_pos sa.1
  have nnb : b.coe.num.natAbs ≤ 2 ^ 53 := by
    refine le_trans (Nat.le_self_pow hK0 _) (le_trans (Nat.le_mul_of_pos_right _ ?_) snb)
    exact Nat.pow_pos sb.1
  have fa : a.coe.Fits env.M := ⟨by rw [Int.abs_eq_natAbs]; exact h53 _ nna, by rw [Int.abs_eq_natAbs]; exact h53 _ dna⟩
  have fb : b.coe.Fits env.M := ⟨by rw [Int.abs_eq_natAbs]; exact h53 _ nnb, by rw [Int.abs_eq_natAbs]; exact h53 _ dnb⟩
  have hNB : N ≤ 2 ^ 53 := by
    by_cases h0 : a.coe.num = 0
    · rw [za h0]; norm_num
    · refine le_trans (Nat.le_self_pow hib.ne' _) (le_trans (Nat.le_mul_of_pos_left _ ?_) sna)
      exact Nat.pow_pos (by omega)
  have hNB' : N' ≤ 2 ^ 53 := by
    by_cases h0 : b.coe.num = 0
    · rw [zb h0]; norm_num
    · refine le_trans (Nat.le_self_pow hia.ne' _) (le_trans (Nat.le_mul_of_pos_left _ ?_) snb)
      exact Nat.pow_pos (by omega)
  unfold lt
  refine .bind (heq.weaken ?_) ?_
  · rintro ⟨c1, c2⟩
    refine ⟨⟨?_, ?_⟩, h53 N hNB, h53 N' hNB'⟩
    · rw [Int.abs_eq_natAbs, Int.abs_eq_natAbs, ← Nat.cast_mul]
      refine le_trans ?_ c1
      have : a.coe.num.natAbs * b.coe.den.natAbs ≤ a.coe.num.natAbs ^ (b.index * a.index) * N ^ b.index *
          b.coe.den.natAbs ^ (b.index * a.index) :=
        Nat.mul_le_mul (le_trans (Nat.le_self_pow hK0 _) (Nat.le_mul_of_pos_right _ (Nat.pow_pos sa.1)))
          (Nat.le_self_pow hK0 _)
      exact_mod_cast this
    · rw [Int.abs_eq_natAbs, Int.abs_eq_natAbs, ← Nat.cast_mul]
      refine le_trans ?_ c2
      have : b.coe.num.natAbs * a.coe.den.natAbs ≤ b.coe.num.natAbs ^ (b.index * a.index) * N' ^ a.index *
          a.coe.den.natAbs ^ (b.index * a.index) :=
        Nat.mul_le_mul (le_trans (Nat.le_self_pow hK0 _) (Nat.le_mul_of_pos_right _ (Nat.pow_pos sb.1)))
          (Nat.le_self_pow hK0 _)
      exact_mod_cast this
  intro v _ hv
  cases v with
  | true =>
    have := hv.1 rfl
    simp only [if_true]
    exact .ok (by rw [this]; simp)
  | false =>
    have hne : a.val ≠ b.val := fun h => by simpa using hv.2 h
    simp only [Bool.false_eq_true, if_false]
    rw [leZero_ok hM1 a.coe fa.1, geZero_ok hM1 a.coe fa.1, geZero_ok hM1 b.coe fb.1, leZero_ok hM1 b.coe fb.1,
      mulU_eq hM _ _ K]
    simp only [Res.bind_ok]
    -- signs
    by_cases a0 : a.coe.num ≤ 0
    · simp only [a0, decide_true, if_true, Res.bind_ok]
      by_cases b0 : b.coe.num ≥ 0
      · -- a ≤ 0 ≤ b
        simp only [b0, decide_true, Bool.and_self, if_true]
        refine .ok ?_
        have h1 : a.val ≤ 0 := by
          by_contra h; have := sga.2.1 (by linarith [not_le.1 h]); omega
        have h2 : 0 ≤ b.val := by
          by_contra h; have := sgb.1.1 (not_le.1 h); omega
        simp only [true_iff]
        exact lt_of_le_of_ne (le_trans h1 h2) hne
      · have bneg : b.coe.num < 0 := by omega
        simp only [b0, decide_false, Bool.and_false, Bool.false_eq_true, if_false]
        by_cases a1 : a.coe.num ≥ 0
        · -- a = 0, b < 0
          simp only [a1, decide_true, if_true, Res.bind_ok, Bool.true_and]
          rw [decide_eq_true (by omega : b.coe.num ≤ 0)]
          simp only [if_true]
          refine .ok ?_
          have h1 : a.val = 0 := by
            by_contra h
            rcases lt_or_gt_of_ne h with h | h
            · have := sga.1.1 h; omega
            · have := sga.2.1 h; omega
          have h2 := sgb.1.2 bneg
          rw [h1]
          simp only [Bool.false_eq_true, false_iff, not_lt]
          exact h2.le
        · -- both negative
          have aneg : a.coe.num < 0 := by omega
          simp only [a1, decide_false, Bool.false_and, Bool.false_eq_true, if_false, Res.bind_ok]
          rw [decide_eq_true (by omega : b.coe.num ≤ 0)]
          simp only [Bool.and_self, if_true]
          obtain ⟨na, da, n1, n2, n3, n4, n5, n6⟩ := negate_ok env.M a.coe hda aneg fa
          obtain ⟨nb, db, m1, m2, m3, m4, m5, m6⟩ := negate_ok env.M b.coe hdb bneg fb
          rw [n1, m1]
          simp only [Res.bind_ok]
          have va : ({ a with coe := ⟨na, da⟩ } : Real).coe.val = (na : ℚ) / da := natval _ _
          have vb : ({ b with coe := ⟨nb, db⟩ } : Real).coe.val = (nb : ℚ) / db := natval _ _
          have wa : ({ a with coe := ⟨na, da⟩ } : Real).val = - a.val := by
            unfold Real.val
            simp only
            rw [natval, ← n6]; push_cast; ring
          have wb : ({ b with coe := ⟨nb, db⟩ } : Real).val = - b.val := by
            unfold Real.val
            simp only
            rw [natval, ← m6]; push_cast; ring
          obtain ⟨x, y, x', y', e1, e2, e3, e4, e5, e6, -, e8⟩ := pos_cmp hM hfl (a := { a with coe := ⟨na, da⟩ })
            (b := { b with coe := ⟨nb, db⟩ }) ea eb sa.1 sb.1 hia hib n2 n3 m2 m3 va vb K
            (le_trans (Nat.mul_le_mul_right _ (Nat.pow_le_pow_left n4 _)) sna)
            (le_trans (Nat.pow_le_pow_left n5 _) sda)
            (le_trans (Nat.mul_le_mul_right _ (Nat.pow_le_pow_left m4 _)) snb)
            (le_trans (Nat.pow_le_pow_left m5 _) sdb)
          simp only at e1 e2 e3 e4 e5 e6
          rw [wa, wb] at e8
          rw [ea, e1]
          simp only [Res.bind_ok]
          rw [eb, e2]
          simp only [Res.bind_ok]
          refine ((Rational.gt_sat (M := env.M) ⟨x, y⟩ ⟨x', y'⟩).weaken ?_).mono ?_
          · rintro ⟨c1, c2⟩
            simp only [Int.abs_eq_natAbs, Int.natAbs_natCast, ← Nat.cast_mul]
            refine ⟨le_trans ?_ c1, le_trans ?_ c2⟩
            · exact_mod_cast Nat.mul_le_mul (le_trans e3 (Nat.mul_le_mul_right _ (Nat.pow_le_pow_left n4 _)))
                (le_trans e6 (Nat.pow_le_pow_left m5 _))
            · exact_mod_cast Nat.mul_le_mul (le_trans e5 (Nat.mul_le_mul_right _ (Nat.pow_le_pow_left m4 _)))
                (le_trans e4 (Nat.pow_le_pow_left n5 _))
          · rintro v rfl
            rw [decide_eq_true_iff, e8]
            constructor <;> intro h <;> linarith
    · have apos : 0 < a.coe.num := by omega
      simp only [a0, decide_false, Bool.false_eq_true, if_false, Res.bind_ok, Bool.false_and]
      rw [decide_eq_true (by omega : a.coe.num ≥ 0)]
      simp only [if_true, Bool.true_and, Res.bind_ok]
      by_cases b0 : b.coe.num ≤ 0
      · rw [decide_eq_true b0]
        simp only [if_true]
        refine .ok ?_
        have h1 := sga.2.2 apos
        have h2 : b.val ≤ 0 := by
          by_contra h; have := sgb.2.1 (by linarith [not_le.1 h]); omega
        simp only [Bool.false_eq_true, false_iff, not_lt]
        linarith
      · have bpos : 0 < b.coe.num := by omega
        simp only [b0, decide_false, Bool.false_eq_true, if_false]
        obtain ⟨na, da, ca, n2, n3⟩ := exists_nat apos hda
        obtain ⟨nb, db, cb, m2, m3⟩ := exists_nat bpos hdb
        rw [ca] at sna sda
        rw [cb] at snb sdb
        simp only [Int.natAbs_natCast] at sna sda snb sdb
        obtain ⟨x, y, x', y', e1, e2, e3, e4, e5, e6, e7, -⟩ := pos_cmp hM hfl (a := a)
            (b := b) ea eb sa.1 sb.1 hia hib n2 n3 m2 m3 (by rw [ca, natval]) (by rw [cb, natval]) K
            sna sda snb sdb
        rw [ca, cb]
        rw [ea, e1]
        simp only [Res.bind_ok]
        rw [eb, e2]
        simp only [Res.bind_ok]
        refine ((Rational.lt_sat (M := env.M) ⟨x, y⟩ ⟨x', y'⟩).weaken ?_).mono ?_
        · rintro ⟨c1, c2⟩
          simp only [Int.natAbs_natCast] at c1 c2
          simp only [Int.abs_eq_natAbs, Int.natAbs_natCast, ← Nat.cast_mul]
          refine ⟨le_trans ?_ c1, le_trans ?_ c2⟩
          · exact_mod_cast Nat.mul_le_mul e3 e6
          · exact_mod_cast Nat.mul_le_mul e5 e4
        · rintro v rfl
          rw [decide_eq_true_iff, e7]

theorem gt_sat (hM : (2 : Int) ^ 53 ≤ env.M) (hfl : env.fl.Exact) {a b : Real} (ha : a.Canon) (hb : b.Canon)
    (hda : 0 < a.coe.den) (hdb : 0 < b.coe.den) (sab : CmpSizes a b) (sba : CmpSizes b a) :
    (gt env a b).Sat (CmpD env a b ∧ (|a.coe.num| * |b.coe.den| ≤ env.M ∧ |b.coe.num| * |a.coe.den| ≤ env.M) ∧
        a.rad.num ≤ env.M ∧ b.rad.num ≤ env.M) fun v => (v = true ↔ a.val > b.val) := by
  unfold gt
  refine .bind ((lt_sat hM hfl ha hb hda hdb sab sba).weaken fun h => h.1) ?_
  intro v _ hv
  cases v with
  | true =>
    have := hv.1 rfl
    simp only [if_true]
    refine .ok ?_
    simp only [Bool.false_eq_true, false_iff, gt_iff_lt, not_lt]
    exact this.le
  | false =>
    have hnl : ¬ a.val < b.val := fun h => by simpa using hv.2 h
    simp only [Bool.false_eq_true, if_false]
    refine .bind ((eq_sat ha hb).weaken fun h => h.2) ?_
    intro w _ hw
    refine .ok ?_
    cases w with
    | true => have := hw.1 rfl; simp [this]
    | false =>
      have hne : a.val ≠ b.val := fun h => by simpa using hw.2 h
      simp only [Bool.not_false, true_iff, gt_iff_lt]
      exact lt_of_le_of_ne (not_lt.1 hnl) (Ne.symm hne)

end Real
end Symxx.Num
