import Verif.Num.RealOps
/-!
# `Real` arithmetic
-/
namespace Symxx.Num
namespace Real

variable {env : Env} {B : Nat} {D : Prop}

/-- a positive rational with natural members. -/
theorem exists_nat {r : Rational} (hn : 0 < r.num) (hd : 0 < r.den) :
    ∃ n d : Nat, r = ⟨n, d⟩ ∧ 0 < n ∧ 0 < d := by
  obtain ⟨n, d⟩ := r
  refine ⟨n.toNat, d.toNat, ?_, by simp only at hn; omega, by simp only at hd; omega⟩
  simp only at hn hd
  rw [Int.toNat_of_nonneg hn.le, Int.toNat_of_nonneg hd.le]

theorem num_pos_of_val {r : Rational} (hd : 0 < r.den) (h : 0 < r.val) : 0 < r.num := by
  unfold Rational.val at h
  have hd' : (0 : ℚ) < r.den := by exact_mod_cast hd
  have := (div_pos_iff_of_pos_right hd').1 h
  exact_mod_cast this

theorem natval (n d : Nat) : Rational.val ⟨n, d⟩ = (n : ℚ) / d := by simp [Rational.val]

/-- a natural power of a positive rational. -/
theorem ratPow (hg : env.Good B) (n d e : Nat) (hn : 0 < n) (hd : 0 < d) (he : e ≤ 2 ^ 53)
    (h1 : n ^ e ≤ B) (h2 : d ^ e ≤ B) (p : Rational) (hp : p = ⟨e, 1⟩) :
    ∃ n' d' : Nat, Rational.pow env.M env.fl ⟨n, d⟩ p = .ok ⟨n', d'⟩ ∧ 0 < n' ∧ 0 < d' ∧
      n' ≤ n ^ e ∧ d' ≤ d ^ e ∧ ((n' : ℚ) / d' = ((n : ℚ) / d) ^ e) ∧ (d = 1 → n' = n ^ e ∧ d' = 1) := by
  subst hp
  have ab : ∀ m : Nat, |(m : Int)| = m := fun m => abs_of_nonneg (by positivity)
  obtain ⟨r, e1, e2, e3, e4, e5, e6, e7⟩ := Rational.pow_bounds hg.exact hg.hM ⟨n, d⟩ ⟨e, 1⟩ e
    (by simp only; omega) (by norm_num) (by simp) (by rw [ab]; exact_mod_cast he) (by norm_num)
    (by have := hg.le53 h1; simp only; rw [← Nat.cast_pow, ab]; exact this)
    (by have := hg.le53 h2; simp only; rw [← Nat.cast_pow, ab]; exact this)
  have hr : 0 < r.den := e4 (by simp only; omega)
  have hnq : (0 : ℚ) < n := by exact_mod_cast hn
  have hdq : (0 : ℚ) < d := by exact_mod_cast hd
  rw [natval] at e2
  have hrn : 0 < r.num := num_pos_of_val hr (by rw [e2]; positivity)
  obtain ⟨n', d', rfl, hn', hd'⟩ := exists_nat hrn hr
  simp only [ab, ← Nat.cast_pow] at e6 e7
  refine ⟨n', d', e1, hn', hd', by exact_mod_cast e6, by exact_mod_cast e7, by rw [← e2, natval], ?_⟩
  intro h1
  subst h1
  have := e5 (by simp)
  injection this with t1 t2
  simp only at t1
  exact ⟨by exact_mod_cast t1, by exact_mod_cast t2⟩

theorem ratOfIndex_ok (hg : env.Good B) (e : Nat) (he : e ≤ 2 ^ 53) : ratOfIndex env e = .ok ⟨e, 1⟩ := by
  have h1 : (e : Int) ≤ 2 ^ 53 := by exact_mod_cast he
  have h2 := hg.hM
  unfold ratOfIndex
  rw [wrap_of_range ⟨by omega, by omega⟩]
  exact Rational.ofInt_eq env.M e (by rw [abs_of_nonneg (by positivity)]; omega) hg.M1

/-- product of positive rationals. -/
theorem ratMul (M : Int) (n d n' d' X Y : Nat) (hn : 0 < n) (hd : 0 < d) (hn' : 0 < n') (hd' : 0 < d')
    (hX : n * n' ≤ X) (hY : d * d' ≤ Y) (hXM : (X : Int) ≤ M) (hYM : (Y : Int) ≤ M) :
    ∃ a b : Nat, Rational.mul M ⟨n, d⟩ ⟨n', d'⟩ = .ok ⟨a, b⟩ ∧ 0 < a ∧ 0 < b ∧ a ≤ X ∧ b ≤ Y ∧
      ((a : ℚ) / b = (n : ℚ) / d * ((n' : ℚ) / d')) ∧ (d = 1 → d' = 1 → a = n * n' ∧ b = 1) := by
  have ab : ∀ m : Nat, |(m : Int)| = m := fun m => abs_of_nonneg (by positivity)
  have b1 : (n : Int) * n' ≤ M := le_trans (by exact_mod_cast hX) hXM
  have b2 : (d : Int) * d' ≤ M := le_trans (by exact_mod_cast hY) hYM
  have l1 : (n : Int) ≤ n * n' := by exact_mod_cast Nat.le_mul_of_pos_right _ hn'
  have l2 : (n' : Int) ≤ n * n' := by exact_mod_cast Nat.le_mul_of_pos_left _ hn
  have l3 : (d : Int) ≤ d * d' := by exact_mod_cast Nat.le_mul_of_pos_right _ hd'
  have l4 : (d' : Int) ≤ d * d' := by exact_mod_cast Nat.le_mul_of_pos_left _ hd
  obtain ⟨r, hr, e1, e2, e3, e4, e5, e6⟩ := (Rational.mul_sat (M := M) ⟨n, d⟩ ⟨n', d'⟩ (by simp only; omega)
    (by simp only; omega)).defined ⟨⟨by rw [ab]; omega, by rw [ab]; omega⟩, ⟨by rw [ab]; omega, by rw [ab]; omega⟩,
      by rw [ab, ab]; omega, by rw [ab, ab]; omega⟩
  have hrd : 0 < r.den := e3 (by simp only; omega) (by simp only; omega)
  have q1 : (0 : ℚ) < n := by exact_mod_cast hn
  have q2 : (0 : ℚ) < d := by exact_mod_cast hd
  have q3 : (0 : ℚ) < n' := by exact_mod_cast hn'
  have q4 : (0 : ℚ) < d' := by exact_mod_cast hd'
  rw [natval, natval] at e1
  have hrn : 0 < r.num := num_pos_of_val hrd (by rw [e1]; positivity)
  obtain ⟨a, b, rfl, ha, hb⟩ := exists_nat hrn hrd
  simp only [ab] at e4 e5
  have e4' : a ≤ n * n' := by exact_mod_cast e4
  have e5' : b ≤ d * d' := by exact_mod_cast e5
  refine ⟨a, b, hr, ha, hb, le_trans e4' hX, le_trans e5' hY, by rw [← natval, e1], ?_⟩
  rintro rfl rfl
  have hb1 : b = 1 := by omega
  subst hb1
  rw [natval] at e1
  simp only [Nat.cast_one, div_one] at e1
  exact ⟨by exact_mod_cast e1, rfl⟩

theorem lcmU_ok (hg : env.Good B) (a b : Nat) (h : Nat.lcm a b ≤ 2 ^ 53) : lcmU env a b = .ok (Nat.lcm a b) := by
  have h1 : (Nat.lcm a b : Int) ≤ 2 ^ 53 := by exact_mod_cast h
  have h2 := hg.hM
  unfold lcmU
  rw [if_pos (by omega)]

theorem rpow_scale {x : ℝ} (hx : 0 ≤ x) {i e l : Nat} (hi : 0 < i) (he : 0 < e) (h : l = i * e) :
    (x ^ e) ^ ((1 : ℝ) / l) = x ^ ((1 : ℝ) / i) := by
  rw [← Real.rpow_natCast, ← Real.rpow_mul hx, h]
  congr 1
  have : (e : ℝ) ≠ 0 := by exact_mod_cast he.ne'
  have : (i : ℝ) ≠ 0 := by exact_mod_cast hi.ne'
  push_cast
  field_simp

/-- numerator and denominator sizes of the radicand of a product. -/
def mulX (ia ib na nb : Nat) : Nat := na ^ (Nat.lcm ia ib / ia) * nb ^ (Nat.lcm ia ib / ib)

theorem mul_sat (hg : env.Good B) (ia ib na da nb db : Nat) (hia : 0 < ia) (hib : 0 < ib) (hna : 0 < na)
    (hda : 0 < da) (hnb : 0 < nb) (hdb : 0 < db) (ca cb : Rational) (hca : ca.den ≠ 0) (hcb : cb.den ≠ 0)
    (hl : Nat.lcm ia ib ≤ 2 ^ 53)
    (hN : cleared (Nat.lcm ia ib) (mulX ia ib na nb) (mulX ia ib da db) ≤ B)
    (hY : mulX ia ib da db ^ Nat.lcm ia ib ≤ B) :
    (mul env ⟨ia, ⟨na, da⟩, ca⟩ ⟨ib, ⟨nb, db⟩, cb⟩).Sat
      (ca.Fits env.M ∧ cb.Fits env.M ∧
        |ca.num| * |cb.num| * cleared (Nat.lcm ia ib) (mulX ia ib na nb) (mulX ia ib da db) ≤ env.M ∧
        |ca.den| * |cb.den| * mulX ia ib da db ≤ env.M) fun r =>
      r.Canon ∧ r.val = Real.val ⟨ia, ⟨na, da⟩, ca⟩ * Real.val ⟨ib, ⟨nb, db⟩, cb⟩ ∧
        (0 < ca.den → 0 < cb.den → 0 < r.coe.den) ∧ (ca.Lowest → cb.Lowest → r.coe.Lowest) ∧
        r.rad.num ≤ cleared (Nat.lcm ia ib) (mulX ia ib na nb) (mulX ia ib da db) := by
  set l := Nat.lcm ia ib with hldef
  have hlpos : 0 < l := Nat.lcm_pos hia hib
  have hla : l = ia * (l / ia) := (Nat.mul_div_cancel' (Nat.dvd_lcm_left ia ib)).symm
  have hlb : l = ib * (l / ib) := (Nat.mul_div_cancel' (Nat.dvd_lcm_right ia ib)).symm
  set ea := l / ia
  set eb := l / ib
  have hea : 0 < ea := Nat.div_pos (Nat.le_of_dvd hlpos (Nat.dvd_lcm_left ia ib)) hia
  have heb : 0 < eb := Nat.div_pos (Nat.le_of_dvd hlpos (Nat.dvd_lcm_right ia ib)) hib
  have hXdef : mulX ia ib na nb = na ^ ea * nb ^ eb := rfl
  have hYdef : mulX ia ib da db = da ^ ea * db ^ eb := rfl
  set X := mulX ia ib na nb
  set Y := mulX ia ib da db
  have hXp : 0 < X := by rw [hXdef]; positivity
  have hYp : 0 < Y := by rw [hYdef]; positivity
  have hXB : X ≤ B := le_trans (Nat.le_mul_of_pos_right _ (by positivity)) hN
  have hYB : Y ≤ B := le_trans (Nat.le_self_pow hlpos.ne' _) hY
  have hea53 : ea ≤ 2 ^ 53 := le_trans (Nat.div_le_self _ _) hl
  have heb53 : eb ≤ 2 ^ 53 := le_trans (Nat.div_le_self _ _) hl
  have s1 : na ^ ea ≤ X := by rw [hXdef]; exact Nat.le_mul_of_pos_right _ (by positivity)
  have s2 : nb ^ eb ≤ X := by rw [hXdef]; exact Nat.le_mul_of_pos_left _ (by positivity)
  have s3 : da ^ ea ≤ Y := by rw [hYdef]; exact Nat.le_mul_of_pos_right _ (by positivity)
  have s4 : db ^ eb ≤ Y := by rw [hYdef]; exact Nat.le_mul_of_pos_left _ (by positivity)
  unfold mul
  simp only
  rw [lcmU_ok hg ia ib hl, Res.bind_ok, if_neg (by omega)]
  rw [ratOfIndex_ok hg _ hea53, Res.bind_ok]
  obtain ⟨n1, d1, p1, p2, p3, p4, p5, p6, -⟩ := ratPow hg na da ea hna hda hea53 (le_trans s1 hXB) (le_trans s3 hYB) _ rfl
  obtain ⟨n2, d2, q1, q2, q3, q4, q5, q6, -⟩ := ratPow hg nb db eb hnb hdb heb53 (le_trans s2 hXB) (le_trans s4 hYB) _ rfl
  rw [p1, Res.bind_ok, ratOfIndex_ok hg _ heb53, Res.bind_ok, q1, Res.bind_ok]
  obtain ⟨a, b, r1, r2, r3, r4, r5, r6, -⟩ := ratMul env.M n1 d1 n2 d2 X Y p2 p3 q2 q3
    (by rw [hXdef]; exact Nat.mul_le_mul p4 q4) (by rw [hYdef]; exact Nat.mul_le_mul p5 q5) (hg.leM hXB) (hg.leM hYB)
  rw [r1, Res.bind_ok]
  have hcl : cleared l a b ≤ cleared l X Y := by
    unfold cleared
    exact Nat.mul_le_mul r4 (Nat.pow_le_pow_left r5 _)
  refine .bind ((Rational.mul_sat ca cb hca hcb).weaken ?_) ?_
  · rintro ⟨f1, f2, f3, f4⟩
    have hclp : 1 ≤ cleared l X Y := by unfold cleared; exact Nat.mul_pos hXp (by positivity)
    exact ⟨f1, f2, le_trans (le_mul_of_one_le_right (by positivity) (by exact_mod_cast hclp)) f3,
      le_trans (le_mul_of_one_le_right (by positivity) (by exact_mod_cast hYp)) f4⟩
  · rintro c - ⟨c1, c2, c3, c4, c5, c6⟩
    refine ((normalize_sat hg l a b hlpos r2 r3 (le_trans hcl hN) (le_trans (Nat.pow_le_pow_left r5 _) hY) c c2).weaken ?_).mono ?_
    · rintro ⟨f1, f2, f3, f4⟩
      have ho : outer l (cleared l a b) ≤ cleared l X Y :=
        le_trans (outer_le hlpos (by unfold cleared; positivity)) hcl
      refine ⟨le_trans (mul_le_mul c4 (by exact_mod_cast ho) (by positivity) (by positivity)) f3,
        le_trans (mul_le_mul c5 (by exact_mod_cast r5) (by positivity) (by positivity)) f4⟩
    · intro r h
      refine ⟨h.canon, ?_, fun h1 h2 => h.sign (c3 h1 h2), fun h1 h2 => h.lowest (c6 h1 h2), ?_⟩
      · rw [h.val, val_mk, val_mk, val_mk]
        have r6' : ((a : ℝ) / b) = ((na : ℝ) / da) ^ ea * ((nb : ℝ) / db) ^ eb := by
          rw [p6, q6] at r6
          have := congrArg (fun q : ℚ => (q : ℝ)) r6
          simpa using this
        rw [r6', Real.mul_rpow (by positivity) (by positivity), rpow_scale (by positivity) hia hea hla,
          rpow_scale (by positivity) hib heb hlb, c1]
        push_cast
        ring
      · have h1 := h.small
        obtain ⟨N, e, hs, -, -⟩ := h.canon
        rw [e] at h1 ⊢
        simp only at h1 ⊢
        have hjd : 0 < l / r.index := Nat.div_pos (Nat.le_of_dvd hlpos h.index) hs.2.1
        have h2 : (N : Int) ≤ (N : Int) ^ (l / r.index) := by
          exact_mod_cast Nat.le_self_pow hjd.ne' N
        exact le_trans h2 (le_trans h1 (by exact_mod_cast hcl))

/-- `inverse`. -/
theorem inverse_sat (hM : 1 ≤ env.M) (k n d : Nat) (hn : 0 < n) (hd : 0 < d) (hnM : (n : Int) ≤ env.M)
    (hdM : (d : Int) ≤ env.M) (c : Rational) (hc : c.den ≠ 0) (hc0 : c.num ≠ 0) :
    (inverse env ⟨k, ⟨n, d⟩, c⟩).Sat (c.Fits env.M) fun r =>
      ∃ n' d' : Nat, ∃ c', r = ⟨k, ⟨n', d'⟩, c'⟩ ∧ 0 < n' ∧ 0 < d' ∧ n' ≤ d ∧ d' ≤ n ∧
        c'.val = (c.val)⁻¹ ∧ c'.den ≠ 0 ∧ c'.num ≠ 0 ∧ c'.Lowest ∧ (0 < c.num → 0 < c'.den) ∧
        |c'.num| ≤ |c.den| ∧ |c'.den| ≤ |c.num| ∧ ((n' : ℚ) / d' = ((n : ℚ) / d)⁻¹) ∧
        r.val = (Real.val ⟨k, ⟨n, d⟩, c⟩)⁻¹ := by
  have ab : ∀ m : Nat, |(m : Int)| = m := fun m => abs_of_nonneg (by positivity)
  unfold inverse
  simp only
  have hci : (Rational.inverse env.M c).Sat (c.Fits env.M) fun c' =>
      c'.val = (c.val)⁻¹ ∧ c'.den ≠ 0 ∧ c'.num ≠ 0 ∧ c'.Lowest ∧ (0 < c.num → 0 < c'.den) ∧
        |c'.num| ≤ |c.den| ∧ |c'.den| ≤ |c.num| := by
    refine .of_clean (Rational.mk2_clean _ _ _ hc0) ?_ ?_
    · intro c' h
      have h' := h
      obtain ⟨g1, g2, g3, g4, g5, g6⟩ := Rational.inverse_spec h'
      have hx := (Rational.mk2_spec h).2
      have hf := (Rational.normalize_fits hx).1
      obtain ⟨r, hr, b1, b2⟩ := Rational.normalize_defined env.M c.den c.num hf.1 hf.2 hc0
      rw [hx] at hr
      injection hr with hr
      subst hr
      refine ⟨g2, g4, ?_, g3, g5, b1, b2⟩
      intro h0
      have : c'.val = 0 := by simp [Rational.val, h0]
      rw [g2, inv_eq_zero, coe_zero_iff hc] at this
      exact hc0 this
    · rintro ⟨f1, f2⟩
      obtain ⟨r, hr, -⟩ := Rational.normalize_defined env.M c.den c.num f2 f1 hc0
      refine ⟨r, ?_⟩
      unfold Rational.inverse Rational.mk2
      rw [show decide (c.num ≠ 0) = true by simpa using hc0]
      exact hr
  refine .bind hci ?_
  rintro c' - ⟨h1, h2, h3, h4, h5, h6, h7⟩
  have hne : (n : Int) ≠ 0 := by omega
  obtain ⟨r, hr, b1, b2⟩ := Rational.normalize_defined env.M d n (by rwa [ab]) (by rwa [ab]) hne
  have hri : Rational.inverse env.M ⟨n, d⟩ = .ok r := by
    unfold Rational.inverse Rational.mk2
    rw [show decide ((n : Int) ≠ 0) = true by simpa using hne]
    exact hr
  obtain ⟨g1, g2, g3, g4, g5, g6⟩ := Rational.inverse_spec hri
  have hrd : 0 < r.den := g5 (by simp only; omega)
  have qn : (0 : ℚ) < n := by exact_mod_cast hn
  have qd : (0 : ℚ) < d := by exact_mod_cast hd
  rw [natval] at g2
  have hrn : 0 < r.num := num_pos_of_val hrd (by rw [g2]; positivity)
  obtain ⟨n', d', rfl, hn', hd'⟩ := exists_nat hrn hrd
  simp only [ab] at b1 b2
  rw [hri, Res.bind_ok]
  rw [natval] at g2
  refine .ok ⟨n', d', c', rfl, hn', hd', by exact_mod_cast b1, by exact_mod_cast b2, h1, h2, h3, h4, h5, h6, h7, g2, ?_⟩
  rw [val_mk, val_mk, mul_inv, h1, ← Real.inv_rpow (by positivity)]
  have : ((n' : ℝ) / d') = ((n : ℝ) / d)⁻¹ := by
    have := congrArg (fun q : ℚ => (q : ℝ)) g2
    simpa using this
  rw [this]
  push_cast
  rfl

theorem mulX_mono {ia ib a b a' b' : Nat} (h1 : a ≤ a') (h2 : b ≤ b') : mulX ia ib a b ≤ mulX ia ib a' b' :=
  Nat.mul_le_mul (Nat.pow_le_pow_left h1 _) (Nat.pow_le_pow_left h2 _)

theorem cleared_mono {k a b a' b' : Nat} (h1 : a ≤ a') (h2 : b ≤ b') : cleared k a b ≤ cleared k a' b' :=
  Nat.mul_le_mul h1 (Nat.pow_le_pow_left h2 _)

theorem div_sat (hg : env.Good B) (ia ib na da nb db : Nat) (hia : 0 < ia) (hib : 0 < ib) (hna : 0 < na)
    (hda : 0 < da) (hnb : 0 < nb) (hdb : 0 < db) (ca cb : Rational) (hca : ca.den ≠ 0) (hcb : cb.den ≠ 0)
    (hcb0 : cb.num ≠ 0)
    (hl : Nat.lcm ia ib ≤ 2 ^ 53)
    (hN : cleared (Nat.lcm ia ib) (mulX ia ib na db) (mulX ia ib da nb) ≤ B)
    (hY : mulX ia ib da nb ^ Nat.lcm ia ib ≤ B) :
    (div env ⟨ia, ⟨na, da⟩, ca⟩ ⟨ib, ⟨nb, db⟩, cb⟩).Sat
      (ca.Fits env.M ∧ cb.Fits env.M ∧
        |ca.num| * |cb.den| * cleared (Nat.lcm ia ib) (mulX ia ib na db) (mulX ia ib da nb) ≤ env.M ∧
        |ca.den| * |cb.num| * mulX ia ib da nb ≤ env.M) fun r =>
      r.Canon ∧ r.val = Real.val ⟨ia, ⟨na, da⟩, ca⟩ / Real.val ⟨ib, ⟨nb, db⟩, cb⟩ ∧
        (0 < ca.den → 0 < cb.num → 0 < r.coe.den) ∧ (ca.Lowest → r.coe.Lowest) := by
  have hlpos : 0 < Nat.lcm ia ib := Nat.lcm_pos hia hib
  have heb : 0 < Nat.lcm ia ib / ib := Nat.div_pos (Nat.le_of_dvd hlpos (Nat.dvd_lcm_right ia ib)) hib
  have hXB : mulX ia ib na db ≤ B := by
    refine le_trans (Nat.le_mul_of_pos_right _ ?_) hN
    unfold mulX; positivity
  have hYB : mulX ia ib da nb ≤ B := le_trans (Nat.le_self_pow hlpos.ne' _) hY
  have hnbB : nb ≤ B := by
    refine le_trans (le_trans (Nat.le_self_pow heb.ne' nb) ?_) hYB
    exact Nat.le_mul_of_pos_left _ (by positivity)
  have hdbB : db ≤ B := by
    refine le_trans (le_trans (Nat.le_self_pow heb.ne' db) ?_) hXB
    exact Nat.le_mul_of_pos_left _ (by positivity)
  unfold div
  refine .bind ((inverse_sat hg.M1 ib nb db hnb hdb (hg.leM hnbB) (hg.leM hdbB) cb hcb hcb0).weaken fun h => h.2.1) ?_
  rintro ib' - ⟨n', d', c', rfl, hn', hd', b1, b2, e1, e2, e3, e4, e5, e6, e7, e8, e9⟩
  have m1 : cleared (Nat.lcm ia ib) (mulX ia ib na n') (mulX ia ib da d') ≤
      cleared (Nat.lcm ia ib) (mulX ia ib na db) (mulX ia ib da nb) :=
    cleared_mono (mulX_mono le_rfl b1) (mulX_mono le_rfl b2)
  refine ((mul_sat hg ia ib na da n' d' hia hib hna hda hn' hd' ca c' hca e2 hl (le_trans m1 hN)
    (le_trans (Nat.pow_le_pow_left (mulX_mono le_rfl b2) _) hY)).weaken ?_).mono ?_
  · rintro ⟨f1, f2, f3, f4⟩
    refine ⟨f1, ⟨le_trans e6 f2.2, le_trans e7 f2.1⟩, ?_, ?_⟩
    · refine le_trans (mul_le_mul (mul_le_mul_of_nonneg_left e6 (by positivity)) (by exact_mod_cast m1)
        (by positivity) (by positivity)) f3
    · refine le_trans (mul_le_mul (mul_le_mul_of_nonneg_left e7 (by positivity)) ?_
        (by positivity) (by positivity)) f4
      exact_mod_cast mulX_mono le_rfl b2
  · rintro r ⟨h1, h2, h3, h4, -⟩
    exact ⟨h1, by rw [h2, e9, div_eq_mul_inv], fun x y => h3 x (e5 y), fun x => h4 x e4⟩

end Real
end Symxx.Num
