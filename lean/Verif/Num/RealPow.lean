import Verif.Num.RealCmp
/-!
# `Real`: addition, negation, powers
-/
namespace Symxx.Num
namespace Real
variable {env : Env} {B : Nat} {D : Prop}

/-- the two normal forms are multiples of the same root. -/
def SameRoot (a b : Real) : Prop := a.rad = b.rad ∧ a.index = b.index

instance (a b : Real) : Decidable (SameRoot a b) := by unfold SameRoot; infer_instance

theorem isEquivalentWith_ok (hM : 1 ≤ env.M) {a b : Real} (ha : a.Canon) (hb : b.Canon)
    (h1 : a.rad.num ≤ env.M) (h2 : b.rad.num ≤ env.M) :
    isEquivalentWith env a b = .ok (decide (SameRoot a b)) := by
  obtain ⟨N, ea, sa, -, -⟩ := ha
  obtain ⟨N', eb, sb, -, -⟩ := hb
  rw [ea] at h1
  rw [eb] at h2
  have h1 : (N : Int) ≤ env.M := h1
  have h2 : (N' : Int) ≤ env.M := h2
  have he : Rational.eq env.M a.rad b.rad = .ok (decide (N = N')) := by
    have habs : ∀ m : Nat, |(m : Int)| = m := fun m => abs_of_nonneg (by positivity)
    obtain ⟨v, hv, hv2⟩ := (Rational.eq_sat (M := env.M) a.rad b.rad).defined (by
      rw [ea, eb]; simp only [abs_one, mul_one, habs]; exact ⟨h1, h2⟩)
    rw [hv, hv2, ea, eb]
    simp
  have ho : Rational.eqInt env.M a.rad 1 = .ok (decide (N = 1)) := by
    rw [ea, Rational.eqInt_spec env.M ⟨N, 1⟩ 1 hM (by norm_num)
      ⟨by rw [abs_of_nonneg (by positivity)]; exact h1, by simpa using hM⟩]
    simp
  have hS : decide (SameRoot a b) = decide (N = N' ∧ a.index = b.index) := by
    refine decide_eq_decide.2 ?_
    unfold SameRoot
    rw [ea, eb]
    constructor
    · rintro ⟨h, h'⟩; injection h with h; exact ⟨by exact_mod_cast h, h'⟩
    · rintro ⟨rfl, h'⟩; exact ⟨rfl, h'⟩
  rw [hS]
  unfold isEquivalentWith
  rw [he, ho]
  simp only [Res.bind_ok]
  by_cases hNN : N = N'
  · subst hNN
    simp only [decide_true, if_true, Res.bind_ok]
    by_cases hN1 : N = 1
    · subst hN1
      simp [sa.one, sb.one]
    · simp only [hN1, decide_false, Bool.false_eq_true, if_false, Bool.true_and, true_and]
      by_cases hi : a.index = b.index ∧ a.index = 1
      · rw [if_pos hi]; simp [hi.1]
      · rw [if_neg hi]
  · simp only [hNN, decide_false, Bool.false_eq_true, if_false, Res.bind_ok, Bool.false_and]
    by_cases hi : a.index = b.index ∧ a.index = 1
    · exfalso
      have : N = 1 := by have := sa; rw [hi.2] at this; exact this.idx_one
      have : N' = 1 := by have := sb; rw [← hi.1, hi.2] at this; exact this.idx_one
      omega
    · rw [if_neg hi]
      simp

theorem add_differ (hM : 1 ≤ env.M) {a b : Real} (ha : a.Canon) (hb : b.Canon)
    (h1 : a.rad.num ≤ env.M) (h2 : b.rad.num ≤ env.M) (h : ¬ SameRoot a b) :
    add env a b = .throw "radicand and index must be the same." := by
  unfold add
  rw [isEquivalentWith_ok hM ha hb h1 h2, decide_eq_false h]
  rfl

/-- normalising a normal form with another coefficient. -/
theorem renorm_sat (hg : env.Good B) {a : Real} {N : Nat} (ea : a.rad = ⟨N, 1⟩) (sa : Simplest N a.index)
    (hN : N ≤ B) (c : Rational) (hc : c.den ≠ 0) :
    (normalize env { a with coe := c }).Sat (c.Fits env.M) fun r =>
      r.Canon ∧ r.val = Real.val { a with coe := c } ∧ c.KeepSign r.coe ∧ (c.Lowest → r.coe.Lowest) ∧
        r.rad.num ≤ N := by
  obtain ⟨k, rad, coe⟩ := a
  simp only at ea sa ⊢
  subst ea
  rw [normalize_int]
  refine ((normInt_norm hg k N sa.2.1 sa.1 hN c hc).weaken ?_).mono ?_
  · rintro ⟨f1, f2⟩
    rw [outer_simplest sa]; simpa using ⟨f1, f2⟩
  · intro r h
    refine ⟨h.canon, h.val, h.sign, h.lowest, ?_⟩
    have h1 := h.small
    obtain ⟨N', e, hs, -, -⟩ := h.canon
    rw [e] at h1 ⊢
    simp only at h1 ⊢
    have hjd : 0 < k / r.index := Nat.div_pos (Nat.le_of_dvd sa.2.1 h.index) hs.2.1
    have h2 : (N' : Int) ≤ (N' : Int) ^ (k / r.index) := by
      exact_mod_cast Nat.le_self_pow hjd.ne' N'
    exact le_trans h2 h1

theorem add_sat (hg : env.Good B) {a b : Real} (ha : a.Canon) (hb : b.Canon)
    (h1 : a.rad.num ≤ B) (h : SameRoot a b) :
    (add env a b).Sat (∃ S, a.coe.Small S ∧ b.coe.Small S ∧ 2 * (S * S) ≤ env.M) fun r =>
      r.Canon ∧ r.val = a.val + b.val ∧ 0 < r.coe.den ∧ r.coe.Lowest ∧ r.rad.num ≤ a.rad.num := by
  have hBM : (B : Int) ≤ env.M := hg.leM le_rfl
  have h2 : b.rad.num ≤ B := by rw [← h.1]; exact h1
  unfold add
  rw [isEquivalentWith_ok hg.M1 ha hb (le_trans h1 hBM) (le_trans h2 hBM), decide_eq_true h]
  simp only [Res.bind_ok, Bool.not_true, Bool.false_eq_true, if_false]
  obtain ⟨N, ea, sa, da, -⟩ := ha
  obtain ⟨N', eb, sb, db, -⟩ := hb
  have hN : N ≤ B := by rw [ea] at h1; have h1 : (N : Int) ≤ B := h1; exact_mod_cast h1
  refine .bind (P := fun c => c.val = a.coe.val + b.coe.val ∧ c.Lowest ∧ 0 < c.den ∧ c.Fits env.M)
    (.of_clean (Rational.add_clean _ _ _) (fun c hc => Rational.add_spec da db hc) ?_) ?_
  · rintro ⟨S, s1, s2, s3⟩
    exact Rational.add_defined s3 s1 s2
  · rintro c - ⟨c1, c2, c3, c4⟩
    refine ((renorm_sat hg ea sa hN c c3.ne').weaken fun _ => c4).mono ?_
    rintro r ⟨r1, r2, r3, r4, r5⟩
    refine ⟨r1, ?_, r3 c3, r4 c2, by rw [ea]; exact r5⟩
    rw [r2]
    unfold Real.val
    simp only
    rw [c1, ← h.1, ← h.2]
    push_cast
    ring

theorem negate_sat (hg : env.Good B) {a : Real} (ha : a.Canon) (h1 : a.rad.num ≤ B) :
    (negate env a).Sat (a.coe.Fits env.M) fun r =>
      r.Canon ∧ r.val = - a.val ∧ r.coe.Lowest ∧ a.coe.KeepSign r.coe ∧ SameRoot a r ∧
        |r.coe.num| ≤ |a.coe.num| ∧ |r.coe.den| ≤ |a.coe.den| := by
  have hca := ha
  obtain ⟨N, ea, sa, da, za⟩ := ha
  have hN : N ≤ B := by rw [ea] at h1; have h1 : (N : Int) ≤ B := h1; exact_mod_cast h1
  unfold negate mk3
  refine .bind (P := fun c => (c.val = - a.coe.val ∧ c.Lowest ∧ c.den ≠ 0 ∧ (0 < a.coe.den → 0 < c.den) ∧ c.Fits env.M) ∧
      |c.num| ≤ |a.coe.num| ∧ |c.den| ≤ |a.coe.den|)
    (.of_clean (Rational.negate_clean _ _ da) (fun c hc => ⟨Rational.negate_spec da hc, ?_⟩) ?_) ?_
  · unfold Rational.negate at hc
    obtain ⟨m, hm, hc⟩ := Res.bind_eq_ok.1 hc
    obtain ⟨-, hc⟩ := Rational.mk2_spec hc
    obtain ⟨-, rfl⟩ := chk_eq_ok.1 hm
    have hf := (Rational.normalize_fits hc).1
    obtain ⟨r, hr, b1, b2⟩ := Rational.normalize_defined env.M (-a.coe.num) a.coe.den hf.1 hf.2 da
    rw [hc] at hr
    injection hr with hr
    subst hr
    rw [abs_neg] at b1
    exact ⟨b1, b2⟩
  · rintro ⟨f1, f2⟩
    obtain ⟨r, hr, -⟩ := Rational.normalize_defined env.M (-a.coe.num) a.coe.den (by rwa [abs_neg]) f2 da
    refine ⟨r, ?_⟩
    unfold Rational.negate Rational.mk2
    rw [chk_ok (inRange_of_abs (by rwa [abs_neg])), Res.bind_ok,
      show decide (a.coe.den ≠ 0) = true by simpa using da]
    exact hr
  · rintro c - ⟨⟨c1, c2, c3, c4, c5⟩, c6, c7⟩
    have hc : ({ a with coe := c } : Real).Canon := by
      refine ⟨N, ea, sa, c3, fun h0 => za ?_⟩
      rw [← coe_zero_iff c3, c1, neg_eq_zero, coe_zero_iff da] at h0
      exact h0
    have := normalize_canon hg hc (by simpa using h1) c5
    refine .of_eq this ⟨hc, ?_, c2, c4, ⟨rfl, rfl⟩, c6, c7⟩
    unfold Real.val
    simp only
    rw [c1]; push_cast; ring

theorem sub_sat (hg : env.Good B) {a b : Real} (ha : a.Canon) (hb : b.Canon)
    (h1 : a.rad.num ≤ B) (h : SameRoot a b) :
    (sub env a b).Sat (∃ S, a.coe.Small S ∧ b.coe.Small S ∧ 2 * (S * S) ≤ env.M) fun r =>
      r.Canon ∧ r.val = a.val - b.val ∧ 0 < r.coe.den ∧ r.coe.Lowest := by
  have h2 : b.rad.num ≤ B := by rw [← h.1]; exact h1
  have hbd : b.coe.den ≠ 0 := by obtain ⟨_, _, _, d, _⟩ := hb; exact d
  unfold sub
  refine .bind (P := fun nb => nb.Canon ∧ nb.val = - b.val ∧ SameRoot b nb ∧
      |nb.coe.num| ≤ |b.coe.num| ∧ |nb.coe.den| ≤ |b.coe.den|)
    (((negate_sat hg hb h2).weaken ?_).mono fun r h => ⟨h.1, h.2.1, h.2.2.2.2.1, h.2.2.2.2.2⟩) ?_
  · rintro ⟨S, s1, s2, s3⟩
    have hS : 1 ≤ S := by have := abs_pos.2 s2.2.2; have := s2.2.1; omega
    have : S ≤ env.M := by nlinarith
    exact ⟨le_trans s2.1 this, le_trans s2.2.1 this⟩
  · rintro nb - ⟨n1, n2, n3, n4, n5⟩
    have hsr : SameRoot a nb := ⟨h.1.trans n3.1, h.2.trans n3.2⟩
    have hnbd : nb.coe.den ≠ 0 := by obtain ⟨_, _, _, d, _⟩ := n1; exact d
    refine .bind ((add_sat hg ha n1 h1 hsr).weaken ?_) ?_
    · rintro ⟨S, s1, s2, s3⟩
      exact ⟨S, s1, ⟨le_trans n4 s2.1, le_trans n5 s2.2.1, hnbd⟩, s3⟩
    · rintro s hs ⟨t1, t2, t3, t4, t5⟩
      have t1' := t1
      obtain ⟨N, es, ss, ds, -⟩ := t1'
      have hN : N ≤ B := by
        have := le_trans t5 h1
        rw [es] at this; have this : (N : Int) ≤ B := this; exact_mod_cast this
      have hfit : s.coe.Fits env.M := by
        -- the sum has been normalised by `Rational::operator+=`
        unfold add at hs
        obtain ⟨e, -, hs⟩ := Res.bind_eq_ok.1 hs
        cases e with
        | false => simp at hs
        | true =>
          simp only [Bool.not_true, Bool.false_eq_true, if_false] at hs
          obtain ⟨c, hc, hs⟩ := Res.bind_eq_ok.1 hs
          have had : a.coe.den ≠ 0 := by obtain ⟨_, _, _, d, _⟩ := ha; exact d
          obtain ⟨c1, c2, c3, c4⟩ := Rational.add_spec had hnbd hc
          obtain ⟨Na, ea, sa, -, -⟩ := ha
          have hNa : Na ≤ B := by rw [ea] at h1; have h1 : (Na : Int) ≤ B := h1; exact_mod_cast h1
          obtain ⟨ka, rada, coea⟩ := a
          simp only at ea sa
          subst ea
          rw [normalize_int] at hs
          obtain ⟨c', hsc, e⟩ := (normInt_sat hg ka Na sa.2.1 sa.1 hNa c c3.ne').post hs
          rw [outer_simplest sa] at hsc
          have e2 : s.coe = c' := by rw [e]; split <;> rfl
          rw [e2]
          exact ⟨le_trans hsc.2.2.2.1 (by simpa using c4.1), le_trans hsc.2.2.2.2.1 c4.2⟩
      have hsd : s.coe.den ≠ 0 := ds
      refine ((renorm_sat hg es ss hN s.coe hsd).weaken fun _ => hfit).mono ?_
      rintro r ⟨r1, r2, r3, r4, -⟩
      refine ⟨r1, ?_, r3 t3, r4 t4⟩
      rw [r2]
      change s.val = _
      rw [t2, n2]; ring

/-- subtracting a multiple of a different root raises Error. -/
theorem sub_differ (hg : env.Good B) {a b : Real} (ha : a.Canon) (hb : b.Canon)
    (h1 : a.rad.num ≤ B) (h2 : b.rad.num ≤ B) (hf : b.coe.Fits env.M) (h : ¬ SameRoot a b) :
    sub env a b = .throw "radicand and index must be the same." := by
  have hBM : (B : Int) ≤ env.M := hg.leM le_rfl
  obtain ⟨nb, e, n1, -, -, -, n3, -⟩ := (negate_sat hg hb h2).defined hf
  unfold sub
  rw [e, Res.bind_ok, add_differ hg.M1 ha n1 (le_trans h1 hBM) (by rw [← n3.1]; exact le_trans h2 hBM)
    (fun hs => h ⟨hs.1.trans n3.1.symm, hs.2.trans n3.2.symm⟩)]
  rfl

/-- distinct roots: the quotient of two non-zero normal forms is irrational. -/
theorem differ_irrational {a b : Real} (ha : a.Canon) (hb : b.Canon) (ha0 : a.val ≠ 0) (hb0 : b.val ≠ 0) :
    SameRoot a b ↔ ∃ q : ℚ, a.val = q * b.val := by
  have za := (val_zero_iff ha).not.1 ha0
  have zb := (val_zero_iff hb).not.1 hb0
  obtain ⟨N, ea, sa, da, -⟩ := ha
  obtain ⟨N', eb, sb, db, -⟩ := hb
  constructor
  · rintro ⟨h1, h2⟩
    have hbc : (b.coe.val : ℝ) ≠ 0 := by
      have : b.coe.val ≠ 0 := fun h => zb ((coe_zero_iff db).1 h)
      exact_mod_cast this
    refine ⟨a.coe.val / b.coe.val, ?_⟩
    unfold Real.val
    rw [h1, h2]
    push_cast
    field_simp
  · rintro ⟨q, hq⟩
    obtain ⟨e1, e2⟩ := root_unique ea eb sa sb da db za zb q hq
    exact ⟨by rw [ea, eb, e1], e2⟩

/-! ### powers -/

theorem powPos_int_sat (hg : env.Good B) (i n d m : Nat) (hi : 0 < i) (hn : 0 < n) (hd : 0 < d) (hm : m ≤ 2 ^ 53)
    (c : Rational) (hc : c.den ≠ 0) (h1 : |c.num ^ m| ≤ 2 ^ 53) (h2 : |c.den ^ m| ≤ 2 ^ 53)
    (hN : cleared i (n ^ m) (d ^ m) ≤ B) (hD : (d ^ m) ^ i ≤ B) :
    (powPos env ⟨i, ⟨n, d⟩, c⟩ ⟨m, 1⟩).Sat (|c.num ^ m| * cleared i (n ^ m) (d ^ m) ≤ env.M ∧
        |c.den ^ m| * (d ^ m : Nat) ≤ env.M) fun r =>
      r.Canon ∧ r.val = Real.val ⟨i, ⟨n, d⟩, c⟩ ^ m ∧ c.KeepSign r.coe := by
  have hdB : d ^ m ≤ B := le_trans (Nat.le_self_pow hi.ne' _) hD
  have hnB : n ^ m ≤ B := le_trans (Nat.le_mul_of_pos_right _ (by positivity)) hN
  unfold powPos
  simp only [Rational.isInt, decide_true, if_true]
  obtain ⟨c', e1, e2, e3, e4, -, e6, e7⟩ := Rational.pow_bounds hg.exact hg.hM c ⟨m, 1⟩ m hc (by norm_num) (by simp)
    (by simp only; rw [abs_of_nonneg (by positivity)]; exact_mod_cast hm) (by norm_num) h1 h2
  obtain ⟨n', d', q1, q2, q3, q4, q5, q6, -⟩ := ratPow hg n d m hn hd hm hnB hdB _ rfl
  rw [e1, Res.bind_ok, q1, Res.bind_ok]
  have hcl := cleared_mono (k := i) q4 q5
  refine ((normalize_sat hg i n' d' hi q2 q3 (le_trans hcl hN) (le_trans (Nat.pow_le_pow_left q5 _) hD) c' e3).weaken ?_).mono ?_
  · rintro ⟨f1, f2⟩
    have ho : outer i (cleared i n' d') ≤ cleared i (n ^ m) (d ^ m) :=
      le_trans (outer_le hi (by unfold cleared; positivity)) hcl
    exact ⟨le_trans (mul_le_mul e6 (by exact_mod_cast ho) (by positivity) (by positivity)) f1,
      le_trans (mul_le_mul e7 (by exact_mod_cast q5) (by positivity) (by positivity)) f2⟩
  · intro r h
    refine ⟨h.canon, ?_, fun hp => h.sign (e4 hp)⟩
    rw [h.val, val_mk, val_mk, e2]
    have : ((n' : ℝ) / d') = ((n : ℝ) / d) ^ m := by
      have := congrArg (fun q : ℚ => (q : ℝ)) q6
      simpa using this
    rw [this, mul_pow, Real.rpow_pow_comm (by positivity)]
    push_cast
    ring

/-- value of a fractional power. -/
theorem frac_val {x c : ℝ} (hx : 0 < x) (hc : 0 < c) {i q m : Nat} (hi : 0 < i) (hq : 0 < q) :
    (x ^ m) ^ ((1 : ℝ) / (i * q : Nat)) * (c ^ m) ^ ((1 : ℝ) / q) =
      (c * x ^ ((1 : ℝ) / i)) ^ ((m : ℝ) / q) := by
  have hi' : (i : ℝ) ≠ 0 := by exact_mod_cast hi.ne'
  have hq' : (q : ℝ) ≠ 0 := by exact_mod_cast hq.ne'
  rw [Real.mul_rpow hc.le (by positivity), ← Real.rpow_mul hx.le, ← Real.rpow_natCast, ← Real.rpow_natCast,
    ← Real.rpow_mul hx.le, ← Real.rpow_mul hc.le, mul_comm]
  congr 2
  · rw [mul_one_div]
  · push_cast; field_simp

theorem powPos_frac_sat (hg : env.Good B) (i n d cn cd m q : Nat) (hi : 0 < i) (hn : 0 < n) (hd : 0 < d)
    (hcn : 0 < cn) (hcd : 0 < cd) (hq : 1 < q) (hm : m ≤ 2 ^ 53) (hiq : i * q ≤ 2 ^ 53)
    (hN : cleared (i * q) (n ^ m * cleared q (cn ^ m) (cd ^ m) ^ i) (d ^ m) ≤ B)
    (hD : (d ^ m) ^ (i * q) ≤ B) (hC : (cd ^ m) ^ q ≤ B) :
    (powPos env ⟨i, ⟨n, d⟩, ⟨cn, cd⟩⟩ ⟨m, q⟩).Sat False fun r =>
      r.Canon ∧ r.val = Real.val ⟨i, ⟨n, d⟩, ⟨cn, cd⟩⟩ ^ ((m : ℝ) / q) ∧ 0 < r.coe.den := by
  have hq0 : 0 < q := by omega
  have hiqp : 0 < i * q := by positivity
  have hM := hg.hM
  have hq53 : q ≤ 2 ^ 53 := le_trans (Nat.le_mul_of_pos_left _ hi) hiq
  have hW : 0 < cleared q (cn ^ m) (cd ^ m) := by unfold cleared; positivity
  have hXB : n ^ m * cleared q (cn ^ m) (cd ^ m) ^ i ≤ B := le_trans (Nat.le_mul_of_pos_right _ (by positivity)) hN
  have hnB : n ^ m ≤ B := le_trans (Nat.le_mul_of_pos_right _ (by positivity)) hXB
  have hWB : cleared q (cn ^ m) (cd ^ m) ≤ B :=
    le_trans (le_trans (Nat.le_self_pow hi.ne' _) (Nat.le_mul_of_pos_left _ (by positivity))) hXB
  have hcnB : cn ^ m ≤ B := le_trans (Nat.le_mul_of_pos_right _ (by positivity)) hWB
  have hcdB : cd ^ m ≤ B := le_trans (Nat.le_self_pow hq0.ne' _) hC
  have hdB : d ^ m ≤ B := le_trans (Nat.le_self_pow hiqp.ne' _) hD
  have hmM : |(m : Int)| ≤ env.M := by
    rw [abs_of_nonneg (by positivity)]; exact le_trans (by exact_mod_cast hm) hM
  have hmod : ∀ e : Nat, e ≤ 2 ^ 53 → ((e : Int) % (2 * (env.M + 1))).toNat = e := by
    intro e he
    have h1 : (e : Int) ≤ 2 ^ 53 := by exact_mod_cast he
    rw [Int.emod_eq_of_lt (by positivity) (by omega)]
    exact Int.toNat_natCast _
  obtain ⟨n', d', p1, p2, p3, p4, p5, p6, -⟩ := ratPow hg n d m hn hd hm hnB hdB _ rfl
  obtain ⟨u, v, q1, q2, q3, q4, q5, q6, -⟩ := ratPow hg cn cd m hcn hcd hm hcnB hcdB _ rfl
  have hcl := cleared_mono (k := q) q4 q5
  unfold powPos
  rw [show (Rational.isInt ⟨(m : Int), (q : Int)⟩) = false by simp [Rational.isInt]; omega]
  simp only [Bool.false_eq_true, if_false]
  rw [Rational.ofInt_eq env.M m hmM hg.M1, Res.bind_ok, p1, Res.bind_ok,
    Env.noWrap_ok _ (b := (0 ≤ (i : Int) * (q : Int) ∧ (i : Int) * (q : Int) ≤ 2 * env.M + 1)) (by
      have : ((i * q : Nat) : Int) ≤ 2 ^ 53 := by exact_mod_cast hiq
      push_cast at this
      exact ⟨by positivity, by omega⟩), Res.bind_ok, q1, Res.bind_ok,
    Rational.ofInt_eq env.M 1 (by simpa using hg.M1) hg.M1, Res.bind_ok, hmod q hq53,
    show ((i : Int) * (q : Int)) = ((i * q : Nat) : Int) by push_cast; rfl, hmod _ hiq]
  unfold mk3
  refine .bind (((normalize_sat hg q u v hq0 q2 q3 (le_trans hcl hWB) (le_trans (Nat.pow_le_pow_left q5 _) hC) ⟨1, 1⟩
    (by norm_num)).weaken fun h => h.elim)) ?_
  intro root _ hroot
  have hsm := hroot.small
  have hrv := hroot.val
  have hri := hroot.index
  have hrs := hroot.sign (by norm_num)
  obtain ⟨N', er, sr, dr, -⟩ := hroot.canon
  obtain ⟨kr, radr, cr⟩ := root
  simp only at er sr dr hsm hri hrs
  subst er
  simp only at hsm
  have hlcm : Nat.lcm (i * q) kr = i * q := by
    rw [Nat.lcm_eq_left_iff_dvd]; exact hri.trans (Dvd.intro_left _ rfl)
  have hsm' : N' ^ (q / kr) ≤ cleared q (cn ^ m) (cd ^ m) := by
    refine le_trans ?_ hcl
    exact_mod_cast hsm
  have hX : mulX (i * q) kr n' N' ≤ n ^ m * cleared q (cn ^ m) (cd ^ m) ^ i := by
    unfold mulX
    rw [hlcm, Nat.div_self hiqp, pow_one, Nat.mul_div_assoc _ hri, mul_comm i, pow_mul]
    exact Nat.mul_le_mul p4 (Nat.pow_le_pow_left hsm' _)
  have hY : mulX (i * q) kr d' 1 ≤ d ^ m := by
    unfold mulX
    rw [hlcm, Nat.div_self hiqp, pow_one, one_pow, mul_one]
    exact p5
  have hms := mul_sat hg (i * q) kr n' d' N' 1 hiqp sr.2.1 p2 p3 sr.1 (by omega) ⟨1, 1⟩ cr (by norm_num) dr
    (by rw [hlcm]; exact hiq)
    (by rw [hlcm]; exact le_trans (cleared_mono hX hY) hN)
    (by rw [hlcm]; exact le_trans (Nat.pow_le_pow_left hY _) hD)
  refine .bind (hms.weaken fun h => h.elim) ?_
  rintro res - ⟨r1, r2, r3, -, r5⟩
  obtain ⟨Nr, e, ss, ds, -⟩ := r1
  have hNr : Nr ≤ B := by
    rw [hlcm] at r5
    rw [e] at r5
    have : (Nr : Int) ≤ (B : Int) := le_trans r5 (by exact_mod_cast le_trans (cleared_mono hX hY) hN)
    exact_mod_cast this
  refine ((renorm_sat hg e ss hNr res.coe ds).weaken fun h => h.elim).mono ?_
  rintro r ⟨t1, t2, t3, -⟩
  refine ⟨t1, ?_, t3 (r3 (by norm_num) hrs)⟩
  rw [t2]
  change res.val = _
  rw [show ((1 : Nat) : Int) = 1 from rfl] at r2
  rw [r2, hrv, val_mk, val_mk, val_mk]
  have x1 : ((n' : ℝ) / d') = ((n : ℝ) / d) ^ m := by
    have := congrArg (fun q : ℚ => (q : ℝ)) p6
    simpa using this
  have x2 : ((u : ℝ) / v) = ((cn : ℝ) / cd) ^ m := by
    have := congrArg (fun q : ℚ => (q : ℝ)) q6
    simpa using this
  have y1 : (0 : ℝ) < (n : ℝ) / d := by
    have : (0 : ℝ) < n := by exact_mod_cast hn
    have : (0 : ℝ) < d := by exact_mod_cast hd
    positivity
  have y2 : (0 : ℝ) < (cn : ℝ) / cd := by
    have : (0 : ℝ) < cn := by exact_mod_cast hcn
    have : (0 : ℝ) < cd := by exact_mod_cast hcd
    positivity
  rw [x1, x2, natval]
  have := frac_val (m := m) y1 y2 hi hq0
  push_cast at this ⊢
  rw [← this]
  simp [Rational.val]

end Real
end Symxx.Num
