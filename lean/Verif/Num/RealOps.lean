import Verif.Num.RealNorm
/-!
# `Real`: normalisation as a whole, uniqueness of the normal form
-/
namespace Symxx.Num
namespace Real

variable {env : Env} {B : Nat} {D : Prop}

/-- the integer under the root after clearing the denominator. -/
def cleared (k n d : Nat) : Nat := n * d ^ (k - 1)

theorem cleared_one (k n : Nat) : cleared k n 1 = n := by simp [cleared]

theorem normalize_int (k n : Nat) (coe : Rational) :
    normalize env ⟨k, ⟨n, 1⟩, coe⟩ = normInt env k n coe := by
  unfold normalize normInt
  simp only [Rational.isInt, decide_true, Bool.not_true, Bool.false_eq_true, if_false, Res.bind_ok]
  rfl

theorem mul_clear {M : Int} (k n d : Nat) (hk : 0 < k) (hn : 0 < n) (hd : 0 < d)
    (hnM : (n * d ^ (k - 1) : Nat) ≤ M) (hdM : (d ^ k : Nat) ≤ M) :
    Rational.mul M ⟨n, d⟩ ⟨((d ^ k : Nat) : Int), 1⟩ = .ok ⟨((n * d ^ (k - 1) : Nat) : Int), 1⟩ := by
  obtain ⟨j, rfl⟩ : ∃ j, k = j + 1 := ⟨k - 1, by omega⟩
  simp only [Nat.add_sub_cancel] at hnM ⊢
  have hn1 : (n : Int) ≤ M := le_trans (by exact_mod_cast Nat.le_mul_of_pos_right _ (by positivity)) hnM
  have hd1 : (d : Int) ≤ M := le_trans (by exact_mod_cast Nat.le_self_pow (by omega) _) hdM
  have hM1 : (1 : Int) ≤ M := le_trans (by exact_mod_cast hd) hd1
  have ab : ∀ m : Nat, |(m : Int)| = m := fun m => abs_of_nonneg (by positivity)
  have hg1 : Int.gcd (n : Int) 1 = 1 := by simp
  have hg2 : Int.gcd ((d ^ (j + 1) : Nat) : Int) (d : Int) = d := by
    rw [Int.gcd_natCast_natCast, pow_succ]; simp
  have q1 : ((d ^ (j + 1) : Nat) : Int).tdiv (d : Int) = (d ^ j : Nat) := by
    rw [Int.tdiv_eq_ediv_of_nonneg (by positivity), ← Int.natCast_div, pow_succ, Nat.mul_div_cancel _ hd]
  have q2 : ((d : Nat) : Int).tdiv (d : Int) = 1 := Int.tdiv_self (by omega)
  have hdz : (d : Int) ≠ 0 := by omega
  have hjM : ((d ^ j : Nat) : Int) ≤ M := le_trans (by exact_mod_cast Nat.le_mul_of_pos_left _ hn) hnM
  have nn : ∀ m : Nat, (m : Int) ≤ M → InRange M (m : Int) := fun m h => inRange_of_abs (by rwa [ab])
  unfold Rational.mul
  simp only
  rw [gcdT_ok.2 ⟨⟨by rwa [ab], by simpa using hM1⟩, rfl⟩, Res.bind_ok,
    gcdT_ok.2 ⟨⟨by rwa [ab], by rwa [ab]⟩, rfl⟩, Res.bind_ok, hg1, hg2]
  rw [divT_ok.2 ⟨by simp, by simpa using nn n hn1, rfl⟩, Res.bind_ok,
    divT_ok.2 ⟨hdz, by rw [q1]; exact nn _ hjM, rfl⟩, Res.bind_ok, q1]
  simp only [Nat.cast_one, Int.tdiv_one]
  rw [chk_ok (by have := nn _ hnM; push_cast at this ⊢; exact this), Res.bind_ok,
    divT_ok.2 ⟨hdz, by rw [q2]; exact nn 1 (by exact_mod_cast hM1), rfl⟩, Res.bind_ok,
    divT_ok.2 ⟨by norm_num, by simpa using nn 1 (by exact_mod_cast hM1), rfl⟩, Res.bind_ok, q2]
  simp only [Int.tdiv_one, mul_one]
  rw [chk_ok (show InRange M 1 by simpa using nn 1 (by exact_mod_cast hM1))]
  simp

theorem normalize_frac (hg : env.Good B) (k n d : Nat) (hk : 0 < k) (hn : 0 < n) (hd : 0 < d) (hd1 : d ≠ 1)
    (hN : cleared k n d ≤ B) (hdk : d ^ k ≤ B) (coe : Rational) :
    normalize env ⟨k, ⟨n, d⟩, coe⟩ = (do
      let c ← Rational.div env.M coe ⟨d, 1⟩
      normInt env k (cleared k n d) c) := by
  have hdB : d ≤ B := le_trans (Nat.le_self_pow hk.ne' _) hdk
  unfold normalize
  rw [show (Rational.isInt ⟨(n : Int), (d : Int)⟩) = false by simp [Rational.isInt, hd1]]
  simp only [Bool.not_false, if_true]
  rw [Rational.ofInt_eq env.M d (by rw [abs_of_nonneg (by positivity)]; exact hg.leM hdB) hg.M1, Res.bind_ok]
  have h53 := hg.le53 hdk
  rw [hg.exact.ofPow d k (by exact_mod_cast hd) (by exact_mod_cast h53)]
  have hm := mul_clear (M := env.M) k n d hk hn hd (hg.leM hN) (hg.leM hdk)
  simp only [Res.bind_ok]
  push_cast at hm
  rw [hm]
  cases hdv : Rational.div env.M coe ⟨d, 1⟩ with
  | ok c =>
    simp only [Res.bind_ok]
    unfold normInt cleared
    push_cast
    rfl
  | throw m => rfl
  | exn m => rfl
  | ub m => rfl
  | fuel => rfl

/-- what `normalize` returns. -/
structure NormOf (bound : Nat) (r : Real) (r' : Real) : Prop where
  canon : r'.Canon
  index : r'.index ∣ r.index
  small : r'.rad.num ^ (r.index / r'.index) ≤ bound
  val : r'.val = r.val
  sign : r.coe.KeepSign r'.coe
  lowest : r.coe.Lowest → r'.coe.Lowest

theorem rpow_root {N A k g : Nat} (hk : 0 < k) (hgk : g ∣ k) (h : N ^ g = A) (hg : 0 < g) :
    (N : ℝ) ^ ((1 : ℝ) / (k / g : Nat)) = (A : ℝ) ^ ((1 : ℝ) / k) := by
  obtain ⟨j, rfl⟩ := hgk
  rw [Nat.mul_div_cancel_left _ hg, ← h]
  push_cast
  rw [← Real.rpow_natCast, ← Real.rpow_mul (by positivity)]
  congr 1
  have : (g : ℝ) ≠ 0 := by exact_mod_cast hg.ne'
  rw [← mul_div_assoc, mul_one, div_mul_eq_div_div, div_self this]

theorem rpow_outer {k n : Nat} (hk : 0 < k) (hn : 0 < n) :
    (n : ℝ) ^ ((1 : ℝ) / k) = (outer k n : ℝ) * (free k n : ℝ) ^ ((1 : ℝ) / k) := by
  conv_lhs => rw [← free_outer (k := k) hn]
  push_cast
  rw [Real.mul_rpow (by positivity) (by positivity), mul_comm, one_div,
    Real.pow_rpow_inv_natCast (by positivity) hk.ne']

theorem rpow_cleared {k n d : Nat} (hk : 0 < k) (hd : 0 < d) :
    ((n : ℝ) / d) ^ ((1 : ℝ) / k) = (1 / d) * (cleared k n d : ℝ) ^ ((1 : ℝ) / k) := by
  have hd' : (0 : ℝ) < d := by exact_mod_cast hd
  have e : ((n : ℝ) / d) = (1 / d : ℝ) ^ k * (cleared k n d : ℝ) := by
    obtain ⟨j, rfl⟩ : ∃ j, k = j + 1 := ⟨k - 1, by omega⟩
    unfold cleared
    simp only [Nat.add_sub_cancel]
    push_cast
    rw [one_div, inv_pow, pow_succ]
    field_simp
  rw [e, Real.mul_rpow (by positivity) (by positivity), one_div (k : ℝ), Real.pow_rpow_inv_natCast (by positivity) hk.ne']

theorem val_mk (k : Nat) (n d : Nat) (c : Rational) :
    Real.val ⟨k, ⟨n, d⟩, c⟩ = (c.val : ℝ) * ((n : ℝ) / d) ^ ((1 : ℝ) / k) := by
  simp [Real.val, Rational.val]

theorem normInt_norm (hg : env.Good B) (k n : Nat) (hk : 0 < k) (hn : 0 < n) (hB : n ≤ B) (coe : Rational)
    (hc : coe.den ≠ 0) :
    (normInt env k n coe).Sat (|coe.num| * outer k n ≤ env.M ∧ |coe.den| ≤ env.M) fun r =>
      NormOf n ⟨k, ⟨n, 1⟩, coe⟩ r := by
  refine (normInt_sat hg k n hk hn hB coe hc).mono ?_
  rintro r ⟨c', hs, rfl⟩
  obtain ⟨s1, s2, s3, s4, s5, s6⟩ := hs
  have hv : (c'.val : ℝ) * (free k n : ℝ) ^ ((1 : ℝ) / k) = (coe.val : ℝ) * (n : ℝ) ^ ((1 : ℝ) / k) := by
    rw [rpow_outer hk hn, s1]; push_cast; ring
  split
  · rename_i h0
    refine ⟨⟨1, rfl, ?_, s2, fun _ => rfl⟩, one_dvd _, by simp; omega, ?_, s3, s6⟩
    · refine (simplest_iff 1 1 (by omega) (by omega)).2 ⟨by simp, fun d h _ => Nat.dvd_one.1 h⟩
    · have hz : c'.val = 0 := by simp [Rational.val, h0]
      have h1 := val_mk 1 1 1 c'
      have h2 := val_mk k n 1 coe
      rw [hz] at h1 hv
      simp only [Nat.cast_one, div_one] at h1 h2
      rw [h1, h2, ← hv]; simp
  · rename_i h0
    have hgk : gE k (free k n) ∣ k := ((gE_dvd k _ _).1 dvd_rfl).1
    refine ⟨⟨_, rfl, simplest_root hk, s2, fun h => absurd h h0⟩, Nat.div_dvd_of_dvd hgk, ?_, ?_, s3, s6⟩
    · simp only
      rw [Nat.div_div_self hgk hk.ne']
      have := root_pow (k := k) (free_pos k n)
      have h3 : root k (free k n) ^ gE k (free k n) ≤ n := by rw [this]; exact free_le hn
      exact_mod_cast h3
    have h1 := val_mk (k / gE k (free k n)) (root k (free k n)) 1 c'
    have h2 := val_mk k n 1 coe
    simp only [Nat.cast_one, div_one] at h1 h2
    rw [h1, h2, ← hv]
    congr 1
    exact rpow_root hk ((gE_dvd k _ _).1 dvd_rfl).1 (root_pow (free_pos k n)) (gE_pos hk)

theorem normalize_sat (hg : env.Good B) (k n d : Nat) (hk : 0 < k) (hn : 0 < n) (hd : 0 < d)
    (hN : cleared k n d ≤ B) (hdk : d ^ k ≤ B) (coe : Rational) (hc : coe.den ≠ 0) :
    (normalize env ⟨k, ⟨n, d⟩, coe⟩).Sat (|coe.num| * outer k (cleared k n d) ≤ env.M ∧ |coe.den| * d ≤ env.M)
      fun r => NormOf (cleared k n d) ⟨k, ⟨n, d⟩, coe⟩ r := by
  by_cases hd1 : d = 1
  · subst hd1
    rw [cleared_one] at hN ⊢
    rw [show ((1 : Nat) : Int) = 1 from rfl, normalize_int, mul_one]
    exact normInt_norm hg k n hk hn hN coe hc
  · rw [normalize_frac hg k n d hk hn hd hd1 hN hdk]
    have hdB : d ≤ B := le_trans (Nat.le_self_pow hk.ne' _) hdk
    have hcl : 0 < cleared k n d := by unfold cleared; positivity
    refine .bind ((Rational.divInt_sat coe d hc hd (hg.leM hdB) hg.M1).weaken ?_) ?_
    · rintro ⟨h1, h2⟩
      refine ⟨le_trans (le_mul_of_one_le_right (abs_nonneg _) (by exact_mod_cast outer_pos k _)) h1, h2⟩
    · rintro c - ⟨c1, c2, c3, c4, c5, c6⟩
      refine ((normInt_norm hg k _ hk hcl hN c c2).weaken ?_).mono ?_
      · rintro ⟨h1, h2⟩
        exact ⟨le_trans (mul_le_mul_of_nonneg_right c4 (by positivity)) h1, le_trans c5 h2⟩
      · intro r h
        refine ⟨h.canon, h.index, h.small, ?_, fun hp => h.sign (c3 hp), fun hl => h.lowest (c6 hl)⟩
        rw [h.val]
        have h1 := val_mk k (cleared k n d) 1 c
        have h2 := val_mk k n d coe
        simp only [Nat.cast_one, div_one] at h1
        rw [h1, h2, rpow_cleared hk hd, c1]
        push_cast
        ring

/-! ### uniqueness of the normal form -/

theorem _root_.Symxx.Num.Simplest.lt {N k : Nat} (h : Simplest N k) (p : Nat) : N.factorization p < k := by
  by_cases hp : p.Prime
  · exact ((simplest_iff N k h.1 h.2.1).1 h).1 p hp
  · rw [Nat.factorization_eq_zero_of_not_prime _ hp]; exact h.2.1

theorem _root_.Symxx.Num.Simplest.gcd {N k : Nat} (h : Simplest N k) (d : Nat) (hd : d ∣ k) (hv : ∀ p, d ∣ N.factorization p) :
    d = 1 := ((simplest_iff N k h.1 h.2.1).1 h).2 d hd hv

theorem _root_.Symxx.Num.Simplest.one {k : Nat} (h : Simplest 1 k) : k = 1 := h.2.2.2 1 k (by simp) dvd_rfl

theorem _root_.Symxx.Num.Simplest.idx_one {N : Nat} (h : Simplest N 1) : N = 1 := by
  by_contra hc
  have := h.1
  exact h.2.2.1 N (by omega) (by simp)

/-- two simplest roots whose ratio is a positive rational number are the same. -/
theorem _root_.Symxx.Num.Simplest.unique {N k N' k' u w : Nat} (h : Simplest N k) (h' : Simplest N' k') (hu : 0 < u) (hw : 0 < w)
    (e : u ^ (k * k') * N ^ k' = w ^ (k * k') * N' ^ k) : N = N' ∧ k = k' := by
  have hk := h.2.1
  have hk' := h'.2.1
  have hN := h.1
  have hN' := h'.1
  have key : ∀ p, k' * N.factorization p = k * N'.factorization p := by
    intro p
    have e1 := congrArg (fun x => x.factorization p) e
    beta_reduce at e1
    rw [Nat.factorization_mul (by positivity) (by positivity), Nat.factorization_mul (by positivity) (by positivity),
      Nat.factorization_pow, Nat.factorization_pow, Nat.factorization_pow, Nat.factorization_pow] at e1
    simp only [Finsupp.add_apply, Finsupp.smul_apply, smul_eq_mul] at e1
    have l1 : k' * N.factorization p < k * k' := by
      rw [mul_comm k k']; exact Nat.mul_lt_mul_of_pos_left (h.lt p) hk'
    have l2 : k * N'.factorization p < k * k' := Nat.mul_lt_mul_of_pos_left (h'.lt p) hk
    have m1 := congrArg (· % (k * k')) e1
    simp only [Nat.mul_add_mod] at m1
    rwa [Nat.mod_eq_of_lt l1, Nat.mod_eq_of_lt l2] at m1
  obtain ⟨g, a, b, hab, rfl, rfl⟩ : ∃ g a b, Nat.Coprime a b ∧ k = g * a ∧ k' = g * b := by
    refine ⟨Nat.gcd k k', k / Nat.gcd k k', k' / Nat.gcd k k', Nat.coprime_div_gcd_div_gcd (Nat.gcd_pos_of_pos_left _ hk),
      (Nat.mul_div_cancel' (Nat.gcd_dvd_left _ _)).symm, (Nat.mul_div_cancel' (Nat.gcd_dvd_right _ _)).symm⟩
  have hg : 0 < g := Nat.pos_of_mul_pos_right hk
  have key2 : ∀ p, b * N.factorization p = a * N'.factorization p := by
    intro p
    have := key p
    rw [mul_assoc, mul_assoc] at this
    exact Nat.eq_of_mul_eq_mul_left hg this
  have ha1 : a = 1 := h.gcd a (Dvd.intro_left _ rfl) fun p =>
    hab.dvd_of_dvd_mul_left ⟨_, key2 p⟩
  have hb1 : b = 1 := h'.gcd b (Dvd.intro_left _ rfl) fun p =>
    hab.symm.dvd_of_dvd_mul_left ⟨_, (key2 p).symm⟩
  subst ha1 hb1
  refine ⟨?_, rfl⟩
  refine Nat.eq_of_factorization_eq hN.ne' hN'.ne' fun p => ?_
  simpa using key2 p

theorem val_canon {a : Real} {N : Nat} (e : a.rad = ⟨N, 1⟩) :
    a.val = (a.coe.val : ℝ) * (N : ℝ) ^ ((1 : ℝ) / a.index) := by
  simp [Real.val, e, Rational.val]

/-- raising to the `k*k'`-th power. -/
theorem val_pow {a : Real} {N : Nat} (e : a.rad = ⟨N, 1⟩) (h : 0 < a.index) (j : Nat) :
    a.val ^ (a.index * j) = (a.coe.val : ℝ) ^ (a.index * j) * (N : ℝ) ^ j := by
  rw [val_canon e, mul_pow]
  congr 1
  rw [pow_mul, one_div, Real.rpow_inv_natCast_pow (by positivity) h.ne']

theorem coe_zero_iff {c : Rational} (h : c.den ≠ 0) : c.val = 0 ↔ c.num = 0 := by
  unfold Rational.val
  have : (c.den : ℚ) ≠ 0 := by exact_mod_cast h
  rw [div_eq_zero_iff]
  simp [this]

theorem rpow_pos' {N : Nat} (h : 0 < N) (x : ℝ) : (0 : ℝ) < (N : ℝ) ^ x :=
  Real.rpow_pos_of_pos (by exact_mod_cast h) _

theorem val_zero_iff {a : Real} (ha : a.Canon) : a.val = 0 ↔ a.coe.num = 0 := by
  obtain ⟨N, e, hs, hd, hz⟩ := ha
  rw [val_canon e, mul_eq_zero, ← coe_zero_iff hd]
  have := (rpow_pos' hs.1 ((1 : ℝ) / a.index)).ne'
  simp only [this, or_false]
  exact_mod_cast Iff.rfl

/-- non-zero normal forms with a rational ratio have the same root. -/
theorem root_unique {a b : Real} {N N' : Nat} (ea : a.rad = ⟨N, 1⟩) (eb : b.rad = ⟨N', 1⟩)
    (ha : Simplest N a.index) (hb : Simplest N' b.index) (da : a.coe.den ≠ 0) (db : b.coe.den ≠ 0)
    (ha0 : a.coe.num ≠ 0) (hb0 : b.coe.num ≠ 0) (q : ℚ) (hq : a.val = q * b.val) :
    N = N' ∧ a.index = b.index := by
  have hk := ha.2.1
  have hk' := hb.2.1
  have pa := val_pow ea hk b.index
  have pb := val_pow eb hk' a.index
  have hq0 : q ≠ 0 := by
    rintro rfl
    have h0 : a.val = 0 := by rw [hq]; simp
    rw [val_canon ea, mul_eq_zero] at h0
    rcases h0 with h0 | h0
    · exact ha0 ((coe_zero_iff da).1 (by exact_mod_cast h0))
    · exact (rpow_pos' ha.1 _).ne' h0
  have e1 : (a.coe.val : ℝ) ^ (a.index * b.index) * (N : ℝ) ^ b.index =
      (q : ℝ) ^ (a.index * b.index) * ((b.coe.val : ℝ) ^ (a.index * b.index) * (N' : ℝ) ^ a.index) := by
    rw [← pa, hq, mul_pow]
    rw [mul_comm b.index] at pb
    rw [pb]
  have e2 : (a.coe.val) ^ (a.index * b.index) * (N : ℚ) ^ b.index =
      (q * b.coe.val) ^ (a.index * b.index) * (N' : ℚ) ^ a.index := by
    rw [mul_pow, mul_assoc]; exact_mod_cast e1
  have e3 := congrArg abs e2
  rw [abs_mul, abs_mul, abs_of_nonneg (by positivity : (0 : ℚ) ≤ (N : ℚ) ^ b.index),
    abs_of_nonneg (by positivity : (0 : ℚ) ≤ (N' : ℚ) ^ a.index), abs_pow, abs_pow] at e3
  have hx : |a.coe.val| ≠ 0 := by rw [abs_ne_zero]; exact fun h => ha0 ((coe_zero_iff da).1 h)
  have hy : |q * b.coe.val| ≠ 0 := by
    rw [abs_ne_zero]; exact mul_ne_zero hq0 fun h => hb0 ((coe_zero_iff db).1 h)
  set K := a.index * b.index with hK
  generalize hX : |a.coe.val| = X at *
  generalize hY : |q * b.coe.val| = Y at *
  have hX0 : 0 < X := lt_of_le_of_ne (by rw [← hX]; exact abs_nonneg _) (Ne.symm hx)
  have hY0 : 0 < Y := lt_of_le_of_ne (by rw [← hY]; exact abs_nonneg _) (Ne.symm hy)
  have hXn : (X.num.toNat : ℚ) = X * X.den := by
    rw [Rat.mul_den_eq_num, ← Int.cast_natCast, Int.toNat_of_nonneg (Rat.num_nonneg.2 hX0.le)]
  have hYn : (Y.num.toNat : ℚ) = Y * Y.den := by
    rw [Rat.mul_den_eq_num, ← Int.cast_natCast, Int.toNat_of_nonneg (Rat.num_nonneg.2 hY0.le)]
  have hu : 0 < X.num.toNat * Y.den :=
    Nat.mul_pos (by have := Rat.num_pos.2 hX0; omega) Y.den_pos
  have hw : 0 < Y.num.toNat * X.den :=
    Nat.mul_pos (by have := Rat.num_pos.2 hY0; omega) X.den_pos
  refine Simplest.unique ha hb hu hw ?_
  have : (((X.num.toNat * Y.den) ^ K * N ^ b.index : ℕ) : ℚ) = ((Y.num.toNat * X.den) ^ K * N' ^ a.index : ℕ) := by
    push_cast
    rw [hXn, hYn, mul_pow, mul_pow, mul_pow, mul_pow]
    linear_combination ((X.den : ℚ) ^ K * (Y.den : ℚ) ^ K) * e3
  exact_mod_cast this

/-- C37 core: equal values have the same normal form. -/
theorem canon_unique {a b : Real} (ha : a.Canon) (hb : b.Canon) :
    a.val = b.val ↔ (a.coe.val = b.coe.val ∧ a.rad = b.rad ∧ a.index = b.index) := by
  constructor
  · intro h
    have hz : a.coe.num = 0 ↔ b.coe.num = 0 := by rw [← val_zero_iff ha, ← val_zero_iff hb, h]
    obtain ⟨N, ea, sa, da, za⟩ := ha
    obtain ⟨N', eb, sb, db, zb⟩ := hb
    by_cases h0 : a.coe.num = 0
    · have h0' := hz.1 h0
      have e1 := za h0
      have e2 := zb h0'
      subst e1 e2
      exact ⟨by rw [(coe_zero_iff da).2 h0, (coe_zero_iff db).2 h0'], by rw [ea, eb], by rw [sa.one, sb.one]⟩
    · obtain ⟨e1, e2⟩ := root_unique ea eb sa sb da db h0 (fun h => h0 (hz.2 h)) 1 (by simpa using h)
      subst e1
      refine ⟨?_, by rw [ea, eb], e2⟩
      rw [val_canon ea, val_canon eb, e2] at h
      have := mul_right_cancel₀ (rpow_pos' sa.1 _).ne' h
      exact_mod_cast this
  · rintro ⟨h1, h2, h3⟩
    simp [Real.val, h1, h2, h3]

/-! ### normalising a normal form -/

theorem stripAll_id (k : Nat) (m : FMap) (h : ∀ r ∈ m, r.1 < k) (rad : Int) (coe : Rational) :
    stripAll env k m rad coe = .ok (rad, coe) := by
  induction m with
  | nil => rfl
  | cons r t ih =>
    obtain ⟨e, vs⟩ := r
    have he : e < k := h (e, vs) (by simp)
    unfold stripAll stripWhile
    rw [if_neg (by omega), Res.bind_ok]
    exact ih fun r hr => h r (List.mem_cons_of_mem _ hr)

theorem free_simplest {N k : Nat} (h : Simplest N k) : free k N = N := by
  refine Nat.eq_of_factorization_eq (free_pos k N).ne' h.1.ne' fun p => ?_
  rw [factorization_free, Nat.mod_eq_of_lt (h.lt p)]

theorem outer_simplest {N k : Nat} (h : Simplest N k) : outer k N = 1 := by
  have h1 := free_outer (k := k) h.1
  rw [free_simplest h] at h1
  have h2 : outer k N ^ k = 1 := Nat.eq_of_mul_eq_mul_left h.1 (by rw [h1, mul_one])
  exact (Nat.pow_eq_one.1 h2).resolve_right h.2.1.ne'

theorem gE_simplest {N k : Nat} (h : Simplest N k) : gE k N = 1 := by
  have := (gE_dvd k N _).1 dvd_rfl
  exact h.gcd _ this.1 this.2

theorem root_simplest {N k : Nat} (h : Simplest N k) : root k N = N := by
  have := root_pow (k := k) h.1
  rwa [gE_simplest h, pow_one] at this

/-- a normal form normalises to itself. -/
theorem normalize_canon (hg : env.Good B) {r : Real} (hr : r.Canon) (hB : r.rad.num ≤ B)
    (hf : r.coe.Fits env.M) : normalize env r = .ok r := by
  obtain ⟨k, rad, coe⟩ := r
  obtain ⟨N, e, hs, hd, hz⟩ := hr
  simp only at e hs hd hz hB hf
  subst e
  have hB : (N : Int) ≤ B := hB
  have hNB : N ≤ B := by exact_mod_cast hB
  rw [normalize_int, normInt_eq hg k N hs.2.1 hs.1 hNB, stripAll_id k (decN N) (by
    intro r hr
    obtain ⟨p, -, e, -⟩ := key_decN hr
    rw [e]; exact hs.lt p)]
  simp only [Res.bind_ok]
  rw [if_neg (by simp), Res.bind_ok]
  simp only
  rw [tail_eq hg k N hs.2.1 hs.1 hNB, Rational.eqInt_spec env.M coe 0 hg.M1 (by norm_num) hf]
  simp only [Res.bind_ok, zero_mul, gE_simplest hs, root_simplest hs, Nat.div_one]
  by_cases h0 : coe.num = 0
  · have := hz h0
    subst this
    rw [hs.one]
    simp [h0]
  · simp [h0]

/-! ### the stray read of `end()` -/

theorem stripVals_junk (j : Int) (k : Nat) (vs : List Nat) (rad : Int) (coe : Rational) :
    stripVals { env with junk := j } k vs rad coe = stripVals env k vs rad coe := by
  induction vs generalizing rad coe with
  | nil => rfl
  | cons i is ih => unfold stripVals; simp only [ih]

theorem stripWhile_junk (j : Int) (k : Nat) (vs : List Nat) (f e : Nat) (rad : Int) (coe : Rational) :
    stripWhile { env with junk := j } k vs f e rad coe = stripWhile env k vs f e rad coe := by
  induction f generalizing e rad coe with
  | zero => rfl
  | succ f ih => unfold stripWhile; simp only [ih, stripVals_junk]

theorem stripAll_junk (j : Int) (k : Nat) (m : FMap) (rad : Int) (coe : Rational) :
    stripAll { env with junk := j } k m rad coe = stripAll env k m rad coe := by
  induction m generalizing rad coe with
  | nil => rfl
  | cons r t ih => unfold stripAll; simp only [ih, stripWhile_junk]

theorem Good.junk (hg : env.Good B) (j : Int) : Env.Good { env with junk := j } B :=
  ⟨⟨hg.hM, hg.exact, hg.hB⟩, hg.hfac⟩

theorem normInt_junk (hg : env.Good B) (j : Int) (k n : Nat) (hk : 0 < k) (hn : 0 < n) (hB : n ≤ B) (coe : Rational)
    (hc : coe.den ≠ 0) : normInt { env with junk := j } k n coe = normInt env k n coe := by
  have hg' := Good.junk hg j
  rw [normInt_eq hg' k n hk hn hB, normInt_eq hg k n hk hn hB, stripAll_junk]
  have hs := stripAll_sat (D := False) hg k hk (decN n)
    (fun r h => by
      obtain ⟨p, hp⟩ := mem_pairs_decN h
      refine ⟨p.pos, ?_⟩
      have := (pairs_decN_perm n).mem_iff.1 h
      obtain ⟨q, hq, rfl⟩ := List.mem_map.1 this
      exact le_trans (Nat.le_of_mem_primeFactors (Finset.mem_toList.1 hq)) hB) 1 coe (by omega)
    (by rw [one_mul, prodF_decN_id n hn.ne']; exact hB) hc (fun h => h.elim)
  rw [one_mul, one_mul, prodF_decN_id n hn.ne'] at hs
  cases hst : stripAll env k (decN n) n coe with
  | ok o =>
    obtain ⟨rad, c'⟩ := o
    obtain ⟨h1, h2⟩ := hs.post hst
    have h1 : rad = (free k n : Int) := h1
    subst h1
    have hfB : free k n ≤ B := le_trans (free_le hn) hB
    simp only [Res.bind_ok]
    rw [decompose_ok hg' _ (free_pos k n) hfB, decompose_ok hg _ (free_pos k n) hfB]
    have key : (if ((free k n : Nat) : Int) ≠ (n : Int) then
          (do let fs ← Res.ok (decN (free k n)); .ok (⟨(free k n : Nat), 1⟩, fs))
        else .ok (⟨n, 1⟩, decN n) : Res (Rational × FMap)) = .ok (⟨(free k n : Nat), 1⟩, decN (free k n)) := by
      split
      · rfl
      · rename_i h
        have h : free k n = n := by simpa using h
        rw [h]
    rw [key]
    simp only [Res.bind_ok]
    rw [tail_eq hg' k _ hk (free_pos k n) hfB, tail_eq hg k _ hk (free_pos k n) hfB]
  | throw m => rfl
  | exn m => rfl
  | ub m => rfl
  | fuel => rfl

theorem normalize_junk (hg : env.Good B) (j : Int) (k n d : Nat) (hk : 0 < k) (hn : 0 < n) (hd : 0 < d)
    (hN : cleared k n d ≤ B) (hdk : d ^ k ≤ B) (coe : Rational) (hc : coe.den ≠ 0) :
    normalize { env with junk := j } ⟨k, ⟨n, d⟩, coe⟩ = normalize env ⟨k, ⟨n, d⟩, coe⟩ := by
  by_cases hd1 : d = 1
  · subst hd1
    rw [cleared_one] at hN
    rw [show ((1 : Nat) : Int) = 1 from rfl, normalize_int, normalize_int]
    exact normInt_junk hg j k n hk hn hN coe hc
  · rw [normalize_frac hg k n d hk hn hd hd1 hN hdk, normalize_frac (Good.junk hg j) k n d hk hn hd hd1 hN hdk]
    have hcl : 0 < cleared k n d := by unfold cleared; positivity
    cases hdv : Rational.div env.M coe ⟨d, 1⟩ with
    | ok c =>
      have h2 := (Rational.div_spec hdv).2.2.1
      simp only [Res.bind_ok]
      exact normInt_junk hg j k _ hk hcl hN c h2
    | throw m => rfl
    | exn m => rfl
    | ub m => rfl
    | fuel => rfl

end Real
end Symxx.Num
