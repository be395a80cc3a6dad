import Verif.Num.RealSound
/-!
# `Real`: coefficients in lowest terms; conversion to `Rational`
-/
namespace Symxx.Num.Real
variable {env : Env} {B : Nat}

theorem normalize_low (hg : env.Base B) {r r' : Real} (hr : r.Pre) (hl : r.coe.Lowest)
    (h : normalize (env.checked B) r = .ok r') : r'.coe.Lowest := by
  obtain ⟨⟨_, this⟩, -⟩ := normalize_normOf hg hr h
  exact this.lowest hl

theorem ofRational_low (hg : env.Base B) {c : Rational} {x : Real} (hc : c.den ≠ 0) (hl : c.Lowest)
    (h : ofRational (env.checked B) c = .ok x) : x.coe.Lowest := by
  unfold ofRational at h
  obtain ⟨o, h1, h⟩ := Res.bind_eq_ok.1 h
  obtain ⟨rfl, -⟩ := Rational.ofInt_spec h1
  exact normalize_low (r := ⟨1, ⟨1, 1⟩, c⟩) hg ⟨by norm_num, by norm_num, hc⟩ hl h

theorem ofInt_low (hg : env.Base B) {c : Int} {x : Real} (h : ofInt (env.checked B) c = .ok x) : x.coe.Lowest := by
  unfold ofInt at h
  obtain ⟨o, h1, h⟩ := Res.bind_eq_ok.1 h
  obtain ⟨rfl, -⟩ := Rational.ofInt_spec h1
  exact ofRational_low hg (by norm_num) (by simp [Rational.Lowest]) h

theorem add_low (hg : env.Base B) {a b r : Real} (ha : a.Valid) (hb : b.Valid)
    (h : add (env.checked B) a b = .ok r) : r.coe.Lowest := by
  unfold add at h
  obtain ⟨v, h1, h⟩ := Res.bind_eq_ok.1 h
  cases v with
  | false => simp at h
  | true =>
    simp only [Bool.not_true, Bool.false_eq_true, if_false] at h
    obtain ⟨c, h2, h⟩ := Res.bind_eq_ok.1 h
    have hc := Rational.add_spec ha.coe hb.coe h2
    exact normalize_low (r := { a with coe := c }) hg ⟨ha.index, ha.rad, hc.2.2.1.ne'⟩ hc.2.1 h

theorem inverse_low {e : Env} {a r : Real} (h : inverse e a = .ok r) : r.coe.Lowest := by
  unfold inverse at h
  obtain ⟨c, h1, h⟩ := Res.bind_eq_ok.1 h
  obtain ⟨d, h2, h⟩ := Res.bind_eq_ok.1 h
  injection h with h
  subst h
  exact (Rational.inverse_spec h1).2.2.1

theorem mul_low (hg : env.Base B) {a b r : Real} (ha : a.Pre) (hb : b.Pre) (la : a.coe.Lowest) (lb : b.coe.Lowest)
    (h : mul (env.checked B) a b = .ok r) : r.coe.Lowest := by
  unfold mul at h
  obtain ⟨l, h1, h⟩ := Res.bind_eq_ok.1 h
  obtain ⟨rfl, hl⟩ := lcmU_sound h1
  have hlpos := Nat.lcm_pos ha.index hb.index
  have hea : 0 < Nat.lcm a.index b.index / a.index :=
    Nat.div_pos (Nat.le_of_dvd hlpos (Nat.dvd_lcm_left _ _)) ha.index
  have heb : 0 < Nat.lcm a.index b.index / b.index :=
    Nat.div_pos (Nat.le_of_dvd hlpos (Nat.dvd_lcm_right _ _)) hb.index
  have hl : (Nat.lcm a.index b.index : Int) ≤ 2 * env.M + 1 := hl
  generalize Nat.lcm a.index b.index = l at *
  rw [if_neg (by have := ha.index; have := hb.index; omega)] at h
  obtain ⟨p1, h2, h⟩ := Res.bind_eq_ok.1 h
  obtain ⟨r1, h3, h⟩ := Res.bind_eq_ok.1 h
  obtain ⟨p2, h4, h⟩ := Res.bind_eq_ok.1 h
  obtain ⟨r2, h5, h⟩ := Res.bind_eq_ok.1 h
  obtain ⟨rad, h6, h⟩ := Res.bind_eq_ok.1 h
  obtain ⟨c, h7, h⟩ := Res.bind_eq_ok.1 h
  have ba : ((l / a.index : Nat) : Int) ≤ 2 * env.M + 1 := le_trans (by exact_mod_cast Nat.div_le_self _ _) hl
  have bb : ((l / b.index : Nat) : Int) ≤ 2 * env.M + 1 := le_trans (by exact_mod_cast Nat.div_le_self _ _) hl
  obtain ⟨v3, d3, -⟩ := Rational.mul_spec h6
  obtain ⟨v4, d4, -, -, l4, -⟩ := Rational.mul_spec h7
  exact normalize_low (r := ⟨l, rad, c⟩) hg ⟨hlpos, d3, d4⟩ (l4 la lb) h

theorem div_low (hg : env.Base B) {a b r : Real} (ha : a.Valid) (hb : b.Valid) (la : a.coe.Lowest)
    (h : div (env.checked B) a b = .ok r) : r.coe.Lowest := by
  unfold div at h
  obtain ⟨ib, h1, h⟩ := Res.bind_eq_ok.1 h
  obtain ⟨i1, -⟩ := inverse_sound hb h1
  exact mul_low hg ha.toPre i1.toPre la (inverse_low h1) h

/-- what `is_rational` says. -/
theorem isRational_sound {e : Env} {a : Real} {b : Bool} (ha : a.Valid) (h : isRational e a = .ok b) :
    b = true ↔ (a.coe.val = 0 ∨ a.rad.val = 1) := by
  unfold isRational at h
  obtain ⟨b1, h1, h⟩ := Res.bind_eq_ok.1 h
  have e1 := Rational.eqInt_sound_val ha.coe h1
  cases b1 with
  | true =>
    rw [if_pos rfl] at h
    injection h with h
    exact ⟨fun _ => Or.inl (by simpa using e1.1 rfl), fun _ => h.symm⟩
  | false =>
    rw [if_neg (by simp)] at h
    obtain ⟨b2, h2, h⟩ := Res.bind_eq_ok.1 h
    have e2 := Rational.eqInt_sound_val ha.rad h2
    cases b2 with
    | true =>
      rw [if_pos rfl] at h
      injection h with h
      exact ⟨fun _ => Or.inr (by simpa using e2.1 rfl), fun _ => h.symm⟩
    | false =>
      rw [if_neg (by simp)] at h
      obtain ⟨b3, h3, h⟩ := Res.bind_eq_ok.1 h
      have e3 := Rational.eqInt_sound_val ha.rad h3
      have n1 : ¬ a.coe.val = 0 := fun hc => by simpa using e1.2 (by simpa using hc)
      have n2 : ¬ a.rad.val = 1 := fun hc => by simpa using e2.2 (by simpa using hc)
      cases b3 with
      | true => have := e3.1 rfl; have := ha.pos; simp_all
      | false =>
        rw [if_neg (by simp)] at h
        injection h with h
        subst h
        rw [decide_eq_true_iff]
        constructor
        · rintro (h | h)
          · exact Or.inr (ha.one h)
          · have := ha.index; omega
        · rintro (h | h)
          · exact absurd h n1
          · exact absurd h n2

/-- `to<Rational>()`. -/
theorem toRational_sound {e : Env} {a : Real} {q : Rational} (ha : a.Valid) (h : toRational e a = .ok q) :
    q.den ≠ 0 ∧ (q.val : ℝ) = a.val := by
  unfold toRational at h
  obtain ⟨b, h1, h⟩ := Res.bind_eq_ok.1 h
  obtain ⟨_, h2, h⟩ := Res.bind_eq_ok.1 h
  have hb : b = true := by simpa using Res.assert_eq_ok.1 h2
  have hr := (isRational_sound ha h1).1 hb
  obtain ⟨m1, m2, -⟩ := Rational.mul_spec h
  refine ⟨m2, ?_⟩
  rw [val_eq, m1]
  unfold rootVal
  rcases hr with hr | hr
  · rw [hr]; simp
  · rw [hr]; simp

theorem toRational_low {e : Env} {a : Real} {q : Rational} (ha : a.Canon) (hl : a.coe.Lowest)
    (h : toRational e a = .ok q) : q.Lowest := by
  unfold toRational at h
  obtain ⟨b, h1, h⟩ := Res.bind_eq_ok.1 h
  obtain ⟨_, h2, h⟩ := Res.bind_eq_ok.1 h
  have hb : b = true := by simpa using Res.assert_eq_ok.1 h2
  have hr := (isRational_sound ha.valid h1).1 hb
  have hrad : a.rad.Lowest := by
    obtain ⟨N, e', -⟩ := ha
    rw [e']
    simp [Rational.Lowest]
  exact (Rational.mul_spec h).2.2.2.2.1 hl hrad

end Symxx.Num.Real
