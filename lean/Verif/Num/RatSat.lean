import Verif.Num.RatMore
/-!
# `Rational` operations: bounds, definedness
-/
namespace Symxx

/-- `x` returns a value satisfying `P`, or is undefined; under `D` it returns. -/
def Res.Sat {α} (x : Res α) (D : Prop) (P : α → Prop) : Prop :=
  (∃ a, x = .ok a ∧ P a) ∨ (¬ D ∧ ∃ m, x = .ub m)

namespace Res.Sat
variable {α β : Type _} {D : Prop}

theorem ok {P : α → Prop} {a : α} (h : P a) : Res.Sat (.ok a) D P := Or.inl ⟨a, rfl, h⟩

theorem bind {x : Res α} {f : α → Res β} {P : α → Prop} {Q : β → Prop} (hx : x.Sat D P)
    (hf : ∀ a, x = .ok a → P a → (f a).Sat D Q) : (x >>= f).Sat D Q := by
  rcases hx with ⟨a, e, h⟩ | ⟨h, m, rfl⟩
  · have := hf a e h
    rw [e]; exact this
  · exact Or.inr ⟨h, m, rfl⟩

theorem mono {x : Res α} {P Q : α → Prop} (hx : x.Sat D P) (h : ∀ a, P a → Q a) : x.Sat D Q := by
  rcases hx with ⟨a, e, hp⟩ | hx
  · exact Or.inl ⟨a, e, h a hp⟩
  · exact Or.inr hx

theorem weaken {D' : Prop} {x : Res α} {P : α → Prop} (hx : x.Sat D P) (h : D' → D) : x.Sat D' P := by
  rcases hx with hx | ⟨h1, h2⟩
  · exact Or.inl hx
  · exact Or.inr ⟨fun d => h1 (h d), h2⟩

theorem of_clean {x : Res α} {P : α → Prop} (h : x.Clean) (hP : ∀ a, x = .ok a → P a)
    (hD : D → ∃ a, x = .ok a) : x.Sat D P := by
  rcases h with ⟨a, e⟩ | ⟨m, e⟩
  · exact Or.inl ⟨a, e, hP a e⟩
  · refine Or.inr ⟨fun d => ?_, m, e⟩
    obtain ⟨a, h⟩ := hD d
    rw [e] at h; cases h

theorem of_eq {x : Res α} {P : α → Prop} {a : α} (e : x = .ok a) (h : P a) : x.Sat D P := Or.inl ⟨a, e, h⟩

theorem post {x : Res α} {P : α → Prop} {a : α} (h : x.Sat D P) (e : x = .ok a) : P a := by
  rcases h with ⟨b, e', hp⟩ | ⟨-, m, e'⟩
  · rw [e] at e'; injection e' with e'; exact e' ▸ hp
  · rw [e] at e'; cases e'

theorem clean {x : Res α} {P : α → Prop} (h : x.Sat D P) : x.Clean := by
  rcases h with ⟨a, e, -⟩ | ⟨-, m, e⟩
  · exact Or.inl ⟨a, e⟩
  · exact Or.inr ⟨m, e⟩

theorem defined {x : Res α} {P : α → Prop} (h : x.Sat D P) (d : D) : ∃ a, x = .ok a ∧ P a := by
  rcases h with h | ⟨h, -⟩
  · exact h
  · exact absurd d h

end Res.Sat

namespace Num
namespace Rational

/-- the sign of a denominator is kept. -/
def KeepSign (a b : Rational) : Prop := 0 < a.den → 0 < b.den

/-- size of a product. -/
theorem mul_bounds {M : Int} {a b r : Rational} (h : mul M a b = .ok r) :
    |r.num| ≤ |a.num| * |b.num| ∧ |r.den| ≤ |a.den| * |b.den| := by
  unfold mul at h
  obtain ⟨g1, k1, h⟩ := Res.bind_eq_ok.1 h
  obtain ⟨g2, k2, h⟩ := Res.bind_eq_ok.1 h
  obtain ⟨n1, k3, h⟩ := Res.bind_eq_ok.1 h
  obtain ⟨n2, k4, h⟩ := Res.bind_eq_ok.1 h
  obtain ⟨n, k5, h⟩ := Res.bind_eq_ok.1 h
  obtain ⟨d1, k6, h⟩ := Res.bind_eq_ok.1 h
  obtain ⟨d2, k7, h⟩ := Res.bind_eq_ok.1 h
  obtain ⟨d, k8, h⟩ := Res.bind_eq_ok.1 h
  obtain ⟨_, k9, h⟩ := Res.bind_eq_ok.1 h
  injection h with h; subst h
  obtain ⟨-, -, e3⟩ := divT_ok.1 k3
  obtain ⟨-, -, e4⟩ := divT_ok.1 k4
  obtain ⟨-, e5⟩ := chk_eq_ok.1 k5
  obtain ⟨-, -, e6⟩ := divT_ok.1 k6
  obtain ⟨-, -, e7⟩ := divT_ok.1 k7
  obtain ⟨-, e8⟩ := chk_eq_ok.1 k8
  subst e3 e4 e5 e6 e7 e8
  simp only
  rw [abs_mul, abs_mul]
  exact ⟨mul_le_mul abs_tdiv_le abs_tdiv_le (abs_nonneg _) (abs_nonneg _),
    mul_le_mul abs_tdiv_le abs_tdiv_le (abs_nonneg _) (abs_nonneg _)⟩

theorem mul_def {M : Int} {a b : Rational} (ha : a.den ≠ 0) (hb : b.den ≠ 0) (fa : a.Fits M) (fb : b.Fits M)
    (h1 : |a.num| * |b.num| ≤ M) (h2 : |a.den| * |b.den| ≤ M) : ∃ r, mul M a b = .ok r := by
  obtain ⟨a1, a2⟩ := fa
  obtain ⟨b1, b2⟩ := fb
  have z1 : (Int.gcd a.num b.den : Int) ≠ 0 := by
    have := Int.gcd_pos_of_ne_zero_right a.num hb; omega
  have z2 : (Int.gcd b.num a.den : Int) ≠ 0 := by
    have := Int.gcd_pos_of_ne_zero_right b.num ha; omega
  have e1 : gcdT M a.num b.den = .ok (Int.gcd a.num b.den : Int) := gcdT_ok.2 ⟨⟨by omega, by omega⟩, rfl⟩
  have e2 : gcdT M b.num a.den = .ok (Int.gcd b.num a.den : Int) := gcdT_ok.2 ⟨⟨by omega, by omega⟩, rfl⟩
  have dv : ∀ {x g : Int}, g ≠ 0 → |x| ≤ M → divT M x g = .ok (x.tdiv g) := fun hg hx =>
    divT_ok.2 ⟨hg, inRange_of_abs (le_trans abs_tdiv_le hx), rfl⟩
  have bd : ∀ {x y g g' : Int}, |x| * |y| ≤ M → InRange M (x.tdiv g * y.tdiv g') := fun h =>
    inRange_of_abs (by
      rw [abs_mul]
      exact le_trans (mul_le_mul abs_tdiv_le abs_tdiv_le (abs_nonneg _) (abs_nonneg _)) h)
  have cl := mul_clean M a b ha hb
  rcases cl with h | ⟨m, h⟩
  · exact h
  · exfalso
    unfold mul at h
    rw [e1, e2] at h
    simp only [Res.bind_ok] at h
    rw [dv z1 a1, dv z2 b1, dv z2 a2, dv z1 b2] at h
    simp only [Res.bind_ok] at h
    rw [chk_ok (bd h1), chk_ok (bd h2)] at h
    simp only [Res.bind_ok] at h
    unfold Res.assert at h
    split at h <;> simp at h

/-- product, with bounds. -/
theorem mul_sat {M : Int} (a b : Rational) (ha : a.den ≠ 0) (hb : b.den ≠ 0) :
    (mul M a b).Sat (a.Fits M ∧ b.Fits M ∧ |a.num| * |b.num| ≤ M ∧ |a.den| * |b.den| ≤ M) fun r =>
      r.val = a.val * b.val ∧ r.den ≠ 0 ∧ (0 < a.den → 0 < b.den → 0 < r.den) ∧
        |r.num| ≤ |a.num| * |b.num| ∧ |r.den| ≤ |a.den| * |b.den| ∧ (a.Lowest → b.Lowest → r.Lowest) := by
  refine .of_clean (mul_clean _ _ _ ha hb) ?_ fun h => mul_def ha hb h.1 h.2.1 h.2.2.1 h.2.2.2
  intro r h
  obtain ⟨h1, h2, h3, h4, h5, h6⟩ := mul_spec h
  exact ⟨h1, h2, h6, (mul_bounds h).1, (mul_bounds h).2, h5⟩

/-- multiplying by a positive integer. -/
theorem mulInt_sat {M : Int} (c : Rational) (i : Nat) (hc : c.den ≠ 0) (hi : 0 < i) (hiM : (i : Int) ≤ M) :
    (mul M c ⟨i, 1⟩).Sat (|c.num| * i ≤ M ∧ |c.den| ≤ M) fun r =>
      r.val = c.val * i ∧ r.den ≠ 0 ∧ c.KeepSign r ∧ |r.num| ≤ |c.num| * i ∧ |r.den| ≤ |c.den| ∧
        (c.Lowest → r.Lowest) := by
  have hi' : (0 : Int) < i := by exact_mod_cast hi
  refine ((mul_sat c ⟨i, 1⟩ hc (by norm_num)).weaken ?_).mono ?_
  · rintro ⟨hn, hd⟩
    have hnum : |c.num| ≤ M := le_trans (le_mul_of_one_le_right (abs_nonneg _) (by omega)) hn
    refine ⟨⟨hnum, hd⟩, ⟨?_, ?_⟩, ?_, ?_⟩
    · simp only; rw [abs_of_pos hi']; exact hiM
    · simp only [abs_one]; omega
    · simp only; rw [abs_of_pos hi']; exact hn
    · simpa using hd
  · rintro r ⟨h1, h2, h3, h4, h5, h6⟩
    simp only [abs_of_pos hi', abs_one, mul_one] at h4 h5
    exact ⟨by rw [h1]; simp [val], h2, fun h => h3 h (by norm_num), h4, h5, fun h => h6 h (by simp [Lowest])⟩

/-- dividing by a positive integer. -/
theorem divInt_sat {M : Int} (c : Rational) (i : Nat) (hc : c.den ≠ 0) (hi : 0 < i) (hiM : (i : Int) ≤ M)
    (hM : 1 ≤ M) :
    (div M c ⟨i, 1⟩).Sat (|c.num| ≤ M ∧ |c.den| * i ≤ M) fun r =>
      r.val = c.val / i ∧ r.den ≠ 0 ∧ c.KeepSign r ∧ |r.num| ≤ |c.num| ∧ |r.den| ≤ |c.den| * i ∧
        (c.Lowest → r.Lowest) := by
  have hi' : (0 : Int) < i := by exact_mod_cast hi
  have e : inverse M ⟨i, 1⟩ = .ok ⟨1, i⟩ := by
    unfold inverse mk2
    rw [show decide ((i : Int) ≠ 0) = true by simp; omega]
    simp only [Res.assert_true, Res.bind_ok]
    rw [normalize_eq M 1 i (by simpa using hM) (by rwa [abs_of_pos hi']) (by omega)]
    simp
  unfold div
  rw [e, Res.bind_ok]
  refine ((mul_sat c ⟨1, i⟩ hc (by simp; omega)).weaken ?_).mono ?_
  · rintro ⟨hn, hd⟩
    have hden : |c.den| ≤ M := le_trans (le_mul_of_one_le_right (abs_nonneg _) (by omega)) hd
    refine ⟨⟨hn, hden⟩, ⟨?_, ?_⟩, ?_, ?_⟩
    · simpa using hM
    · simp only; rw [abs_of_pos hi']; exact hiM
    · simpa using hn
    · simp only; rw [abs_of_pos hi']; exact hd
  · rintro r ⟨h1, h2, h3, h4, h5, h6⟩
    simp only [abs_of_pos hi', abs_one, mul_one] at h4 h5
    exact ⟨by rw [h1]; simp [val, div_eq_mul_inv], h2, fun h => h3 h hi', h4, h5,
      fun h => h6 h (by simp [Lowest])⟩

/-- natural powers, with bounds. -/
theorem pow_bounds {M : Int} {fl : Fl} (hfl : fl.Exact) (hM : 2 ^ 53 ≤ M) (a p : Rational) (k : Nat)
    (ha : a.den ≠ 0) (hp0 : p.den ≠ 0) (hp : p.num = k * p.den) (hpn : |p.num| ≤ 2 ^ 53)
    (hpd : |p.den| ≤ 2 ^ 53) (h1 : |a.num ^ k| ≤ 2 ^ 53) (h2 : |a.den ^ k| ≤ 2 ^ 53) :
    ∃ r, pow M fl a p = .ok r ∧ r.val = a.val ^ k ∧ r.den ≠ 0 ∧ (0 < a.den → 0 < r.den) ∧
      (a.den = 1 → r = ⟨a.num ^ k, 1⟩) ∧ |r.num| ≤ |a.num ^ k| ∧ |r.den| ≤ |a.den ^ k| := by
  obtain ⟨r, hr, e1, e2, e3, e4⟩ := pow_spec hfl hM a p k ha hp0 hp hpn hpd h1 h2
  refine ⟨r, hr, e1, e2, e3, e4, ?_⟩
  have hM1 : (1 : Int) ≤ M := le_trans (by norm_num) hM
  have hf : p.Fits M := ⟨le_trans hpn hM, le_trans hpd hM⟩
  unfold pow at hr
  rw [eqInt_spec M p 0 hM1 (by norm_num) hf, eqInt_spec M p 1 hM1 (by norm_num) hf] at hr
  simp only [Res.bind_ok, zero_mul, one_mul] at hr
  by_cases c0 : p.num = 0
  · rw [if_pos (by simpa using c0), ofInt_eq M 1 (by simpa using hM1) hM1] at hr
    have hk : k = 0 := by
      rw [c0] at hp
      rcases mul_eq_zero.1 hp.symm with h | h
      · exact_mod_cast h
      · exact absurd h hp0
    injection hr with hr
    subst hk hr
    simp
  · rw [if_neg (by simpa using c0)] at hr
    by_cases c1 : p.num = p.den
    · rw [if_pos (by simpa using c1)] at hr
      have hk : k = 1 := by
        rw [c1] at hp
        have : (k : Int) = 1 := by
          have h3 : ((k : Int) - 1) * p.den = 0 := by linarith
          rcases mul_eq_zero.1 h3 with h | h
          · omega
          · exact absurd h hp0
        exact_mod_cast this
      injection hr with hr
      subst hk hr
      simp
    · rw [if_neg (by simpa using c1), hfl.powT _ _ _ k hp0 hp hpn hpd h1,
        hfl.powT _ _ _ k hp0 hp hpn hpd h2] at hr
      simp only [Res.bind_ok] at hr
      obtain ⟨r', hr', b1, b2⟩ := normalize_defined M (a.num ^ k) (a.den ^ k) (le_trans h1 hM) (le_trans h2 hM)
        (pow_ne_zero _ ha)
      rw [hr] at hr'
      injection hr' with hr'
      subst hr'
      exact ⟨b1, b2⟩

end Rational
end Num
end Symxx
