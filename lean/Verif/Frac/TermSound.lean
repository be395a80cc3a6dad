import Verif.Frac.Spec
/-!
# Terms: every operation that returns in the checked environment denotes the mathematical operation
-/
namespace Symxx.Sym
open Symxx.Num

variable {env : Env} {B : Nat} {ρ : List Char → ℝ}

namespace Syms

theorem value_nil : value ρ [] = 1 := rfl

theorem value_cons (p : List Char × Rational) (s : Syms) :
    value ρ (p :: s) = ρ p.1 ^ ((p.2.val : ℚ) : ℝ) * value ρ s := rfl

theorem value_pos (hρ : ∀ x, 0 < ρ x) (s : Syms) : 0 < value ρ s := by
  induction s with
  | nil => rw [value_nil]; norm_num
  | cons p s ih => rw [value_cons]; exact mul_pos (Real.rpow_pos_of_pos (hρ _) _) ih

theorem WF.tail {p : List Char × Rational} {s : Syms} (h : WF (p :: s)) : WF s :=
  ⟨(List.pairwise_cons.1 h.1).2, fun q hq => h.2 q (List.mem_cons_of_mem _ hq)⟩

theorem wf_nil : WF [] := ⟨List.Pairwise.nil, by simp⟩

theorem wf_cons {p : List Char × Rational} {s : Syms} :
    WF (p :: s) ↔ (∀ q ∈ s, p.1 < q.1) ∧ p.2.den ≠ 0 ∧ WF s := by
  unfold WF
  rw [List.pairwise_cons]
  simp only [List.mem_cons, forall_eq_or_imp]
  tauto

theorem addExp_sound {M : Int} (hρ : ∀ x, 0 < ρ x) {k : List Char} {v : Rational} (hv : v.den ≠ 0) :
    ∀ {s s' : Syms}, WF s → addExp M s k v = .ok s' →
      WF s' ∧ value ρ s' = value ρ s * ρ k ^ ((v.val : ℚ) : ℝ) ∧ ∀ p ∈ s', p.1 = k ∨ ∃ q ∈ s, q.1 = p.1
  | [], s', _, h => by
    unfold addExp at h
    injection h with h
    subst h
    refine ⟨wf_cons.2 ⟨by simp, hv, wf_nil⟩, ?_, by simp⟩
    rw [value_cons, value_nil]; ring
  | (k', v') :: t, s', hs, h => by
    obtain ⟨w1, w2, w3⟩ := wf_cons.1 hs
    unfold addExp at h
    split at h
    · rename_i hlt
      injection h with h
      subst h
      refine ⟨wf_cons.2 ⟨?_, hv, hs⟩, ?_, ?_⟩
      · intro q hq
        rcases List.mem_cons.1 hq with rfl | hq
        · exact hlt
        · exact lt_trans hlt (w1 q hq)
      · rw [value_cons]; ring
      · intro p hp
        rcases List.mem_cons.1 hp with rfl | hp
        · exact Or.inl rfl
        · exact Or.inr ⟨p, hp, rfl⟩
    · rename_i hlt
      split at h
      · rename_i heq
        subst heq
        obtain ⟨s, h1, h⟩ := Res.bind_eq_ok.1 h
        injection h with h
        subst h
        obtain ⟨a1, -, a3, -⟩ := Rational.add_spec w2 hv h1
        refine ⟨wf_cons.2 ⟨w1, a3.ne', w3⟩, ?_, ?_⟩
        · rw [value_cons, value_cons, a1]
          push_cast
          rw [Real.rpow_add (hρ _)]; ring
        · intro p hp
          rcases List.mem_cons.1 hp with rfl | hp
          · exact Or.inl rfl
          · exact Or.inr ⟨p, List.mem_cons_of_mem _ hp, rfl⟩
      · rename_i hne
        obtain ⟨t', h1, h⟩ := Res.bind_eq_ok.1 h
        injection h with h
        subst h
        obtain ⟨i1, i2, i3⟩ := addExp_sound hρ hv w3 h1
        refine ⟨wf_cons.2 ⟨?_, w2, i1⟩, ?_, ?_⟩
        · intro q hq
          rcases i3 q hq with e | ⟨q', hq', e⟩
          · rw [e]
            exact lt_of_le_of_ne (not_lt.1 hlt) (Ne.symm hne)
          · rw [← e]; exact w1 q' hq'
        · rw [value_cons, value_cons, i2]; ring
        · intro p hp
          rcases List.mem_cons.1 hp with rfl | hp
          · exact Or.inr ⟨_, List.mem_cons_self, rfl⟩
          · rcases i3 p hp with e | ⟨q', hq', e⟩
            · exact Or.inl e
            · exact Or.inr ⟨q', List.mem_cons_of_mem _ hq', e⟩

theorem merge_sound {M : Int} (hρ : ∀ x, 0 < ρ x) {t : Syms} (ht : WF t) :
    ∀ {s s' : Syms}, WF s → merge M s t = .ok s' → WF s' ∧ value ρ s' = value ρ s * value ρ t := by
  induction t with
  | nil =>
    intro s s' hs h
    unfold merge at h
    injection h with h
    subst h
    exact ⟨hs, by rw [value_nil]; ring⟩
  | cons p t ih =>
    intro s s' hs h
    obtain ⟨k, v⟩ := p
    unfold merge at h
    obtain ⟨s1, h1, h⟩ := Res.bind_eq_ok.1 h
    obtain ⟨w1, w2, w3⟩ := wf_cons.1 ht
    obtain ⟨a1, a2, -⟩ := addExp_sound hρ w2 hs h1
    obtain ⟨b1, b2⟩ := ih w3 a1 h
    exact ⟨b1, by rw [b2, a2, value_cons]; ring⟩

theorem scale_sound {M : Int} (hρ : ∀ x, 0 < ρ x) {q : Rational} :
    ∀ {s s' : Syms}, WF s → scale M q s = .ok s' →
      WF s' ∧ value ρ s' = value ρ s ^ ((q.val : ℚ) : ℝ) ∧ s'.map (·.1) = s.map (·.1)
  | [], s', _, h => by
    unfold scale at h
    injection h with h
    subst h
    exact ⟨wf_nil, by rw [value_nil, Real.one_rpow], rfl⟩
  | (k, v) :: t, s', hs, h => by
    obtain ⟨w1, w2, w3⟩ := wf_cons.1 hs
    unfold scale at h
    obtain ⟨v', h1, h⟩ := Res.bind_eq_ok.1 h
    obtain ⟨t', h2, h⟩ := Res.bind_eq_ok.1 h
    injection h with h
    subst h
    obtain ⟨m1, m6, -⟩ := Rational.mul_spec h1
    obtain ⟨i1, i2, i3⟩ := scale_sound hρ w3 h2
    refine ⟨wf_cons.2 ⟨?_, m6, i1⟩, ?_, ?_⟩
    · intro p hp
      have : p.1 ∈ t'.map (·.1) := List.mem_map.2 ⟨p, hp, rfl⟩
      rw [i3] at this
      obtain ⟨p', hp', e⟩ := List.mem_map.1 this
      rw [← e]; exact w1 p' hp'
    · rw [value_cons, value_cons, i2, m1, Real.mul_rpow (Real.rpow_pos_of_pos (hρ _) _).le (value_pos hρ _).le,
        ← Real.rpow_mul (hρ _).le]
      push_cast; rfl
    · rw [List.map_cons, List.map_cons, i3]

theorem dropZero_sound {M : Int} : ∀ {s s' : Syms}, WF s → dropZero M s = .ok s' →
      WF s' ∧ value ρ s' = value ρ s ∧ s'.Sublist s
  | [], s', hs, h => by
    unfold dropZero at h
    injection h with h
    subst h
    exact ⟨wf_nil, rfl, .refl _⟩
  | (k, v) :: t, s', hs, h => by
    obtain ⟨w1, w2, w3⟩ := wf_cons.1 hs
    unfold dropZero at h
    obtain ⟨z, h1, h⟩ := Res.bind_eq_ok.1 h
    obtain ⟨t', h2, h⟩ := Res.bind_eq_ok.1 h
    injection h with h
    obtain ⟨i1, i2, i3⟩ := dropZero_sound w3 h2
    have e := Rational.eqInt_sound_val w2 h1
    cases z with
    | true =>
      rw [if_pos rfl] at h
      subst h
      refine ⟨i1, ?_, i3.cons _⟩
      rw [i2, value_cons, e.1 rfl]; simp
    | false =>
      rw [if_neg (by simp)] at h
      subst h
      refine ⟨wf_cons.2 ⟨fun q hq => w1 q (i3.subset hq), w2, i1⟩, ?_, i3.cons_cons _⟩
      rw [value_cons, value_cons, i2]

theorem eqGo_sound {M : Int} : ∀ {s t : Syms}, WF s → WF t → s.length = t.length → eqGo M s t = .ok true →
    value ρ s = value ρ t
  | [], [], _, _, _, _ => rfl
  | (k, v) :: s, (k', v') :: t, hs, ht, hl, h => by
    obtain ⟨-, w2, w3⟩ := wf_cons.1 hs
    obtain ⟨-, x2, x3⟩ := wf_cons.1 ht
    unfold eqGo at h
    split at h
    · rename_i hk
      subst hk
      obtain ⟨b, h1, h⟩ := Res.bind_eq_ok.1 h
      cases b with
      | false => simp at h
      | true =>
        rw [if_pos rfl] at h
        have e := (Rational.eq_sound_val w2 x2 h1).1 rfl
        rw [value_cons, value_cons, eqGo_sound w3 x3 (by simpa using hl) h]
        simp only
        rw [e]
    · simp at h

theorem eq_sound {M : Int} {s t : Syms} (hs : WF s) (ht : WF t) (h : eq M s t = .ok true) : value ρ s = value ρ t := by
  unfold eq at h
  split at h
  · rename_i hl
    exact eqGo_sound hs ht hl h
  · simp at h

theorem WF.filter {s : Syms} (h : WF s) (f : List Char × Rational → Bool) : WF (s.filter f) :=
  ⟨h.1.filter f, fun p hp => h.2 p (List.mem_filter.1 hp).1⟩

end Syms

namespace Term

theorem mk'_sound {c : Num.Real} {s : Syms} {t : Term} (hc : c.Valid) (hs : s.WF) (h : mk' env c s = .ok t) :
    t.WF ∧ t.value ρ = c.val * s.value ρ ∧ t.coe = c := by
  unfold mk' at h
  obtain ⟨s', h1, h⟩ := Res.bind_eq_ok.1 h
  injection h with h
  subst h
  obtain ⟨d1, d2, -⟩ := Syms.dropZero_sound (ρ := ρ) hs h1
  exact ⟨⟨hc, d1⟩, by unfold value; rw [d2], rfl⟩

theorem ofReal_wf {c : Num.Real} (hc : c.Valid) : (ofReal c).WF := ⟨hc, Syms.wf_nil⟩

theorem ofReal_value (c : Num.Real) : (ofReal c).value ρ = c.val := by
  unfold value ofReal; rw [Syms.value_nil, mul_one]

theorem ofInt_sound (hg : env.Base B) {n : Int} {t : Term} (h : ofInt (env.checked B) n = .ok t) :
    t.WF ∧ t.value ρ = n ∧ t.coe.Canon := by
  unfold ofInt at h
  obtain ⟨c, h1, h⟩ := Res.bind_eq_ok.1 h
  injection h with h
  subst h
  obtain ⟨o1, o2⟩ := Real.ofInt_sound hg h1
  exact ⟨ofReal_wf o1.valid, by rw [ofReal_value, o2], o1⟩

theorem ofSym_sound {c : Num.Real} {x : List Char} {t : Term} (hc : c.Valid) (h : ofSym env c x = .ok t) :
    t.WF ∧ t.value ρ = c.val * ρ x := by
  unfold ofSym at h
  obtain ⟨o, h1, h⟩ := Res.bind_eq_ok.1 h
  obtain ⟨rfl, -⟩ := Rational.ofInt_spec h1
  injection h with h
  subst h
  refine ⟨⟨hc, Syms.wf_cons.2 ⟨by simp, by norm_num, Syms.wf_nil⟩⟩, ?_⟩
  unfold value
  simp only
  rw [Syms.value_cons, Syms.value_nil, Rational.val_int]; simp

theorem mul_sound (hg : env.Base B) (hρ : ∀ x, 0 < ρ x) {a b t : Term} (ha : a.WF) (hb : b.WF)
    (h : mul (env.checked B) a b = .ok t) : t.WF ∧ t.value ρ = a.value ρ * b.value ρ ∧ t.coe.Canon := by
  unfold mul at h
  obtain ⟨s, h1, h⟩ := Res.bind_eq_ok.1 h
  obtain ⟨c, h2, h⟩ := Res.bind_eq_ok.1 h
  obtain ⟨s', h3, h⟩ := Res.bind_eq_ok.1 h
  injection h with h
  subst h
  obtain ⟨m1, m2⟩ := Syms.merge_sound hρ hb.syms ha.syms h1
  obtain ⟨d1, d2, -⟩ := Syms.dropZero_sound (ρ := ρ) m1 h3
  obtain ⟨c1, c2⟩ := Real.mul_sound hg ha.coe.toPre hb.coe.toPre ha.coe.pos hb.coe.pos h2
  refine ⟨⟨c1.valid, d1⟩, ?_, c1⟩
  unfold value
  simp only
  rw [c2, d2, m2]; ring

theorem divReal_sound (hg : env.Base B) {a t : Term} {r : Num.Real} (ha : a.WF) (hr : r.Valid)
    (h : divReal (env.checked B) a r = .ok t) : t.WF ∧ t.value ρ = a.value ρ / r.val ∧ r.val ≠ 0 := by
  unfold divReal at h
  obtain ⟨c, h2, h⟩ := Res.bind_eq_ok.1 h
  obtain ⟨s', h3, h⟩ := Res.bind_eq_ok.1 h
  injection h with h
  subst h
  obtain ⟨d1, d2, -⟩ := Syms.dropZero_sound (ρ := ρ) ha.syms h3
  obtain ⟨c1, c2, c3⟩ := Real.div_sound hg ha.coe hr h2
  refine ⟨⟨c1.valid, d1⟩, ?_, c3⟩
  unfold value
  simp only
  rw [c2, d2]; ring

theorem pow_sound (hg : env.Base B) (hρ : ∀ x, 0 < ρ x) {a t : Term} {q : Rational} (ha : a.WF) (hq : q.den ≠ 0)
    (hpos : 0 < a.coe.val ∨ q.IntLow) (h : pow (env.checked B) a q = .ok t) : t.WF ∧ t.value ρ = a.value ρ ^ ((q.val : ℚ) : ℝ) := by
  unfold pow at h
  obtain ⟨c, h1, h⟩ := Res.bind_eq_ok.1 h
  obtain ⟨s, h2, h⟩ := Res.bind_eq_ok.1 h
  obtain ⟨s', h3, h⟩ := Res.bind_eq_ok.1 h
  injection h with h
  subst h
  obtain ⟨c1, c2⟩ := Real.pow_sound hg ha.coe hq hpos h1
  obtain ⟨e1, e2, -⟩ := Syms.scale_sound hρ ha.syms h2
  obtain ⟨d1, d2, -⟩ := Syms.dropZero_sound (ρ := ρ) e1 h3
  refine ⟨⟨c1, d1⟩, ?_⟩
  unfold value
  simp only
  rw [d2, e2, c2]
  have hv := Syms.value_pos hρ a.syms
  rcases hpos with h | h
  · rw [Real.mul_rpow h.le hv.le]
  · obtain ⟨-, k, hk⟩ := h
    have : ((q.val : ℚ) : ℝ) = (k : ℝ) := by rw [hk]; simp
    rw [this, Real.rpow_intCast, Real.rpow_intCast, Real.rpow_intCast, mul_zpow]

/-- a fractional exponent in lowest terms is applied to the absolute value. -/
theorem pow_abs_sound (hg : env.Base B) (hρ : ∀ x, 0 < ρ x) {a t : Term} {q : Rational} (ha : a.WF) (hq : q.den ≠ 0)
    (hl : q.Lowest) (hd : ¬ ∃ k : Int, q.val = k) (h : pow (env.checked B) a q = .ok t) :
    t.WF ∧ a.value ρ ≠ 0 ∧ t.value ρ = |a.value ρ| ^ ((q.val : ℚ) : ℝ) := by
  unfold pow at h
  obtain ⟨c, h1, h⟩ := Res.bind_eq_ok.1 h
  obtain ⟨s, h2, h⟩ := Res.bind_eq_ok.1 h
  obtain ⟨s', h3, h⟩ := Res.bind_eq_ok.1 h
  injection h with h
  subst h
  obtain ⟨c1, -, c2⟩ := Real.pow_sound' hg ha.coe hq h1
  obtain ⟨c2, c3⟩ := (c2 hl).2 hd
  obtain ⟨e1, e2, -⟩ := Syms.scale_sound hρ ha.syms h2
  obtain ⟨d1, d2, -⟩ := Syms.dropZero_sound (ρ := ρ) e1 h3
  have hv := Syms.value_pos hρ a.syms
  refine ⟨⟨c1, d1⟩, mul_ne_zero c2 hv.ne', ?_⟩
  unfold value
  simp only
  rw [d2, e2, c3, abs_mul, abs_of_pos hv, Real.mul_rpow (abs_nonneg _) hv.le]

theorem negate_sound (hg : env.Base B) {a t : Term} (ha : a.WF) (h : negate (env.checked B) a = .ok t) :
    t.WF ∧ t.value ρ = - a.value ρ := by
  unfold negate at h
  obtain ⟨c, h1, h⟩ := Res.bind_eq_ok.1 h
  obtain ⟨c1, c2⟩ := Real.negate_sound hg ha.coe h1
  obtain ⟨m1, m2, -⟩ := mk'_sound (ρ := ρ) c1.valid ha.syms h
  exact ⟨m1, by rw [m2, c2]; unfold value; ring⟩

/-- equivalent terms differ by a rational factor: their sum is computed on the coefficients. -/
theorem merge_sound (hg : env.Base B) {a b t : Term} {c : Num.Real} (ha : a.WF) (hb : b.WF)
    (h : isEquivalentWith (env.checked B) a b = .ok true) (h1 : Real.add (env.checked B) a.coe b.coe = .ok c)
    (h2 : mk' (env.checked B) c a.syms = .ok t) : t.WF ∧ t.value ρ = a.value ρ + b.value ρ := by
  unfold isEquivalentWith at h
  obtain ⟨v, h3, h⟩ := Res.bind_eq_ok.1 h
  cases v with
  | false => simp at h
  | true =>
    obtain ⟨c1, c2⟩ := Real.add_sound hg ha.coe hb.coe h1
    obtain ⟨m1, m2, -⟩ := mk'_sound (ρ := ρ) c1.valid ha.syms h2
    refine ⟨m1, ?_⟩
    rw [m2, c2]
    unfold value
    rw [Syms.eq_sound (ρ := ρ) ha.syms hb.syms h3]; ring

theorem eq_sound {a b : Term} (ha : a.WF) (hb : b.WF) (h : eq env a b = .ok true) : a.value ρ = b.value ρ := by
  unfold eq at h
  obtain ⟨v, h3, h⟩ := Res.bind_eq_ok.1 h
  cases v with
  | false => simp at h
  | true =>
    rw [if_pos rfl] at h
    unfold value
    rw [Real.eq_true_sound ha.coe.toPre hb.coe.toPre h3, Syms.eq_sound (ρ := ρ) ha.syms hb.syms h]

/-- `coe == k` decides the value, on the Reals the library builds. -/
theorem coeIs_sound (hg : env.Base B) {c : Num.Real} {k : Int} {v : Bool} (hc : c.Valid)
    (h : coeIs (env.checked B) c k = .ok v) : (v = true → c.val = k) ∧ (k = 0 → c.val = 0 → v = true) := by
  unfold coeIs at h
  obtain ⟨x, h1, h'⟩ := Res.bind_eq_ok.1 h
  clear h
  rename' h' => h
  obtain ⟨o1, o2⟩ := Real.ofInt_sound hg h1
  refine ⟨fun hv => ?_, fun hk hz => ?_⟩
  · subst hv
    rw [Real.eq_true_sound hc.toPre o1.valid.toPre h, o2]
  · subst hk
    have hx0 : x.coe.val = 0 := o1.valid.val_zero.1 (by rw [o2]; norm_num)
    have hc0 := hc.val_zero.1 hz
    unfold Real.eq at h
    obtain ⟨u, h2, h⟩ := Res.bind_eq_ok.1 h
    have e1 := (Rational.eq_sound_val hc.coe o1.valid.coe h2).2 (by rw [hx0, hc0])
    subst e1
    rw [if_pos rfl] at h
    obtain ⟨w, h3, h⟩ := Res.bind_eq_ok.1 h
    have i1 := hc.zero hc0
    have i2 := o1.valid.zero hx0
    have e2 := (Rational.eq_sound_val hc.rad o1.valid.rad h3).2 (by rw [hc.one i1, o1.valid.one i2])
    subst e2
    rw [if_pos rfl] at h
    injection h with h
    rw [← h, i1, i2]; simp

end Term
end Symxx.Sym
