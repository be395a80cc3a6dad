import Verif.Frac.Order
/-!
# Merging neighbours collects all like terms of a sorted polynomial
-/
namespace Symxx.Sym
open Symxx.Num

/-- a normal form with radicand 1 has index 1 and conversely. -/
theorem simplest_one {N k : Nat} (h : Simplest N k) : N = 1 ↔ k = 1 := by
  obtain ⟨h1, h2, h3, h4⟩ := h
  constructor
  · intro e
    subst e
    exact h4 1 k (by simp) dvd_rfl
  · intro e
    subst e
    by_contra hN
    exact h3 N (by omega) (by simp)

namespace Canon

theorem equiv_iff {e : Env} {a b : Num.Real} {v : Bool} (ha : a.Canon) (hb : b.Canon)
    (h : Real.isEquivalentWith e a b = .ok v) : v = true ↔ a.index = b.index ∧ a.rad.val = b.rad.val := by
  have va := ha.valid
  have vb := hb.valid
  unfold Real.isEquivalentWith at h
  obtain ⟨u, h1, h⟩ := Res.bind_eq_ok.1 h
  obtain ⟨w, h2, h'⟩ := Res.bind_eq_ok.1 h
  clear h
  have e1 := Rational.eq_sound_val va.rad vb.rad h1
  obtain ⟨N, ea, sa, -⟩ := ha
  obtain ⟨N', eb, sb, -⟩ := hb
  have qa : a.rad.val = N := by rw [ea, Rational.val_int]; simp
  have qb : b.rad.val = N' := by rw [eb, Rational.val_int]; simp
  cases w with
  | true =>
    cases u with
    | false => simp at h2
    | true =>
      rw [if_pos rfl] at h2
      rw [if_pos rfl] at h'
      injection h' with h
      have e2 := (Rational.eqInt_sound_val va.rad h2).1 rfl
      have e1 := e1.1 rfl
      have hN : N = 1 := by rw [qa] at e2; exact_mod_cast e2
      have hN' : N' = 1 := by rw [← e1, e2] at qb; exact_mod_cast qb.symm
      have i1 := (simplest_one sa).1 hN
      have i2 := (simplest_one sb).1 hN'
      rw [← h, i1, i2]
      simp [e1]
  | false =>
    rw [if_neg (by simp)] at h'
    split at h'
    · rename_i hc
      injection h' with h
      have n1 := (simplest_one sa).2 hc.2
      have n2 := (simplest_one sb).2 (by rw [← hc.1]; exact hc.2)
      rw [← h, qa, qb, n1, n2]
      simp [hc.1]
    · obtain ⟨v', h3, h⟩ := Res.bind_eq_ok.1 h'
      have e3 := Rational.eq_sound_val va.rad vb.rad h3
      injection h with h
      rw [← h, Bool.and_eq_true, e3, decide_eq_true_iff, and_comm]

/-- the sum of numbers with the same root has that root, unless it is zero. -/
theorem add_root {env : Env} {B : Nat} (hg : env.Base B) {a b c : Num.Real} (ha : a.Canon) (hb : b.Canon)
    (hi : a.index = b.index) (hr : a.rad.val = b.rad.val) (h : Real.add (env.checked B) a b = .ok c) (hc : c.val ≠ 0) :
    c.index = a.index ∧ c.rad = a.rad := by
  obtain ⟨h1, h2⟩ := Real.add_sound hg ha.valid hb.valid h
  have va := ha.valid
  have vb := hb.valid
  let x : Num.Real := { a with coe := ⟨a.coe.num * b.coe.den + b.coe.num * a.coe.den, a.coe.den * b.coe.den⟩ }
  have da : (a.coe.den : ℚ) ≠ 0 := by exact_mod_cast va.coe
  have db : (b.coe.den : ℚ) ≠ 0 := by exact_mod_cast vb.coe
  have hx : x.coe.val = a.coe.val + b.coe.val := by
    show Rational.val ⟨_, _⟩ = _
    unfold Rational.val
    push_cast
    field_simp
  have hxv : x.val = c.val := by
    rw [h2, Real.val_eq, Real.val_eq, Real.val_eq, hx]
    have r1 : x.rootVal = a.rootVal := rfl
    have r2 : b.rootVal = a.rootVal := by unfold Real.rootVal; rw [hi, hr]
    rw [r1, r2]; push_cast; ring
  have hxc : x.Canon := by
    obtain ⟨N, ea, sa, d, z⟩ := ha
    refine ⟨N, ea, sa, mul_ne_zero va.coe vb.coe, fun h0 => ?_⟩
    exfalso
    apply hc
    rw [← hxv, Real.val_eq]
    have : x.coe.val = 0 := by unfold Rational.val; rw [h0]; simp
    rw [this]; simp
  have := (Real.canon_unique hxc h1).1 hxv
  exact ⟨this.2.2.symm, this.2.1.symm⟩

end Canon

theorem Syms.dropZero_std {M : Int} : ∀ {s s' : Syms}, s.Std → dropZero M s = .ok s' → s' = s
  | [], s', _, h => by unfold dropZero at h; injection h with h; exact h.symm
  | (k, v) :: t, s', hs, h => by
    unfold dropZero at h
    obtain ⟨z, h1, h⟩ := Res.bind_eq_ok.1 h
    obtain ⟨t', h2, h⟩ := Res.bind_eq_ok.1 h
    injection h with h
    have i := dropZero_std hs.tail h2
    have hz := Rational.eqInt_sound_val hs.head.1.ne' h1
    have : z = false := by
      cases z with
      | false => rfl
      | true =>
        have := hz.1 rfl
        exact absurd ((Rational.val_zero_iff hs.head.1.ne').1 (by simpa using this)) hs.head.2
    rw [this, i] at h
    exact h.symm

/-- what merging keeps: the coefficient in normal form, standard exponents. -/
structure Term.Norm (t : Term) : Prop where
  canon : t.coe.Canon
  syms : t.syms.Std

theorem Term.Std.norm {t : Term} (h : t.Std) : t.Norm := ⟨h.canon, h.syms⟩
theorem Term.Norm.wf {t : Term} (h : t.Norm) : t.WF := ⟨h.canon.valid, h.syms.wf⟩

namespace Term
variable {env : Env} {B : Nat}

theorem equiv_iff {a b : Term} {v : Bool} (ha : a.Norm) (hb : b.Norm) (h : isEquivalentWith env a b = .ok v) :
    v = true ↔ a.group = b.group := by
  unfold isEquivalentWith at h
  obtain ⟨w, h1, h⟩ := Res.bind_eq_ok.1 h
  have e1 := Syms.eq_key ha.syms.wf hb.syms.wf h1
  unfold group
  simp only [toLex_inj, Prod.mk.injEq]
  cases w with
  | true =>
    rw [if_pos rfl] at h
    rw [Canon.equiv_iff ha.canon hb.canon h]
    simp [e1.1 rfl]
  | false =>
    rw [if_neg (by simp)] at h
    injection h with h
    subst h
    have : a.syms.key ≠ b.syms.key := fun e => by simpa using e1.2 e
    simp [this]

theorem merge_group (hg : env.Base B) {a b t : Term} {c : Num.Real} (ha : a.Norm) (hb : b.Norm) (hab : a.group = b.group)
    (h1 : Real.add (env.checked B) a.coe b.coe = .ok c) (h2 : mk' (env.checked B) c a.syms = .ok t) :
    t.Norm ∧ (t.coe.val = 0 ∨ t.group = a.group) := by
  unfold mk' at h2
  obtain ⟨s, h3, h2⟩ := Res.bind_eq_ok.1 h2
  injection h2 with h2
  have e := Syms.dropZero_std ha.syms h3
  subst h2
  subst e
  have hc := Real.add_sound hg ha.canon.valid hb.canon.valid h1
  refine ⟨⟨hc.1, ha.syms⟩, ?_⟩
  by_cases h0 : c.val = 0
  · exact Or.inl h0
  · right
    unfold group at hab ⊢
    simp only [toLex_inj, Prod.mk.injEq] at hab ⊢
    obtain ⟨r1, r2⟩ := Canon.add_root hg ha.canon hb.canon hab.2.1 hab.2.2 h1 h0
    simp [r1, r2]

end Term

namespace Poly
variable {env : Env} {B : Nat}

theorem nonzero_cons_zero {t : Term} {p : Poly} (h : t.coe.val = 0) : nonzero (t :: p) = nonzero p := by
  unfold nonzero; simp [h]
theorem nonzero_cons {t : Term} {p : Poly} (h : t.coe.val ≠ 0) : nonzero (t :: p) = t :: nonzero p := by
  unfold nonzero; simp [h]
theorem mem_nonzero {t : Term} {p : Poly} : t ∈ nonzero p ↔ t ∈ p ∧ t.coe.val ≠ 0 := by
  unfold nonzero; simp

theorem mergeAdj_group (hg : env.Base B) : ∀ {p r : Poly}, (∀ t ∈ p, Term.Norm t) →
    (∀ a rest, p = a :: rest → rest.Pairwise (fun x y => y.group ≤ x.group) ∧ (a.coe.val = 0 ∨ ∀ b ∈ rest, b.group ≤ a.group)) →
    mergeAdj (env.checked B) p = .ok r →
    (∀ t ∈ r, Term.Norm t) ∧ (nonzero r).Pairwise (fun x y => y.group < x.group) ∧
      ∀ X, (∀ t ∈ p, t.coe.val = 0 ∨ t.group ≤ X) → ∀ t ∈ nonzero r, t.group ≤ X
  | [], r, hp, _, h => by
    unfold mergeAdj at h
    injection h with h
    subst h
    simp [nonzero]
  | [t], r, hp, _, h => by
    unfold mergeAdj at h
    injection h with h
    subst h
    refine ⟨hp, ?_, fun X hX u hu => ?_⟩
    · unfold nonzero
      exact List.Pairwise.filter _ (List.pairwise_singleton _ _)
    · obtain ⟨h1, h2⟩ := mem_nonzero.1 hu
      exact (hX u h1).resolve_left h2
  | a :: b :: rest, r, hp, hsrt, h => by
    obtain ⟨hs1, hs2⟩ := hsrt a (b :: rest) rfl
    obtain ⟨hs3, hs4⟩ := List.pairwise_cons.1 hs1
    have ha := hp a (by simp)
    have hb := hp b (by simp)
    have hrest : ∀ t ∈ rest, Term.Norm t := fun t ht => hp t (by simp [ht])
    unfold mergeAdj at h
    obtain ⟨v, h1, h⟩ := Res.bind_eq_ok.1 h
    have hv := Term.equiv_iff ha hb h1
    cases v with
    | true =>
      rw [if_pos rfl] at h
      obtain ⟨c, h2, h⟩ := Res.bind_eq_ok.1 h
      obtain ⟨t, h3, h⟩ := Res.bind_eq_ok.1 h
      have hab := hv.1 rfl
      obtain ⟨m1, m2⟩ := Term.merge_group hg ha hb hab h2 h3
      obtain ⟨i1, i2, i3⟩ := mergeAdj_group hg (p := t :: rest) (r := r)
        (by intro u hu; rcases List.mem_cons.1 hu with rfl | hu
            · exact m1
            · exact hrest u hu)
        (by
          intro a' rest' e
          injection e with e1 e2
          subst e1; subst e2
          exact ⟨hs4, m2.imp id fun e => by rw [e, hab]; exact hs3⟩) h
      refine ⟨i1, i2, fun X hX => i3 X ?_⟩
      intro u hu
      rcases List.mem_cons.1 hu with rfl | hu
      · rcases m2 with m2 | m2
        · exact Or.inl m2
        · by_cases h0 : u.coe.val = 0
          · exact Or.inl h0
          right
          rcases hX a (by simp) with z1 | z1
          · rcases hX b (by simp) with z2 | z2
            · exfalso
              apply h0
              have := (Real.add_sound hg ha.canon.valid hb.canon.valid h2).2
              unfold Term.mk' at h3
              obtain ⟨s, -, h3⟩ := Res.bind_eq_ok.1 h3
              injection h3 with h3
              rw [← h3]
              simp only
              rw [this, z1, z2, add_zero]
            · rw [m2, hab]; exact z2
          · rw [m2]; exact z1
      · exact hX u (by simp [hu])
    | false =>
      rw [if_neg (by simp)] at h
      obtain ⟨r', h2, h⟩ := Res.bind_eq_ok.1 h
      injection h with h
      subst h
      have hne : a.group ≠ b.group := fun e => by simpa using hv.2 e
      obtain ⟨i1, i2, i3⟩ := mergeAdj_group hg (p := b :: rest) (r := r')
        (by intro u hu; rcases List.mem_cons.1 hu with rfl | hu
            · exact hb
            · exact hrest u hu)
        (by
          intro a' rest' e
          injection e with e1 e2
          subst e1; subst e2
          exact ⟨hs4, Or.inr hs3⟩) h2
      refine ⟨?_, ?_, ?_⟩
      · intro u hu
        rcases List.mem_cons.1 hu with rfl | hu
        · exact ha
        · exact i1 u hu
      · by_cases h0 : a.coe.val = 0
        · rw [nonzero_cons_zero h0]; exact i2
        · rw [nonzero_cons h0, List.pairwise_cons]
          refine ⟨fun u hu => ?_, i2⟩
          have hle := hs2.resolve_left h0
          have hlt : b.group < a.group := lt_of_le_of_ne (hle b (by simp)) (Ne.symm hne)
          refine lt_of_le_of_lt (i3 b.group (fun t ht => Or.inr ?_) u hu) hlt
          rcases List.mem_cons.1 ht with rfl | ht
          · exact le_rfl
          · exact hs3 t ht
      · intro X hX u hu
        obtain ⟨u1, u2⟩ := mem_nonzero.1 hu
        rcases List.mem_cons.1 u1 with rfl | u1
        · exact (hX u (by simp)).resolve_left u2
        · exact i3 X (fun t ht => hX t (by simp only [List.mem_cons] at ht ⊢; tauto)) u (mem_nonzero.2 ⟨u1, u2⟩)
termination_by p => p.length

end Poly
end Symxx.Sym
