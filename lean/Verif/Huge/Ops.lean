import Verif.Huge.Conv
/-! The operators of class `Huge`, from the digit-level lemmas. -/
namespace Symxx.Huge
attribute [local irreducible] BASE

theorem Huge.Canonical.wf {h : Huge} (hc : h.Canonical) : h.WF := hc.1

theorem digitsAdd_canon {a b : List Nat} (ha : Canon a) (hb : Canon b) : Canon (digitsAdd a b) := by
  obtain ⟨v, dg, l1, l2⟩ := digitsAdd_spec a b ha.1 hb.1
  apply canon_of_ge dg
  intro hne
  -- the last digit is either the carry 1 or the value dominates the longer operand
  unfold digitsAdd at *
  have key : ∀ x y : List Nat, Canon x → Canon y → y.length ≤ x.length →
      let r := (let (r, carry) := addLoop x y 0; if carry ≠ 0 then r ++ [carry] else r)
      r ≠ [] → dval r = dval x + dval y → BASE ^ (r.length - 1) ≤ dval r := by
    intro x y hx hy hl
    obtain ⟨i1, i2, i3, i4⟩ := addLoop_spec x y 0 hx.1 hy.1 (by omega)
    rcases hab : addLoop x y 0 with ⟨r, k⟩
    rw [hab] at i1 i2 i3 i4
    simp only at i1 i2 i3 i4 ⊢
    by_cases hk : k = 0
    · simp only [hk, ne_eq, not_true_eq_false, if_false]
      intro hr hv
      rw [i3, hv]
      have hx0 : x ≠ [] := by
        rintro rfl; exact hr (List.length_eq_zero_iff.1 i3)
      have := hx.ge hx0
      omega
    · have : k = 1 := by omega
      subst this
      intro _ _
      simp only [ne_eq, one_ne_zero, not_false_eq_true, if_true, List.length_append,
        List.length_singleton, Nat.add_sub_cancel, dval_append, dval_cons, dval_nil]
      omega
  by_cases h : a.length > b.length
  · simp only [h, if_true] at v hne ⊢
    exact key a b ha hb h.le hne v
  · simp only [h, if_false] at v hne ⊢
    exact key b a hb ha (by omega) hne (by rw [v]; omega)

theorem digitsCmp_gt {a b : List Nat} (ha : Canon a) (hb : Canon b) (h0 : digitsCmp a b ≠ 0)
    (h1 : ¬ digitsCmp a b < 0) : dval b < dval a := by
  obtain ⟨c1, c2⟩ := digitsCmp_pos_spec a b ha hb
  rcases Nat.lt_trichotomy (dval a) (dval b) with h | h | h
  · exact absurd (c1.2 h) h1
  · exact absurd (c2.2 h) h0
  · exact h

theorem digitsSub_val {a b : List Nat} (ha : Canon a) (hb : Canon b) (h : dval b < dval a) :
    dval (digitsSub a b) = dval a - dval b ∧ Digits (digitsSub a b) := by
  obtain ⟨x1, x2, _⟩ := digitsSub_spec a b ha.1 hb.1 (hb.length_le_of_dval_le ha.1 h.le) h.le
  exact ⟨x1, x2⟩

theorem digitsSub_nil (a : List Nat) (ha : Digits a) : digitsSub a [] = a := by
  obtain ⟨x1, x2, x3⟩ := digitsSub_spec a [] ha Digits.nil (by simp) (by simp)
  exact dval_inj x2 ha x3 (by simpa using x1)

theorem add_val (a b : Huge) (ha : a.Canonical) (hb : b.Canonical) :
    (add a b).val = a.val + b.val ∧ (add a b).WF := by
  obtain ⟨a, p⟩ := a
  obtain ⟨b, q⟩ := b
  obtain ⟨v, dg, _, _⟩ := digitsAdd_spec a b ha.1 hb.1
  obtain ⟨c1, c2⟩ := digitsCmp_pos_spec a b ha hb
  by_cases hpq : ((q && p) || (!q && !p)) = true
  · have e : add ⟨a, p⟩ ⟨b, q⟩ = ⟨digitsAdd a b, p⟩ := by unfold add; rw [if_pos hpq]
    rw [e]
    refine ⟨?_, dg⟩
    unfold Huge.val
    simp only [v]
    cases p <;> cases q <;> simp at hpq ⊢
    ring
  · have hflag : q = !p := by cases p <;> cases q <;> simp_all
    subst hflag
    by_cases h0 : digitsCmp a b = 0
    · have e : add ⟨a, p⟩ ⟨b, !p⟩ = ⟨[], p⟩ := by unfold add; rw [if_neg hpq]; simp [h0]
      rw [e]
      refine ⟨?_, Digits.nil⟩
      have := c2.1 h0
      unfold Huge.val
      cases p <;> simp [this]
    · by_cases h1 : digitsCmp a b < 0
      · have e : add ⟨a, p⟩ ⟨b, !p⟩ = ⟨digitsSub b a, !p⟩ := by
          unfold add; rw [if_neg hpq]; simp [h0, h1]
        have hlt := c1.1 h1
        obtain ⟨s1, s2⟩ := digitsSub_val hb ha hlt
        rw [e]
        refine ⟨?_, s2⟩
        unfold Huge.val
        simp only [s1, Nat.cast_sub hlt.le]
        cases p <;> simp <;> ring
      · have e : add ⟨a, p⟩ ⟨b, !p⟩ = ⟨digitsSub a b, p⟩ := by
          unfold add; rw [if_neg hpq]; simp [h0, h1]
        have hlt := digitsCmp_gt ha hb h0 h1
        obtain ⟨s1, s2⟩ := digitsSub_val ha hb hlt
        rw [e]
        refine ⟨?_, s2⟩
        unfold Huge.val
        simp only [s1, Nat.cast_sub hlt.le]
        cases p <;> simp <;> ring

/-- with equal sign flags addition is exact whatever the digit vectors. -/
theorem add_same_sign (a b : Huge) (ha : a.WF) (hb : b.WF) (hs : a.isPositive = b.isPositive) :
    (add a b).val = a.val + b.val ∧ (add a b).WF ∧
      (a.Canonical → b.Canonical → (add a b).Canonical) := by
  obtain ⟨a, p⟩ := a
  obtain ⟨b, q⟩ := b
  simp only at hs
  subst hs
  obtain ⟨v, dg, _, _⟩ := digitsAdd_spec a b ha hb
  have e : add ⟨a, p⟩ ⟨b, p⟩ = ⟨digitsAdd a b, p⟩ := by
    unfold add; cases p <;> simp
  rw [e]
  refine ⟨?_, dg, fun h1 h2 => digitsAdd_canon h1 h2⟩
  unfold Huge.val
  simp only [v]
  cases p <;> simp
  ring

theorem val_zero_iff {h : Huge} (hc : h.Canonical) : h.val = 0 ↔ h.digits = [] := by
  unfold Huge.val
  rw [mul_eq_zero]
  constructor
  · rintro (h1 | h1)
    · split at h1 <;> norm_num at h1
    · exact hc.dval_eq_zero.1 (by exact_mod_cast h1)
  · intro h1; right; rw [h1]; rfl

theorem natAbs_val (h : Huge) : h.val.natAbs = dval h.digits := by
  unfold Huge.val; cases h.isPositive <;> simp

/-- the sum of canonical numbers that do not have strictly opposite signs is canonical. -/
theorem add_canonical (a b : Huge) (ha : a.Canonical) (hb : b.Canonical)
    (hs : 0 ≤ a.val * b.val) : (add a b).Canonical := by
  by_cases hflag : a.isPositive = b.isPositive
  · exact (add_same_sign a b ha.wf hb.wf hflag).2.2 ha hb
  · -- one of them is zero
    have hz : a.digits = [] ∨ b.digits = [] := by
      by_contra hcon
      rw [not_or] at hcon
      have h1 := Canon.pos ha hcon.1
      have h2 := Canon.pos hb hcon.2
      have hpos : (0 : Int) < dval a.digits * dval b.digits := by positivity
      have : a.val * b.val = -((dval a.digits : Int) * dval b.digits) := by
        unfold Huge.val
        cases hp : a.isPositive <;> cases hq : b.isPositive <;> simp_all
      omega
    obtain ⟨a, p⟩ := a
    obtain ⟨b, q⟩ := b
    simp only at hz hflag
    have hflag' : q = !p := by cases p <;> cases q <;> simp_all
    subst hflag'
    have hpq : ¬ (((!p) && p || !(!p) && !p) = true) := by cases p <;> simp
    rcases hz with rfl | rfl
    · by_cases hb0 : b = []
      · subst hb0
        have e : add ⟨[], p⟩ ⟨[], !p⟩ = ⟨[], p⟩ := by cases p <;> rfl
        rw [e]; exact Canon.nil
      · have hlt : digitsCmp [] b < 0 :=
          (digitsCmp_pos_spec [] b Canon.nil hb).1.2 (by simpa using Canon.pos hb hb0)
        have e : add ⟨[], p⟩ ⟨b, !p⟩ = ⟨digitsSub b [], !p⟩ := by
          unfold add; rw [if_neg hpq]
          have : digitsCmp [] b ≠ 0 := by omega
          simp [this, hlt]
        rw [e, digitsSub_nil b hb.1]; exact hb
    · by_cases ha0 : a = []
      · subst ha0
        have e : add ⟨[], p⟩ ⟨[], !p⟩ = ⟨[], p⟩ := by cases p <;> rfl
        rw [e]; exact Canon.nil
      · obtain ⟨c1, c2⟩ := digitsCmp_pos_spec a [] ha Canon.nil
        have hpos : 0 < dval a := Canon.pos ha ha0
        have h0 : digitsCmp a [] ≠ 0 := fun h => by have := c2.1 h; simp at this; omega
        have h1 : ¬ digitsCmp a [] < 0 := fun h => by have := c1.1 h; simp at this
        have e : add ⟨a, p⟩ ⟨[], !p⟩ = ⟨digitsSub a [], p⟩ := by
          unfold add; rw [if_neg hpq]; simp [h0, h1]
        rw [e, digitsSub_nil a ha.1]; exact ha

/-- subtraction, with the one case it gets wrong excluded. -/
theorem sub_val (a b : Huge) (ha : a.Canonical) (hb : b.Canonical)
    (hex : a.val + b.val ≠ 0 ∨ a.val = 0) : (sub a b).val = a.val - b.val ∧ (sub a b).WF := by
  have hza := val_zero_iff ha
  have hzb := val_zero_iff hb
  obtain ⟨a, p⟩ := a
  obtain ⟨b, q⟩ := b
  obtain ⟨v, dg, _, _⟩ := digitsAdd_spec a b ha.1 hb.1
  obtain ⟨c1, c2⟩ := digitsCmp_pos_spec a b ha hb
  by_cases h0 : digitsCmp a b = 0
  · have e : sub ⟨a, p⟩ ⟨b, q⟩ = ⟨[], p⟩ := by unfold sub; simp [h0]
    have heq := c2.1 h0
    rw [e]
    refine ⟨?_, Digits.nil⟩
    unfold Huge.val at hex ⊢
    simp only [heq] at hex ⊢
    cases p <;> cases q <;> simp at hex ⊢ <;> simp [hex]
  · by_cases hpq : ((q && !p) || (!q && p)) = true
    · have e : sub ⟨a, p⟩ ⟨b, q⟩ = ⟨digitsAdd a b, p⟩ := by
        unfold sub; simp only [h0, if_false]; rw [if_pos hpq]
      rw [e]
      refine ⟨?_, dg⟩
      unfold Huge.val
      simp only [v]
      cases p <;> cases q <;> simp at hpq ⊢
      ring
    · have hflag : q = p := by cases p <;> cases q <;> simp_all
      subst hflag
      by_cases h1 : digitsCmp a b < 0
      · have e : sub ⟨a, q⟩ ⟨b, q⟩ = ⟨digitsSub b a, !q⟩ := by
          unfold sub; simp only [h0, if_false]; rw [if_neg hpq]; simp [h1]
        have hlt := c1.1 h1
        obtain ⟨s1, s2⟩ := digitsSub_val hb ha hlt
        rw [e]
        refine ⟨?_, s2⟩
        unfold Huge.val
        simp only [s1, Nat.cast_sub hlt.le]
        cases q <;> simp <;> ring
      · have e : sub ⟨a, q⟩ ⟨b, q⟩ = ⟨digitsSub a b, q⟩ := by
          unfold sub; simp only [h0, if_false]; rw [if_neg hpq]; simp [h1]
        have hlt := digitsCmp_gt ha hb h0 h1
        obtain ⟨s1, s2⟩ := digitsSub_val ha hb hlt
        rw [e]
        refine ⟨?_, s2⟩
        unfold Huge.val
        simp only [s1, Nat.cast_sub hlt.le]
        cases q <;> simp <;> ring

/-- opposite numbers: the difference is always computed as zero. -/
theorem sub_opposite (a b : Huge) (ha : a.Canonical) (hb : b.Canonical)
    (h : a.val + b.val = 0) : (sub a b).val = 0 := by
  have hm : dval a.digits = dval b.digits := by
    rw [← natAbs_val a, ← natAbs_val b]; omega
  have h0 := (digitsCmp_pos_spec a.digits b.digits ha hb).2.2 hm
  unfold sub
  simp [h0, Huge.val]

theorem mul_val (a b : Huge) (ha : a.WF) (hb : b.WF) :
    (∃ r, mul a b = .ok r ∧ r.val = a.val * b.val ∧ r.Canonical) ∨ ∃ m, mul a b = .ub m := by
  obtain ⟨a, p⟩ := a
  obtain ⟨b, q⟩ := b
  rcases digitsMulF_spec _ a b ha hb (Nat.lt_succ_self _) with ⟨r, h1, h2, h3, _⟩ | ⟨m, hm⟩
  · left
    refine ⟨⟨r, sameSign ⟨a, p⟩ ⟨b, q⟩⟩, ?_, ?_, h3⟩
    · unfold mul digitsMul; rw [show (Nat.succ _) = a.length + b.length + 1 from rfl] at h1
      simp only [h1, Res.bind_ok]
    · unfold Huge.val sameSign
      simp only [h2]
      cases p <;> cases q <;> simp
  · right
    refine ⟨m, ?_⟩
    unfold mul digitsMul
    rw [show (Nat.succ _) = a.length + b.length + 1 from rfl] at hm
    simp only [hm, Res.bind_ub]

/-- schoolbook range: always defined. -/
theorem mul_defined (a b : Huge) (ha : a.Canonical) (hb : b.Canonical)
    (hlen : min a.digits.length b.digits.length ≤ 70) : ∃ r, mul a b = .ok r := by
  obtain ⟨a, p⟩ := a
  obtain ⟨b, q⟩ := b
  simp only at hlen
  suffices ∃ r, digitsMul a b = .ok r by
    obtain ⟨r, hr⟩ := this
    exact ⟨_, by unfold mul; simp only [hr, Res.bind_ok]; rfl⟩
  unfold digitsMul digitsMulF
  by_cases he : (a.isEmpty || b.isEmpty) = true
  · rw [if_pos he]; exact ⟨_, rfl⟩
  · rw [if_neg he]
    have hne : a ≠ [] ∧ b ≠ [] := by
      simpa [not_or] using he
    have h1 := Canon.pos ha hne.1
    have h2 := Canon.pos hb hne.2
    have hcut : 70 ≤ (if (digitsCmp a b == 0) = true then 140 else 70) := by split <;> omega
    by_cases hl : a.length < b.length
    · simp only [hl, if_true]
      rw [if_pos (by omega)]
      exact (simpleMul_spec a b ha.1 hb.1).2.1 (Nat.mul_pos h1 h2).ne'
    · simp only [hl, if_false]
      rw [if_pos (by omega)]
      exact (simpleMul_spec b a hb.1 ha.1).2.1 (Nat.mul_pos h2 h1).ne'

/-- the sign of a truncated quotient. -/
theorem tdiv_val (a b : Nat) (p q : Bool) (s : Bool) (hs : s = ((q && p) || (!q && !p))) :
    (if s = true then (1 : Int) else -1) * ((a / b : Nat) : Int) =
      Int.tdiv ((if p = true then 1 else -1) * (a : Int)) ((if q = true then 1 else -1) * (b : Int)) := by
  subst hs
  have h : ((a / b : Nat) : Int) = Int.tdiv (a : Int) (b : Int) := rfl
  rw [h]
  cases p <;> cases q <;> simp [Int.neg_tdiv, Int.tdiv_neg]

theorem tmod_val (a b : Nat) (p q : Bool) :
    (if p = true then (1 : Int) else -1) * ((a % b : Nat) : Int) =
      Int.tmod ((if p = true then 1 else -1) * (a : Int)) ((if q = true then 1 else -1) * (b : Int)) := by
  have h : ((a % b : Nat) : Int) = Int.tmod (a : Int) (b : Int) := rfl
  rw [h]
  cases p <;> cases q <;> simp [Int.neg_tmod, Int.tmod_neg]

theorem div_val (a b : Huge) (ha : a.Canonical) (hb : b.Canonical) (hb0 : b.val ≠ 0) :
    (¬ ExactLong a.digits b.digits → ∃ r, div a b = .ok r ∧ r.val = Int.tdiv a.val b.val ∧ r.WF) ∧
    (ExactLong a.digits b.digits → ∃ m, div a b = .ub m) := by
  have hne : b.digits ≠ [] := fun h => hb0 ((val_zero_iff hb).2 h)
  obtain ⟨k1, k2⟩ := digitsDivrem_spec a.digits b.digits ha hb hne
  have hemp : (!b.digits.isEmpty) = true := by simpa using hne
  unfold div
  rw [hemp, Res.assert_true]
  simp only [Res.bind_ok]
  refine ⟨fun hx => ?_, fun hx => ?_⟩
  · obtain ⟨q, r, j1, j2, j3, j4, j5, _⟩ := k1 hx
    refine ⟨⟨q, sameSign a b⟩, by simp [j1], ?_, j4⟩
    unfold Huge.val
    simp only [j2]
    exact tdiv_val _ _ _ _ _ rfl
  · obtain ⟨m, hm⟩ := k2 hx
    exact ⟨m, by simp [hm]⟩

theorem mod_val (a b : Huge) (ha : a.Canonical) (hb : b.Canonical) (hb0 : b.val ≠ 0) :
    (¬ ExactLong a.digits b.digits →
      ∃ r, mod a b = .ok r ∧ r.val = Int.tmod a.val b.val ∧ r.Canonical) ∧
    (ExactLong a.digits b.digits → ∃ m, mod a b = .ub m) := by
  have hne : b.digits ≠ [] := fun h => hb0 ((val_zero_iff hb).2 h)
  obtain ⟨k1, k2⟩ := digitsRem_spec a.digits b.digits ha hb hne
  have hemp : (!b.digits.isEmpty) = true := by simpa using hne
  unfold mod
  rw [hemp, Res.assert_true]
  simp only [Res.bind_ok]
  refine ⟨fun hx => ?_, fun hx => ?_⟩
  · obtain ⟨r, j1, j2, j3⟩ := k1 hx
    refine ⟨⟨r, a.isPositive⟩, by simp [j1], ?_, j3⟩
    unfold Huge.val
    simp only [j2]
    exact tmod_val _ _ _ _
  · obtain ⟨m, hm⟩ := k2 hx
    exact ⟨m, by simp [hm]⟩

theorem divrem_val (a b : Huge) (ha : a.Canonical) (hb : b.Canonical) (hb0 : b.val ≠ 0) :
    (¬ ExactLong a.digits b.digits → ∃ q r, divrem a b = .ok (q, r) ∧
      q.val = Int.tdiv a.val b.val ∧ r.val = |Int.tmod a.val b.val|) ∧
    (ExactLong a.digits b.digits → ∃ m, divrem a b = .ub m) := by
  have hne : b.digits ≠ [] := fun h => hb0 ((val_zero_iff hb).2 h)
  obtain ⟨k1, k2⟩ := digitsDivrem_spec a.digits b.digits ha hb hne
  have hemp : (!b.digits.isEmpty) = true := by simpa using hne
  unfold divrem
  rw [hemp, Res.assert_true]
  simp only [Res.bind_ok]
  refine ⟨fun hx => ?_, fun hx => ?_⟩
  · obtain ⟨q, r, j1, j2, j3, j4, j5, _⟩ := k1 hx
    refine ⟨⟨q, sameSign a b⟩, ⟨r, true⟩, by simp [j1], ?_, ?_⟩
    · unfold Huge.val
      simp only [j2]
      exact tdiv_val _ _ _ _ _ rfl
    · have h1 : Int.tmod a.val b.val = (if a.isPositive = true then (1 : Int) else -1) *
          ((dval a.digits % dval b.digits : Nat) : Int) := by
        unfold Huge.val; rw [tmod_val _ _ _ b.isPositive]
      rw [h1]
      unfold Huge.val
      simp only [j3, if_true, one_mul]
      have hnn := Int.natCast_nonneg (dval a.digits % dval b.digits)
      generalize ((dval a.digits % dval b.digits : Nat) : Int) = z at hnn ⊢
      cases a.isPositive
      · simp [abs_of_nonneg hnn]
      · simp [abs_of_nonneg hnn]
  · obtain ⟨m, hm⟩ := k2 hx
    exact ⟨m, by simp [hm]⟩

/-! ### comparison -/

theorem cmp_spec (a b : Huge) (ha : a.Canonical) (hb : b.Canonical) :
    (cmp a b < 0 ↔ a.val < b.val) ∧ (cmp a b = 0 ↔ a.val = b.val) := by
  obtain ⟨a, p⟩ := a
  obtain ⟨b, q⟩ := b
  have ha' : Canon a := ha
  have hb' : Canon b := hb
  have la : a = [] ∨ 0 < dval a := by
    by_cases h : a = []
    · exact Or.inl h
    · exact Or.inr (ha'.pos h)
  have lb : b = [] ∨ 0 < dval b := by
    by_cases h : b = []
    · exact Or.inl h
    · exact Or.inr (hb'.pos h)
  have lena : a ≠ [] → 0 < a.length := fun h => List.length_pos_iff.2 h
  have lenb : b ≠ [] → 0 < b.length := fun h => List.length_pos_iff.2 h
  have hpp := digitsCmp_pos_spec a b ha' hb'
  unfold cmp Huge.val
  simp only
  cases p <;> cases q
  · -- both negative
    have : digitsCmp a b false false = - digitsCmp a b := by
      unfold digitsCmp
      simp only [Bool.false_eq_true, if_false, if_true, one_mul]
      by_cases h : (a.length : Int) - b.length = 0
      · have h' : -1 * (a.length : Int) - -1 * b.length = 0 := by omega
        simp only [h, h', if_true]
      · have h' : ¬ (-1 * (a.length : Int) - -1 * b.length = 0) := by omega
        simp only [h, h', if_false]; ring
    rw [this]
    have hba := digitsCmp_gt ha' hb'
    constructor
    · constructor
      · intro h
        have := hba (by omega) (by omega)
        simp; omega
      · intro h
        have h1 : dval b < dval a := by simp at h; omega
        by_contra hcon
        have h2 : digitsCmp a b ≤ 0 := by omega
        rcases lt_or_eq_of_le h2 with h3 | h3
        · have := hpp.1.1 h3; omega
        · have := hpp.2.1 h3; omega
    · constructor
      · intro h; have := hpp.2.1 (by omega); simp [this]
      · intro h
        have h1 : dval a = dval b := by simp at h; omega
        have := hpp.2.2 h1; omega
  · -- a negative, b positive
    unfold digitsCmp
    simp only [Bool.false_eq_true, if_false, if_true, one_mul]
    rcases la with rfl | h1 <;> rcases lb with rfl | h2
    · simp [cmpDiff]
    · have h3 := lenb (by rintro rfl; simp at h2)
      rw [if_neg (by simp only [List.length_nil]; omega)]
      simp only [dval_nil, List.length_nil]; omega
    · have h3 := lena (by rintro rfl; simp at h1)
      rw [if_neg (by simp only [List.length_nil]; omega)]
      simp only [dval_nil, List.length_nil]; omega
    · have h3 := lena (by rintro rfl; simp at h1)
      have h4 := lenb (by rintro rfl; simp at h2)
      have hn : ¬ (-1 * (a.length : Int) - b.length = 0) := by omega
      rw [if_neg hn]
      omega
  · unfold digitsCmp
    simp only [Bool.false_eq_true, if_false, if_true, one_mul]
    rcases la with rfl | h1 <;> rcases lb with rfl | h2
    · simp [cmpDiff]
    · have h3 := lenb (by rintro rfl; simp at h2)
      rw [if_neg (by simp only [List.length_nil]; omega)]
      simp only [dval_nil, List.length_nil]; omega
    · have h3 := lena (by rintro rfl; simp at h1)
      rw [if_neg (by simp only [List.length_nil]; omega)]
      simp only [dval_nil, List.length_nil]; omega
    · have h3 := lena (by rintro rfl; simp at h1)
      have h4 := lenb (by rintro rfl; simp at h2)
      have hn : ¬ ((a.length : Int) - -1 * b.length = 0) := by omega
      rw [if_neg hn]
      omega
  · simp only [if_true, one_mul, Nat.cast_lt, Nat.cast_inj]
    exact hpp

theorem gcd_val (a b : Huge) (ha : a.Canonical) (hb : b.Canonical) :
    (¬ GcdBad a.digits b.digits →
      ∃ r, gcd a b = .ok r ∧ r.val = Int.gcd a.val b.val ∧ r.Canonical) ∧
    (GcdBad a.digits b.digits → ∃ m, gcd a b = .ub m) := by
  obtain ⟨k1, k2⟩ := digitsGcd_spec a.digits b.digits ha hb
  unfold gcd
  refine ⟨fun hx => ?_, fun hx => ?_⟩
  · obtain ⟨r, j1, j2, j3⟩ := k1 hx
    refine ⟨⟨r, true⟩, by simp [j1], ?_, j3⟩
    rw [Int.gcd, natAbs_val, natAbs_val]
    simp only [Huge.val, j2, if_true, one_mul]
  · obtain ⟨m, hm⟩ := k2 hx
    exact ⟨m, by simp [hm]⟩

end Symxx.Huge
