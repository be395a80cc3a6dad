import Verif.Huge.Str
/-! Conversions between `Huge` and native integers. -/
namespace Symxx.Huge
attribute [local irreducible] BASE

theorem toIntLoop_spec (bits : Nat) (hb : 30 ≤ bits) (ds : List Nat) (hd : Digits ds) :
    toIntLoop bits ds = dval ds % 2 ^ bits := by
  induction ds with
  | nil => simp [toIntLoop]
  | cons d ds ih =>
    rw [Digits.cons] at hd
    have hd1 := hd.1
    rw [toIntLoop, ih hd.2, shl_eq]
    obtain ⟨k, rfl⟩ : ∃ k, bits = 30 + k := ⟨bits - 30, by omega⟩
    have e1 : (dval ds % 2 ^ (30 + k) * 2 ^ SHIFT) % 2 ^ (30 + k) = (dval ds % 2 ^ k) * 2 ^ 30 := by
      have hS : SHIFT = 30 := rfl
      rw [hS, Nat.mod_mul_mod, pow_add, Nat.mul_comm (2 ^ 30) (2 ^ k), Nat.mul_mod_mul_right]
    rw [e1, ← shl_eq, shl_or 30 (by rw [BASE_pow]; exact hd1), dval_cons, ← BASE_pow]
    have h2 := Nat.mod_add_div (dval ds) (2 ^ k)
    have e2 : d + 2 ^ 30 * dval ds = (dval ds % 2 ^ k * 2 ^ 30 + d) + 2 ^ (30 + k) * (dval ds / 2 ^ k) := by
      conv_lhs => rw [← h2]
      rw [pow_add]; ring
    rw [e2, Nat.add_mul_mod_self_left]

/-- native types at least as wide as `int`. -/
def IntTy.Wide (t : IntTy) : Prop := 32 ≤ t.bits

theorem IntTy.has_natAbs {t : IntTy} (ht : t.Wide) {v : Int} (h : t.has v) : v.natAbs < 2 ^ t.bits := by
  unfold IntTy.has IntTy.min IntTy.max at h
  have hp : (2 : Int) ^ (t.bits - 1) ≤ 2 ^ t.bits := by
    apply pow_le_pow_right₀ (by norm_num); omega
  have hpos : (0 : Int) < 2 ^ (t.bits - 1) := by positivity
  by_cases hs : t.signed = true
  · simp only [hs, if_true] at h
    have h1 : (v.natAbs : Int) < 2 ^ t.bits := by
      unfold IntTy.Wide at ht
      have : (2 : Int) ^ t.bits = 2 ^ (t.bits - 1) * 2 := by rw [← pow_succ]; congr 1; omega
      omega
    exact_mod_cast h1
  · simp only [hs] at h
    have h1 : (v.natAbs : Int) < 2 ^ t.bits := by
      simp at h; omega
    exact_mod_cast h1

theorem ofInt_spec (t : IntTy) (ht : t.Wide) (v : Int) (hv : t.has v) (hmin : t.signed = true → v ≠ t.min) :
    ∃ h, ofInt t v = .ok h ∧ h.val = v ∧ h.Canonical := by
  have h1 := IntTy.has_natAbs ht hv
  have h2 : v.natAbs < 2 ^ (30 * t.bits) :=
    lt_of_lt_of_le h1 (Nat.pow_le_pow_right (by norm_num) (by omega))
  obtain ⟨p1, p2⟩ := pushDigits_spec t.bits v.natAbs h2
  have hc : (t.signed && decide (v = t.min)) = false := by
    cases hs : t.signed
    · simp
    · simp [hmin hs]
  refine ⟨⟨pushDigits t.bits v.natAbs, decide (v ≥ 0)⟩, by unfold ofInt; rw [hc]; rfl, ?_, p2⟩
  unfold Huge.val
  simp only [p1]
  by_cases h0 : v ≥ 0
  · simp [h0]
  · simp only [h0, decide_false, Bool.false_eq_true, if_false]; omega

theorem toInt_spec (t : IntTy) (ht : t.Wide) (h : Huge) (hc : h.Canonical) (hv : t.has h.val)
    (hmin : t.signed = true → h.val ≠ t.min) : toInt t h = .ok h.val := by
  have hB := BASE_eq
  unfold toInt
  by_cases he : h.digits = []
  · simp [he, Huge.val]
  have he' : ¬ (h.digits.isEmpty = true) := by simpa using he
  rw [if_neg he']
  have hpos := Canon.pos hc he
  have habs : h.val.natAbs = dval h.digits := by
    unfold Huge.val; cases h.isPositive <;> simp
  have hlt := IntTy.has_natAbs ht hv
  rw [habs] at hlt
  -- bound for signed types
  have hlts : t.signed = true → dval h.digits < 2 ^ (t.bits - 1) := by
    intro hs
    have h1 := hv; have h2 := hmin hs
    unfold IntTy.has IntTy.min IntTy.max at h1
    unfold IntTy.min at h2
    simp only [hs, if_true] at h1 h2
    have : (dval h.digits : Int) < 2 ^ (t.bits - 1) := by
      rw [← habs]
      omega
    exact_mod_cast this
  unfold IntTy.Wide at ht
  have hsg : (h.isPositive || t.signed) = true := by
    by_contra hcon
    simp only [Bool.not_eq_true, Bool.or_eq_false_iff] at hcon
    have h1 := hv.1
    unfold IntTy.min Huge.val at h1
    simp [hcon.1, hcon.2] at h1
    omega
  rw [hsg, Res.assert_true, Res.bind_ok]
  have hval : h.val = (dval h.digits : Int) * (if h.isPositive = true then 1 else -1) := by
    unfold Huge.val; ring
  -- the big branch
  have big : toInt.toIntBig t h (if h.isPositive = true then 1 else -1) = .ok h.val := by
    unfold toInt.toIntBig
    have hlen : (h.digits.length - 1) * SHIFT ≤ t.bits := by
      have h1 := Canon.ge hc he
      rw [← BASE_pow, ← pow_mul] at h1
      have h2 : 2 ^ (30 * (h.digits.length - 1)) < 2 ^ t.bits := lt_of_le_of_lt h1 hlt
      have := (Nat.pow_lt_pow_iff_right (by norm_num)).1 h2
      have hS : SHIFT = 30 := rfl
      rw [hS]; omega
    simp only [hlen, decide_true, Res.assert_true, Res.bind_ok]
    rw [toIntLoop_spec t.bits (by omega) h.digits hc.1, Nat.mod_eq_of_lt hlt]
    have hrepr : t.ofRepr (dval h.digits) = (dval h.digits : Int) := by
      unfold IntTy.ofRepr
      have : (t.signed && decide (2 ^ (t.bits - 1) ≤ dval h.digits)) = false := by
        cases hs : t.signed
        · simp
        · have := hlts hs
          simp; exact this
      rw [this]; rfl
    rw [hrepr, ← hval]
    simp [hv]
  rcases hd : h.digits with _ | ⟨d, _ | ⟨e, l⟩⟩
  · exact absurd hd he
  · simp only
    split
    · rw [hval, hd]; simp
    · exact big
  · exact big

/-- beyond `2^(bits+30)` the conversion is always refused. -/
theorem toInt_too_big (t : IntTy) (h : Huge) (hw : h.WF)
    (hbig : 2 ^ (t.bits + 30) ≤ dval h.digits) : ∃ m, toInt t h = .throw m := by
  have hB := BASE_eq
  have hne : h.digits ≠ [] := by
    intro h0; rw [h0] at hbig; simp at hbig
  have he' : ¬ (h.digits.isEmpty = true) := by simpa using hne
  have hlen : ¬ ((h.digits.length - 1) * SHIFT ≤ t.bits) := by
    have h1 := dval_lt hw
    rw [← BASE_pow, ← pow_mul] at h1
    have h2 : 2 ^ (t.bits + 30) < 2 ^ (30 * h.digits.length) := lt_of_le_of_lt hbig h1
    have := (Nat.pow_lt_pow_iff_right (by norm_num)).1 h2
    have hS : SHIFT = 30 := rfl
    rw [hS]; omega
  have hbigb : ∀ s, toInt.toIntBig t h s = .throw "The Huge is too big." := by
    intro s; unfold toInt.toIntBig; simp only [hlen, decide_false, Res.assert_false]; rfl
  unfold toInt
  rw [if_neg he']
  cases hs : (h.isPositive || t.signed)
  · exact ⟨_, rfl⟩
  · refine ⟨"The Huge is too big.", ?_⟩
    rw [Res.assert_true, Res.bind_ok]
    rcases hd : h.digits with _ | ⟨d, _ | ⟨e, l⟩⟩
    · exact absurd hd hne
    · rw [hd] at hlen; simp at hlen
    · exact hbigb _

end Symxx.Huge
