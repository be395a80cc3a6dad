import Verif.Huge.Ops
import Verif.Huge.MulSpec
/-! Exactly when the product of two digit vectors is defined. -/
namespace Symxx.Huge
attribute [local irreducible] BASE

theorem digitsAdd_length (c d : List Nat) (hc : Digits c) (hd : Digits d) :
    (digitsAdd c d).length = sumWidth c.length (dval c) d.length (dval d) := by
  have key : ∀ a b : List Nat, Digits a → Digits b → b.length ≤ a.length →
      (let (r, carry) := addLoop a b 0; if carry ≠ 0 then r ++ [carry] else r).length
        = if dval a + dval b < BASE ^ a.length then a.length else a.length + 1 := by
    intro a b ha hb hl
    obtain ⟨i1, i2, i3, i4⟩ := addLoop_spec a b 0 ha hb (by omega)
    rw [List.take_of_length_le hl] at i1
    rcases hab : addLoop a b 0 with ⟨r, k⟩
    rw [hab] at i1 i2 i3 i4
    simp only at i1 i2 i3 i4 ⊢
    have hr := dval_lt i2
    rw [i3] at hr
    by_cases hk : k = 0
    · subst hk
      rw [if_neg (by simp), if_pos (by omega)]
      exact i3
    · have : k = 1 := by omega
      subst this
      rw [if_pos (by simp), if_neg (by omega)]
      simp [i3]
  unfold digitsAdd sumWidth
  rw [pow_mul, BASE_pow]
  by_cases h : c.length > d.length
  · have := key c d hc hd h.le
    simp only [h, if_true] at this ⊢
    rw [this, max_eq_left h.le]
  · have := key d c hd hc (by omega)
    simp only [h, if_false] at this ⊢
    rw [this, max_eq_right (by omega), Nat.add_comm (dval c)]

theorem ProductDefined.comm (k m x n y : ℕ) : ProductDefined k m x n y ↔ ProductDefined k n y m x := by
  induction k generalizing m x n y with
  | zero => exact Iff.rfl
  | succ k ih =>
    unfold ProductDefined
    simp only
    rw [ih (m - _), ih (min m _), ih (sumWidth _ _ _ _)]
    rw [min_comm m n, max_comm m n]
    have e : (m = n ∧ x = y) = (n = m ∧ y = x) := by rw [eq_comm (a := m), eq_comm (a := x)]
    simp only [e]
    constructor <;> intro h <;> tauto

theorem digitsMulF_defined (fuel : Nat) (c d : List Nat) (hc : Digits c) (hd : Digits d)
    (hf : c.length + d.length < fuel) :
    (∃ r, digitsMulF fuel c d = .ok r) ↔ ProductDefined fuel c.length (dval c) d.length (dval d) := by
  induction fuel generalizing c d with
  | zero => omega
  | succ fuel ih =>
    have swap : ProductDefined (fuel + 1) c.length (dval c) d.length (dval d) ↔
        ProductDefined (fuel + 1) (if c.length < d.length then (c, d) else (d, c)).1.length
          (dval (if c.length < d.length then (c, d) else (d, c)).1)
          (if c.length < d.length then (c, d) else (d, c)).2.length
          (dval (if c.length < d.length then (c, d) else (d, c)).2) := by
      split
      · exact Iff.rfl
      · exact ProductDefined.comm _ _ _ _ _
    rw [swap]
    unfold digitsMulF ProductDefined
    by_cases hemp : (c.isEmpty || d.isEmpty) = true
    · rw [if_pos hemp]
      refine ⟨fun _ => ?_, fun _ => ⟨_, rfl⟩⟩
      rw [Bool.or_eq_true, List.isEmpty_iff, List.isEmpty_iff] at hemp
      rcases hemp with h | h <;> split <;> simp [h]
    · rw [if_neg hemp]
      have hcd : ∃ a b, (if c.length < d.length then (c, d) else (d, c)) = (a, b) ∧ Digits a ∧
          Digits b ∧ dval a * dval b = dval c * dval d ∧ a.length + b.length = c.length + d.length ∧
          a.length ≤ b.length ∧ (c = d ↔ a = b) ∧ a.length ≠ 0 ∧ b.length ≠ 0 := by
        have hne : c ≠ [] ∧ d ≠ [] := by simpa [not_or] using hemp
        rw [← List.length_pos_iff, ← List.length_pos_iff] at hne
        by_cases h : c.length < d.length
        · exact ⟨c, d, by simp [h], hc, hd, rfl, rfl, by omega, Iff.rfl, by omega, by omega⟩
        · exact ⟨d, c, by simp [h], hd, hc, Nat.mul_comm _ _, Nat.add_comm _ _, by omega, eq_comm, by omega, by omega⟩
      obtain ⟨a, b, hab, ha, hb, hv, hlen, hle, hcdab, ha0, hb0⟩ := hcd
      rw [hab]
      simp only
      have heqab : (digitsCmp c d == 0) = decide (a = b) := by
        rw [Bool.eq_iff_iff, beq_iff_eq, decide_eq_true_iff, ← hcdab]
        refine ⟨digitsCmp_zero_eq hc hd, ?_⟩
        rintro rfl
        unfold digitsCmp
        simp [(cmpDiff_spec c c hc hc rfl).2.2 rfl]
      have hcut : (if (digitsCmp c d == 0) = true then 140 else 70)
          = (if a.length = b.length ∧ dval a = dval b then 140 else 70) := by
        rw [heqab]
        have : (a.length = b.length ∧ dval a = dval b) ↔ a = b :=
          ⟨fun h => dval_inj ha hb h.1 h.2, by rintro rfl; exact ⟨rfl, rfl⟩⟩
        simp only [decide_eq_true_eq, this]
      rw [hcut, min_eq_left hle, max_eq_right hle]
      set cut := (if a.length = b.length ∧ dval a = dval b then 140 else 70) with hcutd
      have hcut70 : 70 ≤ cut := by rw [hcutd]; split <;> omega
      simp only [ha0, hb0, false_or]
      by_cases hsm : a.length ≤ cut
      · rw [if_pos hsm]
        simp only [hsm, true_or, and_true]
        obtain ⟨s1, s2, s3⟩ := simpleMul_spec a b ha hb
        constructor
        · rintro ⟨r, hr⟩
          by_contra h
          have h0 : dval a * dval b = 0 := by
            rw [Nat.mul_eq_zero]; tauto
          obtain ⟨m, hm⟩ := s3 h0
          rw [hm] at hr; cases hr
        · rintro ⟨h1, h2⟩
          exact s2 (Nat.mul_ne_zero h1 h2)
      · rw [if_neg hsm]
        simp only [hsm, false_or]
        set eq := (digitsCmp c d == 0) with heq
        set s := b.length >>> 1 with hs
        have hs' : s = b.length / 2 := by rw [hs, Nat.shiftRight_eq_div_pow]
        rw [← hs']
        obtain ⟨ka1, ka2, ka3, ka4, ka5⟩ := kMulSplit_spec a s ha
        obtain ⟨kb1, kb2, kb3, kb4, kb5⟩ := kMulSplit_spec b s hb
        have hbsplit : (if eq then ((kMulSplit a s).1, (kMulSplit a s).2) else kMulSplit b s)
            = kMulSplit b s := by
          by_cases he : eq = true
          · rw [if_pos he]
            rw [heqab, decide_eq_true_iff] at he
            rw [he]
          · rw [if_neg he]
        rcases hA : kMulSplit a s with ⟨ah, al⟩
        rcases hBs : kMulSplit b s with ⟨bh, bl⟩
        rw [hA] at ka1 ka2 ka3 ka4 ka5 hbsplit
        rw [hBs] at kb1 kb2 kb3 kb4 kb5 hbsplit
        simp only at ka1 ka2 ka3 ka4 ka5 kb1 kb2 kb3 kb4 kb5 hbsplit
        simp only [hbsplit]
        obtain ⟨pa1, pa2, pa3, _⟩ := digitsAdd_spec ah al ka2 ka3
        obtain ⟨pb1, pb2, pb3, _⟩ := digitsAdd_spec bh bl kb2 kb3
        have ht2 : (if eq then digitsAdd ah al else digitsAdd bh bl) = digitsAdd bh bl := by
          by_cases he : eq = true
          · rw [if_pos he]
            rw [heqab, decide_eq_true_iff] at he
            subst he
            rw [hA] at hBs
            injection hBs with h1 h2
            rw [h1, h2]
          · rw [if_neg he]
        simp only [ht2]
        have split : ∀ v h l : ℕ, v = l + BASE ^ s * h → l < BASE ^ s → v / 2 ^ (30 * s) = h ∧ v % 2 ^ (30 * s) = l := by
          rintro v h l rfl hlt
          rw [pow_mul, BASE_pow]
          have : 0 < BASE ^ s := Nat.pow_pos BASE_pos
          rw [Nat.add_mul_div_left _ _ this, Nat.div_eq_of_lt hlt, Nat.zero_add, Nat.add_mul_mod_self_left,
            Nat.mod_eq_of_lt hlt]
          exact ⟨rfl, rfl⟩
        have low : ∀ l : List Nat, Digits l → l.length ≤ s → dval l < BASE ^ s := fun l h1 h2 =>
          lt_of_lt_of_le (dval_lt h1) (Nat.pow_le_pow_right BASE_pos h2)
        obtain ⟨va1, va2⟩ := split _ _ _ ka1 (low al ka3 (by omega))
        obtain ⟨vb1, vb2⟩ := split _ _ _ kb1 (low bl kb3 (by omega))
        rw [va1, va2, vb1, vb2, ← ka4, ← ka5, ← kb4, ← kb5, ← digitsAdd_length _ _ ka2 ka3, ← digitsAdd_length _ _ kb2 kb3,
          ← pa1, ← pb1, ← ih ah bh ka2 kb2 (by omega), ← ih al bl ka3 kb3 (by omega), ← ih _ _ pa2 pb2 (by omega)]
        have noub : ∀ {m : String} {α : Type} {P : Prop}, ((∃ r : List Nat, (.ub m : Res (List Nat)) = .ok r) → P) := by
          rintro m α P ⟨r, hr⟩; cases hr
        rcases digitsMulF_spec fuel ah bh ka2 kb2 (by omega) with ⟨t1, q1, q2, q3, q4⟩ | ⟨m, hm⟩
        swap
        · rw [hm]
          constructor
          · rintro ⟨r, hr⟩; cases hr
          · rintro ⟨-, -, ⟨r, hr⟩, -⟩; cases hr
        rw [q1]
        simp only [Res.bind_ok]
        have q4' : t1 = [] ∨ t1.length ≤ a.length + b.length - 2 * s := by
          by_cases hah : s ≤ a.length
          · right; omega
          · left
            have : dval ah = 0 := by
              have : ah = [] := List.length_eq_zero_iff.1 (by omega)
              simp [this]
            rw [this, Nat.zero_mul] at q2
            exact q3.dval_eq_zero.1 q2
        obtain ⟨r0, hr0⟩ := copyAt_exists (pos := s * 2)
          (ret := List.replicate (a.length + b.length) 0) (t := t1)
          (by rcases q4' with h | h
              · simp [h]; omega
              · simp; omega)
        rw [hr0]
        simp only [Res.bind_ok]
        rcases digitsMulF_spec fuel al bl ka3 kb3 (by omega) with ⟨t2, w1, w2, w3, w4⟩ | ⟨m, hm⟩
        swap
        · rw [hm]
          constructor
          · rintro ⟨r, hr⟩; cases hr
          · rintro ⟨-, -, -, ⟨r, hr⟩, -⟩; cases hr
        rw [w1]
        simp only [Res.bind_ok]
        have hr0len : r0.length = a.length + b.length := by
          obtain ⟨e, l⟩ := copyAt_ok hr0
          rw [e]; simp at l ⊢; omega
        obtain ⟨r1, hr1⟩ := copyAt_exists (pos := 0) (ret := r0) (t := t2) (by omega)
        rw [hr1]
        simp only [Res.bind_ok]
        rcases digitsMulF_spec fuel (digitsAdd ah al) (digitsAdd bh bl) pa2 pb2 (by omega) with
          ⟨t3, u1, u2, u3, u4⟩ | ⟨m, hm⟩
        swap
        · rw [hm]
          constructor
          · rintro ⟨r, hr⟩; cases hr
          · rintro ⟨-, -, -, -, ⟨r, hr⟩⟩; cases hr
        rw [u1]
        simp only [Res.bind_ok]
        obtain ⟨f1, f2, f3⟩ := karatsuba_core (N := a.length + b.length) (s := s)
          (AH := dval ah) (AL := dval al) (BH := dval bh) (BL := dval bl)
          q2 w2 (by rw [u2, pa1, pb1]) q3.1 w3.1 u3.1 rfl (by omega) hr0 hr1 (by omega) rfl
          (by
            rw [← ka1, ← kb1, pow_add]
            exact Nat.mul_lt_mul'' (dval_lt ha) (dval_lt hb))
        rw [← ka1, ← kb1] at f3
        constructor
        · rintro ⟨r, hr⟩
          obtain ⟨g1, g2, g3, g4⟩ := trimBack_ok f1 hr
          have h0 : dval a * dval b ≠ 0 := by
            rw [← f3, ← g1]
            exact fun h => g3 (g2.dval_eq_zero.1 h)
          exact ⟨left_ne_zero_of_mul h0, right_ne_zero_of_mul h0, ⟨_, rfl⟩, ⟨_, rfl⟩, ⟨_, rfl⟩⟩
        · rintro ⟨h1, h2, -⟩
          exact trimBack_exists (by rw [f3]; exact Nat.mul_ne_zero h1 h2)

end Symxx.Huge
