import Verif.Huge.Basic
import Mathlib.Data.Int.ModEq
import Mathlib.Tactic.LinearCombination
/-! Multiplication: schoolbook rows, Karatsuba recursion. -/
namespace Symxx.Huge
attribute [local irreducible] BASE

theorem mulRow_spec (ai : Nat) (rs bs zs : List Nat) (c : Nat) (hlen : rs.length = bs.length)
    (hr : Digits rs) (hb : Digits bs) (ha : ai < BASE) (hc : c < BASE) :
    ∃ rs', mulRow ai (rs ++ 0 :: zs) bs c = .ok (rs' ++ zs) ∧ rs'.length = bs.length + 1 ∧
      Digits rs' ∧ dval rs' = dval rs + ai * dval bs + c := by
  induction bs generalizing rs c with
  | nil =>
    have : rs = [] := List.length_eq_zero_iff.1 (by simpa using hlen)
    subst this
    refine ⟨[c], ?_, rfl, Digits.cons.2 ⟨hc, Digits.nil⟩, by simp⟩
    by_cases h0 : c = 0
    · simp [mulRow, h0]
    · have hB := BASE_eq
      simp only [List.nil_append, mulRow, ne_eq, h0, not_false_eq_true, if_true, and_mask,
        Nat.mod_eq_of_lt hc, Nat.zero_add]
      rw [u32_of_lt (n := c) (by omega), u32_of_lt (by omega)]; rfl
  | cons b bs ih =>
    cases rs with
    | nil => simp at hlen
    | cons r rs =>
      rw [Digits.cons] at hr hb
      have hB := BASE_eq
      have hprod : b * ai ≤ (BASE - 1) * (BASE - 1) := Nat.mul_le_mul (by omega) (by omega)
      rw [hB] at hprod
      have hr1 := hr.1
      rw [hB] at hr1 hc
      have e1 : u64 (b * ai) = b * ai := u64_of_lt (by omega)
      have e2 : u64 (r + b * ai) = r + b * ai := u64_of_lt (by omega)
      have e3 : u64 (c + (r + b * ai)) = c + (r + b * ai) := u64_of_lt (by omega)
      have hm : (c + (r + b * ai)) % BASE < BASE := Nat.mod_lt _ BASE_pos
      have e4 : u32 ((c + (r + b * ai)) % BASE) = (c + (r + b * ai)) % BASE :=
        u32_of_lt (by omega)
      have hcar : (c + (r + b * ai)) / BASE < BASE := by rw [hB]; omega
      obtain ⟨rs', j1, j2, j3, j4⟩ := ih rs ((c + (r + b * ai)) / BASE) (by simpa using hlen)
        hr.2 hb.2 hcar
      refine ⟨(c + (r + b * ai)) % BASE :: rs', ?_, by simp [j2], Digits.cons.2 ⟨hm, j3⟩, ?_⟩
      · simp only [List.cons_append, mulRow, e1, e2, e3, and_mask, shr_shift, e4, j1, Res.bind_ok]
      · simp only [dval_cons, j4]
        have h1 := Nat.mod_add_div (c + (r + b * ai)) BASE
        nlinarith

theorem mulLoop_spec (b : List Nat) (hb : Digits b) (as rs : List Nat) (hlen : rs.length = b.length)
    (hr : Digits rs) (ha : Digits as) :
    ∃ r, mulLoop b as (rs ++ List.replicate as.length 0) = .ok r ∧
      r.length = as.length + b.length ∧ Digits r ∧ dval r = dval rs + dval as * dval b := by
  induction as generalizing rs with
  | nil => exact ⟨rs, by simp [mulLoop], by simp [hlen], hr, by simp⟩
  | cons a as ih =>
    rw [Digits.cons] at ha
    obtain ⟨rs', j1, j2, j3, j4⟩ := mulRow_spec a rs b (List.replicate as.length 0) 0 hlen hr hb
      ha.1 BASE_pos
    cases rs' with
    | nil => simp at j2
    | cons r0 rs' =>
      rw [Digits.cons] at j3
      obtain ⟨r, k1, k2, k3, k4⟩ := ih rs' (by simpa using j2) j3.2 ha.2
      refine ⟨r0 :: r, ?_, by simp [k2]; omega, Digits.cons.2 ⟨j3.1, k3⟩, ?_⟩
      · simp only [List.length_cons, List.replicate_succ, mulLoop, j1, Res.bind_ok,
          List.cons_append, k1]
      · simp only [dval_cons] at j4 ⊢
        rw [k4]
        nlinarith

/-- schoolbook product: correct and canonical when the product is non-zero, undefined behaviour
(`back()` of the emptied vector) when it is zero. -/
theorem simpleMul_spec (a b : List Nat) (ha : Digits a) (hb : Digits b) :
    (∀ r, simpleMul a b = .ok r → dval r = dval a * dval b ∧ Canon r ∧
        r.length ≤ a.length + b.length)
    ∧ (dval a * dval b ≠ 0 → ∃ r, simpleMul a b = .ok r)
    ∧ (dval a * dval b = 0 → ∃ m, simpleMul a b = .ub m) := by
  obtain ⟨r, j1, j2, j3, j4⟩ := mulLoop_spec b hb a (List.replicate b.length 0) (by simp)
    (Digits.replicate_zero _) ha
  have e : List.replicate (a.length + b.length) 0
      = List.replicate b.length 0 ++ List.replicate a.length 0 := by
    rw [List.replicate_append_replicate, Nat.add_comm]
  rw [dval_replicate_zero, Nat.zero_add] at j4
  unfold simpleMul
  rw [e, j1]
  simp only [Res.bind_ok]
  rw [← j4]
  refine ⟨fun s hs => ?_, trimBack_exists, trimBack_ub⟩
  obtain ⟨k1, k2, _, k4⟩ := trimBack_ok j3 hs
  exact ⟨k1, k2, by omega⟩

/-! ### Karatsuba -/

theorem addAt_spec (s : Nat) (ret y : List Nat) (hr : Digits ret) (hy : Digits y)
    (hs : s ≤ ret.length) :
    Digits (addAt s ret y) ∧ (addAt s ret y).length = ret.length ∧
    ((dval (addAt s ret y) : Int) ≡ dval ret + (BASE : Int) ^ s * dval y [ZMOD (BASE : Int) ^ ret.length]) := by
  obtain ⟨i1, i2, i3, i4⟩ := addLoop_spec (ret.drop s) y 0 (hr.drop s) hy (by omega)
  have hl : (ret.take s).length = s := by simp [hs]
  refine ⟨Digits.append.2 ⟨hr.take s, i2⟩, by simp [addAt, i3, hs], ?_⟩
  have hlen : (ret.drop s).length = ret.length - s := by simp
  rw [hlen] at i1
  have hR := dval_take_add_drop ret s hs
  have htk := dval_take_mod y hy (ret.length - s)
  have hym := Nat.mod_add_div (dval y) (BASE ^ (ret.length - s))
  have hpow : BASE ^ ret.length = BASE ^ s * BASE ^ (ret.length - s) := by
    rw [← pow_add]; congr 1; omega
  unfold addAt
  rw [dval_append, hl]
  rw [htk] at i1
  rw [Int.modEq_iff_dvd]
  set m := ret.length - s
  generalize addLoop (List.drop s ret) y 0 = p at *
  obtain ⟨p1, p2⟩ := p
  simp only at *
  refine ⟨(p2 : Int) + (dval y / BASE ^ m : Nat), ?_⟩
  have hR' : (dval ret : Int) = _ := congrArg Nat.cast hR
  have i1' : ((_ : Nat) : Int) = _ := congrArg Nat.cast i1
  have hym' : ((_ : Nat) : Int) = _ := congrArg Nat.cast hym
  have hpow' : ((_ : Nat) : Int) = _ := congrArg Nat.cast hpow
  simp only [Nat.cast_add, Nat.cast_mul, Nat.cast_pow, Nat.cast_zero] at hR' i1' hym' hpow' ⊢
  rw [hpow', hR']
  linear_combination -(BASE : Int) ^ s * i1' - (BASE : Int) ^ s * hym'

theorem subAt_spec (s : Nat) (ret y : List Nat) (hr : Digits ret) (hy : Digits y)
    (hs : s ≤ ret.length) :
    Digits (subAt s ret y) ∧ (subAt s ret y).length = ret.length ∧
    ((dval (subAt s ret y) : Int) ≡ dval ret - (BASE : Int) ^ s * dval y [ZMOD (BASE : Int) ^ ret.length]) := by
  obtain ⟨i1, i2, i3, i4⟩ := subLoop_spec (ret.drop s) y 0 (hr.drop s) hy (by omega)
  have hl : (ret.take s).length = s := by simp [hs]
  refine ⟨Digits.append.2 ⟨hr.take s, i2⟩, by simp [subAt, i3, hs], ?_⟩
  have hlen : (ret.drop s).length = ret.length - s := by simp
  rw [hlen] at i1
  have hR := dval_take_add_drop ret s hs
  have htk := dval_take_mod y hy (ret.length - s)
  have hym := Nat.mod_add_div (dval y) (BASE ^ (ret.length - s))
  have hpow : BASE ^ ret.length = BASE ^ s * BASE ^ (ret.length - s) := by
    rw [← pow_add]; congr 1; omega
  unfold subAt
  rw [dval_append, hl]
  rw [htk] at i1
  rw [Int.modEq_iff_dvd]
  set m := ret.length - s
  generalize subLoop (List.drop s ret) y 0 = p at *
  obtain ⟨p1, p2⟩ := p
  simp only at *
  refine ⟨-(p2 : Int) - (dval y / BASE ^ m : Nat), ?_⟩
  have hR' : (dval ret : Int) = _ := congrArg Nat.cast hR
  have i1' : ((_ : Nat) : Int) = _ := congrArg Nat.cast i1
  have hym' : ((_ : Nat) : Int) = _ := congrArg Nat.cast hym
  have hpow' : ((_ : Nat) : Int) = _ := congrArg Nat.cast hpow
  simp only [Nat.cast_add, Nat.cast_mul, Nat.cast_pow, Nat.cast_zero] at hR' i1' hym' hpow' ⊢
  rw [hpow', hR']
  linear_combination -(BASE : Int) ^ s * i1' + (BASE : Int) ^ s * hym'

theorem copyAt_ok {pos : Nat} {ret t r : List Nat} (h : copyAt pos ret t = .ok r) :
    r = ret.take pos ++ t ++ ret.drop (pos + t.length) ∧ pos + t.length ≤ ret.length := by
  unfold copyAt at h
  split at h
  · injection h with h; exact ⟨h.symm, by assumption⟩
  · cases h

theorem digitsCmp_zero_eq {c d : List Nat} (hc : Digits c) (hd : Digits d)
    (h : digitsCmp c d = 0) : c = d := by
  unfold digitsCmp at h
  simp only [if_true, one_mul] at h
  by_cases hl : (c.length : Int) - d.length = 0
  · simp only [hl, if_true] at h
    have hl' : c.length = d.length := by omega
    exact dval_inj hc hd hl' ((cmpDiff_spec c d hc hd hl').2.1 h)
  · simp [hl] at h

theorem kMulSplit_spec (n : List Nat) (s : Nat) (hn : Digits n) :
    dval n = dval (kMulSplit n s).2 + BASE ^ s * dval (kMulSplit n s).1 ∧
    Digits (kMulSplit n s).1 ∧ Digits (kMulSplit n s).2 ∧
    (kMulSplit n s).2.length = min n.length s ∧ (kMulSplit n s).1.length = n.length - s := by
  unfold kMulSplit
  refine ⟨?_, hn.drop _, hn.take _, by simp, by simp; omega⟩
  simp only
  by_cases h : s ≤ n.length
  · rw [Nat.min_eq_right h]; exact dval_take_add_drop n s h
  · rw [Nat.min_eq_left (by omega)]; simp

/-- the values combined by one Karatsuba step are congruent to the product. -/
theorem karatsuba_core {N s : Nat} {ret t1 t2 t3 : List Nat} {AH AL BH BL : Nat}
    {r0 r1 r : List Nat}
    (h1 : dval t1 = AH * BH) (h2 : dval t2 = AL * BL) (h3 : dval t3 = (AH + AL) * (BH + BL))
    (d1 : Digits t1) (d2 : Digits t2) (d3 : Digits t3)
    (hret : ret = List.replicate N 0) (hs : s ≤ N)
    (hc1 : copyAt (s * 2) ret t1 = .ok r0) (hc2 : copyAt 0 r0 t2 = .ok r1)
    (hl2 : t2.length ≤ s * 2)
    (hr : r = addAt s (subAt s (subAt s r1 t2) t1) t3)
    (hlt : (AL + BASE ^ s * AH) * (BL + BASE ^ s * BH) < BASE ^ N) :
    Digits r ∧ r.length = N ∧ dval r = (AL + BASE ^ s * AH) * (BL + BASE ^ s * BH) := by
  obtain ⟨e0, l0⟩ := copyAt_ok hc1
  obtain ⟨e1, l1⟩ := copyAt_ok hc2
  subst hret
  simp only [List.length_replicate, List.take_replicate, List.drop_replicate] at e0 l0
  have len0 : r0.length = N := by rw [e0]; simp; omega
  have dr0 : Digits r0 := by
    rw [e0]; exact Digits.append.2 ⟨Digits.append.2 ⟨Digits.replicate_zero _, d1⟩,
      Digits.replicate_zero _⟩
  rw [Nat.zero_add, List.take_zero, List.nil_append] at e1
  have len1 : r1.length = N := by rw [e1]; simp [len0]; omega
  have dr1 : Digits r1 := by rw [e1]; exact Digits.append.2 ⟨d2, dr0.drop _⟩
  have v1 : dval r1 = dval t2 + BASE ^ (s * 2) * dval t1 := by
    rw [e1, dval_append, e0, Nat.min_eq_left (by omega), List.append_assoc,
      List.drop_append_of_le_length (by simpa using hl2), List.drop_replicate, dval_append,
      dval_replicate_zero, dval_append, dval_replicate_zero, List.length_replicate, Nat.zero_add,
      ← Nat.mul_assoc, ← pow_add, Nat.mul_zero, Nat.add_zero]
    have : t2.length + (s * 2 - t2.length) = s * 2 := by omega
    rw [this]
  obtain ⟨x1, x2, x3⟩ := subAt_spec s r1 t2 dr1 d2 (by omega)
  rw [len1] at x2 x3
  obtain ⟨y1, y2, y3⟩ := subAt_spec s _ t1 x1 d1 (by omega)
  rw [x2] at y2 y3
  obtain ⟨z1, z2, z3⟩ := addAt_spec s _ t3 y1 d3 (by omega)
  rw [y2] at z2 z3
  rw [← hr] at z1 z2 z3
  refine ⟨z1, z2, ?_⟩
  have hcong : (dval r : Int) ≡
      (((AL + BASE ^ s * AH) * (BL + BASE ^ s * BH) : Nat) : Int) [ZMOD (BASE : Int) ^ N] := by
    refine z3.trans ?_
    refine ((y3.trans (x3.sub_right _)).add_right _).trans ?_
    rw [v1, h1, h2, h3]
    have : (((AL * BL + BASE ^ (s * 2) * (AH * BH) : Nat) : Int) - (BASE : Int) ^ s * ((AL * BL : Nat) : Int)
        - (BASE : Int) ^ s * ((AH * BH : Nat) : Int)
        + (BASE : Int) ^ s * (((AH + AL) * (BH + BL) : Nat) : Int))
        = (((AL + BASE ^ s * AH) * (BL + BASE ^ s * BH) : Nat) : Int) := by
      push_cast
      rw [pow_mul]
      ring
    rw [this]
  have hr' := dval_lt z1
  rw [z2] at hr'
  have hcong' : dval r ≡ (AL + BASE ^ s * AH) * (BL + BASE ^ s * BH) [MOD BASE ^ N] := by
    rw [← Int.natCast_modEq_iff]
    simpa using hcong
  have := Nat.mod_eq_of_lt hr'
  have := Nat.mod_eq_of_lt hlt
  unfold Nat.ModEq at hcong'
  omega

theorem copyAt_exists {pos : Nat} {ret t : List Nat} (h : pos + t.length ≤ ret.length) :
    ∃ r, copyAt pos ret t = .ok r := ⟨_, if_pos h⟩

/-- never out of fuel, never an exception: the outcome is a value or undefined behaviour; and a
value is the canonical product. -/
theorem digitsMulF_spec (fuel : Nat) (c d : List Nat) (hc : Digits c) (hd : Digits d)
    (hf : c.length + d.length < fuel) :
    (∃ r, digitsMulF fuel c d = .ok r ∧ dval r = dval c * dval d ∧ Canon r ∧
      r.length ≤ c.length + d.length) ∨ ∃ m, digitsMulF fuel c d = .ub m := by
  induction fuel generalizing c d with
  | zero => omega
  | succ fuel ih =>
    unfold digitsMulF
    by_cases hemp : (c.isEmpty || d.isEmpty) = true
    · left
      refine ⟨[], by simp [hemp], ?_, Canon.nil, by simp⟩
      rw [Bool.or_eq_true] at hemp
      rcases hemp with h | h <;> simp [List.isEmpty_iff.1 h]
    · rw [if_neg hemp]
      have hcd : ∃ a b, (if c.length < d.length then (c, d) else (d, c)) = (a, b) ∧ Digits a ∧
          Digits b ∧ dval a * dval b = dval c * dval d ∧ a.length + b.length = c.length + d.length ∧
          a.length ≤ b.length ∧ (c = d → a = b) := by
        by_cases h : c.length < d.length
        · exact ⟨c, d, by simp [h], hc, hd, rfl, rfl, by omega, id⟩
        · exact ⟨d, c, by simp [h], hd, hc, Nat.mul_comm _ _, Nat.add_comm _ _, by omega, Eq.symm⟩
      obtain ⟨a, b, hab, ha, hb, hv, hlen, hle, hcdab⟩ := hcd
      rw [hab]
      simp only
      set eq := (digitsCmp c d == 0) with heq
      have heqab : eq = true → a = b := by
        intro h
        exact hcdab (digitsCmp_zero_eq hc hd (by simpa [heq] using h))
      set cut := (if eq then 140 else 70) with hcut
      have hcut70 : 70 ≤ cut := by rw [hcut]; split <;> omega
      by_cases hsm : a.length ≤ cut
      · rw [if_pos hsm]
        obtain ⟨s1, s2, s3⟩ := simpleMul_spec a b ha hb
        by_cases h0 : dval a * dval b = 0
        · exact Or.inr (s3 h0)
        · left
          obtain ⟨r, hr⟩ := s2 h0
          obtain ⟨t1, t2, t3⟩ := s1 r hr
          exact ⟨r, hr, by rw [t1, hv], t2, by omega⟩
      · rw [if_neg hsm]
        set s := b.length >>> 1 with hs
        have hs' : s = b.length / 2 := by rw [hs, Nat.shiftRight_eq_div_pow]
        obtain ⟨ka1, ka2, ka3, ka4, ka5⟩ := kMulSplit_spec a s ha
        obtain ⟨kb1, kb2, kb3, kb4, kb5⟩ := kMulSplit_spec b s hb
        have hbsplit : (if eq then ((kMulSplit a s).1, (kMulSplit a s).2) else kMulSplit b s)
            = kMulSplit b s := by
          by_cases he : eq = true
          · rw [if_pos he, heqab he]
          · rw [if_neg he]
        rcases hA : kMulSplit a s with ⟨ah, al⟩
        rcases hBs : kMulSplit b s with ⟨bh, bl⟩
        rw [hA] at ka1 ka2 ka3 ka4 ka5 hbsplit
        rw [hBs] at kb1 kb2 kb3 kb4 kb5 hbsplit
        simp only at ka1 ka2 ka3 ka4 ka5 kb1 kb2 kb3 kb4 kb5 hbsplit
        simp only [hbsplit]
        -- the third product uses sums of halves
        obtain ⟨pa1, pa2, pa3, _⟩ := digitsAdd_spec ah al ka2 ka3
        obtain ⟨pb1, pb2, pb3, _⟩ := digitsAdd_spec bh bl kb2 kb3
        have ht2 : (if eq then digitsAdd ah al else digitsAdd bh bl) = digitsAdd bh bl := by
          by_cases he : eq = true
          · rw [if_pos he]
            have hab' := heqab he
            subst hab'
            rw [hA] at hBs
            injection hBs with h1 h2
            rw [h1, h2]
          · rw [if_neg he]
        simp only [ht2]
        rcases ih ah bh ka2 kb2 (by omega) with ⟨t1, q1, q2, q3, q4⟩ | ⟨m, hm⟩
        swap
        · right; exact ⟨m, by rw [hm]; rfl⟩
        rw [q1]
        simp only [Res.bind_ok]
        have q4' : t1 = [] ∨ t1.length ≤ a.length + b.length - 2 * s := by
          by_cases hah : s ≤ a.length
          · right; omega
          · left
            have : dval ah = 0 := by
              have : ah = [] := List.length_eq_zero_iff.1 (by omega)
              simp [this]
            rw [this, Nat.zero_mul] at q2
            exact q3.dval_eq_zero.1 q2
        obtain ⟨r0, hr0⟩ := copyAt_exists (pos := s * 2)
          (ret := List.replicate (a.length + b.length) 0) (t := t1)
          (by rcases q4' with h | h
              · simp [h]; omega
              · simp; omega)
        rw [hr0]
        simp only [Res.bind_ok]
        rcases ih al bl ka3 kb3 (by omega) with ⟨t2, w1, w2, w3, w4⟩ | ⟨m, hm⟩
        swap
        · right; exact ⟨m, by rw [hm]; rfl⟩
        rw [w1]
        simp only [Res.bind_ok]
        have hr0len : r0.length = a.length + b.length := by
          obtain ⟨e, l⟩ := copyAt_ok hr0
          rw [e]; simp at l ⊢; omega
        obtain ⟨r1, hr1⟩ := copyAt_exists (pos := 0) (ret := r0) (t := t2) (by omega)
        rw [hr1]
        simp only [Res.bind_ok]
        rcases ih (digitsAdd ah al) (digitsAdd bh bl) pa2 pb2 (by omega) with
          ⟨t3, u1, u2, u3, u4⟩ | ⟨m, hm⟩
        swap
        · right; exact ⟨m, by rw [hm]; rfl⟩
        rw [u1]
        simp only [Res.bind_ok]
        obtain ⟨f1, f2, f3⟩ := karatsuba_core (N := a.length + b.length) (s := s)
          (AH := dval ah) (AL := dval al) (BH := dval bh) (BL := dval bl)
          q2 w2 (by rw [u2, pa1, pb1]) q3.1 w3.1 u3.1 rfl (by omega) hr0 hr1 (by omega) rfl
          (by
            rw [← ka1, ← kb1, pow_add]
            exact Nat.mul_lt_mul'' (dval_lt ha) (dval_lt hb))
        rw [← ka1, ← kb1, hv] at f3
        by_cases hz : dval c * dval d = 0
        · right; exact trimBack_ub (by rw [f3, hz])
        · left
          obtain ⟨r, hr⟩ := trimBack_exists (l := addAt s (subAt s (subAt s r1 t2) t1) t3)
            (by rw [f3]; exact hz)
          obtain ⟨g1, g2, _, g4⟩ := trimBack_ok f1 hr
          exact ⟨r, hr, by rw [g1, f3], g2, by omega⟩

end Symxx.Huge
