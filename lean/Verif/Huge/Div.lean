import Verif.Huge.Mul
import Mathlib.Data.Nat.Log
/-! Division: shifts, single-digit division, Knuth's algorithm D. -/
namespace Symxx.Huge
attribute [local irreducible] BASE

theorem leftShift_spec (d : Nat) (hd : d ≤ 30) (x : List Nat) (c : Nat) (hx : Digits x)
    (hc : c < 2 ^ d) :
    dval (leftShift d x c).1 + BASE ^ x.length * (leftShift d x c).2 = dval x * 2 ^ d + c ∧
    Digits (leftShift d x c).1 ∧ (leftShift d x c).1.length = x.length ∧
    (leftShift d x c).2 < 2 ^ d := by
  induction x generalizing c with
  | nil => simp [leftShift, hc]
  | cons a x ih =>
    rw [Digits.cons] at hx
    have hB := BASE_eq
    have hp : 2 ^ d ≤ 2 ^ 30 := Nat.pow_le_pow_right (by omega) hd
    have ha1 : a + 1 ≤ BASE := hx.1
    have hmul : (a + 1) * 2 ^ d ≤ BASE * 2 ^ d := Nat.mul_le_mul_right _ ha1
    have hacc : a * 2 ^ d + c < BASE * 2 ^ d := by rw [Nat.add_mul] at hmul; omega
    have hbb : BASE * 2 ^ d ≤ BASE * 2 ^ 30 := Nat.mul_le_mul_left _ hp
    have e1 : u64 (a <<< d) = a <<< d := u64_of_lt (by rw [shl_eq]; omega)
    have e2 : u64 (a <<< d) ||| c = a * 2 ^ d + c := by rw [e1, shl_or d hc]
    set acc := a * 2 ^ d + c with hacc'
    have e3 : u32 acc &&& MASK = acc % BASE := by rw [and_mask, u32, hB]; omega
    have hq : acc / BASE < 2 ^ d := Nat.div_lt_of_lt_mul hacc
    have e4 : u32 (acc >>> SHIFT) = acc / BASE := by rw [shr_shift]; exact u32_of_lt (by omega)
    obtain ⟨i1, i2, i3, i4⟩ := ih (acc / BASE) hx.2 hq
    simp only [leftShift, e2, e3, e4]
    refine ⟨?_, Digits.cons.2 ⟨Nat.mod_lt _ BASE_pos, i2⟩, by simp [i3], i4⟩
    simp only [dval_cons, List.length_cons, pow_succ]
    have h1 := Nat.mod_add_div acc BASE
    have h2 := congrArg (fun t => BASE * t) i1
    have h3 : (a + BASE * dval x) * 2 ^ d = a * 2 ^ d + BASE * (dval x * 2 ^ d) := by ring
    rw [h3]
    linarith

theorem rightShift_spec (d : Nat) (hd : d ≤ 30) (x : List Nat) (hx : Digits x) :
    dval (rightShift d x).1 * 2 ^ d + (rightShift d x).2 = dval x ∧
    Digits (rightShift d x).1 ∧ (rightShift d x).1.length = x.length ∧
    (rightShift d x).2 < 2 ^ d := by
  induction x with
  | nil => simp [rightShift]
  | cons a x ih =>
    rw [Digits.cons] at hx
    obtain ⟨i1, i2, i3, i4⟩ := ih hx.2
    have hB := BASE_eq
    have ha := hx.1
    have hp : 2 ^ d ≤ 2 ^ 30 := Nat.pow_le_pow_right (by omega) hd
    have hpos : 0 < 2 ^ d := Nat.pow_pos (by omega)
    simp only [rightShift]
    set k := (rightShift d x).2
    set z := (rightShift d x).1
    have e1 : u64 (k <<< SHIFT) ||| a = k * 2 ^ 30 + a := by
      rw [shiftOr (by omega) (by omega), BASE_pow]
    rw [e1]
    set acc := k * 2 ^ 30 + a
    have hacc : acc < 2 ^ 30 * 2 ^ d := by
      have : (k + 1) * 2 ^ 30 ≤ 2 ^ d * 2 ^ 30 := Nat.mul_le_mul_right _ i4
      rw [Nat.mul_comm (2 ^ 30)]
      omega
    have hq : acc / 2 ^ d < 2 ^ 30 := Nat.div_lt_of_lt_mul (by rw [Nat.mul_comm]; exact hacc)
    have e2 : u32 (acc >>> d) = acc / 2 ^ d := by
      rw [Nat.shiftRight_eq_div_pow]; exact u32_of_lt (by omega)
    have e3 : u32 acc &&& (u32 (1 <<< d) - 1) = acc % 2 ^ d := by
      rw [shl_eq, Nat.one_mul, u32_of_lt (n := 2 ^ d) (by omega), Nat.and_two_pow_sub_one_eq_mod,
        u32, Nat.mod_mod_of_dvd]
      exact pow_dvd_pow 2 (by omega)
    rw [e2, e3]
    refine ⟨?_, Digits.cons.2 ⟨by omega, i2⟩, by simp [z, i3], Nat.mod_lt _ hpos⟩
    simp only [dval_cons]
    have h1 := Nat.mod_add_div acc (2 ^ d)
    rw [← i1, BASE_eq]
    have : acc = k * 2 ^ 30 + a := rfl
    norm_num at this
    have h4 : (acc / 2 ^ d + 1073741824 * dval z) * 2 ^ d
      = 2 ^ d * (acc / 2 ^ d) + 1073741824 * (dval z * 2 ^ d) := by ring
    rw [h4]
    omega

/-! ### single-digit divisor -/

theorem divBy1Loop_spec (b : Nat) (hb : 0 < b) (hbB : b < BASE) (x : List Nat) (hx : Digits x) :
    dval x = dval (divBy1Loop b x).1 * b + (divBy1Loop b x).2 ∧ (divBy1Loop b x).2 < b ∧
    Digits (divBy1Loop b x).1 ∧ (divBy1Loop b x).1.length = x.length := by
  induction x with
  | nil => simp [divBy1Loop, hb]
  | cons a x ih =>
    rw [Digits.cons] at hx
    obtain ⟨i1, i2, i3, i4⟩ := ih hx.2
    have hB := BASE_eq
    have ha := hx.1
    simp only [divBy1Loop]
    set k := (divBy1Loop b x).2
    set z := (divBy1Loop b x).1
    have e1 : u64 (k <<< SHIFT) ||| a = k * 2 ^ 30 + a := by
      rw [shiftOr (by omega) (by omega), BASE_pow]
    rw [e1]
    set acc := k * 2 ^ 30 + a
    have hacc : acc < b * BASE := by
      have : (k + 1) * 2 ^ 30 ≤ b * 2 ^ 30 := Nat.mul_le_mul_right _ i2
      rw [hB]; omega
    have hq : acc / b < BASE := Nat.div_lt_of_lt_mul hacc
    have hr : acc % b < b := Nat.mod_lt _ hb
    rw [u32_of_lt (n := acc / b) (by omega), u32_of_lt (n := acc % b) (by omega)]
    refine ⟨?_, hr, Digits.cons.2 ⟨hq, i3⟩, by simp [z, i4]⟩
    simp only [dval_cons]
    have h1 := Nat.mod_add_div acc b
    have : acc = k * 2 ^ 30 + a := rfl
    rw [i1, hB]
    norm_num at this
    have h4 : (acc / b + 1073741824 * dval z) * b
      = b * (acc / b) + 1073741824 * (dval z * b) := by ring
    rw [h4]
    omega

theorem remBy1Loop_spec (y : Nat) (hy : 0 < y) (hyB : y < BASE) (x : List Nat) (hx : Digits x) :
    remBy1Loop y x = dval x % y := by
  induction x with
  | nil => simp [remBy1Loop]
  | cons a x ih =>
    rw [Digits.cons] at hx
    have hB := BASE_eq
    have ha := hx.1
    have hr : dval x % y < y := Nat.mod_lt _ hy
    rw [remBy1Loop, ih hx.2]
    have e1 : u64 ((dval x % y) <<< SHIFT) ||| a = (dval x % y) * BASE + a :=
      shiftOr (by omega) (by omega)
    rw [e1, dval_cons, Nat.add_comm a, Nat.mul_comm BASE]
    simp [Nat.add_mod, Nat.mul_mod]

theorem remBy1_spec (x : List Nat) (y : Nat) (hy : 0 < y) (hyB : y < BASE) (hx : Digits x) :
    ∃ r, remBy1 x y = .ok r ∧ dval r = dval x % y ∧ Canon r := by
  have hr : dval x % y < y := Nat.mod_lt _ hy
  have hB := BASE_eq
  unfold remBy1
  rw [if_neg (by omega), remBy1Loop_spec y hy hyB x hx]
  refine ⟨_, rfl, ?_, ?_⟩
  · by_cases h : dval x % y = 0
    · simp [h]
    · rw [if_pos h, u32_of_lt (by omega)]; simp
  · by_cases h : dval x % y = 0
    · simp [h, Canon.nil]
    · rw [if_pos h, u32_of_lt (by omega)]
      exact ⟨Digits.cons.2 ⟨by omega, Digits.nil⟩, by simpa using h⟩

theorem divremBy1_spec (x : List Nat) (y : Nat) (hy : 0 < y) (hyB : y < BASE) (hx : Digits x) :
    ∃ q r, divremBy1 x y = .ok (q, r) ∧ dval q = dval x / y ∧ dval r = dval x % y ∧ Canon r ∧
      Digits q ∧ q.length = x.length := by
  obtain ⟨i1, i2, i3, i4⟩ := divBy1Loop_spec y hy hyB x hx
  have hB := BASE_eq
  unfold divremBy1
  rw [if_neg (by omega)]
  rcases h : divBy1Loop y x with ⟨q, r⟩
  rw [h] at i1 i2 i3 i4
  simp only at i1 i2 i3 i4 ⊢
  have hdm := (Nat.div_mod_unique hy (a := dval x) (c := r) (d := dval q)).2
    ⟨by rw [i1]; ring, i2⟩
  refine ⟨_, _, rfl, hdm.1.symm, ?_, ?_, i3, i4⟩
  · rw [hdm.2]; by_cases h0 : r = 0 <;> simp [h0]
  · by_cases h0 : r = 0
    · simp [h0, Canon.nil]
    · rw [if_pos h0]; exact ⟨Digits.cons.2 ⟨by omega, Digits.nil⟩, by simpa using h0⟩

/-! ### Knuth D -/

/-- the quotient correction loop computes the quotient of the top three by the top two digits. -/
theorem adjustQ_spec (wm1 wm2 v2 : Nat) (n q r vv : Nat)
    (hw1 : BASE ≤ 2 * wm1) (hw1' : wm1 < BASE) (hw2 : wm2 < BASE) (hv2 : v2 < BASE)
    (hvv : q * wm1 + r = vv) (hr : r < BASE) (hn : BASE ≤ r + n * wm1)
    (hn0 : 0 < n) (hqB : q ≤ BASE + 1)
    (hge : (v2 + BASE * vv) / (wm2 + BASE * wm1) ≤ q) :
    adjustQ wm1 wm2 v2 n q r = .ok ((v2 + BASE * vv) / (wm2 + BASE * wm1)) := by
  induction n generalizing q r with
  | zero => omega
  | succ n ih =>
    have hB := BASE_eq
    have hDpos : 0 < wm2 + BASE * wm1 := by
      have : 0 < BASE * wm1 := Nat.mul_pos BASE_pos (by omega)
      omega
    have hprod : wm2 * q ≤ (BASE - 1) * (BASE + 1) := Nat.mul_le_mul (by omega) hqB
    have e1 : u64 (wm2 * q) = wm2 * q := u64_of_lt (by rw [hB] at hprod; omega)
    have e2 : u64 (r <<< SHIFT) ||| v2 = r * BASE + v2 := shiftOr (by omega) (by omega)
    rw [adjustQ, e1, e2]
    -- the test is q * D > T
    have key : q * (wm2 + BASE * wm1) + (r * BASE + v2) = wm2 * q + (v2 + BASE * vv) := by
      rw [← hvv]; ring
    by_cases hcond : wm2 * q > r * BASE + v2
    · rw [if_pos hcond]
      have hq0 : 0 < q := by
        rcases Nat.eq_zero_or_pos q with h | h
        · subst h; simp at hcond
        · exact h
      have hlt : (v2 + BASE * vv) / (wm2 + BASE * wm1) < q := by
        rw [Nat.div_lt_iff_lt_mul hDpos]; omega
      have e3 : u32sub q 1 = q - 1 := by unfold u32sub; omega
      have e4 : u32 (r + wm1) = r + wm1 := u32_of_lt (by omega)
      simp only [e3, e4]
      obtain ⟨p, rfl⟩ : ∃ p, q = p + 1 := ⟨q - 1, by omega⟩
      have hvv' : p * wm1 + (r + wm1) = vv := by rw [← hvv]; ring
      rw [Nat.add_sub_cancel]
      by_cases hrb : r + wm1 ≥ BASE
      · rw [if_pos hrb]
        refine congrArg Res.ok ?_
        have key' : p * (wm2 + BASE * wm1) + ((r + wm1) * BASE + v2) = wm2 * p + (v2 + BASE * vv) := by
          rw [← hvv']; ring
        have h1 : BASE * BASE ≤ (r + wm1) * BASE := Nat.mul_le_mul_right _ hrb
        have h2 : wm2 * p ≤ BASE * BASE := Nat.mul_le_mul (by omega) (by omega)
        have : p ≤ (v2 + BASE * vv) / (wm2 + BASE * wm1) := by
          rw [Nat.le_div_iff_mul_le hDpos]; omega
        omega
      · rw [if_neg hrb]
        have hexp : (n + 1) * wm1 = n * wm1 + wm1 := by ring
        refine ih p (r + wm1) hvv' (by omega) (by omega) ?_ (by omega) (by omega)
        rcases Nat.eq_zero_or_pos n with h | h
        · subst h; simp at hn; omega
        · exact h
    · rw [if_neg hcond]
      refine congrArg Res.ok ?_
      have : q ≤ (v2 + BASE * vv) / (wm2 + BASE * wm1) := by
        rw [Nat.le_div_iff_mul_le hDpos]; omega
      omega

theorem fits_aux {q v : Nat} {z : Int} (hq : q ≤ BASE) (hv : v < BASE) (h1 : -(q : Int) ≤ z)
    (h2 : z ≤ 0) : fitsS32 ((v : Int) + z) = true := by
  have hB := BASE_eq
  unfold fitsS32; simp; omega

theorem mulSub_spec (q : Nat) (hq : q ≤ BASE) (vs ws tl : List Nat) (zhi : Int)
    (hlen : vs.length = ws.length) (hv : Digits vs) (hw : Digits ws)
    (hz : -(q : Int) ≤ zhi) (hz0 : zhi ≤ 0) :
    ∃ vs' zhi', mulSub q (vs ++ tl) ws zhi = .ok (vs' ++ tl, zhi') ∧ vs'.length = ws.length ∧
      Digits vs' ∧ -(q : Int) ≤ zhi' ∧ zhi' ≤ 0 ∧
      (dval vs' : Int) + (BASE : Int) ^ ws.length * zhi' = dval vs + zhi - q * dval ws := by
  induction ws generalizing vs zhi with
  | nil =>
    have : vs = [] := List.length_eq_zero_iff.1 (by simpa using hlen)
    subst this
    exact ⟨[], zhi, by cases tl <;> simp [mulSub], rfl, Digits.nil, hz, hz0, by simp⟩
  | cons w ws ih =>
    cases vs with
    | nil => simp at hlen
    | cons v vs =>
      rw [Digits.cons] at hv hw
      have hB := BASE_eq
      have e1 : s32 (v : Int) = v := by unfold s32; omega
      have e2 : fitsS32 ((v : Int) + zhi) = true := by
        unfold fitsS32; simp; omega
      set z : Int := (v : Int) + zhi - q * w with hzdef
      have hqw : (q : Int) * w ≤ q * (BASE - 1) := by
        apply mul_le_mul_of_nonneg_left _ (by omega)
        have := hw.1; omega
      have hqw0 : 0 ≤ (q : Int) * w := mul_nonneg (by omega) (by omega)
      have hzlo : -(q : Int) ≤ z / 2 ^ 30 := by
        rw [Int.le_ediv_iff_mul_le (by norm_num)]
        have : (q : Int) * (BASE - 1) = q * BASE - q := by ring
        have h3 : -(q : Int) * 2 ^ 30 = -(q * BASE) := by
          rw [hB]; push_cast; ring
        rw [h3]; omega
      have hzhi : z / 2 ^ 30 ≤ 0 := by
        have : z < 2 ^ 30 := by have := hv.1; omega
        omega
      have e3 : s32 (z / 2 ^ 30) = z / 2 ^ 30 := by unfold s32; omega
      have e4 : ((z % 2 ^ 32).toNat &&& MASK : Nat) = (z % 2 ^ 30).toNat := by
        rw [and_mask, hB]; omega
      obtain ⟨vs', zhi', j1, j2, j3, j4, j5, j6⟩ := ih vs (z / 2 ^ 30) (by simpa using hlen)
        hv.2 hw.2 hzlo hzhi
      refine ⟨(z % 2 ^ 30).toNat :: vs', zhi', ?_, by simp [j2], Digits.cons.2 ⟨by omega, j3⟩, j4, j5, ?_⟩
      · rw [List.cons_append, mulSub]
        simp only [e1, e2, if_true]
        rw [← hzdef, e4, e3, j1]
        rfl
      · simp only [dval_cons, List.length_cons, pow_succ (BASE : Int)]
        rw [Nat.cast_add, Nat.cast_mul, Nat.cast_add, Nat.cast_mul, Nat.cast_add, Nat.cast_mul]
        have hd : (((z % 2 ^ 30).toNat : Nat) : Int) = z % 2 ^ 30 := by omega
        have hm : z % 2 ^ 30 + 2 ^ 30 * (z / 2 ^ 30) = z := Int.emod_add_mul_ediv z (2 ^ 30)
        have hBi : (BASE : Int) = 2 ^ 30 := by rw [hB]; norm_num
        rw [hd]
        have : z = (v : Int) + zhi - q * w := hzdef
        rw [← hBi] at hm j6 ⊢
        linear_combination (BASE : Int) * j6 + hm + this

theorem addBack_spec (vs ws tl : List Nat) (c : Nat) (hlen : vs.length = ws.length)
    (hv : Digits vs) (hw : Digits ws) (hc : c ≤ 1) :
    ∃ vs', addBack (vs ++ tl) ws c = vs' ++ tl ∧ vs'.length = ws.length ∧ Digits vs' ∧
      ∃ k, k ≤ 1 ∧ dval vs' + BASE ^ ws.length * k = dval vs + dval ws + c := by
  induction ws generalizing vs c with
  | nil =>
    have : vs = [] := List.length_eq_zero_iff.1 (by simpa using hlen)
    subst this
    exact ⟨[], by cases tl <;> simp [addBack], rfl, Digits.nil, c, hc, by simp⟩
  | cons w ws ih =>
    cases vs with
    | nil => simp at hlen
    | cons v vs =>
      rw [Digits.cons] at hv hw
      have hB := BASE_eq
      have hv1 := hv.1
      have hw1 := hw.1
      have e1 : u32 (v + w) = v + w := u32_of_lt (by omega)
      have e2 : u32 (c + (v + w)) = c + (v + w) := u32_of_lt (by omega)
      have hc' : (c + (v + w)) / BASE ≤ 1 := by rw [hB] at *; omega
      obtain ⟨vs', j1, j2, j3, k, j4, j5⟩ := ih vs _ (by simpa using hlen) hv.2 hw.2 hc'
      refine ⟨(c + (v + w)) % BASE :: vs', ?_, by simp [j2],
        Digits.cons.2 ⟨Nat.mod_lt _ BASE_pos, j3⟩, k, j4, ?_⟩
      · rw [List.cons_append, addBack]
        simp only [e1, e2, and_mask, shr_shift, j1]
        rfl
      · simp only [dval_cons, List.length_cons, pow_succ]
        have h1 := Nat.mod_add_div (c + (v + w)) BASE
        have h2 := congrArg (fun t => BASE * t) j5
        linarith

/-- quotient estimation from the top three by the top two digits is at most one too large. -/
theorem estimate_bounds {M T D V W v0 w0 : Nat} (hM : 0 < M) (hV : V = v0 + M * T)
    (hW : W = w0 + M * D) (hv0 : v0 < M) (hw0 : w0 < M) (hD : 0 < D)
    (hTD : T / D ≤ D + 1) :
    V / W ≤ T / D ∧ T / D ≤ V / W + 1 := by
  have hWpos : 0 < W := by have := Nat.mul_pos hM hD; omega
  constructor
  · rw [Nat.le_div_iff_mul_le hD]
    have h1 : V / W * W ≤ V := Nat.div_mul_le_self V W
    have h2 : V / W * (M * D) ≤ V / W * W := Nat.mul_le_mul_left _ (by omega)
    have h3 : M * (V / W * D) < M * (T + 1) := by
      have e : M * (V / W * D) = V / W * (M * D) := by ring
      rw [e, Nat.mul_add]; omega
    exact Nat.lt_succ_iff.1 (Nat.lt_of_mul_lt_mul_left h3)
  · by_cases h0 : T / D = 0
    · rw [h0]; exact Nat.zero_le _
    obtain ⟨p, hp⟩ : ∃ p, T / D = p + 1 := Nat.exists_eq_succ_of_ne_zero h0
    rw [hp]
    apply Nat.succ_le_succ
    rw [Nat.le_div_iff_mul_le hWpos]
    have h1 : (p + 1) * D ≤ T := by rw [← hp]; exact Nat.div_mul_le_self T D
    have h2 : p * W ≤ p * (M * (D + 1)) := Nat.mul_le_mul_left _ (by rw [Nat.mul_add]; omega)
    have h3 : p * (D + 1) ≤ (p + 1) * D := by
      have : p ≤ D := by omega
      nlinarith
    have h4 : p * (M * (D + 1)) = M * (p * (D + 1)) := by ring
    have h5 : M * (p * (D + 1)) ≤ M * T := Nat.mul_le_mul_left _ (le_trans h3 h1)
    omega

theorem getElem?_append_at {l : List Nat} {n : Nat} {x : Nat} {r : List Nat} (h : l.length = n) :
    (l ++ x :: r)[n]? = some x := by
  subst h; simp

theorem fin_over {P dv z W R : Int} (hP : 0 < P) (hdv0 : 0 ≤ dv) (hdv : dv < P) (hWP : W < P)
    (hR0 : 0 ≤ R) (hR : R < W) (h : dv + P * z = R - W) : z = -1 := by
  have h1 : P * z < P * 0 := by linarith
  have h2 : P * (-2) < P * z := by linarith
  have h3 := lt_of_mul_lt_mul_left h1 hP.le
  have h4 := lt_of_mul_lt_mul_left h2 hP.le
  omega

theorem fin_ok {P dv z W R : Int} (hP : 0 < P) (hdv0 : 0 ≤ dv) (hdv : dv < P) (hWP : W < P)
    (hR0 : 0 ≤ R) (hR : R < W) (h : dv + P * z = R) : z = 0 := by
  have h1 : P * z < P * 1 := by linarith
  have h2 : P * (-1) < P * z := by linarith
  have h3 := lt_of_mul_lt_mul_left h1 hP.le
  have h4 := lt_of_mul_lt_mul_left h2 hP.le
  omega

theorem u32sub_succ {q : Nat} (h : q < BASE) : u32sub (q + 1) 1 = q := by
  have hB := BASE_eq
  unfold u32sub; omega

/-- one step of algorithm D. -/
theorem divStep_spec (wl : List Nat) (wm2 wm1 : Nat) (vl : List Nat) (v2 v1 vtop : Nat)
    (tl : List Nat) (hlen : vl.length = wl.length)
    (hw : Digits (wl ++ [wm2, wm1])) (hv : Digits (vl ++ [v2, v1])) (hvt : vtop < BASE)
    (hnorm : BASE ≤ 2 * wm1)
    (hlt : dval (vl ++ [v2, v1, vtop]) < BASE * dval (wl ++ [wm2, wm1])) :
    ∃ vs', divStep (wl ++ [wm2, wm1]) (vl ++ [v2, v1] ++ vtop :: tl)
        = .ok (dval (vl ++ [v2, v1, vtop]) / dval (wl ++ [wm2, wm1]), vs' ++ vtop :: tl) ∧
      vs'.length = wl.length + 2 ∧ Digits vs' ∧
      dval vs' = dval (vl ++ [v2, v1, vtop]) % dval (wl ++ [wm2, wm1]) := by
  have hB := BASE_eq
  set W := dval (wl ++ [wm2, wm1]) with hWdef
  set V := dval (vl ++ [v2, v1, vtop]) with hVdef
  obtain ⟨hwl, hw12⟩ := Digits.append.1 hw
  rw [Digits.cons, Digits.cons] at hw12
  obtain ⟨hvl, hv12⟩ := Digits.append.1 hv
  rw [Digits.cons, Digits.cons] at hv12
  obtain ⟨hwm2, hwm1, _⟩ := hw12
  obtain ⟨hv2, hv1, _⟩ := hv12
  set M := BASE ^ wl.length with hM
  have hMpos : 0 < M := Nat.pow_pos BASE_pos
  set D := wm2 + BASE * wm1 with hDdef
  set T := v2 + BASE * (vtop * BASE + v1) with hTdef
  have hWe : W = dval wl + M * D := by
    rw [hWdef, dval_append]; simp [hDdef, hM]
  have hVe : V = dval vl + M * T := by
    rw [hVdef, dval_append, hlen]; simp only [dval_cons, dval_nil, hTdef, hM]; ring
  clear_value W V M D T
  have hw0 : dval wl < M := by rw [hM]; exact dval_lt hwl
  have hv0 : dval vl < M := by rw [hM, ← hlen]; exact dval_lt hvl
  have hDpos : 0 < D := by
    have : 0 < BASE * wm1 := Nat.mul_pos BASE_pos (by omega)
    omega
  have hWpos : 0 < W := by have := Nat.mul_pos hMpos hDpos; omega
  have hQlt : V / W < BASE := Nat.div_lt_of_lt_mul (by rw [Nat.mul_comm]; exact hlt)
  -- vtop ≤ wm1
  have hTBD : T ≤ BASE * D + (BASE - 1) := by
    have h1 : M * T < BASE * (M + M * D) := by
      have : BASE * W < BASE * (M + M * D) := Nat.mul_lt_mul_of_pos_left (by omega) BASE_pos
      omega
    have h2 : BASE * (M + M * D) = M * (BASE + BASE * D) := by ring
    rw [h2] at h1
    have := Nat.lt_of_mul_lt_mul_left h1
    omega
  have hvtop : vtop ≤ wm1 := by
    by_contra hcon
    have h1 : BASE * (BASE * (wm1 + 1)) ≤ BASE * (BASE * vtop) :=
      Nat.mul_le_mul_left _ (Nat.mul_le_mul_left _ (by omega))
    have h2 : BASE * (BASE * vtop) ≤ T := by
      have : BASE * (BASE * vtop) ≤ BASE * (vtop * BASE + v1) :=
        Nat.mul_le_mul_left _ (by rw [Nat.mul_comm]; omega)
      omega
    have h3 : BASE * D + BASE ≤ BASE * (BASE * (wm1 + 1)) := by
      rw [hDdef, ← Nat.mul_succ]
      exact Nat.mul_le_mul_left _ (by rw [Nat.mul_add]; omega)
    omega
  have hT_D : T / D ≤ BASE := by
    have : T / D < BASE + 1 := by
      rw [Nat.div_lt_iff_lt_mul hDpos]
      have : BASE ≤ D := by
        have := Nat.mul_le_mul_left BASE (show 1 ≤ wm1 by omega); omega
      rw [Nat.add_mul]; omega
    omega
  have hBD : BASE ≤ D := by
    have := Nat.mul_le_mul_left BASE (show 1 ≤ wm1 by omega); omega
  obtain ⟨est1, est2⟩ := estimate_bounds hMpos hVe hWe hv0 hw0 hDpos (by omega)
  -- the vv computation
  set vv := vtop * BASE + v1 with hvv
  clear_value vv
  have hwm1pos : 0 < wm1 := by omega
  have hvvlt : vv < BASE * BASE := by
    have : (vtop + 1) * BASE ≤ BASE * BASE := Nat.mul_le_mul_right _ hvt
    rw [Nat.add_mul] at this; omega
  have hq0 : vv / wm1 ≤ BASE + 1 := by
    have : vv / wm1 < BASE + 2 := by
      rw [Nat.div_lt_iff_lt_mul hwm1pos]
      have h1 : vtop * BASE ≤ wm1 * BASE := Nat.mul_le_mul_right _ hvtop
      have h2 : (BASE + 2) * wm1 = wm1 * BASE + 2 * wm1 := by ring
      omega
    omega
  have hr0 : vv % wm1 < wm1 := Nat.mod_lt _ hwm1pos
  have hfuel : BASE ≤ vv % wm1 + adjFuel * wm1 := by
    have : adjFuel * 1 ≤ adjFuel * wm1 := Nat.mul_le_mul_left _ hwm1pos
    unfold adjFuel at *; omega
  have hadj := adjustQ_spec wm1 wm2 v2 adjFuel (vv / wm1) (vv % wm1) vv hnorm hwm1 hwm2 hv2
    (by rw [Nat.mul_comm]; exact Nat.div_add_mod vv wm1) (by omega) hfuel (by unfold adjFuel; norm_num) hq0
    (by
      rw [← hDdef, ← hTdef]
      have h1 : T / D ≤ T / (BASE * wm1) := Nat.div_le_div_left (by omega) (by
        exact Nat.mul_pos BASE_pos hwm1pos)
      have h2 : T / (BASE * wm1) = vv / wm1 := by
        rw [← Nat.div_div_eq_div_mul, hTdef, Nat.add_mul_div_left _ _ BASE_pos,
          Nat.div_eq_of_lt hv2, Nat.zero_add]
      omega)
  rw [← hDdef, ← hTdef] at hadj
  set q := T / D with hqdef
  clear_value q
  obtain ⟨vs', zhi', m1, m2, m3, m4, m5, m6⟩ := mulSub_spec q hT_D (vl ++ [v2, v1])
    (wl ++ [wm2, wm1]) (vtop :: tl) 0 (by simp [hlen]) hv hw (by omega) (le_refl _)
  have hn : (wl ++ [wm2, wm1]).length = wl.length + 2 := by simp
  rw [hn] at m2 m6
  rw [← hWdef] at m6
  have hVtop : (V : Int) = dval (vl ++ [v2, v1]) + (BASE : Int) ^ (wl.length + 2) * vtop := by
    have : vl ++ [v2, v1, vtop] = (vl ++ [v2, v1]) ++ [vtop] := by simp
    rw [hVdef, this, dval_append]
    simp [hlen]
  have hvs' := dval_lt m3
  rw [m2] at hvs'
  have hWlt : W < BASE ^ (wl.length + 2) := by
    have := dval_lt hw; rw [hn, ← hWdef] at this; exact this
  have hmain : (dval vs' : Int) + (BASE : Int) ^ (wl.length + 2) * (zhi' + vtop) = V - q * W := by
    rw [hVtop]; linear_combination m6
  have hdm : W * (V / W) + V % W = V := Nat.div_add_mod V W
  have hml : V % W < W := Nat.mod_lt _ hWpos
  have e1 : u64 (vtop <<< SHIFT) ||| v1 = vv := by rw [hvv]; exact shiftOr (by omega) (by omega)
  have e2 : u32 (vv / wm1) = vv / wm1 := u32_of_lt (by omega)
  have e3 : u32 (vv % wm1) = vv % wm1 := u32_of_lt (by omega)
  have e4 : s32 (vtop : Int) = vtop := by unfold s32; omega
  have e5 : fitsS32 ((vtop : Int) + zhi') = true := fits_aux hT_D hvt m4 m5
  have g1 : (vl ++ [v2, v1] ++ vtop :: tl)[wl.length + 2]? = some vtop :=
    getElem?_append_at (by simp [hlen])
  have g2 : (vl ++ [v2, v1] ++ vtop :: tl)[wl.length + 2 - 1]? = some v1 := by
    have : vl ++ [v2, v1] ++ vtop :: tl = (vl ++ [v2]) ++ v1 :: (vtop :: tl) := by simp
    rw [this]; exact getElem?_append_at (by simp [hlen])
  have g3 : (vl ++ [v2, v1] ++ vtop :: tl)[wl.length + 2 - 2]? = some v2 := by
    have : vl ++ [v2, v1] ++ vtop :: tl = vl ++ v2 :: (v1 :: vtop :: tl) := by simp
    rw [this]; exact getElem?_append_at (by simp [hlen])
  have g4 : (wl ++ [wm2, wm1])[wl.length + 2 - 1]? = some wm1 := by
    have : wl ++ [wm2, wm1] = (wl ++ [wm2]) ++ wm1 :: [] := by simp
    rw [this]; exact getElem?_append_at (by simp)
  have g5 : (wl ++ [wm2, wm1])[wl.length + 2 - 2]? = some wm2 := getElem?_append_at (by simp)
  have hstep : divStep (wl ++ [wm2, wm1]) (vl ++ [v2, v1] ++ vtop :: tl)
      = if (vtop : Int) + zhi' < 0 then
          .ok (u32sub q 1, addBack (vs' ++ vtop :: tl) (wl ++ [wm2, wm1]) 0)
        else .ok (q, vs' ++ vtop :: tl) := by
    unfold divStep
    simp only [hn, g1, g2, g3, g4, g5]
    rw [if_neg (by omega), e1, e2, e3, hadj]
    simp only [Res.bind_ok, m1, e4, e5, if_true]
  rw [hstep]
  have hPpos : (0 : Int) < (BASE : Int) ^ (wl.length + 2) :=
    pow_pos (by exact_mod_cast BASE_pos) _
  have hvsi : (dval vs' : Int) < (BASE : Int) ^ (wl.length + 2) := by exact_mod_cast hvs'
  have hWi : (W : Int) < (BASE : Int) ^ (wl.length + 2) := by exact_mod_cast hWlt
  have hdmi : (W : Int) * (V / W : Nat) + (V % W : Nat) = V := by exact_mod_cast hdm
  have hvs0 : (0 : Int) ≤ dval vs' := Int.natCast_nonneg _
  have hR0 : (0 : Int) ≤ (V % W : Nat) := Int.natCast_nonneg _
  have hRi : ((V % W : Nat) : Int) < W := by exact_mod_cast hml
  rcases Nat.lt_or_ge (V / W) q with hover | hok
  · -- q = Q + 1
    have hq1 : q = V / W + 1 := Nat.le_antisymm est2 hover
    have hneg : (V : Int) - q * W = (V % W : Nat) - W := by
      rw [hq1]; push_cast; push_cast at hdmi; linear_combination -hdmi
    have hzneg : zhi' + (vtop : Int) = -1 := by
      rw [hneg] at hmain
      exact fin_over hPpos hvs0 hvsi hWi hR0 hRi hmain
    rw [if_pos (by rw [add_comm, hzneg]; norm_num)]
    obtain ⟨vs2, a1, a2, a3, k, a4, a5⟩ := addBack_spec vs' (wl ++ [wm2, wm1]) (vtop :: tl) 0
      (by rw [m2, hn]) m3 hw (Nat.zero_le _)
    rw [hn] at a2 a5
    rw [← hWdef] at a5
    have eq1 : u32sub q 1 = V / W := by rw [hq1]; exact u32sub_succ hQlt
    refine ⟨vs2, by rw [eq1, a1], a2, a3, ?_⟩
    rw [hzneg, hneg] at hmain
    have ha3 := dval_lt a3
    rw [a2] at ha3
    have a5i : (dval vs2 : Int) + (BASE : Int) ^ (wl.length + 2) * k = dval vs' + W := by
      have : ((_ : Nat) : Int) = _ := congrArg Nat.cast a5
      push_cast at this; linarith
    have ha3i : (dval vs2 : Int) < (BASE : Int) ^ (wl.length + 2) := by exact_mod_cast ha3
    have hfin : (dval vs2 : Int) + (BASE : Int) ^ (wl.length + 2) * (k - 1) = (V % W : Nat) := by
      linear_combination a5i + hmain
    rcases Nat.le_one_iff_eq_zero_or_eq_one.1 a4 with hk | hk
    · subst hk
      exfalso
      simp only [Nat.cast_zero, zero_sub, mul_neg, mul_one] at hfin
      linarith
    · subst hk
      simp only [Nat.cast_one, sub_self, mul_zero, add_zero] at hfin
      exact_mod_cast hfin
  · have hq1 : q = V / W := Nat.le_antisymm hok est1
    have hpos : (V : Int) - q * W = (V % W : Nat) := by
      rw [hq1]; linear_combination -hdmi
    have hz0 : zhi' + (vtop : Int) = 0 := by
      rw [hpos] at hmain
      exact fin_ok hPpos hvs0 hvsi hWi hR0 hRi hmain
    rw [if_neg (by rw [add_comm, hz0]; norm_num)]
    refine ⟨vs', by rw [hq1], m2, m3, ?_⟩
    rw [hz0, hpos, mul_zero, add_zero] at hmain
    exact_mod_cast hmain

theorem split_last2 {l : List Nat} (h : 2 ≤ l.length) :
    ∃ l' a b, l = l' ++ [a, b] := by
  have h1 : l ≠ [] := by rintro rfl; simp at h
  have h2 : l.dropLast ≠ [] := by
    intro h0
    have := congrArg List.length h0
    simp at this; omega
  refine ⟨l.dropLast.dropLast, l.dropLast.getLast h2, l.getLast h1, ?_⟩
  have e1 := (List.dropLast_append_getLast h1).symm
  have e2 := (List.dropLast_append_getLast h2).symm
  conv_lhs => rw [e1, e2]
  simp

/-- the Knuth D loop. -/
theorem divLoop_spec (wl : List Nat) (wm2 wm1 : Nat) (hw : Digits (wl ++ [wm2, wm1]))
    (hnorm : BASE ≤ 2 * wm1) (k : Nat) (v : List Nat) (hv : Digits v)
    (hlen : k + (wl.length + 2) ≤ v.length)
    (hlt : dval ((v.drop k).take (wl.length + 2)) < dval (wl ++ [wm2, wm1])) :
    ∃ qs v', divLoop (wl ++ [wm2, wm1]) k v = .ok (qs, v') ∧ qs.length = k ∧ Digits qs ∧
      v'.length = v.length ∧ Digits v' ∧
      dval (v'.take (wl.length + 2)) < dval (wl ++ [wm2, wm1]) ∧
      dval (v.take (k + (wl.length + 2))) =
        dval qs * dval (wl ++ [wm2, wm1]) + dval (v'.take (wl.length + 2)) := by
  induction k generalizing v with
  | zero =>
    refine ⟨[], v, by simp [divLoop], rfl, Digits.nil, rfl, hv, by simpa using hlt, by simp⟩
  | succ k ih =>
    cases v with
    | nil => simp at hlen
    | cons x rest =>
      rw [Digits.cons] at hv
      obtain ⟨qs, rest', i1, i2, i3, i4, i5, i6, i7⟩ := ih rest hv.2
        (by simp only [List.length_cons] at hlen; omega) (by simpa using hlt)
      -- decompose x :: rest'
      set n := wl.length + 2 with hn
      have hrl : n ≤ rest'.length := by
        rw [i4]; simp only [List.length_cons] at hlen; omega
      have htl : (rest'.take n).length = n := by simp [hrl]
      have hn0 : rest'.take n ≠ [] := by
        intro h0; rw [h0] at htl; simp [hn] at htl
      obtain ⟨pre, vtop, hpre⟩ : ∃ pre vtop, rest'.take n = pre ++ [vtop] :=
        ⟨_, _, (List.dropLast_append_getLast hn0).symm⟩
      have hprel : pre.length = wl.length + 1 := by
        rw [hpre] at htl; simp [hn] at htl; omega
      obtain ⟨vl, v2, v1, hvl⟩ := split_last2 (l := x :: pre) (by simp [hprel])
      have hvll : vl.length = wl.length := by
        have := congrArg List.length hvl
        simp [hprel] at this; omega
      have hrest : rest' = pre ++ vtop :: rest'.drop n := by
        conv_lhs => rw [← List.take_append_drop n rest', hpre]
        simp
      have hxr : x :: rest' = vl ++ [v2, v1] ++ vtop :: rest'.drop n := by
        rw [← hvl]; conv_lhs => rw [hrest]
        rfl
      have hdig : Digits (x :: rest') := Digits.cons.2 ⟨hv.1, i5⟩
      rw [hxr] at hdig
      obtain ⟨hd1, hd2⟩ := Digits.append.1 hdig
      rw [Digits.cons] at hd2
      have hVe : vl ++ [v2, v1, vtop] = x :: rest'.take n := by
        rw [hpre]
        have : vl ++ [v2, v1, vtop] = (vl ++ [v2, v1]) ++ [vtop] := by simp
        rw [this, ← hvl]; rfl
      have hVv : dval (vl ++ [v2, v1, vtop]) = x + BASE * dval (rest'.take n) := by
        rw [hVe, dval_cons]
      obtain ⟨vs', j1, j2, j3, j4⟩ := divStep_spec wl wm2 wm1 vl v2 v1 vtop (rest'.drop n) hvll hw
        hd1 hd2.1 hnorm (by
          rw [hVv]
          have h1 := hv.1
          have h2 : BASE * (dval (rest'.take n) + 1) ≤ BASE * dval (wl ++ [wm2, wm1]) :=
            Nat.mul_le_mul_left _ i6
          rw [Nat.mul_add] at h2
          omega)
      set W := dval (wl ++ [wm2, wm1]) with hW
      set V := dval (vl ++ [v2, v1, vtop]) with hV
      have hWpos : 0 < W := lt_of_le_of_lt (Nat.zero_le _) i6
      have htk : (vs' ++ vtop :: rest'.drop n).take n = vs' := by
        rw [List.take_append_of_le_length (by omega), List.take_of_length_le (by omega)]
      refine ⟨V / W :: qs, vs' ++ vtop :: rest'.drop n, ?_, by simp [i2], ?_, ?_, ?_, ?_, ?_⟩
      · rw [divLoop, i1]
        simp only [Res.bind_ok]
        rw [hxr, j1]
        rfl
      · refine Digits.cons.2 ⟨?_, i3⟩
        apply Nat.div_lt_of_lt_mul
        rw [hVv, Nat.mul_comm W]
        have h1 := hv.1
        have h2 : BASE * (dval (rest'.take n) + 1) ≤ BASE * W := Nat.mul_le_mul_left _ i6
        rw [Nat.mul_add] at h2
        omega
      · have := congrArg List.length hxr
        simp only [List.length_cons, List.length_append, List.length_nil] at this ⊢
        omega
      · exact Digits.append.2 ⟨j3, Digits.cons.2 hd2⟩
      · rw [htk, j4]
        exact Nat.mod_lt _ hWpos
      · rw [htk, j4]
        have e : k + 1 + n = (k + n) + 1 := by omega
        rw [e, List.take_succ_cons, dval_cons, i7, dval_cons]
        have h1 := Nat.div_add_mod V W
        have h2 : x + BASE * (dval qs * W + dval (rest'.take n)) = V + BASE * (dval qs * W) := by
          rw [hVv]; ring
        rw [h2]
        have h3 : (V / W + BASE * dval qs) * W = W * (V / W) + BASE * (dval qs * W) := by ring
        rw [h3]
        generalize W * (V / W) = A at *
        generalize BASE * (dval qs * W) = C at *
        omega

theorem bitWidth_spec {x : Nat} (h : 0 < x) (hx : x < BASE) :
    1 ≤ bitWidth x ∧ bitWidth x ≤ 30 ∧ 2 ^ (bitWidth x - 1) ≤ x ∧ x < 2 ^ bitWidth x := by
  unfold bitWidth
  have h0 : x ≠ 0 := by omega
  rw [if_neg h0, Nat.add_sub_cancel]
  have h1 := Nat.log2_self_le h0
  have h2 := @Nat.lt_log2_self x
  refine ⟨by omega, ?_, h1, h2⟩
  have h3 : 2 ^ x.log2 < 2 ^ 30 := by rw [BASE_pow]; omega
  have := (Nat.pow_lt_pow_iff_right (by norm_num)).1 h3
  omega

theorem dval_lt_of_top {l m : List Nat} {x y : Nat} (hl : Digits l) (hlen : l.length = m.length)
    (hxy : x < y) : dval (l ++ [x]) < dval (m ++ [y]) := by
  rw [dval_append, dval_append, hlen]
  simp only [dval_cons, dval_nil, Nat.mul_zero, Nat.add_zero]
  have h1 := dval_lt hl
  rw [hlen] at h1
  have h2 : BASE ^ m.length * (x + 1) ≤ BASE ^ m.length * y := Nat.mul_le_mul_left _ hxy
  rw [Nat.mul_add] at h2
  omega

theorem top_take_lt {v wl : List Nat} {wm2 wm1 k : Nat} (hv : Digits v)
    (hlen : v.length = k + (wl.length + 2)) {x : Nat} (hx : v.getLast? = some x) (hlt : x < wm1) :
    dval ((v.drop k).take (wl.length + 2)) < dval (wl ++ [wm2, wm1]) := by
  rw [List.take_of_length_le (by simp; omega)]
  have hne : v.drop k ≠ [] := by
    intro h0; have := congrArg List.length h0; simp at this; omega
  have hne' : v ≠ [] := by rintro rfl; simp at hne
  have e : v.drop k = (v.drop k).dropLast ++ [x] := by
    conv_lhs => rw [← List.dropLast_append_getLast hne]
    rw [List.getLast_drop]
    congr 2
    rw [List.getLast?_eq_some_getLast hne'] at hx
    injection hx
  have e2 : wl ++ [wm2, wm1] = (wl ++ [wm2]) ++ [wm1] := by simp
  rw [e, e2]
  apply dval_lt_of_top _ _ hlt
  · intro d hd; exact hv.drop k d (List.mem_of_mem_dropLast hd)
  · simp; omega

/-- multi-digit division with a divisor of at least two digits: canonical quotient and remainder
if the remainder is non-zero, undefined behaviour otherwise. -/
theorem digitsDivrem_long (a b : List Nat) (ha : Canon a) (hb : Canon b) (hb2 : 2 ≤ b.length)
    (hlt : dval b < dval a) :
    (dval a % dval b ≠ 0 → ∃ q r, digitsDivrem a b = .ok (q, r) ∧ dval q = dval a / dval b ∧
      dval r = dval a % dval b ∧ Canon q ∧ Canon r) ∧
    (dval a % dval b = 0 → ∃ m, digitsDivrem a b = .ub m) := by
  have hB := BASE_eq
  have hcmp := digitsCmp_pos_spec a b ha hb
  have hc0 : digitsCmp a b ≠ 0 := fun h => by have := hcmp.2.1 h; omega
  have hc1 : ¬ digitsCmp a b < 0 := fun h => by have := hcmp.1.1 h; omega
  obtain ⟨bl, bm2, bm1, rfl⟩ := split_last2 hb2
  have hlast : (bl ++ [bm2, bm1]).getLast? = some bm1 := by simp
  have hbm1 : 0 < bm1 := by
    rcases Nat.eq_zero_or_pos bm1 with h | h
    · exact absurd (by rw [hlast, h]) hb.2
    · exact h
  have hbm1B : bm1 < BASE := by
    have := (Digits.append.1 hb.1).2
    rw [Digits.cons, Digits.cons] at this
    exact this.2.1
  obtain ⟨bw1, bw2, bw3, bw4⟩ := bitWidth_spec hbm1 hbm1B
  set d := SHIFT - bitWidth bm1 with hd
  have hS : SHIFT = 30 := rfl
  have hd30 : d ≤ 29 := by omega
  set b := bl ++ [bm2, bm1] with hbdef
  have hpd : 0 < 2 ^ d := Nat.pow_pos (by omega)
  obtain ⟨w1, w2, w3, w4⟩ := leftShift_spec d (by omega) b 0 hb.1 hpd
  obtain ⟨v1, v2, v3, v4⟩ := leftShift_spec d (by omega) a 0 ha.1 hpd
  rcases hw : leftShift d b 0 with ⟨w, cw⟩
  rcases hv : leftShift d a 0 with ⟨v, cv⟩
  rw [hw] at w1 w2 w3 w4
  rw [hv] at v1 v2 v3 v4
  simp only [Nat.add_zero] at w1 w2 w3 w4 v1 v2 v3 v4
  -- the shifted divisor has no carry and is normalised
  obtain ⟨wl, wm2, wm1, rfl⟩ := split_last2 (l := w) (by omega)
  have hnlen : wl.length + 2 = b.length := by rw [← w3]; simp
  have hbl : bl.length = wl.length := by
    have : b.length = bl.length + 2 := by rw [hbdef]; simp
    omega
  have hwdig := (Digits.append.1 w2).2
  rw [Digits.cons, Digits.cons] at hwdig
  have hbval : dval b = dval (bl ++ [bm2]) + BASE ^ (wl.length + 1) * bm1 := by
    have : b = (bl ++ [bm2]) ++ [bm1] := by rw [hbdef]; simp
    rw [this, dval_append]; simp [hbl]
  have hwval : dval (wl ++ [wm2, wm1]) = dval (wl ++ [wm2]) + BASE ^ (wl.length + 1) * wm1 := by
    have : wl ++ [wm2, wm1] = (wl ++ [wm2]) ++ [wm1] := by simp
    rw [this, dval_append]; simp
  have hP : 0 < BASE ^ (wl.length + 1) := Nat.pow_pos BASE_pos
  have hPn : BASE ^ b.length = BASE ^ (wl.length + 1) * BASE := by rw [← pow_succ, ← hnlen]
  have hblow : dval (bl ++ [bm2]) < BASE ^ (wl.length + 1) := by
    have h := dval_lt (l := bl ++ [bm2]) (fun x hx => hb.1 x (by
      rw [hbdef]; simp at hx ⊢; tauto))
    simpa [hbl] using h
  have hwlow : dval (wl ++ [wm2]) < BASE ^ (wl.length + 1) := by
    have h := dval_lt (l := wl ++ [wm2]) (fun x hx => w2 x (by simp at hx ⊢; tauto))
    simpa using h
  have h2bw : 2 ^ bitWidth bm1 * 2 ^ d = BASE := by
    rw [← pow_add, ← BASE_pow]; congr 1; omega
  have hlow2 : 2 ^ (bitWidth bm1 - 1) * 2 ^ d * 2 = BASE := by
    rw [← h2bw]
    have : 2 ^ bitWidth bm1 = 2 ^ (bitWidth bm1 - 1) * 2 := by
      rw [← pow_succ]; congr 1; omega
    rw [this]; ring
  have hbm1up : (bm1 + 1) * 2 ^ d ≤ BASE := by
    rw [← h2bw]; exact Nat.mul_le_mul_right _ bw4
  have hcw : cw = 0 := by
    have h1 : dval b * 2 ^ d < BASE ^ b.length := by
      rw [hPn]
      have h2 : dval b < BASE ^ (wl.length + 1) * (bm1 + 1) := by
        rw [hbval, Nat.mul_add]; omega
      calc dval b * 2 ^ d < BASE ^ (wl.length + 1) * (bm1 + 1) * 2 ^ d :=
            Nat.mul_lt_mul_of_pos_right h2 hpd
        _ = BASE ^ (wl.length + 1) * ((bm1 + 1) * 2 ^ d) := by ring
        _ ≤ _ := Nat.mul_le_mul_left _ hbm1up
    by_contra hne
    have : BASE ^ b.length * 1 ≤ BASE ^ b.length * cw := Nat.mul_le_mul_left _ (by omega)
    omega
  rw [hcw, Nat.mul_zero, Nat.add_zero] at w1
  have hnorm : BASE ≤ 2 * wm1 := by
    by_contra hcon
    have h1 : bm1 * 2 ^ d ≤ wm1 := by
      by_contra hc2
      have h3 : BASE ^ (wl.length + 1) * (wm1 + 1) ≤ BASE ^ (wl.length + 1) * (bm1 * 2 ^ d) :=
        Nat.mul_le_mul_left _ (by omega)
      have h4 : BASE ^ (wl.length + 1) * (bm1 * 2 ^ d) ≤ dval b * 2 ^ d := by
        rw [hbval, Nat.add_mul, ← Nat.mul_assoc]; omega
      rw [Nat.mul_add] at h3
      omega
    have h2 : 2 ^ (bitWidth bm1 - 1) * 2 ^ d ≤ bm1 * 2 ^ d := Nat.mul_le_mul_right _ bw3
    omega
  have hab : b.length ≤ a.length := hb.length_le_of_dval_le ha.1 hlt.le
  -- choose the case
  set carryTop := (if (cv ≠ 0 ∨ v.getLast?.getD 0 ≥ (wl ++ [wm2, wm1]).getLast?.getD 0) then cv else 0) with hct
  have hwlast : (wl ++ [wm2, wm1]).getLast?.getD 0 = wm1 := by simp
  have hvne : v ≠ [] := by
    rintro rfl; simp at v3; omega
  have hcvB : cv < BASE := by
    have : 2 ^ d ≤ 2 ^ 29 := Nat.pow_le_pow_right (by omega) hd30
    omega
  -- common consequence
  have main : ∀ k, (k + (wl.length + 2) ≤ a.length + 1) →
      dval (((v ++ [carryTop]).drop k).take (wl.length + 2)) < dval (wl ++ [wm2, wm1]) →
      dval ((v ++ [carryTop]).take (k + (wl.length + 2))) = dval a * 2 ^ d →
      let R : Res (List Nat × List Nat) := (do
        let (res, v) ← divLoop (wl ++ [wm2, wm1]) k (v ++ [carryTop])
        let (rem, _) := rightShift d (v.take b.length)
        let rem ← trimBack rem
        let res ← trimBack res
        .ok (res, rem))
      (dval a % dval b ≠ 0 → ∃ q r, R = .ok (q, r) ∧ dval q = dval a / dval b ∧
        dval r = dval a % dval b ∧ Canon q ∧ Canon r) ∧
      (dval a % dval b = 0 → ∃ m, R = .ub m) := by
    intro k hk htop hval
    have hcB : carryTop < BASE := by rw [hct]; split <;> [exact hcvB; exact BASE_pos]
    obtain ⟨qs, v', d1, d2, d3, d4, d5, d6, d7⟩ := divLoop_spec wl wm2 wm1 w2 hnorm k
      (v ++ [carryTop]) (Digits.append.2 ⟨v2, Digits.cons.2 ⟨hcB, Digits.nil⟩⟩)
      (by simp [v3]; omega) htop
    rw [hval, w1] at d7
    rw [w1] at d6
    simp only [d1, Res.bind_ok]
    rw [hnlen] at d6 d7
    obtain ⟨s1, s2, s3, s4⟩ := rightShift_spec d (by omega) (v'.take b.length) (d5.take _)
    rcases hrs : rightShift d (v'.take b.length) with ⟨rm, out⟩
    rw [hrs] at s1 s2 s3 s4
    simp only at s1 s2 s3 s4 ⊢
    -- out = 0
    have hbpos : 0 < dval b := by
      rw [hbval]; have := Nat.mul_pos hP hbm1; omega
    have hkey : dval a * 2 ^ d = (dval qs * dval b + dval rm) * 2 ^ d + out := by
      rw [d7, ← s1]; ring
    have hout : out = 0 := by
      have h1 := congrArg (fun t => t % 2 ^ d) hkey
      simp only [Nat.mul_mod_left] at h1
      rw [Nat.add_mod, Nat.mul_mod_left, Nat.zero_add, Nat.mod_mod, Nat.mod_eq_of_lt s4] at h1
      omega
    rw [hout, Nat.add_zero] at hkey s1
    have hkey' : dval a = dval qs * dval b + dval rm := Nat.eq_of_mul_eq_mul_right hpd hkey
    have hrmlt : dval rm < dval b := by
      rw [← s1] at d6
      exact Nat.lt_of_mul_lt_mul_right d6
    have hdm := (Nat.div_mod_unique hbpos (a := dval a) (c := dval rm) (d := dval qs)).2
      ⟨by rw [hkey']; ring, hrmlt⟩
    rw [hdm.1, hdm.2]
    constructor
    · intro hne
      obtain ⟨rr, hrr⟩ := trimBack_exists hne
      have hq0 : dval qs ≠ 0 := by
        intro h0; rw [h0] at hkey'; omega
      obtain ⟨qq, hqq⟩ := trimBack_exists hq0
      obtain ⟨x1, x2, _, _⟩ := trimBack_ok s2 hrr
      obtain ⟨y1, y2, _, _⟩ := trimBack_ok d3 hqq
      exact ⟨qq, rr, by simp [hrr, hqq], y1, x1, y2, x2⟩
    · intro h0
      obtain ⟨m, hm⟩ := trimBack_ub h0
      exact ⟨m, by simp [hm]⟩
  have hlen1 : ¬ (b.length = 1) := by omega
  unfold digitsDivrem
  simp only [hc0, hc1, if_false, hlen1, hlast, hw, hv, ← hd]
  by_cases hbig : (cv ≠ 0 ∨ v.getLast?.getD 0 ≥ (wl ++ [wm2, wm1]).getLast?.getD 0)
  · have hct' : carryTop = cv := by rw [hct, if_pos hbig]
    have hm := main (a.length + 1 - b.length) (by omega)
      (top_take_lt (x := carryTop) (Digits.append.2 ⟨v2, Digits.cons.2 ⟨by rw [hct']; exact hcvB, Digits.nil⟩⟩)
        (by simp [v3]; omega) (by simp) (by
          rw [hct']
          have : 2 ^ d ≤ 2 ^ 29 := Nat.pow_le_pow_right (by omega) hd30
          omega))
      (by
        rw [List.take_of_length_le (by simp [v3]; omega), dval_append, v3, hct']
        simp only [dval_cons, dval_nil, Nat.mul_zero, Nat.add_zero]
        exact v1)
    rw [if_pos hbig]
    simp only [hct] at hm
    exact hm
  · have hct' : carryTop = 0 := by rw [hct, if_neg hbig]
    have hcv0 : cv = 0 := by
      by_contra h; exact hbig (Or.inl h)
    have hvl : v.getLast?.getD 0 < wm1 := by
      by_contra h; exact hbig (Or.inr (by rw [hwlast]; omega))
    have hgl : v.getLast? = some (v.getLast?.getD 0) := by
      rw [List.getLast?_eq_some_getLast hvne]; rfl
    have htop := top_take_lt (k := a.length - b.length) (wl := wl) (wm2 := wm2) v2
      (by rw [v3]; omega) hgl hvl
    have hm := main (a.length - b.length) (by omega)
      (by
        rw [List.drop_append_of_le_length (by rw [v3]; omega),
          List.take_append_of_le_length (by simp [v3]; omega)]
        exact htop)
      (by
        have : a.length - b.length + (wl.length + 2) = a.length := by omega
        rw [this, List.take_append_of_le_length (by omega), List.take_of_length_le (by omega)]
        rw [hcv0] at v1; simpa using v1)
    rw [if_neg hbig]
    simp only [hct] at hm
    exact hm

end Symxx.Huge
