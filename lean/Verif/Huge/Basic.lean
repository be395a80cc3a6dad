import Verif.Huge.Spec
import Mathlib.Tactic.Ring
import Mathlib.Tactic.Linarith
import Mathlib.Tactic.NormNum
import Mathlib.Tactic.Positivity
import Mathlib.Data.Nat.Digits.Lemmas
/-! Helper lemmas: bit operations, positional value, the add/sub/compare/trim loops. -/
namespace Symxx.Huge

theorem BASE_eq : BASE = 1073741824 := rfl
theorem BASE_pow : (2 : Nat) ^ 30 = BASE := by norm_num [BASE]
theorem BASE_pos : 0 < BASE := by norm_num [BASE]
theorem one_lt_BASE : 1 < BASE := by norm_num [BASE]

theorem and_mask (n : Nat) : n &&& MASK = n % BASE := by
  rw [← BASE_pow]; exact Nat.and_two_pow_sub_one_eq_mod n 30

theorem shr_shift (n : Nat) : n >>> SHIFT = n / BASE := by
  rw [← BASE_pow]; exact Nat.shiftRight_eq_div_pow n 30

theorem u32_of_lt {n : Nat} (h : n < 2 ^ 32) : u32 n = n := Nat.mod_eq_of_lt h
theorem u64_of_lt {n : Nat} (h : n < 2 ^ 64) : u64 n = n := Nat.mod_eq_of_lt h

theorem shl_or {x c : Nat} (d : Nat) (h : c < 2 ^ d) : (x <<< d) ||| c = x * 2 ^ d + c := by
  rw [← Nat.shiftLeft_add_eq_or_of_lt h, Nat.shiftLeft_eq]

theorem shl_eq (x d : Nat) : x <<< d = x * 2 ^ d := Nat.shiftLeft_eq x d

theorem shiftOr {x c : Nat} (hx : x < 2 ^ 32) (hc : c < BASE) :
    u64 (x <<< SHIFT) ||| c = x * BASE + c := by
  have h : x <<< SHIFT = x * BASE := by rw [shl_eq]; rfl
  rw [u64_of_lt (by rw [h, BASE_eq]; omega)]
  rw [← BASE_pow] at hc ⊢
  exact shl_or 30 hc

@[simp] theorem dval_nil : dval [] = 0 := rfl
@[simp] theorem dval_cons (d : Nat) (l : List Nat) : dval (d :: l) = d + BASE * dval l := by
  rw [← BASE_pow]; simp [dval, Nat.ofDigits_cons]

theorem dval_append (l m : List Nat) : dval (l ++ m) = dval l + BASE ^ l.length * dval m := by
  rw [← BASE_pow]; simp only [dval, Nat.ofDigits_append]

@[simp] theorem dval_replicate_zero (n : Nat) : dval (List.replicate n 0) = 0 := by
  induction n with
  | zero => rfl
  | succ n ih => simp [List.replicate_succ, ih]

@[simp] theorem Digits.nil : Digits [] := by simp [Digits]
theorem Digits.cons {d l} : Digits (d :: l) ↔ d < BASE ∧ Digits l := by
  rw [← BASE_pow]; simp [Digits]
theorem Digits.append {l m} : Digits (l ++ m) ↔ Digits l ∧ Digits m := by
  simp only [Digits, List.mem_append]
  constructor
  · intro h; exact ⟨fun d hd => h d (Or.inl hd), fun d hd => h d (Or.inr hd)⟩
  · rintro ⟨h1, h2⟩ d (hd | hd); exacts [h1 d hd, h2 d hd]
theorem Digits.replicate_zero (n) : Digits (List.replicate n 0) := by
  intro d hd; rw [List.mem_replicate] at hd; simp [hd.2]
theorem Digits.take {l} (h : Digits l) (n) : Digits (l.take n) :=
  fun d hd => h d (List.mem_of_mem_take hd)
theorem Digits.drop {l} (h : Digits l) (n) : Digits (l.drop n) :=
  fun d hd => h d (List.mem_of_mem_drop hd)
theorem Digits.reverse {l} (h : Digits l) : Digits l.reverse :=
  fun d hd => h d (List.mem_reverse.1 hd)
theorem Digits.tail {l} (h : Digits l) : Digits l.tail :=
  fun d hd => h d (List.mem_of_mem_tail hd)

theorem dval_lt {l : List Nat} (h : Digits l) : dval l < BASE ^ l.length := by
  induction l with
  | nil => simp
  | cons d l ih =>
    rw [Digits.cons] at h
    have := ih h.2
    rw [dval_cons, List.length_cons, pow_succ]
    have h1 : dval l + 1 ≤ BASE ^ l.length := this
    have : BASE * (dval l + 1) ≤ BASE * BASE ^ l.length := Nat.mul_le_mul_left _ h1
    have := h.1
    nlinarith

theorem dval_take_add_drop (l : List Nat) (n : Nat) (hn : n ≤ l.length) :
    dval l = dval (l.take n) + BASE ^ n * dval (l.drop n) := by
  conv_lhs => rw [← List.take_append_drop n l]
  rw [dval_append, List.length_take, Nat.min_eq_left hn]

theorem dval_take_mod (l : List Nat) (h : Digits l) (n : Nat) :
    dval (l.take n) = dval l % BASE ^ n := by
  by_cases hn : n ≤ l.length
  · rw [dval_take_add_drop l n hn, Nat.add_mul_mod_self_left, Nat.mod_eq_of_lt]
    have := dval_lt (h.take n)
    rwa [List.length_take, Nat.min_eq_left hn] at this
  · rw [List.take_of_length_le (by omega), Nat.mod_eq_of_lt]
    have := dval_lt h
    exact lt_of_lt_of_le this (Nat.pow_le_pow_right (by exact BASE_pos) (by omega))

theorem dval_eq_zero {l : List Nat} : dval l = 0 ↔ ∀ d ∈ l, d = 0 := by
  induction l with
  | nil => simp
  | cons d l ih =>
    rw [dval_cons, Nat.add_eq_zero_iff, Nat.mul_eq_zero, ih]
    simp [BASE]

/-! ### canonical vectors -/

theorem Canon.nil : Canon [] := by simp [Canon]

theorem Canon.ge {l : List Nat} (h : Canon l) (hne : l ≠ []) : BASE ^ (l.length - 1) ≤ dval l := by
  obtain ⟨h1, h2⟩ := h
  obtain ⟨m, x, rfl⟩ : ∃ m x, l = m ++ [x] := ⟨l.dropLast, l.getLast hne, (List.dropLast_append_getLast hne).symm⟩
  simp at h2
  rw [dval_append]
  simp
  have : 1 ≤ x := Nat.one_le_iff_ne_zero.2 h2
  nlinarith [Nat.mul_le_mul_left (BASE ^ m.length) this]

theorem Canon.dval_eq_zero {l : List Nat} (h : Canon l) : dval l = 0 ↔ l = [] := by
  constructor
  · intro h0
    by_contra hne
    have := h.ge hne
    rw [h0] at this
    have : 0 < BASE ^ (l.length - 1) := Nat.pow_pos (by exact BASE_pos)
    omega
  · rintro rfl; rfl

theorem canon_of_ge {l : List Nat} (h : Digits l) (hv : l ≠ [] → BASE ^ (l.length - 1) ≤ dval l) :
    Canon l := by
  refine ⟨h, ?_⟩
  intro hl
  have hne : l ≠ [] := by rintro rfl; simp at hl
  obtain ⟨m, x, rfl⟩ : ∃ m x, l = m ++ [x] := ⟨l.dropLast, l.getLast hne, (List.dropLast_append_getLast hne).symm⟩
  simp at hl
  subst hl
  have := hv (by simp)
  rw [dval_append] at this
  simp at this
  have := dval_lt (Digits.append.1 h).1
  omega

/-- canonical vectors are determined by their value. -/
theorem dval_inj {l m : List Nat} (hl : Digits l) (hm : Digits m) (hlen : l.length = m.length)
    (h : dval l = dval m) : l = m := by
  induction l generalizing m with
  | nil => cases m <;> simp_all
  | cons d l ih =>
    cases m with
    | nil => simp at hlen
    | cons e m =>
      rw [Digits.cons] at hl hm
      simp only [dval_cons] at h
      have hde : d = e := by
        have h1 := congrArg (· % BASE) h
        simp only [Nat.add_mul_mod_self_left] at h1
        rwa [Nat.mod_eq_of_lt hl.1, Nat.mod_eq_of_lt hm.1] at h1
      subst hde
      have : dval l = dval m := by
        have : BASE * dval l = BASE * dval m := by omega
        exact Nat.eq_of_mul_eq_mul_left (by exact BASE_pos) this
      rw [ih hl.2 hm.2 (by simpa using hlen) this]

theorem Canon.length_le_of_dval_le {l m : List Nat} (hl : Canon l) (hm : Digits m)
    (h : dval l ≤ dval m) : l.length ≤ m.length := by
  by_cases hne : l = []
  · simp [hne]
  have h1 := hl.ge hne
  have h2 := dval_lt hm
  have h3 : BASE ^ (l.length - 1) < BASE ^ m.length := by omega
  have := (Nat.pow_lt_pow_iff_right one_lt_BASE).1 h3
  omega

theorem Canon.inj {l m : List Nat} (hl : Canon l) (hm : Canon m) (h : dval l = dval m) : l = m :=
  dval_inj hl.1 hm.1
    (le_antisymm (hl.length_le_of_dval_le hm.1 h.le) (hm.length_le_of_dval_le hl.1 h.ge)) h

/-! ### addition loop -/

theorem addLoop_spec (x y : List Nat) (c : Nat) (hx : Digits x) (hy : Digits y) (hc : c ≤ 1) :
    dval (addLoop x y c).1 + BASE ^ x.length * (addLoop x y c).2
      = dval x + dval (y.take x.length) + c
    ∧ Digits (addLoop x y c).1 ∧ (addLoop x y c).1.length = x.length ∧ (addLoop x y c).2 ≤ 1 := by
  induction x generalizing y c with
  | nil => simp [addLoop, hc]
  | cons a x ih =>
    rw [Digits.cons] at hx
    have hB := BASE_eq
    cases y with
    | nil =>
      have e1 : u32 (c + a) = c + a := u32_of_lt (by omega)
      simp only [addLoop, List.tail_nil, e1, and_mask, shr_shift]
      have hc' : (c + a) / BASE ≤ 1 := by rw [hB] at hx ⊢; omega
      obtain ⟨i1, i2, i3, i4⟩ := ih [] ((c + a) / BASE) hx.2 Digits.nil hc'
      refine ⟨?_, ?_, by simp [i3], i4⟩
      · simp only [List.length_cons, List.take_nil, dval_nil, dval_cons, pow_succ] at *
        have h1 := Nat.mod_add_div (c + a) BASE
        have h2 := congrArg (fun t => BASE * t) i1
        linarith
      · exact Digits.cons.2 ⟨Nat.mod_lt _ (by exact BASE_pos), i2⟩
    | cons b y =>
      rw [Digits.cons] at hy
      have e1 : u32 (c + a) = c + a := u32_of_lt (by omega)
      have e2 : u32 (c + a + b) = c + a + b := u32_of_lt (by omega)
      simp only [addLoop, List.tail_cons, e1, e2, and_mask, shr_shift]
      have hc' : (c + a + b) / BASE ≤ 1 := by rw [hB] at hx hy ⊢; omega
      obtain ⟨i1, i2, i3, i4⟩ := ih y ((c + a + b) / BASE) hx.2 hy.2 hc'
      refine ⟨?_, ?_, by simp [i3], i4⟩
      · simp only [List.length_cons, List.take_succ_cons, dval_cons, pow_succ] at *
        have h1 := Nat.mod_add_div (c + a + b) BASE
        have h2 := congrArg (fun t => BASE * t) i1
        linarith
      · exact Digits.cons.2 ⟨Nat.mod_lt _ (by exact BASE_pos), i2⟩

theorem digitsAdd_spec (c d : List Nat) (hc : Digits c) (hd : Digits d) :
    dval (digitsAdd c d) = dval c + dval d ∧ Digits (digitsAdd c d)
    ∧ (digitsAdd c d).length ≤ max c.length d.length + 1
    ∧ max c.length d.length ≤ (digitsAdd c d).length := by
  have key : ∀ a b : List Nat, Digits a → Digits b → b.length ≤ a.length →
      let r := (let (r, carry) := addLoop a b 0; if carry ≠ 0 then r ++ [carry] else r)
      dval r = dval a + dval b ∧ Digits r ∧ r.length ≤ a.length + 1 ∧ a.length ≤ r.length := by
    intro a b ha hb hl
    obtain ⟨i1, i2, i3, i4⟩ := addLoop_spec a b 0 ha hb (by omega)
    rw [List.take_of_length_le hl] at i1
    rcases hab : addLoop a b 0 with ⟨r, k⟩
    rw [hab] at i1 i2 i3 i4
    simp only at i1 i2 i3 i4 ⊢
    by_cases hk : k = 0
    · simp [hk] at i1 ⊢; exact ⟨i1, i2, by omega, by omega⟩
    · have : k = 1 := by omega
      subst this
      simp [dval_append, Digits.append, i2, Digits.cons, BASE, i3] at i1 ⊢
      omega
  unfold digitsAdd
  by_cases h : c.length > d.length
  · have := key c d hc hd h.le
    simp only [h, if_true] at this ⊢
    refine ⟨this.1, this.2.1, ?_, ?_⟩ <;> [have := this.2.2.1; have := this.2.2.2] <;> omega
  · have := key d c hd hc (by omega)
    simp only [h, if_false] at this ⊢
    refine ⟨by rw [this.1]; omega, this.2.1, ?_, ?_⟩ <;> [have := this.2.2.1; have := this.2.2.2] <;> omega

/-! ### subtraction loop -/

theorem subLoop_spec (x y : List Nat) (c : Nat) (hx : Digits x) (hy : Digits y) (hc : c ≤ 1) :
    dval (subLoop x y c).1 + dval (y.take x.length) + c
      = dval x + BASE ^ x.length * (subLoop x y c).2
    ∧ Digits (subLoop x y c).1 ∧ (subLoop x y c).1.length = x.length ∧ (subLoop x y c).2 ≤ 1 := by
  induction x generalizing y c with
  | nil => simp [subLoop, hc]
  | cons a x ih =>
    rw [Digits.cons] at hx
    have hB := BASE_eq
    have hor : ∀ n : Nat, n &&& 1 = n % 2 := fun n => Nat.and_one_is_mod n
    cases y with
    | nil =>
      simp only [subLoop, List.tail_nil, and_mask, shr_shift, hor]
      set s := u32sub a c with hs
      have hsv : s % BASE + c = a + BASE * (s / BASE % 2) ∧ s / BASE % 2 ≤ 1 := by
        simp only [hs, u32sub, hB]; omega
      obtain ⟨i1, i2, i3, i4⟩ := ih [] (s / BASE % 2) hx.2 Digits.nil hsv.2
      refine ⟨?_, ?_, by simp [i3], i4⟩
      · simp only [List.length_cons, List.take_nil, dval_nil, dval_cons, pow_succ] at *
        have h2 := congrArg (fun t => BASE * t) i1
        linarith [hsv.1]
      · exact Digits.cons.2 ⟨Nat.mod_lt _ (by exact BASE_pos), i2⟩
    | cons b y =>
      rw [Digits.cons] at hy
      simp only [subLoop, List.tail_cons, and_mask, shr_shift, hor]
      set s := u32sub (u32sub a c) b with hs
      have hsv : s % BASE + b + c = a + BASE * (s / BASE % 2) ∧ s / BASE % 2 ≤ 1 := by
        simp only [hs, u32sub, hB]; omega
      obtain ⟨i1, i2, i3, i4⟩ := ih y (s / BASE % 2) hx.2 hy.2 hsv.2
      refine ⟨?_, ?_, by simp [i3], i4⟩
      · simp only [List.length_cons, List.take_succ_cons, dval_cons, pow_succ] at *
        have h2 := congrArg (fun t => BASE * t) i1
        linarith [hsv.1]
      · exact Digits.cons.2 ⟨Nat.mod_lt _ (by exact BASE_pos), i2⟩

theorem digitsSub_spec (a b : List Nat) (ha : Digits a) (hb : Digits b)
    (hl : b.length ≤ a.length) (h : dval b ≤ dval a) :
    dval (digitsSub a b) = dval a - dval b ∧ Digits (digitsSub a b)
    ∧ (digitsSub a b).length = a.length := by
  obtain ⟨i1, i2, i3, i4⟩ := subLoop_spec a b 0 ha hb (by omega)
  rw [List.take_of_length_le hl] at i1
  refine ⟨?_, i2, i3⟩
  unfold digitsSub
  have h1 := dval_lt i2
  rw [i3] at h1
  rcases Nat.le_one_iff_eq_zero_or_eq_one.1 i4 with h0 | h0
  · rw [h0] at i1; omega
  · rw [h0] at i1; omega

/-! ### comparison -/

theorem cmpDiff_spec (a b : List Nat) (ha : Digits a) (hb : Digits b) (hl : a.length = b.length) :
    (cmpDiff a b < 0 ↔ dval a < dval b) ∧ (cmpDiff a b = 0 ↔ dval a = dval b) := by
  induction a generalizing b with
  | nil => cases b <;> simp_all [cmpDiff]
  | cons x a ih =>
    cases b with
    | nil => simp at hl
    | cons y b =>
      rw [Digits.cons] at ha hb
      obtain ⟨i1, i2⟩ := ih b ha.2 hb.2 (by simpa using hl)
      simp only [cmpDiff, dval_cons]
      have hx := ha.1
      have hy := hb.1
      have hB := BASE_eq
      by_cases hd : cmpDiff a b = 0
      · have := i2.1 hd
        simp only [hd, ne_eq, not_true_eq_false, if_false, this]
        constructor <;> constructor <;> intro h <;> omega
      · simp only [ne_eq, hd, not_false_eq_true, if_true, i1]
        have hne : dval a ≠ dval b := fun h => hd (i2.2 h)
        rw [hB] at hx hy ⊢
        rcases Nat.lt_or_gt_of_ne hne with h | h
        · constructor <;> constructor <;> intro hh <;> first | omega | exact hh.elim
        · constructor <;> constructor <;> intro hh <;> first | omega | exact hh.elim

theorem digitsCmp_pos_spec (a b : List Nat) (ha : Canon a) (hb : Canon b) :
    (digitsCmp a b < 0 ↔ dval a < dval b) ∧ (digitsCmp a b = 0 ↔ dval a = dval b) := by
  unfold digitsCmp
  simp only [if_true, one_mul]
  by_cases h : (a.length : Int) - b.length = 0
  · simp only [h, if_true]
    exact cmpDiff_spec a b ha.1 hb.1 (by omega)
  · simp only [h, if_false]
    by_cases hlt : a.length < b.length
    · have h1 : dval a < dval b := by
        by_contra hcon
        have := hb.length_le_of_dval_le ha.1 (by omega)
        omega
      refine ⟨⟨fun _ => h1, fun _ => by omega⟩, ⟨fun hh => by first | omega | exact hh.elim, fun _ => by omega⟩⟩
    · have h1 : dval b < dval a := by
        by_contra hcon
        have := ha.length_le_of_dval_le hb.1 (by omega)
        omega
      refine ⟨⟨fun _ => by omega, fun _ => by omega⟩, ⟨fun hh => by first | omega | exact hh.elim, fun _ => by omega⟩⟩

/-! ### trimming -/

theorem popZeros_spec (l : List Nat) :
    (∀ r, popZeros l = .ok r → dval r.reverse = dval l.reverse ∧ r.head? ≠ some 0 ∧ r ≠ []
        ∧ (∀ d ∈ r, d ∈ l) ∧ r.length ≤ l.length)
    ∧ (dval l.reverse ≠ 0 → ∃ r, popZeros l = .ok r)
    ∧ (dval l.reverse = 0 → ∃ m, popZeros l = .ub m) := by
  induction l with
  | nil => simp [popZeros]
  | cons x l ih =>
    obtain ⟨i1, i2, i3⟩ := ih
    simp only [popZeros]
    by_cases hx : x = 0
    · subst hx
      simp only [if_true, List.reverse_cons, dval_append, dval_cons, dval_nil, Nat.mul_zero,
        Nat.add_zero]
      refine ⟨?_, i2, i3⟩
      intro r hr
      obtain ⟨j1, j2, j3, j4, j5⟩ := i1 r hr
      exact ⟨j1, j2, j3, fun d hd => List.mem_cons_of_mem _ (j4 d hd), by simp; omega⟩
    · simp only [hx, if_false]
      refine ⟨?_, fun _ => ⟨_, rfl⟩, ?_⟩
      · intro r hr
        injection hr with hr
        subst hr
        simp [hx]
      · intro h
        exfalso
        rw [dval_eq_zero] at h
        exact hx (h x (by simp))

theorem trimBack_ok {l r : List Nat} (hl : Digits l) (h : trimBack l = .ok r) :
    dval r = dval l ∧ Canon r ∧ r ≠ [] ∧ r.length ≤ l.length := by
  unfold trimBack at h
  obtain ⟨s, hs, hr⟩ := Res.bind_eq_ok.1 h
  injection hr with hr
  subst hr
  obtain ⟨j1, j2, j3, j4, j5⟩ := (popZeros_spec l.reverse).1 s hs
  rw [List.reverse_reverse] at j1
  refine ⟨j1, ⟨?_, ?_⟩, by simpa using j3, by simpa using j5⟩
  · exact Digits.reverse fun d hd => hl d (List.mem_reverse.1 (j4 d hd))
  · simpa [List.getLast?_reverse] using j2

theorem trimBack_exists {l : List Nat} (h : dval l ≠ 0) : ∃ r, trimBack l = .ok r := by
  obtain ⟨r, hr⟩ := (popZeros_spec l.reverse).2.1 (by simpa using h)
  exact ⟨r.reverse, by simp [trimBack, hr]⟩

theorem trimBack_ub {l : List Nat} (h : dval l = 0) : ∃ m, trimBack l = .ub m := by
  obtain ⟨m, hr⟩ := (popZeros_spec l.reverse).2.2 (by simpa using h)
  exact ⟨m, by simp [trimBack, hr]⟩

end Symxx.Huge
