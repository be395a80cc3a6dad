import Verif.Huge.Gcd
import Mathlib.Tactic.IntervalCases
/-! String conversions of `Huge`. -/
namespace Symxx.Huge
attribute [local irreducible] BASE

/-! ### from string -/

theorem isDigit_spec {c : Char} (h : isDigit c = true) : c.toNat - '0'.toNat ≤ 9 ∧ 48 ≤ c.toNat := by
  simp only [isDigit, Bool.and_eq_true, decide_eq_true_eq] at h
  have h1 : ('0' : Char).toNat ≤ c.toNat := h.1
  have h2 : c.toNat ≤ ('9' : Char).toNat := h.2
  have e1 : ('0' : Char).toNat = 48 := rfl
  have e2 : ('9' : Char).toNat = 57 := rfl
  omega

/-- the digit prefix of a string. -/
abbrev digitPrefix (s : List Char) : List Char := s.takeWhile isDigit

theorem gather_spec (rest : List Char) (c i : Nat) (hi : i ≤ 9) (hc : c < 10 ^ i) :
    (gather rest c i).1 < 10 ^ (gather rest c i).2.1 ∧ (gather rest c i).2.1 ≤ 9 ∧
    i ≤ (gather rest c i).2.1 ∧
    (gather rest c i).2.2.length ≤ rest.length ∧
    ∀ X, Nat.ofDigitChars 10 (digitPrefix rest) (X * 10 ^ i + c) =
      Nat.ofDigitChars 10 (digitPrefix (gather rest c i).2.2)
        (X * 10 ^ (gather rest c i).2.1 + (gather rest c i).1) := by
  induction rest generalizing c i with
  | nil => simp [gather, hc, hi]
  | cons ch rest ih =>
    unfold gather
    by_cases h9 : i < 9
    · rw [if_pos h9]
      by_cases hd : isDigit ch = true
      · rw [if_pos hd]
        obtain ⟨hd1, hd2⟩ := isDigit_spec hd
        set k := ch.toNat - '0'.toNat with hk
        have hp : 10 ^ (i + 1) = 10 ^ i * 10 := pow_succ 10 i
        have hp9 : 10 ^ i ≤ 10 ^ 9 := Nat.pow_le_pow_right (by omega) hi
        have e : u64 (c * 10 + k) = c * 10 + k := u64_of_lt (by omega)
        rw [e]
        obtain ⟨i1, i2, i2', i3, i4⟩ := ih (c * 10 + k) (i + 1) (by omega) (by omega)
        refine ⟨i1, i2, by omega, by simp; omega, ?_⟩
        intro X
        rw [← i4 X, digitPrefix, List.takeWhile_cons_of_pos hd, Nat.ofDigitChars_cons]
        congr 1
        rw [hp]; ring
      · rw [if_neg hd]
        refine ⟨hc, hi, le_refl _, by simp, ?_⟩
        intro X
        rw [digitPrefix, List.takeWhile_cons_of_neg hd]
        simp
    · rw [if_neg h9]
      exact ⟨hc, hi, le_refl _, le_refl _, fun X => rfl⟩

theorem convMult_spec (i : Nat) (h1 : 1 ≤ i) (h : i ≤ 9) : convMult i = 10 ^ i := by
  interval_cases i <;> rfl

theorem mulAddLoop_spec (m : Nat) (hm : m < BASE) (p : List Nat) (c : Nat) (hp : Digits p)
    (hc : c < BASE) :
    dval (mulAddLoop m p c).1 + BASE ^ p.length * (mulAddLoop m p c).2 = dval p * m + c ∧
    Digits (mulAddLoop m p c).1 ∧ (mulAddLoop m p c).1.length = p.length ∧
    (mulAddLoop m p c).2 < BASE := by
  induction p generalizing c with
  | nil => simp [mulAddLoop, hc]
  | cons a p ih =>
    rw [Digits.cons] at hp
    have hB := BASE_eq
    have ha := hp.1
    have hprod : a * m ≤ (BASE - 1) * (BASE - 1) := Nat.mul_le_mul (by omega) (by omega)
    rw [hB] at hprod
    have e1 : u64 (a * m) = a * m := u64_of_lt (by omega)
    have e2 : u64 (c + a * m) = c + a * m := u64_of_lt (by omega)
    have hq : (c + a * m) / BASE < BASE := by rw [hB] at hc ⊢; omega
    have hmod : (c + a * m) % BASE < BASE := Nat.mod_lt _ BASE_pos
    have e3 : u32 ((c + a * m) % BASE) = (c + a * m) % BASE := u32_of_lt (by omega)
    obtain ⟨i1, i2, i3, i4⟩ := ih ((c + a * m) / BASE) hp.2 hq
    simp only [mulAddLoop, e1, e2, and_mask, shr_shift, e3]
    refine ⟨?_, Digits.cons.2 ⟨hmod, i2⟩, by simp [i3], i4⟩
    simp only [dval_cons, List.length_cons, pow_succ]
    have h1 := Nat.mod_add_div (c + a * m) BASE
    have h2 := congrArg (fun t => BASE * t) i1
    have h3 : (a + BASE * dval p) * m = a * m + BASE * (dval p * m) := by ring
    rw [h3]
    linarith

theorem pushDigits_spec (n c : Nat) (hc : c < 2 ^ (30 * n)) :
    dval (pushDigits n c) = c ∧ Canon (pushDigits n c) := by
  induction n generalizing c with
  | zero => simp at hc; subst hc; exact ⟨rfl, Canon.nil⟩
  | succ n ih =>
    rw [pushDigits]
    by_cases h0 : c = 0
    · rw [if_pos h0, h0]; exact ⟨rfl, Canon.nil⟩
    · rw [if_neg h0, and_mask, shr_shift]
      have hlt : c / BASE < 2 ^ (30 * n) := by
        apply Nat.div_lt_of_lt_mul
        rw [← BASE_pow, ← pow_add]
        have : 30 * (n + 1) = 30 + 30 * n := by ring
        rwa [this] at hc
      obtain ⟨i1, i2⟩ := ih _ hlt
      have hdm := Nat.mod_add_div c BASE
      refine ⟨by rw [dval_cons, i1]; omega, Digits.cons.2 ⟨Nat.mod_lt _ BASE_pos, i2.1⟩, ?_⟩
      rcases hp : pushDigits n (c / BASE) with _ | ⟨x, l⟩
      · rw [hp] at i1
        simp only [dval_nil] at i1
        simp
        rw [← i1, Nat.mul_zero] at hdm
        omega
      · rw [hp] at i2
        rw [List.getLast?_cons_cons]; exact i2.2

/-- the parse loop computes the decimal value of the digit prefix, in canonical form. -/
theorem parseLoop_spec (n : Nat) (rest : List Char) (digits : List Nat) (hn : rest.length ≤ n)
    (hd : Canon digits) :
    dval (parseLoop n rest digits) = Nat.ofDigitChars 10 (digitPrefix rest) (dval digits) ∧
    Canon (parseLoop n rest digits) := by
  induction n generalizing rest digits with
  | zero =>
    have : rest = [] := List.length_eq_zero_iff.1 (by omega)
    subst this
    simp [parseLoop, hd]
  | succ n ih =>
    cases rest with
    | nil => simp [parseLoop, hd]
    | cons ch rest =>
      rw [parseLoop]
      by_cases hdig : isDigit ch = true
      · rw [if_pos hdig]
        obtain ⟨hd1, hd2⟩ := isDigit_spec hdig
        set k := ch.toNat - '0'.toNat with hk
        obtain ⟨g1, g2, g2', g3, g4⟩ := gather_spec rest k 1 (by omega) (by omega)
        rcases hg : gather rest k 1 with ⟨c, i, rest'⟩
        rw [hg] at g1 g2 g2' g3 g4
        simp only at g1 g2 g2' g3 g4 ⊢
        have hconv : (if i ≠ 9 then convMult i else 1000000000) = 10 ^ i := by
          by_cases h9 : i = 9
          · subst h9; rfl
          · rw [if_pos h9]; exact convMult_spec i g2' g2
        rw [hconv]
        have hB := BASE_eq
        have hp9 : 10 ^ i ≤ 10 ^ 9 := Nat.pow_le_pow_right (by omega) g2
        have hp1 : 10 ^ 1 ≤ 10 ^ i := Nat.pow_le_pow_right (by omega) g2'
        obtain ⟨m1, m2, m3, m4⟩ := mulAddLoop_spec (10 ^ i) (by omega) digits c hd.1 (by omega)
        rcases hm : mulAddLoop (10 ^ i) digits c with ⟨ds, c'⟩
        rw [hm] at m1 m2 m3 m4
        simp only at m1 m2 m3 m4 ⊢
        obtain ⟨p1, p2⟩ := pushDigits_spec 3 c' (by omega)
        have hval : dval (ds ++ pushDigits 3 c') = dval digits * 10 ^ i + c := by
          rw [dval_append, p1, m3, m1]
        have hcanon : Canon (ds ++ pushDigits 3 c') := by
          rcases hpd : pushDigits 3 c' with _ | ⟨x, l⟩
          · rw [hpd] at p1
            simp only [dval_nil] at p1
            subst p1
            rw [List.append_nil]
            apply canon_of_ge m2
            intro hne
            have hne' : digits ≠ [] := by
              rintro rfl
              exact hne (List.length_eq_zero_iff.1 m3)
            have hge := hd.ge hne'
            rw [m3]
            have : dval ds = dval digits * 10 ^ i + c := by rw [← m1]; simp
            rw [this]
            have : dval digits * 1 ≤ dval digits * 10 ^ i := Nat.mul_le_mul_left _ (by omega)
            omega
          · rw [hpd] at p2
            refine ⟨Digits.append.2 ⟨m2, p2.1⟩, ?_⟩
            rw [List.getLast?_append_of_ne_nil _ (by simp)]
            exact p2.2
        obtain ⟨r1, r2⟩ := ih rest' _ (by simp at hn; omega) hcanon
        refine ⟨?_, r2⟩
        rw [r1, hval, ← g4 (dval digits)]
        simp only [digitPrefix]
        rw [List.takeWhile_cons_of_pos hdig, Nat.ofDigitChars_cons]
        congr 1
        rw [pow_one]; ring
      · rw [if_neg hdig, digitPrefix, List.takeWhile_cons_of_neg hdig]
        exact ⟨rfl, hd⟩

/-- exact description of the string constructor: the sign is taken from the first character of the
string, the digits from the first digit or sign character on. -/
theorem ofString_spec (s : List Char) :
    ofString s =
      (let rest := s.dropWhile fun c => !(isDigit c || c == '+' || c == '-')
       if rest.isEmpty then .throw "Invaild string."
       else
         let body := if s.head? = some '+' ∨ s.head? = some '-' then rest.tail else rest
         .ok ⟨parseLoop body.length body [], !(s.head? == some '-')⟩) := by
  unfold ofString
  generalize (s.dropWhile fun c => !(isDigit c || c == '+' || c == '-')) = rest
  by_cases h : rest.isEmpty = true
  · simp [h]
  · simp only [h, Bool.not_eq_true] at *
    simp [h]
    rcases hs : s.head? with _ | c
    · simp
    · by_cases h1 : c = '+'
      · subst h1; simp
      · by_cases h2 : c = '-'
        · subst h2; simp
        · simp [h1, h2]

/-! ### to string -/

/-- value of a little-endian vector of decimal limbs. -/
def lval (l : List Nat) : Nat := Nat.ofDigits DECBASE l

@[simp] theorem lval_nil : lval [] = 0 := rfl
@[simp] theorem lval_cons (d : Nat) (l : List Nat) : lval (d :: l) = d + DECBASE * lval l := by
  simp [lval, Nat.ofDigits_cons]
theorem lval_append (l m : List Nat) : lval (l ++ m) = lval l + DECBASE ^ l.length * lval m := by
  simp only [lval, Nat.ofDigits_append]

/-- all limbs below 10^9. -/
def Limbs (l : List Nat) : Prop := ∀ d ∈ l, d < DECBASE

theorem Limbs.cons {d l} : Limbs (d :: l) ↔ d < DECBASE ∧ Limbs l := by simp [Limbs]

theorem decLoop_spec (j : List Nat) (hi : Nat) (hj : Limbs j) (hh : hi < BASE) :
    lval (decLoop j hi).1 + DECBASE ^ j.length * (decLoop j hi).2 = lval j * BASE + hi ∧
    Limbs (decLoop j hi).1 ∧ (decLoop j hi).1.length = j.length ∧ (decLoop j hi).2 < BASE := by
  induction j generalizing hi with
  | nil => simp [decLoop, hh, Limbs]
  | cons a j ih =>
    rw [Limbs.cons] at hj
    have hB := BASE_eq
    have ha := hj.1
    have e1 : u64 (a <<< SHIFT) ||| hi = a * BASE + hi := shiftOr (by unfold DECBASE at ha; omega) hh
    set z := a * BASE + hi with hz
    have hzlt : z < DECBASE * BASE := by
      have : (a + 1) * BASE ≤ DECBASE * BASE := Nat.mul_le_mul_right _ ha
      rw [Nat.add_mul] at this; omega
    have hq : z / DECBASE < BASE := Nat.div_lt_of_lt_mul hzlt
    have e2 : u32 (z / DECBASE) = z / DECBASE := u32_of_lt (by omega)
    have hdm := Nat.mod_add_div z DECBASE
    have hml : z % DECBASE < DECBASE := Nat.mod_lt _ (by norm_num)
    have hsub : z - z / DECBASE * DECBASE = z % DECBASE := by
      rw [Nat.mul_comm]; omega
    have hD : DECBASE = 1000000000 := rfl
    have e3 : u32 (u64 (z - z / DECBASE * DECBASE)) = z % DECBASE := by
      rw [hsub, u64_of_lt (by omega), u32_of_lt (by omega)]
    obtain ⟨i1, i2, i3, i4⟩ := ih (z / DECBASE) hj.2 hq
    simp only [decLoop, e1, e2, e3]
    refine ⟨?_, Limbs.cons.2 ⟨hml, i2⟩, by simp [i3], i4⟩
    simp only [lval_cons, List.length_cons, pow_succ]
    have h2 := congrArg (fun t => DECBASE * t) i1
    have h3 : (a + DECBASE * lval j) * BASE = a * BASE + DECBASE * (lval j * BASE) := by ring
    rw [h3]
    linarith

theorem pushDec_spec (n hi : Nat) (h : hi < DECBASE ^ n) :
    lval (pushDec n hi) = hi ∧ Limbs (pushDec n hi) ∧ (pushDec n hi).getLast? ≠ some 0 := by
  induction n generalizing hi with
  | zero => simp at h; subst h; simp [pushDec, Limbs]
  | succ n ih =>
    rw [pushDec]
    by_cases h0 : hi = 0
    · rw [if_pos h0, h0]; simp [Limbs]
    · rw [if_neg h0]
      have hlt : hi / DECBASE < DECBASE ^ n :=
        Nat.div_lt_of_lt_mul (by rw [Nat.mul_comm, ← pow_succ]; exact h)
      obtain ⟨i1, i2, i3⟩ := ih _ hlt
      have hdm := Nat.mod_add_div hi DECBASE
      refine ⟨by rw [lval_cons, i1]; omega, Limbs.cons.2 ⟨Nat.mod_lt _ (by norm_num), i2⟩, ?_⟩
      rcases hp : pushDec n (hi / DECBASE) with _ | ⟨x, l⟩
      · rw [hp] at i1
        simp only [lval_nil] at i1
        rw [← i1, Nat.mul_zero] at hdm
        simp only [List.getLast?_singleton, ne_eq, Option.some.injEq]
        omega
      · rw [hp] at i3
        rw [List.getLast?_cons_cons]; exact i3

theorem lval_ge {l : List Nat} (hne : l ≠ []) (h : l.getLast? ≠ some 0) :
    DECBASE ^ (l.length - 1) ≤ lval l := by
  obtain ⟨m, x, rfl⟩ : ∃ m x, l = m ++ [x] :=
    ⟨l.dropLast, l.getLast hne, (List.dropLast_append_getLast hne).symm⟩
  simp only [List.getLast?_append, List.getLast?_singleton, Option.some_or, ne_eq,
    Option.some.injEq] at h
  rw [lval_append]
  simp only [List.length_append, List.length_singleton, Nat.add_sub_cancel, lval_cons, lval_nil,
    Nat.mul_zero, Nat.add_zero]
  have : DECBASE ^ m.length * 1 ≤ DECBASE ^ m.length * x := Nat.mul_le_mul_left _ (by omega)
  omega

theorem lval_lt {l : List Nat} (h : Limbs l) : lval l < DECBASE ^ l.length := by
  induction l with
  | nil => simp
  | cons d l ih =>
    rw [Limbs.cons] at h
    have h1 : DECBASE * (lval l + 1) ≤ DECBASE * DECBASE ^ l.length :=
      Nat.mul_le_mul_left _ (ih h.2)
    rw [lval_cons, List.length_cons, pow_succ, Nat.mul_comm (DECBASE ^ l.length)]
    have := h.1
    rw [Nat.mul_add] at h1
    omega

theorem limbs_canon {l : List Nat} (h : Limbs l) (hv : l ≠ [] → DECBASE ^ (l.length - 1) ≤ lval l) :
    l.getLast? ≠ some 0 := by
  intro hl
  have hne : l ≠ [] := by rintro rfl; simp at hl
  obtain ⟨m, x, rfl⟩ : ∃ m x, l = m ++ [x] :=
    ⟨l.dropLast, l.getLast hne, (List.dropLast_append_getLast hne).symm⟩
  simp only [List.getLast?_append, List.getLast?_singleton, Option.some_or,
    Option.some.injEq] at hl
  subst hl
  have h1 := hv hne
  rw [lval_append] at h1
  simp only [List.length_append, List.length_singleton, Nat.add_sub_cancel, lval_cons, lval_nil,
    Nat.mul_zero, Nat.add_zero] at h1
  have := lval_lt (l := m) (fun d hd => h d (by simp [hd]))
  omega

theorem toDec_spec (ds : List Nat) (hd : Digits ds) :
    lval (toDec ds) = dval ds ∧ Limbs (toDec ds) ∧ (toDec ds).getLast? ≠ some 0 := by
  induction ds with
  | nil => simp [toDec, Limbs]
  | cons d ds ih =>
    rw [Digits.cons] at hd
    obtain ⟨i1, i2, i3⟩ := ih hd.2
    obtain ⟨j1, j2, j3, j4⟩ := decLoop_spec (toDec ds) d i2 hd.1
    rw [toDec]
    rcases hdl : decLoop (toDec ds) d with ⟨out, hi⟩
    rw [hdl] at j1 j2 j3 j4
    simp only at j1 j2 j3 j4 ⊢
    have hB := BASE_eq
    obtain ⟨p1, p2, p3⟩ := pushDec_spec 4 hi (by
      have : DECBASE ^ 4 = 1000000000 ^ 4 := rfl
      omega)
    refine ⟨?_, ?_, ?_⟩
    · rw [lval_append, p1, j3, j1, i1, dval_cons]; ring
    · intro x hx
      rcases List.mem_append.1 hx with h | h
      · exact j2 x h
      · exact p2 x h
    · rcases hp : pushDec 4 hi with _ | ⟨x, l⟩
      · rw [hp] at p1
        simp only [lval_nil] at p1
        rw [List.append_nil]
        apply limbs_canon j2
        intro hne
        have hne' : toDec ds ≠ [] := by
          intro h0; rw [h0] at j3
          exact hne (List.length_eq_zero_iff.1 j3)
        have h1 := lval_ge hne' i3
        rw [j3]
        rw [← p1, Nat.mul_zero, Nat.add_zero] at j1
        rw [j1]
        have : lval (toDec ds) * 1 ≤ lval (toDec ds) * BASE := Nat.mul_le_mul_left _ BASE_pos
        omega
      · rw [hp] at p3
        rw [List.getLast?_append_of_ne_nil _ (by simp)]
        exact p3

theorem digitChar_eq {d : Nat} (h : d < 10) : digitChar d = Nat.digitChar d := by
  interval_cases d <;> rfl

theorem topChars_spec (n rem : Nat) (h : rem < 10 ^ n) (hn : 0 < n) :
    (topChars n rem).reverse = Nat.toDigits 10 rem := by
  induction n generalizing rem with
  | zero => omega
  | succ n ih =>
    rw [topChars, List.reverse_cons, digitChar_eq (Nat.mod_lt _ (by norm_num))]
    by_cases h0 : rem / 10 = 0
    · rw [if_pos h0]
      have hlt : rem < 10 := by omega
      rw [Nat.toDigits_of_lt_base hlt, Nat.mod_eq_of_lt hlt]; rfl
    · rw [if_neg h0]
      have hge : 10 ≤ rem := by omega
      rw [Nat.toDigits_of_base_le (by norm_num) hge]
      congr 1
      apply ih
      · rw [pow_succ] at h; omega
      · rcases Nat.eq_zero_or_pos n with h' | h'
        · subst h'; simp at h; omega
        · exact h'

theorem limbChars_length (n r : Nat) : (limbChars n r).length = n := by
  induction n generalizing r with
  | zero => rfl
  | succ n ih => simp [limbChars, ih]

theorem limbChars_spec (n hi r : Nat) (hr : r < 10 ^ n) (hhi : 0 < hi) :
    Nat.toDigits 10 (hi * 10 ^ n + r) = Nat.toDigits 10 hi ++ (limbChars n r).reverse := by
  induction n generalizing r with
  | zero => simp at hr; subst hr; simp [limbChars]
  | succ n ih =>
    rw [limbChars, List.reverse_cons, digitChar_eq (Nat.mod_lt _ (by norm_num)), ← List.append_assoc,
      ← ih (r / 10) (by rw [pow_succ] at hr; omega)]
    have hpos : 0 < hi * 10 ^ n := Nat.mul_pos hhi (Nat.pow_pos (by norm_num))
    have hge : 10 ≤ hi * 10 ^ (n + 1) + r := by rw [pow_succ, ← Nat.mul_assoc]; omega
    rw [Nat.toDigits_of_base_le (by norm_num) hge]
    have e1 : (hi * 10 ^ (n + 1) + r) / 10 = hi * 10 ^ n + r / 10 := by
      rw [pow_succ, ← Nat.mul_assoc]; omega
    have e2 : (hi * 10 ^ (n + 1) + r) % 10 = r % 10 := by
      rw [pow_succ, ← Nat.mul_assoc]; omega
    rw [e1, e2]

theorem limbs_toDigits (low : List Nat) (hlow : Limbs low) (top : Nat) (htop : 0 < top) :
    Nat.toDigits 10 (lval (low ++ [top])) =
      Nat.toDigits 10 top ++ ((low.map (limbChars 9)).flatten).reverse := by
  induction low with
  | nil => simp
  | cons d low ih =>
    rw [Limbs.cons] at hlow
    rw [List.cons_append, lval_cons]
    have hpos : 0 < lval (low ++ [top]) := by
      have := lval_ge (l := low ++ [top]) (by simp) (by simp; omega)
      have h2 : 0 < DECBASE ^ ((low ++ [top]).length - 1) := Nat.pow_pos (by norm_num)
      omega
    have e : d + DECBASE * lval (low ++ [top]) = lval (low ++ [top]) * 10 ^ 9 + d := by
      have : DECBASE = 10 ^ 9 := rfl
      rw [this]; ring
    rw [e, limbChars_spec 9 _ d (by have := hlow.1; unfold DECBASE at this; omega) hpos, ih hlow.2]
    simp

theorem tenpowLoop_spec (rem : Nat) (hrem : rem < DECBASE) :
    tenpowLoop rem 11 10 = .ok ((Nat.toDigits 10 rem).length - 1) := by
  have hD : DECBASE = 1000000000 := rfl
  have gen : ∀ j n, j ≤ 8 → 9 ≤ n + j → 10 ^ j ≤ rem ∨ j = 0 →
      tenpowLoop rem (n + 1) (10 ^ (j + 1)) = .ok ((Nat.toDigits 10 rem).length - 1 - j) := by
    intro j n
    induction n generalizing j with
    | zero => intro hj hn _; omega
    | succ n ih =>
      intro hj hn hlow
      have hlen : j ≤ (Nat.toDigits 10 rem).length - 1 := by
        rcases hlow with h | h
        · by_contra hcon
          have h1 : (Nat.toDigits 10 rem).length ≤ j := by omega
          rcases Nat.eq_zero_or_pos j with h0 | h0
          · omega
          · have := (Nat.length_toDigits_le_iff (b := 10) (by norm_num) h0).1 h1
            omega
        · omega
      rw [tenpowLoop]
      by_cases h : rem ≥ 10 ^ (j + 1)
      · rw [if_pos h]
        have h10 : 10 ^ (j + 1) ≤ 10 ^ 9 := Nat.pow_le_pow_right (by norm_num) (by omega)
        have e : u32 (10 ^ (j + 1) * 10) = 10 ^ (j + 1 + 1) := by
          rw [← pow_succ]
          apply u32_of_lt
          by_cases h8 : j = 8
          · subst h8; norm_num at h; omega
          · have : 10 ^ (j + 1 + 1) ≤ 10 ^ 9 := Nat.pow_le_pow_right (by norm_num) (by omega)
            omega
        have hj8 : j + 1 ≤ 8 := by
          by_contra hc
          have : j = 8 := by omega
          subst this; norm_num at h; omega
        rw [e, ih (j + 1) hj8 (by omega) (Or.inl h)]
        simp only [Res.bind_ok]
        have hgt : j + 1 < (Nat.toDigits 10 rem).length := by
          by_contra hcon
          have := (Nat.length_toDigits_le_iff (b := 10) (n := rem) (k := j + 1) (by norm_num)
            (by omega)).1 (by omega)
          omega
        congr 1
        omega
      · rw [if_neg h]
        have : (Nat.toDigits 10 rem).length ≤ j + 1 :=
          (Nat.length_toDigits_le_iff (by norm_num) (by omega)).2 (by omega)
        congr 1
        omega
  have := gen 0 10 (by omega) (by omega) (Or.inr rfl)
  simpa using this

theorem toStr_spec (h : Huge) (hw : h.WF) :
    toStr h = .ok ((if h.isPositive then [] else ['-']) ++ Nat.toDigits 10 (dval h.digits)) := by
  obtain ⟨i1, i2, i3⟩ := toDec_spec h.digits hw
  -- out with the zero case
  have hout : ∃ low top, (if (toDec h.digits).isEmpty then [0] else toDec h.digits) = low ++ [top] ∧
      Limbs low ∧ top < DECBASE ∧
      Nat.toDigits 10 (dval h.digits) =
        Nat.toDigits 10 top ++ ((low.map (limbChars 9)).flatten).reverse := by
    by_cases he : (toDec h.digits) = []
    · refine ⟨[], 0, by simp [he], by simp [Limbs], by norm_num, ?_⟩
      rw [he] at i1; rw [← i1]; simp
    · have hsp : toDec h.digits = (toDec h.digits).dropLast ++ [(toDec h.digits).getLast he] :=
        (List.dropLast_append_getLast he).symm
      refine ⟨_, _, by rw [if_neg (by simpa using he)]; exact hsp, ?_, ?_, ?_⟩
      · intro d hd; exact i2 d (List.mem_of_mem_dropLast hd)
      · exact i2 _ (List.getLast_mem he)
      · rw [← i1]
        conv_lhs => rw [hsp]
        apply limbs_toDigits
        · intro d hd; exact i2 d (List.mem_of_mem_dropLast hd)
        · rcases Nat.eq_zero_or_pos ((toDec h.digits).getLast he) with h0 | h0
          · exact absurd (by rw [List.getLast?_eq_some_getLast he, h0]) i3
          · exact h0
  obtain ⟨low, top, e1, e2, e3, e4⟩ := hout
  have hlowlen : ∀ l : List Nat, ((l.map (limbChars 9)).flatten).length = l.length * 9 := by
    intro l
    induction l with
    | nil => rfl
    | cons x l ih => simp [limbChars_length, ih]; ring
  have htop := topChars_spec 11 top (by unfold DECBASE at e3; omega) (by norm_num)
  have htl : (topChars 11 top).length = (Nat.toDigits 10 top).length := by
    rw [← htop, List.length_reverse]
  have hpos := @Nat.length_toDigits_pos 10 top
  unfold toStr
  simp only [e1]
  have g1 : (low ++ [top]).getLast?.getD 0 = top := by simp
  rw [g1, tenpowLoop_spec top e3]
  simp only [Res.bind_ok]
  have g2 : (low ++ [top]).dropLast = low := by simp
  rw [g2]
  set rev := (low.map (limbChars 9)).flatten ++ topChars 11 top ++
    (if h.isPositive = true then [] else ['-']) with hrev
  have hrl : rev.length = (if h.isPositive then 0 else 1) + 1 + ((low ++ [top]).length - 1) * DECSHIFT
      + ((Nat.toDigits 10 top).length - 1) := by
    rw [hrev, List.length_append, List.length_append, hlowlen, htl]
    simp only [List.length_append, List.length_singleton, Nat.add_sub_cancel, DECSHIFT]
    cases h.isPositive <;> simp <;> omega
  rw [if_pos (by omega), ← hrl, Nat.sub_self]
  congr 1
  rw [hrev, e4]
  simp only [List.replicate_zero, List.nil_append, List.reverse_append, htop]
  cases h.isPositive <;> simp

end Symxx.Huge
