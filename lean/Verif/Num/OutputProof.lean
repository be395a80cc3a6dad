import Verif.Num.Output
import Verif.Num.DecimalText
import Verif.Num.RatMore
import Mathlib.Algebra.Order.Field.Power
/-!
# The text of a `long double` names a number within half a unit of its sixth digit
-/
namespace Symxx.Num

theorem digVal_append (a b : List Char) : digVal (a ++ b) = digVal a * 10 ^ b.length + digVal b := by
  have key : ∀ (b : List Char) (v : Int), b.foldl (fun v c => v * 10 + ((c.toNat : Int) - 48)) v = v * 10 ^ b.length + digVal b := by
    intro b
    induction b with
    | nil => intro v; simp [digVal]
    | cons c b ih =>
      intro v
      have e : digVal (c :: b) = (0 * 10 + ((c.toNat : Int) - 48)) * 10 ^ b.length + digVal b := by
        unfold digVal
        rw [List.foldl_cons, ih]
        rfl
      rw [List.foldl_cons, ih, e, List.length_cons, pow_succ]
      ring
  unfold digVal
  rw [List.foldl_append, key]
  rfl

theorem digVal_zeros (k : Nat) : digVal (List.replicate k '0') = 0 := by
  induction k with
  | zero => rfl
  | succ k ih =>
    rw [List.replicate_succ, ← List.singleton_append, digVal_append, ih]
    simp [digVal]

theorem dropWhile_zeros (s : List Char) : ∃ k, s = List.replicate k '0' ++ s.dropWhile (· = '0') := by
  induction s with
  | nil => exact ⟨0, rfl⟩
  | cons c s ih =>
    rw [List.dropWhile_cons]
    by_cases h : c = '0'
    · obtain ⟨k, hk⟩ := ih
      refine ⟨k + 1, ?_⟩
      rw [if_pos (by simpa using h), List.replicate_succ, List.cons_append, ← hk, h]
    · exact ⟨0, by rw [if_neg (by simpa using h)]; rfl⟩

theorem stripZeros_spec (s : List Char) : ∃ k, s = stripZeros s ++ List.replicate k '0' := by
  obtain ⟨k, hk⟩ := dropWhile_zeros s.reverse
  refine ⟨k, ?_⟩
  have := congrArg List.reverse hk
  rw [List.reverse_reverse, List.reverse_append, List.reverse_replicate] at this
  exact this

theorem stripZeros_sub {s : List Char} {c : Char} (h : c ∈ stripZeros s) : c ∈ s := by
  obtain ⟨k, hk⟩ := stripZeros_spec s
  rw [hk]; exact List.mem_append_left _ h

theorem digVal_strip (i f : List Char) :
    (digVal (i ++ stripZeros f) : ℚ) * (10 : ℚ) ^ (-((stripZeros f).length : Int)) = (digVal (i ++ f) : ℚ) * 10 ^ (-(f.length : Int)) := by
  obtain ⟨k, hk⟩ := stripZeros_spec f
  have e : digVal (i ++ f) = digVal (i ++ stripZeros f) * 10 ^ k := by
    conv_lhs => rw [hk, ← List.append_assoc, digVal_append, digVal_zeros]
    simp
  have l : f.length = (stripZeros f).length + k := by
    conv_lhs => rw [hk]
    simp
  rw [e, l]
  push_cast
  rw [neg_add, zpow_add₀ (by norm_num), zpow_neg, zpow_neg, zpow_natCast, zpow_natCast]
  field_simp

theorem signOf_digits' {ds rest : List Char} (h : AllDigits ds) (hne : ds ≠ []) (neg : Bool) :
    signOf (((if neg then ['-'] else []) ++ ds ++ rest).dropWhile isSpace) = (neg, ds ++ rest) := by
  cases neg with
  | true => rfl
  | false =>
    cases ds with
    | nil => exact absurd rfl hne
    | cons c ds =>
      obtain ⟨h1, h2, h3⟩ := dig_not_space ((isDig_iff c).2 (h c List.mem_cons_self))
      simp only [Bool.false_eq_true, if_false, List.nil_append, List.cons_append]
      rw [List.dropWhile_cons, h1]
      simp only [Bool.false_eq_true, if_false]
      unfold signOf
      split
      · next heq => injection heq with h4; exact absurd h4 h2
      · next heq => injection heq with h4; exact absurd h4 h3
      · rfl

/-- the number a text with optional fraction and exponent names. -/
theorem decVal_point {i f rest : List Char} (neg : Bool) (hi : AllDigits i) (hne : i ≠ []) (hf : AllDigits f)
    (hr : ∀ c t, rest = c :: t → isDig c = false ∧ c ≠ '.') :
    decVal ((if neg then ['-'] else []) ++ point i f ++ rest) =
      some (sgn neg * ((digVal (i ++ f) : ℚ) * 10 ^ (expPart rest - (f.length : Int)))) := by
  have e0 : (if neg then ['-'] else []) ++ point i f ++ rest =
      (if neg then ['-'] else []) ++ i ++ ((if f = [] then [] else '.' :: f) ++ rest) := by
    unfold point; simp
  unfold decVal
  rw [e0, signOf_digits' hi hne]
  obtain ⟨t1, t2⟩ := takeWhile_dig (rest := (if f = [] then [] else '.' :: f) ++ rest) hi (by
    intro c t e
    by_cases h0 : f = []
    · rw [if_pos h0] at e
      exact (hr c t e).1
    · rw [if_neg h0] at e
      injection e with e _
      subst e; decide)
  obtain ⟨t3, t4⟩ := takeWhile_dig (rest := rest) hf (fun c t e => (hr c t e).1)
  have hfd : fracDigits ((if f = [] then [] else '.' :: f) ++ rest) = (f, rest) := by
    by_cases h0 : f = []
    · rw [if_pos h0, h0, List.nil_append]
      cases rest with
      | nil => rfl
      | cons c t =>
        have := (hr c t rfl).2
        unfold fracDigits
        split
        · next heq => injection heq with h4; exact absurd h4 this
        · rfl
    · rw [if_neg h0]
      simp only [List.cons_append, fracDigits, t3, t4]
  simp only [t1, t2, hfd]
  rw [if_neg (by simp [hne]), powI_eq]
  unfold sgn
  congr 1
  cases neg <;> simp

theorem allDigits_toDigits (n : Nat) : AllDigits (Nat.toDigits 10 n) := fun c hc => (isDig_iff c).1 (toDigits_isDig n c hc)

theorem AllDigits.append {a b : List Char} (ha : AllDigits a) (hb : AllDigits b) : AllDigits (a ++ b) :=
  fun c hc => (List.mem_append.1 hc).elim (ha c) (hb c)

theorem expPart_sci (e : Int) :
    expPart (['e', if e < 0 then '-' else '+'] ++ (if e.natAbs < 10 then ['0'] else []) ++ Nat.toDigits 10 e.natAbs) = e := by
  have hall : AllDigits ((if e.natAbs < 10 then ['0'] else []) ++ Nat.toDigits 10 e.natAbs) := by
    refine AllDigits.append ?_ (allDigits_toDigits _)
    intro c hc
    split at hc
    · simp at hc; subst hc; decide
    · cases hc
  have hv : digVal ((if e.natAbs < 10 then ['0'] else []) ++ Nat.toDigits 10 e.natAbs) = e.natAbs := by
    rw [digVal_append, digVal_toDigits]
    have : digVal (if e.natAbs < 10 then ['0'] else []) = 0 := by split <;> rfl
    rw [this]; simp
  obtain ⟨t1, _⟩ := takeWhile_dig (rest := []) hall (by intro c t e; cases e)
  rw [List.append_nil] at t1
  rw [List.append_assoc]
  by_cases h : e < 0
  · rw [if_pos h]
    simp only [List.cons_append, List.nil_append, expPart, signOf, true_or, if_true, t1, hv]
    omega
  · rw [if_neg h]
    simp only [List.cons_append, List.nil_append, expPart, signOf, true_or, if_true, t1, hv]
    rw [if_neg (by simp)]
    omega

theorem length_toDigits {n k : Nat} (h1 : 10 ^ k ≤ n) (h2 : n < 10 ^ (k + 1)) : (Nat.toDigits 10 n).length = k + 1 := by
  have a := (Nat.length_toDigits_le_iff (b := 10) (n := n) (k := k + 1) (by norm_num) (by omega)).2 h2
  cases k with
  | zero =>
    have := Nat.length_toDigits_pos (b := 10) (n := n)
    omega
  | succ k =>
    have b := (Nat.length_toDigits_le_iff (b := 10) (n := n) (k := k + 1) (by norm_num) (by omega)).not.2 (by omega)
    omega

theorem showDigits_val {m : Nat} {e : Int} (h1 : 100000 ≤ m) (h2 : m < 1000000) (neg : Bool) :
    decVal ((if neg then ['-'] else []) ++ showDigits m e) = some (sgn neg * ((m : ℚ) * 10 ^ (e - 5))) := by
  have hl : (Nat.toDigits 10 m).length = 6 := length_toDigits (k := 5) (by norm_num; omega) (by norm_num; omega)
  have hd := allDigits_toDigits m
  have hs : ∀ s, AllDigits s → AllDigits (stripZeros s) := fun s h c hc => h c (stripZeros_sub hc)
  have hv : (digVal (Nat.toDigits 10 m) : ℚ) = m := by rw [digVal_toDigits]; simp
  unfold showDigits
  dsimp only
  by_cases c1 : -4 ≤ e ∧ e < 6
  · rw [if_pos c1]
    by_cases c2 : 0 ≤ e
    · rw [if_pos c2]
      have ht : AllDigits ((Nat.toDigits 10 m).take (e.toNat + 1)) := fun c hc => hd c (List.mem_of_mem_take hc)
      have hr : AllDigits ((Nat.toDigits 10 m).drop (e.toNat + 1)) := fun c hc => hd c (List.mem_of_mem_drop hc)
      have hne : (Nat.toDigits 10 m).take (e.toNat + 1) ≠ [] := by
        intro h0
        have := congrArg List.length h0
        rw [List.length_take, hl] at this
        simp at this
      have := decVal_point (rest := []) neg ht hne (hs _ hr) (by intro c t e; cases e)
      rw [List.append_nil] at this
      rw [this]
      have e0 : expPart [] = 0 := rfl
      rw [e0, zero_sub, digVal_strip, List.take_append_drop, hv, List.length_drop, hl]
      have : -((6 - (e.toNat + 1) : Nat) : Int) = e - 5 := by omega
      rw [this]
    · rw [if_neg c2]
      have hz : AllDigits (List.replicate ((-e).toNat - 1) '0' ++ Nat.toDigits 10 m) := by
        refine AllDigits.append ?_ hd
        intro c hc
        rw [List.eq_of_mem_replicate hc]; decide
      have := decVal_point (i := ['0']) (rest := []) neg (by intro c hc; simp at hc; subst hc; decide) (by simp) (hs _ hz) (by intro c t e; cases e)
      rw [List.append_nil] at this
      rw [this]
      have e0 : expPart [] = 0 := rfl
      have e1 : digVal (['0'] ++ (List.replicate ((-e).toNat - 1) '0' ++ Nat.toDigits 10 m)) = m := by
        rw [digVal_append, digVal_append, digVal_zeros, digVal_toDigits]
        simp [digVal]
      rw [e0, zero_sub, digVal_strip, e1, List.length_append, List.length_replicate, hl]
      have : -(((-e).toNat - 1 + 6 : Nat) : Int) = e - 5 := by omega
      rw [this]
      simp
  · rw [if_neg c1]
    have ht : AllDigits ((Nat.toDigits 10 m).take 1) := fun c hc => hd c (List.mem_of_mem_take hc)
    have hr : AllDigits ((Nat.toDigits 10 m).drop 1) := fun c hc => hd c (List.mem_of_mem_drop hc)
    have hne : (Nat.toDigits 10 m).take 1 ≠ [] := by
      intro h0
      have := congrArg List.length h0
      rw [List.length_take, hl] at this
      simp at this
    have := decVal_point (rest := ['e', if e < 0 then '-' else '+'] ++ (if e.natAbs < 10 then ['0'] else []) ++ Nat.toDigits 10 e.natAbs)
      neg ht hne (hs _ hr) (by
        intro c t h
        simp only [List.append_assoc, List.cons_append] at h
        injection h with h _
        subst h; decide)
    rw [expPart_sci] at this
    simp only [List.append_assoc] at this ⊢
    rw [this, sub_eq_add_neg, add_comm e, zpow_add₀ (by norm_num), ← mul_assoc ((digVal _ : Int) : ℚ), digVal_strip, List.take_append_drop, hv,
      List.length_drop, hl, mul_assoc ((m : ℚ)), ← zpow_add₀ (by norm_num)]
    have : -((6 - 1 : Nat) : Int) + e = e - 5 := by omega
    rw [this]

theorem decExp_spec {n d : Nat} (hn : n ≠ 0) (hd : d ≠ 0) :
    (10 : ℚ) ^ (decExp n d) ≤ (n : ℚ) / d ∧ (n : ℚ) / d < 10 ^ (decExp n d + 1) := by
  have dpos : (0 : ℚ) < d := by exact_mod_cast Nat.pos_of_ne_zero hd
  have len : ∀ n : Nat, n ≠ 0 → (10 : ℚ) ^ (((Nat.toDigits 10 n).length : Int) - 1) ≤ n ∧ (n : ℚ) < 10 ^ ((Nat.toDigits 10 n).length : Int) := by
    intro n hn
    have hp := Nat.length_toDigits_pos (b := 10) (n := n)
    have h2 := (Nat.length_toDigits_le_iff (b := 10) (n := n) (k := (Nat.toDigits 10 n).length) (by norm_num) hp).1 le_rfl
    constructor
    · obtain ⟨k, hk⟩ := Nat.exists_eq_succ_of_ne_zero hp.ne'
      rw [hk]
      have : ((k.succ : Nat) : Int) - 1 = (k : Int) := by simp
      rw [this, zpow_natCast]
      cases k with
      | zero => simpa using Nat.one_le_iff_ne_zero.2 hn
      | succ k =>
        have := (Nat.length_toDigits_le_iff (b := 10) (n := n) (k := k + 1) (by norm_num) (by omega)).not.1 (by omega)
        exact_mod_cast not_lt.1 this
    · rw [zpow_natCast]; exact_mod_cast h2
  obtain ⟨n1, n2⟩ := len n hn
  obtain ⟨d1, d2⟩ := len d hd
  unfold decExp
  dsimp only
  set a : Int := ((Nat.toDigits 10 n).length : Int)
  set b : Int := ((Nat.toDigits 10 d).length : Int)
  rw [powI_eq]
  push_cast
  split
  · next h =>
    constructor
    · rw [le_div_iff₀ dpos]
      have : (10 : ℚ) ^ (a - b - 1) * d ≤ 10 ^ (a - b - 1) * 10 ^ b := by gcongr
      rw [← zpow_add₀ (by norm_num), show a - b - 1 + b = a - 1 by ring] at this
      linarith
    · rw [div_lt_iff₀ dpos, show a - b - 1 + 1 = a - b by ring, mul_comm]; exact h
  · next h =>
    constructor
    · rw [le_div_iff₀ dpos, mul_comm]; exact not_lt.1 h
    · rw [div_lt_iff₀ dpos]
      have : (10 : ℚ) ^ (a - b + 1) * 10 ^ (b - 1) ≤ 10 ^ (a - b + 1) * d := by gcongr
      rw [← zpow_add₀ (by norm_num), show a - b + 1 + (b - 1) = a by ring] at this
      linarith

theorem roundEven_half (m : ℚ) : |(roundEven m : ℚ) - m| ≤ 1 / 2 := by
  have h1 := roundEven_near m ⌊m⌋
  have h2 := roundEven_near m (⌊m⌋ + 1)
  have f1 := Int.floor_le m
  have f2 := Int.lt_floor_add_one m
  push_cast at h2
  rw [abs_of_nonpos (a := (⌊m⌋ : ℚ) - m) (by linarith)] at h1
  rw [abs_of_nonneg (a := (⌊m⌋ : ℚ) + 1 - m) (by linarith)] at h2
  linarith

/-- the number named by the output is correct to six digits. -/
theorem showG_close (q : ℚ) : ∃ r, decVal (showG q) = some r ∧ |r - q| ≤ |q| / 200000 := by
  by_cases h0 : q = 0
  · refine ⟨0, ?_, by simp [h0]⟩
    unfold showG
    rw [if_pos h0]
    decide +kernel
  unfold showG
  rw [if_neg h0]
  dsimp only
  have hn : q.num.natAbs ≠ 0 := by simpa using h0
  obtain ⟨e1, e2⟩ := decExp_spec hn q.den_nz
  have habs : (q.num.natAbs : ℚ) / q.den = |q| := by
    conv_rhs => rw [← Rat.num_div_den q, abs_div]
    rw [Nat.cast_natAbs, Int.cast_abs, Nat.abs_cast]
  rw [habs] at e1 e2
  set e := decExp q.num.natAbs q.den
  rw [powI_eq]
  push_cast
  set x := |q| * (10 : ℚ) ^ (5 - e) with hx
  have hq : |q| = x * 10 ^ (e - 5) := by
    rw [hx, mul_assoc, ← zpow_add₀ (by norm_num), show 5 - e + (e - 5) = 0 by ring, zpow_zero, mul_one]
  have hp : (0 : ℚ) < 10 ^ (5 - e) := by positivity
  have x1 : 100000 ≤ x := by
    have := mul_le_mul_of_nonneg_right e1 hp.le
    rw [← zpow_add₀ (by norm_num), show e + (5 - e) = 5 by ring] at this
    rw [hx]; norm_num at this; linarith
  have x2 : x < 1000000 := by
    have := mul_lt_mul_of_pos_right e2 hp
    rw [← zpow_add₀ (by norm_num), show e + 1 + (5 - e) = 6 by ring] at this
    rw [hx]; norm_num at this; linarith
  have hr := roundEven_half x
  have r1 : (100000 : Int) ≤ roundEven x := by
    by_contra hc
    have : roundEven x ≤ 99999 := by omega
    have : (roundEven x : ℚ) ≤ 99999 := by exact_mod_cast this
    have := abs_le.1 hr
    linarith
  have r2 : roundEven x ≤ 1000000 := by
    by_contra hc
    have : (1000001 : Int) ≤ roundEven x := by omega
    have : (1000001 : ℚ) ≤ (roundEven x : ℚ) := by exact_mod_cast this
    have := abs_le.1 hr
    linarith
  have sg : (if q < 0 then ['-'] else ([] : List Char)) = if decide (q < 0) = true then ['-'] else [] := by simp
  rw [sg]
  have hsq : q = sgn (decide (q < 0)) * |q| := by
    unfold sgn
    by_cases h : q < 0
    · rw [if_pos (by simpa using h), abs_of_neg h]; ring
    · rw [if_neg (by simpa using h), abs_of_nonneg (not_lt.1 h)]; ring
  have fin : ∀ r : ℚ, r = roundEven x * 10 ^ (e - 5) → |sgn (decide (q < 0)) * r - q| ≤ |q| / 200000 := by
    intro r hr'
    have : sgn (decide (q < 0)) * r - q = sgn (decide (q < 0)) * ((roundEven x - x) * 10 ^ (e - 5)) := by
      have hsq2 : q = sgn (decide (q < 0)) * (x * 10 ^ (e - 5)) := by rw [← hq]; exact hsq
      rw [hr']
      linear_combination -hsq2
    rw [this, abs_mul, abs_sgn, one_mul, abs_mul, hq]
    have hp2 : (0 : ℚ) < 10 ^ (e - 5) := by positivity
    rw [abs_of_pos hp2]
    have : |(roundEven x : ℚ) - x| ≤ x / 200000 := by linarith
    calc |(roundEven x : ℚ) - x| * 10 ^ (e - 5) ≤ x / 200000 * 10 ^ (e - 5) := by gcongr
      _ = _ := by ring
  obtain ⟨m, hm⟩ := Int.eq_ofNat_of_zero_le (show 0 ≤ roundEven x by omega)
  have hmm : (roundEven x).toNat = m := by rw [hm]; rfl
  have hmq : (roundEven x : ℚ) = (m : ℚ) := by rw [hm]; simp
  rw [hmm]
  by_cases hmax : m = 1000000
  · rw [if_pos hmax]
    refine ⟨_, showDigits_val (by norm_num) (by norm_num) _, fin _ ?_⟩
    rw [hmq, hmax, show e + 1 - 5 = 1 + (e - 5) by ring, zpow_add₀ (by norm_num)]
    push_cast
    ring
  · rw [if_neg hmax]
    exact ⟨_, showDigits_val (by omega) (by omega) _, fin _ (by rw [hmq])⟩

theorem roundEven_intCast (n : Int) : roundEven (n : ℚ) = n := by
  have := roundEven_near (n : ℚ) n
  rw [sub_self, abs_zero] at this
  have := abs_nonpos_iff.1 this
  rw [sub_eq_zero] at this
  exact_mod_cast this

theorem toDigits_shift {n : Nat} (hn : 0 < n) (k : Nat) :
    Nat.toDigits 10 (n * 10 ^ k) = Nat.toDigits 10 n ++ List.replicate k '0' := by
  induction k with
  | zero => simp
  | succ k ih =>
    have h := Nat.toDigits_append_toDigits (b := 10) (n := n * 10 ^ k) (d := 0) (by norm_num) (by positivity) (by norm_num)
    rw [show n * 10 ^ (k + 1) = 10 * (n * 10 ^ k) + 0 by ring, ← h, ih, List.replicate_succ', List.append_assoc]
    rfl

theorem stripZeros_zeros (k : Nat) : stripZeros (List.replicate k '0') = [] := by
  unfold stripZeros
  rw [List.reverse_replicate]
  have : ∀ k, (List.replicate k '0').dropWhile (· = '0') = [] := by
    intro k
    induction k with
    | zero => rfl
    | succ k ih => rw [List.replicate_succ, List.dropWhile_cons, if_pos (by simp), ih]
  rw [this]; rfl

/-- integers of at most six digits are written exactly. -/
theorem showG_int {n : Int} (hn : |n| < 1000000) : showG (n : ℚ) = (toString n).toList := by
  by_cases h0 : n = 0
  · subst h0
    decide +kernel
  have hq0 : (n : ℚ) ≠ 0 := by exact_mod_cast h0
  set a := n.natAbs with ha
  have ha0 : 0 < a := by omega
  have ha6 : a < 10 ^ 6 := by
    have : (a : Int) < 1000000 := by rw [ha, Int.natCast_natAbs]; exact hn
    norm_num; omega
  have hp := Nat.length_toDigits_pos (b := 10) (n := a)
  have hl6 : (Nat.toDigits 10 a).length ≤ 6 := (Nat.length_toDigits_le_iff (by norm_num) (by norm_num)).2 ha6
  obtain ⟨l, hl⟩ := Nat.exists_eq_succ_of_ne_zero hp.ne'
  have hlow : 10 ^ l ≤ a := by
    cases l with
    | zero => simpa using Nat.succ_le_of_lt ha0
    | succ l =>
      have := (Nat.length_toDigits_le_iff (b := 10) (n := a) (k := l + 1) (by norm_num) (by omega)).not.1 (by omega)
      exact not_lt.1 this
  have hup : a < 10 ^ (l + 1) := (Nat.length_toDigits_le_iff (b := 10) (n := a) (k := l + 1) (by norm_num) (by omega)).1 (by omega)
  have he : decExp (n : ℚ).num.natAbs (n : ℚ).den = l := by
    unfold decExp
    have h1 : (Nat.toDigits 10 (1 : Nat)).length = 1 := by decide
    have hnum : (n : ℚ).num.natAbs = a := by simp [ha]
    have hden : (n : ℚ).den = 1 := by simp
    rw [hnum, hden, hl]
    dsimp only
    rw [h1, powI_eq]
    have : (((l.succ : Nat) : Int) - ((1 : Nat) : Int)) = (l : Int) := by simp
    rw [this, zpow_natCast, if_neg]
    push_cast
    rw [one_mul, not_lt]
    exact_mod_cast hlow
  have hm : (roundEven (|(n : ℚ)| * powI 10 (5 - (l : Int)))).toNat = a * 10 ^ (5 - l) := by
    have e1 : |(n : ℚ)| * powI 10 (5 - (l : Int)) = ((a * 10 ^ (5 - l) : Nat) : Int) := by
      rw [powI_eq, show (5 - (l : Int)) = ((5 - l : Nat) : Int) by omega, zpow_natCast]
      push_cast
      rw [ha, Nat.cast_natAbs, Int.cast_abs]
    rw [e1, roundEven_intCast]
    rfl
  have hm6 : a * 10 ^ (5 - l) < 1000000 := by
    calc a * 10 ^ (5 - l) < 10 ^ (l + 1) * 10 ^ (5 - l) := by gcongr
      _ = 10 ^ 6 := by rw [← pow_add]; congr 1; omega
      _ = 1000000 := by norm_num
  have hds : showDigits (a * 10 ^ (5 - l)) (l : Int) = Nat.toDigits 10 a := by
    unfold showDigits
    dsimp only
    rw [if_pos ⟨by omega, by omega⟩, if_pos (by omega), toDigits_shift ha0, Int.toNat_natCast,
      List.take_left' hl, List.drop_left' hl, stripZeros_zeros]
    simp [point]
  unfold showG
  rw [if_neg hq0, he]
  dsimp only
  rw [hm, if_neg hm6.ne, hds, toString_int_eq]
  congr 1
  by_cases h : n < 0
  · rw [if_pos h, if_pos (by exact_mod_cast h)]
  · rw [if_neg h, if_neg (by exact_mod_cast h)]

end Symxx.Num
