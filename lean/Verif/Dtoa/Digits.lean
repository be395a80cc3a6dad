import Verif.Dtoa.Mul
/-!
# Digit generation

`Gen S N delta b k`: the digits `b` with exponent `k` denote, in units of `1/S`, a number in `[N - delta, N]`, and the
generation did not stop at `k + 1`.
-/
namespace Symxx.Dtoa

theorem digitsVal_append (b : List Char) (c : Char) :
    digitsVal (b ++ [c]) = 10 * digitsVal b + (c.toNat - 48) := by
  simp [digitsVal, List.foldl_append]

theorem char_toNat {d : Nat} (h : d ≤ 9) : (Char.ofNat (48 + d)).toNat = 48 + d := by
  interval_cases d <;> rfl

theorem isDig_char {d : Nat} (h : d ≤ 9) : isDig (Char.ofNat (48 + d)) = true := by
  interval_cases d <;> rfl

theorem char_zero {d : Nat} (h : d ≤ 9) : Char.ofNat (48 + d) = '0' ↔ d = 0 := by
  interval_cases d <;> decide

theorem char_dec {d : Nat} (h : d + 1 ≤ 9) : Char.ofNat ((Char.ofNat (48 + (d + 1))).toNat - 1) = Char.ofNat (48 + d) := by
  rw [char_toNat h]; rfl

/-- a digit string without leading zero whose value is `D`; empty exactly for 0. -/
structure DigBuf (b : List Char) (D : Nat) : Prop where
  dig : b.all isDig = true
  val : digitsVal b = D
  head : b.head? ≠ some '0'
  pos : b ≠ [] → 0 < D

theorem DigBuf.nil : DigBuf [] 0 := ⟨rfl, rfl, by simp, by simp⟩

theorem DigBuf.empty {b D} (h : DigBuf b D) : b = [] ↔ D = 0 := by
  constructor
  · rintro rfl; exact h.val.symm
  · intro hD; by_contra hb; have := h.pos hb; omega

theorem DigBuf.snoc {b D d} (h : DigBuf b D) (hd : d ≤ 9) (hp : 0 < 10 * D + d) :
    DigBuf (b ++ [Char.ofNat (48 + d)]) (10 * D + d) := by
  refine ⟨?_, ?_, ?_, fun _ => hp⟩
  · simp [h.dig, isDig_char hd]
  · rw [digitsVal_append, h.val, char_toNat hd]; omega
  · by_cases hb : b = []
    · subst hb
      have : D = 0 := h.empty.1 rfl
      simp only [List.nil_append, List.head?_cons, ne_eq, Option.some.injEq, char_zero hd]
      omega
    · rw [List.head?_append_of_ne_nil _ hb]; exact h.head

theorem pushDigit_eq {b D d} (h : DigBuf b D) :
    pushDigit b d = if 10 * D + d = 0 then [] else b ++ [Char.ofNat (48 + d)] := by
  unfold pushDigit
  by_cases hb : b = []
  · have := h.empty.1 hb; subst hb
    by_cases hd : d = 0
    · simp [hd, this]
    · rw [if_pos (by omega), if_neg (by omega)]
  · have := h.pos hb
    rw [if_pos (Or.inr hb), if_neg (by omega)]

theorem DigBuf.push {b D d} (h : DigBuf b D) (hd : d ≤ 9) : DigBuf (pushDigit b d) (10 * D + d) := by
  rw [pushDigit_eq h]
  split
  · rename_i h0; rw [h0]; exact DigBuf.nil
  · exact h.snoc hd (by omega)

theorem ten_pow_le_of_head {b : List Char} (hdig : b.all isDig = true) (hb : b ≠ []) (hh : b.head? ≠ some '0') :
    10 ^ (b.length - 1) ≤ digitsVal b := by
  induction b using List.reverseRecOn with
  | nil => exact absurd rfl hb
  | append_singleton b c ih =>
    rw [digitsVal_append]
    simp only [List.all_append, Bool.and_eq_true] at hdig
    by_cases hb' : b = []
    · subst hb'
      simp only [List.nil_append, List.head?_cons, ne_eq, Option.some.injEq] at hh
      have hc : isDig c = true := by simpa using hdig.2
      unfold isDig at hc
      simp only [Bool.and_eq_true, decide_eq_true_eq] at hc
      have : c.toNat ≠ 48 := by
        intro h; apply hh
        have := Char.ofNat_toNat c
        rw [h] at this; exact this.symm
      simp [digitsVal]; omega
    · rw [List.head?_append_of_ne_nil _ hb'] at hh
      have := ih hdig.1 hb' hh
      have hl : 0 < b.length := List.length_pos_iff.2 hb'
      obtain ⟨n, hn⟩ : ∃ n, b.length = n + 1 := ⟨b.length - 1, by omega⟩
      simp only [List.length_append, List.length_singleton, hn, Nat.add_sub_cancel] at this ⊢
      rw [pow_succ]; omega

/-- outcome of digit generation. -/
structure Gen (S N delta : Nat) (b : List Char) (k : Int) : Prop where
  ne : b ≠ []
  dig : b.all isDig = true
  head : b.head? ≠ some '0'
  hi : (digitsVal b : ℚ) * 10 ^ k * S ≤ N
  lo : (N : ℚ) ≤ digitsVal b * 10 ^ k * S + delta
  prev : ∃ (D' : Nat) (rest : ℚ), (D' : ℚ) * 10 ^ (k + 1) * S + rest = N ∧ (delta : ℚ) ≤ rest ∧ rest < 10 ^ (k + 1) * S

theorem u64sub_eq {a b : Nat} (ha : a < 2 ^ 64) (h : b ≤ a) : u64sub a b = a - b := by
  unfold u64sub; omega

theorem u64_eq {a : Nat} (ha : a < 2 ^ 64) : u64 a = a := Nat.mod_eq_of_lt ha

theorem decBack_snoc {b : List Char} {d : Nat} (h : d + 1 ≤ 9) :
    decBack (b ++ [Char.ofNat (48 + (d + 1))]) = .ok (b ++ [Char.ofNat (48 + d)]) := by
  unfold decBack
  simp only [List.getLast?_append, List.getLast?_singleton, Option.some_or, List.dropLast_concat]
  rw [char_dec h]

/-- rounding decrements the last digit at most down to what the previous remainder allows. -/
theorem grisuRound_spec (delta tk wpw : Nat) (hdel : delta < 2 ^ 64) (htk : 0 < tk) (b : List Char) :
    ∀ (n d rest : Nat), d < n → d ≤ 9 → rest ≤ delta → delta ≤ rest + d * tk →
      ∃ j, j ≤ d ∧ rest + j * tk ≤ delta ∧
        grisuRound delta tk wpw n (b ++ [Char.ofNat (48 + d)]) rest = .ok (b ++ [Char.ofNat (48 + (d - j))]) := by
  intro n
  induction n with
  | zero => intro d rest h; omega
  | succ n ih =>
    intro d rest hn hd hr hdel'
    rw [grisuRound]
    split
    · rename_i hc
      obtain ⟨h1, h2, h3⟩ := hc
      rw [u64sub_eq hdel hr] at h2
      have hle : rest + tk ≤ delta := by omega
      obtain ⟨d', rfl⟩ : ∃ d', d = d' + 1 := by
        refine ⟨d - 1, ?_⟩
        rcases Nat.eq_zero_or_pos d with h0 | h0
        · subst h0; omega
        · omega
      rw [decBack_snoc hd, Res.bind_ok, u64_eq (by omega)]
      obtain ⟨j, hj, hjr, he⟩ := ih d' (rest + tk) (by omega) (by omega) hle (by rw [Nat.succ_mul] at hdel'; omega)
      refine ⟨j + 1, by omega, by rw [Nat.succ_mul]; omega, ?_⟩
      rw [he]; congr 4; omega
    · exact ⟨0, by omega, by omega, rfl⟩

/-- common end of both loops. -/
theorem finish {S N delta : Nat} {k : Int} {b : List Char} {D d j : Nat} {rest rest' tk : ℚ} (hb : DigBuf b D) (hd : d ≤ 9)
    (hj : j ≤ d) (hS : (0:ℚ) < 10 ^ k * S) (htk : tk = 10 ^ k * S)
    (h1 : ((10 * D + d : ℕ) : ℚ) * tk + rest = N) (hr0 : 0 ≤ rest) (h2 : rest + j * tk ≤ delta)
    (h3 : rest' = d * tk + rest) (h4 : (delta : ℚ) ≤ rest') (h5 : rest' < 10 * tk) (hN : delta < N) :
    Gen S N delta (b ++ [Char.ofNat (48 + (d - j))]) k := by
  have hten : (10:ℚ) ^ (k + 1) = 10 * 10 ^ k := by rw [zpow_add₀ (by norm_num)]; ring
  have hpos : 0 < 10 * D + (d - j) := by
    by_contra hc
    have hD : D = 0 := by omega
    have hdj : d = j := by omega
    subst hD; subst hdj
    have hN' : (delta : ℚ) < N := by exact_mod_cast hN
    have : (N : ℚ) = d * tk + rest := by rw [← h1]; push_cast; ring
    linarith
  have hB := hb.snoc (d := d - j) (by omega) hpos
  have hv : ((10 * D + (d - j) : ℕ) : ℚ) = ((10 * D + d : ℕ) : ℚ) - j := by
    push_cast [Nat.cast_sub hj]; ring
  have htk0 : 0 < tk := by rw [htk]; exact hS
  have hj0 : (0:ℚ) ≤ j * tk := by positivity
  refine ⟨by simp, hB.dig, hB.head, ?_, ?_, D, rest', ?_, h4, ?_⟩
  · rw [hB.val, hv, mul_assoc, ← htk]; nlinarith
  · rw [hB.val, hv, mul_assoc, ← htk]; nlinarith
  · rw [hten, h3, ← h1, htk]; push_cast; ring
  · rw [hten]; rw [htk] at h5; linarith

theorem shr_ok {x sh : Nat} (h : sh < 64) : shr x sh = .ok (x / 2 ^ sh) := by
  unfold shr
  rw [if_pos (by omega)]; simp [Nat.shiftRight_eq_div_pow]

theorem shl_ok {x sh : Nat} (h : sh < 64) (hx : x * 2 ^ sh < 2 ^ 64) : shl x sh = .ok (x * 2 ^ sh) := by
  unfold shl
  rw [if_pos (by omega)]; simp [Nat.shiftLeft_eq, u64_eq hx]

theorem genFrac_spec {sh N delta wpw : Nat} (hsh : sh ≤ 60) (hN : delta < N) :
    ∀ (n m p2 dl unit : Nat) (b : List Char) (D : Nat), DigBuf b D → p2 < 2 ^ sh → N * 10 ^ m = D * 2 ^ sh + p2 →
      dl = delta * 10 ^ m → dl ≤ p2 → 2 ^ sh ≤ dl * 10 ^ n →
      ∃ b' k, genFrac sh (2 ^ sh) wpw n p2 dl unit (-(m : Int)) b = .ok (b', k) ∧ Gen (2 ^ sh) N delta b' k := by
  intro n
  induction n with
  | zero => intro m p2 dl unit b D _ h1 _ _ h2 h3; omega
  | succ n ih =>
    intro m p2 dl unit b D hb hp hN1 hdl hle hfuel
    have hS : 2 ^ sh ≤ 2 ^ 60 := Nat.pow_le_pow_right (by norm_num) hsh
    have hS0 : 0 < 2 ^ sh := Nat.pow_pos (by norm_num)
    rw [genFrac]
    simp only
    rw [u64_eq (show p2 * 10 < 2 ^ 64 by omega), u64_eq (show dl * 10 < 2 ^ 64 by omega), shr_ok (by omega),
      Nat.and_two_pow_sub_one_eq_mod]
    simp only [Res.bind_ok]
    have hd9 : p2 * 10 / 2 ^ sh ≤ 9 := by
      have : p2 * 10 / 2 ^ sh < 10 := by rw [Nat.div_lt_iff_lt_mul hS0]; omega
      omega
    have hdm := Nat.div_add_mod (p2 * 10) (2 ^ sh)
    have hml := Nat.mod_lt (p2 * 10) hS0
    generalize hdd : p2 * 10 / 2 ^ sh = d at *
    generalize hrr : p2 * 10 % 2 ^ sh = r at *
    have hstep : N * 10 ^ (m + 1) = (10 * D + d) * 2 ^ sh + r := by
      rw [pow_succ, ← mul_assoc, hN1]; nlinarith
    split
    · rename_i hlt
      have hne : 10 * D + d ≠ 0 := by
        intro h0
        rw [h0] at hstep
        have : delta * 10 ^ (m + 1) < N * 10 ^ (m + 1) := Nat.mul_lt_mul_of_pos_right hN (by positivity)
        rw [pow_succ, ← mul_assoc, ← hdl] at this
        rw [pow_succ] at hstep
        omega
      rw [pushDigit_eq hb, if_neg hne]
      obtain ⟨j, hj, hjr, he⟩ := grisuRound_spec (dl * 10) (2 ^ sh) (u64 (wpw * u64 (unit * 10))) (by omega) hS0 b 20 d r
        (by omega) hd9 (by omega) (by nlinarith)
      rw [show roundFuel = 20 from rfl, he]
      refine ⟨_, _, rfl, ?_⟩
      have h10 : (0:ℚ) < 10 ^ (m + 1) := by positivity
      have hk : (10:ℚ) ^ (-(m:ℤ) - 1) = 1 / 10 ^ (m + 1) := by
        rw [show -(m:ℤ) - 1 = -((m + 1 : ℕ) : ℤ) by push_cast; ring, zpow_neg, zpow_natCast, one_div]
      have hSq : (0:ℚ) < ((2 ^ sh : ℕ) : ℚ) := by exact_mod_cast hS0
      refine finish (rest := (r:ℚ) / 10 ^ (m + 1)) (rest' := (p2 * 10 : ℚ) / 10 ^ (m + 1))
        (tk := ((2 ^ sh : ℕ) : ℚ) / 10 ^ (m + 1)) hb hd9 hj ?_ ?_ ?_ ?_ ?_ ?_ ?_ ?_ hN
      · rw [hk]; positivity
      · rw [hk]; ring
      · have : ((N * 10 ^ (m + 1) : ℕ) : ℚ) = (((10 * D + d) * 2 ^ sh + r : ℕ) : ℚ) := by rw [hstep]
        push_cast at this ⊢
        field_simp
        linarith
      · positivity
      · have : ((r + j * 2 ^ sh : ℕ) : ℚ) ≤ ((dl * 10 : ℕ) : ℚ) := by exact_mod_cast hjr
        have hdl' : ((dl * 10 : ℕ) : ℚ) = delta * 10 ^ (m + 1) := by rw [hdl]; push_cast; ring
        rw [hdl'] at this
        rw [← mul_div_assoc, ← add_div, div_le_iff₀ h10]
        push_cast at this ⊢; linarith
      · have : ((2 ^ sh * d + r : ℕ) : ℚ) = ((p2 * 10 : ℕ) : ℚ) := by rw [hdm]
        push_cast at this ⊢
        rw [← this]; field_simp
      · have hdl' : ((dl * 10 : ℕ) : ℚ) = delta * 10 ^ (m + 1) := by rw [hdl]; push_cast; ring
        have : ((dl * 10 : ℕ) : ℚ) ≤ ((p2 * 10 : ℕ) : ℚ) := by exact_mod_cast Nat.mul_le_mul_right 10 hle
        rw [hdl'] at this
        rw [le_div_iff₀ h10]; push_cast at this ⊢; linarith
      · rw [← mul_div_assoc]
        apply div_lt_div_of_pos_right _ h10
        have : ((p2 * 10 : ℕ) : ℚ) < ((10 * 2 ^ sh : ℕ) : ℚ) := by exact_mod_cast (by omega : p2 * 10 < 10 * 2 ^ sh)
        push_cast at this ⊢; linarith
    · rename_i hlt
      have := ih (m + 1) r (dl * 10) (u64 (unit * 10)) (pushDigit b d) (10 * D + d) (hb.push hd9) hml hstep
        (by rw [hdl, pow_succ, mul_assoc]) (by omega) (by rw [mul_assoc, ← pow_succ']; exact hfuel)
      rw [show -(m:ℤ) - 1 = -((m + 1 : ℕ) : ℤ) by push_cast; ring]
      exact this

theorem genInt_spec {sh N delta wpw p2 : Nat} (hsh : sh ≤ 60) (hN : delta < N) (hN64 : N < 2 ^ 64) (hdel : 0 < delta)
    (hp2 : p2 < 2 ^ sh) :
    ∀ (kappa p1 div : Nat) (b : List Char) (D : Nat), DigBuf b D → p1 < 10 ^ kappa →
      (kappa ≠ 0 → div * 10 = 10 ^ kappa) →
      N = (D * 10 ^ kappa + p1) * 2 ^ sh + p2 → delta < p1 * 2 ^ sh + p2 →
      ∃ b' k, genInt sh (2 ^ sh) wpw p2 delta kappa p1 div b = .ok (b', k) ∧ Gen (2 ^ sh) N delta b' k := by
  have hS0 : 0 < 2 ^ sh := Nat.pow_pos (by norm_num)
  have hS : 2 ^ sh ≤ 2 ^ 60 := Nat.pow_le_pow_right (by norm_num) hsh
  intro kappa
  induction kappa with
  | zero =>
    intro p1 div b D hb hp1 _ hNe hgt
    have : p1 = 0 := by simpa using hp1
    subst this
    rw [genInt]
    refine genFrac_spec (n := 32) (m := 0) hsh hN p2 delta 1 b D hb hp2 (by simpa using hNe) (by simp) (by omega) ?_
    nlinarith
  | succ kappa ih =>
    intro p1 div b D hb hp1 hdiv hNe hgt
    have hdiv : div = 10 ^ kappa := by
      have := hdiv (by omega); rw [pow_succ] at this; omega
    subst hdiv
    have hT0 : 0 < 10 ^ kappa := Nat.pow_pos (by norm_num)
    rw [genInt, if_neg (by omega)]
    have hd9 : p1 / 10 ^ kappa ≤ 9 := by
      have : p1 / 10 ^ kappa < 10 := by rw [Nat.div_lt_iff_lt_mul hT0, ← pow_succ']; exact hp1
      omega
    have hdm := Nat.div_add_mod p1 (10 ^ kappa)
    have hml := Nat.mod_lt p1 hT0
    generalize hdd : p1 / 10 ^ kappa = d at *
    generalize hrr : p1 % 10 ^ kappa = r at *
    have hNe' : N = ((10 * D + d) * 10 ^ kappa + r) * 2 ^ sh + p2 := by
      rw [hNe, ← hdm, pow_succ]; ring
    have hNe2 : N = (10 * D + d) * (10 ^ kappa * 2 ^ sh) + (r * 2 ^ sh + p2) := by rw [hNe']; ring
    have hr64 : r * 2 ^ sh + p2 < 2 ^ 64 := by omega
    simp only
    rw [shl_ok (by omega) (by omega), Res.bind_ok, u64_eq hr64]
    split
    · rename_i hle
      have hne : 10 * D + d ≠ 0 := by
        intro h0; rw [h0] at hNe2; omega
      have htk : 10 ^ kappa * 2 ^ sh < 2 ^ 64 := by
        have : 1 * (10 ^ kappa * 2 ^ sh) ≤ (10 * D + d) * (10 ^ kappa * 2 ^ sh) := Nat.mul_le_mul_right _ (by omega)
        omega
      rw [shl_ok (by omega) htk, Res.bind_ok, pushDigit_eq hb, if_neg hne]
      have hprev : p1 * 2 ^ sh + p2 = d * (10 ^ kappa * 2 ^ sh) + (r * 2 ^ sh + p2) := by rw [← hdm]; ring
      obtain ⟨j, hj, hjr, he⟩ := grisuRound_spec delta (10 ^ kappa * 2 ^ sh) wpw (by omega) (by positivity) b 20 d
        (r * 2 ^ sh + p2) (by omega) hd9 hle (by omega)
      rw [show roundFuel = 20 from rfl, he]
      refine ⟨_, _, rfl, ?_⟩
      refine finish (rest := ((r * 2 ^ sh + p2 : ℕ) : ℚ)) (rest' := ((p1 * 2 ^ sh + p2 : ℕ) : ℚ))
        (tk := ((10 ^ kappa * 2 ^ sh : ℕ) : ℚ)) hb hd9 hj ?_ ?_ ?_ ?_ ?_ ?_ ?_ ?_ hN
      · rw [zpow_natCast]; positivity
      · rw [zpow_natCast]; push_cast; ring
      · exact_mod_cast hNe2.symm
      · positivity
      · exact_mod_cast hjr
      · exact_mod_cast hprev
      · exact_mod_cast hgt.le
      · have : p1 * 2 ^ sh + p2 < 10 * (10 ^ kappa * 2 ^ sh) := by
          have : (p1 + 1) * 2 ^ sh ≤ 10 ^ (kappa + 1) * 2 ^ sh := Nat.mul_le_mul_right _ hp1
          rw [pow_succ] at this; nlinarith
        exact_mod_cast this
    · rename_i hle
      refine ih r _ _ _ (hb.push hd9) hml ?_ hNe' (by omega)
      intro hk
      obtain ⟨k', rfl⟩ : ∃ k', kappa = k' + 1 := ⟨kappa - 1, by omega⟩
      rw [pow_succ, Nat.mul_div_cancel _ (by norm_num)]

/-- `digit_gen` on a well-formed input. -/
theorem digitGen_spec {W Mp delta : DiyFp} {K : Int} {sh : Nat} (he : Mp.e = -(sh : Int)) (hW : W.e = Mp.e)
    (hsh : 32 ≤ sh) (hsh' : sh ≤ 60) (hWM : W.f ≤ Mp.f) (hM : Mp.f < 2 ^ 64) (hd0 : 0 < delta.f) (hd : delta.f < Mp.f) :
    ∃ b k, digitGen W Mp delta K = .ok (b, K + k) ∧ Gen (2 ^ sh) Mp.f delta.f b k := by
  have hS0 : 0 < 2 ^ sh := Nat.pow_pos (by norm_num)
  have hS : 2 ^ sh ≤ 2 ^ 60 := Nat.pow_le_pow_right (by norm_num) hsh'
  have hS32 : 2 ^ 32 ≤ 2 ^ sh := Nat.pow_le_pow_right (by norm_num) hsh
  unfold digitGen
  rw [he, neg_neg, shl_ok (by omega) (by omega), Res.bind_ok]
  unfold DiyFp.sub
  rw [show decide (Mp.e = W.e ∧ Mp.f ≥ W.f) = true by simp [hW, hWM], Res.assert_true]
  simp only [Res.bind_ok, one_mul]
  rw [shr_ok (by omega), Res.bind_ok, u64sub_eq (a := 2 ^ sh) (by omega) hS0, Nat.and_two_pow_sub_one_eq_mod]
  have hp1 : Mp.f / 2 ^ sh < 2 ^ 32 := by
    rw [Nat.div_lt_iff_lt_mul hS0]
    calc Mp.f < 2 ^ 64 := hM
      _ = 2 ^ 32 * 2 ^ 32 := by norm_num
      _ ≤ 2 ^ 32 * 2 ^ sh := Nat.mul_le_mul_left _ hS32
  have hdm := Nat.div_add_mod Mp.f (2 ^ sh)
  rw [show u32 (Mp.f / 2 ^ sh) = Mp.f / 2 ^ sh from Nat.mod_eq_of_lt hp1]
  obtain ⟨b, k, hg, hG⟩ := genInt_spec (wpw := u64sub Mp.f W.f) hsh' hd hM hd0 (Nat.mod_lt Mp.f hS0) 10 (Mp.f / 2 ^ sh) TEN9 [] 0
    DigBuf.nil (by omega) (fun _ => by decide) (by rw [zero_mul, zero_add, mul_comm]; exact hdm.symm)
    (by rw [mul_comm, hdm]; exact hd)
  rw [hg]
  exact ⟨b, k, rfl, hG⟩

end Symxx.Dtoa
