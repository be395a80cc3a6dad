import Verif.Dtoa.Round
/-!
# Formatting, read back
-/
namespace Symxx.Dtoa

theorem digitsVal_acc (n : Nat) (b : List Char) :
    b.foldl (fun n c => 10 * n + (c.toNat - 48)) n = n * 10 ^ b.length + digitsVal b := by
  induction b using List.reverseRecOn with
  | nil => simp [digitsVal]
  | append_singleton b c ih =>
    rw [List.foldl_append, ih, digitsVal_append]
    simp only [List.foldl_cons, List.foldl_nil, List.length_append, List.length_singleton, pow_succ]
    ring

theorem digitsVal_app (a b : List Char) : digitsVal (a ++ b) = digitsVal a * 10 ^ b.length + digitsVal b := by
  rw [digitsVal, List.foldl_append, digitsVal_acc]; rfl

theorem digitsVal_zeros (n : Nat) : digitsVal (List.replicate n '0') = 0 := by
  induction n with
  | zero => rfl
  | succ n ih => rw [List.replicate_succ', digitsVal_append, ih]; rfl

theorem readNat_some {b : List Char} (h : b ≠ []) (hd : b.all isDig = true) : readNat b = some (digitsVal b) := by
  unfold readNat; rw [if_pos ⟨h, hd⟩]

theorem isDig_ne {c : Char} (h : isDig c = true) : c ≠ '.' ∧ c ≠ 'e' ∧ c ≠ '-' := by
  unfold isDig at h
  simp only [Bool.and_eq_true, decide_eq_true_eq] at h
  refine ⟨?_, ?_, ?_⟩ <;> rintro rfl <;> revert h <;> decide

theorem span_append {p : Char → Bool} {a : List Char} {c : Char} {b : List Char} (ha : ∀ x ∈ a, p x = true) (hc : p c = false) :
    (a ++ c :: b).span p = (a, c :: b) := by
  rw [List.span_eq_takeWhile_dropWhile, List.takeWhile_append_of_pos ha, List.dropWhile_append_of_pos ha]
  simp [hc]

theorem span_all {p : Char → Bool} {a : List Char} (ha : ∀ x ∈ a, p x = true) : a.span p = (a, []) := by
  have h1 := List.takeWhile_append_of_pos (l₂ := []) ha
  have h2 := List.dropWhile_append_of_pos (l₂ := []) ha
  simp only [List.append_nil] at h1 h2
  rw [List.span_eq_takeWhile_dropWhile, h1, h2]; simp

theorem readFixed_int {a : List Char} (h : a ≠ []) (hd : a.all isDig = true) : readFixed a = some (digitsVal a : ℚ) := by
  unfold readFixed
  rw [span_all (by
    intro x hx
    simpa using (isDig_ne (List.all_eq_true.1 hd x hx)).1)]
  simp [readNat_some h hd]

theorem readFixed_frac {a b : List Char} (ha : a ≠ []) (hda : a.all isDig = true) (hb : b ≠ []) (hdb : b.all isDig = true) :
    readFixed (a ++ '.' :: b) = some (digitsVal (a ++ b) / 10 ^ b.length : ℚ) := by
  unfold readFixed
  rw [span_append (by
    intro x hx
    simpa using (isDig_ne (List.all_eq_true.1 hda x hx)).1) (by simp)]
  simp only [readNat_some ha hda, readNat_some hb hdb]
  rw [digitsVal_app]
  show some _ = some _
  congr 1
  push_cast
  field_simp

theorem no_e_frac {a b : List Char} (hda : a.all isDig = true) (hdb : b.all isDig = true) :
    ∀ x ∈ a ++ '.' :: b, (decide (x ≠ 'e')) = true := by
  intro x hx
  simp only [List.mem_append, List.mem_cons] at hx
  rcases hx with hx | rfl | hx
  · simpa using (isDig_ne (List.all_eq_true.1 hda x hx)).2.1
  · decide
  · simpa using (isDig_ne (List.all_eq_true.1 hdb x hx)).2.1

theorem readUnsigned_frac {a b : List Char} (ha : a ≠ []) (hda : a.all isDig = true) (hb : b ≠ []) (hdb : b.all isDig = true) :
    readUnsigned (a ++ '.' :: b) = some (digitsVal (a ++ b) / 10 ^ b.length : ℚ) := by
  unfold readUnsigned
  rw [span_all (no_e_frac hda hdb)]
  exact readFixed_frac ha hda hb hdb

theorem digitChar_eq {d : Nat} : digitChar d = Char.ofNat (48 + d) := by
  unfold digitChar; congr 1

theorem fillExponent_nat {n : Nat} (h : n < 1000) : ∃ s : List Char, s ≠ [] ∧ s.all isDig = true ∧ digitsVal s = n ∧
    (if (n : Int) ≥ 100 then [digitChar ((n:Int) / 100), digitChar ((n:Int) % 100 / 10), digitChar ((n:Int) % 100 % 10)]
     else if (n:Int) ≥ 10 then [digitChar ((n:Int) / 10), digitChar ((n:Int) % 10)] else [digitChar (n:Int)]) = s := by
  have e1 : (n:Int) / 100 = ((n / 100 : ℕ) : Int) := by omega
  have e2 : (n:Int) % 100 / 10 = ((n % 100 / 10 : ℕ) : Int) := by omega
  have e3 : (n:Int) % 100 % 10 = ((n % 100 % 10 : ℕ) : Int) := by omega
  have e4 : (n:Int) / 10 = ((n / 10 : ℕ) : Int) := by omega
  have e5 : (n:Int) % 10 = ((n % 10 : ℕ) : Int) := by omega
  refine ⟨_, ?_, ?_, ?_, rfl⟩
  · split
    · simp
    · split <;> simp
  · rw [e1, e2, e3, e4, e5]
    simp only [digitChar_eq]
    split
    · simp [isDig_char (show n / 100 ≤ 9 by omega), isDig_char (show n % 100 / 10 ≤ 9 by omega),
        isDig_char (show n % 100 % 10 ≤ 9 by omega), -Nat.reduceDvd, -Nat.mod_mod_of_dvd]
    · split
      · simp [isDig_char (show n / 10 ≤ 9 by omega), isDig_char (show n % 10 ≤ 9 by omega)]
      · simp [isDig_char (show n ≤ 9 by omega)]
  · rw [e1, e2, e3, e4, e5]
    simp only [digitChar_eq]
    split
    · simp only [digitsVal, List.foldl_cons, List.foldl_nil]
      rw [char_toNat (show n / 100 ≤ 9 by omega), char_toNat (show n % 100 / 10 ≤ 9 by omega),
        char_toNat (show n % 100 % 10 ≤ 9 by omega)]
      omega
    · split
      · simp only [digitsVal, List.foldl_cons, List.foldl_nil]
        rw [char_toNat (show n / 10 ≤ 9 by omega), char_toNat (show n % 10 ≤ 9 by omega)]
        omega
      · simp only [digitsVal, List.foldl_cons, List.foldl_nil]
        rw [char_toNat (show n ≤ 9 by omega)]
        omega

theorem readInt_fill {K : Int} (h : K.natAbs < 1000) : readInt (fillExponent K) = some K := by
  unfold fillExponent
  by_cases hK : K < 0
  · obtain ⟨s, hs, hd, hv, he⟩ := fillExponent_nat h
    simp only [hK, if_true]
    rw [show ((K.natAbs : ℕ) : Int) = -K by omega] at he
    rw [he]
    rw [show readInt (['-'] ++ s) = (readNat s).map fun n => -(n : Int) by simp [readInt], readNat_some hs hd, hv]
    show some (-((K.natAbs : ℕ) : Int)) = some K
    congr 1; omega
  · obtain ⟨s, hs, hd, hv, he⟩ := fillExponent_nat h
    simp only [hK, if_false]
    rw [show ((K.natAbs : ℕ) : Int) = K by omega] at he
    rw [he, List.nil_append]
    have : readInt s = (readNat s).map fun n => (n : Int) := by
      unfold readInt
      split
      · rename_i t
        simp only [List.all_cons, Bool.and_eq_true] at hd
        exact absurd rfl (isDig_ne hd.1).2.2
      · rfl
    rw [this, readNat_some hs hd, hv]
    show some ((K.natAbs : ℕ) : Int) = some K
    congr 1; omega

theorem readUnsigned_exp {a : List Char} {q : ℚ} {K : Int} (h : K.natAbs < 1000) (hq : readFixed a = some q)
    (ha : ∀ x ∈ a, decide (x ≠ 'e') = true) : readUnsigned (a ++ 'e' :: fillExponent K) = some (q * 10 ^ K) := by
  unfold readUnsigned
  rw [span_append ha (by simp)]
  simp only [hq, readInt_fill h]
  rfl

/-- the factor by which the printed number is too large. -/
def excess (nb kk : Int) : Nat := if nb ≤ kk ∧ kk ≤ 21 then (nb - 1).toNat else 0

/-- formatting succeeds, and the text denotes the digits times the power of ten, except that an integer of at least two
digits and at most 21 gets too many zeros. -/
theorem prettify_spec {b : List Char} {k : Int} (hb : b ≠ []) (hd : b.all isDig = true)
    (hk : (b.length + k - 1).natAbs < 1000) :
    ∃ s, prettify b k = .ok s ∧ readUnsigned s = some ((digitsVal b : ℚ) * 10 ^ k * 10 ^ excess b.length (b.length + k)) ∧
      s.head? ≠ some '-' := by
  have hl : 0 < b.length := List.length_pos_iff.2 hb
  have hdash : ∀ (x : List Char), (b ++ x).head? ≠ some '-' := by
    intro x
    obtain ⟨c, t, rfl⟩ := List.exists_cons_of_ne_nil hb
    simp only [List.all_cons, Bool.and_eq_true] at hd
    simpa using (isDig_ne hd.1).2.2
  have hall := List.all_eq_true.1 hd
  have h10 : (10:ℚ) ≠ 0 := by norm_num
  unfold prettify excess
  simp only
  by_cases h1 : (b.length : Int) ≤ b.length + k ∧ b.length + k ≤ 21
  · rw [if_pos h1, if_neg (by omega), if_pos h1]
    refine ⟨_, rfl, ?_, by rw [List.append_assoc]; exact hdash _⟩
    have e : b ++ List.replicate ((b.length : Int) + k - 1).toNat '0' ++ ['.', '0'] =
      (b ++ List.replicate ((b.length : Int) + k - 1).toNat '0') ++ '.' :: ['0'] := by simp
    have hrep : (List.replicate ((b.length : Int) + k - 1).toNat '0').all isDig = true := by
      rw [List.all_replicate]; split <;> rfl
    rw [e, readUnsigned_frac (by simp [hb]) (by rw [List.all_append, hd, hrep]; rfl) (by simp) (by rfl)]
    rw [digitsVal_app, digitsVal_app, digitsVal_zeros]
    simp only [List.length_replicate, List.length_singleton]
    congr 1
    push_cast
    rw [show digitsVal ['0'] = 0 from rfl]
    have : (10:ℚ) ^ k * 10 ^ ((b.length : Int) - 1).toNat = 10 ^ ((b.length : Int) + k - 1).toNat := by
      rw [← zpow_natCast, ← zpow_natCast, ← zpow_add₀ h10]; congr 1; omega
    rw [mul_assoc, this]; simp
  · rw [if_neg h1, if_neg h1]
    simp only [pow_zero, mul_one]
    by_cases h2 : 0 < (b.length : Int) + k ∧ b.length + k ≤ 21
    · rw [if_pos h2]
      have hkk : ((b.length : Int) + k).toNat < b.length := by omega
      have hk0 : 0 < ((b.length : Int) + k).toNat := by omega
      refine ⟨_, rfl, ?_, ?_⟩
      · rw [List.append_assoc, List.singleton_append,
          readUnsigned_frac (by simp [hb]; omega) (by
            rw [List.all_eq_true]; intro x hx; exact hall x (List.mem_of_mem_take hx))
            (by simp; omega) (by rw [List.all_eq_true]; intro x hx; exact hall x (List.mem_of_mem_drop hx)),
          List.take_append_drop]
        congr 1
        rw [div_eq_mul_inv, ← zpow_natCast, ← zpow_neg]
        congr 2
        simp; omega
      · obtain ⟨c, t, rfl⟩ := List.exists_cons_of_ne_nil hb
        obtain ⟨m, hm⟩ : ∃ m, ((c :: t).length + k).toNat = m + 1 := ⟨((c :: t).length + k).toNat - 1, by omega⟩
        rw [hm]
        simp only [List.all_cons, Bool.and_eq_true] at hd
        simpa using (isDig_ne hd.1).2.2
    · rw [if_neg h2]
      by_cases h3 : -6 < (b.length : Int) + k ∧ b.length + k ≤ 0
      · rw [if_pos h3]
        refine ⟨_, rfl, ?_, by simp⟩
        have hrep : (List.replicate (-((b.length : Int) + k)).toNat '0').all isDig = true := by
          rw [List.all_replicate]; split <;> rfl
        have e : ['0', '.'] ++ List.replicate (-((b.length : Int) + k)).toNat '0' ++ b =
          ['0'] ++ '.' :: (List.replicate (-((b.length : Int) + k)).toNat '0' ++ b) := by simp
        rw [e, readUnsigned_frac (by simp) rfl (by simp [hb]) (by rw [List.all_append, hd, hrep]; rfl),
          digitsVal_app, digitsVal_app, digitsVal_zeros]
        congr 1
        rw [show digitsVal ['0'] = 0 from rfl]
        simp only [zero_mul, zero_add, List.length_append, List.length_replicate]
        rw [div_eq_mul_inv, ← zpow_natCast, ← zpow_neg]
        congr 2
        push_cast
        omega
      · rw [if_neg h3]
        by_cases h4 : (b.length : Int) = 1
        · rw [if_pos h4]
          refine ⟨_, rfl, ?_, by rw [List.append_assoc]; exact hdash _⟩
          rw [List.append_assoc, List.singleton_append, readUnsigned_exp hk (readFixed_int hb hd)
            (fun x hx => by simpa using (isDig_ne (hall x hx)).2.1)]
          congr 3
          omega
        · rw [if_neg h4]
          obtain ⟨c, t, rfl⟩ := List.exists_cons_of_ne_nil hb
          have ht : t ≠ [] := by rintro rfl; simp at h4
          simp only [List.all_cons, Bool.and_eq_true] at hd
          refine ⟨_, rfl, ?_, by simpa using (isDig_ne hd.1).2.2⟩
          rw [show [c] ++ ['.'] ++ t ++ ['e'] ++ fillExponent (((c :: t).length : Int) + k - 1) =
            ([c] ++ '.' :: t) ++ 'e' :: fillExponent (((c :: t).length : Int) + k - 1) by simp]
          rw [readUnsigned_exp hk (readFixed_frac (a := [c]) (by simp) (by simp [hd.1]) ht hd.2)
            (no_e_frac (by simp [hd.1]) hd.2)]
          congr 1
          rw [List.singleton_append, div_mul_eq_mul_div, div_eq_iff (by positivity), mul_assoc, ← zpow_natCast 10 t.length,
            ← zpow_add₀ h10]
          congr 2
          simp only [List.length_cons]; push_cast; ring

end Symxx.Dtoa
