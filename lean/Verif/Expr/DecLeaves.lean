import Verif.Num.DecimalText
import Verif.Expr.Leaves
/-!
# The decimal conversion of the code satisfies what the printer theorems ask of it
-/
namespace Symxx.Sym
open Symxx Symxx.Num

theorem dd_not {c : Char} (h : isDig c = true ∨ c = '.') : isSpace c = false ∧ c ≠ '-' ∧ c ≠ '+' := by
  rcases h with h | rfl
  · exact dig_not_space h
  · decide

theorem signOf_dd {s : List Char} (h : ∀ c ∈ s, isDig c = true ∨ c = '.') : signOf (s.dropWhile isSpace) = (false, s) := by
  cases s with
  | nil => rfl
  | cons c t =>
    obtain ⟨h1, h2, h3⟩ := dd_not (h c List.mem_cons_self)
    rw [List.dropWhile_cons, h1]
    simp only [Bool.false_eq_true, if_false]
    unfold signOf
    split
    · next heq => injection heq with h4; exact absurd h4 h2
    · next heq => injection heq with h4; exact absurd h4 h3
    · rfl

theorem special_dd {s : List Char} (h : ∀ c ∈ s, isDig c = true ∨ c = '.') : isSpecial s = false := by
  unfold isSpecial
  rw [signOf_dd h]
  have hnot : ∀ c ∈ s, ∀ x : Char, (isDig x || x == '.') = false → c ≠ x := fun c hc x hx e => by
    subst e
    rcases h c hc with h | h
    · rw [h] at hx; simp at hx
    · subst h; simp at hx
  match s, hnot with
  | [], _ => rfl
  | [_], _ => rfl
  | c :: d :: t, hnot =>
    have hc := hnot c (by simp)
    have hd := hnot d (by simp)
    simp [hc 'i' (by decide), hc 'I' (by decide), hc 'n' (by decide), hc 'N' (by decide), hd 'x' (by decide), hd 'X' (by decide)]

theorem digVal_nonneg' {s : List Char} (h : ∀ c ∈ s, isDig c = true) : 0 ≤ digVal s := by
  rw [decimalNat_digVal (fun c hc => (isDig_iff c).1 (h c hc))]
  exact Int.natCast_nonneg _

theorem decVal_dd {s : List Char} (h : ∀ c ∈ s, isDig c = true ∨ c = '.') {q : ℚ} (hq : decVal s = some q) : 0 ≤ q := by
  unfold decVal at hq
  rw [signOf_dd h] at hq
  simp only [Bool.false_eq_true, if_false] at hq
  split at hq
  · cases hq
  · injection hq with hq
    rw [← hq]
    have h1 : ∀ c ∈ (List.takeWhile isDig s ++ (fracDigits (List.dropWhile isDig s)).1), isDig c = true := by
      intro c hc
      rcases List.mem_append.1 hc with hc | hc
      · exact mem_takeWhile_imp' hc
      · unfold fracDigits at hc
        split at hc
        · exact mem_takeWhile_imp' hc
        · cases hc
    have h2 : (0 : ℚ) ≤ (digVal (List.takeWhile isDig s ++ (fracDigits (List.dropWhile isDig s)).1) : Int) := by
      exact_mod_cast digVal_nonneg' h1
    rw [powI_eq]
    exact mul_nonneg h2 (by positivity)

theorem numer_nonneg {p : Nat} {rnd : ℚ → ℚ} (h : FloatNearest p rnd) (d10 nd : Nat) {x : ℚ} (hx : 0 ≤ x) : 0 ≤ floatNumer rnd d10 nd x := by
  unfold floatNumer
  have h0 : 0 ≤ if nd > d10 then rnd ((FloatFmt.roundAway (rnd (x * 10 ^ d10)) : ℚ) / 10 ^ d10) else x := by
    split
    · apply h.nonneg
      have h1 : 0 ≤ rnd (x * 10 ^ d10) := h.nonneg (by positivity)
      rw [roundAway_nonneg h1]
      have : 0 ≤ ⌊rnd (x * 10 ^ d10) + 1 / 2⌋ := Int.floor_nonneg.2 (by linarith)
      have : (0 : ℚ) ≤ (⌊rnd (x * 10 ^ d10) + 1 / 2⌋ : Int) := by exact_mod_cast this
      positivity
    · exact hx
  have h1 := h.nonneg (mul_nonneg h0 (show (0 : ℚ) ≤ 10 ^ (if nd > d10 then d10 else nd) by positivity))
  rw [trunc_nonneg h1]
  exact Int.floor_nonneg.2 h1

/-- the decimal conversion of the code. -/
theorem decFloat_lowest {F : FloatFmt} (h : FloatNearest F.p F.rnd) (M : Int) (d10 : Nat) (special : List Char → Res Rational) :
    DecLowest M (decFloat F M d10 special) := by
  intro s q hs hq
  unfold decFloat at hq
  rw [special_dd hs] at hq
  simp only [Bool.false_eq_true, if_false] at hq
  obtain ⟨x, h1, hq⟩ := Res.bind_eq_ok.1 hq
  have hx : 0 ≤ x := by
    unfold stold at h1
    split at h1
    · cases h1
    · next q' hv =>
      split at h1
      · cases h1
      · split at h1
        · cases h1
        · injection h1 with h1
          rw [← h1]
          exact h.nonneg (decVal_dd hs hv)
  rw [ofFloat_eq] at hq
  obtain ⟨n, h2, hq⟩ := Res.bind_eq_ok.1 hq
  have hn := (chk_eq_ok.1 h2).2
  have hn0 : 0 ≤ n := by rw [hn]; exact numer_nonneg h _ _ hx
  obtain ⟨s1, s2, s3, s4, s5, s6, _⟩ := Rational.normalize_spec hq (show (10 : Int) ^ _ ≠ 0 by positivity)
  have hpos := s5 (by positivity)
  have hval : 0 ≤ q.val := by
    rw [s1]; unfold Rational.val
    have : (0 : ℚ) ≤ n := by exact_mod_cast hn0
    push_cast; positivity
  have hnum : 0 ≤ q.num := by
    by_contra hc
    have h3 : (q.num : ℚ) < 0 := by exact_mod_cast not_le.1 hc
    have h4 : (0 : ℚ) < q.den := by exact_mod_cast hpos
    have := div_neg_of_neg_of_pos h3 h4
    unfold Rational.val at hval
    linarith
  obtain ⟨f1, f2⟩ := s6
  exact ⟨hnum, le_trans (le_abs_self _) f1, hpos, le_trans (le_abs_self _) f2, s2⟩

end Symxx.Sym
