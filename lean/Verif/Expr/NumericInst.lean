import Verif.Expr.NumericProof
import Verif.Num.FloatProof
/-!
# The computable format of the examples: exact on integers up to 2^53
-/
namespace Symxx.Sym
open Symxx.Num

/-- the real value of a value of `flt64`. -/
noncomputable def sem64 : FltSem flt64 where
  ld (a : Option ℚ) := Option.map (fun q : ℚ => (q : ℝ)) a
  d (a : Option ℚ) := Option.map (fun q : ℚ => (q : ℝ)) a

theorem rndEven_int {p : Nat} (hp : 53 ≤ p) {k : Int} (hk : |k| ≤ 2 ^ 53) : rndEven p (k : ℚ) = (k : ℚ) :=
  (rndEven_nearest p (by omega)).eq_of_rep
    (FloatRep.intCast (le_trans hk (pow_le_pow_right₀ (by norm_num) hp)))

theorem powQ_int {m n k : Int} (h : opSem '^' (m : ℝ) (n : ℝ) = some (k : ℝ)) : powQ (m : ℚ) (n : ℚ) = some (k : ℚ) := by
  unfold opSem at h
  rw [if_neg (by decide), if_neg (by decide), if_neg (by decide), if_neg (by decide), if_pos rfl] at h
  split at h
  swap
  · cases h
  next hd =>
  have h := Option.some.inj h
  have h' : (m : ℝ) ^ n = (k : ℝ) := by rw [← Real.rpow_intCast]; exact h
  unfold powQ
  rw [if_pos (by simp)]
  have hq : (m : ℚ) ^ n = (k : ℚ) := by
    have e : (((m : ℚ) ^ n : ℚ) : ℝ) = ((k : ℚ) : ℝ) := by rw [Rat.cast_zpow]; simpa using h'
    exact Rat.cast_injective e
  by_cases h0 : 0 ≤ n
  · obtain ⟨j, rfl⟩ := Int.eq_ofNat_of_zero_le h0
    rw [if_pos (by simp)]
    simpa using hq
  · have hm : m ≠ 0 := by
      rintro rfl
      rcases hd with hd | ⟨_, hd⟩ | ⟨hd, _⟩
      · simp at hd
      · exact h0 (by exact_mod_cast hd)
      · simp at hd
    obtain ⟨j, hj⟩ := Int.eq_ofNat_of_zero_le (show 0 ≤ -n by omega)
    have hn : n = -(j : Int) := by omega
    subst hn
    rw [if_neg (by simpa using h0), if_neg (by exact_mod_cast hm)]
    congr 1
    rw [zpow_neg, zpow_natCast] at hq
    simpa [one_div] using hq

theorem opSem_cast {c : Char} {m n k : Int} (h : opSem c (m : ℝ) (n : ℝ) = some (k : ℝ)) :
    (c = '+' ∧ (m + n : ℚ) = k) ∨ (c = '-' ∧ (m - n : ℚ) = k) ∨ (c = '*' ∧ (m * n : ℚ) = k) ∨
    (c = '/' ∧ (n : ℚ) ≠ 0 ∧ (m / n : ℚ) = k) ∨ (c = '^' ∧ powQ (m : ℚ) (n : ℚ) = some (k : ℚ)) := by
  rcases opSem_ops h with rfl | rfl | rfl | rfl | rfl
  · left
    have := Option.some.inj (h : some _ = _)
    exact ⟨rfl, by exact_mod_cast this⟩
  · right; left
    have := Option.some.inj (h : some _ = _)
    exact ⟨rfl, by exact_mod_cast this⟩
  · right; right; left
    have := Option.some.inj (h : some _ = _)
    exact ⟨rfl, by exact_mod_cast this⟩
  · right; right; right; left
    unfold opSem at h
    rw [if_neg (by decide), if_neg (by decide), if_neg (by decide), if_pos rfl] at h
    split at h
    · cases h
    next h0 =>
    refine ⟨rfl, by exact_mod_cast h0, ?_⟩
    have := Option.some.inj h
    exact_mod_cast this
  · right; right; right; right
    exact ⟨rfl, powQ_int h⟩

theorem sem64_inj {a : Option ℚ} {m : Int} (h : Option.map (fun q : ℚ => (q : ℝ)) a = some (m : ℝ)) : a = some (m : ℚ) := by
  cases a with
  | none => cases h
  | some q =>
    have := Option.some.inj h
    simp only at this
    congr 1
    exact_mod_cast this

theorem trunc_int (n : Int) : FloatFmt.trunc (n : ℚ) = n := by
  unfold FloatFmt.trunc
  split
  · exact Int.floor_intCast (R := ℚ) n
  · have : (-(n : ℚ)).floor = -n := by
      have := Int.floor_intCast (R := ℚ) (-n)
      push_cast at this
      exact this
    rw [this, neg_neg]

theorem flt64_div {x y : ℚ} (h : y ≠ 0) : flt64.div (some x) (some y) = some (rndEven 64 (x / y)) := by
  simp [flt64, h]
theorem flt64_dDiv {x y : ℚ} (h : y ≠ 0) : flt64.dDiv (some x) (some y) = some (rndEven 53 (x / y)) := by
  simp [flt64, h]
theorem flt64_pow {x y r : ℚ} (h : powQ x y = some r) : flt64.pow (some x) (some y) = some (rndEven 64 r) := by
  simp [flt64, h]
theorem flt64_dPow {x y r : ℚ} (h : powQ x y = some r) : flt64.dPow (some x) (some y) = some (rndEven 53 r) := by
  simp [flt64, h]

/-- IEEE 754 double and x87 extended precision are exact on integers up to `2^53`. -/
theorem sem64_exact : sem64.Exact (2 ^ 53) where
  one := by norm_num
  ofInt n hn := by
    show some _ = _
    rw [rndEven_int (by norm_num) hn]
    simp
  dOfInt n hn := by
    show some _ = _
    rw [rndEven_int (by norm_num) hn]
    simp
  widen a := rfl
  trunc a n ha hn := by
    rw [sem64_inj ha]
    show chk _ _ = _
    rw [trunc_int]
    have := abs_le.1 hn
    exact chk_ok (by unfold InRange; omega)
  op c a b m n k ha hb hm hn h hk := by
    cases sem64_inj ha
    cases sem64_inj hb
    have hr : rndEven 64 (k : ℚ) = (k : ℚ) := rndEven_int (by norm_num) hk
    rcases opSem_cast h with ⟨rfl, e⟩ | ⟨rfl, e⟩ | ⟨rfl, e⟩ | ⟨rfl, h0, e⟩ | ⟨rfl, e⟩
    · show some ((rndEven 64 (m + n) : ℚ) : ℝ) = _
      rw [e, hr]; simp
    · show some ((rndEven 64 (m - n) : ℚ) : ℝ) = _
      rw [e, hr]; simp
    · show some ((rndEven 64 (m * n) : ℚ) : ℝ) = _
      rw [e, hr]; simp
    · rw [show fltOp flt64 '/' = flt64.div from rfl, flt64_div h0, e]
      show some ((rndEven 64 (k : ℚ) : ℚ) : ℝ) = _
      rw [hr]; simp
    · rw [show fltOp flt64 '^' = flt64.pow from rfl, flt64_pow e]
      show some ((rndEven 64 (k : ℚ) : ℚ) : ℝ) = _
      rw [hr]; simp
  opD c a b m n k hc ha hb hm hn h hk := by
    cases sem64_inj ha
    cases sem64_inj hb
    have hr : rndEven 53 (k : ℚ) = (k : ℚ) := rndEven_int (by norm_num) hk
    rcases hc with rfl | rfl
    · rcases opSem_cast h with ⟨e, _⟩ | ⟨e, _⟩ | ⟨e, _⟩ | ⟨_, h0, e⟩ | ⟨e, _⟩
      · cases e
      · cases e
      · cases e
      · rw [show fltOpD flt64 '/' = flt64.dDiv from rfl, flt64_dDiv h0, e]
        show some ((rndEven 53 (k : ℚ) : ℚ) : ℝ) = _
        rw [hr]; simp
      · cases e
    · rw [show fltOpD flt64 '^' = flt64.dPow from rfl, flt64_dPow (powQ_int h)]
      show some ((rndEven 53 (k : ℚ) : ℚ) : ℝ) = _
      rw [hr]; simp

end Symxx.Sym
