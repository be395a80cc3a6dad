import Verif.Dtoa.Digits
/-!
# The table of powers of ten and the choice of the power

The table has 687 rows and `k_comp` is used on 2099 binary exponents: both are finite, and every row is checked by the
kernel.
-/
namespace Symxx.Dtoa

/-- row `i` is normalised and is `10^(i-343)` correctly rounded (cross-multiplied). -/
def rowOk (i : Nat) : Bool :=
  let f := powersTen.getD i 0
  let e := powersTenE.getD i 0
  let u := 2 ^ e.toNat * 10 ^ (343 - i)
  let t := 10 ^ (i - 343) * 2 ^ (-e).toNat
  2 ^ 63 ≤ f && f < 2 ^ 64 && 2 * (f * u) ≤ 2 * t + u && 2 * t ≤ 2 * (f * u) + u

theorem powersTen_length : powersTen.length = 687 := by decide +kernel
theorem powersTenE_length : powersTenE.length = 687 := by decide +kernel

/-- row `i` as above, and its exponent in closed form: `⌊(i-343)·log₂ 10⌋ - 63`. -/
def rowOk' (f : Nat) (e : Int) (i : Nat) : Bool :=
  let u := 2 ^ e.toNat * 10 ^ (343 - i)
  let t := 10 ^ (i - 343) * 2 ^ (-e).toNat
  (2 ^ 63 ≤ f && f < 2 ^ 64 && 2 * (f * u) ≤ 2 * t + u && 2 * t ≤ 2 * (f * u) + u) &&
    e = ((i : Int) - 343) * 217706 / 65536 - 63

/-- all rows from `i` on. -/
def rowsOk : List Nat → List Int → Nat → Bool
  | f :: fs, e :: es, i => rowOk' f e i && rowsOk fs es (i + 1)
  | _, _, _ => true

theorem rowsOk_spec {fs : List Nat} {es : List Int} {i : Nat} (h : rowsOk fs es i = true) {j : Nat} (hj : j < fs.length)
    (hj' : j < es.length) : rowOk' (fs.getD j 0) (es.getD j 0) (i + j) = true := by
  induction fs generalizing es i j with
  | nil => simp at hj
  | cons f fs ih =>
    cases es with
    | nil => simp at hj'
    | cons e es =>
      rw [rowsOk, Bool.and_eq_true] at h
      cases j with
      | zero => exact h.1
      | succ j =>
        have := ih h.2 (j := j) (by simpa using hj) (by simpa using hj')
        rw [show i + (j + 1) = i + 1 + j from by omega]
        simpa using this

theorem table : rowsOk powersTen powersTenE 0 = true := by decide +kernel

theorem table_row {i : Nat} (h : i < 687) : rowOk' (powersTen.getD i 0) (powersTenE.getD i 0) i = true := by
  have := rowsOk_spec table (j := i) (by rw [powersTen_length]; exact h) (by rw [powersTenE_length]; exact h)
  rwa [Nat.zero_add] at this

theorem rows (i : Nat) (h : i < 687) : rowOk i = true := by
  have := table_row h
  unfold rowOk' at this
  rw [Bool.and_eq_true] at this
  exact this.1

theorem exps (i : Nat) (h : i < 687) : powersTenE.getD i 0 = ((i : Int) - 343) * 217706 / 65536 - 63 := by
  have := table_row h
  unfold rowOk' at this
  rw [Bool.and_eq_true] at this
  exact of_decide_eq_true this.2

/-- the power chosen for the binary exponent `n - 1137` is in the table and brings the product to an exponent between
-60 and -32. -/
def choiceOk (n : Nat) : Bool :=
  let p : Int := (n : Int) - 1137
  let mk := kComp (p + 64) (-59)
  let x := p + powersTenE.getD (343 + mk).toNat 0 + 64
  decide (-343 ≤ mk ∧ mk ≤ 343 ∧ -60 ≤ x ∧ x ≤ -32)

/-- the same with the closed form. -/
def choiceOk' (n : Nat) : Bool :=
  let p : Int := (n : Int) - 1137
  let mk := kComp (p + 64) (-59)
  let x := p + (mk * 217706 / 65536 - 63) + 64
  decide (-343 ≤ mk ∧ mk ≤ 343 ∧ -60 ≤ x ∧ x ≤ -32)

theorem choices' : ∀ n < 2099, choiceOk' n = true := by decide +kernel

theorem choices (n : Nat) (h : n < 2099) : choiceOk n = true := by
  have h' := choices' n h
  unfold choiceOk' at h'
  unfold choiceOk
  simp only [decide_eq_true_eq] at h' ⊢
  generalize kComp ((n : Int) - 1137 + 64) (-59) = mk at h' ⊢
  obtain ⟨h1, h2, h3⟩ := h'
  rw [exps _ (by omega), show (((343 + mk).toNat : Nat) : Int) - 343 = mk from by omega]
  exact ⟨h1, h2, h3⟩

end Symxx.Dtoa
