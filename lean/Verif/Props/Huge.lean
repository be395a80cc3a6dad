import Verif.Huge.Ops
import Verif.Huge.Reach
/-!
# Properties of class `Huge` (C01-C16)

Vocabulary (see `Verif/Huge/Spec.lean`): `h.val : Int` is the integer a `Huge` denotes,
`h.Canonical` says that its digits are proper base-`2^30` digits without a leading zero digit,
`h.WF` only that the digits are proper. `Res` outcomes: `Verif/Res.lean`.
-/
namespace Symxx.Huge
attribute [local irreducible] BASE

/-! A few values used as concrete instances. -/

/-- the digits of `2^30`. -/
def w30 : Huge := ⟨[0, 1], true⟩
/-- the digits of `2^30 - 1`. -/
def w30m : Huge := ⟨[1073741823], true⟩
theorem w30_str : ofString ['1','0','7','3','7','4','1','8','2','4'] = .ok w30 := by decide
theorem w30m_str : ofString ['1','0','7','3','7','4','1','8','2','3'] = .ok w30m := by decide
/-- what `2^30 - (2^30 - 1)` computes: the integer 1 with a leading zero digit. -/
def unn : Huge := ⟨[1, 0], true⟩
theorem unn_eq : sub w30 w30m = unn := by decide
theorem unn_reach : Reachable unn := unn_eq ▸ .sub (.str w30_str) (.str w30m_str)

theorem str_reach (s : List Char) {h : Huge} (e : ofString s = .ok h) : Reachable h := .str e

/-! ## C01 addition -/

/-- C01 (partial): addition is exact for operands without leading zero digits. Missing: operands
that carry leading zero digits (such values are reachable, see `C01_fails_on_leading_zeros`). -/
theorem C01_add_exact_partial (a b : Huge) (ha : a.Canonical) (hb : b.Canonical) :
    (add a b).val = a.val + b.val := (add_val a b ha hb).1

/-- C01 (partial): with equal sign flags addition is exact for every digit vector. -/
theorem C01_add_same_sign_partial (a b : Huge) (ha : a.WF) (hb : b.WF)
    (hs : a.isPositive = b.isPositive) : (add a b).val = a.val + b.val :=
  (add_same_sign a b ha hb hs).1

/-- C01 is false in general: `(2^30 - (2^30-1)) + (-5)` does not denote `-4`. -/
theorem C01_fails_on_leading_zeros :
    ¬ ∀ a b : Huge, Reachable a → Reachable b → (add a b).val = a.val + b.val := by
  intro h
  have h1 : Reachable (⟨[5], false⟩ : Huge) := .str (s := ['-', '5']) (by decide)
  have := h unn ⟨[5], false⟩ unn_reach h1
  revert this; decide

example : (⟨[5, 1], true⟩ : Huge).Canonical ∧ (⟨[7, 1], false⟩ : Huge).Canonical ∧
    (add ⟨[5, 1], true⟩ ⟨[7, 1], false⟩).val = -2 := by decide

/-! ## C02 subtraction -/

/-- C02 (partial): for canonical operands the difference is exact if and only if the operands are
not non-zero opposites. Missing: opposites (where the code returns 0) and operands with leading
zero digits. -/
theorem C02_sub_exact_partial (a b : Huge) (ha : a.Canonical) (hb : b.Canonical) :
    (sub a b).val = a.val - b.val ↔ (a.val + b.val ≠ 0 ∨ a.val = 0) := by
  constructor
  · intro h
    by_contra hcon
    rw [not_or, not_not] at hcon
    have := sub_opposite a b ha hb hcon.1
    omega
  · exact fun h => (sub_val a b ha hb h).1

/-- C02: opposites always give zero. -/
theorem C02_sub_opposite (a b : Huge) (ha : a.Canonical) (hb : b.Canonical)
    (h : a.val + b.val = 0) : (sub a b).val = 0 := sub_opposite a b ha hb h

/-- C02 is false in general: `5 - (-5)` is 0. -/
theorem C02_fails : ¬ ∀ a b : Huge, Reachable a → Reachable b → (sub a b).val = a.val - b.val := by
  intro h
  have := h ⟨[5], true⟩ ⟨[5], false⟩ (.str (s := ['5']) (by decide))
    (.str (s := ['-', '5']) (by decide))
  revert this; decide

example : (⟨[5, 1], true⟩ : Huge).Canonical ∧ (⟨[7, 1], true⟩ : Huge).Canonical ∧
    (⟨[5, 1], true⟩ : Huge).val + (⟨[7, 1], true⟩ : Huge).val ≠ 0 := by decide

/-! ## C03 multiplication -/

/-- C03 (partial): multiplication terminates, raises nothing, and whenever it is defined the
result is the exact product, without leading zero digits (any lengths, both the schoolbook and the
Karatsuba code). Missing: definedness above 70 digits (`C03_karatsuba_undefined`). -/
theorem C03_mul_exact_partial (a b : Huge) (ha : a.WF) (hb : b.WF) :
    (∃ r, mul a b = .ok r ∧ r.val = a.val * b.val ∧ r.Canonical) ∨ ∃ m, mul a b = .ub m :=
  mul_val a b ha hb

/-- C03 (partial): it is defined whenever one canonical operand is below `2^2100`. -/
theorem C03_mul_defined_partial (a b : Huge) (ha : a.Canonical) (hb : b.Canonical)
    (h : |a.val| < 2 ^ 2100 ∨ |b.val| < 2 ^ 2100) :
    ∃ r, mul a b = .ok r ∧ r.val = a.val * b.val ∧ r.Canonical := by
  have key : ∀ x : Huge, x.Canonical → |x.val| < 2 ^ 2100 → x.digits.length ≤ 70 := by
    intro x hx hlt
    by_contra hcon
    have hne : x.digits ≠ [] := by intro h0; rw [h0] at hcon; simp at hcon
    have h1 := Canon.ge hx hne
    have h2 : BASE ^ 70 ≤ BASE ^ (x.digits.length - 1) := Nat.pow_le_pow_right BASE_pos (by omega)
    rw [← BASE_pow, ← pow_mul] at h2
    rw [Int.abs_eq_natAbs, natAbs_val] at hlt
    have h3 : dval x.digits < 2 ^ 2100 := by exact_mod_cast hlt
    rw [← BASE_pow] at h1
    have h4 := le_trans h2 h1
    rw [show 30 * 70 = 2100 from rfl] at h4
    exact absurd h3 (not_lt.2 h4)
  have hlen : min a.digits.length b.digits.length ≤ 70 := by
    rcases h with h | h
    · exact le_trans (min_le_left _ _) (key a ha h)
    · exact le_trans (min_le_right _ _) (key b hb h)
  obtain ⟨r, hr⟩ := mul_defined a b ha hb hlen
  rcases mul_val a b ha.wf hb.wf with ⟨r', h1, h2⟩ | ⟨m, hm⟩
  · exact ⟨r', h1, h2⟩
  · rw [hr] at hm; cases hm

/-- C03 is false in general: `2^2130 * 2^2131` (71 zero digits below the top digit) runs into
`back()` of an empty vector. -/
theorem C03_karatsuba_undefined :
    mul ⟨List.replicate 71 0 ++ [1], true⟩ ⟨List.replicate 71 0 ++ [2], true⟩ =
      .ub "back() on an empty vector" := by decide +kernel

example : (⟨[5, 1], true⟩ : Huge).Canonical ∧ (⟨[7, 1], false⟩ : Huge).Canonical := by decide

/-! ## C04 division and remainder -/

theorem exactLong_iff (a b : Huge) (ha : a.Canonical) (hb : b.Canonical) :
    ExactLong a.digits b.digits ↔ (2 ^ 30 ≤ |b.val| ∧ |b.val| < |a.val| ∧ b.val ∣ a.val) := by
  have hA : |a.val| = (dval a.digits : Int) := by rw [Int.abs_eq_natAbs, natAbs_val]
  have hBv : |b.val| = (dval b.digits : Int) := by rw [Int.abs_eq_natAbs, natAbs_val]
  have hB := BASE_eq
  rw [hA, hBv, ← Int.natAbs_dvd_natAbs, natAbs_val, natAbs_val]
  unfold ExactLong
  rw [← Nat.dvd_iff_mod_eq_zero]
  have h1 : 2 ≤ b.digits.length ↔ BASE ≤ dval b.digits :=
    ⟨ge_of_length_ge_two hb, length_ge_two_of_ge hb.1⟩
  rw [h1]
  have h2 : ((2 : Int) ^ 30 ≤ (dval b.digits : Int)) ↔ BASE ≤ dval b.digits := by
    rw [hB]
    constructor <;> intro h <;> omega
  rw [h2]
  exact ⟨fun ⟨x, y, z⟩ => ⟨x, by exact_mod_cast y, z⟩, fun ⟨x, y, z⟩ => ⟨x, by exact_mod_cast y, z⟩⟩

/-- C04 (partial): for canonical operands and `b ≠ 0`, unless `|b| ≥ 2^30` divides a larger `a`
exactly, both operators return; the quotient is truncated towards zero, the remainder has the sign
of `a`, is smaller than `b`, and `a = (a/b)*b + a%b`. Missing: the excluded exact divisions, which
are undefined behaviour (`C04_exact_division_undefined`). -/
theorem C04_divmod_partial (a b : Huge) (ha : a.Canonical) (hb : b.Canonical) (hb0 : b.val ≠ 0)
    (hx : ¬ (2 ^ 30 ≤ |b.val| ∧ |b.val| < |a.val| ∧ b.val ∣ a.val)) :
    ∃ q r, div a b = .ok q ∧ mod a b = .ok r ∧ q.val = Int.tdiv a.val b.val ∧
      r.val = Int.tmod a.val b.val ∧ a.val = q.val * b.val + r.val ∧ |r.val| < |b.val| ∧
      0 ≤ r.val * a.val := by
  rw [← exactLong_iff a b ha hb] at hx
  obtain ⟨q, q1, q2, _⟩ := (div_val a b ha hb hb0).1 hx
  obtain ⟨r, r1, r2, _⟩ := (mod_val a b ha hb hb0).1 hx
  refine ⟨q, r, q1, r1, q2, r2, ?_, ?_, ?_⟩
  · rw [q2, r2]
    have := Int.mul_tdiv_add_tmod a.val b.val
    rw [mul_comm] at this
    exact this.symm
  · rw [r2, Int.abs_eq_natAbs, Int.abs_eq_natAbs]
    have h1 := Int.natAbs_tmod a.val b.val
    rw [h1]
    have : a.val.natAbs % b.val.natAbs < b.val.natAbs := Nat.mod_lt _ (by omega)
    exact_mod_cast this
  · rw [r2]
    rcases le_total 0 a.val with h | h
    · exact mul_nonneg (Int.tmod_nonneg _ h) h
    · have h1 : 0 ≤ Int.tmod (-a.val) b.val := Int.tmod_nonneg _ (by omega)
      rw [Int.neg_tmod] at h1
      nlinarith

/-- C04 is false in general, and exactly here: an exact division of a larger number by a divisor of
two or more digits is undefined behaviour in `/`, `%` and `divrem`. -/
theorem C04_exact_division_undefined (a b : Huge) (ha : a.Canonical) (hb : b.Canonical)
    (hx : 2 ^ 30 ≤ |b.val| ∧ |b.val| < |a.val| ∧ b.val ∣ a.val) :
    (∃ m, div a b = .ub m) ∧ (∃ m, mod a b = .ub m) ∧ ∃ m, divrem a b = .ub m := by
  have hb0 : b.val ≠ 0 := by
    intro h
    have := hx.1
    rw [h] at this
    norm_num at this
  rw [← exactLong_iff a b ha hb] at hx
  exact ⟨(div_val a b ha hb hb0).2 hx, (mod_val a b ha hb hb0).2 hx, (divrem_val a b ha hb hb0).2 hx⟩

/-- instance of the hypotheses of `C04_divmod_partial`: a three-digit number by a two-digit one. -/
example : (⟨[5, 1, 9], true⟩ : Huge).Canonical ∧ (⟨[7, 1], false⟩ : Huge).Canonical ∧
    (⟨[7, 1], false⟩ : Huge).val ≠ 0 ∧ ¬ (⟨[7, 1], false⟩ : Huge).val ∣ (⟨[5, 1, 9], true⟩ : Huge).val := by
  decide
/-- instance of the undefined case: `2^31 / 2^30`. -/
example : div ⟨[0, 2], true⟩ ⟨[0, 1], true⟩ = .ub "back() on an empty vector" := by decide +kernel

/-! ## C05 division by zero -/

/-- outcomes other than `Error`. -/
def NoThrow {α} (x : Res α) : Prop := ∀ m, x ≠ .throw m

theorem NoThrow.ok {α} (a : α) : NoThrow (Res.ok a) := by intro m h; cases h
theorem NoThrow.ub {α} (s) : NoThrow (Res.ub s : Res α) := by intro m h; cases h
theorem NoThrow.fuel {α} : NoThrow (Res.fuel : Res α) := by intro m h; cases h
theorem NoThrow.bind {α β} {x : Res α} {f : α → Res β} (hx : NoThrow x) (hf : ∀ a, NoThrow (f a)) :
    NoThrow (x >>= f) := by
  intro m h
  cases x with
  | ok a => exact hf a m h
  | throw m' => exact hx m' rfl
  | exn _ => cases h
  | ub _ => cases h
  | fuel => cases h

theorem popZeros_noThrow (l : List Nat) : NoThrow (popZeros l) := by
  induction l with
  | nil => exact .ub _
  | cons x xs ih => unfold popZeros; split; exacts [ih, .ok _]
theorem trimBack_noThrow (l : List Nat) : NoThrow (trimBack l) :=
  .bind (popZeros_noThrow _) fun _ => .ok _
theorem adjustQ_noThrow (a b c n q r : Nat) : NoThrow (adjustQ a b c n q r) := by
  induction n generalizing q r with
  | zero => exact .fuel
  | succ n ih =>
    unfold adjustQ
    split
    · simp only
      split
      · exact .ok _
      · exact ih _ _
    · exact .ok _
theorem mulSub_noThrow (q : Nat) (v w : List Nat) (z : Int) : NoThrow (mulSub q v w z) := by
  induction v generalizing w z with
  | nil => cases w <;> unfold mulSub; exacts [.ok _, .ub _]
  | cons x xs ih =>
    cases w with
    | nil => unfold mulSub; exact .ok _
    | cons y ys =>
      unfold mulSub
      split
      · exact .bind (ih _ _) fun _ => .ok _
      · exact .ub _
theorem divStep_noThrow (w v : List Nat) : NoThrow (divStep w v) := by
  unfold divStep
  simp only
  split
  · split
    · exact .ub _
    · refine .bind (adjustQ_noThrow _ _ _ _ _ _) fun _ => .bind (mulSub_noThrow _ _ _ _) fun _ => ?_
      split
      · split <;> exact .ok _
      · exact .ub _
  · exact .ub _
theorem divLoop_noThrow (w : List Nat) (k : Nat) (v : List Nat) : NoThrow (divLoop w k v) := by
  induction k generalizing v with
  | zero => unfold divLoop; exact .ok _
  | succ k ih =>
    cases v with
    | nil => unfold divLoop; exact .ub _
    | cons x xs =>
      unfold divLoop
      exact .bind (ih _) fun _ => .bind (divStep_noThrow _ _) fun _ => .ok _
theorem divremBy1_noThrow (c : List Nat) (b : Nat) : NoThrow (divremBy1 c b) := by
  unfold divremBy1; split; exacts [.ub _, .ok _]
theorem remBy1_noThrow (c : List Nat) (b : Nat) : NoThrow (remBy1 c b) := by
  unfold remBy1; split; exacts [.ub _, .ok _]
theorem digitsDivrem_noThrow (a b : List Nat) : NoThrow (digitsDivrem a b) := by
  unfold digitsDivrem
  simp only
  split
  · exact .ok _
  split
  · exact .ok _
  split
  · split; exacts [divremBy1_noThrow _ _, .ub _]
  split
  · exact .ub _
  · refine .bind (divLoop_noThrow _ _ _) fun _ => .bind (trimBack_noThrow _) fun _ =>
      .bind (trimBack_noThrow _) fun _ => .ok _
theorem digitsRem_noThrow (a b : List Nat) : NoThrow (digitsRem a b) := by
  unfold digitsRem
  split
  · exact .ok _
  split
  · split; exacts [remBy1_noThrow _ _, .ub _]
  · exact .bind (digitsDivrem_noThrow _ _) fun _ => .ok _

theorem throw_after_assert {α} {b : Bool} {s : String} {x : Unit → Res α} (hx : NoThrow (x ()))
    (m : String) : ((Res.assert b s >>= x) = .throw m) ↔ (b = false ∧ m = s) := by
  cases b
  · simp only [Res.assert_false, Res.bind_throw, true_and, Res.throw.injEq]
    exact eq_comm
  · simp only [Res.assert_true, Res.bind_ok, Bool.true_eq_false, false_and, iff_false]
    exact hx m

/-- C05 (partial): for a divisor without leading zero digits (and any dividend) `/`, `%` and
`divrem` raise an `Error` exactly when the divisor denotes 0, and its text is "Division by zero".
Missing: a divisor denoting 0 through zero digits (`C05_fails_on_leading_zeros`). -/
theorem C05_division_by_zero_partial (a b : Huge) (hb : b.Canonical) (m : String) :
    (div a b = .throw m ↔ (b.val = 0 ∧ m = "Division by zero")) ∧
    (mod a b = .throw m ↔ (b.val = 0 ∧ m = "Division by zero")) ∧
    (divrem a b = .throw m ↔ (b.val = 0 ∧ m = "Division by zero")) := by
  have e : ∀ s, ((!b.digits.isEmpty) = false ∧ m = s) ↔ (b.val = 0 ∧ m = s) := by
    intro s; rw [val_zero_iff hb]; simp
  refine ⟨?_, ?_, ?_⟩
  · rw [← e]; exact throw_after_assert (.bind (digitsDivrem_noThrow _ _) fun _ => .ok _) m
  · rw [← e]; exact throw_after_assert (.bind (digitsRem_noThrow _ _) fun _ => .ok _) m
  · rw [← e]; exact throw_after_assert (.bind (digitsDivrem_noThrow _ _) fun _ => .ok _) m

/-- C05 (partial): no spurious error, for every operand pair whatsoever: whenever an `Error` is
raised the divisor denotes 0. -/
theorem C05_no_spurious_error_partial (a b : Huge) (m : String)
    (h : div a b = .throw m ∨ mod a b = .throw m ∨ divrem a b = .throw m) : b.val = 0 := by
  have e : (!b.digits.isEmpty) = false → b.val = 0 := by
    intro h; simp at h; simp [Huge.val, h]
  rcases h with h | h | h
  · exact e ((throw_after_assert (.bind (digitsDivrem_noThrow _ _) fun _ => .ok _) m).1 h).1
  · exact e ((throw_after_assert (.bind (digitsRem_noThrow _ _) fun _ => .ok _) m).1 h).1
  · exact e ((throw_after_assert (.bind (digitsDivrem_noThrow _ _) fun _ => .ok _) m).1 h).1

/-- C05 is false in general: `(2^30 - (2^30-1)) / 3` denotes 0, but dividing by it is undefined
behaviour instead of an `Error`. -/
theorem C05_fails_on_leading_zeros :
    ∃ a z, Reachable a ∧ Reachable z ∧ z.val = 0 ∧ ∃ m, div a z = .ub m := by
  refine ⟨⟨[5, 6, 7], true⟩, ⟨[0, 0], true⟩, ?_, ?_, by decide, ⟨"division by zero", by decide +kernel⟩⟩
  · exact .str (s := "8070450538690379781".toList) (by decide +kernel)
  · exact .div (h := ⟨[0, 0], true⟩) unn_reach (.str (s := ['3']) (h := ⟨[3], true⟩) (by decide)) (by decide +kernel)

example : div ⟨[5, 6, 7], true⟩ ⟨[], false⟩ = .throw "Division by zero" := by decide

/-! ## C06 comparisons -/

/-- C06: the six comparison operators are the integer comparisons. -/
theorem C06_comparisons (a b : Huge) (ha : a.Canonical) (hb : b.Canonical) :
    (lt a b = true ↔ a.val < b.val) ∧ (le a b = true ↔ a.val ≤ b.val) ∧
    (gt a b = true ↔ a.val > b.val) ∧ (ge a b = true ↔ a.val ≥ b.val) ∧
    (eq a b = true ↔ a.val = b.val) ∧ (ne a b = true ↔ a.val ≠ b.val) := by
  obtain ⟨h1, h2⟩ := cmp_spec a b ha hb
  simp only [lt, le, gt, ge, eq, ne, decide_eq_true_eq]
  refine ⟨h1, ?_, ?_, ?_, h2, not_congr h2⟩
  · rw [le_iff_lt_or_eq, h1, h2, ← le_iff_lt_or_eq]
  · rw [gt_iff_lt, gt_iff_lt, ← not_le, ← not_le, le_iff_lt_or_eq, h1, h2, ← le_iff_lt_or_eq]
  · rw [ge_iff_le, ge_iff_le, ← not_lt, ← not_lt, h1]

example : (⟨[5, 1], true⟩ : Huge).Canonical ∧ (⟨[], false⟩ : Huge).Canonical ∧
    lt ⟨[], false⟩ ⟨[5, 1], true⟩ = true ∧ eq ⟨[], false⟩ ⟨[], true⟩ = true := by decide

/-! ## C07 canonical results -/

/-- `r` compares equal to exactly the canonical values that denote the same integer. -/
def ComparesRight (r : Huge) : Prop := ∀ c : Huge, c.Canonical → (eq r c = true ↔ r.val = c.val)

theorem Canonical.comparesRight {r : Huge} (h : r.Canonical) : ComparesRight r :=
  fun c hc => (C06_comparisons r c h hc).2.2.2.2.1

/-- C07 (partial): for canonical operands the results of `*`, `%`, `gcd`, unary minus, `abs`,
additions of numbers not of strictly opposite sign, subtractions of numbers not of strictly equal
sign, and divisions by a divisor of at least `2^30` compare correctly. Missing: `+`/`-` with
cancellation and division by a one-digit divisor (`C07_fails_sub`, `C07_fails_div`). -/
theorem C07_canonical_results_partial (a b : Huge) (ha : a.Canonical) (hb : b.Canonical) :
    (∀ r, mul a b = .ok r → ComparesRight r) ∧
    (∀ r, mod a b = .ok r → ComparesRight r) ∧
    (∀ r, gcd a b = .ok r → ComparesRight r) ∧
    ComparesRight (neg a) ∧ ComparesRight (abs a) ∧
    (0 ≤ a.val * b.val → ComparesRight (add a b)) ∧
    (a.val * b.val < 0 → ComparesRight (sub a b)) ∧
    (2 ^ 30 ≤ |b.val| → ∀ r, div a b = .ok r → ComparesRight r) := by
  refine ⟨?_, ?_, ?_, Canonical.comparesRight (r := neg a) ha,
    Canonical.comparesRight (r := abs a) ha,
    fun h => Canonical.comparesRight (add_canonical a b ha hb h), ?_, ?_⟩
  · intro r hr
    rcases mul_val a b ha.wf hb.wf with ⟨r', h1, _, h2⟩ | ⟨m, hm⟩
    · rw [hr] at h1; injection h1 with h1; subst h1; exact Canonical.comparesRight h2
    · rw [hr] at hm; cases hm
  · intro r hr
    by_cases hb0 : b.val = 0
    · have := ((C05_division_by_zero_partial a b hb _).2.1).2 ⟨hb0, rfl⟩
      rw [hr] at this; cases this
    by_cases hx : ExactLong a.digits b.digits
    · obtain ⟨m, hm⟩ := (mod_val a b ha hb hb0).2 hx
      rw [hr] at hm; cases hm
    · obtain ⟨r', h1, _, h2⟩ := (mod_val a b ha hb hb0).1 hx
      rw [hr] at h1; injection h1 with h1; subst h1; exact Canonical.comparesRight h2
  · intro r hr
    by_cases hx : GcdBad a.digits b.digits
    · obtain ⟨m, hm⟩ := (gcd_val a b ha hb).2 hx
      rw [hr] at hm; cases hm
    · obtain ⟨r', h1, _, h2⟩ := (gcd_val a b ha hb).1 hx
      rw [hr] at h1; injection h1 with h1; subst h1; exact Canonical.comparesRight h2
  · intro hneg
    apply Canonical.comparesRight
    obtain ⟨a, p⟩ := a
    obtain ⟨b, q⟩ := b
    unfold sub
    simp only
    split
    · exact Canon.nil
    · have hflag : ((q && !p) || (!q && p)) = true := by
        have h1 := Int.natCast_nonneg (dval a)
        have h2 := Int.natCast_nonneg (dval b)
        have h3 := mul_nonneg h1 h2
        unfold Huge.val at hneg
        cases p <;> cases q <;> simp at hneg ⊢ <;> omega
      rw [if_pos hflag]
      exact digitsAdd_canon ha hb
  · intro hlen r hr
    have hb0 : b.val ≠ 0 := by intro h; rw [h] at hlen; norm_num at hlen
    have hne : b.digits ≠ [] := fun h => hb0 ((val_zero_iff hb).2 h)
    have hlen2 : b.digits.length ≠ 1 := by
      have h1 := dval_lt hb.1
      rw [Int.abs_eq_natAbs, natAbs_val] at hlen
      intro h
      rw [h, pow_one, BASE_eq] at h1
      omega
    by_cases hx : ExactLong a.digits b.digits
    · obtain ⟨m, hm⟩ := (div_val a b ha hb hb0).2 hx
      rw [hr] at hm; cases hm
    · obtain ⟨q, r', j1, _, _, _, _, j6⟩ := (digitsDivrem_spec a.digits b.digits ha hb hne).1 hx
      have hemp : (!b.digits.isEmpty) = true := by simpa using hne
      unfold div at hr
      rw [hemp, Res.assert_true] at hr
      simp only [Res.bind_ok, j1] at hr
      injection hr with hr
      subst hr
      exact Canonical.comparesRight (j6 hlen2)

/-- C07 is false in general: `2^30 - (2^30 - 1) == 1` is false. -/
theorem C07_fails_sub : Reachable (sub w30 w30m) ∧ ¬ ComparesRight (sub w30 w30m) := by
  refine ⟨unn_eq ▸ unn_reach, fun h => ?_⟩
  have := h ⟨[1], true⟩ (by decide)
  revert this; decide

/-- C07 is false in general: `2^30 / 2 == 2^29` is false. -/
theorem C07_fails_div : ∃ r, div w30 ⟨[2], true⟩ = .ok r ∧ ¬ ComparesRight r := by
  refine ⟨⟨[536870912, 0], true⟩, by decide +kernel, fun h => ?_⟩
  have := h ⟨[536870912], true⟩ (by decide)
  revert this; decide

example : w30.Canonical ∧ w30m.Canonical ∧ 0 ≤ w30.val * w30m.val := by decide

/-! ## C08 from string -/

theorem takeWhile_digits (ds rest : List Char) (hd : ∀ c ∈ ds, isDigit c = true)
    (hrest : ∀ c, rest.head? = some c → isDigit c = false) :
    (ds ++ rest).takeWhile isDigit = ds := by
  induction ds with
  | nil =>
    cases rest with
    | nil => rfl
    | cons c cs =>
      have := hrest c rfl
      simp [this]
  | cons d ds ih =>
    have h1 := hd d (by simp)
    simp only [List.cons_append, List.takeWhile_cons, h1, if_true]
    rw [ih (fun c hc => hd c (by simp [hc]))]

theorem parseBody (ds rest : List Char) (hd : ∀ c ∈ ds, isDigit c = true)
    (hrest : ∀ c, rest.head? = some c → isDigit c = false) (p : Bool) :
    (⟨parseLoop (ds ++ rest).length (ds ++ rest) [], p⟩ : Huge).val =
      (if p then 1 else -1) * (Nat.ofDigitChars 10 ds 0 : Int) ∧
    (⟨parseLoop (ds ++ rest).length (ds ++ rest) [], p⟩ : Huge).Canonical := by
  obtain ⟨h1, h2⟩ := parseLoop_spec (ds ++ rest).length (ds ++ rest) [] (le_refl _) Canon.nil
  refine ⟨?_, h2⟩
  unfold Huge.val
  simp only [h1, digitPrefix, takeWhile_digits ds rest hd hrest, dval_nil]

theorem not_sign_of_digit {c : Char} (h : isDigit c = true) : c ≠ '+' ∧ c ≠ '-' := by
  constructor <;> (rintro rfl; revert h; decide)

/-- C08: a string of an optional sign, at least one decimal digit and an arbitrary rest that does
not start with a digit is converted to the decimal value of the digits with that sign. -/
theorem C08_from_string (sign ds rest : List Char) (hsign : sign = [] ∨ sign = ['+'] ∨ sign = ['-'])
    (hne : ds ≠ []) (hd : ∀ c ∈ ds, isDigit c = true)
    (hrest : ∀ c, rest.head? = some c → isDigit c = false) :
    ∃ h, ofString (sign ++ ds ++ rest) = .ok h ∧ h.Canonical ∧
      h.val = (if sign = ['-'] then -1 else 1) * (Nat.ofDigitChars 10 ds 0 : Int) := by
  obtain ⟨d, ds', rfl⟩ := List.exists_cons_of_ne_nil hne
  have hdd := hd d (by simp)
  obtain ⟨n1, n2⟩ := not_sign_of_digit hdd
  rcases hsign with rfl | rfl | rfl
  · rw [ofString_spec]
    simp only [List.nil_append, List.cons_append, List.dropWhile_cons, hdd, Bool.true_or, Bool.not_true,
      Bool.false_eq_true, if_false, List.isEmpty_cons, List.head?_cons, Option.some.injEq, n1, n2, or_self]
    have e : (!(some d == some '-')) = true := by simpa using n2
    rw [e]
    obtain ⟨p1, p2⟩ := parseBody (d :: ds') rest hd hrest true
    exact ⟨_, rfl, p2, by rw [← List.cons_append, p1]; simp⟩
  · rw [ofString_spec]
    have e0 : (['+'] ++ (d :: ds') ++ rest) = '+' :: (d :: ds' ++ rest) := by simp
    have e1 : isDigit '+' = false := by decide
    rw [e0]
    simp only [List.dropWhile_cons, e1, Bool.false_or, beq_self_eq_true, Bool.true_or, Bool.not_true,
      Bool.false_eq_true, if_false, List.isEmpty_cons, List.head?_cons, true_or, if_true, List.tail_cons]
    obtain ⟨p1, p2⟩ := parseBody (d :: ds') rest hd hrest true
    exact ⟨_, rfl, p2, by simpa using p1⟩
  · rw [ofString_spec]
    have e0 : (['-'] ++ (d :: ds') ++ rest) = '-' :: (d :: ds' ++ rest) := by simp
    have e1 : isDigit '-' = false := by decide
    rw [e0]
    simp only [List.dropWhile_cons, e1, Bool.false_or, beq_self_eq_true, Bool.or_true, Bool.not_true,
      Bool.false_eq_true, if_false, List.isEmpty_cons, List.head?_cons, or_true, if_true, List.tail_cons]
    obtain ⟨p1, p2⟩ := parseBody (d :: ds') rest hd hrest false
    exact ⟨_, rfl, p2, by simpa using p1⟩

/-- C08, complement: a string with neither a digit nor a sign raises an `Error`. -/
theorem C08_no_number (s : List Char) (h : ∀ c ∈ s, isDigit c = false ∧ c ≠ '+' ∧ c ≠ '-') :
    ofString s = .throw "Invaild string." := by
  rw [ofString_spec]
  have : (s.dropWhile fun c => !(isDigit c || c == '+' || c == '-')) = [] := by
    induction s with
    | nil => rfl
    | cons c s ih =>
      obtain ⟨h1, h2, h3⟩ := h c (by simp)
      rw [List.dropWhile_cons_of_pos (by simp [h1, h2, h3])]
      exact ih fun c hc => h c (by simp [hc])
  simp only [this, List.isEmpty_nil, if_true]

/-- a sign is only honoured at the very beginning: `Huge(" -5")` denotes 0. -/
theorem C08_leading_space : ofString [' ', '-', '5'] = .ok ⟨[], true⟩ := by decide

example : ofString ['-', '0', '4', '2', 'x'] = .ok ⟨[42], false⟩ := by decide

/-! ## C09 to_string -/

theorem toString_nat_toList (n : Nat) : (toString n).toList = Nat.toDigits 10 n := Nat.toList_repr

theorem toString_int_toList (z : Int) :
    (toString z).toList = (if z < 0 then ['-'] else []) ++ Nat.toDigits 10 z.natAbs := by
  cases z with
  | ofNat n =>
    have : ¬ ((Int.ofNat n) < 0) := by simp
    rw [if_neg this]
    exact toString_nat_toList n
  | negSucc n =>
    rw [if_pos (Int.negSucc_lt_zero n)]
    change ("-" ++ Nat.repr (n + 1)).toList = _
    rw [String.toList_append, Nat.toList_repr]
    rfl

/-- C09 (partial): `to_string` always returns, and for every number that is not a negative zero the
result is the standard decimal numeral of the denoted integer. Missing: negative zeros, which
print `-0` (`C09_negative_zero`). -/
theorem C09_to_string_partial (h : Huge) (hw : h.WF) (hz : h.isPositive = true ∨ h.val ≠ 0) :
    toStr h = .ok (toString h.val).toList := by
  rw [toStr_spec h hw, toString_int_toList, natAbs_val]
  refine congrArg Res.ok ?_
  congr 1
  cases hp : h.isPositive
  · have : h.val < 0 := by
      have h1 : h.val ≠ 0 := by simpa [hp] using hz
      have h2 : h.val = -(dval h.digits : Int) := by simp [Huge.val, hp]
      omega
    simp [this]
  · have : ¬ h.val < 0 := by
      have h2 : h.val = (dval h.digits : Int) := by simp [Huge.val, hp]
      omega
    simp [this]

/-- C09 is false for negative zeros, and exactly this happens. -/
theorem C09_negative_zero (h : Huge) (hw : h.WF) (hp : h.isPositive = false) (hz : h.val = 0) :
    toStr h = .ok ['-', '0'] := by
  have h1 := natAbs_val h
  rw [hz] at h1
  rw [toStr_spec h hw, hp, ← h1]
  decide

/-- negative zeros are reachable: `Huge("-0")`, `(-5) + 5`, `(-5) * 0`. -/
example : ofString ['-', '0'] = .ok ⟨[], false⟩ ∧ add ⟨[5], false⟩ ⟨[5], true⟩ = ⟨[], false⟩ ∧
    mul ⟨[5], false⟩ ⟨[], true⟩ = .ok ⟨[], false⟩ := by decide
example : toStr ⟨[5, 1], false⟩ = .ok (toString (-1073741829 : Int)).toList :=
  C09_to_string_partial ⟨[5, 1], false⟩ (by decide) (by decide)

/-! ## C10 decimal round trip -/

theorem toDigits_isDigit (n : Nat) : ∀ c ∈ Nat.toDigits 10 n, isDigit c = true := by
  intro c hc
  have h := Nat.isDigit_of_mem_toDigits (by omega) (by omega) hc
  simp only [Char.isDigit, Bool.and_eq_true, decide_eq_true_eq] at h
  simp only [isDigit, Bool.and_eq_true, decide_eq_true_eq]
  exact h

/-- C10: printing and reading back gives a canonical number denoting the same integer. -/
theorem C10_roundtrip_huge (h : Huge) (hw : h.WF) :
    ∃ s h', toStr h = .ok s ∧ ofString s = .ok h' ∧ h'.val = h.val ∧ h'.Canonical := by
  have hne : Nat.toDigits 10 (dval h.digits) ≠ [] := Nat.toDigits_ne_nil
  obtain ⟨h', e1, e2, e3⟩ := C08_from_string (if h.isPositive then [] else ['-'])
    (Nat.toDigits 10 (dval h.digits)) [] (by cases h.isPositive <;> simp) hne
    (toDigits_isDigit _) (by simp)
  refine ⟨_, h', toStr_spec h hw, by simpa using e1, ?_, e2⟩
  rw [e3, Nat.ofDigitChars_ten_toDigits, Huge.val]
  cases h.isPositive <;> simp

/-- C10: reading the decimal numeral of any integer and printing it reproduces the numeral. -/
theorem C10_roundtrip_string (z : Int) :
    ∃ h, ofString (toString z).toList = .ok h ∧ h.val = z ∧ h.Canonical ∧
      toStr h = .ok (toString z).toList := by
  obtain ⟨h, e1, e2, e3⟩ := C08_from_string (if z < 0 then ['-'] else [])
    (Nat.toDigits 10 z.natAbs) [] (by split <;> simp) Nat.toDigits_ne_nil
    (toDigits_isDigit _) (by simp)
  have hv : h.val = z := by
    rw [e3, Nat.ofDigitChars_ten_toDigits]
    by_cases hz : z < 0
    · rw [if_pos hz]; simp only [if_true]; omega
    · rw [if_neg hz, if_neg (by simp)]; omega
  refine ⟨h, by rw [toString_int_toList]; simpa using e1, hv, e2, ?_⟩
  by_cases hz : h.isPositive = true ∨ h.val ≠ 0
  · rw [C09_to_string_partial h e2.1 hz, hv]
  · -- a negative zero cannot come out of a numeral without sign
    rw [not_or, not_not] at hz
    exfalso
    have hz0 : z = 0 := by omega
    subst hz0
    have : ofString ((if (0 : Int) < 0 then ['-'] else []) ++ Nat.toDigits 10 (0 : Int).natAbs ++ []) =
        .ok ⟨[], true⟩ := by decide
    rw [this] at e1
    injection e1 with e1
    rw [← e1] at hz
    exact hz.1 rfl

example : (⟨[5, 1, 1], false⟩ : Huge).WF := by decide

/-! ## C11, C12 native integers -/

/-- C11 (partial): for every integer type of at least 32 bits and every value of the type other
than the minimum of a signed type, `Huge(v)` denotes `v` and `to<U>` gives `v` back. Missing: the
minimum of a signed type, which is undefined behaviour (`C11_minimum_undefined`). -/
theorem C11_native_roundtrip_partial (t : IntTy) (ht : 32 ≤ t.bits) (v : Int) (hv : t.has v)
    (hmin : t.signed = true → v ≠ t.min) :
    ∃ h, ofInt t v = .ok h ∧ h.val = v ∧ h.Canonical ∧ toInt t h = .ok v ∧
      toStr h = .ok (toString v).toList := by
  obtain ⟨h, h1, h2, h3⟩ := ofInt_spec t ht v hv hmin
  refine ⟨h, h1, h2, h3, ?_, ?_⟩
  rotate_left
  · by_cases hz : h.isPositive = true ∨ h.val ≠ 0
    · rw [C09_to_string_partial h h3.1 hz, h2]
    · -- `Huge(0)` is the positive zero
      exfalso
      rw [not_or, not_not] at hz
      have hv0 : v = 0 := by omega
      subst hv0
      unfold ofInt at h1
      split at h1
      · cases h1
      · injection h1 with h1
        subst h1
        exact hz.1 (by simp)
  have := toInt_spec t ht h h3 (by rw [h2]; exact hv) (by rw [h2]; exact hmin)
  rw [this, h2]

/-- C11 is false at the minimum of every signed type. -/
theorem C11_minimum_undefined (t : IntTy) (hs : t.signed = true) : ∃ m, ofInt t t.min = .ub m := by
  refine ⟨"std::abs of the minimum", ?_⟩
  unfold ofInt
  rw [if_pos (by simp [hs])]

example : (⟨64, true⟩ : IntTy).has (-123456789012345) ∧
    (-123456789012345 : Int) ≠ (⟨64, true⟩ : IntTy).min := by decide

/-- C12 (partial): for canonical `h`, `to<U>` returns exactly the denoted integer when it lies in
the range of `U` and is not the minimum of a signed type; it raises an `Error` when `h` is negative
and `U` unsigned, and whenever `|h| ≥ 2^(bits+30)`. Missing: numbers out of range but below
`2^(bits+30)` (`C12_silent_truncation`) and the minimum of a signed type. -/
theorem C12_to_native_partial (t : IntTy) (ht : 32 ≤ t.bits) (h : Huge) (hc : h.Canonical) :
    (t.has h.val → (t.signed = true → h.val ≠ t.min) → toInt t h = .ok h.val) ∧
    (h.val < 0 → t.signed = false → ∃ m, toInt t h = .throw m) ∧
    (2 ^ (t.bits + 30) ≤ |h.val| → ∃ m, toInt t h = .throw m) := by
  refine ⟨toInt_spec t ht h hc, ?_, ?_⟩
  · intro hneg hs
    have hp : h.isPositive = false := by
      cases hp : h.isPositive
      · rfl
      · have h2 : h.val = (dval h.digits : Int) := by simp [Huge.val, hp]
        omega
    have hne : h.digits ≠ [] := fun h0 => by have := (val_zero_iff hc).2 h0; omega
    have he : ¬ (h.digits.isEmpty = true) := by simpa using hne
    refine ⟨"The Huge is negative but U is unsigned.", ?_⟩
    unfold toInt
    rw [if_neg he, hp, hs]
    rfl
  · intro hbig
    rw [Int.abs_eq_natAbs, natAbs_val] at hbig
    exact toInt_too_big t h hc.1 (by exact_mod_cast hbig)

/-- C12 is false in general: `Huge(2^40).to<int>()` silently returns 0. -/
theorem C12_silent_truncation :
    ∃ h : Huge, Reachable h ∧ h.Canonical ∧ h.val = 2 ^ 40 ∧ toInt ⟨32, true⟩ h = .ok 0 :=
  ⟨⟨[0, 1024], true⟩, .str (s := "1099511627776".toList) (by decide +kernel), by decide, by decide,
    by decide +kernel⟩

/-- C12 is false in general: `Huge("-2147483648").to<int>()` is undefined behaviour. -/
theorem C12_minimum_undefined : ∃ m, toInt ⟨32, true⟩ ⟨[0, 2], false⟩ = .ub m :=
  ⟨"signed overflow", by decide +kernel⟩

example : (⟨[0, 2], false⟩ : Huge).val = (⟨32, true⟩ : IntTy).min := by decide

/-! ## C13 divrem -/

/-- C13 (partial): for canonical operands and a defined division, `divrem` returns the truncated
quotient and the absolute value of the remainder; the division identity holds exactly when the
dividend is not negative or the division is exact. Missing: negative dividends
(`C13_fails_negative`) and the exact divisions of C04. -/
theorem C13_divrem_partial (a b : Huge) (ha : a.Canonical) (hb : b.Canonical) (hb0 : b.val ≠ 0)
    (hx : ¬ (2 ^ 30 ≤ |b.val| ∧ |b.val| < |a.val| ∧ b.val ∣ a.val)) :
    ∃ q r, divrem a b = .ok (q, r) ∧ q.val = Int.tdiv a.val b.val ∧ |r.val| < |b.val| ∧
      (a.val = q.val * b.val + r.val ↔ (0 ≤ a.val ∨ b.val ∣ a.val)) := by
  rw [← exactLong_iff a b ha hb] at hx
  obtain ⟨q, r, h1, h2, h3⟩ := (divrem_val a b ha hb hb0).1 hx
  have key := Int.mul_tdiv_add_tmod a.val b.val
  rw [mul_comm] at key
  refine ⟨q, r, h1, h2, ?_, ?_⟩
  · rw [h3, abs_abs, Int.abs_eq_natAbs, Int.abs_eq_natAbs, Int.natAbs_tmod]
    have : a.val.natAbs % b.val.natAbs < b.val.natAbs := Nat.mod_lt _ (by omega)
    exact_mod_cast this
  · rw [h2, h3]
    rcases le_or_gt 0 a.val with h | h
    · have h0 := Int.tmod_nonneg b.val h
      rw [abs_of_nonneg h0]
      exact ⟨fun _ => Or.inl h, fun _ => key.symm⟩
    · have h0 : 0 ≤ Int.tmod (-a.val) b.val := Int.tmod_nonneg _ (by omega)
      rw [Int.neg_tmod] at h0
      rw [abs_of_nonpos (by omega)]
      constructor
      · intro e
        right
        apply Int.dvd_of_tmod_eq_zero
        omega
      · rintro (e | e)
        · omega
        · have := Int.tmod_eq_zero_of_dvd e
          omega

/-- C13 is false in general: `divrem(-7, 2) = (-3, 1)`. -/
theorem C13_fails_negative :
    divrem ⟨[7], false⟩ ⟨[2], true⟩ = .ok (⟨[3], false⟩, ⟨[1], true⟩) ∧
    (⟨[7], false⟩ : Huge).val ≠ (⟨[3], false⟩ : Huge).val * (⟨[2], true⟩ : Huge).val +
      (⟨[1], true⟩ : Huge).val := by decide +kernel

example : (⟨[5, 1, 9], true⟩ : Huge).Canonical ∧ (⟨[7, 1], false⟩ : Huge).Canonical ∧
    ¬ (⟨[7, 1], false⟩ : Huge).val ∣ (⟨[5, 1, 9], true⟩ : Huge).val := by decide

/-! ## C14 gcd -/

theorem gcdBad_iff (a b : Huge) : GcdBad a.digits b.digits ↔
    (a.val ≠ 0 ∧ b.val ≠ 0 ∧ |a.val| ≠ |b.val| ∧ 2 ^ 30 ≤ Int.gcd a.val b.val) := by
  have hB := BASE_eq
  have h1 := natAbs_val a
  have h2 := natAbs_val b
  unfold GcdBad Int.gcd
  rw [← h1, ← h2, hB, Int.abs_eq_natAbs, Int.abs_eq_natAbs]
  have e1 : a.val.natAbs ≠ 0 ↔ a.val ≠ 0 := Int.natAbs_ne_zero
  have e2 : b.val.natAbs ≠ 0 ↔ b.val ≠ 0 := Int.natAbs_ne_zero
  have e3 : a.val.natAbs ≠ b.val.natAbs ↔ (a.val.natAbs : Int) ≠ b.val.natAbs := by
    rw [Ne, Ne, Int.natCast_inj]
  rw [e1, e2, e3, show (2:Nat)^30 = 1073741824 from by norm_num]

/-- C14 (partial): for canonical operands `gcd` returns the non-negative greatest common divisor,
except that it is undefined exactly when both operands are non-zero, of different magnitude, and
their gcd is at least `2^30`. Missing: that case. -/
theorem C14_gcd_partial (a b : Huge) (ha : a.Canonical) (hb : b.Canonical) :
    (¬ (a.val ≠ 0 ∧ b.val ≠ 0 ∧ |a.val| ≠ |b.val| ∧ 2 ^ 30 ≤ Int.gcd a.val b.val) →
      ∃ r, gcd a b = .ok r ∧ r.val = Int.gcd a.val b.val ∧ r.Canonical) ∧
    ((a.val ≠ 0 ∧ b.val ≠ 0 ∧ |a.val| ≠ |b.val| ∧ 2 ^ 30 ≤ Int.gcd a.val b.val) →
      ∃ m, gcd a b = .ub m) := by
  rw [← gcdBad_iff a b]
  exact gcd_val a b ha hb

example : (⟨[6, 3], true⟩ : Huge).Canonical ∧ (⟨[9, 27], false⟩ : Huge).Canonical ∧
    Int.gcd (⟨[6, 3], true⟩ : Huge).val (⟨[9, 27], false⟩ : Huge).val < 2 ^ 30 := by decide +kernel

/-! ## C15 increment and decrement -/

theorem one_canonical : one.Canonical := by decide
theorem one_val : one.val = 1 := by decide

/-- C15 (partial): `++` is exact for canonical numbers, `--` is exact except at `-1`, and the
postfix forms return the old object and store the new one. Missing: `--` at -1
(`C15_dec_minus_one`). -/
theorem C15_inc_dec_partial (h : Huge) (hc : h.Canonical) :
    (preInc h).val = h.val + 1 ∧ postInc h = (h, preInc h) ∧ postDec h = (h, preDec h) ∧
    (h.val ≠ -1 → (preDec h).val = h.val - 1) := by
  refine ⟨?_, rfl, rfl, ?_⟩
  · have := (add_val h one hc one_canonical).1
    rw [one_val] at this; exact this
  · intro hne
    have := (sub_val h one hc one_canonical (by rw [one_val]; left; omega)).1
    rw [one_val] at this; exact this

/-- C15 is false at -1: `--Huge(-1)` denotes 0. -/
theorem C15_dec_minus_one (h : Huge) (hc : h.Canonical) (hv : h.val = -1) : (preDec h).val = 0 :=
  sub_opposite h one hc one_canonical (by rw [hv, one_val]; rfl)

example : (⟨[0, 1], false⟩ : Huge).Canonical ∧ (preInc ⟨[0, 1], false⟩).val = -1073741823 := by decide

/-! ## C66 negation and absolute value -/

/-- C66: unary minus (`negate`) and `abs` denote negation and absolute value, for every digit
vector, and keep the representation canonical. -/
theorem C66_neg_abs (h : Huge) :
    (neg h).val = - h.val ∧ (abs h).val = |h.val| ∧
    (h.Canonical → (neg h).Canonical ∧ (abs h).Canonical) := by
  obtain ⟨d, p⟩ := h
  have h0 := Int.natCast_nonneg (dval d)
  refine ⟨?_, ?_, fun hc => ⟨hc, hc⟩⟩
  · cases p <;> simp [neg, Huge.val]
  · cases p <;> simp [abs, Huge.val]

example : (abs ⟨[5, 1], false⟩).val = 1073741829 ∧ (neg ⟨[5, 1], false⟩).val = 1073741829 ∧
    (neg ⟨[5, 1], true⟩).val = -1073741829 := by decide

/-! ## C67 pow -/

/-- C67 (partial): `x.pow(e)` denotes `x^e` exactly when `x^e = 0`; missing is every other case,
because the code always returns 0. -/
theorem C67_pow_partial (x e : Huge) : (pow x e).val = x.val ^ e.val.toNat ↔
    (x.val = 0 ∧ e.val.toNat ≠ 0) := by
  have : (pow x e).val = 0 := by simp [pow, Huge.val, dval]
  rw [this, eq_comm, pow_eq_zero_iff']

/-- C67 is false: `Huge(2).pow(3)` is 0. -/
theorem C67_pow_fails : ∃ x e : Huge, Reachable x ∧ Reachable e ∧ x.val = 2 ∧ e.val = 3 ∧
    (pow x e).val = 0 :=
  ⟨⟨[2], true⟩, ⟨[3], true⟩, .str (s := ['2']) (by decide), .str (s := ['3']) (by decide),
    by decide, by decide, by decide⟩

/-! ## C16 histories -/

/-- one step of a client program over a growing list of numbers: read the decimal numeral of an
integer, or combine two earlier numbers. -/
inductive Step
  | parse (z : Int)
  | add (i j : Nat)
  | sub (i j : Nat)
  | mul (i j : Nat)
  | neg (i : Nat)

/-- the integer result of a step. -/
def Step.spec (zs : List Int) : Step → Int
  | .parse z => z
  | .add i j => zs.getD i 0 + zs.getD j 0
  | .sub i j => zs.getD i 0 - zs.getD j 0
  | .mul i j => zs.getD i 0 * zs.getD j 0
  | .neg i => - zs.getD i 0

/-- the run of a program on integers. -/
def runSpec : List Step → List Int → List Int
  | [], zs => zs
  | s :: ss, zs => runSpec ss (zs ++ [s.spec zs])

/-- the zero `Huge{}` (huge.hpp 503-506), used for out-of-range references. -/
def zero : Huge := ⟨[], true⟩

/-- the same step executed by the code. -/
def Step.exec (hs : List Huge) : Step → Res Huge
  | .parse z => ofString (toString z).toList
  | .add i j => .ok (Symxx.Huge.add (hs.getD i zero) (hs.getD j zero))
  | .sub i j => .ok (Symxx.Huge.sub (hs.getD i zero) (hs.getD j zero))
  | .mul i j => Symxx.Huge.mul (hs.getD i zero) (hs.getD j zero)
  | .neg i => .ok (Symxx.Huge.neg (hs.getD i zero))

/-- the run of a program by the code. -/
def runCode : List Step → List Huge → Res (List Huge)
  | [], hs => .ok hs
  | s :: ss, hs => do
    let h ← s.exec hs
    runCode ss (hs ++ [h])

/-- the restriction under which histories are exact: sums of numbers of strictly opposite sign
and differences of numbers that are not of strictly opposite sign are excluded (they may leave a
leading zero digit), so are differences of opposites. -/
def Step.Guard (zs : List Int) : Step → Prop
  | .add i j => 0 ≤ zs.getD i 0 * zs.getD j 0
  | .sub i j => zs.getD i 0 * zs.getD j 0 < 0 ∧ zs.getD i 0 + zs.getD j 0 ≠ 0
  | _ => True

/-- every step of the run satisfies the restriction. -/
def Guarded : List Step → List Int → Prop
  | [], _ => True
  | s :: ss, zs => s.Guard zs ∧ Guarded ss (zs ++ [s.spec zs])

theorem getD_map_val (hs : List Huge) (i : Nat) : (hs.map Huge.val).getD i 0 = (hs.getD i zero).val := by
  rw [List.getD_eq_getElem?_getD, List.getD_eq_getElem?_getD, List.getElem?_map]
  cases hs[i]? <;> simp [Huge.val, zero]

theorem getD_canonical {hs : List Huge} (h : ∀ x ∈ hs, x.Canonical) (i : Nat) :
    (hs.getD i zero).Canonical := by
  rw [List.getD_eq_getElem?_getD]
  cases e : hs[i]? with
  | none => exact Canon.nil
  | some x => exact h x (List.mem_of_getElem? e)

theorem sub_canonical_of_neg (a b : Huge) (ha : a.Canonical) (hb : b.Canonical)
    (h : a.val * b.val < 0) : (sub a b).Canonical := by
  obtain ⟨a, p⟩ := a
  obtain ⟨b, q⟩ := b
  unfold sub
  simp only
  split
  · exact Canon.nil
  · have hflag : ((q && !p) || (!q && p)) = true := by
      have h1 := Int.natCast_nonneg (dval a)
      have h2 := Int.natCast_nonneg (dval b)
      have h3 := mul_nonneg h1 h2
      unfold Huge.val at h
      cases p <;> cases q <;> simp at h ⊢ <;> omega
    rw [if_pos hflag]
    exact digitsAdd_canon ha hb

/-- C16 (partial): every finite guarded program is either stopped by an undefined multiplication
(C03) or produces exactly the integers the specification produces, all canonical; hence all
comparisons between any two numbers of the history agree too. Missing: unguarded programs. -/
theorem C16_histories_partial (prog : List Step) (hs : List Huge) (hc : ∀ x ∈ hs, x.Canonical)
    (hg : Guarded prog (hs.map Huge.val)) :
    (∃ out, runCode prog hs = .ok out ∧ out.map Huge.val = runSpec prog (hs.map Huge.val) ∧
      (∀ x ∈ out, x.Canonical) ∧
      ∀ i j, lt (out.getD i zero) (out.getD j zero) =
        decide ((runSpec prog (hs.map Huge.val)).getD i 0 < (runSpec prog (hs.map Huge.val)).getD j 0) ∧
        eq (out.getD i zero) (out.getD j zero) =
        decide ((runSpec prog (hs.map Huge.val)).getD i 0 = (runSpec prog (hs.map Huge.val)).getD j 0)) ∨
    ∃ m, runCode prog hs = .ub m := by
  induction prog generalizing hs with
  | nil =>
    left
    refine ⟨hs, rfl, rfl, hc, fun i j => ?_⟩
    have := C06_comparisons _ _ (getD_canonical hc i) (getD_canonical hc j)
    simp only [runSpec, getD_map_val]
    exact ⟨Bool.eq_iff_iff.2 (by simpa using this.1), Bool.eq_iff_iff.2 (by simpa using this.2.2.2.2.1)⟩
  | cons s ss ih =>
    obtain ⟨hg1, hg2⟩ := hg
    have step : (∃ h, s.exec hs = .ok h ∧ h.Canonical ∧ h.val = s.spec (hs.map Huge.val)) ∨
        ∃ m, s.exec hs = .ub m := by
      cases s with
      | parse z =>
        obtain ⟨h, h1, h2, h3, _⟩ := C10_roundtrip_string z
        exact Or.inl ⟨h, h1, h3, h2⟩
      | add i j =>
        simp only [Step.Guard, getD_map_val] at hg1
        refine Or.inl ⟨_, rfl, add_canonical _ _ (getD_canonical hc i) (getD_canonical hc j) hg1, ?_⟩
        simp only [Step.spec, getD_map_val]
        exact (add_val _ _ (getD_canonical hc i) (getD_canonical hc j)).1
      | sub i j =>
        simp only [Step.Guard, getD_map_val] at hg1
        refine Or.inl ⟨_, rfl, sub_canonical_of_neg _ _ (getD_canonical hc i) (getD_canonical hc j) hg1.1, ?_⟩
        simp only [Step.spec, getD_map_val]
        exact (sub_val _ _ (getD_canonical hc i) (getD_canonical hc j) (Or.inl hg1.2)).1
      | mul i j =>
        rcases mul_val _ _ (getD_canonical hc i).wf (getD_canonical hc j).wf with ⟨r, h1, h2, h3⟩ | h
        · exact Or.inl ⟨r, h1, h3, by simpa only [Step.spec, getD_map_val] using h2⟩
        · exact Or.inr h
      | neg i =>
        refine Or.inl ⟨_, rfl, getD_canonical hc i, ?_⟩
        simp only [Step.spec, getD_map_val]
        generalize hs.getD i zero = x
        obtain ⟨x, p⟩ := x
        cases p <;> simp [neg, Huge.val]
    rcases step with ⟨h, h1, h2, h3⟩ | ⟨m, hm⟩
    · have e : (hs ++ [h]).map Huge.val = hs.map Huge.val ++ [s.spec (hs.map Huge.val)] := by
        simp [h3]
      have := ih (hs ++ [h]) (by
        intro x hx
        rcases List.mem_append.1 hx with hx | hx
        · exact hc x hx
        · rw [List.mem_singleton.1 hx]; exact h2) (by rw [e]; exact hg2)
      simp only [runCode, runSpec, h1, Res.bind_ok]
      rw [e] at this
      exact this
    · right
      exact ⟨m, by simp only [runCode, hm, Res.bind_ub]⟩

/-- a guarded program: read 2^30 and -7, multiply, square, negate, add. -/
example : Guarded [.parse 1073741824, .parse (-7), .mul 0 1, .mul 2 2, .neg 3, .add 2 4, .sub 0 1] [] := by
  refine ⟨trivial, trivial, trivial, trivial, trivial, ?_, ?_, trivial⟩
  · show (0 : Int) ≤ _; decide
  · show (_ : Int) < 0 ∧ _ ≠ _; decide

end Symxx.Huge
