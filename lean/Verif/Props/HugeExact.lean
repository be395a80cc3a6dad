import Verif.Huge.Exact
import Verif.Huge.ConvExact
import Verif.Props.Huge
/-!
# Huge: exact conditions (C03, C07, C12, C16)

For operands without leading zero digits: exactly when a product is defined, exactly when a sum, difference or quotient is free
of leading zero digits, and exactly which client programs compute the integers they should. The conditions are about the
denoted integers and the number of their 30-bit digits (`width`).
-/
namespace Symxx.Huge

/-! ## C03: where multiplication is defined -/

/-- C03: the product is defined exactly on `ProductDefined`; there it is the exact product without leading zero digits, elsewhere
the behaviour is undefined. -/
theorem C03_mul_iff (a b : Huge) (ha : a.Canonical) (hb : b.Canonical) :
    let m := width a.val.natAbs
    let n := width b.val.natAbs
    (ProductDefined (m + n + 1) m a.val.natAbs n b.val.natAbs →
      ∃ r, mul a b = .ok r ∧ r.val = a.val * b.val ∧ r.Canonical) ∧
    (¬ ProductDefined (m + n + 1) m a.val.natAbs n b.val.natAbs → ∃ s, mul a b = .ub s) := by
  simp only
  rw [← mul_defined_iff a b ha hb]
  rcases mul_val a b ha.wf hb.wf with ⟨r, h1, h2⟩ | ⟨s, hs⟩
  · exact ⟨fun _ => ⟨r, h1, h2⟩, fun h => absurd ⟨r, h1⟩ h⟩
  · exact ⟨fun ⟨r, hr⟩ => by (rw [hs] at hr; cases hr), fun _ => ⟨s, hs⟩⟩

theorem width_le_of_lt {x n : ℕ} (h : x < 2 ^ (30 * n)) : width x ≤ n := by
  by_contra hcon
  have hx : x ≠ 0 := by rintro rfl; rw [width_zero] at hcon; omega
  have h1 := (width_spec hx).1
  have h2 : 2 ^ (30 * n) ≤ 2 ^ (30 * (width x - 1)) := Nat.pow_le_pow_right (by norm_num) (by omega)
  omega

theorem lt_width_of_le {x n : ℕ} (h : 2 ^ (30 * n) ≤ x) : n < width x := by
  by_contra hcon
  have hx : x ≠ 0 := by
    have : 0 < 2 ^ (30 * n) := Nat.two_pow_pos _
    omega
  have h1 := (width_spec hx).2.1
  have h2 : 2 ^ (30 * width x) ≤ 2 ^ (30 * n) := Nat.pow_le_pow_right (by norm_num) (by omega)
  omega

theorem productDefined_small {k m x n y : ℕ} (hx : x ≠ 0) (hy : y ≠ 0)
    (h : min m n ≤ (if m = n ∧ x = y then 140 else 70)) : ProductDefined (k + 1) m x n y := by
  unfold ProductDefined
  exact Or.inr (Or.inr ⟨hx, hy, Or.inl h⟩)

/-- C03 (partial): squares are defined below `2^4200`. -/
theorem C03_square_partial (a : Huge) (ha : a.Canonical) (h : |a.val| < 2 ^ 4200) :
    ∃ r, mul a a = .ok r ∧ r.val = a.val * a.val ∧ r.Canonical := by
  refine (C03_mul_iff a a ha ha).1 ?_
  have hw : width a.val.natAbs ≤ 140 := by
    refine width_le_of_lt ?_
    rw [Int.abs_eq_natAbs] at h
    exact_mod_cast h
  by_cases h0 : a.val.natAbs = 0
  · rw [h0, width_zero]
    unfold ProductDefined
    exact Or.inl rfl
  · exact productDefined_small h0 h0 (by simpa using hw)

/-- both operands above 70 digits and different: one splitting step. -/
theorem productDefined_split {k m x n y : ℕ} (hxy : x ≠ y) (hm : 70 < m) (hmn : m ≤ n) (hx : x ≠ 0) (hy : y ≠ 0) :
    ProductDefined (k + 1) m x n y ↔
      (ProductDefined k (m - n / 2) (x / 2 ^ (30 * (n / 2))) (n - n / 2) (y / 2 ^ (30 * (n / 2))) ∧
       ProductDefined k (min m (n / 2)) (x % 2 ^ (30 * (n / 2))) (min n (n / 2)) (y % 2 ^ (30 * (n / 2))) ∧
       ProductDefined k (sumWidth (m - n / 2) (x / 2 ^ (30 * (n / 2))) (min m (n / 2)) (x % 2 ^ (30 * (n / 2))))
          (x / 2 ^ (30 * (n / 2)) + x % 2 ^ (30 * (n / 2)))
          (sumWidth (n - n / 2) (y / 2 ^ (30 * (n / 2))) (min n (n / 2)) (y % 2 ^ (30 * (n / 2))))
          (y / 2 ^ (30 * (n / 2)) + y % 2 ^ (30 * (n / 2)))) := by
  rw [ProductDefined]
  have e1 : ¬ (m = n ∧ x = y) := fun h => hxy h.2
  simp only [e1, if_false, min_eq_left hmn, max_eq_right hmn, hx, hy, ne_eq, not_false_eq_true, true_and,
    not_le.2 hm, false_or]
  rw [or_iff_right (by omega), or_iff_right (by omega)]

theorem productDefined_nonzero {k m x n y : ℕ} (h : ProductDefined k m x n y) (hm : m ≠ 0) (hn : n ≠ 0) : x ≠ 0 ∧ y ≠ 0 := by
  cases k with
  | zero => exact h.elim
  | succ k =>
    unfold ProductDefined at h
    rcases h with h | h | h
    · exact absurd h hm
    · exact absurd h hn
    · exact ⟨h.1, h.2.1⟩

/-- C03 is false far beyond the one example: the product of two different numbers of at least `2^2100` is undefined whenever the
low half of one of them (`n / 2` digits if the larger one has `n`) is zero. -/
theorem C03_zero_half (a b : Huge) (ha : a.Canonical) (hb : b.Canonical) (h1 : 2 ^ 2100 ≤ |a.val|) (h2 : |a.val| < |b.val|)
    (hz : (2 : Int) ^ (30 * (width b.val.natAbs / 2)) ∣ a.val ∨ (2 : Int) ^ (30 * (width b.val.natAbs / 2)) ∣ b.val) :
    (∃ s, mul a b = .ub s) ∧ ∃ s, mul b a = .ub s := by
  rw [Int.abs_eq_natAbs] at h1 h2
  rw [Int.abs_eq_natAbs] at h2
  have h1' : 2 ^ (30 * 70) ≤ a.val.natAbs := by exact_mod_cast h1
  have h2' : a.val.natAbs < b.val.natAbs := by exact_mod_cast h2
  have hm := lt_width_of_le h1'
  have hmn := width_mono h2'.le
  have hpos : 0 < 2 ^ (30 * 70) := Nat.two_pow_pos _
  have key : ∀ k, ¬ ProductDefined k (width a.val.natAbs) a.val.natAbs (width b.val.natAbs) b.val.natAbs := by
    intro k hk
    cases k with
    | zero => exact hk
    | succ k =>
      rw [productDefined_split (by omega) hm hmn (by omega) (by omega)] at hk
      have := productDefined_nonzero hk.2.1 (by omega) (by omega)
      rcases hz with hz | hz
      · apply this.1
        have hz' := Int.natAbs_dvd_natAbs.2 hz
        rw [Int.natAbs_pow] at hz'
        exact Nat.mod_eq_zero_of_dvd hz'
      · apply this.2
        have hz' := Int.natAbs_dvd_natAbs.2 hz
        rw [Int.natAbs_pow] at hz'
        exact Nat.mod_eq_zero_of_dvd hz'
  exact ⟨(C03_mul_iff a b ha hb).2 (key _), (C03_mul_iff b a hb ha).2 (by rw [ProductDefined.comm]; exact key _)⟩

theorem sumWidth_le {m x n y w : ℕ} (h : max m n + 1 ≤ w) : sumWidth m x n y ≤ w := by
  unfold sumWidth; split <;> omega

/-- C03 (partial): up to `2^4140` a zero low half is the only obstacle. -/
theorem C03_one_split_partial (a b : Huge) (ha : a.Canonical) (hb : b.Canonical) (h1 : 2 ^ 2100 ≤ |a.val|) (h2 : |a.val| < |b.val|)
    (h3 : |b.val| < 2 ^ 4140)
    (hz1 : ¬ (2 : Int) ^ (30 * (width b.val.natAbs / 2)) ∣ a.val) (hz2 : ¬ (2 : Int) ^ (30 * (width b.val.natAbs / 2)) ∣ b.val) :
    ∃ r, mul a b = .ok r ∧ r.val = a.val * b.val ∧ r.Canonical := by
  refine (C03_mul_iff a b ha hb).1 ?_
  rw [Int.abs_eq_natAbs] at h1 h2 h3
  rw [Int.abs_eq_natAbs] at h2
  have h1' : 2 ^ (30 * 70) ≤ a.val.natAbs := by exact_mod_cast h1
  have h2' : a.val.natAbs < b.val.natAbs := by exact_mod_cast h2
  have h3' : b.val.natAbs < 2 ^ (30 * 138) := by exact_mod_cast h3
  have hm := lt_width_of_le h1'
  have hmn := width_mono h2'.le
  have hn := width_le_of_lt h3'
  have hpos : 0 < 2 ^ (30 * 70) := Nat.two_pow_pos _
  rw [← Int.natAbs_dvd_natAbs, Int.natAbs_pow, Nat.dvd_iff_mod_eq_zero] at hz1 hz2
  obtain ⟨k, hk⟩ : ∃ k, width a.val.natAbs + width b.val.natAbs = k + 1 := ⟨width a.val.natAbs + width b.val.natAbs - 1, by omega⟩
  rw [hk, productDefined_split (by omega) hm hmn (by omega) (by omega)]
  have hgea := (width_spec (x := a.val.natAbs) (by omega)).1
  have hgeb := (width_spec (x := b.val.natAbs) (by omega)).1
  set x := a.val.natAbs
  set y := b.val.natAbs
  set n := width y
  set m := width x
  have high : ∀ v w : ℕ, n / 2 < w → 2 ^ (30 * (w - 1)) ≤ v → v / 2 ^ (30 * (n / 2)) ≠ 0 := by
    intro v w hw hv h0
    rw [Nat.div_eq_zero_iff] at h0
    rcases h0 with h0 | h0
    · exact absurd h0 (Nat.two_pow_pos _).ne'
    · have : 2 ^ (30 * (n / 2)) ≤ 2 ^ (30 * (w - 1)) := Nat.pow_le_pow_right (by norm_num) (by omega)
      omega
  have hi1 := high x m (by omega) hgea
  have hi2 := high y n (by omega) hgeb
  have cut : ∀ p q u v : ℕ, p ≤ 70 ∨ q ≤ 70 → min p q ≤ (if p = q ∧ u = v then 140 else 70) := by
    intro p q u v h; split <;> omega
  refine ⟨productDefined_small hi1 hi2 (cut _ _ _ _ (by omega)), productDefined_small hz1 hz2 (cut _ _ _ _ (by omega)),
    productDefined_small (Nat.add_pos_left (Nat.pos_of_ne_zero hi1) _).ne' (Nat.add_pos_left (Nat.pos_of_ne_zero hi2) _).ne'
      (cut _ _ _ _ (Or.inl (sumWidth_le (by omega))))⟩

/-- `2^2100 + 1` times `2^2101 + 1` is defined, `2^2100` times `2^2101 + 1` is not (71 digits each, halves of 35 and 36). -/
def p2100 (low : Nat) (top : Nat) : Huge := ⟨low :: List.replicate 69 0 ++ [top], true⟩
theorem p2100_facts : (p2100 1 1).Canonical ∧ (p2100 1 2).Canonical ∧ (p2100 0 1).Canonical ∧
    (p2100 0 1).val = 2 ^ 2100 ∧ (p2100 1 1).val = 2 ^ 2100 + 1 ∧ (p2100 1 2).val = 2 ^ 2101 + 1 ∧
    width (2 ^ 2101 + 1) = 71 := by decide +kernel
example : ∃ r, mul (p2100 1 1) (p2100 1 2) = .ok r ∧ r.val = (2 ^ 2100 + 1) * (2 ^ 2101 + 1) ∧ r.Canonical := by
  obtain ⟨h1, h2, h3, h4, h5, h6, h7⟩ := p2100_facts
  rw [← h5, ← h6]
  have e : (p2100 1 2).val.natAbs = 2 ^ 2101 + 1 := by rw [h6]; rfl
  exact C03_one_split_partial _ _ h1 h2 (by rw [h5]; decide +kernel) (by rw [h5, h6]; decide +kernel)
    (by rw [h6]; decide +kernel) (by rw [e, h7, h5]; decide +kernel) (by rw [e, h7, h6]; decide +kernel)
example : (∃ s, mul (p2100 0 1) (p2100 1 2) = .ub s) ∧ ∃ s, mul (p2100 1 2) (p2100 0 1) = .ub s := by
  obtain ⟨h1, h2, h3, h4, h5, h6, h7⟩ := p2100_facts
  have e : (p2100 1 2).val.natAbs = 2 ^ 2101 + 1 := by rw [h6]; rfl
  exact C03_zero_half _ _ h3 h2 (by rw [h4]; decide +kernel) (by rw [h4, h6]; decide +kernel)
    (Or.inl (by rw [e, h7, h4]; decide +kernel))
example : ∃ r, mul (p2100 0 1) (p2100 0 1) = .ok r ∧ r.val = (p2100 0 1).val * (p2100 0 1).val ∧ r.Canonical :=
  C03_square_partial _ p2100_facts.2.2.1 (by rw [p2100_facts.2.2.2.1]; decide +kernel)

/-! ## C07: which results compare correctly -/

theorem comparesRight_iff {r : Huge} (hr : r.WF) : ComparesRight r ↔ r.Canonical := by
  refine ⟨fun h => ?_, Canonical.comparesRight⟩
  obtain ⟨s, c, -, -, hv, hc⟩ := C10_roundtrip_huge r hr
  have he := (h c hc).2 hv.symm
  unfold eq cmp digitsCmp at he
  rw [decide_eq_true_iff] at he
  have hl := hc.length
  rw [hv] at hl
  rw [Huge.canonical_iff hr, ← hl]
  by_contra hne
  simp only at he
  cases hp : r.isPositive <;> cases hq : c.isPositive <;> simp only [hp, hq, Bool.false_eq_true, if_true, if_false] at he <;>
    (rw [if_neg (by omega)] at he; omega)

/-- C07: the sum of two numbers compares correctly exactly if they are not of strictly opposite sign, or the sum is 0, or it has as
many digits as the longer summand; the difference likewise; a quotient exactly if the divisor is at least `2^30`, or the
dividend does not exceed it, or the quotient has as many digits as the dividend. -/
theorem C07_exact (a b : Huge) (ha : a.Canonical) (hb : b.Canonical) :
    (ComparesRight (add a b) ↔ (0 ≤ a.val * b.val ∨ a.val + b.val = 0 ∨
      width (a.val + b.val).natAbs = max (width a.val.natAbs) (width b.val.natAbs))) ∧
    (a.val + b.val ≠ 0 ∨ a.val = 0 → (ComparesRight (sub a b) ↔ (a.val * b.val ≤ 0 ∨ a.val = b.val ∨
      width (a.val - b.val).natAbs = max (width a.val.natAbs) (width b.val.natAbs)))) ∧
    (∀ q, div a b = .ok q → (ComparesRight q ↔ (2 ^ 30 ≤ |b.val| ∨ |a.val| ≤ |b.val| ∨
      width (Int.tdiv a.val b.val).natAbs = width a.val.natAbs))) := by
  refine ⟨?_, fun h => ?_, fun q hq => ?_⟩
  · rw [comparesRight_iff (add_val a b ha hb).2, add_canonical_iff a b ha hb]
  · rw [comparesRight_iff (sub_val a b ha hb h).2, sub_canonical_iff a b ha hb]
  · have hb0 : b.val ≠ 0 := by
      intro h0
      have := ((C05_division_by_zero_partial a b hb _).1).2 ⟨h0, rfl⟩
      rw [hq] at this; cases this
    have hx : ¬ ExactLong a.digits b.digits := by
      intro hx
      obtain ⟨m, hm⟩ := (div_val a b ha hb hb0).2 hx
      rw [hq] at hm; cases hm
    obtain ⟨r, h1, h2, h3⟩ := (div_val a b ha hb hb0).1 hx
    rw [hq, Res.ok.injEq] at h1
    subst h1
    rw [comparesRight_iff h3, div_canonical_iff a b q ha hb hb0 hq, h2]

/-- `2^30 / 2` has fewer digits than `2^30`: the quotient does not compare correctly; `2^31 / 2` does. -/
example : ¬ ComparesRight (sub w30 w30m) ∧ ComparesRight (sub w30 ⟨[0, 3], true⟩) :=
  ⟨((C07_exact w30 w30m (by decide) (by decide)).2.1 (by decide)).not.2 (by decide),
    ((C07_exact w30 ⟨[0, 3], true⟩ (by decide) (by decide)).2.1 (by decide)).2 (by decide)⟩

/-! ## C16: exactly the programs that compute right -/

/-- one step of a client program over a growing list of numbers, with all operations. -/
inductive Instr
  | parse (z : Int)
  | native (t : IntTy) (v : Int) (ht : 32 ≤ t.bits) (hv : t.has v)
  | add (i j : Nat)
  | sub (i j : Nat)
  | mul (i j : Nat)
  | div (i j : Nat)
  | mod (i j : Nat)
  | gcd (i j : Nat)
  | neg (i : Nat)
  | abs (i : Nat)
  | inc (i : Nat)
  | dec (i : Nat)

/-- the integer result of a step. -/
def Instr.spec (zs : List Int) : Instr → Int
  | .parse z => z
  | .native _ v _ _ => v
  | .add i j => zs.getD i 0 + zs.getD j 0
  | .sub i j => zs.getD i 0 - zs.getD j 0
  | .mul i j => zs.getD i 0 * zs.getD j 0
  | .div i j => Int.tdiv (zs.getD i 0) (zs.getD j 0)
  | .mod i j => Int.tmod (zs.getD i 0) (zs.getD j 0)
  | .gcd i j => Int.gcd (zs.getD i 0) (zs.getD j 0)
  | .neg i => - zs.getD i 0
  | .abs i => |zs.getD i 0|
  | .inc i => zs.getD i 0 + 1
  | .dec i => zs.getD i 0 - 1

/-- the same step executed by the code. -/
def Instr.exec (hs : List Huge) : Instr → Res Huge
  | .parse z => ofString (toString z).toList
  | .native t v _ _ => ofInt t v
  | .add i j => .ok (Symxx.Huge.add (hs.getD i zero) (hs.getD j zero))
  | .sub i j => .ok (Symxx.Huge.sub (hs.getD i zero) (hs.getD j zero))
  | .mul i j => Symxx.Huge.mul (hs.getD i zero) (hs.getD j zero)
  | .div i j => Symxx.Huge.div (hs.getD i zero) (hs.getD j zero)
  | .mod i j => Symxx.Huge.mod (hs.getD i zero) (hs.getD j zero)
  | .gcd i j => Symxx.Huge.gcd (hs.getD i zero) (hs.getD j zero)
  | .neg i => .ok (Symxx.Huge.neg (hs.getD i zero))
  | .abs i => .ok (Symxx.Huge.abs (hs.getD i zero))
  | .inc i => .ok (preInc (hs.getD i zero))
  | .dec i => .ok (preDec (hs.getD i zero))

/-- the sum of two integers is computed without cancellation of leading digits. -/
def AddOk (x y : Int) : Prop :=
  0 ≤ x * y ∨ x + y = 0 ∨ width (x + y).natAbs = max (width x.natAbs) (width y.natAbs)
/-- the difference of two integers, not opposite and without cancellation of leading digits. -/
def SubOk (x y : Int) : Prop :=
  (x + y ≠ 0 ∨ x = 0) ∧ (x * y ≤ 0 ∨ x = y ∨ width (x - y).natAbs = max (width x.natAbs) (width y.natAbs))
/-- the division is not an exact one by a divisor of two or more digits. -/
def DivDefined (x y : Int) : Prop := y ≠ 0 ∧ ¬ (2 ^ 30 ≤ |y| ∧ |y| < |x| ∧ y ∣ x)

/-- the condition under which a step is computed right. -/
def Instr.Guard (zs : List Int) : Instr → Prop
  | .native t v _ _ => t.signed = true → v ≠ t.min
  | .add i j => AddOk (zs.getD i 0) (zs.getD j 0)
  | .sub i j => SubOk (zs.getD i 0) (zs.getD j 0)
  | .mul i j => let x := (zs.getD i 0).natAbs; let y := (zs.getD j 0).natAbs
    ProductDefined (width x + width y + 1) (width x) x (width y) y
  | .div i j => let x := zs.getD i 0; let y := zs.getD j 0
    DivDefined x y ∧ (2 ^ 30 ≤ |y| ∨ |x| ≤ |y| ∨ width (Int.tdiv x y).natAbs = width x.natAbs)
  | .mod i j => DivDefined (zs.getD i 0) (zs.getD j 0)
  | .gcd i j => let x := zs.getD i 0; let y := zs.getD j 0
    ¬ (x ≠ 0 ∧ y ≠ 0 ∧ |x| ≠ |y| ∧ 2 ^ 30 ≤ Int.gcd x y)
  | .inc i => AddOk (zs.getD i 0) 1
  | .dec i => SubOk (zs.getD i 0) 1
  | _ => True

/-- the run of a program on integers. -/
def specRun : List Instr → List Int → List Int
  | [], zs => zs
  | s :: ss, zs => specRun ss (zs ++ [s.spec zs])

/-- the run of a program by the code. -/
def codeRun : List Instr → List Huge → Res (List Huge)
  | [], hs => .ok hs
  | s :: ss, hs => do
    let h ← s.exec hs
    codeRun ss (hs ++ [h])

/-- every step of the run satisfies its condition. -/
def AllGuarded : List Instr → List Int → Prop
  | [], _ => True
  | s :: ss, zs => s.Guard zs ∧ AllGuarded ss (zs ++ [s.spec zs])

theorem addOk_iff (a b : Huge) (ha : a.Canonical) (hb : b.Canonical) :
    (∃ h, (.ok (add a b) : Res Huge) = .ok h ∧ h.Canonical ∧ h.val = a.val + b.val) ↔ AddOk a.val b.val := by
  unfold AddOk
  rw [← add_canonical_iff a b ha hb]
  constructor
  · rintro ⟨h, e, hc, -⟩
    rw [Res.ok.injEq] at e
    rw [e]; exact hc
  · exact fun h => ⟨_, rfl, h, (add_val a b ha hb).1⟩

theorem subOk_iff (a b : Huge) (ha : a.Canonical) (hb : b.Canonical) :
    (∃ h, (.ok (sub a b) : Res Huge) = .ok h ∧ h.Canonical ∧ h.val = a.val - b.val) ↔ SubOk a.val b.val := by
  unfold SubOk
  rw [← sub_canonical_iff a b ha hb, ← C02_sub_exact_partial a b ha hb]
  constructor
  · rintro ⟨h, e, hc, hv⟩
    rw [Res.ok.injEq] at e
    rw [e]; exact ⟨hv, hc⟩
  · exact fun h => ⟨_, rfl, h.2, h.1⟩

theorem divDefined_iff (a b : Huge) (ha : a.Canonical) (hb : b.Canonical) :
    DivDefined a.val b.val ↔ (b.val ≠ 0 ∧ ¬ ExactLong a.digits b.digits) := by
  rw [exactLong_iff a b ha hb]; rfl

/-- a step gives a number without leading zero digits that denotes the right integer exactly under its condition. -/
theorem Instr.exec_iff (s : Instr) (hs : List Huge) (hc : ∀ x ∈ hs, x.Canonical) :
    (∃ h, s.exec hs = .ok h ∧ h.Canonical ∧ h.val = s.spec (hs.map Huge.val)) ↔ s.Guard (hs.map Huge.val) := by
  cases s with
  | parse z =>
    obtain ⟨h, h1, h2, h3, _⟩ := C10_roundtrip_string z
    exact ⟨fun _ => trivial, fun _ => ⟨h, h1, h3, h2⟩⟩
  | native t v ht hv =>
    constructor
    · rintro ⟨h, h1, -⟩ hsg rfl
      obtain ⟨m, hm⟩ := C11_minimum_undefined t hsg
      rw [show Instr.exec hs (.native t t.min ht hv) = ofInt t t.min from rfl, hm] at h1
      cases h1
    · intro hg
      obtain ⟨h, h1, h2, h3, -⟩ := C11_native_roundtrip_partial t ht v hv hg
      exact ⟨h, h1, h3, h2⟩
  | add i j =>
    simp only [Instr.exec, Instr.spec, Instr.Guard, getD_map_val]
    exact addOk_iff _ _ (getD_canonical hc i) (getD_canonical hc j)
  | sub i j =>
    simp only [Instr.exec, Instr.spec, Instr.Guard, getD_map_val]
    exact subOk_iff _ _ (getD_canonical hc i) (getD_canonical hc j)
  | mul i j =>
    simp only [Instr.exec, Instr.spec, Instr.Guard, getD_map_val]
    obtain ⟨k1, k2⟩ := C03_mul_iff _ _ (getD_canonical hc i) (getD_canonical hc j)
    constructor
    · rintro ⟨h, h1, -⟩
      by_contra hcon
      obtain ⟨m, hm⟩ := k2 hcon
      rw [hm] at h1; cases h1
    · intro h
      obtain ⟨r, r1, r2, r3⟩ := k1 h
      exact ⟨r, r1, r3, r2⟩
  | div i j =>
    simp only [Instr.exec, Instr.spec, Instr.Guard, getD_map_val]
    have ha := getD_canonical hc i
    have hb := getD_canonical hc j
    generalize hs.getD i zero = a at *
    generalize hs.getD j zero = b at *
    rw [divDefined_iff a b ha hb]
    constructor
    · rintro ⟨h, h1, h2, h3⟩
      have hb0 : b.val ≠ 0 := by
        intro h0
        have := ((C05_division_by_zero_partial a b hb _).1).2 ⟨h0, rfl⟩
        rw [h1] at this; cases this
      refine ⟨⟨hb0, fun hx => ?_⟩, ?_⟩
      · obtain ⟨m, hm⟩ := (div_val a b ha hb hb0).2 hx
        rw [h1] at hm; cases hm
      · rw [← h3]
        exact (div_canonical_iff a b h ha hb hb0 h1).1 h2
    · rintro ⟨⟨hb0, hx⟩, hw⟩
      obtain ⟨r, r1, r2, r3⟩ := (div_val a b ha hb hb0).1 hx
      refine ⟨r, r1, ?_, r2⟩
      rw [div_canonical_iff a b r ha hb hb0 r1, r2]
      exact hw
  | mod i j =>
    simp only [Instr.exec, Instr.spec, Instr.Guard, getD_map_val]
    have ha := getD_canonical hc i
    have hb := getD_canonical hc j
    generalize hs.getD i zero = a at *
    generalize hs.getD j zero = b at *
    rw [divDefined_iff a b ha hb]
    constructor
    · rintro ⟨h, h1, h2, h3⟩
      have hb0 : b.val ≠ 0 := by
        intro h0
        have := ((C05_division_by_zero_partial a b hb _).2.1).2 ⟨h0, rfl⟩
        rw [h1] at this; cases this
      refine ⟨hb0, fun hx => ?_⟩
      obtain ⟨m, hm⟩ := (mod_val a b ha hb hb0).2 hx
      rw [h1] at hm; cases hm
    · rintro ⟨hb0, hx⟩
      obtain ⟨r, r1, r2, r3⟩ := (mod_val a b ha hb hb0).1 hx
      exact ⟨r, r1, r3, r2⟩
  | gcd i j =>
    simp only [Instr.exec, Instr.spec, Instr.Guard, getD_map_val]
    have ha := getD_canonical hc i
    have hb := getD_canonical hc j
    generalize hs.getD i zero = a at *
    generalize hs.getD j zero = b at *
    rw [← gcdBad_iff]
    constructor
    · rintro ⟨h, h1, h2, h3⟩ hx
      obtain ⟨m, hm⟩ := (gcd_val a b ha hb).2 hx
      rw [h1] at hm; cases hm
    · intro hx
      obtain ⟨r, r1, r2, r3⟩ := (gcd_val a b ha hb).1 hx
      exact ⟨r, r1, r3, r2⟩
  | neg i =>
    simp only [Instr.exec, Instr.spec, Instr.Guard, getD_map_val, iff_true]
    obtain ⟨h1, h2, h3⟩ := C66_neg_abs (hs.getD i zero)
    exact ⟨_, rfl, (h3 (getD_canonical hc i)).1, h1⟩
  | abs i =>
    simp only [Instr.exec, Instr.spec, Instr.Guard, getD_map_val, iff_true]
    obtain ⟨h1, h2, h3⟩ := C66_neg_abs (hs.getD i zero)
    exact ⟨_, rfl, (h3 (getD_canonical hc i)).2, h2⟩
  | inc i =>
    simp only [Instr.exec, Instr.spec, Instr.Guard, getD_map_val]
    have := addOk_iff _ one (getD_canonical hc i) one_canonical
    rw [one_val] at this
    exact this
  | dec i =>
    simp only [Instr.exec, Instr.spec, Instr.Guard, getD_map_val]
    have := subOk_iff _ one (getD_canonical hc i) one_canonical
    rw [one_val] at this
    exact this

theorem codeRun_prefix (prog : List Instr) (hs out : List Huge) (h : codeRun prog hs = .ok out) : hs <+: out := by
  induction prog generalizing hs with
  | nil => simp only [codeRun, Res.ok.injEq] at h; rw [h]
  | cons s ss ih =>
    obtain ⟨x, -, h2⟩ := Res.bind_eq_ok.1 h
    exact (List.prefix_append hs [x]).trans (ih _ h2)

theorem specRun_prefix (prog : List Instr) (zs : List Int) : zs <+: specRun prog zs := by
  induction prog generalizing zs with
  | nil => exact List.prefix_rfl
  | cons s ss ih => exact (List.prefix_append zs [_]).trans (ih _)

/-- C16: for every program and all numbers without leading zero digits it starts from, the program runs to the end with only such
numbers, all denoting the integers they should, exactly if every step satisfies its condition. -/
theorem C16_exact (prog : List Instr) (hs : List Huge) (hc : ∀ x ∈ hs, x.Canonical) :
    (∃ out, codeRun prog hs = .ok out ∧ (∀ x ∈ out, x.Canonical) ∧ out.map Huge.val = specRun prog (hs.map Huge.val)) ↔
      AllGuarded prog (hs.map Huge.val) := by
  induction prog generalizing hs with
  | nil => exact ⟨fun _ => trivial, fun _ => ⟨hs, rfl, hc, rfl⟩⟩
  | cons s ss ih =>
    have ext : ∀ h : Huge, h.Canonical → ∀ x ∈ hs ++ [h], x.Canonical := by
      intro h hh x hx
      rcases List.mem_append.1 hx with hx | hx
      · exact hc x hx
      · rw [List.mem_singleton.1 hx]; exact hh
    have emap : ∀ h : Huge, h.val = s.spec (hs.map Huge.val) →
        (hs ++ [h]).map Huge.val = hs.map Huge.val ++ [s.spec (hs.map Huge.val)] := by
      intro h hv; simp [hv]
    constructor
    · rintro ⟨out, h1, h2, h3⟩
      obtain ⟨h, e1, e2⟩ := Res.bind_eq_ok.1 h1
      have hp := codeRun_prefix _ _ _ e2
      have hhc : h.Canonical := h2 h (hp.subset (by simp))
      have hv : h.val = s.spec (hs.map Huge.val) := by
        have q1 : (hs ++ [h]).map Huge.val <+: out.map Huge.val := hp.map _
        have q2 := specRun_prefix ss (hs.map Huge.val ++ [s.spec (hs.map Huge.val)])
        rw [h3] at q1
        have q3 := List.prefix_of_prefix_length_le q1 q2 (by simp)
        rw [List.map_append, List.prefix_append_right_inj] at q3
        simpa using q3
      refine ⟨(s.exec_iff hs hc).1 ⟨h, e1, hhc, hv⟩, ?_⟩
      rw [← emap h hv]
      refine (ih _ (ext h hhc)).1 ⟨out, e2, h2, ?_⟩
      rw [h3, emap h hv]; rfl
    · rintro ⟨g1, g2⟩
      obtain ⟨h, e1, hhc, hv⟩ := (s.exec_iff hs hc).2 g1
      rw [← emap h hv] at g2
      obtain ⟨out, o1, o2, o3⟩ := (ih _ (ext h hhc)).2 g2
      refine ⟨out, ?_, o2, ?_⟩
      · simp only [codeRun, e1, Res.bind_ok]; exact o1
      · rw [o3, emap h hv]; rfl

/-- C16: and then every comparison between two of its numbers is right, and every number but a zero prints as its numeral. -/
theorem C16_observations (prog : List Instr) (hs : List Huge) (hc : ∀ x ∈ hs, x.Canonical)
    (hg : AllGuarded prog (hs.map Huge.val)) :
    ∃ out, codeRun prog hs = .ok out ∧
      (∀ i j, let x := (specRun prog (hs.map Huge.val)).getD i 0; let y := (specRun prog (hs.map Huge.val)).getD j 0
        (lt (out.getD i zero) (out.getD j zero) = true ↔ x < y) ∧ (le (out.getD i zero) (out.getD j zero) = true ↔ x ≤ y) ∧
        (eq (out.getD i zero) (out.getD j zero) = true ↔ x = y)) ∧
      ∀ i, (specRun prog (hs.map Huge.val)).getD i 0 ≠ 0 →
        toStr (out.getD i zero) = .ok (toString ((specRun prog (hs.map Huge.val)).getD i 0)).toList := by
  obtain ⟨out, h1, h2, h3⟩ := (C16_exact prog hs hc).2 hg
  refine ⟨out, h1, fun i j => ?_, fun i => ?_⟩
  · simp only [← h3, getD_map_val]
    have := C06_comparisons _ _ (getD_canonical h2 i) (getD_canonical h2 j)
    exact ⟨this.1, this.2.1, this.2.2.2.2.1⟩
  · simp only [← h3, getD_map_val]
    intro hne
    exact C09_to_string_partial _ (getD_canonical h2 i).wf (Or.inr hne)

/-- a program that satisfies all conditions, with a sum of opposite signs, a difference and a quotient: read 3 * 2^60 + 7 and
-2^30, add, subtract 2^60, divide, take the remainder and the gcd, multiply, decrement, take the absolute value. -/
def demo : List Instr := [.parse 3458764513820540935, .native ⟨64, true⟩ (-1073741824) (by decide) (by decide), .add 0 1, .parse 1152921504606846976,
  .sub 0 3, .div 0 1, .mod 0 1, .gcd 0 1, .mul 2 5, .dec 8, .abs 9]
/-- what the code computes. -/
def demoOut : List Huge := match codeRun demo [] with | .ok out => out | _ => []
theorem demo_run : codeRun demo [] = .ok demoOut ∧ (∀ x ∈ demoOut, x.Canonical) ∧ demoOut.map Huge.val = specRun demo [] ∧
    specRun demo [] = [3458764513820540935, -1073741824, 3458764512746799111, 1152921504606846976, 2305843009213693959, -3221225472, 7, 1, -11141460350109657982820155392, -11141460350109657982820155393, 11141460350109657982820155393] := by decide +kernel
theorem demo_guarded : AllGuarded demo [] :=
  (C16_exact demo [] (by simp)).1 ⟨demoOut, demo_run.1, demo_run.2.1, demo_run.2.2.1⟩
/-- `2^30 - (2^30 - 1)` violates the condition. -/
example : ¬ AllGuarded [.parse 1073741824, .parse 1073741823, .sub 0 1] [] := by
  rintro ⟨-, -, ⟨-, h⟩, -⟩
  revert h
  decide +kernel

/-! ## C12: what a conversion to a native integer returns -/

/-- C12: for every number and every type of at least 32 bits, an `Error` is raised exactly for a negative number and an unsigned type
and from `2^(30*(bits/30+1))` on; the behaviour is undefined exactly for the other negative numbers that are `2^(bits-1)` modulo
`2^bits`; otherwise the result is the number modulo `2^bits`. -/
theorem C12_exact (t : IntTy) (ht : 32 ≤ t.bits) (h : Huge) (hc : h.Canonical) :
    ((∃ m, toInt t h = .throw m) ↔ (h.val < 0 ∧ t.signed = false) ∨ 2 ^ (30 * (t.bits / 30 + 1)) ≤ |h.val|) ∧
    ((∃ m, toInt t h = .ub m) ↔ h.val < 0 ∧ t.signed = true ∧ |h.val| < 2 ^ (30 * (t.bits / 30 + 1)) ∧
      |h.val| % 2 ^ t.bits = 2 ^ (t.bits - 1)) ∧
    (∀ z, toInt t h = .ok z → t.has z ∧ z ≡ h.val [ZMOD 2 ^ t.bits]) ∧ (∀ m, toInt t h ≠ .exn m) ∧ toInt t h ≠ .fuel := by
  obtain ⟨h1, h2⟩ := toInt_exact (t := t) ht hc
  by_cases hb : (h.val < 0 ∧ t.signed = false) ∨ 2 ^ (30 * (t.bits / 30 + 1)) ≤ |h.val|
  · obtain ⟨m, hm⟩ := h1 hb
    rw [hm]
    refine ⟨by simp [hb], ?_, by simp, by simp, by simp⟩
    simp only [reduceCtorEq, exists_false, false_iff]
    rintro ⟨a1, a2, a3, -⟩
    rcases hb with ⟨-, hb⟩ | hb
    · rw [a2] at hb; cases hb
    · omega
  · obtain ⟨h3, h4⟩ := h2 hb
    by_cases hu : h.val < 0 ∧ |h.val| % 2 ^ t.bits = 2 ^ (t.bits - 1)
    · obtain ⟨m, hm⟩ := h3 hu
      rw [hm]
      refine ⟨by simp [hb], ?_, by simp, by simp, by simp⟩
      rw [not_or] at hb
      have hs : t.signed = true := by
        cases hs : t.signed
        · exact absurd ⟨hu.1, hs⟩ hb.1
        · rfl
      exact ⟨fun _ => ⟨hu.1, hs, not_le.1 hb.2, hu.2⟩, fun _ => ⟨m, rfl⟩⟩
    · obtain ⟨z, hz, hz1, hz2⟩ := h4 hu
      rw [hz]
      refine ⟨by simp [hb], ?_, ?_, by simp, by simp⟩
      · simp only [reduceCtorEq, exists_false, false_iff]
        exact fun a => hu ⟨a.1, a.2.2.2⟩
      · intro w hw
        cases hw
        exact ⟨hz1, hz2⟩

/-- C12: the conversion returns the number exactly if it is in the range of the type and not the minimum of a signed type. -/
theorem C12_right_iff (t : IntTy) (ht : 32 ≤ t.bits) (h : Huge) (hc : h.Canonical) :
    toInt t h = .ok h.val ↔ t.has h.val ∧ ¬ (t.signed = true ∧ h.val = t.min) := by
  constructor
  · intro h1
    refine ⟨((C12_exact t ht h hc).2.2.1 _ h1).1, ?_⟩
    rintro ⟨hs, hm⟩
    have hp : (0 : Int) < 2 ^ (t.bits - 1) := by positivity
    have he : (2 : Int) ^ t.bits = 2 ^ (t.bits - 1) * 2 := by rw [← pow_succ]; congr 1; omega
    have hv : h.val = -(2 ^ (t.bits - 1)) := by rw [hm, IntTy.min, hs]; rfl
    have ha : |h.val| = 2 ^ (t.bits - 1) := by rw [hv, abs_neg, abs_of_pos hp]
    obtain ⟨m, h2⟩ := (C12_exact t ht h hc).2.1.2 ⟨by omega, hs, by
      rw [ha]
      exact pow_lt_pow_right₀ (by norm_num) (by omega), by
      rw [ha]
      exact Int.emod_eq_of_lt hp.le (by omega)⟩
    rw [h2] at h1
    cases h1
  · rintro ⟨h1, h2⟩
    exact (C12_to_native_partial t ht h hc).1 h1 fun hs hm => h2 ⟨hs, hm⟩

/-- `2^40` as a 32-bit number: no `Error`, the wrong result 0. -/
example : (⟨[0, 1024], true⟩ : Huge).Canonical ∧ |(⟨[0, 1024], true⟩ : Huge).val| < 2 ^ (30 * (32 / 30 + 1)) ∧
    toInt ⟨32, true⟩ ⟨[0, 1024], true⟩ = .ok 0 ∧ ¬ (⟨32, true⟩ : IntTy).has (⟨[0, 1024], true⟩ : Huge).val := by decide +kernel

end Symxx.Huge
