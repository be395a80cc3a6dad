import Verif.Expr.NumericReal
import Verif.Props.Numeric
import Mathlib.Analysis.Complex.ExponentialBounds
/-!
# C86: how far the numeric value can be off

`Accurate`, `ErrorAt`, `PolyOk` are in `Verif/Expr/NumericErrSpec.lean`; `Node.sem ρ` (`Verif/Expr/Spec.lean`) is the value of an
expression in the real numbers.
-/
namespace Symxx.Sym
open Symxx.Num

variable {F : Flt} {v : List (List Char × F.LD)} {S : FltSem F} {P : Prec} {ρ : List Char → ℝ} {k K : Nat}

/-- the evaluation with the constants `ρ` has a value, and it is the value of the expression up to the error. -/
theorem C86_error (h : S.Accurate P) {n : Node} {x E : ℝ} (hn : P.ErrorAt ρ k K n x E) (hv : ConstsReal S v ρ n.names) :
    n.sem ρ = some x ∧ ∃ a z, Node.tryEvalLD F v n = .ok (some a) ∧ S.ld a = some z ∧ |z - x| ≤ E := Node.error h hn hv

/-- the effect of errors in the operands of `+ - * /`. -/
theorem C86_steps {y z a b y' z' : ℝ} (hy : |y' - y| ≤ a) (hz : |z' - z| ≤ b) :
    |(y' + z') - (y + z)| ≤ a + b ∧ |(y' - z') - (y - z)| ≤ a + b ∧ |y' * z' - y * z| ≤ |y| * b + |z| * a + a * b ∧
    (z ≠ 0 → b ≤ |z| / 2 → z' ≠ 0 ∧ |y' / z' - y / z| ≤ 2 * (a + |y / z| * b) / |z|) := by
  refine ⟨?_, ?_, ?_, fun h0 hb => ?_⟩
  · have e : (y' + z') - (y + z) = (y' - y) + (z' - z) := by ring
    rw [e]; exact le_trans (abs_add_le _ _) (add_le_add hy hz)
  · have e : (y' - z') - (y - z) = (y' - y) - (z' - z) := by ring
    rw [e]; exact le_trans (abs_sub _ _) (add_le_add hy hz)
  · have e : y' * z' - y * z = y * (z' - z) + z * (y' - y) + (y' - y) * (z' - z) := by ring
    rw [e]
    refine le_trans (abs_add_le _ _) (add_le_add (le_trans (abs_add_le _ _) ?_) ?_)
    · rw [abs_mul, abs_mul]
      exact add_le_add (mul_le_mul_of_nonneg_left hz (abs_nonneg _)) (mul_le_mul_of_nonneg_left hy (abs_nonneg _))
    · rw [abs_mul]
      exact mul_le_mul hy hz (abs_nonneg _) (le_trans (abs_nonneg _) hy)
  · have := quot_error h0 hy hz hb
    exact ⟨this.1, this.2.2⟩

/-- all terms have the same sign, so that nothing cancels. -/
def Poly.OneSign (ρ : List Char → ℝ) (p : Poly) : Prop := (∀ t ∈ p, 0 ≤ t.value ρ) ∨ ∀ t ∈ p, t.value ρ ≤ 0

theorem Poly.OneSign.size {p : Poly} (h : p.OneSign ρ) : p.size ρ = |p.value ρ| := by
  unfold Poly.size Poly.value
  rcases h with h | h
  · rw [abs_of_nonneg (List.sum_nonneg (by simpa using h))]
    congr 1
    exact List.map_congr_left fun t ht => abs_of_nonneg (h t ht)
  · have e : (p.map (Term.value ρ)).sum = -(p.map fun t => |t.value ρ|).sum := by
      induction p with
      | nil => simp
      | cons t p ih =>
        rw [List.map_cons, List.sum_cons, List.map_cons, List.sum_cons, ih fun u hu => h u (List.mem_cons_of_mem _ hu),
          abs_of_nonpos (h t List.mem_cons_self)]
        ring
    rw [e, abs_neg, abs_of_nonneg]
    exact List.sum_nonneg (by simp)

theorem x86_ceil : ⌈Real.log x86.M⌉₊ ≤ 37 := by
  rw [Nat.ceil_le]
  have e : ((x86.M : Int) : ℝ) = 2 ^ 53 := by norm_num [x86]
  rw [e, Real.log_pow]
  have := Real.log_two_lt_d9
  push_cast
  linarith

/-- on x86-64, with fewer than 2^16 operations, the errors of a sum of terms add up to less than `2^-45`. -/
theorem x86_gam {n : Nat} (hn : n + (K + 2) * k + 2 ≤ 2 ^ 16) : 0 ≤ x86.gam n k K ∧ x86.gam n k K ≤ 1 / 2 ^ 45 := by
  unfold Prec.gam
  have h1 : ((n + (K + 2) * k + 2 : Nat) : ℝ) ≤ 2 ^ 16 := by exact_mod_cast hn
  have h2 : ((⌈Real.log x86.M⌉₊ + 3 : Nat) : ℝ) ≤ 40 := by exact_mod_cast Nat.add_le_add_right x86_ceil 3
  have h3 : (0 : ℝ) ≤ ((n + (K + 2) * k + 2 : Nat) : ℝ) := Nat.cast_nonneg _
  have h4 : (0 : ℝ) ≤ ((⌈Real.log x86.M⌉₊ + 3 : Nat) : ℝ) := Nat.cast_nonneg _
  have eu : x86.u = 1 / 2 ^ 63 := rfl
  have ed : x86.ud = 1 / 2 ^ 52 := rfl
  rw [eu, ed]
  set i := ((n + (K + 2) * k + 2 : Nat) : ℝ)
  set j := ((⌈Real.log x86.M⌉₊ + 3 : Nat) : ℝ)
  have s0 : 0 ≤ i * (1 / 2 ^ 63) + j * (1 / 2 ^ 52) := by positivity
  have s1 : i * (1 / 2 ^ 63) + j * (1 / 2 ^ 52) ≤ 1 / 2 ^ 46 * (9 / 8) := by
    have := mul_le_mul_of_nonneg_right h1 (show (0 : ℝ) ≤ 1 / 2 ^ 63 by positivity)
    have := mul_le_mul_of_nonneg_right h2 (show (0 : ℝ) ≤ 1 / 2 ^ 52 by positivity)
    norm_num at *
    linarith
  set s := i * (1 / 2 ^ 63) + j * (1 / 2 ^ 52)
  have s2 : s ≤ 1 / 16 := le_trans s1 (by norm_num)
  constructor
  · exact div_nonneg s0 (by linarith)
  · rw [div_le_iff₀ (by linarith)]
    norm_num at *
    linarith

theorem x86_errorAt {f : Frac} (hn : x86.PolyOk ρ k K f.num) (hd : x86.PolyOk ρ k K f.den)
    (on : f.num.OneSign ρ) (od : f.den.OneSign ρ) (h0 : f.den.value ρ ≠ 0) (hx : |f.value ρ| ≤ x86.hi / 4)
    (cn : f.num.length + (K + 2) * k + 2 ≤ 2 ^ 16) (cd : f.den.length + (K + 2) * k + 2 ≤ 2 ^ 16) :
    ∃ E, x86.ErrorAt ρ k K (.frac f) (f.value ρ) E ∧ E ≤ (1 / 2 ^ 42) * |f.value ρ| + 1 / 2 ^ 1022 := by
  have gn := x86_gam cn
  have gd := x86_gam cd
  have d0 : 0 < |f.den.value ρ| := abs_pos.2 h0
  refine ⟨_, ⟨hn, hd, h0, rfl, ?_, ?_, rfl⟩, ?_⟩
  · rw [od.size]
    have : x86.gam f.den.length k K ≤ 1 / 2 := le_trans gd.2 (by norm_num)
    nlinarith
  · rw [on.size, ← abs_div]
    exact hx
  rw [on.size, od.size]
  have ev : |f.num.value ρ| = |f.value ρ| * |f.den.value ρ| := by
    unfold Frac.value
    rw [abs_div]; field_simp
  rw [ev]
  have e : 3 * (x86.gam f.num.length k K * (|f.value ρ| * |f.den.value ρ|) + |f.value ρ| * (x86.gam f.den.length k K * |f.den.value ρ|)) /
      |f.den.value ρ| = 3 * (x86.gam f.num.length k K + x86.gam f.den.length k K) * |f.value ρ| := by
    field_simp
  rw [e]
  have eu : x86.u = 1 / 2 ^ 63 := rfl
  have el : x86.lo = 1 / 2 ^ 1022 := rfl
  rw [eu, el, ← add_mul]
  refine add_le_add (mul_le_mul_of_nonneg_right ?_ (abs_nonneg _)) (le_refl _)
  have g1 := gn.2
  have g2 := gd.2
  norm_num at *
  linarith

/-- on x86-64 a fraction whose numerator and denominator are free of cancellation is evaluated with a relative error of at most
`2^-42`, whatever the values of the symbols. -/
theorem C86_same_sign (h : S.Accurate x86) {f : Frac} (hn : x86.PolyOk ρ k K f.num) (hd : x86.PolyOk ρ k K f.den)
    (on : f.num.OneSign ρ) (od : f.den.OneSign ρ) (h0 : f.den.value ρ ≠ 0) (hx : |f.value ρ| ≤ x86.hi / 4)
    (cn : f.num.length + (K + 2) * k + 2 ≤ 2 ^ 16) (cd : f.den.length + (K + 2) * k + 2 ≤ 2 ^ 16) (hv : ConstsReal S v ρ f.names) :
    ∃ a z, f.tryEvalLD F v = some a ∧ S.ld a = some z ∧ |z - f.value ρ| ≤ (1 / 2 ^ 42) * |f.value ρ| + 1 / 2 ^ 1022 := by
  obtain ⟨E, he, hE⟩ := x86_errorAt hn hd on od h0 hx cn cd
  obtain ⟨-, a, z, h1, h2, h3⟩ := C86_error h he hv
  exact ⟨a, z, Res.ok.inj h1, h2, le_trans h3 hE⟩

/-- the text that is shown for a value with an error `E`. -/
theorem C86_shown {x E : ℝ} {q : ℚ} (h : |(q : ℝ) - x| ≤ E) :
    ∃ r, decVal (showG q) = some r ∧ |(r : ℝ) - x| ≤ E + (|x| + E) / 200000 := by
  obtain ⟨r, h1, h2⟩ := C84_digits q
  refine ⟨r, h1, ?_⟩
  have h2' : |(r : ℝ) - q| ≤ |(q : ℝ)| / 200000 := by exact_mod_cast h2
  have e : (r : ℝ) - x = ((r : ℝ) - q) + (q - x) := by ring
  have hq : |(q : ℝ)| ≤ |x| + E := by
    have e : (q : ℝ) = (q - x) + x := by ring
    rw [e]
    exact le_trans (abs_add_le _ _) (by linarith)
  rw [e]
  refine le_trans (abs_add_le _ _) ?_
  linarith

/-! ### examples -/

theorem x86_within {r : ℝ} (h1 : 1 / 2 ^ 20 ≤ |r|) (h2 : |r| ≤ 2 ^ 20) : x86.Within r := by
  right
  constructor
  · show 2 * (1 / 2 ^ 1022) ≤ |r|
    have e : (2 : ℝ) * (1 / 2 ^ 1022) = 1 / 2 ^ 1021 := by
      rw [show (2 : ℝ) ^ 1022 = 2 * 2 ^ 1021 from pow_succ' 2 1021]
      field_simp
    rw [e]
    exact le_trans (one_div_le_one_div_of_le (by positivity) (pow_le_pow_right₀ (by norm_num) (by norm_num))) h1
  · show |r| ≤ 2 ^ 1023 / 2
    have e : (2 : ℝ) ^ 1023 / 2 = 2 ^ 1022 := by
      rw [show (2 : ℝ) ^ 1023 = 2 * 2 ^ 1022 from pow_succ' 2 1022]
      field_simp
    rw [e]
    exact le_trans h2 (pow_le_pow_right₀ (by norm_num) (by norm_num))

theorem x86_hi {r : ℝ} (h : r ≤ 2 ^ 20) : r ≤ x86.hi / 2 ∧ r ≤ x86.hi / 4 := by
  have e : x86.hi / 4 = 2 ^ 1021 := by
    show (2 : ℝ) ^ 1023 / 4 = 2 ^ 1021
    rw [show (2 : ℝ) ^ 1023 = 2 ^ 1021 * 4 by rw [show (1023 : ℕ) = 1021 + 2 from rfl, pow_add]; norm_num]
    field_simp
  have h' : r ≤ 2 ^ 1021 := le_trans h (pow_le_pow_right₀ (by norm_num) (by norm_num))
  have p : (0 : ℝ) < x86.hi / 4 := by rw [e]; positivity
  rw [← e] at h'
  generalize x86.hi = y at h' p
  exact ⟨by linarith, h'⟩

theorem x86_few {i : ℝ} (h : i ≤ 2 ^ 16) : i * x86.u + ((⌈Real.log x86.M⌉₊ + 3 : Nat) : ℝ) * x86.ud ≤ 1 / 3 := by
  have h2 : ((⌈Real.log x86.M⌉₊ + 3 : Nat) : ℝ) ≤ 40 := by exact_mod_cast Nat.add_le_add_right x86_ceil 3
  have eu : x86.u = 1 / 2 ^ 63 := rfl
  have ed : x86.ud = 1 / 2 ^ 52 := rfl
  rw [eu, ed]
  have := mul_le_mul_of_nonneg_right h (show (0 : ℝ) ≤ 1 / 2 ^ 63 by positivity)
  have := mul_le_mul_of_nonneg_right h2 (show (0 : ℝ) ≤ 1 / 2 ^ 52 by positivity)
  norm_num at *
  linarith

/-- `x` is 5/2, everything else is 3. -/
noncomputable def rxy (x : List Char) : ℝ := if x = ['x'] then 5 / 2 else 3
theorem rxy_x : rxy ['x'] = 5 / 2 := if_pos rfl
theorem rxy_y : rxy ['y'] = 3 := if_neg (by decide)
/-- `(y+2x)/(2y)`. -/
def ratio : Frac := ⟨[mono 1 1 ['y'] 1, mono 2 1 ['x'] 1], [mono 2 1 ['y'] 1]⟩
/-- `(2*3^(1/2)*x^2 + 1)/(3x)`. -/
def rootFrac : Frac := ⟨[termR, cst 1], [mono 3 1 ['x'] 1]⟩

theorem x86_coe_mono {c : Int} (h : |c| ≤ 10) : x86.CoeOk ⟨1, ⟨1, 1⟩, ⟨c, 1⟩⟩ where
  num := le_trans h (by norm_num [x86])
  den := by norm_num [x86]
  den0 := one_ne_zero
  rnum := by norm_num [x86]
  rden := by norm_num [x86]
  index := by norm_num [x86]

theorem x86_powOk {x : List Char} {k : Int} (h0 : 0 ≤ k) (h : k ≤ 10) : x86.PowOk rxy 0 (x, ⟨k, 1⟩) :=
  Or.inl ⟨rfl, by rw [abs_of_nonneg h0]; exact le_trans h (by norm_num [x86]), fun _ => h0⟩

theorem mono_value (c : Int) (x : List Char) : (mono c 1 x 1).value rxy = c * rxy x := by
  simp [Term.value, Syms.value, mono, re, Num.Real.val, Rational.val]

theorem mono_symsOk {c : Int} (h : |c| ≤ 10) (h0 : c ≠ 0) {x : List Char} :
    x86.SymsOk rxy 0 (mono c 1 x 1).syms (mono c 1 x 1).coe.val := by
  have hr : 2 ≤ rxy x ∧ rxy x ≤ 3 := by unfold rxy; split <;> norm_num
  have c1 : (1 : ℝ) ≤ |(c : ℝ)| := by exact_mod_cast Int.one_le_abs h0
  have c2 : |(c : ℝ)| ≤ 10 := by exact_mod_cast h
  have e1 : ((Rational.val ⟨1, 1⟩ : ℚ) : ℝ) = 1 := by norm_num [Rational.val]
  have e2 : (mono c 1 x 1).coe.val = c := by simp [mono, re, Num.Real.val, Rational.val]
  refine ⟨x86_powOk (by norm_num) (by norm_num), ?_, ?_, trivial⟩
  · rw [e1, Real.rpow_one]
    have p : 0 < rxy x := by linarith [hr.1]
    apply x86_within <;> rw [abs_of_pos p] <;> norm_num <;> linarith [hr.1, hr.2]
  · rw [e1, e2, Real.rpow_one]
    have p : 0 < rxy x := by linarith [hr.1]
    apply x86_within <;> rw [abs_mul, abs_of_pos p] <;> norm_num <;> nlinarith [hr.1, hr.2]

theorem ratio_num_value : ratio.num.value rxy = 8 := by
  simp [ratio, Poly.value, mono_value, rxy_x, rxy_y]; norm_num
theorem ratio_den_value : ratio.den.value rxy = 6 := by
  simp [ratio, Poly.value, mono_value, rxy_y]; norm_num
theorem ratio_value : ratio.value rxy = 4 / 3 := by
  unfold Frac.value
  rw [ratio_num_value, ratio_den_value]; norm_num

theorem ratio_num : x86.PolyOk rxy 1 0 ratio.num where
  coe t ht := by
    simp only [ratio, List.mem_cons, List.not_mem_nil, or_false] at ht
    rcases ht with rfl | rfl <;> exact x86_coe_mono (by norm_num)
  syms t ht := by
    simp only [ratio, List.mem_cons, List.not_mem_nil, or_false] at ht
    rcases ht with rfl | rfl <;> exact mono_symsOk (by norm_num) (by norm_num)
  count t ht := by
    simp only [ratio, List.mem_cons, List.not_mem_nil, or_false] at ht
    rcases ht with rfl | rfl <;> simp [mono]
  sum := (x86_hi (by simp [Poly.size, ratio, mono_value, rxy_x, rxy_y]; norm_num)).1
  few := x86_few (by norm_num [ratio])

theorem ratio_den : x86.PolyOk rxy 1 0 ratio.den where
  coe t ht := by
    simp only [ratio, List.mem_singleton] at ht
    subst ht; exact x86_coe_mono (by norm_num)
  syms t ht := by
    simp only [ratio, List.mem_singleton] at ht
    subst ht; exact mono_symsOk (by norm_num) (by norm_num)
  count t ht := by
    simp only [ratio, List.mem_singleton] at ht
    subst ht; simp [mono]
  sum := (x86_hi (by simp [Poly.size, ratio, mono_value, rxy_y]; norm_num)).1
  few := x86_few (by norm_num [ratio])

theorem ratio_signs : ratio.num.OneSign rxy ∧ ratio.den.OneSign rxy := by
  constructor <;> left <;> intro t ht <;> simp [ratio] at ht
  · rcases ht with rfl | rfl <;> rw [mono_value]
    · rw [rxy_y]; norm_num
    · rw [rxy_x]; norm_num
  · subst ht; rw [mono_value, rxy_y]; norm_num

theorem ratio_error : ∃ E, x86.ErrorAt rxy 1 0 (.frac ratio) (4 / 3) E ∧ E ≤ (1 / 2 ^ 42) * |(4 / 3 : ℝ)| + 1 / 2 ^ 1022 := by
  have := x86_errorAt ratio_num ratio_den ratio_signs.1 ratio_signs.2 (by rw [ratio_den_value]; norm_num)
    (by rw [ratio_value]; exact (x86_hi (by rw [abs_of_pos] <;> norm_num)).2) (by simp [ratio]) (by simp [ratio])
  rwa [ratio_value] at this

/-- the constants of the examples. -/
noncomputable def vR : List (List Char × ieee.LD) := [(['x'], some (5 / 2 : ℝ)), (['y'], some (3 : ℝ))]
theorem vR_ok {xs : List (List Char)} (h : ∀ x ∈ xs, x = ['x'] ∨ x = ['y']) : ConstsReal semR vR rxy xs := by
  intro x hx
  rcases h x hx with rfl | rfl
  · exact ⟨_, rfl, by rw [rxy_x]; rfl⟩
  · exact ⟨_, rfl, by rw [rxy_y]; rfl⟩

example := C86_same_sign (v := vR) semR_accurate ratio_num ratio_den ratio_signs.1 ratio_signs.2 (by rw [ratio_den_value]; norm_num)
  (by rw [ratio_value]; exact (x86_hi (by rw [abs_of_pos] <;> norm_num)).2) (by simp [ratio]) (by simp [ratio])
  (vR_ok (by simp [ratio, Frac.names, Poly.names, Term.names, mono]))
example := C86_shown (x := Real.sqrt 2) (E := |((1.414 : ℚ) : ℝ) - Real.sqrt 2|) (q := 1.414) (le_refl _)

/-- `((y+2x)/(2y))^((y+2x)/(2y))` stays a power. -/
theorem ratio_pow_error : ∃ E, x86.ErrorAt rxy 1 0 (.op '^' (.frac ratio) (.frac ratio)) ((4 / 3 : ℝ) ^ (4 / 3 : ℝ)) E := by
  obtain ⟨E, h1, h2⟩ := ratio_error
  have E1 : E ≤ 1 / 3 := by
    have e : (1 : ℝ) / 2 ^ 1022 ≤ 1 / 2 ^ 20 :=
      one_div_le_one_div_of_le (by positivity) (pow_le_pow_right₀ (by norm_num) (by norm_num))
    rw [abs_of_pos (by norm_num)] at h2
    norm_num at h2 e ⊢
    linarith
  have up : ∀ y z : ℝ, 1 ≤ y → y ≤ 2 → 1 ≤ z → z ≤ 2 → 0 ≤ y ^ z ∧ y ^ z ≤ 4 := by
    intro y z a b c d
    refine ⟨Real.rpow_nonneg (by linarith) _, ?_⟩
    calc y ^ z ≤ y ^ (2 : ℝ) := Real.rpow_le_rpow_of_exponent_le a d
      _ ≤ 2 ^ (2 : ℝ) := Real.rpow_le_rpow (by linarith) b (by norm_num)
      _ = 4 := by norm_num
  have x1 := up (4 / 3) (4 / 3) (by norm_num) (by norm_num) (by norm_num) (by norm_num)
  refine ⟨_, 4 / 3, E, 4 / 3, E, 4, h1, h1, opSem_pow' (Or.inl (by norm_num)), fun y' z' hy hz => ?_, ?_, rfl⟩
  · have a := abs_le.1 (le_trans hy E1)
    have b := abs_le.1 (le_trans hz E1)
    have x2 := up y' z' (by linarith [a.1]) (by linarith [a.2]) (by linarith [b.1]) (by linarith [b.2])
    exact ⟨_, opSem_pow' (Or.inl (by linarith [a.1])), by rw [abs_le]; constructor <;> linarith⟩
  · refine le_trans (x86_hi (r := |(4 / 3 : ℝ) ^ (4 / 3 : ℝ)| + 4) ?_).1 ?_
    · rw [abs_of_nonneg x1.1]; norm_num; linarith
    · have : (0 : ℝ) ≤ x86.hi := by show (0 : ℝ) ≤ 2 ^ 1023; positivity
      linarith

example : ∃ (n : Node) (x E : ℝ) (a : ieee.LD) (z : ℝ), n.sem rxy = some x ∧ Node.tryEvalLD ieee vR n = .ok (some a) ∧ semR.ld a = some z ∧
    |z - x| ≤ E := by
  obtain ⟨E, h⟩ := ratio_pow_error
  obtain ⟨h1, a, z, h2⟩ := C86_error (v := vR) semR_accurate h
    (vR_ok (by simp [ratio, Node.names, Frac.names, Poly.names, Term.names, mono]))
  exact ⟨_, _, E, a, z, h1, h2⟩

/-- with a square root: `2*3^(1/2)*x^2 + 1` at 5/2. -/
theorem rootFrac_num : x86.PolyOk rxy 1 0 rootFrac.num where
  coe t ht := by
    simp only [rootFrac, List.mem_cons, List.not_mem_nil, or_false] at ht
    rcases ht with rfl | rfl
    · exact ⟨by norm_num [x86, termR], by norm_num [x86, termR], by norm_num [termR], by norm_num [x86, termR], by norm_num [x86, termR],
        by norm_num [x86, termR]⟩
    · exact x86_coe_mono (by norm_num)
  syms t ht := by
    simp only [rootFrac, List.mem_cons, List.not_mem_nil, or_false] at ht
    rcases ht with rfl | rfl
    · have e1 : ((Rational.val ⟨2, 1⟩ : ℚ) : ℝ) = ((2 : ℕ) : ℝ) := by norm_num [Rational.val]
      have e2 : termR.coe.val = 2 * (3 : ℝ) ^ ((1 : ℝ) / 2) := by simp [termR, Num.Real.val, Rational.val]
      have s1 : 1 ≤ (3 : ℝ) ^ ((1 : ℝ) / 2) := Real.one_le_rpow (by norm_num) (by norm_num)
      have s2 : (3 : ℝ) ^ ((1 : ℝ) / 2) ≤ 3 := by
        calc (3 : ℝ) ^ ((1 : ℝ) / 2) ≤ 3 ^ (1 : ℝ) := Real.rpow_le_rpow_of_exponent_le (by norm_num) (by norm_num)
          _ = 3 := Real.rpow_one 3
      refine ⟨x86_powOk (by norm_num) (by norm_num), ?_, ?_, trivial⟩
      · rw [e1, Real.rpow_natCast, rxy_x]
        apply x86_within <;> norm_num
      · rw [e1, e2, Real.rpow_natCast, rxy_x]
        apply x86_within <;> rw [abs_of_pos (by positivity)] <;> norm_num <;> linarith
    · trivial
  count t ht := by
    simp only [rootFrac, List.mem_cons, List.not_mem_nil, or_false] at ht
    rcases ht with rfl | rfl <;> simp [termR, cst]
  sum := by
    refine (x86_hi ?_).1
    have s2 : (3 : ℝ) ^ ((1 : ℝ) / 2) ≤ 3 := by
      calc (3 : ℝ) ^ ((1 : ℝ) / 2) ≤ 3 ^ (1 : ℝ) := Real.rpow_le_rpow_of_exponent_le (by norm_num) (by norm_num)
        _ = 3 := Real.rpow_one 3
    have e1 : termR.value rxy = 2 * (3 : ℝ) ^ ((1 : ℝ) / 2) * (5 / 2) ^ 2 := by
      have e1 : ((Rational.val ⟨2, 1⟩ : ℚ) : ℝ) = ((2 : ℕ) : ℝ) := by norm_num [Rational.val]
      have e2 : termR.coe.val = 2 * (3 : ℝ) ^ ((1 : ℝ) / 2) := by simp [termR, Num.Real.val, Rational.val]
      have e3 : termR.syms.value rxy = (5 / 2) ^ 2 := by
        show (List.map _ [(['x'], (⟨2, 1⟩ : Rational))]).prod = _
        rw [List.map_singleton, List.prod_singleton, e1, Real.rpow_natCast, rxy_x]
      rw [Term.value, e2, e3]
    have e4 : (cst 1).value rxy = 1 := by simp [cst, re, Term.value, Syms.value, Num.Real.val, Rational.val]
    show (List.map _ [termR, cst 1]).sum ≤ _
    simp only [List.map_cons, List.map_nil, List.sum_cons, List.sum_nil]
    rw [e1, e4, abs_of_pos (by positivity)]
    norm_num
    norm_num at s2
    linarith
  few := x86_few (by norm_num [rootFrac])

example := poly_near (v := vR) semR_accurate rootFrac_num (vR_ok (by simp [rootFrac, Poly.names, Term.names, termR, cst]))

end Symxx.Sym

namespace Symxx.Cli
open Symxx.Num Symxx.Sym Cmd

variable {E : CEnv} {B : Nat}

/-- a line that is an expression, when all symbols have (positive) values: behind its normal form stands a number that is the
value of the expression up to the error of evaluating the normal form. (The run is exact: `C69`.) -/
theorem C86_line (hg : E.f.toEnv.Base B) (hs : SortOk E.f.sort) {S : FltSem E.flt} {P : Prec} (hS : S.Accurate P)
    {line : List Char} {s : St E} {e : Parser.Expr} (hl : IsExpr s line) (hp : Parser.parse E.f.M E.dec line = .ok e) (he : e.DenOk)
    {n m m' : Node} (h1 : Node.ofExpr (E.f.checked B) e = .ok n) (h2 : Node.normalize (E.f.checked B) n = .ok m)
    (h3 : Node.normalize (E.f.checked B) m = .ok m') {t : List Char} (ht : Node.toStr E.f.toEnv m' = .ok t)
    (hi : isInteger E m' = .ok false) {ρ : List Char → ℝ} (hρ : ∀ x, 0 < ρ x) {x : ℝ} (hx : exprSem ρ e = some x)
    {k K : Nat} {x' err : ℝ} (hE : P.ErrorAt ρ k K m' x' err)
    (hv : ∀ y ∈ m'.names, ∃ a, s.constants.find y = some a ∧ S.ld a = some (ρ y)) :
    x' = x ∧ ∃ a z, dispatch E line s = (.ok false, s, t ++ " = ".toList ++ E.showLD a ++ ['\n']) ∧ S.ld a = some z ∧
      |z - x| ≤ err := by
  obtain ⟨c1, c2, c3⟩ := C69_pipeline_partial hg hs he h1 h2
  obtain ⟨w, -⟩ := Node.ofExpr_sem hg hs he h1
  obtain ⟨-, w', -⟩ := C56_normalize_partial hg hs w h2
  obtain ⟨d1, -, d3⟩ := C56_normalize_partial hg hs w' h3
  obtain ⟨s1, a, z, a1, a2, a3⟩ := C86_error (v := s.constants) hS hE
    (fun y hy => by obtain ⟨b, b1, b2⟩ := hv y hy; exact ⟨b, by rw [find_findLD]; exact b1, b2⟩)
  have ex : x' = x := by
    have := d3 ρ hρ x ((c3 ρ hρ).2 x hx)
    rw [s1] at this
    exact Option.some.inj this
  subst ex
  refine ⟨rfl, a, z, ?_, a2, a3⟩
  rw [dispatch_other hl.1]
  refine then_ok ?_
  rw [cmdOther_expr hl.2]
  unfold cmdNormalize parseNormal Node.ofText
  rw [lift_bind, hp, Res.bind_ok, c1, Res.bind_ok, c2]
  simp only
  unfold printResult
  rw [lift_bind, d1]
  simp only
  rw [lift_bind, ht]
  simp only
  rw [bind_def]
  simp only [Cmd.print]
  rw [lift_bind, hi]
  simp only [Bool.false_eq_true, if_false]
  rw [bind_def]
  simp only [Cmd.get]
  rw [lift_bind, a1]
  simp only [Cmd.print, List.append_assoc, List.nil_append]

/-- the session with the rounded real numbers. -/
noncomputable def cenvR : CEnv where
  f := fenv64
  dec := dec64
  flt := ieee
  stold _ := .ok (some (0 : ℝ))
  showLD _ := []
  version := []

/-- `x/y+1/2`. -/
def ratioExpr : Parser.Expr := .node '+' (.node '/' (.leaf (.sym ['x'])) (.leaf (.sym ['y'])))
  (.node '/' (.leaf (.num ⟨1, 1⟩)) (.leaf (.num ⟨2, 1⟩)))
/-- the tree the parser builds. -/
def ratioTree : Node := .op '+' (.op '/' (ls ['x']) (ls ['y'])) (.op '/' (lf 1) (lf 2))
theorem ratio_run : Parser.parse fenv64.M dec64 "x/y+1/2".toList = .ok ratioExpr ∧
    Node.ofExpr (fenv64.checked (2 ^ 53)) ratioExpr = .ok ratioTree ∧
    Node.normalize (fenv64.checked (2 ^ 53)) ratioTree = .ok (.frac ratio) ∧
    Node.normalize (fenv64.checked (2 ^ 53)) (.frac ratio) = .ok (.frac ratio) ∧
    Node.toStr fenv64.toEnv (.frac ratio) = .ok "(y+2x)/2y".toList ∧ isInteger cenv64 (.frac ratio) = .ok false := by decide +kernel
theorem ratio_isExpr : IsExpr (E := cenvR) ⟨[], vR⟩ "x/y+1/2".toList := ⟨by decide +kernel, fun _ _ _ => rfl⟩
theorem ratio_sem : exprSem rxy ratioExpr = some (4 / 3) := by
  simp only [ratioExpr, exprSem, rxy_x, rxy_y, Option.bind_some]
  rw [opSem_div' (by norm_num), if_neg (by norm_num), if_neg (by norm_num), Option.bind_some, Option.bind_some, Option.bind_some,
    opSem_div' (by norm_num [Rational.val]), Option.bind_some, opSem, if_pos rfl]
  norm_num [Rational.val]

/-- the line `x/y+1/2` at `x = 5/2`, `y = 3` prints a number that is off by at most `2^-41`. -/
theorem C86_example : ∃ a z, dispatch cenvR "x/y+1/2".toList ⟨[], vR⟩ =
    (.ok false, ⟨[], vR⟩, "(y+2x)/2y".toList ++ " = ".toList ++ cenvR.showLD a ++ ['\n']) ∧ semR.ld a = some z ∧
    |z - 4 / 3| ≤ 1 / 2 ^ 41 := by
  obtain ⟨E, h1, h2⟩ := ratio_error
  obtain ⟨-, a, z, a1, a2, a3⟩ := C86_line (E := cenvR) fenv64_good.toBase fenv64_sort semR_accurate ratio_isExpr ratio_run.1
    (by simp [ratioExpr, Parser.Expr.DenOk]) ratio_run.2.1 ratio_run.2.2.1 ratio_run.2.2.2.1 ratio_run.2.2.2.2.1 ratio_run.2.2.2.2.2
    (ρ := rxy) (fun x => by unfold rxy; split <;> norm_num) ratio_sem h1
    (fun y hy => by
      have : y = ['y'] ∨ y = ['x'] ∨ y = ['y'] := by simpa [ratio, Node.names, Frac.names, Poly.names, Term.names, mono] using hy
      rcases this with rfl | rfl | rfl
      · exact ⟨_, rfl, by rw [rxy_y]; rfl⟩
      · exact ⟨_, rfl, by rw [rxy_x]; rfl⟩
      · exact ⟨_, rfl, by rw [rxy_y]; rfl⟩)
  refine ⟨a, z, a1, a2, le_trans a3 (le_trans h2 ?_)⟩
  have e : (1 : ℝ) / 2 ^ 1022 ≤ 1 / 2 ^ 50 :=
    one_div_le_one_div_of_le (by positivity) (pow_le_pow_right₀ (by norm_num) (by norm_num))
  rw [abs_of_pos (by norm_num)]
  norm_num at e ⊢
  linarith

end Symxx.Cli
