import Verif.Frac.IntTop
import Verif.Frac.Solve
/-!
# C43-C50: terms, polynomials, fractions

A run of an operation is *exact* when it also succeeds in `env.checked B`: no machine integer overflows, no
floating-point power is rounded, and every call of `factorize` (on a number up to `B`, at most `2^53`) returned the prime
factors. `env.Base B` assumes nothing about `factorize` (`env.Good B` also assumes that it is right up to `B`). Every theorem says that the actual
operation (in `env`) then returns the same thing and that the result denotes the right function. `ρ` ranges over all
assignments of positive reals to symbols. For integer polynomials (`Poly.IntLe D`: integer coefficients, integer
exponents of magnitude at most `D`) the `_int` theorems need no such hypothesis: they give explicit bounds under which
the operation returns. `env.sort` is any function that permutes its argument: the unspecified order that `std::sort`
gives to equivalent terms is covered.
-/
namespace Symxx.Sym
open Symxx.Num Nat

variable {env : FEnv} {B : Nat}

/-! ### C43 -/

theorem C43_mul (hg : env.toEnv.Base B) {a b t : Term} (ha : a.WF) (hb : b.WF)
    (h : Term.mul (env.toEnv.checked B) a b = .ok t) :
    Term.mul env.toEnv a b = .ok t ∧ t.WF ∧ ∀ ρ, (∀ x, 0 < ρ x) → t.value ρ = a.value ρ * b.value ρ :=
  ⟨Term.mul_mono (Env.checked_le _ B) a b t h, (Term.mul_sound (ρ := fun _ => 1) hg (fun _ => one_pos) ha hb h).1,
    fun ρ hρ => (Term.mul_sound (ρ := ρ) hg hρ ha hb h).2.1⟩

/-- the coefficient must be positive unless the exponent is an integer. -/
theorem C43_pow (hg : env.toEnv.Base B) {a t : Term} {q : Rational} (ha : a.WF) (hq : q.den ≠ 0)
    (hpos : 0 < a.coe.val ∨ (q.Lowest ∧ ∃ k : Int, q.val = k))
    (h : Term.pow (env.toEnv.checked B) a q = .ok t) :
    Term.pow env.toEnv a q = .ok t ∧ t.WF ∧
      ∀ ρ, (∀ x, 0 < ρ x) → t.value ρ = a.value ρ ^ ((q.val : ℚ) : ℝ) :=
  ⟨Term.pow_mono (Env.checked_le _ B) a q t h, (Term.pow_sound (ρ := fun _ => 1) hg (fun _ => one_pos) ha hq hpos h).1,
    fun ρ hρ => (Term.pow_sound (ρ := ρ) hg hρ ha hq hpos h).2⟩

/-- integer terms: the product returns whenever the sums of exponents and the products of coefficients fit. -/
theorem C43_mul_int (hg : env.toEnv.Good B) (hB : 1 ≤ B) {D1 D2 : Int} {a b : Term} (ha : a.IntLe D1) (hb : b.IntLe D2)
    (h1 : 0 ≤ D1) (h2 : 0 ≤ D2) (hD : D1 + D2 ≤ env.M) (ka : |a.coe.coe.num| ≤ env.M) (kb : |b.coe.coe.num| ≤ env.M)
    (kab : |a.coe.coe.num * b.coe.coe.num| ≤ env.M) :
    ∃ t, Term.mul env.toEnv a b = .ok t ∧ t.IntLe (D1 + D2) ∧
      ∀ ρ, (∀ x, 0 < ρ x) → t.value ρ = a.value ρ * b.value ρ := by
  obtain ⟨t, t1, t2, -⟩ := Term.mul_int (hg.powOk_checked hB).toIntOk ha hb h1 h2 hD ka kb kab
  obtain ⟨c1, -, c3⟩ := C43_mul hg.toBase ha.wf hb.wf t1
  exact ⟨t, c1, t2, c3⟩

/-- integer terms: the power returns whenever the exponents fit and the power of the coefficient is at most `2^53`. -/
theorem C43_pow_int (hg : env.toEnv.Good B) (hB : 1 ≤ B) {D : Int} {a : Term} {n : Nat} (ha : a.IntLe D) (hD0 : 0 ≤ D)
    (hD : D ≤ env.M) (hDn : D * n ≤ env.M) (hn : (n : Int) ≤ 2 ^ 53) (hk : |a.coe.coe.num| ≤ env.M)
    (hkn : |a.coe.coe.num ^ n| ≤ 2 ^ 53) :
    ∃ t, Term.pow env.toEnv a ⟨n, 1⟩ = .ok t ∧ t.IntLe (D * n) ∧
      ∀ ρ, (∀ x, 0 < ρ x) → t.value ρ = a.value ρ ^ n := by
  obtain ⟨t, t1, t2, -⟩ := Term.pow_int (hg.powOk_checked hB) ha hD0 hD hDn hn hk hkn
  obtain ⟨c1, -, c3⟩ := C43_pow hg.toBase ha.wf (by norm_num) (Or.inr (Rational.intLow_of_den rfl)) t1
  refine ⟨t, c1, t2, fun ρ hρ => ?_⟩
  rw [c3 ρ hρ, Rational.val_int]
  simp

/-- `x^(1/2) * 4/9 x^3` and `(4/9 x^3)^(1/2) = 2/3 x^(3/2)`. -/
theorem term_examples :
    Term.mul (fenv64.toEnv.checked (2 ^ 53)) ⟨re 1 1, [(['x'], ⟨1, 2⟩)]⟩ (mono 4 9 ['x'] 3) =
      .ok ⟨re 4 9, [(['x'], ⟨7, 2⟩)]⟩ ∧
    Term.pow (fenv64.toEnv.checked (2 ^ 53)) (mono 4 9 ['x'] 3) ⟨1, 2⟩ = .ok ⟨re 2 3, [(['x'], ⟨3, 2⟩)]⟩ := by
  decide +kernel

example : ∀ ρ : List Char → ℝ, (∀ x, 0 < ρ x) →
    Term.value ρ ⟨re 2 3, [(['x'], ⟨3, 2⟩)]⟩ = (mono 4 9 ['x'] 3).value ρ ^ (((Rational.mk 1 2).val : ℚ) : ℝ) :=
  (C43_pow fenv64_good.toBase (mono_wf 4 9 (by norm_num) _ _) (by norm_num) (Or.inl (by
    simp [mono, re, Num.Real.val, Rational.val]))
    term_examples.2).2.2
example : ∀ ρ : List Char → ℝ, (∀ x, 0 < ρ x) → Term.value ρ ⟨re 4 9, [(['x'], ⟨7, 2⟩)]⟩ =
    Term.value ρ ⟨re 1 1, [(['x'], ⟨1, 2⟩)]⟩ * (mono 4 9 ['x'] 3).value ρ :=
  (C43_mul fenv64_good.toBase ⟨re_valid 1 1 (by norm_num), Syms.wf_cons.2 ⟨by simp, by norm_num, Syms.wf_nil⟩⟩
    (mono_wf 4 9 (by norm_num) _ _) term_examples.1).2.2

theorem mono_intLe (n : Int) (x : List Char) (k : Int) : (mono n 1 x k).IntLe |k| :=
  ⟨rfl, Syms.intLe_cons.2 ⟨⟨rfl, le_rfl⟩, by intro p hp; simp at hp⟩, (mono_wf n 1 (by norm_num) x k).syms⟩

example : ∃ t, Term.pow fenv64.toEnv (mono (-3) 1 ['x'] 2) ⟨(5 : Nat), 1⟩ = .ok t ∧ t.IntLe (2 * (5 : Nat)) ∧
    ∀ ρ, (∀ x, 0 < ρ x) → t.value ρ = (mono (-3) 1 ['x'] 2).value ρ ^ 5 :=
  C43_pow_int fenv64_good (by norm_num) (mono_intLe _ _ _) (by norm_num) (by decide) (by decide) (by norm_num) (by decide)
    (by decide)
example : ∃ t, Term.mul fenv64.toEnv (mono (-3) 1 ['x'] 2) (mono 7 1 ['y'] (-1)) = .ok t ∧ t.IntLe (2 + 1) ∧
    ∀ ρ, (∀ x, 0 < ρ x) → t.value ρ = (mono (-3) 1 ['x'] 2).value ρ * (mono 7 1 ['y'] (-1)).value ρ :=
  C43_mul_int fenv64_good (by norm_num) (mono_intLe _ _ _) (mono_intLe _ _ _) (by norm_num) (by norm_num) (by decide) (by decide)
    (by decide) (by decide)

/-! ### C44, C45 -/

theorem C45_normalize (hg : env.toEnv.Base B) (hs : SortOk env.sort) {p r : Poly} (hp : p.WF)
    (h : Poly.normalize (env.checked B) p = .ok r) :
    Poly.normalize env p = .ok r ∧ r.WF ∧ ∀ ρ, Poly.value ρ r = Poly.value ρ p :=
  ⟨Poly.normalize_mono (FEnv.checked_le _ B) p r h, (Poly.normalize_sound hg hs hp h).1, (Poly.normalize_sound hg hs hp h).2.1⟩

theorem C44_add (hg : env.toEnv.Base B) (hs : SortOk env.sort) {p q r : Poly} (hp : p.WF) (hq : q.WF)
    (h : Poly.add (env.checked B) p q = .ok r) : Poly.add env p q = .ok r ∧ r.WF ∧
      ∀ ρ, (∀ x, 0 < ρ x) → Poly.value ρ r = Poly.value ρ p + Poly.value ρ q :=
  ⟨Poly.add_mono (FEnv.checked_le _ B) p q r h, (Poly.add_sound hg hs hp hq h).wf, (Poly.add_sound hg hs hp hq h).value⟩

theorem C44_add_assign (hg : env.toEnv.Base B) (hs : SortOk env.sort) {p q r : Poly} (hp : p.WF) (hq : q.WF)
    (h : Poly.addAssign (env.checked B) p q = .ok r) : Poly.addAssign env p q = .ok r ∧ r.WF ∧
      ∀ ρ, (∀ x, 0 < ρ x) → Poly.value ρ r = Poly.value ρ p + Poly.value ρ q :=
  ⟨Poly.addAssign_mono (FEnv.checked_le _ B) p q r h, (Poly.addAssign_sound hg hs hp hq h).wf,
    (Poly.addAssign_sound hg hs hp hq h).value⟩

theorem C44_sub (hg : env.toEnv.Base B) (hs : SortOk env.sort) {p q r : Poly} (hp : p.WF) (hq : q.WF)
    (h : Poly.sub (env.checked B) p q = .ok r) : Poly.sub env p q = .ok r ∧ r.WF ∧
      ∀ ρ, (∀ x, 0 < ρ x) → Poly.value ρ r = Poly.value ρ p - Poly.value ρ q :=
  ⟨Poly.sub_mono (FEnv.checked_le _ B) p q r h, (Poly.sub_sound hg hs hp hq h).wf, (Poly.sub_sound hg hs hp hq h).value⟩

theorem C44_sub_assign (hg : env.toEnv.Base B) (hs : SortOk env.sort) {p q r : Poly} (hp : p.WF) (hq : q.WF)
    (h : Poly.subAssign (env.checked B) p q = .ok r) : Poly.subAssign env p q = .ok r ∧ r.WF ∧
      ∀ ρ, (∀ x, 0 < ρ x) → Poly.value ρ r = Poly.value ρ p - Poly.value ρ q :=
  ⟨Poly.subAssign_mono (FEnv.checked_le _ B) p q r h, (Poly.subAssign_sound hg hs hp hq h).wf,
    (Poly.subAssign_sound hg hs hp hq h).value⟩

theorem C44_mul (hg : env.toEnv.Base B) (hs : SortOk env.sort) {p q r : Poly} (hp : p.WF) (hq : q.WF)
    (h : Poly.mul (env.checked B) p q = .ok r) : Poly.mul env p q = .ok r ∧ r.WF ∧
      ∀ ρ, (∀ x, 0 < ρ x) → Poly.value ρ r = Poly.value ρ p * Poly.value ρ q :=
  ⟨Poly.mul_mono (FEnv.checked_le _ B) p q r h, (Poly.mul_sound hg hs hp hq h).wf, (Poly.mul_sound hg hs hp hq h).value⟩

theorem C44_mul_assign (hg : env.toEnv.Base B) (hs : SortOk env.sort) {p q r : Poly} (hp : p.WF) (hq : q.WF)
    (h : Poly.mulAssign (env.checked B) p q = .ok r) : Poly.mulAssign env p q = .ok r ∧ r.WF ∧
      ∀ ρ, (∀ x, 0 < ρ x) → Poly.value ρ r = Poly.value ρ p * Poly.value ρ q :=
  ⟨Poly.mulAssign_mono (FEnv.checked_le _ B) p q r h, (Poly.mulAssign_sound hg hs hp hq h).wf,
    (Poly.mulAssign_sound hg hs hp hq h).value⟩

theorem C44_negate (hg : env.toEnv.Base B) {p r : Poly} (hp : p.WF) (h : Poly.negate (env.toEnv.checked B) p = .ok r) :
    Poly.negate env.toEnv p = .ok r ∧ r.WF ∧ ∀ ρ, Poly.value ρ r = - Poly.value ρ p :=
  ⟨Poly.negate_mono (Env.checked_le _ B) p r h, (Poly.negate_sound hg hp h).1, (Poly.negate_sound hg hp h).2.1⟩

/-- division by a number. -/
theorem C44_div_real (hg : env.toEnv.Base B) (hs : SortOk env.sort) {p r : Poly} {c : Num.Real} (hp : p.WF) (hc : c.Valid)
    (h : Poly.divReal (env.checked B) p c = .ok r) : Poly.divReal env p c = .ok r ∧ r.WF ∧
      ∀ ρ, (∀ x, 0 < ρ x) → Poly.value ρ r = Poly.value ρ p / c.val :=
  ⟨Poly.divReal_mono (FEnv.checked_le _ B) p c r h, (Poly.divReal_sound hg hs hp hc h).1.wf,
    (Poly.divReal_sound hg hs hp hc h).1.value⟩

/-- integer polynomials: sums return whenever the sum of the absolute values of all coefficients fits `T`. -/
theorem C44_add_int (hg : env.toEnv.Good B) (hB : 1 ≤ B) (hs : SortOk env.sort) (ht : Poly.SortTotal env) {D : Int}
    (hD : D ≤ env.M) {p q : Poly} (hp : p.IntLe D) (hq : q.IntLe D) (hl : p.l1 + q.l1 ≤ env.M) :
    ∃ r, Poly.add env p q = .ok r ∧ r.IntLe D ∧ r.l1 ≤ p.l1 + q.l1 ∧
      ∀ ρ, (∀ x, 0 < ρ x) → Poly.value ρ r = Poly.value ρ p + Poly.value ρ q := by
  obtain ⟨r, r1, r2, r3⟩ := Poly.add_int (env := env.checked B) (hg.powOk_checked hB).toIntOk hs ht hD hp hq hl
  obtain ⟨c1, -, c3⟩ := C44_add hg.toBase hs hp.wf hq.wf r1
  exact ⟨r, c1, r2, r3, c3⟩

theorem C44_sub_int (hg : env.toEnv.Good B) (hB : 1 ≤ B) (hs : SortOk env.sort) (ht : Poly.SortTotal env) {D : Int}
    (hD : D ≤ env.M) {p q : Poly} (hp : p.IntLe D) (hq : q.IntLe D) (hl : p.l1 + q.l1 ≤ env.M) :
    ∃ r, Poly.sub env p q = .ok r ∧ r.IntLe D ∧ r.l1 ≤ p.l1 + q.l1 ∧
      ∀ ρ, (∀ x, 0 < ρ x) → Poly.value ρ r = Poly.value ρ p - Poly.value ρ q := by
  obtain ⟨r, r1, r2, r3⟩ := Poly.sub_int (env := env.checked B) (hg.powOk_checked hB).toIntOk hs ht hD hp hq hl
  obtain ⟨c1, -, c3⟩ := C44_sub hg.toBase hs hp.wf hq.wf r1
  exact ⟨r, c1, r2, r3, c3⟩

theorem C44_mul_int (hg : env.toEnv.Good B) (hB : 1 ≤ B) (hs : SortOk env.sort) (ht : Poly.SortTotal env) {D1 D2 : Int}
    (h1 : 0 ≤ D1) (h2 : 0 ≤ D2) (hD : D1 + D2 ≤ env.M) {p q : Poly} (hp : p.IntLe D1) (hq : q.IntLe D2)
    (kp : p.l1 ≤ env.M) (kq : q.l1 ≤ env.M) (hl : p.l1 * q.l1 ≤ env.M) :
    ∃ r, Poly.mul env p q = .ok r ∧ r.IntLe (D1 + D2) ∧ r.l1 ≤ p.l1 * q.l1 ∧
      ∀ ρ, (∀ x, 0 < ρ x) → Poly.value ρ r = Poly.value ρ p * Poly.value ρ q := by
  obtain ⟨r, r1, r2, r3⟩ := Poly.mul_int (env := env.checked B) (hg.powOk_checked hB).toIntOk hs ht h1 h2 hD hp hq kp kq hl
  obtain ⟨c1, -, c3⟩ := C44_mul hg.toBase hs hp.wf hq.wf r1
  exact ⟨r, c1, r2, r3, c3⟩

theorem C45_normalize_int (hg : env.toEnv.Good B) (hB : 1 ≤ B) (hs : SortOk env.sort) (ht : Poly.SortTotal env) {D : Int}
    (hD : D ≤ env.M) {p : Poly} (hp : p.IntLe D) (hl : p.l1 ≤ env.M) :
    ∃ r, Poly.normalize env p = .ok r ∧ r.IntLe D ∧ r.l1 ≤ p.l1 ∧ ∀ ρ, Poly.value ρ r = Poly.value ρ p := by
  obtain ⟨r, r1, r2, r3⟩ := Poly.normalize_int (env := env.checked B) (hg.powOk_checked hB).toIntOk hs ht hD hp hl
  obtain ⟨c1, -, c3⟩ := C45_normalize hg.toBase hs hp.wf r1
  exact ⟨r, c1, r2, r3, c3⟩

/-- evaluation of a polynomial without symbols. -/
theorem C44_eval (hg : env.toEnv.Base B) {p : Poly} (hp : p.WF) {s : Num.Real}
    (h : Poly.eval (env.toEnv.checked B) p = .ok s) :
    Poly.eval env.toEnv p = .ok s ∧ ∀ ρ, s.val = Poly.value ρ p :=
  ⟨Poly.eval_mono (Env.checked_le _ B) p s h, (Poly.eval_sound hg hp h).2⟩

theorem C44_try_eval (hg : env.toEnv.Base B) {p : Poly} (hp : p.WF) {s : Num.Real}
    (h : Poly.tryEval (env.toEnv.checked B) p = .ok (some s)) :
    Poly.tryEval env.toEnv p = .ok (some s) ∧ ∀ ρ, s.val = Poly.value ρ p :=
  ⟨Poly.tryEval_mono (Env.checked_le _ B) p (some s) h, (Poly.tryEval_sound hg hp h).2⟩

/-- `try_eval` starts from 0, to which the square root of 2 cannot be added: the constant √2 is not evaluated. -/
theorem try_eval_root_fails : Poly.tryEval fenv64.toEnv [⟨root2, []⟩] = .ok none := by decide +kernel

/-- `1/2 x + √2`, `1/3 x + √2`: sum and product; `x^2 + 2 - (x^2 + 2)` keeps a zero term. -/
theorem poly_examples :
    Poly.add (fenv64.checked (2 ^ 53)) [mono 1 2 ['x'] 1, ⟨root2, []⟩] [mono 1 3 ['x'] 1, ⟨root2, []⟩] =
      .ok [mono 5 6 ['x'] 1, ⟨⟨2, ⟨2, 1⟩, ⟨2, 1⟩⟩, []⟩] ∧
    Poly.mul (fenv64.checked (2 ^ 53)) [X, ⟨root2, []⟩] [X, ⟨root2, []⟩] =
      .ok [mono 1 1 ['x'] 2, ⟨⟨2, ⟨2, 1⟩, ⟨2, 1⟩⟩, [(['x'], ⟨1, 1⟩)]⟩, cst 2] ∧
    Poly.sub (fenv64.checked (2 ^ 53)) [X, Y, cst 1] [X, cst 3] = .ok [Y, mono 0 1 ['x'] 1, cst (-2)] ∧
    Poly.negate (fenv64.toEnv.checked (2 ^ 53)) [X, cst 3] = .ok [mono (-1) 1 ['x'] 1, cst (-3)] ∧
    Poly.normalize (fenv64.checked (2 ^ 53)) [cst 1, Y, X, Y] = .ok [mono 2 1 ['y'] 1, X, cst 1] ∧
    Poly.divReal (fenv64.checked (2 ^ 53)) [mono 4 1 ['x'] 1, cst 6] root2 =
      .ok [⟨⟨2, ⟨2, 1⟩, ⟨2, 1⟩⟩, [(['x'], ⟨1, 1⟩)]⟩, ⟨⟨2, ⟨2, 1⟩, ⟨3, 1⟩⟩, []⟩] := by decide +kernel

theorem root_wf : Term.WF ⟨root2, []⟩ := ⟨root2_valid, Syms.wf_nil⟩

example : ∀ ρ, (∀ x, 0 < ρ x) → Poly.value ρ [mono 5 6 ['x'] 1, ⟨⟨2, ⟨2, 1⟩, ⟨2, 1⟩⟩, []⟩] =
    Poly.value ρ [mono 1 2 ['x'] 1, ⟨root2, []⟩] + Poly.value ρ [mono 1 3 ['x'] 1, ⟨root2, []⟩] :=
  (C44_add fenv64_good.toBase fenv64_sort (wf2 (mono_wf _ _ (by norm_num) _ _) root_wf) (wf2 (mono_wf _ _ (by norm_num) _ _) root_wf)
    poly_examples.1).2.2
example : ∀ ρ, (∀ x, 0 < ρ x) → Poly.value ρ [mono 1 1 ['x'] 2, ⟨⟨2, ⟨2, 1⟩, ⟨2, 1⟩⟩, [(['x'], ⟨1, 1⟩)]⟩, cst 2] =
    Poly.value ρ [X, ⟨root2, []⟩] * Poly.value ρ [X, ⟨root2, []⟩] :=
  (C44_mul fenv64_good.toBase fenv64_sort (wf2 X_wf root_wf) (wf2 X_wf root_wf) poly_examples.2.1).2.2
example : ∀ ρ, (∀ x, 0 < ρ x) → Poly.value ρ [Y, mono 0 1 ['x'] 1, cst (-2)] =
    Poly.value ρ [X, Y, cst 1] - Poly.value ρ [X, cst 3] :=
  (C44_sub fenv64_good.toBase fenv64_sort (wf3 X_wf Y_wf (cst_wf _)) (wf2 X_wf (cst_wf _)) poly_examples.2.2.1).2.2
example : ∀ ρ, Poly.value ρ [mono (-1) 1 ['x'] 1, cst (-3)] = - Poly.value ρ [X, cst 3] :=
  (C44_negate fenv64_good.toBase (wf2 X_wf (cst_wf _)) poly_examples.2.2.2.1).2.2
example : ∀ ρ, Poly.value ρ [mono 2 1 ['y'] 1, X, cst 1] = Poly.value ρ [cst 1, Y, X, Y] :=
  (C45_normalize fenv64_good.toBase fenv64_sort (Poly.wf_cons.2 ⟨cst_wf _, wf3 Y_wf X_wf Y_wf⟩) poly_examples.2.2.2.2.1).2.2
example : ∀ ρ, (∀ x, 0 < ρ x) →
    Poly.value ρ [⟨⟨2, ⟨2, 1⟩, ⟨2, 1⟩⟩, [(['x'], ⟨1, 1⟩)]⟩, ⟨⟨2, ⟨2, 1⟩, ⟨3, 1⟩⟩, []⟩] =
    Poly.value ρ [mono 4 1 ['x'] 1, cst 6] / root2.val :=
  (C44_div_real fenv64_good.toBase fenv64_sort (wf2 (mono_wf _ _ (by norm_num) _ _) (cst_wf _)) root2_valid poly_examples.2.2.2.2.2).2.2

theorem assign_examples :
    Poly.addAssign (fenv64.checked (2 ^ 53)) [X, cst 1] [X, cst (-1)] = .ok [mono 2 1 ['x'] 1, cst 0] ∧
    Poly.subAssign (fenv64.checked (2 ^ 53)) [X, cst 1] [Y, cst (-1)] = .ok [mono (-1) 1 ['y'] 1, X, cst 2] ∧
    Poly.mulAssign (fenv64.checked (2 ^ 53)) [X, cst 1] [X, cst (-1)] = .ok [mono 1 1 ['x'] 2, mono 0 1 ['x'] 1, cst (-1)] ∧
    Poly.eval (fenv64.toEnv.checked (2 ^ 53)) [cst 4, cst (-9)] = .ok (re (-5) 1) ∧
    Poly.tryEval (fenv64.toEnv.checked (2 ^ 53)) [cst 4, cst (-9)] = .ok (some (re (-5) 1)) := by decide +kernel

example : ∀ ρ, (∀ x, 0 < ρ x) → Poly.value ρ [mono 2 1 ['x'] 1, cst 0] =
    Poly.value ρ [X, cst 1] + Poly.value ρ [X, cst (-1)] :=
  (C44_add_assign fenv64_good.toBase fenv64_sort (wf2 X_wf (cst_wf _)) (wf2 X_wf (cst_wf _)) assign_examples.1).2.2
example : ∀ ρ, (∀ x, 0 < ρ x) → Poly.value ρ [mono (-1) 1 ['y'] 1, X, cst 2] =
    Poly.value ρ [X, cst 1] - Poly.value ρ [Y, cst (-1)] :=
  (C44_sub_assign fenv64_good.toBase fenv64_sort (wf2 X_wf (cst_wf _)) (wf2 Y_wf (cst_wf _)) assign_examples.2.1).2.2
example : ∀ ρ, (∀ x, 0 < ρ x) → Poly.value ρ [mono 1 1 ['x'] 2, mono 0 1 ['x'] 1, cst (-1)] =
    Poly.value ρ [X, cst 1] * Poly.value ρ [X, cst (-1)] :=
  (C44_mul_assign fenv64_good.toBase fenv64_sort (wf2 X_wf (cst_wf _)) (wf2 X_wf (cst_wf _)) assign_examples.2.2.1).2.2
example : ∀ ρ, (re (-5) 1).val = Poly.value ρ [cst 4, cst (-9)] :=
  (C44_eval fenv64_good.toBase (wf2 (cst_wf _) (cst_wf _)) assign_examples.2.2.2.1).2
example : ∀ ρ, (re (-5) 1).val = Poly.value ρ [cst 4, cst (-9)] :=
  (C44_try_eval fenv64_good.toBase (wf2 (cst_wf _) (cst_wf _)) assign_examples.2.2.2.2).2

theorem cst_intLe (D n : Int) : (cst n).IntLe D := Term.intLe_ofInt D n
theorem int2 {D : Int} {a b : Term} (ha : a.IntLe D) (hb : b.IntLe D) : Poly.IntLe D [a, b] :=
  Poly.intLe_cons.2 ⟨ha, Poly.intLe_cons.2 ⟨hb, Poly.intLe_nil D⟩⟩

example : ∃ r, Poly.add fenv64 [mono 3 1 ['x'] 1, cst 1] [mono (-3) 1 ['x'] 1, cst 5] = .ok r ∧ Poly.IntLe 1 r ∧
    Poly.l1 r ≤ 4 + 8 ∧ ∀ ρ, (∀ x, 0 < ρ x) →
      Poly.value ρ r = Poly.value ρ [mono 3 1 ['x'] 1, cst 1] + Poly.value ρ [mono (-3) 1 ['x'] 1, cst 5] :=
  C44_add_int fenv64_good (by norm_num) fenv64_sort fenv64_total (by decide) (int2 (mono_intLe _ _ _) (cst_intLe _ _))
    (int2 (mono_intLe _ _ _) (cst_intLe _ _)) (by decide)
example : ∃ r, Poly.sub fenv64 [mono 3 1 ['x'] 1, cst 1] [mono (-3) 1 ['x'] 1, cst 5] = .ok r ∧ Poly.IntLe 1 r ∧
    Poly.l1 r ≤ 4 + 8 ∧ ∀ ρ, (∀ x, 0 < ρ x) →
      Poly.value ρ r = Poly.value ρ [mono 3 1 ['x'] 1, cst 1] - Poly.value ρ [mono (-3) 1 ['x'] 1, cst 5] :=
  C44_sub_int fenv64_good (by norm_num) fenv64_sort fenv64_total (by decide) (int2 (mono_intLe _ _ _) (cst_intLe _ _))
    (int2 (mono_intLe _ _ _) (cst_intLe _ _)) (by decide)
example : ∃ r, Poly.mul fenv64 [mono 3 1 ['x'] 1, cst 1] [mono (-3) 1 ['x'] 1, cst 5] = .ok r ∧ Poly.IntLe (1 + 1) r ∧
    Poly.l1 r ≤ 4 * 8 ∧ ∀ ρ, (∀ x, 0 < ρ x) →
      Poly.value ρ r = Poly.value ρ [mono 3 1 ['x'] 1, cst 1] * Poly.value ρ [mono (-3) 1 ['x'] 1, cst 5] :=
  C44_mul_int fenv64_good (by norm_num) fenv64_sort fenv64_total (by decide) (by decide) (by decide)
    (int2 (mono_intLe _ _ _) (cst_intLe _ _)) (int2 (mono_intLe _ _ _) (cst_intLe _ _)) (by decide) (by decide) (by decide)
example : ∃ r, Poly.normalize fenv64 [mono 3 1 ['x'] 1, mono (-3) 1 ['x'] 1] = .ok r ∧ Poly.IntLe 1 r ∧
    Poly.l1 r ≤ 6 ∧ ∀ ρ, Poly.value ρ r = Poly.value ρ [mono 3 1 ['x'] 1, mono (-3) 1 ['x'] 1] :=
  C45_normalize_int fenv64_good (by norm_num) fenv64_sort fenv64_total (by decide)
    (int2 (mono_intLe _ _ _) (mono_intLe _ _ _)) (by decide)

/-! ### C46 -/

/-- `solve_variable_eq(n, m)` lists exactly the `m`-tuples of natural numbers with sum `n`, once each. -/
theorem C46_compositions (m : Nat) (n : Int) (hn : 0 ≤ n) (hm : 2 ≤ m) :
    ∃ l, solveEq m n = .ok l ∧ l.Nodup ∧ ∀ v, v ∈ l ↔ v.length = m ∧ (∀ x ∈ v, 0 ≤ x) ∧ v.sum = n :=
  solveEq_spec m n hn hm

example : solveEq 3 2 = .ok [[0, 0, 2], [0, 1, 1], [0, 2, 0], [1, 0, 1], [1, 1, 0], [2, 0, 0]] := by decide

/-! ### C47 -/

/-- natural powers of polynomials (in an exact run `n!` fits `T`). -/
theorem C47_pow (hg : env.toEnv.Base B) (hs : SortOk env.sort) {p r : Poly} {n : Nat} (hp : p.WF)
    (h : Poly.pow (env.checked B) p ⟨n, 1⟩ = .ok r) : Poly.pow env p ⟨n, 1⟩ = .ok r ∧ r.WF ∧
      ∀ ρ, (∀ x, 0 < ρ x) → Poly.value ρ r = Poly.value ρ p ^ n := by
  have := Poly.pow_int_sound (k := n) hg hs hp (by norm_num) (Rational.intLow_of_den rfl).1 (Rational.val_int _) h
    (Or.inr (by positivity))
  exact ⟨Poly.pow_mono (FEnv.checked_le _ B) p _ r h, this.wf, fun ρ hρ => by rw [this.value ρ hρ, zpow_natCast]⟩

/-- integer polynomials: the power returns whenever `n! * L^n ≤ 2^53`, `L` the sum of the absolute values of the
coefficients (at least 1). -/
theorem C47_pow_int (hg : env.toEnv.Good B) (hB : 1 ≤ B) (hs : SortOk env.sort) (ht : Poly.SortTotal env) {D : Int}
    (hD0 : 0 ≤ D) {p : Poly} {n : Nat} (hp : p.IntLe D) (hD : D ≤ env.M) (hDn : D * n ≤ env.M) (hn : (n : Int) ≤ 2 ^ 53)
    (hl : p.l1 ≤ env.M) (hb : (n ! : Int) * (max 1 p.l1) ^ n ≤ 2 ^ 53) :
    ∃ r, Poly.pow env p ⟨n, 1⟩ = .ok r ∧ r.l1 ≤ max 1 (p.l1 ^ n) ∧
      ∀ ρ, (∀ x, 0 < ρ x) → Poly.value ρ r = Poly.value ρ p ^ n := by
  obtain ⟨r, r1, r2, r3⟩ := Poly.pow_int (env := env.checked B) (hg.powOk_checked hB) hs ht hD0 hp hD hDn hn hl hb
  obtain ⟨c1, -, c3⟩ := C47_pow hg.toBase hs hp.wf r1
  exact ⟨r, c1, r3, c3⟩

/-- a single term may be raised to any rational power. -/
theorem C47_pow_single (hg : env.toEnv.Base B) (hs : SortOk env.sort) {t : Term} {r : Poly} {q : Rational} (ht : t.WF)
    (hq : q.den ≠ 0) (hpos : 0 < t.coe.val ∨ (q.Lowest ∧ ∃ k : Int, q.val = k))
    (h : Poly.pow (env.checked B) [t] q = .ok r) : Poly.pow env [t] q = .ok r ∧ r.WF ∧
      ∀ ρ, (∀ x, 0 < ρ x) → Poly.value ρ r = t.value ρ ^ ((q.val : ℚ) : ℝ) :=
  have := Poly.pow_single_sound hg hs ht hq hpos h
  ⟨Poly.pow_mono (FEnv.checked_le _ B) _ _ r h, this.wf, this.value⟩

theorem pow_examples : Poly.pow (fenv64.checked (2 ^ 53)) [X, Y, cst 1] ⟨(2 : Nat), 1⟩ =
    .ok [mono 1 1 ['y'] 2, mono 2 1 ['y'] 1, mono 1 1 ['x'] 2, ⟨re 2 1, [(['x'], ⟨1, 1⟩), (['y'], ⟨1, 1⟩)]⟩,
      mono 2 1 ['x'] 1, cst 1] ∧
    Poly.pow (fenv64.checked (2 ^ 53)) [mono 4 1 ['x'] 2] ⟨-1, 2⟩ = .ok [mono 1 2 ['x'] (-1)] := by decide +kernel

example : ∀ ρ, (∀ x, 0 < ρ x) → Poly.value ρ [mono 1 1 ['y'] 2, mono 2 1 ['y'] 1, mono 1 1 ['x'] 2,
      ⟨re 2 1, [(['x'], ⟨1, 1⟩), (['y'], ⟨1, 1⟩)]⟩, mono 2 1 ['x'] 1, cst 1] = Poly.value ρ [X, Y, cst 1] ^ 2 :=
  (C47_pow fenv64_good.toBase fenv64_sort (wf3 X_wf Y_wf (cst_wf _)) pow_examples.1).2.2
example : ∀ ρ, (∀ x, 0 < ρ x) →
    Poly.value ρ [mono 1 2 ['x'] (-1)] = (mono 4 1 ['x'] 2).value ρ ^ (((Rational.mk (-1) 2).val : ℚ) : ℝ) :=
  (C47_pow_single fenv64_good.toBase fenv64_sort (mono_wf _ _ (by norm_num) _ _) (by norm_num)
    (Or.inl (by simp [mono, re, Num.Real.val, Rational.val])) pow_examples.2).2.2
example : ∃ r, Poly.pow fenv64 [X, cst (-1)] ⟨(13 : Nat), 1⟩ = .ok r ∧ Poly.l1 r ≤ max 1 (2 ^ 13) ∧
    ∀ ρ, (∀ x, 0 < ρ x) → Poly.value ρ r = Poly.value ρ [X, cst (-1)] ^ 13 :=
  C47_pow_int fenv64_good (by norm_num) fenv64_sort fenv64_total (by decide) (int2 (mono_intLe _ _ _) (cst_intLe _ _))
    (by decide) (by decide) (by norm_num) (by decide) (by decide)

/-- the bound on `n!` is needed: for 64-bit integers `21!` wraps around and the leading coefficient of `(x+1)^21` is
wrong. -/
theorem C47_factorial_wraps : ((Poly.pow fenv64 [X, cst 1] ⟨21, 1⟩).bind fun r => .ok (r.map (·.coe.coe))).bind
    (fun l => .ok l.head?) = .ok (some ⟨-5403251710789, 64965492466875⟩) := by decide +kernel

/-- a negative power of a polynomial with several terms is silently the empty polynomial, which denotes 0. -/
theorem C47_negative_fails : Poly.pow fenv64 [X, cst 1] ⟨-2, 1⟩ = .ok [] ∧
    Poly.value (fun _ => 1) [] ≠ Poly.value (fun _ => 1) [X, cst 1] ^ (-2 : Int) := by
  refine ⟨by decide +kernel, ?_⟩
  simp [Poly.value, Term.value, Syms.value, X, cst, mono, re, Num.Real.val, Rational.val]
  norm_num

/-! ### C48 -/

theorem C48_add_partial (hg : env.toEnv.Base B) (hs : SortOk env.sort) {a b r : Frac} (ha : a.WF) (hb : b.WF)
    (h : Frac.add (env.checked B) a b = .ok r) : Frac.add env a b = .ok r ∧ r.WF ∧ ∀ ρ, (∀ x, 0 < ρ x) →
      Poly.value ρ a.den ≠ 0 → Poly.value ρ b.den ≠ 0 →
      Poly.value ρ r.den ≠ 0 ∧ Frac.value ρ r = Frac.value ρ a + Frac.value ρ b :=
  ⟨Frac.add_mono (FEnv.checked_le _ B) a b r h, Frac.add_sound hg hs ha hb h⟩

theorem C48_sub_partial (hg : env.toEnv.Base B) (hs : SortOk env.sort) {a b r : Frac} (ha : a.WF) (hb : b.WF)
    (h : Frac.sub (env.checked B) a b = .ok r) : Frac.sub env a b = .ok r ∧ r.WF ∧ ∀ ρ, (∀ x, 0 < ρ x) →
      Poly.value ρ a.den ≠ 0 → Poly.value ρ b.den ≠ 0 →
      Poly.value ρ r.den ≠ 0 ∧ Frac.value ρ r = Frac.value ρ a - Frac.value ρ b :=
  ⟨Frac.sub_mono (FEnv.checked_le _ B) a b r h, Frac.sub_sound hg hs ha hb h⟩

theorem C48_sub_assign_partial (hg : env.toEnv.Base B) (hs : SortOk env.sort) {a b r : Frac} (ha : a.WF) (hb : b.WF)
    (h : Frac.subAssign (env.checked B) a b = .ok r) : Frac.subAssign env a b = .ok r ∧ r.WF ∧ ∀ ρ, (∀ x, 0 < ρ x) →
      Poly.value ρ a.den ≠ 0 → Poly.value ρ b.den ≠ 0 →
      Poly.value ρ r.den ≠ 0 ∧ Frac.value ρ r = Frac.value ρ a - Frac.value ρ b :=
  ⟨Frac.subAssign_mono (FEnv.checked_le _ B) a b r h, Frac.subAssign_sound hg hs ha hb h⟩

theorem C48_mul_partial (hg : env.toEnv.Base B) (hs : SortOk env.sort) {a b r : Frac} (ha : a.WF) (hb : b.WF)
    (h : Frac.mul (env.checked B) a b = .ok r) : Frac.mul env a b = .ok r ∧ r.WF ∧ ∀ ρ, (∀ x, 0 < ρ x) →
      (Poly.value ρ r.den = 0 ↔ Poly.value ρ a.den = 0 ∨ Poly.value ρ b.den = 0) ∧
      Frac.value ρ r = Frac.value ρ a * Frac.value ρ b :=
  ⟨Frac.mul_mono (FEnv.checked_le _ B) a b r h, Frac.mul_sound hg hs ha hb h⟩

theorem C48_div_partial (hg : env.toEnv.Base B) (hs : SortOk env.sort) {a b r : Frac} (ha : a.WF) (hb : b.WF)
    (h : Frac.div (env.checked B) a b = .ok r) : Frac.div env a b = .ok r ∧ r.WF ∧ ∀ ρ, (∀ x, 0 < ρ x) →
      (Poly.value ρ r.den = 0 ↔ Poly.value ρ a.den = 0 ∨ Poly.value ρ b.num = 0) ∧
      Frac.value ρ r = Frac.value ρ a / Frac.value ρ b :=
  ⟨Frac.div_mono (FEnv.checked_le _ B) a b r h, (Frac.div_sound hg hs ha hb h).1, (Frac.div_sound hg hs ha hb h).2.2⟩

theorem C48_negate_partial (hg : env.toEnv.Base B) (hs : SortOk env.sort) {a r : Frac} (ha : a.WF)
    (h : Frac.negate (env.checked B) a = .ok r) : Frac.negate env a = .ok r ∧ r.WF ∧ ∀ ρ, (∀ x, 0 < ρ x) →
      (Poly.value ρ r.den = 0 ↔ Poly.value ρ a.den = 0) ∧ Frac.value ρ r = - Frac.value ρ a :=
  ⟨Frac.negate_mono (FEnv.checked_le _ B) a r h, Frac.negate_sound hg hs ha h⟩

theorem C48_inverse_partial (hg : env.toEnv.Base B) (hs : SortOk env.sort) {a r : Frac} (ha : a.WF)
    (h : Frac.inverse (env.checked B) a = .ok r) : Frac.inverse env a = .ok r ∧ r.WF ∧ ∀ ρ, (∀ x, 0 < ρ x) →
      (Poly.value ρ r.den = 0 ↔ Poly.value ρ a.num = 0) ∧ Frac.value ρ r = (Frac.value ρ a)⁻¹ :=
  ⟨Frac.inverse_mono (FEnv.checked_le _ B) a r h, Frac.inverse_sound hg hs ha h⟩

theorem C48_pow_partial (hg : env.toEnv.Base B) (hs : SortOk env.sort) {a r : Frac} {k : Int} (ha : a.WF)
    (h : Frac.pow (env.checked B) a ⟨k, 1⟩ = .ok r) :
    Frac.pow env a ⟨k, 1⟩ = .ok r ∧ r.WF ∧ ∀ ρ, (∀ x, 0 < ρ x) → Frac.value ρ r = Frac.value ρ a ^ k ∧
      (Poly.value ρ a.den ≠ 0 → (0 ≤ k ∨ Poly.value ρ a.num ≠ 0) → Poly.value ρ r.den ≠ 0) :=
  ⟨Frac.pow_mono (FEnv.checked_le _ B) a _ r h,
    Frac.pow_int_sound hg hs ha (by norm_num) (Rational.intLow_of_den rfl).1 (Rational.val_int _) h⟩

/-- a non-integer power in lowest terms is the power of the absolute value. -/
theorem C48_pow_frac_partial (hg : env.toEnv.Base B) (hs : SortOk env.sort) {a r : Frac} {q : Rational} (ha : a.WF)
    (hq : q.den ≠ 0) (hl : q.Lowest) (hd : ¬ ∃ k : Int, q.val = k) (h : Frac.pow (env.checked B) a q = .ok r) :
    Frac.pow env a q = .ok r ∧ r.WF ∧ ∀ ρ, (∀ x, 0 < ρ x) →
      Frac.value ρ r = |Frac.value ρ a| ^ ((q.val : ℚ) : ℝ) ∧ Poly.value ρ r.den ≠ 0 :=
  ⟨Frac.pow_mono (FEnv.checked_le _ B) a _ r h, Frac.pow_frac_sound hg hs ha hq hl hd h⟩

/-- `(4x^2/9)^(-1/2) = 3x^(-1)/2`. -/
theorem pow_frac_example : Frac.pow (fenv64.checked (2 ^ 53)) ⟨[mono 4 1 ['x'] 2], [cst 9]⟩ ⟨-1, 2⟩ =
    .ok ⟨[mono 3 1 ['x'] (-1)], [cst 2]⟩ := by decide +kernel

example : ∀ ρ, (∀ x, 0 < ρ x) → Frac.value ρ ⟨[mono 3 1 ['x'] (-1)], [cst 2]⟩ =
    |Frac.value ρ ⟨[mono 4 1 ['x'] 2], [cst 9]⟩| ^ ((((Rational.mk (-1) 2).val : ℚ)) : ℝ) := fun ρ hρ =>
  ((C48_pow_frac_partial fenv64_good.toBase fenv64_sort ⟨Poly.wf_singleton (mono_wf _ _ (by norm_num) _ _), Poly.wf_singleton (cst_wf _)⟩ (by norm_num)
    (by simp [Rational.Lowest]) (by
      rintro ⟨k, hk⟩
      simp only [Rational.val] at hk
      have : (2 * k : ℚ) = -1 := by rw [← hk]; norm_num
      have : 2 * k = -1 := by exact_mod_cast this
      omega) pow_frac_example).2.2 ρ hρ).1

/-- evaluation of a fraction without symbols. -/
theorem C48_eval (hg : env.toEnv.Base B) {a : Frac} (ha : a.WF) {r : Num.Real}
    (h : Frac.eval (env.checked B) a = .ok r) : Frac.eval env a = .ok r ∧ ∀ ρ, r.val = Frac.value ρ a :=
  ⟨Frac.eval_mono (FEnv.checked_le _ B) a r h, (Frac.eval_sound hg ha h).2⟩

theorem C48_try_eval (hg : env.toEnv.Base B) {a : Frac} (ha : a.WF) {r : Num.Real}
    (h : Frac.tryEval (env.checked B) a = .ok (some r)) : Frac.tryEval env a = .ok (some r) ∧ ∀ ρ, r.val = Frac.value ρ a :=
  ⟨Frac.tryEval_mono (FEnv.checked_le _ B) a _ h, (Frac.tryEval_sound hg ha h).2⟩

/-- dividing by a polynomial all of whose coefficients are zero raises Error (whenever the zero test itself runs). -/
theorem C48_div_zero (hg : env.toEnv.Base B) {a b : Frac} {v : Bool} (hb : Poly.WF b.num)
    (hz : ∀ t ∈ b.num, t.coe.val = 0) (h : Poly.isZero (env.toEnv.checked B) b.num = .ok v) :
    Frac.div env a b = .throw divisionByZero := by
  have hv := (Poly.isZero_sound hg hb h).2 hz
  subst hv
  have := Poly.isZero_mono (Env.checked_le env.toEnv B) b.num _ h
  unfold Frac.div
  rw [this]
  rfl

/-- polynomials with integer coefficients as fractions: all of `+ - *` return, with explicit bounds. -/
theorem C48_add_int (hg : env.toEnv.Good B) (hB : 1 ≤ B) (hs : SortOk env.sort) (ht : Poly.SortTotal env) {D : Int}
    (hD : D ≤ env.M) {a b : Frac} (ha : a.IntPoly D) (hb : b.IntPoly D) (hl : a.num.l1 + b.num.l1 ≤ env.M) :
    ∃ r, Frac.add env a b = .ok r ∧ r.IntPoly D ∧ r.num.l1 ≤ a.num.l1 + b.num.l1 ∧
      ∀ ρ, (∀ x, 0 < ρ x) → Frac.value ρ r = Frac.value ρ a + Frac.value ρ b := by
  obtain ⟨r, r1, r2, r3⟩ := Frac.add_int (env := env.checked B) (hg.powOk_checked hB).toIntOk hs ht hD ha hb hl
  obtain ⟨c1, -, c3⟩ := C48_add_partial hg.toBase hs ha.wf hb.wf r1
  refine ⟨r, c1, r2, r3, fun ρ hρ => (c3 ρ hρ ?_ ?_).2⟩
  · rw [ha.den]; simp [unitPoly, Poly.value, Term.value, Term.ofReal, Syms.value, Real.int, Num.Real.val, Rational.val]
  · rw [hb.den]; simp [unitPoly, Poly.value, Term.value, Term.ofReal, Syms.value, Real.int, Num.Real.val, Rational.val]

theorem C48_sub_int (hg : env.toEnv.Good B) (hB : 1 ≤ B) (hs : SortOk env.sort) (ht : Poly.SortTotal env) {D : Int}
    (hD0 : 0 ≤ D) (hD : D ≤ env.M) {a b : Frac} (ha : a.IntPoly D) (hb : b.IntPoly D) (hl : a.num.l1 + b.num.l1 ≤ env.M) :
    ∃ r, Frac.sub env a b = .ok r ∧ r.IntPoly D ∧ r.num.l1 ≤ a.num.l1 + b.num.l1 ∧
      ∀ ρ, (∀ x, 0 < ρ x) → Frac.value ρ r = Frac.value ρ a - Frac.value ρ b := by
  obtain ⟨r, r1, r2, r3⟩ := Frac.sub_int (env := env.checked B) (hg.powOk_checked hB).toIntOk hs ht hD0 hD ha hb hl
  obtain ⟨c1, -, c3⟩ := C48_sub_partial hg.toBase hs ha.wf hb.wf r1
  refine ⟨r, c1, r2, r3, fun ρ hρ => (c3 ρ hρ ?_ ?_).2⟩
  · rw [ha.den]; simp [unitPoly, Poly.value, Term.value, Term.ofReal, Syms.value, Real.int, Num.Real.val, Rational.val]
  · rw [hb.den]; simp [unitPoly, Poly.value, Term.value, Term.ofReal, Syms.value, Real.int, Num.Real.val, Rational.val]

theorem C48_mul_int (hg : env.toEnv.Good B) (hB : 1 ≤ B) (hs : SortOk env.sort) (ht : Poly.SortTotal env) {D1 D2 : Int}
    (h1 : 0 ≤ D1) (h2 : 0 ≤ D2) (hD : D1 + D2 ≤ env.M) {a b : Frac} (ha : a.IntPoly D1) (hb : b.IntPoly D2)
    (ka : a.num.l1 ≤ env.M) (kb : b.num.l1 ≤ env.M) (hl : a.num.l1 * b.num.l1 ≤ env.M) :
    ∃ r, Frac.mul env a b = .ok r ∧ r.IntPoly (D1 + D2) ∧ r.num.l1 ≤ a.num.l1 * b.num.l1 ∧
      ∀ ρ, (∀ x, 0 < ρ x) → Frac.value ρ r = Frac.value ρ a * Frac.value ρ b := by
  obtain ⟨r, r1, r2, r3⟩ := Frac.mul_int (env := env.checked B) (hg.powOk_checked hB).toIntOk hs ht h1 h2 hD ha hb ka kb hl
  obtain ⟨c1, -, c3⟩ := C48_mul_partial hg.toBase hs ha.wf hb.wf r1
  exact ⟨r, c1, r2, r3, fun ρ hρ => (c3 ρ hρ).2⟩

theorem frac_examples :
    Frac.add (fenv64.checked (2 ^ 53)) ⟨[X], [Y]⟩ ⟨[cst 1], [cst 2]⟩ = .ok ⟨[Y, mono 2 1 ['x'] 1], [mono 2 1 ['y'] 1]⟩ ∧
    Frac.sub (fenv64.checked (2 ^ 53)) ⟨[X, cst 1], [Y]⟩ ⟨[cst 3], [X]⟩ =
      .ok ⟨[mono (-3) 1 ['y'] 1, mono 1 1 ['x'] 2, X], [⟨re 1 1, [(['x'], ⟨1, 1⟩), (['y'], ⟨1, 1⟩)]⟩]⟩ ∧
    Frac.subAssign (fenv64.checked (2 ^ 53)) ⟨[X, cst 1], [Y]⟩ ⟨[cst 3], [Y]⟩ = .ok ⟨[X, cst (-2)], [Y]⟩ ∧
    Frac.mul (fenv64.checked (2 ^ 53)) ⟨[X, cst 1], [mono 2 1 ['y'] 1]⟩ ⟨[mono 4 3 ['x'] 1], [X]⟩ =
      .ok ⟨[mono 2 1 ['x'] 2, mono 2 1 ['x'] 1], [⟨re 3 1, [(['x'], ⟨1, 1⟩), (['y'], ⟨1, 1⟩)]⟩]⟩ ∧
    Frac.div (fenv64.checked (2 ^ 53)) ⟨[mono 1 2 ['x'] 1, cst 3], [cst 1]⟩ ⟨[mono 3 4 ['x'] 1], [cst 1]⟩ =
      .ok ⟨[mono 2 1 ['x'] 1, cst 12], [mono 3 1 ['x'] 1]⟩ ∧
    Frac.negate (fenv64.checked (2 ^ 53)) ⟨[X, cst 1], [Y]⟩ = .ok ⟨[mono (-1) 1 ['x'] 1, cst (-1)], [Y]⟩ ∧
    Frac.inverse (fenv64.checked (2 ^ 53)) ⟨[X, cst 1], [Y]⟩ = .ok ⟨[Y], [X, cst 1]⟩ ∧
    Frac.pow (fenv64.checked (2 ^ 53)) ⟨[X, cst 1], [Y]⟩ ⟨2, 1⟩ =
      .ok ⟨[mono 1 1 ['x'] 2, mono 2 1 ['x'] 1, cst 1], [mono 1 1 ['y'] 2]⟩ ∧
    Frac.eval (fenv64.checked (2 ^ 53)) ⟨[cst 3], [cst 4]⟩ = .ok (re 3 4) ∧
    Frac.tryEval (fenv64.checked (2 ^ 53)) ⟨[cst 3], [cst 4]⟩ = .ok (some (re 3 4)) := by decide +kernel

theorem frac_wf {n d : Poly} (hn : n.WF) (hd : d.WF) : Frac.WF ⟨n, d⟩ := ⟨hn, hd⟩
theorem XY_wf : Frac.WF ⟨[X, cst 1], [Y]⟩ := ⟨wf2 X_wf (cst_wf _), Poly.wf_singleton Y_wf⟩

example := C48_add_partial fenv64_good.toBase fenv64_sort (frac_wf (Poly.wf_singleton X_wf) (Poly.wf_singleton Y_wf))
  (frac_wf (Poly.wf_singleton (cst_wf 1)) (Poly.wf_singleton (cst_wf 2))) frac_examples.1
example := C48_sub_partial fenv64_good.toBase fenv64_sort XY_wf
  (frac_wf (Poly.wf_singleton (cst_wf 3)) (Poly.wf_singleton X_wf)) frac_examples.2.1
example := C48_sub_assign_partial fenv64_good.toBase fenv64_sort XY_wf
  (frac_wf (Poly.wf_singleton (cst_wf 3)) (Poly.wf_singleton Y_wf)) frac_examples.2.2.1
example := C48_mul_partial fenv64_good.toBase fenv64_sort
  (frac_wf (wf2 X_wf (cst_wf 1)) (Poly.wf_singleton (mono_wf 2 1 (by norm_num) ['y'] 1)))
  (frac_wf (Poly.wf_singleton (mono_wf 4 3 (by norm_num) ['x'] 1)) (Poly.wf_singleton X_wf)) frac_examples.2.2.2.1
example := C48_div_partial fenv64_good.toBase fenv64_sort
  (frac_wf (wf2 (mono_wf 1 2 (by norm_num) ['x'] 1) (cst_wf 3)) (Poly.wf_singleton (cst_wf 1)))
  (frac_wf (Poly.wf_singleton (mono_wf 3 4 (by norm_num) ['x'] 1)) (Poly.wf_singleton (cst_wf 1))) frac_examples.2.2.2.2.1
example := C48_negate_partial fenv64_good.toBase fenv64_sort XY_wf frac_examples.2.2.2.2.2.1
example := C48_inverse_partial fenv64_good.toBase fenv64_sort XY_wf frac_examples.2.2.2.2.2.2.1
example := C48_pow_partial fenv64_good.toBase fenv64_sort XY_wf frac_examples.2.2.2.2.2.2.2.1
example := C48_eval fenv64_good.toBase (frac_wf (Poly.wf_singleton (cst_wf 3)) (Poly.wf_singleton (cst_wf 4)))
  frac_examples.2.2.2.2.2.2.2.2.1
example := C48_try_eval fenv64_good.toBase (frac_wf (Poly.wf_singleton (cst_wf 3)) (Poly.wf_singleton (cst_wf 4)))
  frac_examples.2.2.2.2.2.2.2.2.2
example : Frac.div fenv64 ⟨[X], [cst 1]⟩ ⟨[mono 0 1 ['x'] 1, cst 0], [cst 1]⟩ = .throw divisionByZero :=
  C48_div_zero (B := 2 ^ 53) (v := true) fenv64_good.toBase (wf2 (mono_wf _ _ (by norm_num) _ _) (cst_wf _)) (by
    intro t ht
    rcases List.mem_cons.1 ht with rfl | ht
    · simp [mono, re, Num.Real.val, Rational.val]
    · rw [List.mem_singleton] at ht
      subst ht
      simp [cst, re, Num.Real.val, Rational.val]) (by decide +kernel)

theorem intPoly_ex (n k : Int) : Frac.IntPoly 1 ⟨[mono n 1 ['x'] 1, cst k], unitPoly⟩ :=
  ⟨int2 (mono_intLe _ _ _) (cst_intLe _ _), by simp, rfl⟩

example := C48_add_int fenv64_good (by norm_num) fenv64_sort fenv64_total (by decide) (intPoly_ex 3 (-7)) (intPoly_ex 4 2) (by decide)
example := C48_sub_int fenv64_good (by norm_num) fenv64_sort fenv64_total (by decide) (by decide) (intPoly_ex 3 (-7))
  (intPoly_ex 3 2) (by decide)
example := C48_mul_int fenv64_good (by norm_num) fenv64_sort fenv64_total (by decide) (by decide) (by decide) (intPoly_ex 3 (-7))
  (intPoly_ex 3 2) (by decide) (by decide) (by decide)

/-- zero coefficients left behind by cancellation make the normalisation compute `g % 0`:
`(x+1)/(x-1) * (x-1)/(x+1)` is undefined behaviour, although the product is 1. -/
theorem C48_mul_fails :
    Frac.mk2 fenv64 [X, cst 1] [X, cst (-1)] = .ok ⟨[X, cst 1], [X, cst (-1)]⟩ ∧
    Frac.mk2 fenv64 [X, cst (-1)] [X, cst 1] = .ok ⟨[X, cst (-1)], [X, cst 1]⟩ ∧
    Frac.mul fenv64 ⟨[X, cst 1], [X, cst (-1)]⟩ ⟨[X, cst (-1)], [X, cst 1]⟩ = .ub "% 0" := by decide +kernel

/-- a negative power of a fraction with several terms reads the first element of an empty vector. -/
theorem C48_pow_fails : Frac.pow fenv64 ⟨[X, cst 1], [cst 1]⟩ ⟨-2, 1⟩ = .ub "index out of range" := by decide +kernel

/-! ### C49 -/

/-- numerator and denominator are multiplied by the same non-zero constant. -/
theorem C49_normalize_partial (hg : env.toEnv.Base B) (hs : SortOk env.sort) {f r : Frac} (hf : f.WF)
    (h : Frac.normalize (env.checked B) f = .ok r) : Frac.normalize env f = .ok r ∧ r.WF ∧
      ∃ c : ℝ, c ≠ 0 ∧ ∀ ρ, (∀ x, 0 < ρ x) →
        Poly.value ρ r.num = c * Poly.value ρ f.num ∧ Poly.value ρ r.den = c * Poly.value ρ f.den := by
  obtain ⟨⟨w, c, hc, hv⟩, -⟩ := Frac.normalize_sound hg hs hf h
  exact ⟨Frac.normalize_mono (FEnv.checked_le _ B) f r h, w, c, hc, hv⟩

/-- the constructor from two polynomials. -/
theorem C49_construct_partial (hg : env.toEnv.Base B) (hs : SortOk env.sort) {n d : Poly} {r : Frac} (hn : n.WF) (hd : d.WF)
    (h : Frac.mk2 (env.checked B) n d = .ok r) : Frac.mk2 env n d = .ok r ∧ r.WF ∧ ∀ ρ, (∀ x, 0 < ρ x) →
      (Poly.value ρ r.den = 0 ↔ Poly.value ρ d = 0) ∧ Frac.value ρ r = Poly.value ρ n / Poly.value ρ d := by
  obtain ⟨s, -⟩ := Frac.mk2_sound hg hs hn hd h
  exact ⟨Frac.mk2_mono (FEnv.checked_le _ B) n d r h, s.wf, fun ρ hρ => ⟨(s.frac hρ).2.1, (s.frac hρ).1⟩⟩

/-- the constructors from a number, a term, a polynomial. -/
theorem C49_of_number_partial (hg : env.toEnv.Base B) (hs : SortOk env.sort) {c : Num.Real} {r : Frac} (hc : c.Valid)
    (h : Frac.ofReal (env.checked B) c = .ok r) : Frac.ofReal env c = .ok r ∧ r.WF ∧ ∀ ρ, (∀ x, 0 < ρ x) →
      Frac.value ρ r = c.val := by
  have s := Frac.ofReal_sound hg hs hc h
  exact ⟨Frac.ofReal_mono (FEnv.checked_le _ B) c r h, s.wf, fun ρ hρ => by rw [(s.frac hρ).1]; simp⟩
theorem C49_of_term_partial (hg : env.toEnv.Base B) (hs : SortOk env.sort) {t : Term} {r : Frac} (ht : t.WF)
    (h : Frac.ofTerm (env.checked B) t = .ok r) : Frac.ofTerm env t = .ok r ∧ r.WF ∧ ∀ ρ, (∀ x, 0 < ρ x) →
      Frac.value ρ r = t.value ρ := by
  have s := Frac.ofTerm_sound hg hs ht h
  exact ⟨Frac.ofTerm_mono (FEnv.checked_le _ B) t r h, s.wf, fun ρ hρ => by rw [(s.frac hρ).1]; simp⟩
theorem C49_of_poly_partial (hg : env.toEnv.Base B) (hs : SortOk env.sort) {p : Poly} {r : Frac} (hp : p.WF)
    (h : Frac.ofPoly (env.checked B) p = .ok r) : Frac.ofPoly env p = .ok r ∧ r.WF ∧ ∀ ρ, (∀ x, 0 < ρ x) →
      Frac.value ρ r = Poly.value ρ p := by
  have s := Frac.ofPoly_sound hg hs hp h
  exact ⟨Frac.ofPoly_mono (FEnv.checked_le _ B) p r h, s.wf, fun ρ hρ => by rw [(s.frac hρ).1]; simp⟩

/-- integer fractions: the normalisation returns for every non-empty numerator, when the denominator has distinct
monomials, non-zero coefficients and no zero exponents, and is not a single term with a coefficient other than ±1. -/
theorem C49_normalize_int (hg : env.toEnv.Good B) (hB : 1 ≤ B) (hs : SortOk env.sort) (ht : Poly.SortTotal env) {D : Int}
    (hD0 : 0 ≤ D) (hD : D ≤ env.M) {n d : Poly} (hn : n.IntLe D) (hd : d.IntLe D) (ln : n.l1 ≤ env.M) (ld : d.l1 ≤ env.M)
    (hn0 : n ≠ []) (hd0 : d ≠ []) (hc : ∀ t ∈ d, t.coe.coe.num ≠ 0) (hx : ∀ t ∈ d, ∀ p ∈ t.syms, p.2.num ≠ 0)
    (hdis : d.Pairwise fun a b => a.syms ≠ b.syms) (hlen : 2 ≤ d.length ∨ ∀ t ∈ d, |t.coe.coe.num| = 1) :
    ∃ r, Frac.normalize env ⟨n, d⟩ = .ok r ∧ r.num.IntLe D ∧ r.den.IntLe D ∧ r.num.l1 ≤ n.l1 ∧ r.den.l1 ≤ d.l1 ∧
      ∃ c : ℝ, c ≠ 0 ∧ ∀ ρ, (∀ x, 0 < ρ x) →
        Poly.value ρ r.num = c * Poly.value ρ n ∧ Poly.value ρ r.den = c * Poly.value ρ d := by
  obtain ⟨r, r1, r2, r3, r4, r5, -⟩ := Frac.normalize_int (env := env.checked B) (hg.powOk_checked hB).toIntOk hs ht hD0 hD hn hd
    ln ld hn0 ⟨hd0, hc, hx, hdis⟩ hlen
  obtain ⟨c1, -, c3⟩ := C49_normalize_partial hg.toBase hs (frac_wf hn.wf hd.wf) r1
  exact ⟨r, c1, r2, r3, r4, r5, c3⟩

theorem normalize_examples :
    Frac.normalize (fenv64.checked (2 ^ 53)) ⟨[mono 1 2 ['x'] 1, cst 3], [mono 3 4 ['y'] 1, cst 6]⟩ =
      .ok ⟨[mono 4 1 ['x'] 1, cst 24], [mono 6 1 ['y'] 1, cst 48]⟩ ∧
    Frac.mk2 (fenv64.checked (2 ^ 53)) [mono 4 1 ['x'] 1, cst 8] [mono 6 1 ['x'] 1, cst 2] =
      .ok ⟨[mono 2 1 ['x'] 1, cst 4], [mono 3 1 ['x'] 1, cst 1]⟩ ∧
    Frac.ofReal (fenv64.checked (2 ^ 53)) root2 = .ok ⟨[⟨root2, []⟩], [cst 1]⟩ ∧
    Frac.ofTerm (fenv64.checked (2 ^ 53)) X = .ok ⟨[X], [cst 1]⟩ ∧
    Frac.ofPoly (fenv64.checked (2 ^ 53)) [cst 1, X] = .ok ⟨[X, cst 1], [cst 1]⟩ := by decide +kernel

example := C49_normalize_partial fenv64_good.toBase fenv64_sort
  (frac_wf (wf2 (mono_wf 1 2 (by norm_num) ['x'] 1) (cst_wf 3)) (wf2 (mono_wf 3 4 (by norm_num) ['y'] 1) (cst_wf 6)))
  normalize_examples.1
example := C49_construct_partial fenv64_good.toBase fenv64_sort (wf2 (mono_wf 4 1 (by norm_num) ['x'] 1) (cst_wf 8))
  (wf2 (mono_wf 6 1 (by norm_num) ['x'] 1) (cst_wf 2)) normalize_examples.2.1
example := C49_of_number_partial fenv64_good.toBase fenv64_sort root2_valid normalize_examples.2.2.1
example := C49_of_term_partial fenv64_good.toBase fenv64_sort X_wf normalize_examples.2.2.2.1
example := C49_of_poly_partial fenv64_good.toBase fenv64_sort (wf2 (cst_wf 1) X_wf) normalize_examples.2.2.2.2
example := C49_normalize_int fenv64_good (by norm_num) fenv64_sort fenv64_total (D := 1) (by decide) (by decide)
  (n := [mono 4 1 ['x'] 1, cst 8]) (d := [mono 6 1 ['x'] 1, cst 2]) (int2 (mono_intLe _ _ _) (cst_intLe _ _))
  (int2 (mono_intLe _ _ _) (cst_intLe _ _)) (by decide) (by decide) (by decide) (by decide) (by decide) (by decide) (by decide)
  (Or.inl (by decide))

/-- a valid fraction can be rejected: 0 / (1 + 0x) raises "Division by zero". -/
theorem C49_fails : Frac.mk2 fenv64 [cst 0] [cst 1, mono 0 1 ['x'] 1] = .throw divisionByZero ∧
    ∀ ρ, Poly.value ρ [cst 1, mono 0 1 ['x'] 1] ≠ 0 := by
  refine ⟨by decide +kernel, fun ρ => ?_⟩
  simp [Poly.value, Term.value, Syms.value, cst, mono, re, Num.Real.val, Rational.val]

/-- over a single-term denominator only the leading coefficients are inspected: (2x+3)/4 becomes (x+3/2)/2. -/
theorem C49_single_denominator : Frac.mk2 fenv64 [mono 2 1 ['x'] 1, cst 3] [cst 4] =
    .ok ⟨[X, ⟨re 3 2, []⟩], [cst 2]⟩ := by decide +kernel

/-! ### C50 -/

/-- `ρ` with the bound names overridden. -/
theorem C50_override (e : List (List Char × Num.Real)) (ρ : List Char → ℝ) (x : List Char) :
    override e ρ x = match e.find? fun p => p.1 = x with
      | some p => p.2.val
      | none => ρ x := by
  unfold override Term.lookup
  cases e.find? fun p => p.1 = x <;> rfl

theorem C50_term (hg : env.toEnv.Base B) {e : List (List Char × Num.Real)} {t r : Term} (ht : t.WF) (he : t.SubstOk e)
    (h : Term.substitute (env.toEnv.checked B) e t = .ok r) :
    Term.substitute env.toEnv e t = .ok r ∧ r.WF ∧ ∀ ρ, r.value ρ = t.value (override e ρ) :=
  ⟨Term.substitute_mono (Env.checked_le _ B) e t r h, Term.substitute_sound hg ht he h⟩

theorem C50_poly (hg : env.toEnv.Base B) {e : List (List Char × Num.Real)} {p r : Poly} (hp : p.WF)
    (he : ∀ t ∈ p, t.SubstOk e) (h : Poly.substitute (env.toEnv.checked B) e p = .ok r) :
    Poly.substitute env.toEnv e p = .ok r ∧ r.WF ∧ ∀ ρ, Poly.value ρ r = Poly.value (override e ρ) p :=
  ⟨Poly.substitute_mono (Env.checked_le _ B) e p r h, Poly.substitute_sound hg hp he h⟩

theorem C50_frac (hg : env.toEnv.Base B) (hs : SortOk env.sort) {e : List (List Char × Num.Real)} {a r : Frac}
    (ha : a.WF) (hn : ∀ t ∈ a.num, t.SubstOk e) (hd : ∀ t ∈ a.den, t.SubstOk e)
    (h : Frac.substitute (env.checked B) e a = .ok r) :
    Frac.substitute env e a = .ok r ∧ r.WF ∧ ∀ ρ, (∀ x, 0 < ρ x) → Frac.value ρ r = Frac.value (override e ρ) a ∧
      (Poly.value ρ r.den = 0 ↔ Poly.value (override e ρ) a.den = 0) :=
  ⟨Frac.substitute_mono (FEnv.checked_le _ B) e a r h, (Frac.substitute_sound hg hs ha hn hd h).1,
    (Frac.substitute_sound hg hs ha hn hd h).2.2⟩

/-- `x := √2` in `x^2 y`, in `x^2 y + x`, in `x^2 y / x`. -/
theorem subst_examples :
    Term.substitute (fenv64.toEnv.checked (2 ^ 53)) [(['x'], root2)] ⟨re 1 1, [(['x'], ⟨2, 1⟩), (['y'], ⟨1, 1⟩)]⟩ =
      .ok (mono 2 1 ['y'] 1) ∧
    Poly.substitute (fenv64.toEnv.checked (2 ^ 53)) [(['x'], root2)] [⟨re 1 1, [(['x'], ⟨2, 1⟩), (['y'], ⟨1, 1⟩)]⟩, X] =
      .ok [mono 2 1 ['y'] 1, ⟨root2, []⟩] ∧
    Frac.substitute (fenv64.checked (2 ^ 53)) [(['x'], root2)] ⟨[⟨re 1 1, [(['x'], ⟨2, 1⟩), (['y'], ⟨1, 1⟩)]⟩], [X]⟩ =
      .ok ⟨[mono 2 1 ['y'] 1], [⟨root2, []⟩]⟩ := by decide +kernel

theorem xxy_wf : Term.WF ⟨re 1 1, [(['x'], ⟨2, 1⟩), (['y'], ⟨1, 1⟩)]⟩ :=
  ⟨re_valid 1 1 (by norm_num), Syms.wf_cons.2 ⟨by decide, by norm_num, Syms.wf_cons.2 ⟨by simp, by norm_num, Syms.wf_nil⟩⟩⟩

theorem root2_pos : 0 < root2.val := by
  have : (0 : ℝ) < (2 : ℝ) ^ ((2 : ℝ)⁻¹) := by positivity
  simpa [root2, Num.Real.val, Rational.val] using this

theorem substOk_root (t : Term) : t.SubstOk [(['x'], root2)] := by
  intro p hp x hx
  have : x = root2 := by
    unfold Term.lookup at hx
    simp only [List.find?_cons, List.find?_nil] at hx
    split at hx
    · simpa using hx.symm
    · simp at hx
  subst this
  exact ⟨root2_valid, Or.inl root2_pos⟩

example := C50_term fenv64_good.toBase xxy_wf (substOk_root _) subst_examples.1
example := C50_poly fenv64_good.toBase (wf2 xxy_wf X_wf) (by
    intro t ht
    rcases List.mem_cons.1 ht with rfl | ht
    · exact substOk_root _
    · rw [List.mem_singleton] at ht
      subst ht
      exact substOk_root _) subst_examples.2.1
example := C50_frac fenv64_good.toBase fenv64_sort (frac_wf (Poly.wf_singleton xxy_wf) (Poly.wf_singleton X_wf)) (by
    intro t ht
    rw [List.mem_singleton] at ht
    subst ht
    exact substOk_root _) (by
    intro t ht
    rw [List.mem_singleton] at ht
    subst ht
    exact substOk_root _) subst_examples.2.2

end Symxx.Sym
