import Verif.Expr.Total
import Mathlib.Algebra.Polynomial.Roots
/-!
# Equal at all positive assignments, equal everywhere

A ring expression and a polynomial with natural exponents are polynomial functions along every line; two polynomial
functions that agree for `t ≥ 1` agree for `t = 0`.
-/
namespace Symxx.Sym
open Symxx.Num Polynomial

/-- natural exponents. -/
def NatExp (p : List Char × Rational) : Prop := 0 ≤ p.2.num ∧ p.2.den = 1

instance natExpOnly {M : Int} : ClosedNat M NatExp where
  add := by
    rintro x u v w ⟨h2, h3⟩ ⟨h5, h6⟩ h
    have h3 : u.den = 1 := h3
    have h6 : v.den = 1 := h6
    obtain ⟨g1, g2, g3, -⟩ := Rational.add_spec (by rw [h3]; norm_num) (by rw [h6]; norm_num) h
    have e : (w.num : ℚ) = (u.num + v.num) * w.den := by
      unfold Rational.val at g1
      rw [h3, h6] at g1
      have : (w.den : ℚ) ≠ 0 := by exact_mod_cast g3.ne'
      field_simp at g1
      push_cast at g1
      linarith
    have e : w.num = (u.num + v.num) * w.den := by exact_mod_cast e
    have hd : w.den = 1 := by
      have : Int.gcd w.num w.den = 1 := g2
      rw [e, Int.gcd_mul_left_left] at this
      omega
    refine ⟨?_, hd⟩
    show 0 ≤ w.num
    rw [e, hd, mul_one]
    exact add_nonneg h2 h5
  nat := by
    rintro x u w a ha ⟨h2, h3⟩ h
    have h3 : u.den = 1 := h3
    obtain ⟨g1, -, -, -, g2, g3⟩ := Rational.mul_spec h
    have g2 := g2 (by unfold Rational.Lowest; rw [h3]; simp) (by unfold Rational.Lowest; simp)
    have g3 := g3 (by rw [h3]; norm_num) (by norm_num)
    have e : (w.num : ℚ) = (u.num * a) * w.den := by
      unfold Rational.val at g1
      rw [h3] at g1
      have : (w.den : ℚ) ≠ 0 := by exact_mod_cast g3.ne'
      field_simp at g1
      push_cast at g1
      linarith
    have e : w.num = (u.num * a) * w.den := by exact_mod_cast e
    have hd : w.den = 1 := by
      have : Int.gcd w.num w.den = 1 := g2
      rw [e, Int.gcd_mul_left_left] at this
      omega
    refine ⟨?_, hd⟩
    show 0 ≤ w.num
    rw [e, hd, mul_one]
    exact mul_nonneg h2 ha

/-- the same for a condition on the names. -/
instance natExp_names (M : Int) (Q : List Char → Prop) : ClosedNat M (fun p => NatExp p ∧ Q p.1) where
  add := fun h1 h2 h => ⟨(natExpOnly (M := M)).add h1.1 h2.1 h, h1.2⟩
  nat := fun ha h1 h => ⟨(natExpOnly (M := M)).nat ha h1.1 h, h1.2⟩

/-- the line through `ρ` that becomes positive. -/
noncomputable def line (ρ : List Char → ℝ) (t : ℝ) (x : List Char) : ℝ := ρ x + t * (1 + |ρ x|)

theorem line_zero (ρ : List Char → ℝ) : line ρ 0 = ρ := by funext x; simp [line]
theorem line_pos (ρ : List Char → ℝ) {t : ℝ} (ht : 1 ≤ t) (x : List Char) : 0 < line ρ t x := by
  unfold line
  have h1 := neg_abs_le (ρ x)
  have h2 := abs_nonneg (ρ x)
  nlinarith

theorem opSem_nat (x : ℝ) (k : Nat) : opSem '^' x (k : ℝ) = some (x ^ k) := by
  unfold opSem
  rw [if_neg (by decide), if_neg (by decide), if_neg (by decide), if_neg (by decide), if_pos rfl, if_pos,
    Real.rpow_natCast]
  rcases lt_trichotomy x 0 with h | h | h
  · exact Or.inr (Or.inr ⟨h, k, by push_cast; rfl⟩)
  · exact Or.inr (Or.inl ⟨h, by positivity⟩)
  · exact Or.inl h

theorem exprSem_line (ρ : List Char → ℝ) {e : Parser.Expr} (he : IntRing e) :
    ∃ p : ℝ[X], ∀ t, exprSem (line ρ t) e = some (p.eval t) := by
  induction e with
  | leaf l =>
    cases l with
    | num q =>
      have hq : q.den = 1 := he
      refine ⟨C ((q.val : ℚ) : ℝ), fun t => ?_⟩
      rw [eval_C]
      exact if_neg (by rw [hq]; norm_num)
    | sym x =>
      refine ⟨C (ρ x) + Polynomial.X * C (1 + |ρ x|), fun t => ?_⟩
      simp [exprSem, line]
  | node c a b ia ib =>
    rcases he with ⟨hc, ha, hb⟩ | ⟨rfl, ha, k, rfl⟩
    · obtain ⟨p, hp⟩ := ia ha
      obtain ⟨q, hq⟩ := ib hb
      rcases hc with rfl | rfl | rfl
      · refine ⟨p + q, fun t => ?_⟩
        rw [exprSem, hp, hq, eval_add]; rfl
      · refine ⟨p - q, fun t => ?_⟩
        rw [exprSem, hp, hq, eval_sub]; rfl
      · refine ⟨p * q, fun t => ?_⟩
        rw [exprSem, hp, hq, eval_mul]; rfl
    · obtain ⟨p, hp⟩ := ia ha
      refine ⟨p ^ k, fun t => ?_⟩
      have hy : exprSem (line ρ t) (.leaf (.num ⟨(k : Int), 1⟩)) = some (k : ℝ) := by simp [exprSem, Rational.val]
      rw [exprSem, hp, hy, eval_pow, Option.bind_some, Option.bind_some, opSem_nat]

theorem Syms.value_line (ρ : List Char → ℝ) {s : Syms} (hs : ∀ p ∈ s, NatExp p) :
    ∃ p : ℝ[X], ∀ t, s.value (line ρ t) = p.eval t := by
  induction s with
  | nil => exact ⟨1, fun t => by simp [Syms.value]⟩
  | cons q s ih =>
    obtain ⟨p, hp⟩ := ih fun r hr => hs r (List.mem_cons_of_mem _ hr)
    obtain ⟨h1, h2⟩ := hs q List.mem_cons_self
    obtain ⟨n, hn⟩ := Int.eq_ofNat_of_zero_le h1
    refine ⟨(C (ρ q.1) + Polynomial.X * C (1 + |ρ q.1|)) ^ n * p, fun t => ?_⟩
    have : Syms.value (line ρ t) (q :: s) = line ρ t q.1 ^ ((q.2.val : ℚ) : ℝ) * Syms.value (line ρ t) s := by
      simp [Syms.value]
    rw [this, hp, eval_mul]
    congr 1
    have : ((q.2.val : ℚ) : ℝ) = (n : ℝ) := by simp [Rational.val, h2, hn]
    rw [this, Real.rpow_natCast]
    simp [line]

theorem Poly.value_line (ρ : List Char → ℝ) {q : Poly} (hs : ∀ t ∈ q, ∀ p ∈ t.syms, NatExp p) :
    ∃ p : ℝ[X], ∀ t, Poly.value (line ρ t) q = p.eval t := by
  induction q with
  | nil => exact ⟨0, fun t => by simp [Poly.value]⟩
  | cons m q ih =>
    obtain ⟨p, hp⟩ := ih fun r hr => hs r (List.mem_cons_of_mem _ hr)
    obtain ⟨r, hr⟩ := Syms.value_line ρ (hs m List.mem_cons_self)
    refine ⟨C m.coe.val * r + p, fun t => ?_⟩
    have : Poly.value (line ρ t) (m :: q) = m.coe.val * m.syms.value (line ρ t) + Poly.value (line ρ t) q := by
      simp [Poly.value, Term.value]
    rw [this, hp, hr]
    simp

theorem unitPoly_value (ρ : List Char → ℝ) : Poly.value ρ unitPoly = 1 := by
  simp [Poly.value, unitPoly, Term.value, Term.ofReal, Syms.value, Num.Real.val, Num.Real.int, Rational.val]

/-- a ring expression and a polynomial that agree wherever all symbols are positive agree everywhere. -/
theorem exprSem_everywhere {e : Parser.Expr} (he : IntRing e) {f : Frac} (hf : f.In NatExp) (hd : f.den = unitPoly)
    (h : ∀ ρ, (∀ x, 0 < ρ x) → exprSem ρ e = some (Frac.value ρ f)) (ρ : List Char → ℝ) :
    exprSem ρ e = some (Frac.value ρ f) := by
  obtain ⟨p, hp⟩ := exprSem_line ρ he
  obtain ⟨q, hq⟩ := Poly.value_line ρ (q := f.num) hf.1
  have hv : ∀ ρ, Frac.value ρ f = Poly.value ρ f.num := fun ρ => by
    unfold Frac.value; rw [hd, unitPoly_value, div_one]
  have hpq : p = q := by
    refine Polynomial.eq_of_infinite_eval_eq p q (Set.Infinite.mono (s := Set.Ici 1) ?_ (Set.Ici_infinite 1))
    intro t ht
    have := h (line ρ t) (line_pos ρ ht)
    rw [hp, hv, hq] at this
    exact Option.some.inj this
  have := hp 0
  rw [line_zero] at this
  rw [this, hpq, ← hq, line_zero, hv]

end Symxx.Sym
