import Verif.Frac.Canonical
import Verif.Expr.PrintShape
/-!
# The total degree of the expanded polynomial is at most the degree of the expression

An expression of degree `D` is a linear combination of monomials of degree at most `D`; the terms of the expanded
polynomial are independent, so they are among them.
-/
namespace Symxx.Sym
open Symxx.Num

/-- all logarithms 1. -/
def ones : Logs := Multiplicative.ofAdd 1

/-- monomials of total degree at most `D`. -/
def LowHom (D : ℝ) : Set (Logs →* ℝ) := {χ | 0 < χ ones ∧ χ ones ≤ _root_.Real.exp D}

/-- linear combinations of them. -/
noncomputable def LowSpan (D : ℝ) : Submodule ℝ (Logs → ℝ) := Submodule.span ℝ ((fun χ : Logs →* ℝ => (χ : Logs → ℝ)) '' LowHom D)

theorem LowSpan.mono {D E : ℝ} (h : D ≤ E) : LowSpan D ≤ LowSpan E := by
  refine Submodule.span_mono (Set.image_mono fun χ hχ => ⟨hχ.1, le_trans hχ.2 (_root_.Real.exp_le_exp.2 h)⟩)

theorem LowSpan.one : (1 : Logs → ℝ) ∈ LowSpan 0 :=
  Submodule.subset_span ⟨1, ⟨by simp, by simp⟩, rfl⟩

theorem LowSpan.mul {D E : ℝ} {F G : Logs → ℝ} (hF : F ∈ LowSpan D) (hG : G ∈ LowSpan E) : F * G ∈ LowSpan (D + E) := by
  have h := Submodule.mul_mem_mul hF hG
  unfold LowSpan at h
  rw [Submodule.span_mul_span] at h
  refine Submodule.span_mono ?_ h
  rintro _ ⟨_, ⟨χ, hχ, rfl⟩, _, ⟨ψ, hψ, rfl⟩, rfl⟩
  refine ⟨χ * ψ, ⟨?_, ?_⟩, rfl⟩
  · rw [MonoidHom.mul_apply]; exact mul_pos hχ.1 hψ.1
  · rw [MonoidHom.mul_apply, _root_.Real.exp_add]; exact mul_le_mul hχ.2 hψ.2 hψ.1.le (_root_.Real.exp_pos _).le

theorem LowSpan.pow {D : ℝ} {F : Logs → ℝ} (hF : F ∈ LowSpan D) (k : ℕ) : F ^ k ∈ LowSpan (D * k) := by
  induction k with
  | zero => simpa using LowSpan.one
  | succ k ih =>
    have := LowSpan.mul ih hF
    rw [← pow_succ] at this
    push_cast
    rwa [mul_add, mul_one]

theorem ringDeg_nonneg : ∀ e : Parser.Expr, 0 ≤ ringDeg e
  | .leaf (.num _) => le_rfl
  | .leaf (.sym _) => by norm_num [ringDeg]
  | .node c a b => by
    have ha := ringDeg_nonneg a
    have hb := ringDeg_nonneg b
    unfold ringDeg
    split
    · omega
    split
    · exact mul_nonneg ha (by omega)
    · omega

theorem exprSem_low {e : Parser.Expr} (he : IntRing e) :
    ∃ F ∈ LowSpan (ringDeg e), ∀ g, exprSem (fun x => _root_.Real.exp (g x)) e = some (F (Multiplicative.ofAdd g)) := by
  induction e with
  | leaf l =>
    cases l with
    | num q =>
      have hq : q.den = 1 := he
      refine ⟨((q.val : ℚ) : ℝ) • (1 : Logs → ℝ), Submodule.smul_mem _ _ ?_, fun g => ?_⟩
      · have := LowSpan.one
        simpa [ringDeg] using this
      · simp [exprSem, hq]
    | sym x =>
      refine ⟨hom [toLex (x, 1)], Submodule.subset_span ⟨_, ⟨?_, ?_⟩, rfl⟩, fun g => ?_⟩
      · rw [ones, hom_apply]; exact _root_.Real.exp_pos _
      · rw [ones, hom_apply]
        simp [lin, ringDeg]
      · rw [hom_apply]
        simp [exprSem, lin]
  | node c a b ia ib =>
    rcases he with ⟨hc, ha, hb⟩ | ⟨rfl, ha, k, rfl⟩
    · obtain ⟨F, hF, hF'⟩ := ia ha
      obtain ⟨G, hG, hG'⟩ := ib hb
      have m1 : ((ringDeg a : Int) : ℝ) ≤ ((max (ringDeg a) (ringDeg b) : Int) : ℝ) := by exact_mod_cast le_max_left _ _
      have m2 : ((ringDeg b : Int) : ℝ) ≤ ((max (ringDeg a) (ringDeg b) : Int) : ℝ) := by exact_mod_cast le_max_right _ _
      rcases hc with rfl | rfl | rfl
      · refine ⟨F + G, ?_, fun g => ?_⟩
        · have : ringDeg (.node '+' a b) = max (ringDeg a) (ringDeg b) := by simp [ringDeg]
          rw [this]
          exact Submodule.add_mem _ (LowSpan.mono m1 hF) (LowSpan.mono m2 hG)
        · unfold exprSem; rw [hF', hG']; simp [opSem]
      · refine ⟨F - G, ?_, fun g => ?_⟩
        · have : ringDeg (.node '-' a b) = max (ringDeg a) (ringDeg b) := by simp [ringDeg]
          rw [this]
          exact Submodule.sub_mem _ (LowSpan.mono m1 hF) (LowSpan.mono m2 hG)
        · unfold exprSem; rw [hF', hG']; simp [opSem]
      · refine ⟨F * G, ?_, fun g => ?_⟩
        · have : ringDeg (.node '*' a b) = ringDeg a + ringDeg b := by simp [ringDeg]
          rw [this]
          push_cast
          exact LowSpan.mul hF hG
        · unfold exprSem; rw [hF', hG']; simp [opSem]
    · obtain ⟨F, hF, hF'⟩ := ia ha
      refine ⟨F ^ k, ?_, fun g => ?_⟩
      · have : ringDeg (.node '^' a (.leaf (.num ⟨k, 1⟩))) = ringDeg a * max 1 (k : Int) := by simp [ringDeg, expo]
        rw [this]
        refine LowSpan.mono ?_ (LowSpan.pow hF k)
        have h0 := ringDeg_nonneg a
        have : ringDeg a * (k : Int) ≤ ringDeg a * max 1 (k : Int) := mul_le_mul_of_nonneg_left (le_max_right _ _) h0
        exact_mod_cast this
      · have hy : exprSem (fun x => _root_.Real.exp (g x)) (.leaf (.num ⟨(k : Int), 1⟩)) = some (k : ℝ) := by
          simp [exprSem, Rational.val]
        unfold exprSem
        rw [hF', hy]
        simp only [Option.bind_some, opSem]
        rw [if_neg (by decide), if_neg (by decide), if_neg (by decide), if_neg (by decide), if_pos trivial, if_pos]
        · rw [_root_.Real.rpow_natCast]; rfl
        · rcases lt_trichotomy (F (Multiplicative.ofAdd g)) 0 with h | h | h
          · exact Or.inr (Or.inr ⟨h, k, by push_cast; rfl⟩)
          · exact Or.inr (Or.inl ⟨h, by positivity⟩)
          · exact Or.inl h

/-- the terms of the expanded polynomial have total degree at most `ringDeg e`. -/
theorem Poly.Tidy.tdeg {p : Poly} (hp : p.Tidy) {D : Int} (ip : p.IntLe D) {e : Parser.Expr} (he : IntRing e)
    (h : ∀ ρ, (∀ x, 0 < ρ x) → exprSem ρ e = some (Poly.value ρ p)) {t : Term} (ht : t ∈ p.nonzero) : t.syms.tdeg ≤ ringDeg e := by
  obtain ⟨F, hF, hF'⟩ := exprSem_low he
  unfold LowSpan at hF
  rw [Finsupp.mem_span_image_iff_linearCombination] at hF
  obtain ⟨l, hl, hl'⟩ := hF
  have hc : comb p = l := by
    refine linearIndependent_monoidHom Logs ℝ ?_
    rw [hl']
    funext g
    have h1 := hF' g.toAdd
    rw [h _ fun x => _root_.Real.exp_pos _] at h1
    injection h1 with h1
    exact (comb_value p g.toAdd).trans h1
  have h2 := comb_mem (Poly.nonzero_norm hp) (hp.keys ip) ht
  rw [comb_nonzero, hc] at h2
  have h3 : hom t.syms.key ∈ l.support := by
    rw [Finsupp.mem_support_iff, h2]
    exact (Poly.mem_nonzero.1 ht).2
  have h4 := (hl h3).2
  rw [ones, hom_apply, _root_.Real.exp_le_exp] at h4
  have h5 : lin t.syms.key 1 = (t.syms.tdeg : ℝ) := by
    have hi := (ip t (Poly.mem_nonzero.1 ht).1).2.1
    generalize t.syms = s at hi
    induction s with
    | nil => simp [lin, Syms.key, Syms.tdeg]
    | cons q s ih =>
      have hd := (hi q List.mem_cons_self).1
      rw [Syms.tdeg_cons]
      have : Syms.key (q :: s) = toLex (q.1, q.2.val) :: Syms.key s := rfl
      rw [this, lin_cons, ih fun r hr => hi r (List.mem_cons_of_mem _ hr)]
      simp [Rational.val, hd]
  rw [h5] at h4
  exact_mod_cast h4

end Symxx.Sym
