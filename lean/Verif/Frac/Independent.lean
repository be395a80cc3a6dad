import Verif.Frac.Collect
import Mathlib.LinearAlgebra.LinearIndependent.Basic
import Mathlib.Analysis.SpecialFunctions.Pow.Real
/-!
# Different monomials are linearly independent functions

A monomial with rational exponents is a homomorphism from the positive assignments to the reals; Dedekind's theorem
says that different homomorphisms are linearly independent.
-/
namespace Symxx.Sym
open Symxx.Num

/-- logarithms of assignments. -/
abbrev Logs := Multiplicative (List Char → ℝ)

/-- the exponents of a key applied to an assignment of logarithms. -/
noncomputable def lin (k : List (List Char ×ₗ ℚ)) (g : List Char → ℝ) : ℝ :=
  (k.map fun p => ((ofLex p).2 : ℝ) * g (ofLex p).1).sum

theorem lin_cons (p : List Char ×ₗ ℚ) (k : List (List Char ×ₗ ℚ)) (g : List Char → ℝ) :
    lin (p :: k) g = ((ofLex p).2 : ℝ) * g (ofLex p).1 + lin k g := by simp [lin]

theorem lin_add (k : List (List Char ×ₗ ℚ)) (g h : List Char → ℝ) : lin k (g + h) = lin k g + lin k h := by
  induction k with
  | nil => simp [lin]
  | cons p k ih => rw [lin_cons, lin_cons, lin_cons, ih, Pi.add_apply]; ring

theorem lin_zero (k : List (List Char ×ₗ ℚ)) : lin k 0 = 0 := by
  induction k with
  | nil => simp [lin]
  | cons p k ih => rw [lin_cons, ih]; simp

/-- a monomial as a homomorphism. -/
noncomputable def hom (k : List (List Char ×ₗ ℚ)) : Logs →* ℝ where
  toFun g := _root_.Real.exp (lin k g.toAdd)
  map_one' := by
    show _root_.Real.exp (lin k 0) = 1
    rw [lin_zero, _root_.Real.exp_zero]
  map_mul' g h := by
    show _root_.Real.exp (lin k (g.toAdd + h.toAdd)) = _
    rw [lin_add, _root_.Real.exp_add]

theorem hom_apply (k : List (List Char ×ₗ ℚ)) (g : List Char → ℝ) :
    hom k (Multiplicative.ofAdd g) = _root_.Real.exp (lin k g) := rfl

theorem Syms.value_hom (s : Syms) (g : List Char → ℝ) :
    Syms.value (fun x => _root_.Real.exp (g x)) s = hom s.key (Multiplicative.ofAdd g) := by
  rw [hom_apply]
  induction s with
  | nil => simp [Syms.value, Syms.key, lin]
  | cons p s ih =>
    rw [Syms.value_cons, ih]
    show _ = _root_.Real.exp (lin (toLex (p.1, p.2.val) :: Syms.key s) g)
    rw [lin_cons, _root_.Real.exp_add, mul_comm (((ofLex (toLex (p.1, p.2.val))).2 : ℝ)), _root_.Real.exp_mul]
    rfl

/-- a key of standard exponents. -/
def KeyStd (k : List (List Char ×ₗ ℚ)) : Prop := k.Pairwise (fun p q => (ofLex p).1 < (ofLex q).1) ∧ ∀ p ∈ k, (ofLex p).2 ≠ 0

theorem Syms.Std.key {s : Syms} (h : s.Std) : KeyStd s.key := by
  refine ⟨?_, ?_⟩
  · unfold Syms.key
    rw [List.pairwise_map]
    exact h.1
  · intro p hp
    obtain ⟨q, hq, rfl⟩ := List.mem_map.1 hp
    have := h.2 q hq
    simp only [ofLex_toLex, ne_eq, Rational.val_zero_iff this.1.ne']
    exact this.2

theorem lin_single_notMem {k : List (List Char ×ₗ ℚ)} {x : List Char} (h : ∀ p ∈ k, (ofLex p).1 ≠ x) :
    lin k (Pi.single x 1) = 0 := by
  induction k with
  | nil => simp [lin]
  | cons p k ih =>
    rw [lin_cons, ih fun q hq => h q (by simp [hq]), Pi.single_eq_of_ne (h p (by simp))]; simp

theorem lin_single_mem {k : List (List Char ×ₗ ℚ)} (hk : KeyStd k) {x : List Char} {q : ℚ} (h : toLex (x, q) ∈ k) :
    lin k (Pi.single x 1) = q := by
  induction k with
  | nil => simp at h
  | cons p k ih =>
    obtain ⟨h1, h2⟩ := List.pairwise_cons.1 hk.1
    rw [lin_cons]
    rcases List.mem_cons.1 h with e | h
    · subst e
      rw [lin_single_notMem (x := x) fun r hr => (h1 r hr).ne']
      simp
    · rw [ih ⟨h2, fun r hr => hk.2 r (by simp [hr])⟩ h, Pi.single_eq_of_ne (show (ofLex p).1 ≠ x from (h1 _ h).ne)]
      simp

theorem key_mem_iff {k : List (List Char ×ₗ ℚ)} (hk : KeyStd k) (x : List Char) (q : ℚ) :
    toLex (x, q) ∈ k ↔ lin k (Pi.single x 1) = q ∧ q ≠ 0 := by
  constructor
  · intro h
    exact ⟨lin_single_mem hk h, hk.2 _ h⟩
  · rintro ⟨h1, h2⟩
    by_cases h : ∃ p ∈ k, (ofLex p).1 = x
    · obtain ⟨p, hp, e⟩ := h
      have hp' : toLex (x, (ofLex p).2) ∈ k := by rw [← e]; exact hp
      have := lin_single_mem hk hp'
      rw [h1] at this
      have e2 : q = (ofLex p).2 := by exact_mod_cast this
      rw [e2]; exact hp'
    · push Not at h
      rw [lin_single_notMem h] at h1
      exact absurd (by exact_mod_cast h1.symm) h2

theorem hom_injective {k l : List (List Char ×ₗ ℚ)} (hk : KeyStd k) (hl : KeyStd l) (h : hom k = hom l) : k = l := by
  have hlin : ∀ g, lin k g = lin l g := by
    intro g
    have := DFunLike.congr_fun h (Multiplicative.ofAdd g)
    rw [hom_apply, hom_apply] at this
    exact _root_.Real.exp_injective this
  have hmem : ∀ p, p ∈ k ↔ p ∈ l := by
    intro p
    have e : p = toLex ((ofLex p).1, (ofLex p).2) := rfl
    rw [e, key_mem_iff hk, key_mem_iff hl, hlin]
  have sk : k.Pairwise (· < ·) := hk.1.imp fun h => Prod.Lex.toLex_lt_toLex.2 (Or.inl h)
  have sl : l.Pairwise (· < ·) := hl.1.imp fun h => Prod.Lex.toLex_lt_toLex.2 (Or.inl h)
  have nk : k.Nodup := sk.imp fun h => h.ne
  have nl : l.Nodup := sl.imp fun h => h.ne
  have hp : k.Perm l := (List.perm_ext_iff_of_nodup nk nl).2 hmem
  exact hp.eq_of_pairwise (fun a b _ _ h1 h2 => absurd h1 (lt_asymm h2)) sk sl

/-- a polynomial as a linear combination of homomorphisms. -/
noncomputable def comb (p : Poly) : (Logs →* ℝ) →₀ ℝ := (p.map fun t => Finsupp.single (hom t.syms.key) t.coe.val).sum

theorem comb_cons (t : Term) (p : Poly) : comb (t :: p) = Finsupp.single (hom t.syms.key) t.coe.val + comb p := rfl

theorem comb_value (p : Poly) (g : List Char → ℝ) :
    Finsupp.linearCombination ℝ (fun f : Logs →* ℝ => (f : Logs → ℝ)) (comb p) (Multiplicative.ofAdd g) =
      Poly.value (fun x => _root_.Real.exp (g x)) p := by
  induction p with
  | nil => simp [comb, Poly.value]
  | cons t p ih =>
    rw [comb_cons, map_add, Pi.add_apply, ih, Finsupp.linearCombination_single, Poly.value_cons]
    unfold Term.value
    rw [Syms.value_hom]
    rfl

/-- polynomials that are equal at all positive assignments are the same linear combination. -/
theorem comb_eq {p q : Poly} (h : ∀ ρ : List Char → ℝ, (∀ x, 0 < ρ x) → Poly.value ρ p = Poly.value ρ q) : comb p = comb q := by
  have hl := linearIndependent_monoidHom Logs ℝ
  refine hl ?_
  funext g
  have := h (fun x => _root_.Real.exp (g.toAdd x)) fun x => _root_.Real.exp_pos _
  rw [← comb_value, ← comb_value] at this
  exact this

theorem comb_nonzero (p : Poly) : comb p.nonzero = comb p := by
  induction p with
  | nil => simp [Poly.nonzero, comb]
  | cons t p ih =>
    by_cases h : t.coe.val = 0
    · rw [Poly.nonzero_cons_zero h, ih, comb_cons, h, Finsupp.single_zero, zero_add]
    · rw [Poly.nonzero_cons h, comb_cons, comb_cons, ih]

theorem comb_notMem {p : Poly} (hp : ∀ t ∈ p, t.Norm) {k : List (List Char ×ₗ ℚ)} (hk : KeyStd k)
    (h : ∀ t ∈ p, t.syms.key ≠ k) : comb p (hom k) = 0 := by
  induction p with
  | nil => simp [comb]
  | cons t p ih =>
    rw [comb_cons, Finsupp.add_apply, ih (fun u hu => hp u (by simp [hu])) fun u hu => h u (by simp [hu]),
      Finsupp.single_eq_of_ne fun e => h t (by simp) (hom_injective (hp t (by simp)).syms.key hk e.symm)]
    simp

theorem comb_mem {p : Poly} (hp : ∀ t ∈ p, t.Norm) (hd : p.Pairwise fun a b => a.syms.key ≠ b.syms.key) {t : Term} (ht : t ∈ p) :
    comb p (hom t.syms.key) = t.coe.val := by
  induction p with
  | nil => simp at ht
  | cons u p ih =>
    obtain ⟨h1, h2⟩ := List.pairwise_cons.1 hd
    have hp' : ∀ t ∈ p, t.Norm := fun v hv => hp v (by simp [hv])
    rw [comb_cons, Finsupp.add_apply]
    rcases List.mem_cons.1 ht with rfl | ht
    · rw [comb_notMem hp' (hp t (by simp)).syms.key fun v hv => (h1 v hv).symm]
      simp
    · rw [ih hp' h2 ht, Finsupp.single_eq_of_ne fun e =>
        h1 t ht (hom_injective (hp u (by simp)).syms.key (hp' t ht).syms.key e.symm)]
      simp

/-- different groups are not like terms. -/
theorem not_like {a b : Term} (ha : a.Norm) (hb : b.Norm) (za : a.coe.val ≠ 0) (zb : b.coe.val ≠ 0) (h : a.group ≠ b.group) :
    ¬ a.Like b := by
  rintro ⟨q, hq⟩
  have hl := linearIndependent_monoidHom Logs ℝ
  have e : Finsupp.single (hom a.syms.key) a.coe.val = Finsupp.single (hom b.syms.key) (q * b.coe.val) := by
    refine hl ?_
    rw [Finsupp.linearCombination_single, Finsupp.linearCombination_single]
    funext g
    have := hq (fun x => _root_.Real.exp (g.toAdd x)) fun x => _root_.Real.exp_pos _
    unfold Term.value at this
    rw [Syms.value_hom, Syms.value_hom] at this
    simp only [Pi.smul_apply, smul_eq_mul]
    rw [mul_assoc]
    exact this
  have hk : a.syms.key = b.syms.key := by
    by_contra hne
    have := DFunLike.congr_fun e (hom a.syms.key)
    rw [Finsupp.single_eq_same, Finsupp.single_eq_of_ne fun e' => hne (hom_injective ha.syms.key hb.syms.key e')] at this
    exact za this
  rw [hk] at e
  have hv : a.coe.val = q * b.coe.val := Finsupp.single_injective _ e
  have := (Real.differ_irrational ha.canon hb.canon za zb).2 ⟨q, hv⟩
  apply h
  unfold Term.group
  rw [hk, this.1, this.2]

end Symxx.Sym
