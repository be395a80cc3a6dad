import Verif.Expr.Tex
import Verif.Expr.TexSpec
import Verif.Expr.PrintLeaf
/-!
# The TeX texts of numbers, terms, polynomials, fractions and trees denote what they should
-/
namespace Symxx.Sym
open Symxx.Num Symxx.Parser

variable {P : (List Char → ℝ) → Prop}

/-- the text is a formula of level `k` that denotes `f` at the assignments in `P`. -/
def TexIs (P : (List Char → ℝ) → Prop) (k : Nat) (s : List Char) (f : Den) : Prop := ∃ v, Tex k s v ∧ ∀ ρ, P ρ → v ρ = f ρ

theorem Tex.down {k m : Nat} {s : List Char} {v : Den} (h : Tex m s v) (hk : k ≤ m) : Tex k s v := by
  induction m with
  | zero =>
    have : k = 0 := by omega
    exact this ▸ h
  | succ m ih =>
    rcases Nat.lt_or_ge m k with h2 | h2
    · have : k = m + 1 := by omega
      exact this ▸ h
    · exact ih (.up h) h2

namespace TexIs
variable {k m : Nat} {s t : List Char} {f g : Den}

theorem down (h : TexIs P m s f) (hk : k ≤ m) : TexIs P k s f := by
  obtain ⟨v, v1, v2⟩ := h
  exact ⟨v, v1.down hk, v2⟩

theorem congr (h : TexIs P k s f) (he : ∀ ρ, P ρ → f ρ = g ρ) : TexIs P k s g := by
  obtain ⟨v, v1, v2⟩ := h
  exact ⟨v, v1, fun ρ hp => (v2 ρ hp).trans (he ρ hp)⟩

theorem opV_eq {c : Char} {v w : Den} (h1 : ∀ ρ, P ρ → v ρ = f ρ) (h2 : ∀ ρ, P ρ → w ρ = g ρ) (ρ) (hp : P ρ) :
    opV c v w ρ = opV c f g ρ := by
  unfold opV
  rw [h1 ρ hp]
  simp only [h2 ρ hp]

theorem paren (h : TexIs P k s f) : TexIs P 4 (Node.wrap true s) f := by
  obtain ⟨v, v1, v2⟩ := h
  exact ⟨v, .paren (v1.down (Nat.zero_le _)), v2⟩

theorem frac (h1 : TexIs P 0 s f) (h2 : TexIs P 0 t g) :
    TexIs P 3 ("\\frac{".toList ++ s ++ "}{".toList ++ t ++ "}".toList) (opV '/' f g) := by
  obtain ⟨v, v1, v2⟩ := h1
  obtain ⟨w, w1, w2⟩ := h2
  exact ⟨_, .frac v1 w1, opV_eq v2 w2⟩

theorem pow (h1 : TexIs P 4 s f) (h2 : TexIs P 0 t g) : TexIs P 3 (s ++ "^{".toList ++ t ++ "}".toList) (opV '^' f g) := by
  obtain ⟨v, v1, v2⟩ := h1
  obtain ⟨w, w1, w2⟩ := h2
  exact ⟨_, .pow v1 w1, opV_eq v2 w2⟩

theorem juxt (h1 : TexIs P 2 s f) (h2 : TexIs P 3 t g) (hd : ∀ c ∈ t.head?, isDig c = false) : TexIs P 2 (s ++ t) (opV '*' f g) := by
  obtain ⟨v, v1, v2⟩ := h1
  obtain ⟨w, w1, w2⟩ := h2
  exact ⟨_, .juxt v1 w1 hd, opV_eq v2 w2⟩

theorem sub (hk : k ≤ 1) (h1 : TexIs P k s f) (h2 : TexIs P 2 t g) : TexIs P k (s ++ "-".toList ++ t) (opV '-' f g) := by
  obtain ⟨v, v1, v2⟩ := h1
  obtain ⟨w, w1, w2⟩ := h2
  exact ⟨_, .sub hk v1 w1, opV_eq v2 w2⟩

theorem neg (h1 : TexIs P 2 s f) : TexIs P 0 ("-".toList ++ s) (opV '-' (fun _ => some 0) f) := by
  obtain ⟨v, v1, v2⟩ := h1
  exact ⟨_, .neg v1, opV_eq (fun _ _ => rfl) v2⟩

/-- `a * (b * c)` without the parentheses. -/
theorem mul_chain {s : List Char} {v : Den} (h : Tex 2 s v) {l : Nat} {t : List Char} {w : Den} (ht : Tex l t w) (hl : l = 2) :
    ∃ x, Tex 2 (s ++ "\\times ".toList ++ t) x ∧ ∀ ρ, x ρ = opV '*' v w ρ := by
  have assoc : ∀ (x v w u : Den) (ρ : List Char → ℝ), x ρ = opV '*' v w ρ → opV '*' x u ρ = opV '*' v (opV '*' w u) ρ := by
    intro x v w u ρ hx
    unfold opV at hx ⊢
    rw [hx]
    cases v ρ <;> cases w ρ <;> cases u ρ <;> simp [opSem]
    ring
  induction ht with
  | juxt h1 h2 hd ih1 ih2 =>
    obtain ⟨x, x1, x2⟩ := ih1 rfl
    have := x1.juxt h2 hd
    rw [List.append_assoc] at this
    exact ⟨_, this, fun ρ => assoc _ _ _ _ ρ (x2 ρ)⟩
  | times h1 h2 ih1 ih2 =>
    obtain ⟨x, x1, x2⟩ := ih1 rfl
    have := x1.times h2
    simp only [List.append_assoc] at this ⊢
    exact ⟨_, this, fun ρ => assoc _ _ _ _ ρ (x2 ρ)⟩
  | up h1 ih =>
    subst hl
    exact ⟨_, h.times h1, fun ρ => rfl⟩
  | add h => omega
  | sub h => omega
  | _ => simp at hl

/-- `a + (b ± c)` without the parentheses. -/
theorem add_chain {k : Nat} (hk : k ≤ 1) {s : List Char} {v : Den} (h : Tex k s v) {l : Nat} {t : List Char} {w : Den} (ht : Tex l t w)
    (hl : l = 1) : ∃ x, Tex k (s ++ "+".toList ++ t) x ∧ ∀ ρ, x ρ = opV '+' v w ρ := by
  induction ht with
  | add _ h1 h2 ih1 ih2 =>
    obtain ⟨x, x1, x2⟩ := ih1 hl
    have := x1.add hk h2
    simp only [List.append_assoc] at this ⊢
    refine ⟨_, this, fun ρ => ?_⟩
    have := x2 ρ
    unfold opV at this ⊢
    rw [this]
    rename_i v' w' _ _
    cases v ρ <;> cases v' ρ <;> cases w' ρ <;> simp [opSem]
    ring
  | sub _ h1 h2 ih1 ih2 =>
    obtain ⟨x, x1, x2⟩ := ih1 hl
    have := x1.sub hk h2
    simp only [List.append_assoc] at this ⊢
    refine ⟨_, this, fun ρ => ?_⟩
    have := x2 ρ
    unfold opV at this ⊢
    rw [this]
    rename_i v' w' _ _
    cases v ρ <;> cases v' ρ <;> cases w' ρ <;> simp [opSem]
    ring
  | up h1 ih =>
    subst hl
    exact ⟨_, h.add hk h1, fun ρ => rfl⟩
  | _ => simp at hl

theorem mul (h1 : TexIs P 2 s f) (h2 : TexIs P 2 t g) : TexIs P 2 (s ++ "\\times ".toList ++ t) (opV '*' f g) := by
  obtain ⟨v, v1, v2⟩ := h1
  obtain ⟨w, w1, w2⟩ := h2
  obtain ⟨x, x1, x2⟩ := mul_chain v1 w1 rfl
  exact ⟨x, x1, fun ρ hp => (x2 ρ).trans (opV_eq v2 w2 ρ hp)⟩

theorem add (hk : k ≤ 1) (h1 : TexIs P k s f) (h2 : TexIs P 1 t g) : TexIs P k (s ++ "+".toList ++ t) (opV '+' f g) := by
  obtain ⟨v, v1, v2⟩ := h1
  obtain ⟨w, w1, w2⟩ := h2
  obtain ⟨x, x1, x2⟩ := add_chain hk v1 w1 rfl
  exact ⟨x, x1, fun ρ hp => (x2 ρ).trans (opV_eq v2 w2 ρ hp)⟩

/-- a natural number. -/
theorem int (n : Int) (h : 0 ≤ n) : TexIs P 4 (toString n).toList (fun _ => some (n : ℝ)) := by
  obtain ⟨hD, hv⟩ := spell_numeral (M := n) (q := ⟨n, 1⟩) ⟨h, le_rfl, rfl⟩
  simp only at hD hv
  exact ⟨_, .num hD, fun ρ _ => by rw [hv]⟩

end TexIs

/-- a product, possibly with a sign before it. -/
def Sgn (P : (List Char → ℝ) → Prop) (s : List Char) (f : (List Char → ℝ) → ℝ) : Prop :=
  TexIs P 2 s (fun ρ => some (f ρ)) ∨ ∃ s', s = '-' :: s' ∧ TexIs P 2 s' (fun ρ => some (- f ρ))

theorem Sgn.top {s : List Char} {f : (List Char → ℝ) → ℝ} (h : Sgn P s f) : TexIs P 0 s (fun ρ => some (f ρ)) := by
  rcases h with h | ⟨s', rfl, h⟩
  · exact h.down (Nat.zero_le _)
  · exact h.neg.congr fun ρ _ => by simp [opV, opSem]

theorem Sgn.congr {s : List Char} {f g : (List Char → ℝ) → ℝ} (h : Sgn P s f) (he : ∀ ρ, f ρ = g ρ) : Sgn P s g := by
  have : f = g := funext he
  exact this ▸ h

theorem Sgn.juxt {s t : List Char} {f g : (List Char → ℝ) → ℝ} (h : Sgn P s f) (h2 : TexIs P 3 t (fun ρ => some (g ρ)))
    (hd : ∀ c ∈ t.head?, isDig c = false) : Sgn P (s ++ t) (fun ρ => f ρ * g ρ) := by
  rcases h with h | ⟨s', rfl, h⟩
  · exact Or.inl ((h.juxt h2 hd).congr fun ρ _ => by simp [opV, opSem])
  · exact Or.inr ⟨s' ++ t, rfl, (h.juxt h2 hd).congr fun ρ _ => by simp [opV, opSem]⟩

/-! ### numbers -/

/-- the text of a rational number. -/
theorem rat_tex {q : Rational} (hd : 0 < q.den) :
    (0 ≤ q.num → TexIs P 3 q.toTex (fun _ => some ((q.val : ℚ) : ℝ))) ∧ Sgn P q.toTex (fun _ => ((q.val : ℚ) : ℝ)) := by
  have hd' : ((q.den : ℚ) : ℝ) ≠ 0 := by
    have : q.den ≠ 0 := hd.ne'
    exact_mod_cast this
  have hi : ∀ n : Int, TexIs P 0 (toString n).toList (fun _ => some (n : ℝ)) ∧ Sgn P (toString n).toList (fun _ => (n : ℝ)) := by
    intro n
    have : Sgn P (toString n).toList (fun _ => (n : ℝ)) := by
      by_cases hn : n < 0
      · rw [toString_neg n hn]
        refine Or.inr ⟨_, rfl, ((TexIs.int (-n) (by omega)).down (by omega)).congr fun ρ _ => ?_⟩
        push_cast; rfl
      · exact Or.inl ((TexIs.int n (by omega)).down (by omega))
    exact ⟨this.top, this⟩
  unfold Rational.toTex
  by_cases h1 : q.den = 1
  · have hv : ((q.val : ℚ) : ℝ) = (q.num : ℝ) := by unfold Rational.val; rw [h1]; simp
    rw [if_neg (by simpa using h1), hv]
    exact ⟨fun h => (TexIs.int _ h).down (by omega), (hi _).2⟩
  · rw [if_pos h1]
    have : TexIs P 3 ("\\frac{".toList ++ (toString q.num).toList ++ "}{".toList ++ (toString q.den).toList ++ "}".toList)
        (fun _ => some ((q.val : ℚ) : ℝ)) := by
      refine ((hi q.num).1.frac (hi q.den).1).congr fun ρ _ => ?_
      have h2 : (q.den : ℝ) ≠ 0 := by exact_mod_cast hd'
      simp [opV, opSem, h2, Rational.val]
    exact ⟨fun _ => this, Or.inl (this.down (by omega))⟩

variable {env : Env} {B : Nat}

/-- the text of a coefficient. -/
theorem coe_tex (hg : env.Good B) {r : Num.Real} (h : CoeOk env.M B r) (hi : r.index ≤ 2) (hz : r.coe.num ≠ 0) :
    ∃ s, Real.toTex env r = .ok s ∧ (0 < r.coe.num → TexIs P 2 s (fun _ => some r.val)) ∧ Sgn P s (fun _ => r.val) := by
  have hM := hg.M1
  have hir := isRational_ok hg h
  obtain ⟨⟨N, e1, e2, e3, e4⟩, h2, hf, h4, h5⟩ := h
  have hv : r.val = (r.coe.val : ℝ) * (N : ℝ) ^ ((1 : ℝ) / r.index) := Real.val_canon e1
  obtain ⟨q1, q2⟩ := rat_tex (P := P) h2
  unfold Real.toTex
  rw [Rational.eqInt_spec _ _ _ hM (by norm_num) hf, Res.bind_ok]
  have hz' : ¬ r.coe.num = 0 * r.coe.den := by simpa using hz
  simp only [hz', decide_false, Bool.false_eq_true, if_false]
  rw [hir, Res.bind_ok]
  by_cases hN1 : N = 1
  · have hvq : r.val = ((r.coe.val : ℚ) : ℝ) := by rw [hv, hN1]; simp
    rw [hvq]
    exact ⟨_, by simp [e1, hN1], fun hp => (q1 hp.le).down (by omega), q2⟩
  · simp only [hz, e1, Rational.mk.injEq, Nat.cast_eq_one, hN1, false_and, or_self, decide_false, Bool.false_eq_true, if_false]
    have hk : r.index ≠ 1 := fun hc => hN1 ((Simplest.one_iff e2).1 hc)
    have hk0 := e2.2.1
    have hk2 : r.index = 2 := by omega
    have hroot : TexIs P 3 ("\\sqrt{".toList ++ Rational.toTex ⟨N, 1⟩ ++ ['}']) (fun _ => some ((N : ℝ) ^ ((1 : ℝ) / 2))) := by
      obtain ⟨v, v1, v2⟩ := TexIs.int (P := P) (N : Int) (by omega)
      have : Rational.toTex ⟨N, 1⟩ = (toString (N : Int)).toList := by unfold Rational.toTex; simp
      rw [this]
      refine ⟨_, .sqrt (v1.down (Nat.zero_le _)), fun ρ hp => ?_⟩
      have hN : (0 : ℝ) ≤ N := by positivity
      have hN' : (0 : ℝ) < N := by
        have := e2.1
        exact_mod_cast this
      unfold opV
      rw [v2 ρ hp]
      simp only [Option.bind_some, opSem, Char.reduceEq, if_false, if_true]
      rw [if_pos (Or.inl (by simpa using hN'))]
      simp
    have hhead : ∀ c ∈ ("\\sqrt{".toList ++ Rational.toTex ⟨N, 1⟩ ++ ['}']).head?, isDig c = false := by
      intro c hc
      simp at hc
      subst hc
      decide
    rw [Rational.eqInt_spec _ _ _ hM (by norm_num) hf, Res.bind_ok]
    simp only [hk2, ne_eq, not_true_eq_false, if_false]
    rw [hk2] at hv
    have hden : (r.coe.den : ℚ) ≠ 0 := by
      have : r.coe.den ≠ 0 := by omega
      exact_mod_cast this
    by_cases h1 : r.coe.num = 1 * r.coe.den
    · simp only [h1, decide_true, if_true, Res.bind_ok, List.nil_append]
      have hvv : r.val = (N : ℝ) ^ ((1 : ℝ) / 2) := by
        rw [hv]
        have : r.coe.val = 1 := by
          unfold Rational.val
          rw [h1, one_mul, div_self hden]
        rw [this]; simp
      rw [hvv]
      exact ⟨_, rfl, fun _ => hroot.down (by omega), Or.inl (hroot.down (by omega))⟩
    · simp only [h1, decide_false, Bool.false_eq_true, if_false]
      rw [Rational.eqInt_spec _ _ _ hM (by norm_num) hf, Res.bind_ok]
      by_cases hm : r.coe.num = -1 * r.coe.den
      · simp only [hm, decide_true, if_true]
        have hvv : - r.val = (N : ℝ) ^ ((1 : ℝ) / 2) := by
          rw [hv]
          have : r.coe.val = -1 := by
            unfold Rational.val
            rw [hm]
            push_cast
            rw [neg_mul, one_mul, neg_div, div_self hden]
          rw [this]; simp
        refine ⟨_, rfl, fun hp => by omega, Or.inr ⟨_, rfl, ?_⟩⟩
        simp only [hvv]
        exact hroot.down (by omega)
      · simp only [hm, decide_false, Bool.false_eq_true, if_false]
        refine ⟨_, rfl, fun hp => ?_, ?_⟩
        · refine (((q1 hp.le).down (k := 2) (by omega)).juxt hroot hhead).congr fun ρ _ => ?_
          rw [hv]
          simp [opV, opSem]
        · refine (q2.juxt hroot hhead).congr fun ρ => ?_
          rw [hv]
          norm_num

/-! ### terms -/

/-- the power is a real number. -/
def PowReal (ρ : List Char → ℝ) (p : List Char × Rational) : Prop :=
  0 < ρ p.1 ∨ (ρ p.1 = 0 ∧ 0 ≤ p.2.num) ∨ p.2.num = 0 ∨ (ρ p.1 < 0 ∧ p.2.den = 1)

theorem powReal_sem {ρ : List Char → ℝ} {p : List Char × Rational} (hd : 0 < p.2.den) (h : PowReal ρ p) :
    opSem '^' (ρ p.1) ((p.2.val : ℚ) : ℝ) = some (ρ p.1 ^ ((p.2.val : ℚ) : ℝ)) := by
  simp only [opSem, Char.reduceEq, if_false, if_true]
  rw [if_pos]
  have hd' : (0 : ℚ) < p.2.den := by exact_mod_cast hd
  rcases h with h | ⟨h1, h2⟩ | h | ⟨h1, h2⟩
  · exact Or.inl h
  · refine Or.inr (Or.inl ⟨h1, ?_⟩)
    have : (0 : ℚ) ≤ p.2.val := by
      unfold Rational.val
      have : (0 : ℚ) ≤ p.2.num := by exact_mod_cast h2
      positivity
    exact_mod_cast this
  · have h0 : p.2.val = 0 := by unfold Rational.val; rw [h]; simp
    rw [h0]
    rcases lt_trichotomy (ρ p.1) 0 with h | h | h
    · exact Or.inr (Or.inr ⟨h, 0, by simp⟩)
    · exact Or.inr (Or.inl ⟨h, by simp⟩)
    · exact Or.inl h
  · refine Or.inr (Or.inr ⟨h1, p.2.num, ?_⟩)
    unfold Rational.val
    rw [h2]; simp

/-- the symbol without exponent. -/
theorem sym_tex {x : List Char} (h : TexSym x) :
    TexIs P 4 (if x.length ≠ 1 then ['\\'] ++ x ++ [' '] else x) (fun ρ => some (ρ x)) := by
  rcases h with h | ⟨c, rfl, h⟩
  · rw [if_pos (by have := h.1; omega)]
    exact ⟨_, .name h, fun ρ _ => rfl⟩
  · rw [if_neg (by simp)]
    exact ⟨_, .letter h, fun ρ _ => rfl⟩

theorem sym_head' {x : List Char} (h : TexSym x) (y : List Char) (z : List Char) :
    ∀ c ∈ ((if x.length ≠ 1 then ['\\'] ++ x ++ y else x) ++ z).head?, isDig c = false := by
  intro c hc
  rcases h with h | ⟨d, rfl, h⟩
  · rw [if_pos (by have := h.1; omega)] at hc
    simp at hc
    subst hc
    decide
  · rw [if_neg (by simp)] at hc
    simp at hc
    subst hc
    exact (alpha_facts h).2.1

/-- one power of a symbol. -/
theorem symTex_ok (hM : 1 ≤ env.M) {p : List Char × Rational} (h : TexSym p.1 ∧ p.2.Fits env.M ∧ 0 < p.2.den)
    (hP : ∀ ρ, P ρ → PowReal ρ p) : ∃ s, Term.symTex env p = .ok s ∧
      TexIs P 3 s (fun ρ => some (ρ p.1 ^ ((p.2.val : ℚ) : ℝ))) ∧ ∀ c ∈ s.head?, isDig c = false := by
  obtain ⟨x, q⟩ := p
  obtain ⟨h1, h2, h3⟩ := h
  simp only at h1 h2 h3
  unfold Term.symTex
  simp only
  rw [Rational.eqInt_spec _ _ _ hM (by norm_num) h2, Res.bind_ok]
  by_cases hn : q.num = 1 * q.den
  · simp only [hn, decide_true, Bool.not_true, Bool.false_eq_true, if_false]
    refine ⟨_, rfl, ((sym_tex h1).down (by omega)).congr fun ρ _ => ?_, ?_⟩
    · have : q.val = 1 := by
        unfold Rational.val
        have : (q.den : ℚ) ≠ 0 := by
          have : q.den ≠ 0 := by omega
          exact_mod_cast this
        rw [hn, one_mul, div_self this]
      rw [this]; simp
    · have := sym_head' h1 [' '] []
      rwa [List.append_nil] at this
  · simp only [hn, decide_false, Bool.not_false, if_true]
    have hq : TexIs P 0 q.toTex (fun _ => some ((q.val : ℚ) : ℝ)) := (rat_tex h3).2.top
    refine ⟨_, rfl, ?_, ?_⟩
    · rcases h1 with h1 | ⟨c, rfl, h1⟩
      · rw [if_pos (by have := h1.1; omega)]
        obtain ⟨w, w1, w2⟩ := hq
        refine ⟨_, .powName h1 w1, fun ρ hp => ?_⟩
        unfold opV
        rw [w2 ρ hp]
        exact powReal_sem (p := (x, q)) h3 (hP ρ hp)
      · rw [if_neg (by simp)]
        have := (sym_tex (P := P) (x := [c]) (Or.inr ⟨c, rfl, h1⟩)).pow hq
        rw [if_neg (by simp)] at this
        refine this.congr fun ρ hp => ?_
        exact powReal_sem (p := ([c], q)) h3 (hP ρ hp)
    · have := sym_head' h1 [] (['^', '{'] ++ q.toTex ++ ['}'])
      simpa using this

/-- the symbols after a coefficient, and on their own. -/
theorem symsTex_ok (hM : 1 ≤ env.M) {s : Syms} (h : ∀ p ∈ s, TexSym p.1 ∧ p.2.Fits env.M ∧ 0 < p.2.den)
    (hP : ∀ p ∈ s, ∀ ρ, P ρ → PowReal ρ p) :
    ∃ t, Term.symsTex env s = .ok t ∧
      (∀ (a : List Char) (f : (List Char → ℝ) → ℝ), TexIs P 2 a (fun ρ => some (f ρ)) → TexIs P 2 (a ++ t) (fun ρ => some (f ρ * s.value ρ))) ∧
      (s ≠ [] → TexIs P 2 t (fun ρ => some (s.value ρ))) := by
  induction s with
  | nil =>
    refine ⟨[], rfl, fun a f ha => ?_, fun h => absurd rfl h⟩
    rw [List.append_nil]
    exact ha.congr fun ρ _ => by simp [Syms.value]
  | cons p s ih =>
    obtain ⟨t1, a1, a2, a3⟩ := symTex_ok hM (h p (by simp)) (hP p (by simp))
    obtain ⟨t2, b1, b2, -⟩ := ih (fun q hq => h q (by simp [hq])) (fun q hq => hP q (by simp [hq]))
    refine ⟨t1 ++ t2, ?_, fun a f ha => ?_, fun _ => ?_⟩
    · unfold Term.symsTex
      rw [a1, Res.bind_ok, b1, Res.bind_ok]
    · have h1 := (ha.juxt a2 a3).congr (g := fun ρ => some (f ρ * ρ p.1 ^ ((p.2.val : ℚ) : ℝ))) fun ρ _ => by
        simp [opV, opSem]
      have := b2 _ _ h1
      rw [← List.append_assoc]
      refine this.congr fun ρ _ => ?_
      simp only [Syms.value, List.map_cons, List.prod_cons]
      rw [mul_assoc]
    · refine (b2 _ _ (a2.down (by omega))).congr fun ρ _ => by simp [Syms.value]

/-- the text of a term with a coefficient other than zero. -/
theorem term_tex (hg : env.Good B) {t : Term} (h : TexTermOk env.M B t) (hP : ∀ p ∈ t.syms, ∀ ρ, P ρ → PowReal ρ p)
    (hz : t.coe.coe.num ≠ 0) :
    ∃ s, Term.toTex env t = .ok s ∧ (0 < t.coe.coe.num → TexIs P 2 s (fun ρ => some (t.value ρ))) ∧ Sgn P s t.value := by
  have hM := hg.M1
  obtain ⟨hc, hi, hs⟩ := h
  have hd := hc.den
  obtain ⟨u, u1, u2, u3⟩ := symsTex_ok hM hs hP
  have hden : (t.coe.coe.den : ℚ) ≠ 0 := by
    have : t.coe.coe.den ≠ 0 := by omega
    exact_mod_cast this
  have hval : ∀ k : Int, t.coe.coe.num = k * t.coe.coe.den → t.coe.rad = ⟨1, 1⟩ → t.coe.val = k := by
    intro k h1 h2
    have hv := Real.val_canon (a := t.coe) (N := 1) (by rw [h2]; rfl)
    rw [hv]
    have : t.coe.coe.val = k := by
      unfold Rational.val
      rw [h1]
      push_cast
      rw [mul_div_assoc, div_self hden, mul_one]
    rw [this]; simp
  unfold Term.toTex
  rw [coe_zero hg hc, Res.bind_ok]
  simp only [hz, decide_false, Bool.false_eq_true, if_false]
  rw [coeIs_ok hg hc (by norm_num), Res.bind_ok]
  by_cases h1 : (t.coe.coe.num = 1 * t.coe.coe.den ∧ t.coe.rad = ⟨1, 1⟩) ∧ t.syms ≠ []
  · obtain ⟨⟨h1, h2⟩, h3⟩ := h1
    have h3' : t.syms.isEmpty = false := by simpa using h3
    simp only [h1, h2, and_self, decide_true, Bool.not_true, h3', Bool.or_self, Bool.false_eq_true, if_false, Res.bind_ok,
      List.nil_append]
    rw [u1, Res.bind_ok]
    have : TexIs P 2 u (fun ρ => some (t.value ρ)) := (u3 h3).congr fun ρ _ => by
      unfold Term.value
      rw [hval 1 h1 h2]; simp
    exact ⟨u, rfl, fun _ => this, Or.inl this⟩
  · have hcond : (!decide (t.coe.coe.num = 1 * t.coe.coe.den ∧ t.coe.rad = ⟨1, 1⟩) || t.syms.isEmpty) = true := by
      rw [not_and_or, not_not] at h1
      rcases h1 with h1 | h1
      · simp only [h1, decide_false, Bool.not_false, Bool.true_or]
      · simp [h1]
    rw [hcond, if_pos rfl, coeIs_ok hg hc (by norm_num), Res.bind_ok]
    by_cases h2 : (t.coe.coe.num = -1 * t.coe.coe.den ∧ t.coe.rad = ⟨1, 1⟩) ∧ t.syms ≠ []
    · have h3' : t.syms.isEmpty = false := by simpa using h2.2
      simp only [decide_eq_true h2.1, h3', Bool.not_false, Bool.and_self, if_true, Res.bind_ok]
      rw [u1, Res.bind_ok]
      refine ⟨_, rfl, fun hp => by have := h2.1.1; omega, Or.inr ⟨u, rfl, (u3 h2.2).congr fun ρ _ => ?_⟩⟩
      unfold Term.value
      rw [hval (-1) h2.1.1 h2.1.2]; simp
    · have e1 : (decide (t.coe.coe.num = -1 * t.coe.coe.den ∧ t.coe.rad = ⟨1, 1⟩) && !t.syms.isEmpty) = false := by
        rw [not_and_or, not_not] at h2
        rcases h2 with h2 | h2
        · simp only [h2, decide_false, Bool.false_and]
        · simp [h2]
      rw [e1]
      simp only [Bool.false_eq_true, if_false]
      obtain ⟨a, a1, a2, a3⟩ := coe_tex (P := P) hg hc hi hz
      rw [a1, Res.bind_ok, u1, Res.bind_ok]
      refine ⟨_, rfl, fun hp => u2 _ _ (a2 hp), ?_⟩
      rcases a3 with a3 | ⟨s', rfl, a3⟩
      · exact Or.inl (u2 _ _ a3)
      · refine Or.inr ⟨s' ++ u, rfl, (u2 _ _ a3).congr fun ρ _ => ?_⟩
        unfold Term.value
        rw [neg_mul]

theorem dropZero_tex {M : Int} (hM : 1 ≤ M) {s : Syms} (h : ∀ p ∈ s, p.2.Fits M) :
    ∃ s', Syms.dropZero M s = .ok s' ∧ (∀ p ∈ s', p ∈ s) ∧ ∀ ρ, Syms.value ρ s' = Syms.value ρ s := by
  induction s with
  | nil => exact ⟨[], rfl, by simp, fun ρ => rfl⟩
  | cons p s ih =>
    obtain ⟨s', e1, e2, e3⟩ := ih fun q hq => h q (by simp [hq])
    obtain ⟨x, q⟩ := p
    unfold Syms.dropZero
    rw [Rational.eqInt_spec _ _ _ hM (by norm_num) (h (x, q) (by simp)), Res.bind_ok, e1, Res.bind_ok]
    by_cases hn : q.num = 0
    · refine ⟨s', by simp [hn], fun p hp => List.mem_cons_of_mem _ (e2 p hp), fun ρ => ?_⟩
      rw [e3]
      simp [Syms.value, Rational.val, hn]
    · have hn' : ¬ q.num = 0 * q.den := by simpa using hn
      refine ⟨_, rfl, ?_, fun ρ => ?_⟩
      · simp only [hn', decide_false, Bool.false_eq_true, if_false, List.mem_cons]
        rintro p (rfl | hp)
        · exact Or.inl rfl
        · exact Or.inr (e2 p hp)
      · simp only [hn', decide_false, Bool.false_eq_true, if_false]
        have := e3 ρ
        unfold Syms.value at this ⊢
        simp only [List.map_cons, List.prod_cons, this]

/-- the negated term that is printed after a `-`. -/
theorem term_negate_tex (hg : env.Good B) {t : Term} (h : TexTermOk env.M B t) (hn : t.coe.coe.num < 0) :
    ∃ t', Term.negate env t = .ok t' ∧ TexTermOk env.M B t' ∧ (∀ p ∈ t'.syms, p ∈ t.syms) ∧ 0 < t'.coe.coe.num ∧
      ∀ ρ, t'.value ρ = - t.value ρ := by
  obtain ⟨hc, hi, hs⟩ := h
  obtain ⟨r, r1, r2, r3, -, r5, r6, r7, r8⟩ := (Real.negate_sat hg hc.canon hc.rad).defined hc.fits
  have hd := r5 hc.den
  have h0 : 0 < r.coe.num := by
    have s1 := (Real.val_sign hc.canon hc.den).1.2 hn
    exact (Real.val_sign r2 hd).2.1 (by rw [r3]; linarith)
  obtain ⟨s', d1, d2, d3⟩ := dropZero_tex hg.M1 fun p hp => (hs p hp).2.1
  refine ⟨⟨r, s'⟩, ?_, ⟨⟨r2, hd, ⟨le_trans r7 hc.fits.1, le_trans r8 hc.fits.2⟩, by rw [← r6.1]; exact hc.rad,
    by rw [← r6.2]; exact hc.index⟩, by rw [← r6.2]; exact hi, fun p hp => hs p (d2 p hp)⟩, d2, h0, ?_⟩
  · unfold Term.negate Term.mk'
    rw [r1, Res.bind_ok, d1, Res.bind_ok]
  · intro ρ
    unfold Term.value
    simp only
    rw [r3, neg_mul, d3]

/-! ### polynomials -/

theorem TexPolyOk.coe {M : Int} {p : Poly} (h : TexPolyOk M B p) : ∀ t ∈ p, CoeOk M B t.coe := fun t ht => (h t ht).coe

/-- the terms after the first one. -/
theorem texLoop_rest (hg : env.Good B) {p : Poly} (h : TexPolyOk env.M B p) (hP : ∀ ρ, P ρ → p.RealAt ρ) :
    ∃ u, Poly.texLoop env p false = .ok u ∧ ∀ (k : Nat) (_ : k ≤ 1) (a : List Char) (f : (List Char → ℝ) → ℝ),
      TexIs P k a (fun ρ => some (f ρ)) → TexIs P k (a ++ u) (fun ρ => some (f ρ + Poly.value ρ p)) := by
  induction p with
  | nil =>
    refine ⟨[], rfl, fun k _ a f ha => ?_⟩
    rw [List.append_nil]
    exact ha.congr fun ρ _ => by simp [Poly.value]
  | cons t p ih =>
    obtain ⟨u, u1, u2⟩ := ih (fun q hq => h q (by simp [hq])) (fun ρ hp t ht => hP ρ hp t (by simp [ht]))
    have ht := h t (by simp)
    have hPt : ∀ q ∈ t.syms, ∀ ρ, P ρ → PowReal ρ q := fun q hq ρ hp => hP ρ hp t (by simp) q hq
    unfold Poly.texLoop
    rw [coe_zero hg ht.coe, Res.bind_ok]
    by_cases h0 : t.coe.coe.num = 0
    · simp only [h0, decide_true, if_true]
      refine ⟨u, u1, fun k hk a f ha => (u2 k hk a f ha).congr fun ρ _ => ?_⟩
      rw [value_cons, value_zero h0, zero_add]
    · simp only [h0, decide_false, Bool.false_eq_true, if_false]
      rw [isPositive_ok hg ht.coe, Res.bind_ok]
      by_cases hp : 0 < t.coe.coe.num
      · simp only [hp, decide_true, Bool.not_true, Bool.false_eq_true, if_false]
        obtain ⟨x, x1, x2, -⟩ := term_tex hg ht hPt h0
        refine ⟨['+'] ++ x ++ u, by rw [x1, Res.bind_ok, u1, Res.bind_ok], fun k hk a f ha => ?_⟩
        have := (ha.add hk ((x2 hp).down (by omega))).congr (g := fun ρ => some (f ρ + t.value ρ)) fun ρ _ => by simp [opV, opSem]
        have := u2 k hk _ _ this
        simp only [List.append_assoc] at this ⊢
        refine this.congr fun ρ _ => ?_
        rw [value_cons, add_assoc]
      · simp only [hp, decide_false, Bool.not_false, if_true]
        obtain ⟨t', t1, t2, t3, t4, t5⟩ := term_negate_tex hg ht (by omega)
        obtain ⟨x, x1, x2, -⟩ := term_tex hg t2 (fun q hq => hPt q (t3 q hq)) (by omega)
        refine ⟨['-'] ++ x ++ u, by rw [t1, Res.bind_ok, x1, Res.bind_ok, u1, Res.bind_ok], fun k hk a f ha => ?_⟩
        have := (ha.sub hk (x2 t4)).congr (g := fun ρ => some (f ρ + t.value ρ)) fun ρ _ => by
          simp [opV, opSem, t5]
        have := u2 k hk _ _ this
        simp only [List.append_assoc] at this ⊢
        refine this.congr fun ρ _ => ?_
        rw [value_cons, add_assoc]

theorem zero_tex : TexIs P 4 ['0'] (fun _ => some 0) := (TexIs.int 0 le_rfl).congr fun ρ _ => by simp

/-- the text of a polynomial. -/
theorem poly_tex (hg : env.Good B) {p : Poly} (h : TexPolyOk env.M B p) (hP : ∀ ρ, P ρ → p.RealAt ρ) :
    ∃ s, Poly.toTex env p = .ok s ∧ TexIs P 0 s (fun ρ => some (Poly.value ρ p)) ∧
      ((∃ t ts, p = t :: ts ∧ 0 < t.coe.coe.num) → TexIs P 1 s (fun ρ => some (Poly.value ρ p))) ∧
      ((∃ t, p = [t] ∧ 0 ≤ t.coe.coe.num) → TexIs P 2 s (fun ρ => some (Poly.value ρ p))) := by
  unfold Poly.toTex
  cases p with
  | nil =>
    refine ⟨['0'], by simp, (zero_tex.down (by omega)).congr fun ρ _ => by simp [Poly.value], ?_, ?_⟩
    · rintro ⟨t, ts, e, -⟩; simp at e
    · rintro ⟨t, e, -⟩; simp at e
  | cons t0 ts0 =>
    simp only [List.isEmpty_cons, Bool.false_eq_true, if_false]
    rw [nonzeros_ok hg h.coe, Res.bind_ok]
    by_cases hz : ((t0 :: ts0).countP fun t => t.coe.coe.num ≠ 0) = 0
    · rw [if_pos hz]
      have z1 : TexIs P 4 ['0'] (fun ρ => some (Poly.value ρ (t0 :: ts0))) := zero_tex.congr fun ρ _ => by rw [poly_zero hz]
      exact ⟨['0'], rfl, z1.down (by omega), fun _ => z1.down (by omega), fun _ => z1.down (by omega)⟩
    · rw [if_neg hz]
      generalize t0 :: ts0 = p at h hz hP
      clear t0 ts0
      induction p with
      | nil => simp at hz
      | cons t p ih =>
        have ht := h t (by simp)
        have hrest : TexPolyOk env.M B p := fun q hq => h q (by simp [hq])
        have hPr : ∀ ρ, P ρ → Poly.RealAt ρ p := fun ρ hp t ht => hP ρ hp t (by simp [ht])
        have hPt : ∀ q ∈ t.syms, ∀ ρ, P ρ → PowReal ρ q := fun q hq ρ hp => hP ρ hp t (by simp) q hq
        unfold Poly.texLoop
        rw [coe_zero hg ht.coe, Res.bind_ok]
        by_cases h0 : t.coe.coe.num = 0
        · simp only [h0, decide_true, if_true]
          have hz' : (p.countP fun t => t.coe.coe.num ≠ 0) ≠ 0 := by
            rw [List.countP_cons] at hz
            simpa [h0] using hz
          obtain ⟨s, s1, s2, -, -⟩ := ih hrest hz' hPr
          refine ⟨s, s1, s2.congr fun ρ _ => by rw [value_cons, value_zero h0, zero_add], ?_, ?_⟩
          · rintro ⟨t', ts', e, e2⟩
            injection e with e e'
            subst e
            omega
          · rintro ⟨t', e, e2⟩
            injection e with e e'
            subst e'
            simp at hz'
        · simp only [h0, decide_false, Bool.false_eq_true, if_false]
          obtain ⟨u, u1, u2⟩ := texLoop_rest hg hrest hPr
          simp only [if_true]
          obtain ⟨x, x1, x2, x3⟩ := term_tex hg ht hPt h0
          have hv : ∀ ρ, P ρ → (some (t.value ρ + Poly.value ρ p) : Option ℝ) = some (Poly.value ρ (t :: p)) := fun ρ _ => by rw [value_cons]
          refine ⟨x ++ u, by rw [x1, Res.bind_ok, u1, Res.bind_ok], (u2 0 (by omega) x _ x3.top).congr hv, ?_, ?_⟩
          · rintro ⟨t', ts', e, e2⟩
            injection e with e e'
            subst e
            exact (u2 1 (by omega) x _ ((x2 e2).down (by omega))).congr hv
          · rintro ⟨t', e, e2⟩
            injection e with e e'
            subst e e'
            have hu : u = [] := by
              unfold Poly.texLoop at u1
              injection u1 with u1
              exact u1.symm
            subst hu
            rw [List.append_nil]
            exact (x2 (by omega)).congr fun ρ _ => by simp [Poly.value]

/-- the text of a single operand. -/
theorem atom_tex (hg : env.Good B) {t : Term} (h : TexTermOk env.M B t) (ha : TexAtom t) :
    ∃ s, Poly.toTex env [t] = .ok s ∧ TexIs P 4 s (fun ρ => some (Poly.value ρ [t])) := by
  have hM := hg.M1
  have hval : ∀ ρ, Poly.value ρ [t] = t.value ρ := fun ρ => by simp [Poly.value]
  obtain ⟨a1, a2, a3⟩ := ha
  have hc := h.coe
  have hv : t.coe.val = (t.coe.coe.num : ℝ) := by
    rw [Real.val_canon (a := t.coe) (N := 1) (by rw [a1]; rfl)]
    unfold Rational.val
    rw [a2]; simp
  unfold Poly.toTex
  simp only [List.isEmpty_cons, Bool.false_eq_true, if_false]
  rw [nonzeros_ok hg (p := [t]) (by intro q hq; rw [List.mem_singleton] at hq; rw [hq]; exact hc), Res.bind_ok]
  by_cases h0 : t.coe.coe.num = 0
  · refine ⟨['0'], by simp [h0], zero_tex.congr fun ρ _ => ?_⟩
    rw [hval, value_zero h0]
  · have hz : ¬ ([t].countP fun t => t.coe.coe.num ≠ 0) = 0 := by simp [h0]
    rw [if_neg hz]
    unfold Poly.texLoop
    rw [coe_zero hg hc, Res.bind_ok]
    simp only [h0, decide_false, Bool.false_eq_true, if_false, if_true, Poly.texLoop]
    unfold Term.toTex
    rw [coe_zero hg hc, Res.bind_ok]
    simp only [h0, decide_false, Bool.false_eq_true, if_false]
    rw [coeIs_ok hg hc (by norm_num), Res.bind_ok]
    rcases a3 with ⟨a3, a4⟩ | ⟨a3, x, n, a4⟩
    · simp only [a4, List.isEmpty_nil, Bool.or_true, if_true, Bool.not_true, Bool.and_false, Bool.false_eq_true, if_false]
      rw [coeIs_ok hg hc (by norm_num), Res.bind_ok]
      have : Real.toTex env t.coe = .ok (toString t.coe.coe.num).toList := by
        unfold Real.toTex
        rw [Rational.eqInt_spec _ _ _ hM (by norm_num) hc.fits, Res.bind_ok]
        have hz : ¬ t.coe.coe.num = 0 * t.coe.coe.den := by simpa using h0
        simp only [hz, decide_false, Bool.false_eq_true, if_false]
        rw [isRational_ok hg hc, Res.bind_ok]
        simp [a1, Rational.toTex, a2]
      rw [this, Res.bind_ok]
      refine ⟨(toString t.coe.coe.num).toList, by simp [Term.symsTex], (TexIs.int _ a3).congr fun ρ _ => ?_⟩
      rw [hval]
      unfold Term.value
      rw [a4, hv]
      simp [Syms.value]
    · simp only [a1, a2, a3, a4, mul_one, and_self, decide_true, Bool.not_true, List.isEmpty_cons, Bool.or_self,
        Bool.false_eq_true, if_false, Res.bind_ok]
      obtain ⟨hx, hf, hd⟩ := h.syms (x, ⟨n, n⟩) (by rw [a4]; simp)
      simp only at hx hf hd
      refine ⟨if x.length ≠ 1 then ['\\'] ++ x ++ [' '] else x, ?_, (sym_tex hx).congr fun ρ _ => ?_⟩
      · simp only [Term.symsTex, Term.symTex]
        rw [Rational.eqInt_spec _ _ _ hM (by norm_num) hf]
        simp
      · rw [hval]
        unfold Term.value
        rw [a4, hv, a3]
        have hn : (n : ℝ) ≠ 0 := by
          have : n ≠ 0 := by omega
          exact_mod_cast this
        simp [Syms.value, Rational.val, hn]

/-- a polynomial at the level that is wanted. -/
theorem poly_tex_at (hg : env.Good B) {p : Poly} (h : TexPolyOk env.M B p) (hP : ∀ ρ, P ρ → p.RealAt ρ) {k : Nat} (hk : k ≤ 4)
    (hp : TexAt k p) : ∃ s, Poly.toTex env p = .ok s ∧ TexIs P k s (fun ρ => some (Poly.value ρ p)) := by
  unfold TexAt at hp
  split at hp
  · rename_i hk2
    obtain ⟨s, s1, s2, s3, s4⟩ := poly_tex hg h hP
    refine ⟨s, s1, ?_⟩
    unfold PolyAt at hp
    split at hp
    · rename_i h0; subst h0; exact s2
    · split at hp
      · rename_i h1
        subst h1
        rcases hp with hp | hp
        · exact s3 hp
        · exact (s4 hp).down (by omega)
      · split at hp
        · exact (s4 hp).down hk2
        · omega
  · obtain ⟨t, rfl, ht⟩ := hp
    obtain ⟨s, s1, s2⟩ := atom_tex (P := P) hg (h t (by simp)) ht
    exact ⟨s, s1, s2.down hk⟩

/-! ### fractions -/

/-- the text of a fraction, on its own and as an operand. -/
theorem frac_tex (hg : env.Good B) {f : Frac} (h : TexFracOk env.M B f) (hP : ∀ ρ, P ρ → (Node.frac f).RealAt ρ) :
    ∃ s b, Frac.toTex env f = .ok s ∧ Frac.outputNeedParen env f = .ok b ∧
      TexIs P 0 s (fun ρ => (Node.frac f).sem ρ) ∧
      ∀ k, k ≤ 4 → (IsOne f.den → TexAt k f.num) → TexIs P k (Node.wrap b s) (fun ρ => (Node.frac f).sem ρ) := by
  classical
  obtain ⟨h1, h2, h3, h4⟩ := h
  have hd := denIsOne_ok hg h2.coe
  unfold Frac.toTex Frac.outputNeedParen
  rw [hd, Res.bind_ok]
  have h3' : f.num.isEmpty = false := by simpa using h3
  simp only [h3', Bool.false_eq_true, if_false, Res.bind_ok]
  obtain ⟨sn, n1, n2, -, -⟩ := poly_tex hg h1 fun ρ hp => (hP ρ hp).1
  obtain ⟨sd, d1, d2, -, -⟩ := poly_tex hg h2 fun ρ hp => (hP ρ hp).2
  by_cases ho : IsOne f.den
  · simp only [ho, decide_true, if_true, Bool.not_true]
    have hs : ∀ ρ, P ρ → some (Poly.value ρ f.num) = (Node.frac f).sem ρ := fun ρ _ => by
      unfold Node.sem Frac.value
      rw [isOne_value h2.coe ho]; simp
    refine ⟨sn, false, n1, rfl, n2.congr hs, fun k hk hp => ?_⟩
    obtain ⟨s, s1, s2⟩ := poly_tex_at hg h1 (fun ρ hp => (hP ρ hp).1) hk (hp trivial)
    rw [n1] at s1
    injection s1 with s1
    subst s1
    exact s2.congr hs
  · simp only [ho, decide_false, Bool.false_eq_true, if_false, Bool.not_false]
    rw [n1, Res.bind_ok, d1, Res.bind_ok]
    have := (n2.frac d2).congr (g := fun ρ => (Node.frac f).sem ρ) fun ρ _ => by
      simp [opV, opSem, Node.sem, Frac.value]
    exact ⟨_, true, rfl, rfl, this.down (by omega), fun k hk _ => this.paren.down hk⟩

/-! ### trees -/

/-- the text of a tree, on its own and as an operand. -/
theorem node_tex (hg : env.Good B) {n : Node} (hP : ∀ ρ, P ρ → n.RealAt ρ) : ∀ {k : Nat}, k ≤ 4 → TexNodeOk env.M B k n →
    ∃ s, Node.toTex env n = .ok s ∧ TexIs P 0 s (fun ρ => n.sem ρ) ∧
      (∀ c l r, n = .op c l r → k ≤ texLevel c → TexIs P k s (fun ρ => n.sem ρ)) ∧
      (∀ f, n = .frac f → ∃ b, Frac.outputNeedParen env f = .ok b ∧ TexIs P k (Node.wrap b s) (fun ρ => n.sem ρ)) := by
  induction n with
  | frac f =>
    intro k hk h
    obtain ⟨s, b, s1, s2, s3, s4⟩ := frac_tex hg h.1 hP
    refine ⟨s, s1, s3, fun c l r e => by simp at e, fun f' e => ?_⟩
    injection e with e
    subst e
    exact ⟨b, s2, s4 k hk h.2⟩
  | op c l r il ir =>
    intro k hk h
    obtain ⟨hc, hl, hr⟩ := h
    generalize hk' : (if texLevel c < k then 0 else k) = k' at hl
    have hkl : texLeft k' c ≤ 4 := by unfold texLeft; split <;> [omega; (split <;> [omega; (split <;> omega)])]
    have hkr : texRight c ≤ 4 := by unfold texRight; split <;> [omega; (split <;> omega)]
    obtain ⟨sl, l1, l2, l3, l4⟩ := il (fun ρ hp => (hP ρ hp).1) hkl hl
    obtain ⟨sr, r1, r2, r3, r4⟩ := ir (fun ρ hp => (hP ρ hp).2) hkr hr
    have hwl : ∃ b, Node.withParenL env c l = .ok b ∧ TexIs P (texLeft k' c) (Node.wrap b sl) (fun ρ => l.sem ρ) := by
      cases l with
      | frac f => exact l4 f rfl
      | op d a b =>
        refine ⟨_, rfl, ?_⟩
        have hd := hl.1
        have t1 := l2.paren.down hkl
        have t2 := l3 d a b rfl
        rcases hc with rfl | rfl | rfl | rfl | rfl <;> rcases hd with rfl | rfl | rfl | rfl | rfl <;>
          first
          | exact t1
          | exact t2 (by simp [texLeft, texLevel])
          | exact t2 (by decide)
    have hwr : ∃ b, Node.withParenR env c r = .ok b ∧ TexIs P (texRight c) (Node.wrap b sr) (fun ρ => r.sem ρ) := by
      cases r with
      | frac f => exact r4 f rfl
      | op d a b =>
        refine ⟨_, rfl, ?_⟩
        have hd := hr.1
        have t1 := r2.paren.down hkr
        have t2 := r3 d a b rfl
        rcases hc with rfl | rfl | rfl | rfl | rfl <;> rcases hd with rfl | rfl | rfl | rfl | rfl <;>
          first
          | exact t1
          | exact t2 (by decide)
    obtain ⟨bl, bl1, bl2⟩ := hwl
    obtain ⟨br, br1, br2⟩ := hwr
    have key : TexIs P (if k ≤ texLevel c then k else 0) (Node.texOpen c ++ Node.wrap bl sl ++ Node.texMid c ++ Node.wrap br sr ++ Node.texClose c)
        (fun ρ => (Node.op c l r).sem ρ) := by
      show TexIs P _ _ (opV c (fun ρ => Node.sem ρ l) fun ρ => Node.sem ρ r)
      rcases hc with rfl | rfl | rfl | rfl | rfl
      · have hm : k' ≤ 1 := by subst hk'; simp [texLevel]; split <;> omega
        have he : (if k ≤ texLevel '+' then k else 0) = k' := by subst hk'; simp [texLevel]; split <;> split <;> omega
        have e : texLeft k' '+' = k' := by simp [texLeft]; exact hm
        rw [e] at bl2
        rw [he]
        have := bl2.add hm br2
        simpa [Node.texOpen, Node.texMid, Node.texClose] using this
      · have hm : k' ≤ 1 := by subst hk'; simp [texLevel]; split <;> omega
        have he : (if k ≤ texLevel '-' then k else 0) = k' := by subst hk'; simp [texLevel]; split <;> split <;> omega
        have e : texLeft k' '-' = k' := by simp [texLeft]; exact hm
        rw [e] at bl2
        rw [he]
        have := bl2.sub hm br2
        simpa [Node.texOpen, Node.texMid, Node.texClose] using this
      · have := (TexIs.mul bl2 br2).down (k := if k ≤ texLevel '*' then k else 0) (by simp [texLevel]; split <;> omega)
        simpa [Node.texOpen, Node.texMid, Node.texClose] using this
      · have := (TexIs.frac bl2 br2).down (k := if k ≤ texLevel '/' then k else 0) (by simp [texLevel]; split <;> omega)
        simpa [Node.texOpen, Node.texMid, Node.texClose] using this
      · have := (TexIs.pow bl2 br2).down (k := if k ≤ texLevel '^' then k else 0) (by simp [texLevel]; split <;> omega)
        simpa [Node.texOpen, Node.texMid, Node.texClose] using this
    refine ⟨_, ?_, key.down (Nat.zero_le _), ?_, ?_⟩
    · unfold Node.toTex
      rw [bl1, Res.bind_ok, l1, Res.bind_ok, br1, Res.bind_ok, r1, Res.bind_ok]
    · intro c' l' r' e hle
      injection e with e1 e2 e3
      subst e1
      rw [if_pos hle] at key
      exact key
    · intro f e
      simp at e

end Symxx.Sym
