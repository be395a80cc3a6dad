import Verif.Frac.PolySound
/-!
# Polynomials: the normalising operations
-/
namespace Symxx.Sym
open Symxx.Num

variable {B : Nat} {env : FEnv}

namespace Poly

theorem normalize_sound (hg : env.toEnv.Base B) (hs : SortOk env.sort) {p q : Poly} (hp : WF p)
    (h : normalize (env.checked B) p = .ok q) : WF q ∧ (∀ ρ, value ρ q = value ρ p) ∧ (p ≠ [] → q ≠ []) := by
  unfold normalize at h
  obtain ⟨p', h1, h⟩ := Res.bind_eq_ok.1 h
  have hperm : p'.Perm p := hs p p' h1
  obtain ⟨m1, m2, m3⟩ := mergeAdj_sound hg (fun t ht => hp t (hperm.subset ht)) h
  refine ⟨m1, fun ρ => by rw [m2, value_perm hperm], fun hne => m3 ?_⟩
  rintro rfl
  exact hne (List.Perm.nil_eq hperm).symm

theorem normalize_nil (hg : env.toEnv.Base B) (hs : SortOk env.sort) {q : Poly}
    (h : normalize (env.checked B) [] = .ok q) : q = [] := by
  unfold normalize at h
  obtain ⟨p', h1, h⟩ := Res.bind_eq_ok.1 h
  have hperm : p'.Perm [] := hs _ p' h1
  rw [List.perm_nil.1 hperm] at h
  unfold mergeAdj at h
  injection h with h
  exact h.symm

theorem Den.normalize {v : (List Char → ℝ) → ℝ} (hg : env.toEnv.Base B) (hs : SortOk env.sort) {p q : Poly}
    (hp : Den v p) (h : Poly.normalize (env.checked B) p = .ok q) : Den v q := by
  obtain ⟨a, b, -⟩ := normalize_sound hg hs hp.wf h
  exact ⟨a, fun ρ hρ => by rw [b, hp.value ρ hρ]⟩

theorem den_self {p : Poly} (hp : WF p) : Den (fun ρ => value ρ p) p := ⟨hp, fun _ _ => rfl⟩

theorem Den.congr {v w : (List Char → ℝ) → ℝ} {p : Poly} (hp : Den v p)
    (h : ∀ ρ : List Char → ℝ, (∀ x, 0 < ρ x) → v ρ = w ρ) : Den w p :=
  ⟨hp.wf, fun ρ hρ => by rw [hp.value ρ hρ, h ρ hρ]⟩

theorem mkReal_sound (hg : env.toEnv.Base B) (hs : SortOk env.sort) {s : Num.Real} (hr : s.Valid) {r : Poly}
    (h : mk' (env.checked B) [Term.ofReal s] = .ok r) : Den (fun _ => s.val) r := by
  unfold mk' at h
  obtain ⟨n1, n2, -⟩ := normalize_sound hg hs (wf_singleton (Term.ofReal_wf hr)) h
  exact ⟨n1, fun ρ _ => by rw [n2, value_singleton, Term.ofReal_value]⟩

theorem addAssign_sound (hg : env.toEnv.Base B) (hs : SortOk env.sort) {p q r : Poly} (hp : WF p) (hq : WF q)
    (h : addAssign (env.checked B) p q = .ok r) : Den (fun ρ => value ρ p + value ρ q) r := by
  unfold addAssign at h
  obtain ⟨n1, n2, -⟩ := normalize_sound hg hs (wf_append hp hq) h
  exact ⟨n1, fun ρ _ => by rw [n2, value_append]⟩

theorem add_sound (hg : env.toEnv.Base B) (hs : SortOk env.sort) {p q r : Poly} (hp : WF p) (hq : WF q)
    (h : add (env.checked B) p q = .ok r) : Den (fun ρ => value ρ p + value ρ q) r := by
  unfold add at h
  obtain ⟨a, h1, h⟩ := Res.bind_eq_ok.1 h
  obtain ⟨b, h2, h⟩ := Res.bind_eq_ok.1 h
  split at h
  · rename_i a b
    obtain ⟨s, h3, h⟩ := Res.bind_eq_ok.1 h
    obtain ⟨a1, a2⟩ := tryEval_sound hg hp h1
    obtain ⟨b1, b2⟩ := tryEval_sound hg hq h2
    obtain ⟨s1, s2⟩ := Real.add_sound hg a1.valid b1.valid h3
    exact (mkReal_sound hg hs s1.valid h).congr fun ρ _ => by rw [s2, a2 ρ, b2 ρ]
  · exact addAssign_sound hg hs hp hq h

theorem subAssign_sound (hg : env.toEnv.Base B) (hs : SortOk env.sort) {p q r : Poly} (hp : WF p) (hq : WF q)
    (h : subAssign (env.checked B) p q = .ok r) : Den (fun ρ => value ρ p - value ρ q) r := by
  unfold subAssign at h
  obtain ⟨nq, h1, h⟩ := Res.bind_eq_ok.1 h
  obtain ⟨s, h2, h⟩ := Res.bind_eq_ok.1 h
  obtain ⟨n1, n2, -⟩ := negate_sound hg hq h1
  exact ((addAssign_sound hg hs hp n1 h2).congr fun ρ _ => by rw [n2]; ring).normalize hg hs h

theorem sub_sound (hg : env.toEnv.Base B) (hs : SortOk env.sort) {p q r : Poly} (hp : WF p) (hq : WF q)
    (h : sub (env.checked B) p q = .ok r) : Den (fun ρ => value ρ p - value ρ q) r := by
  unfold sub at h
  obtain ⟨a, h1, h⟩ := Res.bind_eq_ok.1 h
  obtain ⟨b, h2, h⟩ := Res.bind_eq_ok.1 h
  split at h
  · rename_i a b
    obtain ⟨s, h3, h⟩ := Res.bind_eq_ok.1 h
    obtain ⟨a1, a2⟩ := tryEval_sound hg hp h1
    obtain ⟨b1, b2⟩ := tryEval_sound hg hq h2
    obtain ⟨s1, s2⟩ := Real.sub_sound hg a1.valid b1.valid h3
    exact (mkReal_sound hg hs s1.valid h).congr fun ρ _ => by rw [s2, a2 ρ, b2 ρ]
  · exact subAssign_sound hg hs hp hq h

theorem mulAssign_sound (hg : env.toEnv.Base B) (hs : SortOk env.sort) {p q r : Poly} (hp : WF p) (hq : WF q)
    (h : mulAssign (env.checked B) p q = .ok r) : Den (fun ρ => value ρ p * value ρ q) r := by
  unfold mulAssign at h
  obtain ⟨s, h2, h⟩ := Res.bind_eq_ok.1 h
  obtain ⟨m1, m2, -⟩ := products_sound hg hp hq h2
  exact (Den.mk m1 m2).normalize hg hs h

theorem mul_sound (hg : env.toEnv.Base B) (hs : SortOk env.sort) {p q r : Poly} (hp : WF p) (hq : WF q)
    (h : mul (env.checked B) p q = .ok r) : Den (fun ρ => value ρ p * value ρ q) r := by
  unfold mul at h
  obtain ⟨a, h1, h⟩ := Res.bind_eq_ok.1 h
  obtain ⟨b, h2, h⟩ := Res.bind_eq_ok.1 h
  split at h
  · rename_i a b
    obtain ⟨s, h3, h⟩ := Res.bind_eq_ok.1 h
    obtain ⟨a1, a2⟩ := tryEval_sound hg hp h1
    obtain ⟨b1, b2⟩ := tryEval_sound hg hq h2
    obtain ⟨s1, s2⟩ := Real.mul_sound hg a1.valid.toPre b1.valid.toPre a1.valid.pos b1.valid.pos h3
    exact (mkReal_sound hg hs s1.valid h).congr fun ρ _ => by rw [s2, a2 ρ, b2 ρ]
  · exact mulAssign_sound hg hs hp hq h

theorem divReal_sound (hg : env.toEnv.Base B) (hs : SortOk env.sort) {p r : Poly} {c : Num.Real} (hp : WF p)
    (hc : c.Valid) (h : divReal (env.checked B) p c = .ok r) :
    Den (fun ρ => value ρ p / c.val) r ∧ (p ≠ [] → c.val ≠ 0) := by
  unfold divReal at h
  obtain ⟨q, h1, h⟩ := Res.bind_eq_ok.1 h
  obtain ⟨m1, m2, -⟩ := mapM_sound (φ := fun _ x => x / c.val) (P := fun _ => True) (fun _ _ _ => by ring)
    (fun _ => zero_div _) hp
    (fun t ht t' h => ⟨(Term.divReal_sound (ρ := fun _ => 1) hg (hp t ht) hc h).1,
      fun ρ _ => (Term.divReal_sound (ρ := ρ) hg (hp t ht) hc h).2.1⟩) h1
  refine ⟨(Den.mk m1 fun ρ _ => m2 ρ trivial).normalize hg hs h, fun hne => ?_⟩
  match p, hne, hp, h1 with
  | t :: p, _, hp, h1 =>
    unfold mapM at h1
    obtain ⟨t', h2, -⟩ := Res.bind_eq_ok.1 h1
    exact (Term.divReal_sound (ρ := fun _ => 1) hg (hp t List.mem_cons_self) hc h2).2.2

open Nat in
/-- `pow` with an integral exponent. -/
theorem pow_int_sound (hg : env.toEnv.Base B) (hs : SortOk env.sort) {p r : Poly} {q : Rational} {k : Int} (hp : WF p)
    (hq : q.den ≠ 0) (hl : q.Lowest) (hqk : q.val = k) (h : pow (env.checked B) p q = .ok r) (hr : r ≠ [] ∨ 0 ≤ k) : Den (fun ρ => value ρ p ^ k) r := by
  unfold pow at h
  obtain ⟨b, h1, h⟩ := Res.bind_eq_ok.1 h
  have e1 := Rational.eqInt_sound_val hq h1
  rw [hqk] at e1
  cases b with
  | true =>
    have hk0 : k = 0 := by have := e1.1 rfl; exact_mod_cast this
    subst hk0
    rw [if_pos rfl] at h
    obtain ⟨t, h2, h⟩ := Res.bind_eq_ok.1 h
    have o := fun ρ => Term.ofInt_sound (ρ := ρ) hg h2
    unfold mk' at h
    obtain ⟨n1, n2, -⟩ := normalize_sound hg hs (wf_singleton (o fun _ => 1).1) h
    exact ⟨n1, fun ρ _ => by rw [n2, value_singleton, (o ρ).2.1]; simp⟩
  | false =>
    rw [if_neg (by simp)] at h
    obtain ⟨b, h2, h⟩ := Res.bind_eq_ok.1 h
    have e2 := Rational.eqInt_sound_val hq h2
    rw [hqk] at e2
    cases b with
    | true =>
      have hk0 : k = 1 := by have := e2.1 rfl; exact_mod_cast this
      subst hk0
      rw [if_pos rfl] at h
      injection h with h
      subst h
      exact ⟨hp, fun ρ _ => by simp⟩
    | false =>
      rw [if_neg (by simp)] at h
      split at h
      · rename_i t
        obtain ⟨t', h3, h⟩ := Res.bind_eq_ok.1 h
        have o := fun ρ hρ => Term.pow_sound (ρ := ρ) hg hρ (wf_cons.1 hp).1 hq (Or.inr ⟨hl, k, hqk⟩) h3
        unfold mk' at h
        obtain ⟨n1, n2, -⟩ := normalize_sound hg hs (wf_singleton (o (fun _ => 1) fun _ => one_pos).1) h
        exact ⟨n1, fun ρ hρ => by
          rw [n2, value_singleton, (o ρ hρ).2, hqk, value_singleton]; simp⟩
      · rename_i hlen
        obtain ⟨a, h3, h⟩ := Res.bind_eq_ok.1 h
        cases a with
        | some a =>
          obtain ⟨x, h4, h⟩ := Res.bind_eq_ok.1 h
          obtain ⟨a1, a2⟩ := tryEval_sound hg hp h3
          obtain ⟨c1, c2⟩ := Real.pow_sound hg a1.valid hq (Or.inr ⟨hl, k, hqk⟩) h4
          exact (mkReal_sound hg hs c1 h).congr fun ρ _ => by rw [c2, a2 ρ, hqk]; simp
        | none =>
          obtain ⟨_, h4, h⟩ := Res.bind_eq_ok.1 h
          obtain ⟨n, h5, h⟩ := Res.bind_eq_ok.1 h
          obtain ⟨w0, h0, h⟩ := Res.bind_eq_ok.1 h
          have hk : (n.toNat ! : Int) ≤ env.M := by
            unfold Env.noWrap at h0
            split at h0
            · cases h0
            · rename_i hc
              by_contra hcon
              exact hc ⟨rfl, hcon⟩
          obtain ⟨vs, h6, h⟩ := Res.bind_eq_ok.1 h
          obtain ⟨res, h7, h9⟩ := Res.bind_eq_ok.1 h
          clear h
          have hn : n = k := by
            have hi := Res.assert_eq_ok.1 h4
            have hd1 : q.den = 1 := by simpa [Rational.isInt] using hi
            have hnk : q.num = k := by
              unfold Rational.val at hqk
              rw [hd1] at hqk
              simpa using hqk
            unfold Rational.toT at h5
            obtain ⟨-, -, e⟩ := divT_ok.1 h5
            rw [hd1] at e
            exact e.trans (by simp [hnk])
          subst hn
          have hlen2 : 2 ≤ p.length := by
            match p, h3, hlen with
            | [], h3, _ =>
              unfold tryEval at h3
              obtain ⟨z, -, h3⟩ := Res.bind_eq_ok.1 h3
              unfold tryEvalLoop at h3
              simp at h3
            | [t], _, hlen => exact absurd rfl (hlen t)
            | _ :: _ :: _, _, _ => simp
          by_cases hn0 : 0 ≤ n
          · obtain ⟨N, rfl⟩ := Int.eq_ofNat_of_zero_le hn0
            have hNk : (N ! : Int) ≤ env.M := hk
            obtain ⟨L, hL, -, hmem⟩ := solveEq_spec p.length N hn0 hlen2
            rw [hL] at h6
            injection h6 with h6
            subst h6
            have hM := hg.M1
            have hf : factLoop (env.checked B).M (Int.toNat (N : Int)) = (N ! : Int) := by
              refine factLoop_eq _ N ?_
              show (N ! : Int) ≤ 2 * env.M + 1
              omega
            rw [hf] at h7
            obtain ⟨x1, x2⟩ := expand_sound hg hp hNk (fun v hv => (hmem v).1 hv) h7
            refine Den.normalize hg hs (Den.mk x1 fun ρ hρ => ?_) h9
            rw [x2 ρ hρ, solve_weight p.length N hlen2 _ (by simp) hL, zpow_natCast]
            have : (N ! : ℝ) ≠ 0 := by exact_mod_cast N.factorial_ne_zero
            unfold value
            field_simp
          · rw [solveEq_neg _ _ (by omega)] at h6
            injection h6 with h6
            subst h6
            unfold expand at h7
            injection h7 with h7
            subst h7
            rcases hr with hr | hr
            · exact absurd (normalize_nil hg hs h9) hr
            · omega

/-- `pow` of a single term with any exponent. -/
theorem pow_single_sound (hg : env.toEnv.Base B) (hs : SortOk env.sort) {t : Term} {r : Poly} {q : Rational}
    (ht : t.WF) (hq : q.den ≠ 0) (hpos : 0 < t.coe.val ∨ q.IntLow)
    (h : pow (env.checked B) [t] q = .ok r) : Den (fun ρ => t.value ρ ^ ((q.val : ℚ) : ℝ)) r := by
  unfold pow at h
  obtain ⟨b, h1, h⟩ := Res.bind_eq_ok.1 h
  have e1 := Rational.eqInt_sound_val hq h1
  cases b with
  | true =>
    have hk0 := e1.1 rfl
    rw [if_pos rfl] at h
    obtain ⟨t, h2, h⟩ := Res.bind_eq_ok.1 h
    have o := fun ρ => Term.ofInt_sound (ρ := ρ) hg h2
    unfold mk' at h
    obtain ⟨n1, n2, -⟩ := normalize_sound hg hs (wf_singleton (o fun _ => 1).1) h
    exact ⟨n1, fun ρ _ => by rw [n2, value_singleton, (o ρ).2.1, hk0]; simp⟩
  | false =>
    rw [if_neg (by simp)] at h
    obtain ⟨b, h2, h⟩ := Res.bind_eq_ok.1 h
    have e2 := Rational.eqInt_sound_val hq h2
    cases b with
    | true =>
      have hk0 := e2.1 rfl
      rw [if_pos rfl] at h
      injection h with h
      subst h
      exact ⟨wf_singleton ht, fun ρ _ => by rw [value_singleton, hk0]; simp⟩
    | false =>
      rw [if_neg (by simp)] at h
      obtain ⟨t', h3, h⟩ := Res.bind_eq_ok.1 h
      have o := fun ρ hρ => Term.pow_sound (ρ := ρ) hg hρ ht hq hpos h3
      unfold mk' at h
      obtain ⟨n1, n2, -⟩ := normalize_sound hg hs (wf_singleton (o (fun _ => 1) fun _ => one_pos).1) h
      exact ⟨n1, fun ρ hρ => by rw [n2, value_singleton, (o ρ hρ).2]⟩

/-- `pow` with a fractional exponent in lowest terms: applied to the absolute value. -/
theorem pow_frac_sound (hg : env.toEnv.Base B) (hs : SortOk env.sort) {p r : Poly} {q : Rational} (hp : WF p)
    (hq : q.den ≠ 0) (hl : q.Lowest) (hd : ¬ ∃ k : Int, q.val = k) (h : pow (env.checked B) p q = .ok r) :
    Den (fun ρ => |value ρ p| ^ ((q.val : ℚ) : ℝ)) r ∧ ∀ ρ, (∀ x, 0 < ρ x) → value ρ p ≠ 0 := by
  unfold pow at h
  obtain ⟨b, h1, h⟩ := Res.bind_eq_ok.1 h
  have e1 := Rational.eqInt_sound_val hq h1
  cases b with
  | true => exact absurd ⟨0, by simpa using e1.1 rfl⟩ hd
  | false =>
    rw [if_neg (by simp)] at h
    obtain ⟨b, h2, h⟩ := Res.bind_eq_ok.1 h
    have e2 := Rational.eqInt_sound_val hq h2
    cases b with
    | true => exact absurd ⟨1, by simpa using e2.1 rfl⟩ hd
    | false =>
      rw [if_neg (by simp)] at h
      split at h
      · rename_i t
        obtain ⟨t', h3, h⟩ := Res.bind_eq_ok.1 h
        have o := fun ρ hρ => Term.pow_abs_sound (ρ := ρ) hg hρ (wf_cons.1 hp).1 hq hl hd h3
        unfold mk' at h
        obtain ⟨n1, n2, -⟩ := normalize_sound hg hs (wf_singleton (o (fun _ => 1) fun _ => one_pos).1) h
        refine ⟨⟨n1, fun ρ hρ => ?_⟩, fun ρ hρ => ?_⟩
        · rw [n2, value_singleton, (o ρ hρ).2.2, value_singleton]
        · rw [value_singleton]; exact (o ρ hρ).2.1
      · obtain ⟨a, h3, h⟩ := Res.bind_eq_ok.1 h
        cases a with
        | some a =>
          obtain ⟨x, h4, h⟩ := Res.bind_eq_ok.1 h
          obtain ⟨a1, a2⟩ := tryEval_sound hg hp h3
          obtain ⟨c1, -, c2⟩ := Real.pow_sound' hg a1.valid hq h4
          obtain ⟨c2, c3⟩ := (c2 hl).2 hd
          exact ⟨(mkReal_sound hg hs c1 h).congr fun ρ _ => by rw [c3, a2 ρ], fun ρ _ => by rw [← a2 ρ]; exact c2⟩
        | none =>
          obtain ⟨_, h4, h⟩ := Res.bind_eq_ok.1 h
          have hi := Res.assert_eq_ok.1 h4
          exact absurd (Rational.intLow_of_den (by simpa [Rational.isInt] using hi)).2 hd

end Poly

/-! ### substitution -/

/-- the assignment that gives the symbols bound in `e` their value, the others as in `ρ`. -/
noncomputable def override (e : List (List Char × Num.Real)) (ρ : List Char → ℝ) (x : List Char) : ℝ :=
  match Term.lookup e x with
  | some r => r.val
  | none => ρ x

/-- the substituted values can be raised to the exponents of `t`. -/
def Term.SubstOk (e : List (List Char × Num.Real)) (t : Term) : Prop :=
  ∀ p ∈ t.syms, ∀ x, Term.lookup e p.1 = some x → x.Valid ∧ (0 < x.val ∨ p.2.IntLow)

theorem lookup_none {e : List (List Char × Num.Real)} {x : List Char} :
    (e.any fun q => q.1 = x) = (Term.lookup e x).isSome := by
  unfold Term.lookup
  rw [Option.isSome_map]
  induction e with
  | nil => rfl
  | cons a e ih =>
    rw [List.any_cons, List.find?_cons, ih]
    by_cases h : a.1 = x <;> simp [h]

theorem Term.substLoop_sound {env : Env} (hg : env.Base B) {e : List (List Char × Num.Real)} {s : Syms} (hs : s.WF)
    (he : ∀ p ∈ s, ∀ x, Term.lookup e p.1 = some x → x.Valid ∧ (0 < x.val ∨ p.2.IntLow))
    {c c' : Num.Real} (hc : c.Valid) (h : substLoop (env.checked B) e s c = .ok c') (ρ : List Char → ℝ) :
    c'.Valid ∧ c'.val * Syms.value ρ (s.filter fun p => !(e.any fun q => q.1 = p.1)) =
      c.val * Syms.value (override e ρ) s := by
  induction s generalizing c with
  | nil =>
    unfold substLoop at h
    injection h with h
    subst h
    exact ⟨hc, rfl⟩
  | cons p s ih =>
    obtain ⟨k, v⟩ := p
    obtain ⟨w1, w2, w3⟩ := Syms.wf_cons.1 hs
    have he' := fun p hp => he p (List.mem_cons_of_mem _ hp)
    unfold substLoop at h
    rw [List.filter_cons, lookup_none, Syms.value_cons]
    simp only [override]
    split at h
    · rename_i x hx
      rw [hx]
      obtain ⟨y, h1, h⟩ := Res.bind_eq_ok.1 h
      obtain ⟨c1, h2, h⟩ := Res.bind_eq_ok.1 h
      obtain ⟨v1, v3⟩ := he _ List.mem_cons_self x hx
      obtain ⟨p1, p2⟩ := Real.pow_sound hg v1 w2 v3 h1
      obtain ⟨m1, m2⟩ := Real.mul_sound hg hc.toPre p1.toPre hc.pos p1.pos h2
      obtain ⟨i1, i2⟩ := ih w3 he' m1.valid h
      refine ⟨i1, ?_⟩
      rw [if_neg (by simp), i2, m2, p2]
      ring
    · rename_i hx
      rw [hx]
      obtain ⟨i1, i2⟩ := ih w3 he' hc h
      refine ⟨i1, ?_⟩
      rw [if_pos (by simp), Syms.value_cons]
      simp only
      linear_combination (ρ k ^ ((v.val : ℚ) : ℝ)) * i2

theorem Term.substitute_sound {env : Env} (hg : env.Base B) {e : List (List Char × Num.Real)} {t r : Term} (ht : t.WF)
    (he : t.SubstOk e) (h : substitute (env.checked B) e t = .ok r) :
    r.WF ∧ ∀ ρ, r.value ρ = t.value (override e ρ) := by
  unfold substitute at h
  obtain ⟨c, h1, h⟩ := Res.bind_eq_ok.1 h
  injection h with h
  subst h
  have := substLoop_sound hg ht.syms he ht.coe h1
  exact ⟨⟨(this fun _ => 1).1, ht.syms.filter _⟩, fun ρ => (this ρ).2⟩

theorem Poly.substitute_sound {env : Env} (hg : env.Base B) {e : List (List Char × Num.Real)} {p r : Poly} (hp : WF p)
    (he : ∀ t ∈ p, t.SubstOk e) (h : substitute (env.checked B) e p = .ok r) :
    WF r ∧ ∀ ρ, value ρ r = value (override e ρ) p := by
  unfold substitute at h
  induction p generalizing r with
  | nil =>
    unfold mapM at h
    injection h with h
    subst h
    exact ⟨wf_nil, fun _ => rfl⟩
  | cons t p ih =>
    obtain ⟨ht, hp⟩ := wf_cons.1 hp
    unfold mapM at h
    obtain ⟨t', h1, h⟩ := Res.bind_eq_ok.1 h
    obtain ⟨q', h2, h⟩ := Res.bind_eq_ok.1 h
    injection h with h
    subst h
    obtain ⟨a1, a2⟩ := Term.substitute_sound hg ht (he t List.mem_cons_self) h1
    obtain ⟨b1, b2⟩ := ih hp (fun t ht => he t (List.mem_cons_of_mem _ ht)) h2
    exact ⟨wf_cons.2 ⟨a1, b1⟩, fun ρ => by rw [value_cons, value_cons, a2, b2]⟩

end Symxx.Sym
