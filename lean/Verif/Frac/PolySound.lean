import Verif.Frac.TermSound
import Verif.Frac.Solve
import Mathlib.Data.Nat.Choose.Sum
import Mathlib.Algebra.BigOperators.Field
import Mathlib.Tactic.FieldSimp
import Mathlib.Tactic.Ring
import Mathlib.Data.Nat.Choose.Cast
/-!
# Polynomials: every operation that returns in the checked environment denotes the pointwise operation
-/
namespace Symxx.Sym
open Symxx.Num

variable {B : Nat} {ρ : List Char → ℝ}

namespace Poly

theorem value_nil : value ρ [] = 0 := rfl
theorem value_cons (t : Term) (p : Poly) : value ρ (t :: p) = t.value ρ + value ρ p := rfl
theorem value_append (p q : Poly) : value ρ (p ++ q) = value ρ p + value ρ q := by
  unfold value; rw [List.map_append, List.sum_append]
theorem value_singleton (t : Term) : value ρ [t] = t.value ρ := by rw [value_cons, value_nil, add_zero]
theorem value_perm {p q : Poly} (h : p.Perm q) : value ρ p = value ρ q := (h.map _).sum_eq

theorem wf_nil : WF [] := by intro t h; simp at h
theorem wf_cons {t : Term} {p : Poly} : WF (t :: p) ↔ t.WF ∧ WF p := by
  unfold WF; simp [List.mem_cons, forall_eq_or_imp]
theorem wf_append {p q : Poly} (hp : WF p) (hq : WF q) : WF (p ++ q) := by
  intro t ht
  rcases List.mem_append.1 ht with h | h
  · exact hp t h
  · exact hq t h
theorem wf_singleton {t : Term} (h : t.WF) : WF [t] := wf_cons.2 ⟨h, wf_nil⟩

/-- what an operation on polynomials preserves. -/
structure Den (v : (List Char → ℝ) → ℝ) (p : Poly) : Prop where
  wf : WF p
  value : ∀ ρ : List Char → ℝ, (∀ x, 0 < ρ x) → value ρ p = v ρ

section
variable {env : Env}

theorem mergeAdj_sound (hg : env.Base B) : ∀ {p q : Poly}, WF p → mergeAdj (env.checked B) p = .ok q →
    WF q ∧ (∀ ρ, value ρ q = value ρ p) ∧ (p ≠ [] → q ≠ [])
  | [], q, hp, h => by
    unfold mergeAdj at h
    injection h with h
    subst h
    exact ⟨hp, fun _ => rfl, id⟩
  | [t], q, hp, h => by
    unfold mergeAdj at h
    injection h with h
    subst h
    exact ⟨hp, fun _ => rfl, id⟩
  | a :: b :: rest, q, hp, h => by
    obtain ⟨ha, hp'⟩ := wf_cons.1 hp
    obtain ⟨hb, hr⟩ := wf_cons.1 hp'
    unfold mergeAdj at h
    obtain ⟨v, h1, h⟩ := Res.bind_eq_ok.1 h
    cases v with
    | true =>
      rw [if_pos rfl] at h
      obtain ⟨c, h2, h⟩ := Res.bind_eq_ok.1 h
      obtain ⟨t, h3, h⟩ := Res.bind_eq_ok.1 h
      have m := fun ρ => Term.merge_sound (ρ := ρ) hg ha hb h1 h2 h3
      obtain ⟨i1, i2, i3⟩ := mergeAdj_sound hg (wf_cons.2 ⟨(m fun _ => 1).1, hr⟩) h
      refine ⟨i1, fun ρ => ?_, fun _ => i3 (by simp)⟩
      rw [i2, value_cons, value_cons, value_cons, (m ρ).2]; ring
    | false =>
      rw [if_neg (by simp)] at h
      obtain ⟨r, h2, h⟩ := Res.bind_eq_ok.1 h
      injection h with h
      subst h
      obtain ⟨i1, i2, -⟩ := mergeAdj_sound hg hp' h2
      exact ⟨wf_cons.2 ⟨ha, i1⟩, fun ρ => by rw [value_cons, value_cons, i2], fun _ => by simp⟩
termination_by p => p.length

theorem mapM_sound {f : Term → Res Term} {φ : (List Char → ℝ) → ℝ → ℝ} {P : (List Char → ℝ) → Prop}
    (hadd : ∀ ρ x y, φ ρ (x + y) = φ ρ x + φ ρ y) (h0 : ∀ ρ, φ ρ 0 = 0) {p q : Poly} (hp : WF p)
    (hf : ∀ t ∈ p, ∀ t', f t = .ok t' → t'.WF ∧ ∀ ρ, P ρ → t'.value ρ = φ ρ (t.value ρ)) (h : mapM f p = .ok q) :
    WF q ∧ (∀ ρ, P ρ → value ρ q = φ ρ (value ρ p)) ∧ q.length = p.length := by
  induction p generalizing q with
  | nil =>
    unfold mapM at h
    injection h with h
    subst h
    exact ⟨wf_nil, fun ρ _ => by rw [value_nil, h0], rfl⟩
  | cons t p ih =>
    obtain ⟨ht, hp⟩ := wf_cons.1 hp
    unfold mapM at h
    obtain ⟨t', h1, h⟩ := Res.bind_eq_ok.1 h
    obtain ⟨q', h2, h⟩ := Res.bind_eq_ok.1 h
    injection h with h
    subst h
    obtain ⟨a1, a2⟩ := hf t List.mem_cons_self t' h1
    obtain ⟨b1, b2, b3⟩ := ih hp (fun t ht => hf t (List.mem_cons_of_mem _ ht)) h2
    exact ⟨wf_cons.2 ⟨a1, b1⟩, fun ρ hP => by rw [value_cons, value_cons, hadd, a2 ρ hP, b2 ρ hP], by simp [b3]⟩

theorem negate_sound (hg : env.Base B) {p q : Poly} (hp : WF p) (h : negate (env.checked B) p = .ok q) :
    WF q ∧ (∀ ρ, value ρ q = - value ρ p) ∧ q.length = p.length := by
  have := mapM_sound (φ := fun _ x => -x) (P := fun _ => True) (fun _ _ _ => by ring) (fun _ => neg_zero) hp
    (fun t ht t' h => ⟨(Term.negate_sound (ρ := fun _ => 1) hg (hp t ht) h).1,
      fun ρ _ => (Term.negate_sound (ρ := ρ) hg (hp t ht) h).2⟩) h
  exact ⟨this.1, fun ρ => this.2.1 ρ trivial, this.2.2⟩

theorem products_sound (hg : env.Base B) {p q r : Poly} (hp : WF p) (hq : WF q)
    (h : products (env.checked B) p q = .ok r) :
    WF r ∧ (∀ ρ, (∀ x, 0 < ρ x) → value ρ r = value ρ p * value ρ q) ∧ (p ≠ [] → q ≠ [] → r ≠ []) := by
  induction p generalizing r with
  | nil =>
    unfold products at h
    injection h with h
    subst h
    exact ⟨wf_nil, fun ρ _ => by rw [value_nil, zero_mul], by simp⟩
  | cons x p ih =>
    obtain ⟨hx, hp⟩ := wf_cons.1 hp
    unfold products at h
    obtain ⟨a, h1, h⟩ := Res.bind_eq_ok.1 h
    obtain ⟨b, h2, h⟩ := Res.bind_eq_ok.1 h
    injection h with h
    subst h
    obtain ⟨a1, a2, a3⟩ := mapM_sound (φ := fun ρ y => x.value ρ * y) (P := fun ρ => ∀ x, 0 < ρ x)
      (fun _ _ _ => by ring) (fun _ => mul_zero _) hq
      (fun t ht t' h => ⟨(Term.mul_sound (ρ := fun _ => 1) hg (fun _ => one_pos) hx (hq t ht) h).1,
        fun ρ hρ => (Term.mul_sound (ρ := ρ) hg hρ hx (hq t ht) h).2.1⟩) h1
    obtain ⟨b1, b2, -⟩ := ih hp h2
    refine ⟨wf_append a1 b1, fun ρ hρ => ?_, fun _ hq => ?_⟩
    · rw [value_append, value_cons, a2 ρ hρ, b2 ρ hρ]; ring
    · intro h
      have h3 := (List.append_eq_nil_iff.1 h).1
      rw [h3] at a3
      exact hq (List.length_eq_zero_iff.1 a3.symm)

theorem tryEvalLoop_sound (hg : env.Base B) {p : Poly} (hp : WF p) {r s : Num.Real} (hr : r.Canon)
    (h : tryEvalLoop (env.checked B) p r = .ok (some s)) :
    s.Canon ∧ ∀ ρ, s.val = r.val + value ρ p := by
  induction p generalizing r with
  | nil =>
    unfold tryEvalLoop at h
    injection h with h
    injection h with h
    subst h
    exact ⟨hr, fun ρ => by rw [value_nil, add_zero]⟩
  | cons t p ih =>
    obtain ⟨ht, hp⟩ := wf_cons.1 hp
    unfold tryEvalLoop at h
    cases hte : t.tryEval with
    | none => rw [hte] at h; simp at h
    | some x =>
      rw [hte] at h
      simp only at h
      have hx : t.coe = x ∧ t.syms = [] := by
        unfold Term.tryEval Term.noSymbols at hte
        split at hte
        · rename_i hc
          exact ⟨by injection hte, by simpa using hc⟩
        · cases hte
      obtain ⟨v, h1, h⟩ := Res.bind_eq_ok.1 h
      cases v with
      | false => simp at h
      | true =>
        rw [if_pos rfl] at h
        obtain ⟨r', h2, h⟩ := Res.bind_eq_ok.1 h
        obtain ⟨a1, a2⟩ := Real.add_sound hg hr.valid (hx.1 ▸ ht.coe) h2
        obtain ⟨i1, i2⟩ := ih hp a1 h
        refine ⟨i1, fun ρ => ?_⟩
        have : t.value ρ = x.val := by unfold Term.value; rw [hx.1, hx.2, Syms.value_nil, mul_one]
        rw [i2 ρ, a2, value_cons, this]; ring

theorem tryEval_sound (hg : env.Base B) {p : Poly} (hp : WF p) {s : Num.Real}
    (h : tryEval (env.checked B) p = .ok (some s)) : s.Canon ∧ ∀ ρ, s.val = value ρ p := by
  unfold tryEval at h
  obtain ⟨z, h1, h⟩ := Res.bind_eq_ok.1 h
  obtain ⟨o1, o2⟩ := Real.ofInt_sound hg h1
  obtain ⟨i1, i2⟩ := tryEvalLoop_sound hg hp o1 h
  exact ⟨i1, fun ρ => by rw [i2 ρ, o2]; simp⟩

theorem evalLoop_sound (hg : env.Base B) {p : Poly} (hp : WF p) {r s : Num.Real} (hr : r.Canon)
    (h : evalLoop (env.checked B) p r = .ok s) : s.Canon ∧ ∀ ρ, s.val = r.val + value ρ p := by
  induction p generalizing r with
  | nil =>
    unfold evalLoop at h
    injection h with h
    subst h
    exact ⟨hr, fun ρ => by rw [value_nil, add_zero]⟩
  | cons t p ih =>
    obtain ⟨ht, hp⟩ := wf_cons.1 hp
    unfold evalLoop at h
    obtain ⟨x, h1, h⟩ := Res.bind_eq_ok.1 h
    obtain ⟨r', h2, h9⟩ := Res.bind_eq_ok.1 h
    clear h
    unfold Term.eval at h1
    obtain ⟨_, h3, h1⟩ := Res.bind_eq_ok.1 h1
    injection h1 with h1
    subst h1
    have hs : t.syms = [] := by simpa [Term.noSymbols] using Res.assert_eq_ok.1 h3
    obtain ⟨a1, a2⟩ := Real.add_sound hg hr.valid ht.coe h2
    obtain ⟨i1, i2⟩ := ih hp a1 h9
    refine ⟨i1, fun ρ => ?_⟩
    have : t.value ρ = t.coe.val := by unfold Term.value; rw [hs, Syms.value_nil, mul_one]
    rw [i2 ρ, a2, value_cons, this]; ring

theorem eval_sound (hg : env.Base B) {p : Poly} (hp : WF p) {s : Num.Real}
    (h : eval (env.checked B) p = .ok s) : s.Canon ∧ ∀ ρ, s.val = value ρ p := by
  unfold eval at h
  obtain ⟨z, h1, h⟩ := Res.bind_eq_ok.1 h
  obtain ⟨o1, o2⟩ := Real.ofInt_sound hg h1
  obtain ⟨i1, i2⟩ := evalLoop_sound hg hp o1 h
  exact ⟨i1, fun ρ => by rw [i2 ρ, o2]; simp⟩

theorem eqGo_sound {p q : Poly} (hp : WF p) (hq : WF q) (hl : p.length = q.length) (h : eqGo env p q = .ok true) :
    ∀ ρ, value ρ p = value ρ q := by
  induction p generalizing q with
  | nil =>
    match q, hl with
    | [], _ => exact fun _ => rfl
  | cons a p ih =>
    match q, hl with
    | b :: q, hl =>
      obtain ⟨ha, hp⟩ := wf_cons.1 hp
      obtain ⟨hb, hq⟩ := wf_cons.1 hq
      unfold eqGo at h
      obtain ⟨v, h1, h⟩ := Res.bind_eq_ok.1 h
      cases v with
      | false => simp at h
      | true =>
        rw [if_pos rfl] at h
        intro ρ
        rw [value_cons, value_cons, Term.eq_sound ha hb h1, ih hp hq (by simpa using hl) h ρ]

theorem eq_sound {p q : Poly} (hp : WF p) (hq : WF q) (h : eq env p q = .ok true) : ∀ ρ, value ρ p = value ρ q := by
  unfold eq at h
  split at h
  · rename_i hl
    exact eqGo_sound hp hq hl h
  · simp at h

theorem isZero_sound (hg : env.Base B) {p : Poly} (hp : WF p) {v : Bool} (h : isZero (env.checked B) p = .ok v) :
    v = true ↔ ∀ t ∈ p, t.coe.val = 0 := by
  induction p generalizing v with
  | nil =>
    unfold isZero at h
    injection h with h
    subst h
    simp
  | cons t p ih =>
    obtain ⟨ht, hp⟩ := wf_cons.1 hp
    unfold isZero at h
    obtain ⟨b, h1, h⟩ := Res.bind_eq_ok.1 h
    obtain ⟨c1, c2⟩ := Term.coeIs_sound hg ht.coe h1
    simp only [List.mem_cons, forall_eq_or_imp]
    cases b with
    | true =>
      rw [if_pos rfl] at h
      rw [ih hp h]
      have := c1 rfl
      simp only [Int.cast_zero] at this
      simp [this]
    | false =>
      rw [if_neg (by simp)] at h
      injection h with h
      subst h
      simp only [Bool.false_eq_true, false_iff, not_and]
      intro h0
      exact absurd (c2 rfl h0) (by simp)

theorem value_zero {p : Poly} (h : ∀ t ∈ p, t.coe.val = 0) : value ρ p = 0 := by
  induction p with
  | nil => rfl
  | cons t p ih =>
    rw [value_cons, ih fun t ht => h t (List.mem_cons_of_mem _ ht)]
    unfold Term.value
    rw [h t List.mem_cons_self]; ring

/-! ### powers -/

open Nat in
/-- `∏ x_k^{a_k} / a_k!`. -/
noncomputable def weight (xs : List ℝ) (v : List Int) : ℝ :=
  (List.zipWith (fun x a => x ^ Int.toNat a / ((Int.toNat a)! : ℝ)) xs v).prod

theorem sum_range_list (f : Nat → ℝ) (n : Nat) : ((List.range n).map f).sum = ∑ i ∈ Finset.range n, f i := by
  rw [Finset.sum_range, ← Fin.sum_ofFn, List.ofFn_eq_map]
  congr 1
  induction n with
  | zero => rfl
  | succ n ih =>
    rw [List.range_succ, List.finRange_succ_last, List.map_append, List.map_append, ih]
    simp [Function.comp_def]

open Nat in
theorem exp_add (x s : ℝ) (n : Nat) :
    ((List.range (n + 1)).map fun i => x ^ i / (i ! : ℝ) * (s ^ (n - i) / ((n - i)! : ℝ))).sum = (x + s) ^ n / (n ! : ℝ) := by
  rw [sum_range_list, add_pow, Finset.sum_div]
  refine Finset.sum_congr rfl fun i hi => ?_
  have hi : i ≤ n := by rw [Finset.mem_range] at hi; omega
  rw [Nat.cast_choose ℝ hi]
  have : (n ! : ℝ) ≠ 0 := by exact_mod_cast n.factorial_ne_zero
  have : (i ! : ℝ) ≠ 0 := by exact_mod_cast i.factorial_ne_zero
  have : ((n - i)! : ℝ) ≠ 0 := by exact_mod_cast (n - i).factorial_ne_zero
  field_simp

open Nat in
/-- the multinomial theorem along `solve_variable_eq`. -/
theorem solve_weight (m n : Nat) (hm : 2 ≤ m) (xs : List ℝ) (hx : xs.length = m) {L : List (List Int)}
    (h : solveEq m n = .ok L) : (L.map (weight xs)).sum = xs.sum ^ n / (n ! : ℝ) := by
  induction m generalizing n xs L with
  | zero => omega
  | succ m ih =>
    have hhelp : solveHelper (n : Int) = (List.range (n + 1)).map fun i : Nat => ((i : Int), (n : Int) - i) := by
      unfold solveHelper
      rw [show ((n : Int) + 1).toNat = n + 1 by omega]
    match m, hm, ih with
    | 1, _, _ =>
      match xs, hx with
      | [a, b], _ =>
        unfold solveEq at h
        injection h with h
        subst h
        rw [hhelp, List.map_map, List.map_map]
        have := exp_add a b n
        simp only [List.sum_cons, List.sum_nil, add_zero]
        rw [← this]
        congr 1
        refine List.map_congr_left fun i hi => ?_
        have hi : i ≤ n := by rw [List.mem_range] at hi; omega
        simp [weight, Function.comp_def, show ((n : Int) - i).toNat = n - i by omega]
    | m + 2, _, ih =>
      match xs, hx with
      | x :: xs, hx =>
        have hx : xs.length = m + 2 := by simpa using hx
        have key : ∀ (is : List Nat) (L : List (List Int)), (∀ i ∈ is, i ≤ n) →
            solveLoop (solveEq (m + 2)) (is.map fun i : Nat => ((i : Int), (n : Int) - i)) = .ok L →
            (L.map (weight (x :: xs))).sum =
              (is.map fun i => x ^ i / (i ! : ℝ) * (xs.sum ^ (n - i) / ((n - i)! : ℝ))).sum := by
          intro is
          induction is with
          | nil =>
            intro L _ h
            unfold solveLoop at h
            simp only [List.map_nil] at h
            injection h with h
            subst h
            rfl
          | cons i is ihs =>
            intro L hi h
            rw [List.map_cons] at h
            unfold solveLoop at h
            obtain ⟨l, h1, h⟩ := Res.bind_eq_ok.1 h
            obtain ⟨l', h2, h⟩ := Res.bind_eq_ok.1 h
            injection h with h
            subst h
            have hin : i ≤ n := hi i List.mem_cons_self
            have e1 : ((n : Int) - (i : Int)) = ((n - i : Nat) : Int) := by omega
            simp only at h1
            rw [e1] at h1
            have i1 := ih (n - i) (by omega) xs hx h1
            rw [List.map_append, List.sum_append, ihs l' (fun j hj => hi j (List.mem_cons_of_mem _ hj)) h2,
              List.map_cons, List.sum_cons, ← i1, List.map_map]
            congr 1
            rw [← List.sum_map_mul_left]
            congr 1
        have h' : solveLoop (solveEq (m + 2)) (solveHelper n) = .ok L := h
        rw [hhelp] at h'
        rw [key _ L (fun i hi => by rw [List.mem_range] at hi; omega) h', exp_add, List.sum_cons]

open Nat in
theorem factLoop_eq (M : Int) (n : Nat) (h : (n ! : Int) ≤ 2 * M + 1) : factLoop M n = (n ! : Int) := by
  induction n with
  | zero => rfl
  | succ n ih =>
    have hf : (((n + 1)! : Nat) : Int) = (n ! : Int) * ((n : Int) + 1) := by
      rw [Nat.factorial_succ]; push_cast; ring
    have hpos : (0 : Int) < n ! := by exact_mod_cast n.factorial_pos
    have hle : (n ! : Int) ≤ ((n + 1)! : Nat) := by exact_mod_cast Nat.factorial_le (by omega)
    unfold factLoop
    rw [ih (le_trans hle h), ← hf, Int.emod_eq_of_lt (by positivity) (by omega)]

open Nat in
theorem divFact_sound {M : Int} {n : Nat} {q r : Rational} (h : divFact M n q = .ok r) (hq : q.den ≠ 0) :
    r.val = q.val / (n ! : ℚ) ∧ r.den ≠ 0 := by
  induction n generalizing r with
  | zero =>
    unfold divFact at h
    injection h with h
    subst h
    exact ⟨by simp, hq⟩
  | succ n ih =>
    unfold divFact at h
    obtain ⟨q', h1, h⟩ := Res.bind_eq_ok.1 h
    obtain ⟨t, h2, h⟩ := Res.bind_eq_ok.1 h
    obtain ⟨rfl, -⟩ := Rational.ofInt_spec h2
    obtain ⟨i1, i2⟩ := ih h1
    obtain ⟨-, d2, d3, -⟩ := Rational.div_spec h
    refine ⟨?_, d3⟩
    rw [d2, i1, Rational.val_int, Nat.factorial_succ]
    push_cast
    rw [div_div, mul_comm]

open Nat in
theorem divFacts_sound {M : Int} {v : List Int} {q r : Rational} (h : divFacts M v q = .ok r) (hq : q.den ≠ 0) :
    r.val = q.val / ((v.map fun a => ((Int.toNat a)! : ℚ)).prod) ∧ r.den ≠ 0 := by
  induction v generalizing q with
  | nil =>
    unfold divFacts at h
    injection h with h
    subst h
    exact ⟨by simp, hq⟩
  | cons a v ih =>
    unfold divFacts at h
    obtain ⟨q', h1, h⟩ := Res.bind_eq_ok.1 h
    obtain ⟨d1, d2⟩ := divFact_sound h1 hq
    obtain ⟨i1, i2⟩ := ih h d2
    exact ⟨by rw [i1, d1, List.map_cons, List.prod_cons, div_div], i2⟩

theorem powerProd_sound (hg : env.Base B) {p : Poly} (hp : WF p) {v : List Int} (hv : ∀ a ∈ v, 0 ≤ a)
    (hl : p.length = v.length) {acc t : Term} (hacc : acc.WF) (h : powerProd (env.checked B) p v acc = .ok t) :
    t.WF ∧ ∀ ρ, (∀ x, 0 < ρ x) →
      t.value ρ = acc.value ρ * (List.zipWith (fun x a => x ^ Int.toNat a) (p.map (Term.value ρ)) v).prod := by
  induction p generalizing v acc with
  | nil =>
    match v, hl with
    | [], _ =>
      unfold powerProd at h
      injection h with h
      subst h
      exact ⟨hacc, fun ρ _ => by simp⟩
  | cons x p ih =>
    match v, hl with
    | a :: v, hl =>
      obtain ⟨hx, hp⟩ := wf_cons.1 hp
      unfold powerProd at h
      obtain ⟨e, h1, h⟩ := Res.bind_eq_ok.1 h
      obtain ⟨y, h2, h⟩ := Res.bind_eq_ok.1 h
      obtain ⟨acc', h3, h9⟩ := Res.bind_eq_ok.1 h
      clear h
      obtain ⟨rfl, -⟩ := Rational.ofInt_spec h1
      have y1 := fun ρ hρ => Term.pow_sound (ρ := ρ) hg hρ hx (by norm_num) (Or.inr (Rational.intLow_of_den rfl)) h2
      have y0 := (y1 (fun _ => 1) fun _ => one_pos).1
      have m1 := fun ρ hρ => Term.mul_sound (ρ := ρ) hg hρ hacc y0 h3
      obtain ⟨i1, i2⟩ := ih hp (fun b hb => hv b (List.mem_cons_of_mem _ hb)) (by simpa using hl)
        (m1 (fun _ => 1) fun _ => one_pos).1 h9
      refine ⟨i1, fun ρ hρ => ?_⟩
      have ha := hv a List.mem_cons_self
      have e : ((Rational.val ⟨a, 1⟩ : ℚ) : ℝ) = ((Int.toNat a : Nat) : ℝ) := by
        rw [Rational.val_int]
        have : ((Int.toNat a : Nat) : Int) = a := Int.toNat_of_nonneg ha
        have h5 : (((Int.toNat a : Nat) : Int) : ℝ) = (a : ℝ) := by rw [this]
        rw [← Int.cast_natCast, h5]; push_cast; rfl
      rw [i2 ρ hρ, (m1 ρ hρ).2.1, (y1 ρ hρ).2, e, Real.rpow_natCast, List.map_cons, List.zipWith_cons_cons,
        List.prod_cons]
      ring

open Nat in
theorem weight_split (xs : List ℝ) (v : List Int) (hl : xs.length = v.length) :
    weight xs v = (List.zipWith (fun x a => x ^ Int.toNat a) xs v).prod /
      (v.map fun a => ((Int.toNat a)! : ℝ)).prod := by
  induction xs generalizing v with
  | nil =>
    match v, hl with
    | [], _ => simp [weight]
  | cons x xs ih =>
    match v, hl with
    | a :: v, hl =>
      have := ih v (by simpa using hl)
      unfold weight at this ⊢
      rw [List.zipWith_cons_cons, List.zipWith_cons_cons, List.prod_cons, List.prod_cons, this, List.map_cons,
        List.prod_cons]
      rw [_root_.div_mul_div_comm]

open Nat in
theorem expandOne_sound (hg : env.Base B) {p : Poly} (hp : WF p) {v : List Int} (hv : ∀ a ∈ v, 0 ≤ a)
    (hl : p.length = v.length) {n : Nat} (hn : (n ! : Int) ≤ env.M) {t : Term}
    (h : expandOne (env.checked B) p (n ! : Nat) v = .ok t) :
    t.WF ∧ ∀ ρ, (∀ x, 0 < ρ x) → t.value ρ = (n ! : ℝ) * weight (p.map (Term.value ρ)) v := by
  unfold expandOne at h
  have hw : wrap (env.checked B).M ((n ! : Nat) : Int) = (n ! : Nat) := by
    refine wrap_of_range ?_
    have hM := hg.M1
    have : (0 : Int) ≤ (n ! : Nat) := by positivity
    show InRange env.M _
    unfold InRange
    omega
  rw [hw] at h
  obtain ⟨q, h1, h⟩ := Res.bind_eq_ok.1 h
  obtain ⟨q', h2, h⟩ := Res.bind_eq_ok.1 h
  obtain ⟨c, h3, h9⟩ := Res.bind_eq_ok.1 h
  clear h
  obtain ⟨rfl, -⟩ := Rational.ofInt_spec h1
  obtain ⟨d1, d2⟩ := divFacts_sound h2 (by norm_num)
  obtain ⟨c1, c2⟩ := Real.ofRational_sound hg d2 h3
  obtain ⟨i1, i2⟩ := powerProd_sound hg hp hv hl (Term.ofReal_wf c1.valid) h9
  refine ⟨i1, fun ρ hρ => ?_⟩
  rw [i2 ρ hρ, Term.ofReal_value, c2, d1, weight_split _ _ (by simpa using hl), Rational.val_int]
  push_cast
  rw [List.map_map]
  have : (List.map (Rat.cast ∘ fun a => ((Int.toNat a)! : ℚ)) v) = v.map fun a => ((Int.toNat a)! : ℝ) := by
    refine List.map_congr_left fun a _ => ?_
    simp
  try rw [this]
  ring

open Nat in
theorem expand_sound (hg : env.Base B) {p : Poly} (hp : WF p) {n : Nat} (hn : (n ! : Int) ≤ env.M)
    {vs : List (List Int)} (hv : ∀ v ∈ vs, IsSol n p.length v) {r : Poly}
    (h : expand (env.checked B) p (n ! : Nat) vs = .ok r) :
    WF r ∧ ∀ ρ, (∀ x, 0 < ρ x) → value ρ r = (n ! : ℝ) * ((vs.map (weight (p.map (Term.value ρ)))).sum) := by
  induction vs generalizing r with
  | nil =>
    unfold expand at h
    injection h with h
    subst h
    exact ⟨wf_nil, fun ρ _ => by simp [value_nil]⟩
  | cons v vs ih =>
    unfold expand at h
    obtain ⟨t, h1, h⟩ := Res.bind_eq_ok.1 h
    obtain ⟨ts, h2, h⟩ := Res.bind_eq_ok.1 h
    injection h with h
    subst h
    obtain ⟨s1, s2, -⟩ := hv v List.mem_cons_self
    obtain ⟨a1, a2⟩ := expandOne_sound hg hp s2 s1.symm hn h1
    obtain ⟨b1, b2⟩ := ih (fun w hw => hv w (List.mem_cons_of_mem _ hw)) h2
    refine ⟨wf_cons.2 ⟨a1, b1⟩, fun ρ hρ => ?_⟩
    rw [value_cons, a2 ρ hρ, b2 ρ hρ, List.map_cons, List.sum_cons]; ring

end
end Poly
end Symxx.Sym
