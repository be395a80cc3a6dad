import Verif.Expr.Spec
import Verif.Expr.Mono
import Verif.Frac.FracSound
import Verif.Num.RealLow
/-!
# Expressions: evaluation, normalisation and substitution keep the value
-/
namespace Symxx.Sym
open Symxx.Num
variable {env : FEnv} {B : Nat}

theorem opSem_add (x y : ℝ) : opSem '+' x y = some (x + y) := if_pos rfl
theorem opSem_sub (x y : ℝ) : opSem '-' x y = some (x - y) := by
  unfold opSem; rw [if_neg (by decide), if_pos rfl]
theorem opSem_mul (x y : ℝ) : opSem '*' x y = some (x * y) := by
  unfold opSem; rw [if_neg (by decide), if_neg (by decide), if_pos rfl]
theorem opSem_div {x y : ℝ} (hy : y ≠ 0) : opSem '/' x y = some (x / y) := by
  unfold opSem; rw [if_neg (by decide), if_neg (by decide), if_neg (by decide), if_pos rfl, if_neg hy]
theorem opSem_pow {x y : ℝ} (hx : 0 < x) : opSem '^' x y = some (x ^ y) := by
  unfold opSem
  rw [if_neg (by decide), if_neg (by decide), if_neg (by decide), if_neg (by decide), if_pos rfl, if_pos (Or.inl hx)]

theorem Poly.tryEvalLoop_low {env : Env} (hg : env.Base B) {p : Poly} (hp : WF p) {r s : Num.Real} (hr : r.Canon)
    (hl : r.coe.Lowest) (h : tryEvalLoop (env.checked B) p r = .ok (some s)) : s.coe.Lowest := by
  induction p generalizing r with
  | nil =>
    unfold tryEvalLoop at h
    injection h with h
    injection h with h
    exact h ▸ hl
  | cons t p ih =>
    obtain ⟨ht, hp⟩ := wf_cons.1 hp
    unfold tryEvalLoop at h
    cases hte : t.tryEval with
    | none => rw [hte] at h; simp at h
    | some x =>
      rw [hte] at h
      simp only at h
      have hx : t.coe = x := by
        unfold Term.tryEval at hte
        split at hte
        · injection hte
        · cases hte
      subst hx
      obtain ⟨v, h1, h⟩ := Res.bind_eq_ok.1 h
      cases v with
      | false => simp at h
      | true =>
        rw [if_pos rfl] at h
        obtain ⟨r', h2, h⟩ := Res.bind_eq_ok.1 h
        exact ih hp (Real.add_sound hg hr.valid ht.coe h2).1 (Real.add_low hg hr.valid ht.coe h2) h

theorem Poly.tryEval_low {env : Env} (hg : env.Base B) {p : Poly} (hp : WF p) {s : Num.Real}
    (h : tryEval (env.checked B) p = .ok (some s)) : s.coe.Lowest := by
  unfold tryEval at h
  obtain ⟨z, h1, h⟩ := Res.bind_eq_ok.1 h
  exact tryEvalLoop_low hg hp (Real.ofInt_sound hg h1).1 (Real.ofInt_low hg h1) h

theorem Frac.tryEval_low (hg : env.toEnv.Base B) {a : Frac} (ha : a.WF) {r : Num.Real}
    (h : tryEval (env.checked B) a = .ok (some r)) : r.coe.Lowest := by
  unfold tryEval at h
  obtain ⟨n, h1, h⟩ := Res.bind_eq_ok.1 h
  obtain ⟨d, h2, h⟩ := Res.bind_eq_ok.1 h
  split at h
  · rename_i n d
    obtain ⟨x, h3, h⟩ := Res.bind_eq_ok.1 h
    injection h with h
    injection h with h
    subst h
    exact Real.div_low hg (Poly.tryEval_sound hg ha.num h1).1.valid (Poly.tryEval_sound hg ha.den h2).1.valid
      (Poly.tryEval_low hg ha.num h1) h3
  · simp at h

theorem Term.toRational_sound {e : Env} {t : Term} (ht : t.WF) {q : Rational} (h : Term.toRational e t = .ok q) :
    q.den ≠ 0 ∧ ∀ ρ, ((q.val : ℚ) : ℝ) = t.value ρ := by
  unfold Term.toRational at h
  obtain ⟨_, h1, h⟩ := Res.bind_eq_ok.1 h
  have hs : t.syms = [] := by simpa [Term.noSymbols] using Res.assert_eq_ok.1 h1
  obtain ⟨r1, r2⟩ := Real.toRational_sound ht.coe h
  exact ⟨r1, fun ρ => by rw [r2, Term.value, hs]; simp [Syms.value]⟩

theorem Poly.toRationalLoop_sound {e : Env} {p : Poly} (hp : WF p) {r q : Rational} (hr : r.den ≠ 0) (hl : r.Lowest)
    (h : toRationalLoop e p r = .ok q) : q.den ≠ 0 ∧ q.Lowest ∧ ∀ ρ, ((q.val : ℚ) : ℝ) = (r.val : ℚ) + value ρ p := by
  induction p generalizing r with
  | nil =>
    unfold toRationalLoop at h
    injection h with h
    subst h
    exact ⟨hr, hl, fun ρ => by rw [value_nil, add_zero]⟩
  | cons t p ih =>
    obtain ⟨ht, hp⟩ := wf_cons.1 hp
    unfold toRationalLoop at h
    obtain ⟨x, h1, h⟩ := Res.bind_eq_ok.1 h
    obtain ⟨r', h2, h⟩ := Res.bind_eq_ok.1 h
    obtain ⟨x1, x2⟩ := Term.toRational_sound ht h1
    obtain ⟨a1, a2, a3, -⟩ := Rational.add_spec hr x1 h2
    obtain ⟨i1, i2, i3⟩ := ih hp a3.ne' a2 h
    refine ⟨i1, i2, fun ρ => ?_⟩
    rw [i3 ρ, a1, value_cons, ← x2 ρ]
    push_cast
    ring

theorem Poly.toRational_sound {e : Env} {p : Poly} (hp : WF p) {q : Rational} (h : Poly.toRational e p = .ok q) :
    q.den ≠ 0 ∧ q.Lowest ∧ ∀ ρ, ((q.val : ℚ) : ℝ) = value ρ p := by
  unfold Poly.toRational at h
  obtain ⟨z, h1, h⟩ := Res.bind_eq_ok.1 h
  obtain ⟨rfl, -⟩ := Rational.ofInt_spec h1
  obtain ⟨i1, i2, i3⟩ := toRationalLoop_sound hp (by norm_num) (by simp [Rational.Lowest]) h
  exact ⟨i1, i2, fun ρ => by rw [i3 ρ]; simp [Rational.val]⟩

theorem Frac.toRational_sound {e : Env} {a : Frac} (ha : a.WF) {q : Rational} (h : Frac.toRational e a = .ok q) :
    q.den ≠ 0 ∧ q.Lowest ∧ ∀ ρ, ((q.val : ℚ) : ℝ) = Frac.value ρ a := by
  unfold Frac.toRational at h
  obtain ⟨n, h1, h⟩ := Res.bind_eq_ok.1 h
  obtain ⟨d, h2, h⟩ := Res.bind_eq_ok.1 h
  obtain ⟨n1, n2, n3⟩ := Poly.toRational_sound ha.num h1
  obtain ⟨d1, d2, d3⟩ := Poly.toRational_sound ha.den h2
  obtain ⟨-, v1, v2, -, -, v5, -⟩ := Rational.div_spec h
  refine ⟨v2, v5 n2, fun ρ => ?_⟩
  unfold Frac.value
  rw [v1, ← n3 ρ, ← d3 ρ]
  push_cast
  rfl

namespace Node

/-- wherever `n` has a value, `m` has the same value. -/
def Ref (ρ : List Char → ℝ) (n m : Node) : Prop := ∀ v, n.sem ρ = some v → m.sem ρ = some v

theorem sem_frac {ρ : List Char → ℝ} {f : Frac} {v : ℝ} :
    (Node.frac f).sem ρ = some v ↔ Poly.value ρ f.den ≠ 0 ∧ Frac.value ρ f = v := by
  unfold Node.sem
  split
  · simp [*]
  · simp [*]

theorem sem_op {ρ : List Char → ℝ} {c : Char} {l r : Node} {v : ℝ} :
    (Node.op c l r).sem ρ = some v ↔ ∃ x y, l.sem ρ = some x ∧ r.sem ρ = some y ∧ opSem c x y = some v := by
  show ((Node.sem ρ l).bind fun x => (Node.sem ρ r).bind fun y => opSem c x y) = some v ↔ _
  simp only [Option.bind_eq_some_iff]
  constructor
  · rintro ⟨x, h1, y, h2, h3⟩; exact ⟨x, y, h1, h2, h3⟩
  · rintro ⟨x, y, h1, h2, h3⟩; exact ⟨x, h1, y, h2, h3⟩

theorem Ref.refl (ρ : List Char → ℝ) (n : Node) : Ref ρ n n := fun _ h => h

theorem Ref.trans {ρ : List Char → ℝ} {a b c : Node} (h1 : Ref ρ a b) (h2 : Ref ρ b c) : Ref ρ a c :=
  fun v h => h2 v (h1 v h)

theorem Ref.op {ρ : List Char → ℝ} {c : Char} {l l' r r' : Node} (hl : Ref ρ l l') (hr : Ref ρ r r') :
    Ref ρ (.op c l r) (.op c l' r') := by
  intro v h
  rw [sem_op] at h ⊢
  obtain ⟨x, y, h1, h2, h3⟩ := h
  exact ⟨x, y, hl x h1, hr y h2, h3⟩

theorem pow_ref (hg : env.toEnv.Base B) (hs : SortOk env.sort) {a b r : Frac} {q : Rational} (ha : a.WF)
    (hq : q.den ≠ 0) (hl : q.Lowest) (hv : ∀ ρ, ((q.val : ℚ) : ℝ) = Frac.value ρ b)
    (h : Frac.pow (env.checked B) a q = .ok r) :
    r.WF ∧ ∀ ρ, (∀ x, 0 < ρ x) → Ref ρ (.op '^' (.frac a) (.frac b)) (.frac r) := by
  by_cases hk : ∃ k : Int, q.val = k
  · obtain ⟨k, hk⟩ := hk
    obtain ⟨w, s⟩ := Frac.pow_int_sound hg hs ha hq hl hk h
    refine ⟨w, fun ρ hρ v hv' => ?_⟩
    obtain ⟨s1, s2⟩ := s ρ hρ
    obtain ⟨x, y, h1, h2, h3⟩ := sem_op.1 hv'
    obtain ⟨a1, rfl⟩ := sem_frac.1 h1
    obtain ⟨b1, rfl⟩ := sem_frac.1 h2
    rw [← hv ρ, hk] at h3
    unfold opSem at h3
    rw [if_neg (by decide), if_neg (by decide), if_neg (by decide), if_neg (by decide), if_pos rfl] at h3
    split at h3
    · rename_i hc
      injection h3 with h3
      subst h3
      refine sem_frac.2 ⟨s2 a1 ?_, ?_⟩
      · by_contra hn
        push Not at hn
        obtain ⟨n1, n2⟩ := hn
        have : Frac.value ρ a = 0 := by unfold Frac.value; rw [n2, zero_div]
        rw [this] at hc
        have hk' : (((k : ℚ) : ℝ)) < 0 := by exact_mod_cast n1
        rcases hc with hc | hc | hc
        · exact absurd hc (lt_irrefl _)
        · linarith [hc.2]
        · exact absurd hc.1 (lt_irrefl _)
      · rw [s1]
        push_cast
        rw [Real.rpow_intCast]
    · simp at h3
  · obtain ⟨w, s⟩ := Frac.pow_frac_sound hg hs ha hq hl hk h
    refine ⟨w, fun ρ hρ v hv' => ?_⟩
    obtain ⟨s1, s2⟩ := s ρ hρ
    obtain ⟨x, y, h1, h2, h3⟩ := sem_op.1 hv'
    obtain ⟨a1, rfl⟩ := sem_frac.1 h1
    obtain ⟨b1, rfl⟩ := sem_frac.1 h2
    rw [← hv ρ] at h3
    unfold opSem at h3
    rw [if_neg (by decide), if_neg (by decide), if_neg (by decide), if_neg (by decide), if_pos rfl] at h3
    split at h3
    · rename_i hc
      injection h3 with h3
      subst h3
      refine sem_frac.2 ⟨s2, ?_⟩
      rw [s1]
      rcases hc with hc | hc | hc
      · rw [abs_of_pos hc]
      · rw [hc.1, abs_zero]
      · exfalso
        obtain ⟨k, hk'⟩ := hc.2
        exact hk ⟨k, by exact_mod_cast hk'⟩
    · simp at h3

theorem add_ref (hg : env.toEnv.Base B) (hs : SortOk env.sort) {a b r : Frac} (ha : a.WF) (hb : b.WF)
    (h : Frac.add (env.checked B) a b = .ok r) :
    r.WF ∧ ∀ ρ, (∀ x, 0 < ρ x) → Ref ρ (.op '+' (.frac a) (.frac b)) (.frac r) := by
  obtain ⟨w, s⟩ := Frac.add_sound hg hs ha hb h
  refine ⟨w, fun ρ hρ v hv' => ?_⟩
  obtain ⟨x, y, h1, h2, h3⟩ := sem_op.1 hv'
  obtain ⟨a1, rfl⟩ := sem_frac.1 h1
  obtain ⟨b1, rfl⟩ := sem_frac.1 h2
  unfold opSem at h3
  rw [if_pos rfl] at h3
  injection h3 with h3
  obtain ⟨s1, s2⟩ := s ρ hρ a1 b1
  exact sem_frac.2 ⟨s1, s2.trans h3⟩

theorem sub_ref (hg : env.toEnv.Base B) (hs : SortOk env.sort) {a b r : Frac} (ha : a.WF) (hb : b.WF)
    (h : Frac.sub (env.checked B) a b = .ok r) :
    r.WF ∧ ∀ ρ, (∀ x, 0 < ρ x) → Ref ρ (.op '-' (.frac a) (.frac b)) (.frac r) := by
  obtain ⟨w, s⟩ := Frac.sub_sound hg hs ha hb h
  refine ⟨w, fun ρ hρ v hv' => ?_⟩
  obtain ⟨x, y, h1, h2, h3⟩ := sem_op.1 hv'
  obtain ⟨a1, rfl⟩ := sem_frac.1 h1
  obtain ⟨b1, rfl⟩ := sem_frac.1 h2
  unfold opSem at h3
  rw [if_neg (by decide), if_pos rfl] at h3
  injection h3 with h3
  obtain ⟨s1, s2⟩ := s ρ hρ a1 b1
  exact sem_frac.2 ⟨s1, s2.trans h3⟩

theorem mul_ref (hg : env.toEnv.Base B) (hs : SortOk env.sort) {a b r : Frac} (ha : a.WF) (hb : b.WF)
    (h : Frac.mul (env.checked B) a b = .ok r) :
    r.WF ∧ ∀ ρ, (∀ x, 0 < ρ x) → Ref ρ (.op '*' (.frac a) (.frac b)) (.frac r) := by
  obtain ⟨w, s⟩ := Frac.mul_sound hg hs ha hb h
  refine ⟨w, fun ρ hρ v hv' => ?_⟩
  obtain ⟨x, y, h1, h2, h3⟩ := sem_op.1 hv'
  obtain ⟨a1, rfl⟩ := sem_frac.1 h1
  obtain ⟨b1, rfl⟩ := sem_frac.1 h2
  unfold opSem at h3
  rw [if_neg (by decide), if_neg (by decide), if_pos rfl] at h3
  injection h3 with h3
  obtain ⟨s1, s2⟩ := s ρ hρ
  exact sem_frac.2 ⟨fun hz => by rcases s1.1 hz with h | h <;> contradiction, s2.trans h3⟩

theorem div_ref (hg : env.toEnv.Base B) (hs : SortOk env.sort) {a b r : Frac} (ha : a.WF) (hb : b.WF)
    (h : Frac.div (env.checked B) a b = .ok r) :
    r.WF ∧ ∀ ρ, (∀ x, 0 < ρ x) → Ref ρ (.op '/' (.frac a) (.frac b)) (.frac r) := by
  obtain ⟨w, -, s⟩ := Frac.div_sound hg hs ha hb h
  refine ⟨w, fun ρ hρ v hv' => ?_⟩
  obtain ⟨x, y, h1, h2, h3⟩ := sem_op.1 hv'
  obtain ⟨a1, rfl⟩ := sem_frac.1 h1
  obtain ⟨b1, rfl⟩ := sem_frac.1 h2
  unfold opSem at h3
  rw [if_neg (by decide), if_neg (by decide), if_neg (by decide), if_pos rfl] at h3
  split at h3
  · simp at h3
  · rename_i hz
    injection h3 with h3
    obtain ⟨s1, s2⟩ := s ρ hρ
    refine sem_frac.2 ⟨fun h0 => ?_, s2.trans h3⟩
    rcases s1.1 h0 with h | h
    · exact a1 h
    · exact hz (by unfold Frac.value; rw [h, zero_div])

theorem evalOp_ref (hg : env.toEnv.Base B) (hs : SortOk env.sort) {c : Char} {a b r : Frac} (ha : a.WF) (hb : b.WF)
    (h : evalOp (env.checked B) c a b = .ok (some r)) :
    r.WF ∧ ∀ ρ, (∀ x, 0 < ρ x) → Ref ρ (.op c (.frac a) (.frac b)) (.frac r) := by
  unfold evalOp at h
  split at h
  · rename_i hc
    subst hc
    obtain ⟨x, h1, h⟩ := Res.bind_eq_ok.1 h
    injection h with h
    injection h with h
    exact h ▸ add_ref hg hs ha hb h1
  · split at h
    · rename_i hc
      subst hc
      obtain ⟨x, h1, h⟩ := Res.bind_eq_ok.1 h
      injection h with h
      injection h with h
      exact h ▸ sub_ref hg hs ha hb h1
    · split at h
      · rename_i hc
        subst hc
        obtain ⟨x, h1, h⟩ := Res.bind_eq_ok.1 h
        injection h with h
        injection h with h
        exact h ▸ mul_ref hg hs ha hb h1
      · split at h
        · rename_i hc
          subst hc
          obtain ⟨x, h1, h⟩ := Res.bind_eq_ok.1 h
          injection h with h
          injection h with h
          exact h ▸ div_ref hg hs ha hb h1
        · split at h
          · rename_i hc
            subst hc
            obtain ⟨o, h1, h⟩ := Res.bind_eq_ok.1 h
            cases o with
            | none => simp at h
            | some p =>
              simp only at h
              obtain ⟨v, h2, h⟩ := Res.bind_eq_ok.1 h
              cases v with
              | false => simp at h
              | true =>
                rw [if_pos rfl] at h
                obtain ⟨q, h3, h⟩ := Res.bind_eq_ok.1 h
                obtain ⟨x, h4, h⟩ := Res.bind_eq_ok.1 h
                injection h with h
                injection h with h
                subst h
                obtain ⟨q1, q2, q3⟩ := Frac.toRational_sound hb h3
                exact pow_ref hg hs ha q1 q2 q3 h4
          · cases h

theorem tryEval_ref (hg : env.toEnv.Base B) (hs : SortOk env.sort) {n : Node} (hn : n.WF) {r : Frac}
    (h : tryEval (env.checked B) n = .ok (some r)) : r.WF ∧ ∀ ρ, (∀ x, 0 < ρ x) → Ref ρ n (.frac r) := by
  induction n generalizing r with
  | frac f =>
    unfold tryEval at h
    injection h with h
    injection h with h
    subst h
    exact ⟨hn, fun ρ _ => .refl _ _⟩
  | op c l r' il ir =>
    unfold tryEval at h
    obtain ⟨lv, h1, h⟩ := Res.bind_eq_ok.1 h
    obtain ⟨rv, h2, h⟩ := Res.bind_eq_ok.1 h
    cases lv with
    | none => simp at h
    | some a =>
      cases rv with
      | none => simp at h
      | some b =>
        simp only at h
        obtain ⟨a1, a2⟩ := il hn.1 h1
        obtain ⟨b1, b2⟩ := ir hn.2 h2
        obtain ⟨e1, e2⟩ := evalOp_ref hg hs a1 b1 h
        exact ⟨e1, fun ρ hρ => (Ref.op (a2 ρ hρ) (b2 ρ hρ)).trans (e2 ρ hρ)⟩

theorem normalize_ref (hg : env.toEnv.Base B) (hs : SortOk env.sort) {n m : Node} (hn : n.WF)
    (h : normalize (env.checked B) n = .ok m) : m.WF ∧ ∀ ρ, (∀ x, 0 < ρ x) → Ref ρ n m := by
  induction n generalizing m with
  | frac f =>
    unfold normalize at h
    injection h with h
    subst h
    exact ⟨hn, fun ρ _ => .refl _ _⟩
  | op c l r il ir =>
    unfold normalize at h
    obtain ⟨lv, h1, hA⟩ := Res.bind_eq_ok.1 h
    obtain ⟨rv, h2, hB⟩ := Res.bind_eq_ok.1 hA
    clear h hA
    rename' hB => h
    have both {l' r'} (g1 : normalize (env.checked B) l = .ok l') (g2 : normalize (env.checked B) r = .ok r') :
        (Node.op c l' r').WF ∧ ∀ ρ, (∀ x, 0 < ρ x) → Ref ρ (.op c l r) (.op c l' r') := by
      obtain ⟨l1, l2⟩ := il hn.1 g1
      obtain ⟨r1, r2⟩ := ir hn.2 g2
      exact ⟨⟨l1, r1⟩, fun ρ hρ => Ref.op (l2 ρ hρ) (r2 ρ hρ)⟩
    have rest : ∀ {m}, ((do
        let r ← normalize (env.checked B) r
        let l ← normalize (env.checked B) l
        .ok (.op c l r)) : Res Node) = .ok m → m.WF ∧ ∀ ρ, (∀ x, 0 < ρ x) → Ref ρ (.op c l r) m := by
      intro m h
      obtain ⟨r', g2, h⟩ := Res.bind_eq_ok.1 h
      obtain ⟨l', g1, h⟩ := Res.bind_eq_ok.1 h
      injection h with h
      subst h
      exact both g1 g2
    cases lv with
    | none => simp only at h; exact rest h
    | some a =>
      cases rv with
      | none => simp only at h; exact rest h
      | some b =>
        simp only at h
        obtain ⟨a1, a2⟩ := tryEval_ref hg hs hn.1 h1
        obtain ⟨b1, b2⟩ := tryEval_ref hg hs hn.2 h2
        have lift {x : Frac} (hx : x.WF ∧ ∀ ρ, (∀ x, 0 < ρ x) → Ref ρ (.op c (.frac a) (.frac b)) (.frac x)) :
            (Node.frac x).WF ∧ ∀ ρ, (∀ x, 0 < ρ x) → Ref ρ (.op c l r) (.frac x) :=
          ⟨hx.1, fun ρ hρ => (Ref.op (a2 ρ hρ) (b2 ρ hρ)).trans (hx.2 ρ hρ)⟩
        split at h
        · rename_i hc
          subst hc
          obtain ⟨x, h3, h⟩ := Res.bind_eq_ok.1 h
          injection h with h
          exact h ▸ lift (add_ref hg hs a1 b1 h3)
        · split at h
          · rename_i hc
            subst hc
            obtain ⟨x, h3, h⟩ := Res.bind_eq_ok.1 h
            injection h with h
            exact h ▸ lift (sub_ref hg hs a1 b1 h3)
          · split at h
            · rename_i hc
              subst hc
              obtain ⟨x, h3, h⟩ := Res.bind_eq_ok.1 h
              injection h with h
              exact h ▸ lift (mul_ref hg hs a1 b1 h3)
            · split at h
              · rename_i hc
                subst hc
                obtain ⟨x, h3, h⟩ := Res.bind_eq_ok.1 h
                injection h with h
                exact h ▸ lift (div_ref hg hs a1 b1 h3)
              · split at h
                · rename_i hc
                  subst hc
                  obtain ⟨p, h3, h⟩ := Res.bind_eq_ok.1 h
                  obtain ⟨q, h4, h⟩ := Res.bind_eq_ok.1 h
                  cases q with
                  | none =>
                    simp only at h
                    obtain ⟨l', g1, h⟩ := Res.bind_eq_ok.1 h
                    obtain ⟨r', g2, h⟩ := Res.bind_eq_ok.1 h
                    injection h with h
                    subst h
                    exact both g1 g2
                  | some q =>
                    simp only at h
                    obtain ⟨x, h5, h⟩ := Res.bind_eq_ok.1 h
                    injection h with h
                    subst h
                    cases p with
                    | none => simp at h4
                    | some p =>
                      simp only at h4
                      obtain ⟨v, h6, h4⟩ := Res.bind_eq_ok.1 h4
                      cases v with
                      | false => simp at h4
                      | true =>
                        rw [if_pos rfl] at h4
                        obtain ⟨q', h7, h4⟩ := Res.bind_eq_ok.1 h4
                        injection h4 with h4
                        injection h4 with h4
                        subst h4
                        obtain ⟨p1, p2⟩ := Frac.tryEval_sound hg b1 h3
                        obtain ⟨q1, q2⟩ := Real.toRational_sound p1.valid h7
                        exact lift (pow_ref hg hs a1 q1 (Real.toRational_low p1 (Frac.tryEval_low hg b1 h3) h7)
                          (fun ρ => by rw [q2, p2 ρ]) h5)
                · cases h

/-- substitution is possible in every fraction of the tree. -/
def SubstOk (e : List (List Char × Num.Real)) : Node → Prop
  | .frac f => (∀ t ∈ f.num, t.SubstOk e) ∧ ∀ t ∈ f.den, t.SubstOk e
  | .op _ l r => l.SubstOk e ∧ r.SubstOk e

theorem substitute_ref (hg : env.toEnv.Base B) (hs : SortOk env.sort) {e : List (List Char × Num.Real)} {n m : Node}
    (hn : n.WF) (he : n.SubstOk e) (h : substitute (env.checked B) e n = .ok m) :
    m.WF ∧ ∀ ρ, (∀ x, 0 < ρ x) → ∀ v, n.sem (override e ρ) = some v → m.sem ρ = some v := by
  induction n generalizing m with
  | frac f =>
    unfold substitute at h
    obtain ⟨g, h1, h⟩ := Res.bind_eq_ok.1 h
    injection h with h
    subst h
    obtain ⟨w, -, s⟩ := Frac.substitute_sound hg hs hn he.1 he.2 h1
    refine ⟨w, fun ρ hρ v hv => ?_⟩
    obtain ⟨s1, s2⟩ := s ρ hρ
    obtain ⟨v1, v2⟩ := sem_frac.1 hv
    exact sem_frac.2 ⟨fun h => v1 (s2.1 h), s1.trans v2⟩
  | op c l r il ir =>
    unfold substitute at h
    obtain ⟨l', h1, h⟩ := Res.bind_eq_ok.1 h
    obtain ⟨r', h2, h⟩ := Res.bind_eq_ok.1 h
    obtain ⟨l1, l2⟩ := il hn.1 he.1 h1
    obtain ⟨r1, r2⟩ := ir hn.2 he.2 h2
    obtain ⟨w, s⟩ := normalize_ref hg hs (n := .op c l' r') ⟨l1, r1⟩ h
    refine ⟨w, fun ρ hρ v hv => s ρ hρ v ?_⟩
    obtain ⟨x, y, h3, h4, h5⟩ := sem_op.1 hv
    exact sem_op.2 ⟨x, y, l2 ρ hρ x h3, r2 ρ hρ y h4, h5⟩

end Node
end Symxx.Sym
