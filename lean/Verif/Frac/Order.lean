import Verif.Frac.OrderSpec
import Verif.Frac.PolySound
import Verif.Num.RealCmpSound
import Verif.Num.RealOps
import Mathlib.Data.Prod.Lex
/-!
# The comparator of `Poly::normalize` decides a linear order on standard terms
-/
namespace Symxx.Sym
open Symxx.Num

/-- a symbol map as a list in a linear order. -/
def Syms.key (s : Syms) : List (List Char ×ₗ ℚ) := s.map fun p => toLex (p.1, p.2.val)

/-- what like terms have in common: symbols, index, radicand. -/
def Term.group (t : Term) : List (List Char ×ₗ ℚ) ×ₗ ℕ ×ₗ ℚ := toLex (t.syms.key, toLex (t.coe.index, t.coe.rad.val))

/-- symbols, index, radicand, number. -/
noncomputable def Term.key (t : Term) : (List (List Char ×ₗ ℚ) ×ₗ ℕ ×ₗ ℚ) ×ₗ ℝ := toLex (t.group, t.coe.val)

theorem ratNe_sound {M : Int} {a b : Rational} {v : Bool} (ha : a.den ≠ 0) (hb : b.den ≠ 0)
    (h : Rational.ne M a b = .ok v) : v = true ↔ a.val ≠ b.val := by
  unfold Rational.ne at h
  obtain ⟨⟨x, y⟩, h1, h⟩ := Res.bind_eq_ok.1 h
  obtain ⟨rfl, rfl⟩ := Rational.cross_spec h1
  injection h with h
  rw [← h, decide_eq_true_iff, ne_eq, ne_eq, Rational.val_eq_iff ha hb]

namespace Syms

theorem Std.tail {p : List Char × Rational} {s : Syms} (h : Std (p :: s)) : Std s :=
  ⟨(List.pairwise_cons.1 h.1).2, fun q hq => h.2 q (List.mem_cons_of_mem _ hq)⟩

theorem Std.head {p : List Char × Rational} {s : Syms} (h : Std (p :: s)) : 0 < p.2.den ∧ p.2.num ≠ 0 := h.2 p List.mem_cons_self

theorem Std.wf {s : Syms} (h : s.Std) : s.WF := ⟨h.1, fun p hp => (h.2 p hp).1.ne'⟩

theorem eqGo_key {M : Int} : ∀ {s t : Syms} {v : Bool}, s.WF → t.WF → s.length = t.length → eqGo M s t = .ok v →
    (v = true ↔ s.key = t.key)
  | [], [], v, _, _, _, h => by
    unfold eqGo at h; injection h with h; subst h; simp [key]
  | [], _ :: _, v, _, _, hl, _ => by simp at hl
  | _ :: _, [], v, _, _, hl, _ => by simp at hl
  | (k, x) :: s, (k', y) :: t, v, hs, ht, hl, h => by
    unfold eqGo at h
    obtain ⟨-, s2, s3⟩ := wf_cons.1 hs
    obtain ⟨-, t2, t3⟩ := wf_cons.1 ht
    split at h
    · rename_i hk
      obtain ⟨w, h1, h⟩ := Res.bind_eq_ok.1 h
      have e1 := Rational.eq_sound_val s2 t2 h1
      cases w with
      | true =>
        rw [if_pos rfl] at h
        rw [eqGo_key s3 t3 (by simpa using hl) h]
        have := e1.1 rfl
        simp only [key, List.map_cons, List.cons.injEq, hk, this, true_and]
      | false =>
        rw [if_neg (by simp)] at h
        injection h with h
        subst h
        have hne : x.val ≠ y.val := fun e => by simpa using e1.2 e
        simp [key, hk, hne]
    · rename_i hk
      injection h with h
      subst h
      simp [key, hk]

theorem eq_key {M : Int} {s t : Syms} {v : Bool} (hs : s.WF) (ht : t.WF) (h : eq M s t = .ok v) :
    v = true ↔ s.key = t.key := by
  unfold eq at h
  split at h
  · rename_i hl
    exact eqGo_key hs ht hl h
  · rename_i hl
    injection h with h
    subst h
    constructor
    · intro h; simp at h
    · intro h
      exact absurd (by simpa [key] using congrArg List.length h) hl

theorem lt_key {M : Int} : ∀ {s t : Syms} {v : Bool}, s.Std → t.Std → lt M s t = .ok v → (v = true ↔ s.key < t.key)
  | [], [], v, _, _, h => by
    unfold lt at h; injection h with h; subst h; simp [key]
  | [], _ :: _, v, _, _, h => by
    unfold lt at h; injection h with h; subst h
    simp only [key, List.map_nil, List.map_cons, true_iff]
    exact List.nil_lt_cons _ _
  | _ :: _, [], v, _, _, h => by
    unfold lt at h; injection h with h; subst h
    simp [key]
  | (k, x) :: s, (k', y) :: t, v, hs, ht, h => by
    unfold lt at h
    have hx := hs.head.1
    have hy := ht.head.1
    have hc : key ((k, x) :: s) < key ((k', y) :: t) ↔
        (k < k' ∨ k = k' ∧ x.val < y.val) ∨ (k = k' ∧ x.val = y.val) ∧ key s < key t := by
      simp only [key, List.map_cons]
      rw [List.cons_lt_cons_iff, Prod.Lex.toLex_lt_toLex]
      simp only [toLex_inj, Prod.mk.injEq]
    rw [hc]
    split at h
    · rename_i h1
      injection h with h; subst h; simp [h1]
    · rename_i h1
      split at h
      · rename_i h2
        injection h with h; subst h
        have : k ≠ k' := h2.ne'
        simp [h1, this]
      · rename_i h2
        have hk : k = k' := le_antisymm (not_lt.1 h2) (not_lt.1 h1)
        obtain ⟨w, g1, h⟩ := Res.bind_eq_ok.1 h
        have e1 := Rational.lt_sound hx hy g1
        cases w with
        | true =>
          rw [if_pos rfl] at h
          injection h with h; subst h
          simp [hk, e1.1 rfl]
        | false =>
          rw [if_neg (by simp)] at h
          have n1 : ¬ x.val < y.val := fun e => by simpa using e1.2 e
          obtain ⟨w, g2, h⟩ := Res.bind_eq_ok.1 h
          have e2 := Rational.lt_sound hy hx g2
          cases w with
          | true =>
            rw [if_pos rfl] at h
            injection h with h; subst h
            have := e2.1 rfl
            simp [hk, n1, this.ne']
          | false =>
            rw [if_neg (by simp)] at h
            have n2 : ¬ y.val < x.val := fun e => by simpa using e2.2 e
            have he : x.val = y.val := le_antisymm (not_lt.1 n2) (not_lt.1 n1)
            rw [lt_key hs.tail ht.tail h]
            simp [hk, he]

end Syms

namespace Term
variable {env : Env} {B : Nat}

theorem Std.wf {t : Term} (h : t.Std) : t.WF := ⟨h.canon.valid, h.syms.wf⟩

/-- an exact comparison decides the order of the keys. -/
theorem before_key (hg : env.Base B) {a b : Term} {v : Bool} (ha : a.Std) (hb : b.Std)
    (hi : ((b.coe.index * a.coe.index : Nat) : Int) ≤ 2 * env.M + 1) (h : before (env.checked B) a b = .ok v) :
    v = true ↔ b.key < a.key := by
  unfold before at h
  obtain ⟨w, h1, h⟩ := Res.bind_eq_ok.1 h
  have e1 := Syms.eq_key ha.syms.wf hb.syms.wf h1
  unfold key group
  simp only [Prod.Lex.toLex_lt_toLex, toLex_inj, Prod.mk.injEq]
  cases w with
  | false =>
    simp only [Bool.not_false, if_true] at h
    rw [Syms.lt_key hb.syms ha.syms h]
    have hne : b.syms.key ≠ a.syms.key := fun e => by simpa using e1.2 e.symm
    simp [hne]
  | true =>
    have hk := e1.1 rfl
    simp only [Bool.not_true, Bool.false_eq_true, if_false] at h
    split at h
    · rename_i hx
      injection h with h
      subst h
      have hx' : b.coe.index ≠ a.coe.index := Ne.symm hx
      simp [hk, hx']
    · rename_i hx
      have hx : a.coe.index = b.coe.index := not_not.1 hx
      obtain ⟨w, h2, h⟩ := Res.bind_eq_ok.1 h
      have ra : a.coe.rad.den = 1 := by obtain ⟨N, e, -⟩ := ha.canon; rw [e]
      have rb : b.coe.rad.den = 1 := by obtain ⟨N, e, -⟩ := hb.canon; rw [e]
      have e2 : w = true ↔ a.coe.rad.val ≠ b.coe.rad.val := ratNe_sound (by rw [ra]; norm_num) (by rw [rb]; norm_num) h2
      cases w with
      | true =>
        rw [if_pos rfl] at h
        have hr := e2.1 rfl
        have e3 : v = true ↔ b.coe.rad.val < a.coe.rad.val := Rational.gt_sound (by rw [ra]; norm_num) (by rw [rb]; norm_num) h
        rw [e3]
        simp [hk, hx, hr.symm]
      | false =>
        rw [if_neg (by simp)] at h
        have hr : a.coe.rad.val = b.coe.rad.val := by by_contra hc; simpa using e2.2 hc
        rw [Real.gt_sound hg ha.canon hb.canon ha.den hb.den hi h]
        simp [hk, hx, hr]

end Term

/-- the keys make the comparator a strict weak order. -/
theorem strictWeak_of_key {lt : Term → Term → Res Bool} {p : Poly}
    (h : ∀ a ∈ p, ∀ b ∈ p, ∃ v, lt a b = .ok v ∧ (v = true ↔ b.key < a.key)) : StrictWeak lt p := by
  have ht : ∀ a ∈ p, ∀ b ∈ p, (lt a b = .ok true ↔ b.key < a.key) := by
    intro a ha b hb
    obtain ⟨v, h1, h2⟩ := h a ha b hb
    rw [h1, ← h2]; simp
  have hf : ∀ a ∈ p, ∀ b ∈ p, (lt a b = .ok false ↔ ¬ b.key < a.key) := by
    intro a ha b hb
    obtain ⟨v, h1, h2⟩ := h a ha b hb
    rw [h1, ← h2]; simp
  refine ⟨fun a ha b hb => ?_, fun a ha => ?_, fun a ha b hb c hc h1 h2 => ?_, fun a ha b hb c hc h1 h2 h3 h4 => ?_⟩
  · obtain ⟨v, h1, -⟩ := h a ha b hb
    exact ⟨v, h1⟩
  · exact (hf a ha a ha).2 (lt_irrefl _)
  · exact (ht a ha c hc).2 (lt_trans ((ht b hb c hc).1 h2) ((ht a ha b hb).1 h1))
  · have e1 : a.key = b.key := le_antisymm (not_lt.1 ((hf a ha b hb).1 h1)) (not_lt.1 ((hf b hb a ha).1 h2))
    have e2 : b.key = c.key := le_antisymm (not_lt.1 ((hf b hb c hc).1 h3)) (not_lt.1 ((hf c hc b hb).1 h4))
    exact ⟨(hf a ha c hc).2 (by rw [e1, e2]; exact lt_irrefl _), (hf c hc a ha).2 (by rw [e1, e2]; exact lt_irrefl _)⟩

/-- a sort that keeps its contract sorts by key. -/
theorem SortContract.sorted {env : FEnv} (hs : SortContract env) {p q : Poly} (hq : env.sort p = .ok q)
    (h : ∀ a ∈ p, ∀ b ∈ p, ∃ v, Term.before env.toEnv a b = .ok v ∧ (v = true ↔ b.key < a.key)) :
    q.Perm p ∧ q.Pairwise fun a b => b.key ≤ a.key := by
  obtain ⟨h1, h2⟩ := hs p q hq
  refine ⟨h1, ?_⟩
  refine List.Pairwise.imp_of_mem ?_ (h2 (strictWeak_of_key h))
  intro a b ha hb hab
  obtain ⟨v, e1, e2⟩ := h b (h1.subset hb) a (h1.subset ha)
  rw [hab] at e1
  injection e1 with e1
  subst e1
  exact not_lt.1 fun hlt => by simpa using e2.2 hlt

theorem SortContract.ok {env : FEnv} (hs : SortContract env) : SortOk env.sort := fun p q h => (hs p q h).1

end Symxx.Sym
