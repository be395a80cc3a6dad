import Verif.Frac.IntDef
import Verif.Frac.FracMono
import Mathlib.Algebra.Order.BigOperators.Group.List
/-!
# Integer polynomials: the operations return, and the size of the result is bounded

`Syms.IntLe D s`: integer exponents of magnitude at most `D`. `Poly.IntLe D p`: integer coefficients and such
exponents. `Poly.l1 p`: the sum of the absolute values of the coefficients.
-/
namespace Symxx.Sym
open Symxx.Num

/-- integer exponents of magnitude at most `D`. -/
def Syms.IntLe (D : Int) (s : Syms) : Prop := ∀ p ∈ s, p.2.den = 1 ∧ |p.2.num| ≤ D

/-- an integer coefficient. -/
def Term.IntLe (D : Int) (t : Term) : Prop :=
  t.coe = Real.int t.coe.coe.num ∧ t.syms.IntLe D ∧ t.syms.WF

/-- integer coefficients, integer exponents of magnitude at most `D`. -/
def Poly.IntLe (D : Int) (p : Poly) : Prop := ∀ t ∈ p, Term.IntLe D t

/-- the sum of the absolute values of the coefficients. -/
def Poly.l1 (p : Poly) : Int := (p.map fun t => |t.coe.coe.num|).sum

variable {env : Env}

namespace Syms

theorem IntLe.mono {D D' : Int} {s : Syms} (h : s.IntLe D) (hD : D ≤ D') : s.IntLe D' :=
  fun p hp => ⟨(h p hp).1, le_trans (h p hp).2 hD⟩

theorem intLe_cons {D : Int} {p : List Char × Rational} {s : Syms} :
    IntLe D (p :: s) ↔ (p.2.den = 1 ∧ |p.2.num| ≤ D) ∧ IntLe D s := by
  unfold IntLe; simp [List.mem_cons, forall_eq_or_imp]

theorem den_one {v : Rational} (h : v.den = 1) : v = ⟨v.num, 1⟩ := by cases v; simp_all

theorem addExp_int {M D1 D2 : Int} (hM : 1 ≤ M) {k : List Char} {v : Rational} (hD : D1 + D2 ≤ M) (h2 : 0 ≤ D2) (h1 : 0 ≤ D1)
    (hv : v.den = 1) (hv2 : |v.num| ≤ D2) : ∀ {s : Syms}, (∀ p ∈ s, p.1 = k → p.2.den = 1 ∧ |p.2.num| ≤ D1) →
    ∃ s', addExp M s k v = .ok s' ∧ ∀ p ∈ s', (p.1 ≠ k ∧ p ∈ s) ∨ (p.1 = k ∧ p.2.den = 1 ∧ |p.2.num| ≤ D1 + D2) ∨ p ∈ s
  | [], _ => ⟨_, rfl, by
      intro p hp
      rw [List.mem_singleton] at hp
      subst hp
      exact Or.inr (Or.inl ⟨rfl, hv, by simp only; omega⟩)⟩
  | (k', v') :: t, hs => by
    unfold addExp
    split
    · refine ⟨_, rfl, ?_⟩
      intro p hp
      rcases List.mem_cons.1 hp with rfl | hp
      · exact Or.inr (Or.inl ⟨rfl, hv, by simp only; omega⟩)
      · exact Or.inr (Or.inr hp)
    · split
      · rename_i hk
        subst hk
        obtain ⟨a1, a2⟩ := hs _ List.mem_cons_self rfl
        simp only at a1 a2
        have hsum : |v'.num + v.num| ≤ D1 + D2 := le_trans (abs_add_le _ _) (by omega)
        have : Rational.add M v' v = .ok ⟨v'.num + v.num, 1⟩ := by
          have := Rational.add_int hM (a := v'.num) (b := v.num) (by omega) (by omega) (by omega)
          rw [den_one a1, den_one hv]
          exact this
        rw [this, Res.bind_ok]
        refine ⟨_, rfl, ?_⟩
        intro p hp
        rcases List.mem_cons.1 hp with rfl | hp
        · exact Or.inr (Or.inl ⟨rfl, rfl, hsum⟩)
        · exact Or.inr (Or.inr (List.mem_cons_of_mem _ hp))
      · obtain ⟨t', h3, h4⟩ := addExp_int hM hD h2 h1 hv hv2 (s := t) fun p hp => hs p (List.mem_cons_of_mem _ hp)
        rw [h3, Res.bind_ok]
        refine ⟨_, rfl, ?_⟩
        intro p hp
        rcases List.mem_cons.1 hp with rfl | hp
        · exact Or.inr (Or.inr List.mem_cons_self)
        · rcases h4 p hp with ⟨a, b⟩ | a | a
          · exact Or.inl ⟨a, List.mem_cons_of_mem _ b⟩
          · exact Or.inr (Or.inl a)
          · exact Or.inr (Or.inr (List.mem_cons_of_mem _ a))

theorem merge_int {M D1 D2 : Int} (hM : 1 ≤ M) (hD : D1 + D2 ≤ M) (h1 : 0 ≤ D1) (h2 : 0 ≤ D2) {t : Syms} (ht : t.WF)
    (ht2 : t.IntLe D2) : ∀ {s : Syms},
      (∀ p ∈ s, p.2.den = 1 ∧ |p.2.num| ≤ D1 + D2 ∧ ((∃ q ∈ t, q.1 = p.1) → |p.2.num| ≤ D1)) →
      ∃ s', merge M s t = .ok s' ∧ s'.IntLe (D1 + D2) := by
  induction t with
  | nil => exact fun hs => ⟨_, rfl, fun p hp => ⟨(hs p hp).1, (hs p hp).2.1⟩⟩
  | cons q t ih =>
    intro s hs
    obtain ⟨k, v⟩ := q
    obtain ⟨w1, w2, w3⟩ := Syms.wf_cons.1 ht
    obtain ⟨⟨v1, v2⟩, v3⟩ := intLe_cons.1 ht2
    unfold merge
    obtain ⟨s', e1, e2⟩ := addExp_int hM hD h2 h1 v1 v2 (s := s) (k := k)
      fun p hp e => ⟨(hs p hp).1, (hs p hp).2.2 ⟨_, List.mem_cons_self, e.symm⟩⟩
    rw [e1, Res.bind_ok]
    refine ih w3 v3 fun p hp => ?_
    have hkey : p ∈ s → p.2.den = 1 ∧ |p.2.num| ≤ D1 + D2 ∧ ((∃ q ∈ t, q.1 = p.1) → |p.2.num| ≤ D1) := fun hp =>
      ⟨(hs p hp).1, (hs p hp).2.1, fun ⟨q, hq, e⟩ => (hs p hp).2.2 ⟨q, List.mem_cons_of_mem _ hq, e⟩⟩
    rcases e2 p hp with ⟨-, b⟩ | ⟨a, b, c⟩ | b
    · exact hkey b
    · refine ⟨b, c, fun ⟨q, hq, e⟩ => ?_⟩
      have := w1 q hq
      rw [e, a] at this
      exact absurd this (lt_irrefl _)
    · exact hkey b

theorem dropZero_int {M D : Int} (hM : 1 ≤ M) (hD : D ≤ M) {s : Syms} (hs : s.IntLe D) :
    ∃ s', dropZero M s = .ok s' ∧ s'.IntLe D := by
  induction s with
  | nil => exact ⟨_, rfl, hs⟩
  | cons p s ih =>
    obtain ⟨k, v⟩ := p
    obtain ⟨⟨v1, v2⟩, v3⟩ := intLe_cons.1 hs
    simp only at v1 v2
    obtain ⟨s', e1, e2⟩ := ih v3
    unfold dropZero
    have e3 : Rational.eqInt M v 0 = .ok (decide (v.num = 0)) := by
      rw [den_one v1]
      exact Rational.eqInt_int hM (le_trans v2 hD) (by simp; omega)
    rw [e3, Res.bind_ok, e1, Res.bind_ok]
    refine ⟨_, rfl, ?_⟩
    split
    · exact e2
    · exact intLe_cons.2 ⟨⟨v1, v2⟩, e2⟩

theorem eq_int {M D : Int} (hD : D ≤ M) {s t : Syms} (hs : s.IntLe D) (ht : t.IntLe D) : ∃ v, eq M s t = .ok v := by
  unfold eq
  split
  swap
  · exact ⟨_, rfl⟩
  clear * - hs ht hD
  induction s generalizing t with
  | nil => unfold eqGo; exact ⟨_, rfl⟩
  | cons p s ih =>
    match t, ht with
    | [], _ => unfold eqGo; exact ⟨_, rfl⟩
    | q :: t, ht =>
      obtain ⟨⟨a1, a2⟩, a3⟩ := intLe_cons.1 hs
      obtain ⟨⟨b1, b2⟩, b3⟩ := intLe_cons.1 ht
      unfold eqGo
      split
      swap
      · exact ⟨_, rfl⟩
      have : Rational.eq M p.2 q.2 = .ok (decide (p.2.num = q.2.num)) := by
        rw [den_one a1, den_one b1]
        exact Rational.eq_int (le_trans a2 hD) (le_trans b2 hD)
      rw [this, Res.bind_ok]
      split
      · exact ih a3 b3
      · exact ⟨_, rfl⟩

theorem lt_int {M D : Int} (hD : D ≤ M) {s t : Syms} (hs : s.IntLe D) (ht : t.IntLe D) : ∃ v, lt M s t = .ok v := by
  induction s generalizing t with
  | nil =>
    match t with
    | [] => exact ⟨_, rfl⟩
    | _ :: _ => exact ⟨_, rfl⟩
  | cons p s ih =>
    match t, ht with
    | [], _ => exact ⟨_, rfl⟩
    | q :: t, ht =>
      obtain ⟨⟨a1, a2⟩, a3⟩ := intLe_cons.1 hs
      obtain ⟨⟨b1, b2⟩, b3⟩ := intLe_cons.1 ht
      unfold lt
      split
      · exact ⟨_, rfl⟩
      split
      · exact ⟨_, rfl⟩
      have e1 : Rational.lt M p.2 q.2 = .ok (decide (p.2.num < q.2.num)) := by
        rw [den_one a1, den_one b1]
        exact Rational.lt_int (le_trans a2 hD) (le_trans b2 hD)
      have e2 : Rational.lt M q.2 p.2 = .ok (decide (q.2.num < p.2.num)) := by
        rw [den_one a1, den_one b1]
        exact Rational.lt_int (le_trans b2 hD) (le_trans a2 hD)
      rw [e1, Res.bind_ok]
      split
      · exact ⟨_, rfl⟩
      rw [e2, Res.bind_ok]
      split
      · exact ⟨_, rfl⟩
      exact ih a3 b3

theorem wf_of_checked {M : Int} {s s' : Syms} (hs : s.WF) (h : dropZero M s = .ok s') : s'.WF :=
  (dropZero_sound (ρ := fun _ => 1) hs h).1

end Syms

namespace Term

theorem IntLe.mono {D D' : Int} {t : Term} (h : t.IntLe D) (hD : D ≤ D') : t.IntLe D' :=
  ⟨h.1, h.2.1.mono hD, h.2.2⟩

theorem intLe_ofInt (D k : Int) : IntLe D (ofReal (Real.int k)) :=
  ⟨rfl, by intro p hp; simp [ofReal] at hp, Syms.wf_nil⟩

theorem mk'_int (h : env.IntOk) {D k : Int} {s : Syms} (hD : D ≤ env.M) (hs : s.IntLe D) (hw : s.WF) :
    ∃ t, mk' env (Real.int k) s = .ok t ∧ t.IntLe D ∧ t.coe = Real.int k := by
  obtain ⟨s', e1, e2⟩ := Syms.dropZero_int h.hM hD hs
  unfold mk'
  rw [e1, Res.bind_ok]
  exact ⟨_, rfl, ⟨rfl, e2, Syms.wf_of_checked hw e1⟩, rfl⟩

theorem mul_int (h : env.IntOk) {D1 D2 : Int} {a b : Term} (ha : a.IntLe D1) (hb : b.IntLe D2) (h1 : 0 ≤ D1) (h2 : 0 ≤ D2)
    (hD : D1 + D2 ≤ env.M) (ka : |a.coe.coe.num| ≤ env.M) (kb : |b.coe.coe.num| ≤ env.M)
    (kab : |a.coe.coe.num * b.coe.coe.num| ≤ env.M) :
    ∃ t, mul env a b = .ok t ∧ t.IntLe (D1 + D2) ∧ t.coe.coe.num = a.coe.coe.num * b.coe.coe.num := by
  unfold mul
  obtain ⟨s, e1, e2⟩ := Syms.merge_int h.hM hD h1 h2 hb.2.2 hb.2.1 (s := a.syms) fun p hp =>
    ⟨(ha.2.1 p hp).1, by have := (ha.2.1 p hp).2; omega, fun _ => (ha.2.1 p hp).2⟩
  obtain ⟨s', e3, e4⟩ := Syms.dropZero_int h.hM hD e2
  have e5 : Real.mul env a.coe b.coe = .ok (Real.int (a.coe.coe.num * b.coe.coe.num)) := by
    rw [ha.1, hb.1]; exact Real.mul_int h ka kb kab
  rw [e1, Res.bind_ok, e5, Res.bind_ok, e3, Res.bind_ok]
  have w := (Syms.merge_sound (ρ := fun _ => 1) (fun _ => one_pos) hb.2.2 ha.2.2 e1).1
  exact ⟨_, rfl, ⟨rfl, e4, Syms.wf_of_checked w e3⟩, rfl⟩

theorem negate_int (h : env.IntOk) {D : Int} {a : Term} (ha : a.IntLe D) (hD : D ≤ env.M)
    (ka : |a.coe.coe.num| ≤ env.M) : ∃ t, negate env a = .ok t ∧ t.IntLe D ∧ t.coe.coe.num = -a.coe.coe.num := by
  unfold negate
  have e : Real.negate env a.coe = .ok (Real.int (-a.coe.coe.num)) := by rw [ha.1]; exact Real.negate_int h ka
  rw [e, Res.bind_ok]
  obtain ⟨t, t1, t2, t3⟩ := mk'_int h (k := -a.coe.coe.num) hD ha.2.1 ha.2.2
  exact ⟨t, t1, t2, by rw [t3]; rfl⟩

theorem isEquivalentWith_int (h : env.IntOk) {D : Int} {a b : Term} (ha : a.IntLe D) (hb : b.IntLe D) (hD : D ≤ env.M) :
    ∃ v, isEquivalentWith env a b = .ok v := by
  unfold isEquivalentWith
  obtain ⟨v, e⟩ := Syms.eq_int hD ha.2.1 hb.2.1
  rw [e, Res.bind_ok]
  split
  · exact ⟨_, by rw [ha.1, hb.1]; exact Real.isEquivalentWith_int h _ _⟩
  · exact ⟨_, rfl⟩

theorem before_int (h : env.IntOk) {D : Int} {a b : Term} (ha : a.IntLe D) (hb : b.IntLe D) (hD : D ≤ env.M)
    (ka : |a.coe.coe.num| ≤ env.M) (kb : |b.coe.coe.num| ≤ env.M) : ∃ v, before env a b = .ok v := by
  unfold before
  obtain ⟨v, e⟩ := Syms.eq_int hD ha.2.1 hb.2.1
  rw [e, Res.bind_ok]
  split
  · exact Syms.lt_int hD hb.2.1 ha.2.1
  · split
    · exact ⟨_, rfl⟩
    · have : Rational.ne env.M a.coe.rad b.coe.rad = .ok false := by
        rw [ha.1, hb.1]; exact Rational.ne_int (Real.abs1 h) (Real.abs1 h)
      rw [this, Res.bind_ok, if_neg (by simp), ha.1, hb.1]
      exact Real.gt_int h ka kb

end Term

namespace Poly

theorem l1_nil : l1 [] = 0 := rfl
theorem l1_cons (t : Term) (p : Poly) : l1 (t :: p) = |t.coe.coe.num| + l1 p := rfl
theorem l1_nonneg (p : Poly) : 0 ≤ l1 p := by
  induction p with
  | nil => exact le_rfl
  | cons t p ih => rw [l1_cons]; positivity
theorem l1_append (p q : Poly) : l1 (p ++ q) = l1 p + l1 q := by
  unfold l1; rw [List.map_append, List.sum_append]
theorem l1_perm {p q : Poly} (h : p.Perm q) : l1 p = l1 q := (h.map _).sum_eq
theorem l1_mem {p : Poly} {t : Term} (h : t ∈ p) : |t.coe.coe.num| ≤ l1 p := by
  induction p with
  | nil => simp at h
  | cons u p ih =>
    rw [l1_cons]
    rcases List.mem_cons.1 h with rfl | h
    · have := l1_nonneg p; omega
    · have := ih h; have := abs_nonneg u.coe.coe.num; omega

theorem intLe_cons {D : Int} {t : Term} {p : Poly} : IntLe D (t :: p) ↔ t.IntLe D ∧ IntLe D p := by
  unfold IntLe; simp [List.mem_cons, forall_eq_or_imp]
theorem intLe_nil (D : Int) : IntLe D [] := by intro t ht; simp at ht
theorem intLe_append {D : Int} {p q : Poly} (hp : IntLe D p) (hq : IntLe D q) : IntLe D (p ++ q) := by
  intro t ht
  rcases List.mem_append.1 ht with h | h
  · exact hp t h
  · exact hq t h
theorem IntLe.mono {D D' : Int} {p : Poly} (h : IntLe D p) (hD : D ≤ D') : IntLe D' p := fun t ht => (h t ht).mono hD

theorem mergeAdj_int (h : env.IntOk) {D : Int} (hD : D ≤ env.M) : ∀ {p : Poly}, IntLe D p → l1 p ≤ env.M →
    ∃ q, mergeAdj env p = .ok q ∧ IntLe D q ∧ l1 q ≤ l1 p
  | [], hp, _ => ⟨_, by unfold mergeAdj; rfl, hp, le_rfl⟩
  | [t], hp, _ => ⟨_, by unfold mergeAdj; rfl, hp, le_rfl⟩
  | a :: b :: rest, hp, hl => by
    obtain ⟨ha, hp'⟩ := intLe_cons.1 hp
    obtain ⟨hb, hr⟩ := intLe_cons.1 hp'
    rw [l1_cons, l1_cons] at hl
    have n1 := l1_nonneg rest
    have n2 := abs_nonneg a.coe.coe.num
    have n3 := abs_nonneg b.coe.coe.num
    have n4 := abs_add_le a.coe.coe.num b.coe.coe.num
    obtain ⟨v, e1⟩ := Term.isEquivalentWith_int h ha hb hD
    unfold mergeAdj
    rw [e1, Res.bind_ok]
    cases v with
    | true =>
      rw [if_pos rfl]
      have e2 : Real.add env a.coe b.coe = .ok (Real.int (a.coe.coe.num + b.coe.coe.num)) := by
        rw [ha.1, hb.1]; exact Real.add_int h (by omega) (by omega) (by omega)
      obtain ⟨t, t1, t2, t3⟩ := Term.mk'_int h (k := a.coe.coe.num + b.coe.coe.num) hD ha.2.1 ha.2.2
      have t4 : t.coe.coe.num = a.coe.coe.num + b.coe.coe.num := by rw [t3]; rfl
      rw [e2, Res.bind_ok, t1, Res.bind_ok]
      obtain ⟨q, q1, q2, q3⟩ := mergeAdj_int h hD (p := t :: rest) (intLe_cons.2 ⟨t2, hr⟩) (by rw [l1_cons, t4]; omega)
      refine ⟨q, q1, q2, le_trans q3 ?_⟩
      rw [l1_cons, l1_cons, l1_cons, t4]; omega
    | false =>
      rw [if_neg (by simp)]
      obtain ⟨q, q1, q2, q3⟩ := mergeAdj_int h hD hp' (by rw [l1_cons]; omega)
      rw [q1, Res.bind_ok]
      exact ⟨_, rfl, intLe_cons.2 ⟨ha, q2⟩, by rw [l1_cons, l1_cons (t := a)]; omega⟩
termination_by p => p.length

/-- the sort returns on integer polynomials that fit `T`. -/
def SortTotal (env : FEnv) : Prop := ∀ (D : Int) (p : Poly), D ≤ env.M → IntLe D p → l1 p ≤ env.M → ∃ q, env.sort p = .ok q

section
variable {env : FEnv} (h : env.toEnv.IntOk) (hs : SortOk env.sort) (ht : SortTotal env)
include h hs ht

theorem normalize_int {D : Int} (hD : D ≤ env.M) {p : Poly} (hp : IntLe D p) (hl : l1 p ≤ env.M) :
    ∃ q, normalize env p = .ok q ∧ IntLe D q ∧ l1 q ≤ l1 p := by
  obtain ⟨p', e⟩ := ht D p hD hp hl
  have hperm := hs p p' e
  obtain ⟨q, q1, q2, q3⟩ := mergeAdj_int h hD (fun t ht => hp t (hperm.subset ht)) (by rw [l1_perm hperm]; exact hl)
  unfold normalize
  rw [e, Res.bind_ok]
  exact ⟨q, q1, q2, by rw [← l1_perm hperm]; exact q3⟩

theorem addAssign_int {D : Int} (hD : D ≤ env.M) {p q : Poly} (hp : IntLe D p) (hq : IntLe D q) (hl : l1 p + l1 q ≤ env.M) :
    ∃ r, addAssign env p q = .ok r ∧ IntLe D r ∧ l1 r ≤ l1 p + l1 q := by
  obtain ⟨r, r1, r2, r3⟩ := normalize_int h hs ht hD (intLe_append hp hq) (by rw [l1_append]; exact hl)
  exact ⟨r, r1, r2, by rw [l1_append] at r3; exact r3⟩

omit hs ht in
theorem tryEvalLoop_int {D : Int} {p : Poly} (hp : IntLe D p) {k : Int} (hl : |k| + l1 p ≤ env.M) :
    ∃ v, tryEvalLoop env.toEnv p (Real.int k) = .ok v ∧ ∀ r, v = some r → ∃ m, r = Real.int m ∧ |m| ≤ |k| + l1 p := by
  induction p generalizing k with
  | nil => exact ⟨_, rfl, by rintro r ⟨⟩; exact ⟨k, rfl, by rw [l1_nil]; omega⟩⟩
  | cons t p ih =>
    obtain ⟨h1, h2⟩ := intLe_cons.1 hp
    rw [l1_cons] at hl
    have n1 := l1_nonneg p
    have n2 := abs_nonneg k
    have n3 := abs_nonneg t.coe.coe.num
    have n4 := abs_add_le k t.coe.coe.num
    unfold tryEvalLoop
    cases e : t.tryEval with
    | none => exact ⟨none, rfl, by simp⟩
    | some x =>
      have hx : x = Real.int t.coe.coe.num := by
        unfold Term.tryEval at e
        split at e
        · injection e with e
          rw [← e]; exact h1.1
        · cases e
      simp only
      rw [hx, Real.isEquivalentWith_int h, Res.bind_ok, if_pos rfl, Real.add_int h (by omega) (by omega) (by omega), Res.bind_ok]
      obtain ⟨v, v1, v2⟩ := ih h2 (k := k + t.coe.coe.num) (by omega)
      refine ⟨v, v1, fun r hr => ?_⟩
      obtain ⟨m, m1, m2⟩ := v2 r hr
      exact ⟨m, m1, by rw [l1_cons]; omega⟩

omit hs ht in
theorem tryEval_int {D : Int} {p : Poly} (hp : IntLe D p) (hl : l1 p ≤ env.M) :
    ∃ v, tryEval env.toEnv p = .ok v ∧ ∀ r, v = some r → ∃ m, r = Real.int m ∧ |m| ≤ l1 p := by
  unfold tryEval
  rw [Real.ofInt_int h (Real.abs0 h), Res.bind_ok]
  obtain ⟨v, v1, v2⟩ := tryEvalLoop_int h hp (k := 0) (by simpa using hl)
  exact ⟨v, v1, fun r hr => by simpa using v2 r hr⟩

theorem mkInt_int {D k : Int} (hD : D ≤ env.M) (hk : |k| ≤ env.M) :
    ∃ r, mk' env [Term.ofReal (Real.int k)] = .ok r ∧ IntLe D r ∧ l1 r ≤ |k| := by
  have e : l1 [Term.ofReal (Real.int k)] = |k| := by rw [l1_cons, l1_nil]; exact add_zero _
  obtain ⟨r, r1, r2, r3⟩ := normalize_int h hs ht hD (p := [Term.ofReal (Real.int k)])
    (intLe_cons.2 ⟨Term.intLe_ofInt D k, intLe_nil D⟩) (by rw [e]; exact hk)
  exact ⟨r, r1, r2, by rwa [e] at r3⟩

theorem add_int {D : Int} (hD : D ≤ env.M) {p q : Poly} (hp : IntLe D p) (hq : IntLe D q) (hl : l1 p + l1 q ≤ env.M) :
    ∃ r, add env p q = .ok r ∧ IntLe D r ∧ l1 r ≤ l1 p + l1 q := by
  have n1 := l1_nonneg p
  have n2 := l1_nonneg q
  obtain ⟨v, v1, v2⟩ := tryEval_int h hp (by omega)
  obtain ⟨w, w1, w2⟩ := tryEval_int h hq (by omega)
  unfold add
  rw [v1, Res.bind_ok, w1, Res.bind_ok]
  split
  · rename_i a b
    obtain ⟨x, rfl, x2⟩ := v2 a rfl
    obtain ⟨y, rfl, y2⟩ := w2 b rfl
    have n4 := abs_add_le x y
    rw [Real.add_int h (by omega) (by omega) (by omega), Res.bind_ok]
    obtain ⟨r, r1, r2, r3⟩ := mkInt_int h hs ht hD (k := x + y) (by omega)
    exact ⟨r, r1, r2, by omega⟩
  · exact addAssign_int h hs ht hD hp hq hl

omit hs ht in
theorem negate_int {D : Int} (hD : D ≤ env.M) {p : Poly} (hp : IntLe D p) (hl : l1 p ≤ env.M) :
    ∃ r, negate env.toEnv p = .ok r ∧ IntLe D r ∧ l1 r = l1 p := by
  unfold negate
  induction p with
  | nil => exact ⟨_, rfl, hp, rfl⟩
  | cons t p ih =>
    obtain ⟨h1, h2⟩ := intLe_cons.1 hp
    rw [l1_cons] at hl
    have n1 := l1_nonneg p
    have n3 := abs_nonneg t.coe.coe.num
    obtain ⟨u, u1, u2, u3⟩ := Term.negate_int h h1 hD (by omega)
    obtain ⟨r, r1, r2, r3⟩ := ih h2 (by omega)
    unfold mapM
    rw [u1, Res.bind_ok, r1, Res.bind_ok]
    exact ⟨_, rfl, intLe_cons.2 ⟨u2, r2⟩, by rw [l1_cons, l1_cons, u3, abs_neg, r3]⟩

theorem subAssign_int {D : Int} (hD : D ≤ env.M) {p q : Poly} (hp : IntLe D p) (hq : IntLe D q) (hl : l1 p + l1 q ≤ env.M) :
    ∃ r, subAssign env p q = .ok r ∧ IntLe D r ∧ l1 r ≤ l1 p + l1 q := by
  have n1 := l1_nonneg p
  obtain ⟨n, e1, e2, e3⟩ := negate_int h hD hq (by omega)
  obtain ⟨r, r1, r2, r3⟩ := addAssign_int h hs ht hD hp e2 (by omega)
  obtain ⟨s, s1, s2, s3⟩ := normalize_int h hs ht hD r2 (by omega)
  unfold subAssign
  rw [e1, Res.bind_ok, r1, Res.bind_ok]
  exact ⟨s, s1, s2, by omega⟩

theorem sub_int {D : Int} (hD : D ≤ env.M) {p q : Poly} (hp : IntLe D p) (hq : IntLe D q) (hl : l1 p + l1 q ≤ env.M) :
    ∃ r, sub env p q = .ok r ∧ IntLe D r ∧ l1 r ≤ l1 p + l1 q := by
  have n1 := l1_nonneg p
  have n2 := l1_nonneg q
  obtain ⟨v, v1, v2⟩ := tryEval_int h hp (by omega)
  obtain ⟨w, w1, w2⟩ := tryEval_int h hq (by omega)
  unfold sub
  rw [v1, Res.bind_ok, w1, Res.bind_ok]
  split
  · rename_i a b
    obtain ⟨x, rfl, x2⟩ := v2 a rfl
    obtain ⟨y, rfl, y2⟩ := w2 b rfl
    have n4 := abs_sub x y
    rw [Real.sub_int h (by omega) (by omega) (by omega), Res.bind_ok]
    obtain ⟨r, r1, r2, r3⟩ := mkInt_int h hs ht hD (k := x - y) (by omega)
    exact ⟨r, r1, r2, by omega⟩
  · exact subAssign_int h hs ht hD hp hq hl

omit hs ht in
theorem mapMul_int {D1 D2 : Int} (h1 : 0 ≤ D1) (h2 : 0 ≤ D2) (hD : D1 + D2 ≤ env.M) {x : Term} (hx : x.IntLe D1) {q : Poly}
    (hq : IntLe D2 q) (kx : |x.coe.coe.num| ≤ env.M) (kq : l1 q ≤ env.M) (hl : |x.coe.coe.num| * l1 q ≤ env.M) :
    ∃ r, mapM (Term.mul env.toEnv x) q = .ok r ∧ IntLe (D1 + D2) r ∧ l1 r = |x.coe.coe.num| * l1 q := by
  induction q with
  | nil => exact ⟨_, rfl, intLe_nil _, by simp [l1_nil]⟩
  | cons t q ih =>
    obtain ⟨a1, a2⟩ := intLe_cons.1 hq
    rw [l1_cons] at hl kq
    have n1 := l1_nonneg q
    have n3 := abs_nonneg t.coe.coe.num
    have n4 := abs_nonneg x.coe.coe.num
    have n5 : 0 ≤ |x.coe.coe.num| * l1 q := by positivity
    have n6 : 0 ≤ |x.coe.coe.num| * |t.coe.coe.num| := by positivity
    rw [mul_add] at hl
    obtain ⟨u, u1, u2, u3⟩ := Term.mul_int h hx a1 h1 h2 hD kx (by omega) (by rw [abs_mul]; omega)
    obtain ⟨r, r1, r2, r3⟩ := ih a2 (by omega) (by omega)
    unfold mapM
    rw [u1, Res.bind_ok, r1, Res.bind_ok]
    exact ⟨_, rfl, intLe_cons.2 ⟨u2, r2⟩, by rw [l1_cons, l1_cons, u3, abs_mul, r3]; ring⟩

omit hs ht in
theorem products_int {D1 D2 : Int} (h1 : 0 ≤ D1) (h2 : 0 ≤ D2) (hD : D1 + D2 ≤ env.M) {p q : Poly} (hp : IntLe D1 p)
    (hq : IntLe D2 q) (kp : l1 p ≤ env.M) (kq : l1 q ≤ env.M) (hl : l1 p * l1 q ≤ env.M) :
    ∃ r, products env.toEnv p q = .ok r ∧ IntLe (D1 + D2) r ∧ l1 r = l1 p * l1 q := by
  induction p with
  | nil => exact ⟨_, rfl, intLe_nil _, by simp [l1_nil]⟩
  | cons x p ih =>
    obtain ⟨a1, a2⟩ := intLe_cons.1 hp
    rw [l1_cons] at hl kp
    have n1 := l1_nonneg p
    have n2 := l1_nonneg q
    have n4 := abs_nonneg x.coe.coe.num
    have n5 : 0 ≤ |x.coe.coe.num| * l1 q := by positivity
    have n6 : 0 ≤ l1 p * l1 q := by positivity
    rw [add_mul] at hl
    obtain ⟨u, u1, u2, u3⟩ := mapMul_int h h1 h2 hD a1 hq (by omega) kq (by omega)
    obtain ⟨r, r1, r2, r3⟩ := ih a2 (by omega) (by omega)
    unfold products
    rw [u1, Res.bind_ok, r1, Res.bind_ok]
    exact ⟨_, rfl, intLe_append u2 r2, by rw [l1_append, l1_cons, u3, r3]; ring⟩

theorem mulAssign_int {D1 D2 : Int} (h1 : 0 ≤ D1) (h2 : 0 ≤ D2) (hD : D1 + D2 ≤ env.M) {p q : Poly} (hp : IntLe D1 p)
    (hq : IntLe D2 q) (kp : l1 p ≤ env.M) (kq : l1 q ≤ env.M) (hl : l1 p * l1 q ≤ env.M) :
    ∃ r, mulAssign env p q = .ok r ∧ IntLe (D1 + D2) r ∧ l1 r ≤ l1 p * l1 q := by
  obtain ⟨s, s1, s2, s3⟩ := products_int h h1 h2 hD hp hq kp kq hl
  obtain ⟨r, r1, r2, r3⟩ := normalize_int h hs ht hD s2 (by omega)
  unfold mulAssign
  rw [s1, Res.bind_ok]
  exact ⟨r, r1, r2, by omega⟩

theorem mul_int {D1 D2 : Int} (h1 : 0 ≤ D1) (h2 : 0 ≤ D2) (hD : D1 + D2 ≤ env.M) {p q : Poly} (hp : IntLe D1 p)
    (hq : IntLe D2 q) (kp : l1 p ≤ env.M) (kq : l1 q ≤ env.M) (hl : l1 p * l1 q ≤ env.M) :
    ∃ r, mul env p q = .ok r ∧ IntLe (D1 + D2) r ∧ l1 r ≤ l1 p * l1 q := by
  obtain ⟨v, v1, v2⟩ := tryEval_int h hp kp
  obtain ⟨w, w1, w2⟩ := tryEval_int h hq kq
  unfold mul
  rw [v1, Res.bind_ok, w1, Res.bind_ok]
  split
  · rename_i a b
    obtain ⟨x, rfl, x2⟩ := v2 a rfl
    obtain ⟨y, rfl, y2⟩ := w2 b rfl
    have n4 : |x * y| ≤ l1 p * l1 q := by rw [abs_mul]; exact mul_le_mul x2 y2 (abs_nonneg _) (l1_nonneg _)
    rw [Real.mul_int h (by omega) (by omega) (by omega), Res.bind_ok]
    obtain ⟨r, r1, r2, r3⟩ := mkInt_int h hs ht hD (k := x * y) (by omega)
    exact ⟨r, r1, r2, by omega⟩
  · exact mulAssign_int h hs ht h1 h2 hD hp hq kp kq hl

end
end Poly
end Symxx.Sym
