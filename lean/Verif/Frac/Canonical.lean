import Verif.Frac.Tidy
import Verif.Expr.IntEval
/-!
# Integer polynomials in normal form: the function determines the terms, the terms determine the text
-/
namespace Symxx.Sym
open Symxx.Num

/-- integer terms with the same symbols and the same coefficient are the same. -/
theorem Term.IntLe.ext {D E : Int} {a b : Term} (ha : a.IntLe D) (hb : b.IntLe E) (hk : a.syms.key = b.syms.key)
    (hv : a.coe.val = b.coe.val) : a = b := by
  obtain ⟨ca, sa⟩ := a
  obtain ⟨cb, sb⟩ := b
  have e1 : sa = sb := by
    have hs : ∀ {D : Int} {s : Syms}, s.IntLe D → s = s.key.map fun p => ((ofLex p).1, ⟨(ofLex p).2.num, 1⟩) := by
      intro D s h
      unfold Syms.key
      rw [List.map_map]
      symm
      refine (List.map_congr_left fun p hp => ?_).trans (List.map_id s)
      obtain ⟨x, n, d⟩ := p
      have hd : d = 1 := (h _ hp).1
      subst hd
      simp [Rational.val]
    exact (hs ha.2.1).trans ((congrArg _ hk).trans (hs hb.2.1).symm)
  have e2 : ca = cb := by
    have h1 : ca = Real.int ca.coe.num := ha.1
    have h2 : cb = Real.int cb.coe.num := hb.1
    have v : ∀ k, (Real.int k).val = k := fun k => by simp [Real.int, Real.val, Rational.val]
    have h3 : ca.val = cb.val := hv
    rw [h1, h2, v, v] at h3
    rw [h1, h2, Int.cast_injective h3]
  rw [e1, e2]

namespace Poly

theorem Tidy.nodup {p : Poly} (h : p.Tidy) : p.nonzero.Nodup := h.dec.imp fun {a b} h e => by rw [e] at h; exact lt_irrefl _ h

theorem nonzero_norm {p : Poly} (h : p.Tidy) : ∀ t ∈ p.nonzero, t.Norm := fun t ht => h.norm t (mem_nonzero.1 ht).1

theorem IntLe.root {D : Int} {t : Term} (h : t.IntLe D) : t.coe.index = 1 ∧ t.coe.rad = ⟨1, 1⟩ := by
  rw [h.1]; exact ⟨rfl, rfl⟩

theorem Tidy.keys {D : Int} {p : Poly} (h : p.Tidy) (hi : p.IntLe D) :
    p.nonzero.Pairwise fun a b => a.syms.key ≠ b.syms.key := by
  refine List.Pairwise.imp_of_mem ?_ h.dec
  intro a b ha hb hab e
  have ra := IntLe.root (hi a (mem_nonzero.1 ha).1)
  have rb := IntLe.root (hi b (mem_nonzero.1 hb).1)
  unfold Term.group at hab
  rw [e, ra.1, ra.2, rb.1, rb.2] at hab
  exact lt_irrefl _ hab

/-- equal functions have the same terms in the same order. -/
theorem Tidy.unique {D E : Int} {p q : Poly} (hp : p.Tidy) (hq : q.Tidy) (ip : p.IntLe D) (iq : q.IntLe E)
    (h : ∀ ρ : List Char → ℝ, (∀ x, 0 < ρ x) → Poly.value ρ p = Poly.value ρ q) : p.nonzero = q.nonzero := by
  have hc : comb p.nonzero = comb q.nonzero := by rw [comb_nonzero, comb_nonzero]; exact comb_eq h
  have key : ∀ {D E : Int} {p q : Poly}, p.Tidy → q.Tidy → p.IntLe D → q.IntLe E → comb p.nonzero = comb q.nonzero →
      ∀ t ∈ p.nonzero, t ∈ q.nonzero := by
    intro D E p q hp hq ip iq hc t ht
    have tz := (mem_nonzero.1 ht).2
    have h1 := comb_mem (nonzero_norm hp) (hp.keys ip) ht
    rw [hc] at h1
    by_cases hu : ∃ u ∈ q.nonzero, u.syms.key = t.syms.key
    · obtain ⟨u, hu, hk⟩ := hu
      have h2 := comb_mem (nonzero_norm hq) (hq.keys iq) hu
      rw [hk, h1] at h2
      rwa [(ip t (mem_nonzero.1 ht).1).ext (iq u (mem_nonzero.1 hu).1) hk.symm h2]
    · push Not at hu
      rw [comb_notMem (nonzero_norm hq) (nonzero_norm hp t ht).syms.key hu] at h1
      exact absurd h1.symm tz
  have hperm : p.nonzero.Perm q.nonzero :=
    (List.perm_ext_iff_of_nodup hp.nodup hq.nodup).2 fun t => ⟨key hp hq ip iq hc t, key hq hp iq ip hc.symm t⟩
  exact hperm.eq_of_pairwise (fun a b _ _ h1 h2 => absurd h1 (lt_asymm h2)) hp.dec hq.dec

/-- no two terms are like terms. -/
theorem Tidy.collected {p : Poly} (h : p.Tidy) : p.Collected := by
  refine List.Pairwise.imp_of_mem ?_ h.dec
  intro a b ha hb hab
  exact not_like (nonzero_norm h a ha) (nonzero_norm h b hb) (mem_nonzero.1 ha).2 (mem_nonzero.1 hb).2 hab.ne'

section
variable {env : FEnv} (h : env.toEnv.IntOk)
include h

theorem coeIs_zero {D : Int} {t : Term} (ht : t.IntLe D) (hk : |t.coe.coe.num| ≤ env.M) :
    Term.coeIs env.toEnv t.coe 0 = .ok (decide (t.coe.coe.num = 0)) := by
  have := Node.coeIs_con h hk (Real.abs0 h)
  rw [ht.1]
  exact this

omit h in
theorem val_zero {D : Int} {t : Term} (ht : t.IntLe D) : t.coe.val = 0 ↔ t.coe.coe.num = 0 := by
  rw [ht.1]
  simp [Real.int, Real.val, Rational.val]

theorem strLoop_nonzero {D : Int} : ∀ {p : Poly} {b : Bool}, p.IntLe D → p.l1 ≤ env.M →
    strLoop env.toEnv p b = strLoop env.toEnv p.nonzero b
  | [], b, _, _ => by simp [nonzero]
  | t :: p, b, hp, hl => by
    obtain ⟨h1, h2⟩ := intLe_cons.1 hp
    have hk : |t.coe.coe.num| ≤ env.M := le_trans (l1_mem List.mem_cons_self) hl
    have hl' : l1 p ≤ env.M := by
      have : l1 (t :: p) = |t.coe.coe.num| + l1 p := rfl
      have := abs_nonneg t.coe.coe.num
      omega
    have i : ∀ b, strLoop env.toEnv p b = strLoop env.toEnv (nonzero p) b := fun b => strLoop_nonzero h2 hl'
    have hz := coeIs_zero h h1 hk
    by_cases hv : t.coe.coe.num = 0
    · rw [nonzero_cons_zero ((val_zero h1).2 hv)]
      rw [← i]
      conv_lhs => unfold strLoop
      rw [hz, Res.bind_ok]
      simp [hv]
    · rw [nonzero_cons (fun e => hv ((val_zero h1).1 e))]
      unfold strLoop
      rw [hz, Res.bind_ok, Res.bind_ok]
      simp only [hv, decide_false, Bool.false_eq_true, if_false]
      rw [i]

theorem nonzeros_nonzero {D : Int} : ∀ {p : Poly}, p.IntLe D → p.l1 ≤ env.M →
    nonzeros env.toEnv p = .ok p.nonzero.length
  | [], _, _ => by simp [nonzero, nonzeros]
  | t :: p, hp, hl => by
    obtain ⟨h1, h2⟩ := intLe_cons.1 hp
    have hk : |t.coe.coe.num| ≤ env.M := le_trans (l1_mem List.mem_cons_self) hl
    have hl' : l1 p ≤ env.M := by
      have : l1 (t :: p) = |t.coe.coe.num| + l1 p := rfl
      have := abs_nonneg t.coe.coe.num
      omega
    unfold nonzeros
    rw [coeIs_zero h h1 hk, Res.bind_ok, nonzeros_nonzero h2 hl', Res.bind_ok]
    by_cases hv : t.coe.coe.num = 0
    · rw [nonzero_cons_zero ((val_zero h1).2 hv)]
      simp [hv]
    · rw [nonzero_cons (fun e => hv ((val_zero h1).1 e))]
      simp [hv]

/-- the text of an integer polynomial depends only on the terms that are not zero. -/
theorem toStr_nonzero {D : Int} {p : Poly} (hp : p.IntLe D) (hl : p.l1 ≤ env.M) :
    toStr env.toEnv p = if p.nonzero = [] then .ok ['0'] else strLoop env.toEnv p.nonzero true := by
  unfold toStr
  cases p with
  | nil => simp [nonzero]
  | cons t p =>
    simp only [List.isEmpty_cons, Bool.false_eq_true, if_false]
    rw [nonzeros_nonzero h hp hl, Res.bind_ok, strLoop_nonzero h hp hl]
    simp [List.length_eq_zero_iff]

end
end Poly

/-- the text of an integer polynomial as a fraction. -/
theorem Frac.toStr_int {env : FEnv} (h : env.toEnv.IntOk) {D : Int} {f : Frac} (hf : f.IntPoly D) (hl : f.num.l1 ≤ env.M) :
    Frac.toStr env.toEnv f = if f.num.nonzero = [] then .ok ['0'] else Poly.strLoop env.toEnv f.num.nonzero true := by
  have e1 : Frac.denIsOne env.toEnv unitPoly = .ok true := by
    have h1 := Real.abs1 h
    unfold unitPoly Frac.denIsOne
    have := Node.coeIs_con h h1 h1
    unfold Term.con at this
    simp only
    rw [this, Res.bind_ok]
    rfl
  unfold Frac.toStr
  rw [if_neg (by simpa [List.isEmpty_iff] using hf.ne), hf.den, e1, Res.bind_ok, if_pos rfl]
  exact Poly.toStr_nonzero h hf.num hl

end Symxx.Sym
