import Verif.Frac.IntFracPow
/-!
# Integers as fractions: the operations compute them
-/
namespace Symxx.Sym
open Symxx.Num

/-- the integer `k` as a term. -/
def Term.con (k : Int) : Term := Term.ofReal (Real.int k)
/-- the integer `k` as a fraction. -/
def Frac.con (k : Int) : Frac := ⟨[Term.con k], unitPoly⟩

/-- all terms are integers. -/
def Poly.Consts (p : Poly) : Prop := ∀ t ∈ p, t = Term.con t.coe.coe.num
/-- their sum. -/
def Poly.total (p : Poly) : Int := (p.map fun t => t.coe.coe.num).sum

namespace Poly
variable {env : FEnv}

theorem Consts.intLe {p : Poly} (hp : p.Consts) : IntLe 0 p := by
  intro t ht
  rw [hp t ht]
  exact Term.intLe_ofInt 0 _

theorem total_cons (t : Term) (p : Poly) : total (t :: p) = t.coe.coe.num + total p := by simp [total]
theorem total_le (p : Poly) : |total p| ≤ l1 p := by
  induction p with
  | nil => simp [total, l1]
  | cons t ts ih =>
    rw [total_cons, l1_cons]
    exact le_trans (abs_add_le _ _) (by omega)

theorem mergeAdj_consts {e : Env} (h : e.IntOk) (n : Nat) : ∀ {p : Poly}, p.length ≤ n → p ≠ [] → p.Consts → l1 p ≤ e.M →
    mergeAdj e p = .ok [Term.con p.total] := by
  induction n with
  | zero =>
    intro p hl hne
    exact absurd (List.length_eq_zero_iff.1 (by omega)) hne
  | succ n ih =>
    intro p hl hne hp hM
    match p, hl, hne, hp, hM with
    | [t], _, _, hp, _ =>
      unfold mergeAdj
      rw [show total [t] = t.coe.coe.num by simp [total], ← hp t (by simp)]
    | a :: b :: rest, hl, _, hp, hM =>
      have ha := hp a (by simp)
      have hb := hp b (by simp)
      generalize a.coe.coe.num = x at ha
      generalize b.coe.coe.num = y at hb
      subst ha; subst hb
      rw [l1_cons, l1_cons] at hM
      have hx : (Term.con x).coe.coe.num = x := rfl
      have hy : (Term.con y).coe.coe.num = y := rfl
      rw [hx, hy] at hM
      have hn := l1_nonneg rest
      have hxy : |x + y| ≤ |x| + |y| := abs_add_le _ _
      have nx := abs_nonneg x
      have ny := abs_nonneg y
      have e1 : Term.isEquivalentWith e (Term.con x) (Term.con y) = .ok true := by
        unfold Term.isEquivalentWith Term.con Term.ofReal
        simp only
        have : Syms.eq e.M [] [] = .ok true := by unfold Syms.eq; rw [if_pos rfl]; unfold Syms.eqGo; rfl
        rw [this, Res.bind_ok, if_pos rfl]
        exact Real.isEquivalentWith_int h x y
      have e2 : Real.add e (Term.con x).coe (Term.con y).coe = .ok (Real.int (x + y)) :=
        Real.add_int h (by omega) (by omega) (by omega)
      have e3 : Term.mk' e (Real.int (x + y)) (Term.con x).syms = .ok (Term.con (x + y)) := by
        unfold Term.mk' Term.con Term.ofReal
        simp only
        unfold Syms.dropZero
        rfl
      unfold mergeAdj
      rw [e1, Res.bind_ok, if_pos rfl, e2, Res.bind_ok, e3, Res.bind_ok, ih]
      · simp only [total_cons]
        rw [hx, hy, show (Term.con (x + y)).coe.coe.num = x + y from rfl, add_assoc]
      · simp only [List.length_cons] at hl ⊢; omega
      · simp
      · intro t ht
        rcases List.mem_cons.1 ht with rfl | ht
        · rfl
        · exact hp t (by simp [ht])
      · rw [l1_cons, show (Term.con (x + y)).coe.coe.num = x + y from rfl]; omega

theorem normalize_consts (h : env.toEnv.IntOk) (hs : SortOk env.sort) (ht : SortTotal env) {p : Poly} (hne : p ≠ [])
    (hp : p.Consts) (hM : l1 p ≤ env.M) : normalize env p = .ok [Term.con p.total] := by
  have := h.hM
  obtain ⟨q, hq⟩ := ht 0 p (by omega) hp.intLe hM
  have hpm := hs _ _ hq
  unfold normalize
  rw [hq, Res.bind_ok, mergeAdj_consts h _ le_rfl (fun e => hne (List.length_eq_zero_iff.1 (by rw [← hpm.length_eq, e]; rfl)))
    (fun t ht => hp t (hpm.subset ht)) (by rw [l1_perm hpm]; exact hM)]
  rw [show q.total = p.total from (hpm.map _).sum_eq]

end Poly

namespace Frac
variable {env : FEnv} (h : env.toEnv.PowOk) (hs : SortOk env.sort) (ht : Poly.SortTotal env)
include h hs ht

theorem normalize_consts {p : Poly} (hne : p ≠ []) (hp : p.Consts) (hM : p.l1 ≤ env.M) :
    normalize env ⟨p, unitPoly⟩ = .ok (con p.total) := by
  have h' := h.toIntOk
  have hk : |p.total| ≤ env.M := le_trans (Poly.total_le p) hM
  have e1 := Poly.normalize_consts h' hs ht hne hp hM
  have e2 : Poly.normalize env [Term.con p.total] = .ok [Term.con p.total] := by
    have := Poly.normalize_consts h' hs ht (p := [Term.con p.total]) (by simp)
      (by intro t ht; rw [List.mem_singleton] at ht; subst ht; rfl)
      (by rw [Poly.l1_cons, Poly.l1_nil, add_zero]; exact hk)
    rwa [show Poly.total [Term.con p.total] = p.total by simp [Poly.total, Term.con, Term.ofReal, Real.int]] at this
  have e3 : normalize env ⟨p, unitPoly⟩ = normalize env ⟨[Term.con p.total], unitPoly⟩ := by
    unfold normalize
    simp only
    rw [e1, e2]
  rw [e3]
  have := ofReal_int h hs ht hk
  unfold ofReal ofTerm ofPoly onePoly Term.ofInt Poly.mk' at this
  rw [show Term.ofReal (Real.int p.total) = Term.con p.total from rfl, e2, Res.bind_ok,
    Real.ofInt_int h' (Real.abs1 h'), Res.bind_ok, Res.bind_ok] at this
  have e4 := unitPoly_norm h' hs ht
  unfold unitPoly at e4
  rw [e4, Res.bind_ok] at this
  exact this

theorem normalize_con {k : Int} (hk : |k| ≤ env.M) : normalize env (con k) = .ok (con k) := by
  have := normalize_consts h hs ht (p := [Term.con k]) (by simp)
    (by intro t ht; rw [List.mem_singleton] at ht; subst ht; rfl) (by rw [Poly.l1_cons, Poly.l1_nil, add_zero]; exact hk)
  rwa [show Poly.total [Term.con k] = k by simp [Poly.total, Term.con, Term.ofReal, Real.int]] at this

theorem add_con {j k : Int} (hjk : |j| + |k| ≤ env.M) : add env (con j) (con k) = .ok (con (j + k)) := by
  have h' := h.toIntOk
  unfold add con
  simp only
  rw [eqOne h' hs ht, Res.bind_ok, if_pos rfl]
  unfold Poly.addAssign
  rw [Poly.normalize_consts h' hs ht (by simp)
    (by intro t ht; simp only [List.singleton_append, List.mem_cons, List.not_mem_nil, or_false] at ht
        rcases ht with rfl | rfl <;> rfl)
    (by simp only [List.singleton_append, Poly.l1_cons, Poly.l1_nil, add_zero]; exact hjk), Res.bind_ok]
  simp [Poly.total, Term.con, Term.ofReal, Real.int]

theorem negate_con {k : Int} (hk : |k| ≤ env.M) : negate env (con k) = .ok (con (-k)) := by
  have h' := h.toIntOk
  have hz : Poly.isZero env.toEnv unitPoly = .ok false := by
    unfold unitPoly Poly.isZero Term.coeIs
    rw [Real.ofInt_int h' (Real.abs0 h'), Res.bind_ok]
    simp only [Term.ofReal]
    rw [Real.eq_int h' (Real.abs1 h') (Real.abs0 h'), Res.bind_ok]
    rfl
  have hn : Poly.negate env.toEnv [Term.con k] = .ok [Term.con (-k)] := by
    unfold Poly.negate Poly.mapM Term.negate Term.con
    simp only [Term.ofReal]
    rw [Real.negate_int h' hk, Res.bind_ok]
    unfold Term.mk' Syms.dropZero Poly.mapM
    rfl
  unfold negate mk2 con
  simp only
  rw [hn, Res.bind_ok, hz, Res.bind_ok]
  exact normalize_con h hs ht (by rwa [abs_neg])

theorem sub_con {j k : Int} (hjk : |j| + |k| ≤ env.M) : sub env (con j) (con k) = .ok (con (j - k)) := by
  have := abs_nonneg j
  unfold sub
  rw [negate_con h hs ht (by omega), Res.bind_ok, add_con h hs ht (by rwa [abs_neg]), sub_eq_add_neg]

theorem mul_con {j k : Int} (hj : |j| ≤ env.M) (hk : |k| ≤ env.M) (hjk : |j * k| ≤ env.M) :
    mul env (con j) (con k) = .ok (con (j * k)) := by
  have h' := h.toIntOk
  have hm : ∀ {j k : Int}, |j| ≤ env.M → |k| ≤ env.M → |j * k| ≤ env.M →
      Poly.mulAssign env [Term.con j] [Term.con k] = .ok [Term.con (j * k)] := by
    intro j k hj hk hjk
    have e : Term.mul env.toEnv (Term.con j) (Term.con k) = .ok (Term.con (j * k)) := by
      unfold Term.mul Term.con
      simp only [Term.ofReal]
      have : Syms.merge env.M [] [] = .ok [] := by unfold Syms.merge; rfl
      rw [this, Res.bind_ok, Real.mul_int h' hj hk hjk, Res.bind_ok]
      unfold Syms.dropZero
      rfl
    unfold Poly.mulAssign Poly.products Poly.mapM Poly.products Poly.mapM
    rw [e]
    simp only [Res.bind_ok, List.append_nil]
    have := Poly.normalize_consts h' hs ht (p := [Term.con (j * k)]) (by simp)
      (by intro t ht; rw [List.mem_singleton] at ht; subst ht; rfl)
      (by rw [Poly.l1_cons, Poly.l1_nil, add_zero]; exact hjk)
    rwa [show Poly.total [Term.con (j * k)] = j * k by simp [Poly.total, Term.con, Term.ofReal, Real.int]] at this
  unfold mul con
  simp only
  rw [hm hj hk hjk, Res.bind_ok]
  have h1 := Real.abs1 h'
  have e := hm h1 h1 (by rw [one_mul]; exact h1)
  rw [one_mul] at e
  rw [show unitPoly = [Term.con 1] from rfl, e, Res.bind_ok]
  exact normalize_con h hs ht hjk

theorem pow_con {k : Int} {n : Nat} (hk : |k| ≤ env.M) (hn : (n : Int) ≤ 2 ^ 53) (hkn : |k ^ n| ≤ 2 ^ 53) :
    pow env (con k) ⟨n, 1⟩ = .ok (con (k ^ n)) := by
  unfold pow con
  rw [show (⟨[Term.con k], unitPoly⟩ : Frac) = ⟨[Term.ofReal (Real.int k)], unitPoly⟩ from rfl, tryEval_const h hk, Res.bind_ok]
  simp only
  rw [Real.pow_int h hk hkn hn, Res.bind_ok]
  exact ofReal_int h hs ht (le_trans hkn h.hM53)

end Frac
end Symxx.Sym
