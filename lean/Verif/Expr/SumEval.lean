import Verif.Expr.SumSpec
import Verif.Expr.RootEval
import Verif.Frac.SurdSum
/-!
# Evaluating sums of roots
-/
namespace Symxx.Sym
open Symxx.Num

namespace RT

/-- a sum of roots over 1. -/
def frac (l : List RT) : Frac := ⟨l.map term, [Term.con 1]⟩

theorem neg_sum (l : List RT) : sum (l.map neg) = - sum l := by
  induction l with
  | nil => simp [sum]
  | cons t l ih =>
    rw [List.map_cons, sum_cons, ih, sum_cons]
    rw [neg_val]; ring

theorem l1_append (l m : List RT) : l1 (l ++ m) = l1 l + l1 m := by simp [l1]
theorem sum_append (l m : List RT) : sum (l ++ m) = sum l + sum m := by simp [sum]

section
variable {env : FEnv} {B I R : Nat} (hg : env.toEnv.Good B) (hB : 1 ≤ B) (hR : R ≤ B)
include hg hB hR

theorem negate_ok {t : RT} (h : t.Ok I R) (ha : |t.a| ≤ env.M) : Term.negate env.toEnv t.term = .ok (neg t).term := by
  have hM := hg.M1
  unfold Term.negate Real.negate Real.mk3
  show (Rational.negate env.M ⟨t.a, 1⟩ >>= _) >>= _ = _
  rw [Rational.negate_int hM ha, Res.bind_ok]
  have hn := neg_ok h
  have : Real.normalize env.toEnv ⟨t.i, ⟨t.N, 1⟩, ⟨-t.a, 1⟩⟩ = .ok ⟨t.i, ⟨t.N, 1⟩, ⟨-t.a, 1⟩⟩ :=
    Real.normalize_canon hg hn.canon (by show (t.N : Int) ≤ B; exact_mod_cast le_trans h.rad hR)
      ⟨by show |-t.a| ≤ _; rwa [abs_neg], by show |(1 : Int)| ≤ _; simpa using hM⟩
  show (Real.normalize env.toEnv ⟨t.i, ⟨t.N, 1⟩, ⟨-t.a, 1⟩⟩ >>= _) = _
  rw [this, Res.bind_ok]
  unfold Term.mk'
  show (Syms.dropZero env.M [] >>= _) = _
  unfold Syms.dropZero
  rfl

theorem mulOne_ok (hI : I ≤ 2 ^ 53) {t : RT} (h : t.Ok I R) (ha : |t.a| ≤ env.M) :
    Term.mul env.toEnv t.term (Term.con 1) = .ok t.term := by
  have hM := hg.M1
  unfold Term.mul Term.con
  simp only [term, Term.ofReal]
  have : Syms.merge env.M [] [] = .ok [] := by unfold Syms.merge; rfl
  rw [this, Res.bind_ok, Real.mul_int_canon hg hB (c' := ⟨t.a, 1⟩) h.canon (le_trans h.idx hI) (le_trans h.rad hR)
    ⟨ha, by simpa using hM⟩ (Rational.mul_den_cancel hM ha hM one_pos), Res.bind_ok]
  unfold Syms.dropZero
  rfl

theorem divOne_ok (hI : I ≤ 2 ^ 53) {t : RT} (h : t.Ok I R) (ha : |t.a| ≤ env.M) :
    Term.divReal env.toEnv t.term (Real.int 1) = .ok t.term := by
  have hM := hg.M1
  unfold Term.divReal Real.div
  simp only [term, Term.ofReal]
  have hinv : Real.inverse env.toEnv (Real.int 1) = .ok (Real.ofRat ⟨1, 1⟩) := by
    unfold Real.inverse Real.int
    simp only
    rw [Rational.inverse_pos hM hM one_pos, Res.bind_ok, Res.bind_ok]
    rfl
  have e := Rational.mul_den_cancel hM ha hM one_pos
  rw [hinv, Res.bind_ok, Real.mul_rat_canon hg hB (c' := ⟨t.a, 1⟩) h.canon (le_trans h.idx hI) (le_trans h.rad hR)
    ⟨ha, by simpa using hM⟩ e, Res.bind_ok]
  unfold Syms.dropZero
  rfl

omit hg hB hR in
theorem mapM_ok {f : Term → Res Term} {g : RT → RT} {l : List RT} (h : ∀ t ∈ l, f t.term = .ok (g t).term) :
    Poly.mapM f (l.map term) = .ok ((l.map g).map term) := by
  induction l with
  | nil => rfl
  | cons t l ih =>
    rw [List.map_cons]
    unfold Poly.mapM
    rw [h t (by simp), Res.bind_ok, ih fun t ht => h t (by simp [ht]), Res.bind_ok]
    rfl

variable (hs : SortContract env) (hr : SortReturns env) (ht : Poly.SortTotal env) (hI : I ≤ 2 ^ 53)
  {P : List RT → Prop} (hc : Class env.M I R P)
include hs hr ht hI hc

theorem normalize_frac {l : List RT} (h : P l) (h0 : l ≠ []) :
    ∃ l' : List RT, Frac.normalize env (frac l) = .ok (frac l') ∧ P l' ∧ sum l' = sum l ∧ l' ≠ [] ∧
      l'.length ≤ l.length ∧ (nz l').Pairwise fun x y => y.grp < x.grp := by
  have hp := hg.powOk hB
  have h' := hp.toIntOk
  have hM := hg.M1
  have a1 := Real.abs1 h'
  obtain ⟨m, m1, m2, m4, m5, m6, -⟩ := normalize_ok hg hR hs hr hc h
  have am : ∀ t ∈ m, |t.a| ≤ env.M := fun t ht => le_trans (l1_mem ht) (hc.fits m2)
  obtain ⟨k, k1, k2, k4, k5, k7, k6⟩ := normalize_ok hg hR hs hr hc m2
  refine ⟨k, ?_, k2, by rw [k4, m4], k5 (m5 h0), le_trans k7 m6, k6⟩
  have ml : ∀ q : List RT, Frac.multLoop env.M (q.map term) 1 = .ok 1 := by
    intro q
    induction q with
    | nil => rfl
    | cons t q ih =>
      rw [List.map_cons]
      unfold Frac.multLoop
      show (chk env.M (1 * 1) >>= _) = _
      rw [one_mul, chk_ok (inRange_of_abs a1), Res.bind_ok, ih]
  have con1 : ([Term.con 1] : Poly) = [(⟨1, 1, 1⟩ : RT)].map term := rfl
  have s1 : Frac.scaleAll env.toEnv 1 (m.map term) = .ok (m.map term) := by
    unfold Frac.scaleAll Term.ofInt
    have := mapM_ok (f := fun t => Res.ok (Term.con 1) >>= fun m => Term.mul env.toEnv t m) (g := id) (l := m) (fun t ht => by
      rw [Res.bind_ok]; exact mulOne_ok hg hB hR hI (hc.ok m2 t ht) (am t ht))
    rw [List.map_id] at this
    rw [Real.ofInt_int h' a1, Res.bind_ok]
    exact this
  have s2 : Frac.scaleAll env.toEnv 1 [Term.con 1] = .ok [Term.con 1] := by
    unfold Frac.scaleAll Term.ofInt
    have := mapM_ok (f := fun t => Res.ok (Term.con 1) >>= fun m => Term.mul env.toEnv t m) (g := id) (l := [(⟨1, 1, 1⟩ : RT)]) (fun t ht => by
      rw [List.mem_singleton.1 ht, Res.bind_ok]
      exact mulOne_ok (I := 1) (R := 1) hg hB hB (by norm_num) ⟨simplest11, fun _ => rfl, le_rfl, le_rfl⟩ a1)
    rw [Real.ofInt_int h' a1, Res.bind_ok]
    exact this
  have u1 : Poly.normalize env [Term.con 1] = .ok [Term.con 1] := Frac.unitPoly_norm h' hs.ok ht
  have d1 : Poly.divReal env (m.map term) (Real.int 1) = .ok (k.map term) := by
    unfold Poly.divReal
    have := mapM_ok (f := fun t => Term.divReal env.toEnv t (Real.int 1)) (g := id) (l := m) (fun t ht =>
      divOne_ok hg hB hR hI (hc.ok m2 t ht) (am t ht))
    rw [List.map_id] at this
    rw [this, Res.bind_ok, k1]
  have d2 : Poly.divReal env [Term.con 1] (Real.int 1) = .ok [Term.con 1] := by
    unfold Poly.divReal
    rw [Frac.div_single h' a1 one_pos hM (dvd_refl 1), Res.bind_ok]
    exact u1
  have tT : ∀ k : Int, |k| ≤ env.M → Rational.toT env.M ⟨k, 1⟩ = .ok k := fun k hk =>
    divT_ok.2 ⟨one_ne_zero, by simp only [Int.tdiv_one]; exact inRange_of_abs hk, by simp⟩
  obtain ⟨t, m', rfl⟩ := List.exists_cons_of_ne_nil (m5 h0)
  unfold Frac.normalize frac
  simp only
  rw [m1, Res.bind_ok, u1, Res.bind_ok]
  have mo : Frac.multLoop env.M [Term.con 1] 1 = .ok 1 := ml [(⟨1, 1, 1⟩ : RT)]
  rw [mo, Res.bind_ok, ml, Res.bind_ok, s1, Res.bind_ok, s2, Res.bind_ok]
  rw [List.map_cons]
  simp only
  have t1 : Rational.toT env.M t.term.coe.coe = .ok t.a := tT t.a (am t (by simp))
  have t2 : Rational.toT env.M (Term.con 1).coe.coe = .ok 1 := tT 1 a1
  have g1 : gcdT env.M t.a 1 = .ok 1 := gcdT_ok.2 ⟨⟨am t (by simp), a1⟩, by simp⟩
  have g2 : ∀ (q : Poly), Frac.gcdOuter env.M [Term.con 1] q 1 = .ok (some 1) := by
    intro q
    induction q with
    | nil => rfl
    | cons x q ih =>
      unfold Frac.gcdOuter
      show (Frac.gcdInner env.M x [] 1 >>= _) = _
      unfold Frac.gcdInner
      rw [Res.bind_ok]
      exact ih
  rw [t1, Res.bind_ok, t2, Res.bind_ok, g1, Res.bind_ok, g2, Res.bind_ok]
  simp only
  rw [Real.ofInt_int h' a1, Res.bind_ok, ← List.map_cons, d1, Res.bind_ok, d2, Res.bind_ok]

theorem negate_frac {l : List RT} (h : P l) (h0 : l ≠ []) :
    ∃ l' : List RT, Frac.negate env (frac l) = .ok (frac l') ∧ P l' ∧ sum l' = - sum l ∧ l' ≠ [] ∧
      l'.length ≤ l.length := by
  have h' := (hg.powOk hB).toIntOk
  have am : ∀ t ∈ l, |t.a| ≤ env.M := fun t ht => le_trans (l1_mem ht) (hc.fits h)
  obtain ⟨k, k1, k2, k4, k5, k6, -⟩ := normalize_frac hg hB hR hs hr ht hI hc (hc.neg h) (by simpa using h0)
  refine ⟨k, ?_, k2, by rw [k4, neg_sum], k5, by simpa using k6⟩
  unfold Frac.negate Frac.mk2 Poly.negate
  have e : Poly.isZero env.toEnv (frac l).den = .ok false := by
    show Poly.isZero env.toEnv [Term.con 1] = _
    unfold Poly.isZero Term.coeIs
    rw [Real.ofInt_int h' (Real.abs0 h'), Res.bind_ok]
    show (Real.eq env.toEnv (Real.int 1) (Real.int 0) >>= _) = _
    rw [Real.eq_int h' (Real.abs1 h') (Real.abs0 h'), Res.bind_ok]
    rfl
  have e2 : Res.assert (!false) divisionByZero = .ok () := rfl
  have e3 : Poly.mapM (Term.negate env.toEnv) (frac l).num = .ok ((l.map neg).map term) :=
    mapM_ok fun t ht => negate_ok hg hB hR (hc.ok h t ht) (am t ht)
  rw [e3, Res.bind_ok, e, Res.bind_ok, e2, Res.bind_ok]
  exact k1

theorem add_frac {l m : List RT} (h : P (l ++ m)) (h0 : l ≠ []) :
    ∃ l' : List RT, Frac.add env (frac l) (frac m) = .ok (frac l') ∧ P l' ∧
      sum l' = sum l + sum m ∧ l' ≠ [] ∧ l'.length ≤ l.length + m.length ∧ (nz l').Pairwise fun x y => y.grp < x.grp := by
  have h' := (hg.powOk hB).toIntOk
  obtain ⟨k, k1, k2, k4, k5, k7, k6⟩ := normalize_ok hg hR hs hr hc h
  refine ⟨k, ?_, k2, by rw [k4, sum_append], k5 (by simp [h0]), by simpa using k7, k6⟩
  unfold Frac.add
  have e1 : Poly.eq env.toEnv (frac l).den (frac m).den = .ok true := Frac.eqOne h' hs.ok ht
  rw [e1, Res.bind_ok, if_pos rfl]
  unfold Poly.addAssign
  show (Poly.normalize env (l.map term ++ m.map term) >>= _) = _
  rw [← List.map_append, k1, Res.bind_ok]
  rfl

theorem sub_frac {l m : List RT} {Q : List RT → Prop} (hq : Class env.M I R Q) (h1 : Q m) (h2 : m ≠ []) (h : ∀ k, Q k → P (l ++ k))
    (h0 : l ≠ []) : ∃ l' : List RT, Frac.sub env (frac l) (frac m) = .ok (frac l') ∧ P l' ∧
      sum l' = sum l - sum m ∧ l' ≠ [] ∧ l'.length ≤ l.length + m.length ∧ (nz l').Pairwise fun x y => y.grp < x.grp := by
  obtain ⟨k, k1, k2, k4, -, k6⟩ := negate_frac hg hB hR hs hr ht hI hq h1 h2
  obtain ⟨r, r1, r2, r4, r5, r7, r6⟩ := add_frac hg hB hR hs hr ht hI hc (h k k2) h0
  refine ⟨r, ?_, r2, by rw [r4, k4]; ring, r5, by omega, r6⟩
  unfold Frac.sub
  rw [k1, Res.bind_ok, r1]

end
end RT

theorem _root_.Symxx.Parser.Expr.leaves_pos : ∀ e : Parser.Expr, 1 ≤ e.leaves.length
  | .leaf _ => le_rfl
  | .node _ a _ => by
    have := Parser.Expr.leaves_pos a
    simp only [Parser.Expr.leaves, List.length_append]
    omega

namespace Node
variable {env : FEnv} {B I R : Nat} {ρ : List Char → ℝ}

/-- what evaluation makes of a sum of roots. -/
theorem sum_eval (hg : env.toEnv.Good B) (hB : 1 ≤ B) (hR : R ≤ B) (hs : SortContract env) (hr : SortReturns env) (ht : Poly.SortTotal env)
    (ho : Frac.SortOne env) (hI : I * I ≤ 2 ^ 53) {e : Parser.Expr} {x : ℝ} {L : Nat} (he : RootSum env.M B I R ρ e x L)
    (hL : L ^ (I * I) * R ^ I ≤ 2 ^ 53) (hLM : (L : Int) ≤ env.M) :
    ∃ (n : Node) (l : List RT), ofExpr env e = .ok n ∧ tryEval env n = .ok (some (RT.frac l)) ∧
      normalize env n = .ok (.frac (RT.frac l)) ∧ (∀ t ∈ l, t.Ok I R) ∧ RT.l1 l ≤ L ∧ RT.sum l = x ∧ l ≠ [] ∧
      l.length ≤ e.leaves.length ∧ (RT.nz l).Pairwise fun x y => y.grp < x.grp := by
  have one : ∀ t : RT, (RT.nz [t]).Pairwise fun x y => y.grp < x.grp := fun t =>
    List.Pairwise.filter _ (List.pairwise_singleton _ _)
  have mono : ∀ {K L : Nat}, K ≤ L → L ^ (I * I) * R ^ I ≤ 2 ^ 53 → K ^ (I * I) * R ^ I ≤ 2 ^ 53 := fun h h' =>
    le_trans (Nat.mul_le_mul_right _ (Nat.pow_le_pow_left h _)) h'
  have hI' : I ≤ 2 ^ 53 := le_trans (Nat.le_mul_self I) hI
  have app : ∀ {l m : List RT}, (∀ t ∈ l, t.Ok I R) → (∀ t ∈ m, t.Ok I R) → ∀ t ∈ l ++ m, t.Ok I R := by
    intro l m h1 h2 t ht
    rcases List.mem_append.1 ht with ht | ht
    exacts [h1 t ht, h2 t ht]
  induction he with
  | @int e x A D L h hD hA hI1 hR1 =>
    obtain ⟨n, j, k, e1, e2, e3, k0, v, jA, kD, -, -, -⟩ := ratPart_eval hs.ok ht ho (hg.powOk hB) h
    have : k = 1 := by omega
    subst this
    refine ⟨n, [⟨1, 1, j⟩], e1, e2, e3, ?_, ?_, ?_, by simp, by simpa using Parser.Expr.leaves_pos e, one _⟩
    · intro t ht
      rw [List.mem_singleton.1 ht]
      exact ⟨RT.simplest11, fun _ => rfl, hI1, hR1⟩
    · simp only [RT.l1, List.map_cons, List.map_nil, List.sum_cons, List.sum_nil, add_zero]; omega
    · rw [v]; simp [RT.sum, RT.val]
  | @root e x A J S D L h hD hA hJ hS =>
    obtain ⟨n, a, b, i, N, e1, e2, e3, a0, b0, sm, v, aA, bD, -, -, J0, -, iJ, NS, -, -⟩ := root_eval hs.ok ht ho hg hB h
    have : b = 1 := by omega
    subst this
    have q0 : J / i ≠ 0 := (Nat.div_pos (Nat.le_of_dvd J0 iJ) sm.2.1).ne'
    refine ⟨n, [⟨i, N, a⟩], e1, e2, e3, ?_, ?_, ?_, by simp, by simpa using Parser.Expr.leaves_pos e, one _⟩
    · intro t ht
      rw [List.mem_singleton.1 ht]
      exact ⟨sm, fun h => absurd h a0.ne', le_trans (Nat.le_of_dvd J0 iJ) hJ, le_trans (le_trans (Nat.le_self_pow q0 N) NS) hS⟩
    · simp only [RT.l1, List.map_cons, List.map_nil, List.sum_cons, List.sum_nil, add_zero]
      rw [abs_of_pos a0]; omega
    · rw [v]; simp [RT.sum, RT.val]
  | @add a b x y K L ha hb iha ihb =>
    obtain ⟨n, l, n1, n2, -, n4, n5, n6, n7, n8, -⟩ := iha (mono (by omega) hL) (by push_cast at hLM; omega)
    obtain ⟨m, k, m1, m2, -, m4, m5, m6, m7, m8, -⟩ := ihb (mono (by omega) hL) (by push_cast at hLM; omega)
    obtain ⟨r, r1, ⟨r2, r3⟩, r4, r5, r7, r6⟩ := RT.add_frac hg hB hR hs hr ht hI' (RT.small_class hL hI hLM) (l := l) (m := k) ⟨app n4 m4, by rw [RT.l1_append]; push_cast; omega⟩ n7
    have r1 : fop env '+' (RT.frac l) (RT.frac k) = .ok (RT.frac r) := r1
    obtain ⟨t1, t2⟩ := fop_eval (c := '+') (by simp) n2 m2
    rw [r1] at t1 t2
    refine ⟨.op '+' n m, r, ?_, t1, t2, r2, r3, by rw [r4, n6, m6], r5,
      by simp only [Parser.Expr.leaves, List.length_append]; omega, r6⟩
    unfold ofExpr
    rw [n1, Res.bind_ok, m1, Res.bind_ok]
  | @sub a b x y K L ha hb iha ihb =>
    obtain ⟨n, l, n1, n2, -, n4, n5, n6, n7, n8, -⟩ := iha (mono (by omega) hL) (by push_cast at hLM; omega)
    obtain ⟨m, k, m1, m2, -, m4, m5, m6, m7, m8, -⟩ := ihb (mono (by omega) hL) (by push_cast at hLM; omega)
    obtain ⟨r, r1, ⟨r2, r3⟩, r4, r5, r7, r6⟩ := RT.sub_frac hg hB hR hs hr ht hI' (RT.small_class hL hI hLM) (RT.small_class (mono (by omega) hL) hI
      (L := L) (by push_cast at hLM; omega)) (l := l) ⟨m4, m5⟩ m7 (fun k hk => ⟨app n4 hk.1, by have := hk.2; rw [RT.l1_append]; push_cast; omega⟩) n7
    have r1 : fop env '-' (RT.frac l) (RT.frac k) = .ok (RT.frac r) := r1
    obtain ⟨t1, t2⟩ := fop_eval (c := '-') (by simp) n2 m2
    rw [r1] at t1 t2
    refine ⟨.op '-' n m, r, ?_, t1, t2, r2, r3, by rw [r4, n6, m6], r5,
      by simp only [Parser.Expr.leaves, List.length_append]; omega, r6⟩
    unfold ofExpr
    rw [n1, Res.bind_ok, m1, Res.bind_ok]

end Node
end Symxx.Sym
