import Verif.Expr.Total
/-!
# Polynomials with positive integer coefficients stay so: nothing cancels

`Poly.Pos p`: the integer coefficients of `p` are positive. Sums, products and natural powers of such polynomials are such polynomials. In
particular no term with the coefficient 0 ever appears.
-/
namespace Symxx.Sym
open Symxx.Num Nat

/-- positive coefficients. -/
def Poly.Pos (p : Poly) : Prop := ∀ t ∈ p, 0 < t.coe.coe.num

theorem Res.same {α : Type} {x : Res α} {a b : α} (h1 : x = .ok a) (h2 : x = .ok b) : a = b := by
  rw [h1] at h2
  injection h2

namespace Poly

theorem pos_cons {t : Term} {p : Poly} : Pos (t :: p) ↔ 0 < t.coe.coe.num ∧ Pos p := by unfold Pos; simp
theorem pos_nil : Pos [] := fun _ h => by simp at h
theorem pos_append {p q : Poly} (hp : Pos p) (hq : Pos q) : Pos (p ++ q) := by
  intro t ht
  rcases List.mem_append.1 ht with h | h
  · exact hp t h
  · exact hq t h

theorem mapM_pos {f : Term → Res Term} : ∀ {p q : Poly}, (∀ t ∈ p, ∀ u, f t = .ok u → 0 < u.coe.coe.num) → mapM f p = .ok q → Pos q
  | [], q, _, h => by
    unfold mapM at h
    injection h with h
    subst h
    exact pos_nil
  | t :: p, q, hf, h => by
    unfold mapM at h
    obtain ⟨u, h1, h⟩ := Res.bind_eq_ok.1 h
    obtain ⟨r, h2, h⟩ := Res.bind_eq_ok.1 h
    injection h with h
    subst h
    exact pos_cons.2 ⟨hf t List.mem_cons_self u h1, mapM_pos (fun v hv => hf v (List.mem_cons_of_mem _ hv)) h2⟩

theorem mergeAdj_pos {env : Env} (h : env.IntOk) {D : Int} (hD : D ≤ env.M) : ∀ {p q : Poly}, IntLe D p → l1 p ≤ env.M → Pos p →
    mergeAdj env p = .ok q → Pos q
  | [], q, _, _, hp, hq => by
    unfold mergeAdj at hq
    injection hq with hq
    subst hq
    exact hp
  | [t], q, _, _, hp, hq => by
    unfold mergeAdj at hq
    injection hq with hq
    subst hq
    exact hp
  | a :: b :: rest, q, hi, hl, hp, hq => by
    obtain ⟨ia, ib⟩ := intLe_cons.1 hi
    obtain ⟨ib, ir⟩ := intLe_cons.1 ib
    obtain ⟨pa, pb⟩ := pos_cons.1 hp
    obtain ⟨pb, pr⟩ := pos_cons.1 pb
    have hl0 := hl
    rw [l1_cons, l1_cons] at hl
    have n1 := l1_nonneg rest
    have n2 := abs_nonneg a.coe.coe.num
    have n3 := abs_nonneg b.coe.coe.num
    have n4 := abs_add_le a.coe.coe.num b.coe.coe.num
    unfold mergeAdj at hq
    obtain ⟨v, -, hq⟩ := Res.bind_eq_ok.1 hq
    cases v with
    | true =>
      rw [if_pos rfl] at hq
      have e2 : Real.add env a.coe b.coe = .ok (Real.int (a.coe.coe.num + b.coe.coe.num)) := by
        rw [ia.1, ib.1]; exact Real.add_int h (by omega) (by omega) (by omega)
      obtain ⟨t, t1, t2, t3⟩ := Term.mk'_int h (k := a.coe.coe.num + b.coe.coe.num) hD ia.2.1 ia.2.2
      have t4 : t.coe.coe.num = a.coe.coe.num + b.coe.coe.num := by rw [t3]; rfl
      rw [e2, Res.bind_ok, t1, Res.bind_ok] at hq
      exact mergeAdj_pos h hD (p := t :: rest) (intLe_cons.2 ⟨t2, ir⟩) (by rw [l1_cons, t4]; omega)
        (pos_cons.2 ⟨by rw [t4]; omega, pr⟩) hq
    | false =>
      rw [if_neg (by simp)] at hq
      obtain ⟨r, r1, hq⟩ := Res.bind_eq_ok.1 hq
      injection hq with hq
      subst hq
      exact pos_cons.2 ⟨pa, mergeAdj_pos h hD (p := b :: rest) (intLe_cons.2 ⟨ib, ir⟩) (by rw [l1_cons]; omega) (pos_cons.2 ⟨pb, pr⟩) r1⟩
termination_by p => p.length

theorem mul_pos' {env : Env} (h : env.IntOk) {D1 D2 : Int} (h1 : 0 ≤ D1) (h2 : 0 ≤ D2) (hD : D1 + D2 ≤ env.M) {a b t : Term}
    (ha : a.IntLe D1) (hb : b.IntLe D2) (ka : |a.coe.coe.num| ≤ env.M) (kb : |b.coe.coe.num| ≤ env.M)
    (kab : |a.coe.coe.num| * |b.coe.coe.num| ≤ env.M) (pa : 0 < a.coe.coe.num) (pb : 0 < b.coe.coe.num)
    (ht : Term.mul env a b = .ok t) : 0 < t.coe.coe.num := by
  obtain ⟨u, u1, -, u3⟩ := Term.mul_int h ha hb h1 h2 hD ka kb (by rw [abs_mul]; exact kab)
  rw [Res.same ht u1, u3]
  exact mul_pos pa pb

theorem products_pos {env : Env} (h : env.IntOk) {D1 D2 : Int} (h1 : 0 ≤ D1) (h2 : 0 ≤ D2) (hD : D1 + D2 ≤ env.M) {q : Poly}
    (hq : IntLe D2 q) (kq : l1 q ≤ env.M) (pq : Pos q) : ∀ {p r : Poly}, IntLe D1 p → l1 p ≤ env.M → l1 p * l1 q ≤ env.M → Pos p →
    products env p q = .ok r → Pos r
  | [], r, _, _, _, _, hr => by
    unfold products at hr
    injection hr with hr
    subst hr
    exact pos_nil
  | x :: p, r, hp, kp, hl, pp, hr => by
    obtain ⟨a1, a2⟩ := intLe_cons.1 hp
    obtain ⟨p1, p2⟩ := pos_cons.1 pp
    rw [l1_cons] at hl kp
    have n1 := l1_nonneg p
    have n2 := l1_nonneg q
    have n4 := abs_nonneg x.coe.coe.num
    have n5 : 0 ≤ |x.coe.coe.num| * l1 q := by positivity
    have n6 : 0 ≤ l1 p * l1 q := by positivity
    rw [add_mul] at hl
    unfold products at hr
    obtain ⟨u, u1, hr⟩ := Res.bind_eq_ok.1 hr
    obtain ⟨v, v1, hr⟩ := Res.bind_eq_ok.1 hr
    injection hr with hr
    subst hr
    refine pos_append (mapM_pos (fun t ht w hw => ?_) u1) (products_pos h h1 h2 hD hq kq pq a2 (by omega) (by omega) p2 v1)
    have kt := l1_mem ht
    have := abs_nonneg t.coe.coe.num
    have : |x.coe.coe.num| * |t.coe.coe.num| ≤ |x.coe.coe.num| * l1 q := mul_le_mul_of_nonneg_left kt n4
    exact mul_pos' h h1 h2 hD a1 (hq t ht) (by omega) (by omega) (by omega) p1 (pq t ht) hw

theorem tryEvalLoop_pos {env : Env} (h : env.IntOk) {D : Int} : ∀ {p : Poly} {k : Int} {m : Num.Real}, IntLe D p → |k| + l1 p ≤ env.M →
    Pos p → 0 ≤ k → (p ≠ [] ∨ 0 < k) → tryEvalLoop env p (Real.int k) = .ok (some m) → ∃ j : Int, m = Real.int j ∧ 0 < j
  | [], k, m, _, _, _, _, hne, hm => by
    unfold tryEvalLoop at hm
    injection hm with hm
    injection hm with hm
    exact ⟨k, hm.symm, by simpa using hne⟩
  | t :: p, k, m, hi, hl, hp, hk, _, hm => by
    obtain ⟨h1, h2⟩ := intLe_cons.1 hi
    obtain ⟨p1, p2⟩ := pos_cons.1 hp
    rw [l1_cons] at hl
    have n1 := l1_nonneg p
    have n2 := abs_nonneg k
    have n3 := abs_nonneg t.coe.coe.num
    have n4 := abs_add_le k t.coe.coe.num
    unfold tryEvalLoop at hm
    cases e : t.tryEval with
    | none => rw [e] at hm; simp at hm
    | some x =>
      have hx : x = Real.int t.coe.coe.num := by
        unfold Term.tryEval at e
        split at e
        · injection e with e
          rw [← e]; exact h1.1
        · cases e
      rw [e] at hm
      simp only at hm
      rw [hx, Real.isEquivalentWith_int h, Res.bind_ok, if_pos rfl, Real.add_int h (by omega) (by omega) (by omega), Res.bind_ok] at hm
      exact tryEvalLoop_pos h h2 (by omega) p2 (by omega) (Or.inr (by omega)) hm

theorem tryEval_pos {env : Env} (h : env.IntOk) {D : Int} {p : Poly} {m : Num.Real} (hi : IntLe D p) (hl : l1 p ≤ env.M) (hp : Pos p)
    (hne : p ≠ []) (hm : tryEval env p = .ok (some m)) : ∃ j : Int, m = Real.int j ∧ 0 < j := by
  unfold tryEval at hm
  rw [Real.ofInt_int h (Real.abs0 h), Res.bind_ok] at hm
  exact tryEvalLoop_pos h hi (by simpa using hl) hp le_rfl (Or.inl hne) hm

theorem pos_const {k : Int} (hk : 0 < k) : Pos [Term.ofReal (Real.int k)] := by
  intro t ht
  rw [List.mem_singleton] at ht
  subst ht
  exact hk

theorem l1_const (k : Int) : l1 [Term.ofReal (Real.int k)] = |k| := by rw [l1_cons, l1_nil, add_zero]; rfl
theorem int_const (D k : Int) : IntLe D [Term.ofReal (Real.int k)] := intLe_cons.2 ⟨Term.intLe_ofInt D k, intLe_nil D⟩

section
variable {env : FEnv} (h : env.toEnv.IntOk) (hs : SortOk env.sort)
include h hs

theorem normalize_pos {D : Int} (hD : D ≤ env.M) {p q : Poly} (hi : IntLe D p) (hl : l1 p ≤ env.M) (hp : Pos p)
    (hq : normalize env p = .ok q) : Pos q := by
  unfold normalize at hq
  obtain ⟨r, r1, hq⟩ := Res.bind_eq_ok.1 hq
  have pr := hs _ _ r1
  exact mergeAdj_pos h hD (fun t ht => hi t (pr.subset ht)) (by rw [l1_perm pr]; exact hl) (fun t ht => hp t (pr.subset ht)) hq

end

section
variable {env : FEnv} (h : env.toEnv.PowOk) (hs : SortOk env.sort)
include h hs

omit hs in
theorem expand_pos {D L : Int} (hD0 : 0 ≤ D) (hL : 1 ≤ L) {p : Poly} {n : Nat} (hi : IntLe D p) (hk : ∀ t ∈ p, |t.coe.coe.num| ≤ L)
    (hp : Pos p) (hD : D ≤ env.M) (hDn : D * n ≤ env.M) (hn1 : 1 ≤ n) (hn : (n : Int) ≤ 2 ^ 53) (hb : (n ! : Int) * L ^ n ≤ 2 ^ 53) :
    ∀ {vs : List (List Int)} {r : Poly}, (∀ v ∈ vs, IsSol n p.length v) → expand env.toEnv p (n ! : Nat) vs = .ok r → Pos r
  | [], r, _, hr => by
    unfold expand at hr
    injection hr with hr
    subst hr
    exact pos_nil
  | v :: vs, r, hv, hr => by
    unfold expand at hr
    obtain ⟨t, t1, hr⟩ := Res.bind_eq_ok.1 hr
    obtain ⟨q, q1, hr⟩ := Res.bind_eq_ok.1 hr
    injection hr with hr
    subst hr
    obtain ⟨u, u1, -, Q, u3, u4⟩ := expandOne_int h hD0 hL hi hk (hv v List.mem_cons_self) hD hDn hn1 hn hb
    refine pos_cons.2 ⟨?_, expand_pos hD0 hL hi hk hp hD hDn hn1 hn hb (fun w hw => hv w (List.mem_cons_of_mem _ hw)) q1⟩
    rw [Res.same t1 u1, u4]
    have hQ : 0 < Q := by
      rcases Nat.eq_zero_or_pos Q with h0 | h0
      · rw [h0, zero_mul] at u3
        exact absurd u3 (Nat.factorial_ne_zero n)
      · exact h0
    have hc : ∀ (p : Poly) (v : List Int), Pos p → 0 < coeProd p v := by
      intro p
      induction p with
      | nil => intro v _; simp [coeProd]
      | cons t p ih =>
        intro v hp
        obtain ⟨p1, p2⟩ := pos_cons.1 hp
        match v with
        | [] => simp [coeProd]
        | a :: v =>
          have := ih v p2
          unfold coeProd at this ⊢
          rw [List.zipWith_cons_cons, List.prod_cons]
          exact mul_pos (pow_pos p1 _) this
    exact mul_pos (by exact_mod_cast hQ) (hc p v hp)

theorem pow_pos' {D : Int} (hD0 : 0 ≤ D) {p r : Poly} {n : Nat} (hi : IntLe D p) (hne : p ≠ []) (hp : Pos p)
    (hD : D ≤ env.M) (hDn : D * n ≤ env.M) (hn : (n : Int) ≤ 2 ^ 53) (hl : l1 p ≤ env.M) (hpow : l1 p ^ n ≤ 2 ^ 53)
    (hb : p.length = 1 ∨ (n ! : Int) * (max 1 (l1 p)) ^ n ≤ 2 ^ 53) (hr : pow env p ⟨n, 1⟩ = .ok r) : Pos r := by
  have h' := h.toIntOk
  have hM53 := h.hM53
  have hM := h.hM
  have hnM : |(n : Int)| ≤ env.M := by rw [abs_of_nonneg (by positivity)]; omega
  unfold pow at hr
  rw [Rational.eqInt_int hM hnM (Real.abs0 h'), Res.bind_ok] at hr
  by_cases e0 : n = 0
  · subst e0
    simp only [Nat.cast_zero, decide_true, if_true] at hr
    unfold Term.ofInt at hr
    rw [Real.ofInt_int h' (Real.abs1 h'), Res.bind_ok, Res.bind_ok] at hr
    exact normalize_pos h' hs hD (int_const D 1) (by rw [l1_const]; exact Real.abs1 h') (pos_const one_pos) hr
  have e0' : ¬ ((n : Int) = 0) := by exact_mod_cast e0
  simp only [e0', decide_false, Bool.false_eq_true, if_false] at hr
  rw [Rational.eqInt_int hM hnM (Real.abs1 h'), Res.bind_ok] at hr
  by_cases e1 : n = 1
  · subst e1
    simp only [Nat.cast_one, decide_true, if_true] at hr
    injection hr with hr
    subst hr
    exact hp
  have e1' : ¬ ((n : Int) = 1) := by exact_mod_cast e1
  simp only [e1', decide_false, Bool.false_eq_true, if_false] at hr
  have hmem : ∀ k : Int, |k| ≤ l1 p → |k ^ n| ≤ l1 p ^ n := fun k hk => by
    rw [abs_pow]; exact pow_le_pow_left₀ (abs_nonneg _) hk n
  split at hr
  · rename_i t
    have hk : |t.coe.coe.num| ≤ l1 [t] := l1_mem List.mem_cons_self
    have := hmem _ hk
    obtain ⟨u, u1, u2, u3⟩ := Term.pow_int h (intLe_cons.1 hi).1 (a := n) hD0 hD hDn hn (by omega) (by omega)
    rw [u1, Res.bind_ok] at hr
    have e : l1 [u] = |t.coe.coe.num ^ n| := by rw [l1_cons, l1_nil, u3, add_zero]
    refine normalize_pos h' hs hDn (p := [u]) (intLe_cons.2 ⟨u2, intLe_nil _⟩) (by rw [e]; omega) ?_ hr
    refine pos_cons.2 ⟨?_, pos_nil⟩
    rw [u3]
    exact pow_pos (pos_cons.1 hp).1 _
  · rename_i hlen
    have hb : (n ! : Int) * (max 1 (l1 p)) ^ n ≤ 2 ^ 53 := by
      rcases hb with hb | hb
      · obtain ⟨t, rfl⟩ := List.length_eq_one_iff.1 hb
        exact absurd rfl (hlen t)
      · exact hb
    have f1 : (1 : Int) ≤ (n ! : Int) := by exact_mod_cast Nat.factorial_pos n
    have hL : (1 : Int) ≤ max 1 (l1 p) := le_max_left _ _
    obtain ⟨v, v1, hr⟩ := Res.bind_eq_ok.1 hr
    cases v with
    | some a =>
      obtain ⟨w, w1, w2⟩ := tryEval_int h' hi hl
      obtain ⟨m, rfl, m2⟩ := w2 a (Res.same w1 v1)
      obtain ⟨j, j1, j2⟩ := tryEval_pos h' hi hl hp hne v1
      have hmj : m = j := by
        have := congrArg (fun r : Num.Real => r.coe.num) j1
        exact this
      have := hmem _ m2
      simp only at hr
      rw [Real.pow_int h (by omega) (by omega) hn, Res.bind_ok] at hr
      refine normalize_pos h' hs hD (int_const D (m ^ n)) (by rw [l1_const]; omega) (pos_const ?_) hr
      rw [hmj]
      exact pow_pos j2 n
    | none =>
      simp only at hr
      have hlen2 : 2 ≤ p.length := by
        match p, hne, hlen with
        | [], h3, _ => exact absurd rfl h3
        | [t], _, hlen => exact absurd rfl (hlen t)
        | _ :: _ :: _, _, _ => simp
      obtain ⟨_, -, hr⟩ := Res.bind_eq_ok.1 hr
      obtain ⟨k, hk, hr⟩ := Res.bind_eq_ok.1 hr
      obtain ⟨_, -, hr⟩ := Res.bind_eq_ok.1 hr
      obtain ⟨vs, hvs, hr⟩ := Res.bind_eq_ok.1 hr
      obtain ⟨u, hu, hr⟩ := Res.bind_eq_ok.1 hr
      have hk : k = n := by
        obtain ⟨-, -, hk⟩ := divT_ok.1 hk
        simpa using hk
      subst hk
      obtain ⟨L, hL1, -, hmemL⟩ := solveEq_spec p.length n (by positivity) hlen2
      have hv := Res.same hL1 hvs
      subst hv
      have hf0 : (n ! : Int) ≤ env.M := by
        have : (n ! : Int) ≤ 2 ^ 53 := le_trans (le_mul_of_one_le_right (by omega) (one_le_pow₀ hL)) hb
        omega
      have hf : factLoop env.M (Int.toNat (n : Int)) = ((n ! : Nat) : Int) := factLoop_eq _ n (by omega)
      rw [hf] at hu
      obtain ⟨x, x1, x2, x3⟩ := expand_int h hD0 hL hi (fun t ht => le_trans (l1_mem ht) (le_max_right _ _)) hD hDn (by omega) hn hb
        (fun v hv => (hmemL v).1 hv)
      have hx := Res.same x1 hu
      subst hx
      have e4 : l1 x = l1 p ^ n := by
        rw [solve_weight p.length n hlen2 _ (by simp) hL1, ← l1_cast] at x3
        have : (n ! : ℝ) ≠ 0 := by exact_mod_cast n.factorial_ne_zero
        have : (l1 x : ℝ) = (l1 p : ℝ) ^ n := by rw [x3]; field_simp
        exact_mod_cast this
      refine normalize_pos h' hs hDn x2 (by rw [e4]; omega) ?_ hr
      exact expand_pos h hD0 hL hi (fun t ht => le_trans (l1_mem ht) (le_max_right _ _)) hp hD hDn (by omega) hn hb
        (fun v hv => (hmemL v).1 hv) hu

end
end Poly

namespace Frac
section
variable {env : FEnv} (h : env.toEnv.IntOk) (hs : SortOk env.sort) (ht : Poly.SortTotal env)
include h hs ht

theorem normPoly_pos {D : Int} (hD0 : 0 ≤ D) (hD : D ≤ env.M) {n : Poly} {r : Frac} (hi : n.IntLe D) (hl : n.l1 ≤ env.M) (hp : n.Pos)
    (hr : normalize env ⟨n, unitPoly⟩ = .ok r) : r.num.Pos := by
  have hM := h.hM
  obtain ⟨n1, en1, n1i, n1l⟩ := Poly.normalize_int h hs ht hD hi hl
  have p1 := Poly.normalize_pos h hs hD hi hl hp en1
  obtain ⟨n2, en2, n2i, n2c, -⟩ := scaleAll_int h hD0 hD n1i (by omega)
  obtain ⟨d2, ed2, -, -, d2e⟩ := scaleAll_int h hD0 hD (unitPoly_int D) (by rw [unitPoly_l1]; omega)
  rw [d2e unitPoly_reduced.exps] at ed2
  clear d2e
  have p2 : n2.Pos := by
    intro t ht
    have : t.coe.coe.num ∈ n2.map (·.coe.coe.num) := List.mem_map_of_mem ht
    rw [n2c] at this
    obtain ⟨u, hu, e⟩ := List.mem_map.1 this
    rw [← e]
    exact p1 u hu
  have n2l : n2.l1 = n1.l1 := by
    have : ∀ p : Poly, p.l1 = ((p.map (·.coe.coe.num)).map abs).sum := fun p => by
      unfold Poly.l1; rw [List.map_map]; rfl
    rw [this, this, n2c]
  unfold normalize at hr
  simp only at hr
  rw [en1, Res.bind_ok, unitPoly_norm h hs ht, Res.bind_ok, multLoop_int hM (unitPoly_int D), Res.bind_ok, multLoop_int hM n1i,
    Res.bind_ok, en2, Res.bind_ok, ed2, Res.bind_ok] at hr
  split at hr
  swap
  · cases hr
  rename_i n0 ns d0 ds hd
  unfold unitPoly at hd
  injection hd with hd hd'
  subst hd hd'
  obtain ⟨x, -, hr⟩ := Res.bind_eq_ok.1 hr
  obtain ⟨y, y1, hr⟩ := Res.bind_eq_ok.1 hr
  obtain ⟨g0, g1, hr⟩ := Res.bind_eq_ok.1 hr
  obtain ⟨o, o1, hr⟩ := Res.bind_eq_ok.1 hr
  cases o with
  | none =>
    injection hr with hr
    subst hr
    exact p2
  | some g =>
    have hy : y = 1 := by
      have : Rational.toT env.M (Term.ofReal (Real.int 1)).coe.coe = .ok 1 := toT_int (Real.abs1 h)
      exact Res.same y1 this
    subst hy
    have hg0 : g0 = 1 := by
      obtain ⟨-, e⟩ := gcdT_ok.1 g1
      rw [e]
      simp
    subst hg0
    have kn : ∀ t ∈ n0 :: ns, |t.coe.coe.num| ≤ env.M := fun t ht => le_trans (Poly.l1_mem ht) (by omega)
    obtain ⟨v, v1, v2⟩ := gcdOuter_int (unitPoly_int D) (fun t ht => le_trans (Poly.l1_mem ht) (by rw [unitPoly_l1]; omega))
      unitPoly_reduced.coe n2i kn one_pos
    obtain ⟨w1, w2, -, -⟩ := v2 g (Res.same v1 o1)
    have hg : g = 1 := Int.eq_one_of_dvd_one w1.le w2
    subst hg
    simp only at hr
    rw [Real.ofInt_int h (Real.abs1 h), Res.bind_ok] at hr
    obtain ⟨a, a1, hr⟩ := Res.bind_eq_ok.1 hr
    obtain ⟨b, -, hr⟩ := Res.bind_eq_ok.1 hr
    injection hr with hr
    subst hr
    obtain ⟨m, m1, m2, m3, -, -, -, -⟩ := mapDiv_int h hD one_pos hM n2i (by omega) (fun t _ => one_dvd _)
    unfold Poly.divReal at a1
    rw [m1, Res.bind_ok] at a1
    refine Poly.normalize_pos h hs hD m2 (by omega) ?_ a1
    refine Poly.mapM_pos (fun t ht u hu => ?_) m1
    unfold Term.divReal at hu
    have e1 : Real.div env.toEnv t.coe (Real.int 1) = .ok (Real.int t.coe.coe.num) := by
      have := Real.div_int h (q := t.coe.coe.num) (t := 1) (by rw [mul_one]; exact kn t ht) one_pos hM
      rw [mul_one] at this
      rw [(n2i t ht).1]
      exact this
    rw [e1, Res.bind_ok] at hu
    obtain ⟨s, -, hu⟩ := Res.bind_eq_ok.1 hu
    injection hu with hu
    subst hu
    exact p2 t ht

theorem ofTerm_pos {D : Int} (hD0 : 0 ≤ D) (hD : D ≤ env.M) {t : Term} {f : Frac} (hi : t.IntLe D) (hk : |t.coe.coe.num| ≤ env.M)
    (hp : 0 < t.coe.coe.num) (hf : ofTerm env t = .ok f) : f.num.Pos := by
  have l : Poly.l1 [t] = |t.coe.coe.num| := by simp [Poly.l1]
  have hpi : Poly.IntLe D [t] := Poly.intLe_cons.2 ⟨hi, Poly.intLe_nil D⟩
  unfold ofTerm ofPoly at hf
  obtain ⟨p, e1, hf⟩ := Res.bind_eq_ok.1 hf
  obtain ⟨q, q1, q2, q3⟩ := Poly.normalize_int h hs ht hD hpi (by rw [l]; exact hk)
  have hq := Res.same q1 e1
  subst hq
  have e : Frac.onePoly env = .ok unitPoly := by
    unfold Frac.onePoly Term.ofInt
    rw [Real.ofInt_int h (Real.abs1 h), Res.bind_ok, Res.bind_ok]
    exact unitPoly_norm h hs ht
  rw [e, Res.bind_ok] at hf
  exact normPoly_pos h hs ht hD0 hD q2 (by omega) (Poly.normalize_pos h hs hD hpi (by rw [l]; exact hk)
    (Poly.pos_cons.2 ⟨hp, Poly.pos_nil⟩) e1) hf

theorem add_pos' {D : Int} (hD : D ≤ env.M) {a b r : Frac} (ha : a.IntPoly D) (hb : b.IntPoly D) (hl : a.num.l1 + b.num.l1 ≤ env.M)
    (pa : a.num.Pos) (pb : b.num.Pos) (hr : add env a b = .ok r) : r.num.Pos := by
  unfold add at hr
  rw [ha.den, hb.den, eqOne h hs ht, Res.bind_ok, if_pos rfl] at hr
  obtain ⟨n, n1, hr⟩ := Res.bind_eq_ok.1 hr
  injection hr with hr
  subst hr
  exact Poly.normalize_pos h hs hD (Poly.intLe_append ha.num hb.num) (by rw [Poly.l1_append]; exact hl) (Poly.pos_append pa pb) n1

theorem mul_pos' {D1 D2 : Int} (h1 : 0 ≤ D1) (h2 : 0 ≤ D2) (hD : D1 + D2 ≤ env.M) {a b r : Frac} (ha : a.IntPoly D1)
    (hb : b.IntPoly D2) (ka : a.num.l1 ≤ env.M) (kb : b.num.l1 ≤ env.M) (hl : a.num.l1 * b.num.l1 ≤ env.M)
    (pa : a.num.Pos) (pb : b.num.Pos) (hr : mul env a b = .ok r) : r.num.Pos := by
  unfold mul Poly.mulAssign at hr
  rw [ha.den, hb.den] at hr
  obtain ⟨n, n1, hr⟩ := Res.bind_eq_ok.1 hr
  obtain ⟨p, p1, n1⟩ := Res.bind_eq_ok.1 n1
  have hu := unitPoly_mul h hs ht
  unfold Poly.mulAssign at hu
  rw [hu, Res.bind_ok] at hr
  obtain ⟨q, q1, q2, q3⟩ := Poly.products_int h h1 h2 hD ha.num hb.num ka kb hl
  have hq := Res.same q1 p1
  subst hq
  have pq := Poly.products_pos h h1 h2 hD hb.num kb pb ha.num ka hl pa p1
  obtain ⟨m, m1, m2, m3⟩ := Poly.normalize_int h hs ht hD q2 (by omega)
  have hm := Res.same m1 n1
  subst hm
  exact normPoly_pos h hs ht (add_nonneg h1 h2) hD m2 (by omega) (Poly.normalize_pos h hs hD q2 (by omega) pq n1) hr

end

section
variable {env : FEnv} (h : env.toEnv.PowOk) (hs : SortOk env.sort) (ht : Poly.SortTotal env)
include h hs ht

theorem pow_pos' {D L : Int} (hD0 : 0 ≤ D) {a r : Frac} {n : Nat} (ha : a.IntPoly D) (hDn : D * max 1 (n : Int) ≤ env.M)
    (hn : (n : Int) ≤ 2 ^ 53) (hL : 1 ≤ L) (hl : a.num.l1 ≤ L) (hLM : L ≤ env.M) (hb : L ^ n ≤ 2 ^ 53)
    (hf : a.num.length = 1 ∨ (n ! : Int) * L ^ n ≤ 2 ^ 53) (pa : a.num.Pos) (hr : pow env a ⟨n, 1⟩ = .ok r) : r.num.Pos := by
  have h' := h.toIntOk
  have hM53 := h.hM53
  have n0 := Poly.l1_nonneg a.num
  have hD : D ≤ env.M := le_trans (le_mul_of_one_le_right hD0 (le_max_left _ _)) hDn
  have hD2 : D * n ≤ env.M := le_trans (mul_le_mul_of_nonneg_left (le_max_right _ _) hD0) hDn
  have hpow : ∀ k : Int, |k| ≤ a.num.l1 → |k| ^ n ≤ L ^ n := fun k hk =>
    pow_le_pow_left₀ (abs_nonneg _) (le_trans hk hl) n
  unfold pow at hr
  obtain ⟨v, v1, hr⟩ := Res.bind_eq_ok.1 hr
  cases v with
  | some x =>
    obtain ⟨w, w1, w2⟩ := tryEval_int h ha (by omega)
    obtain ⟨m, rfl, m2⟩ := w2 x (Res.same w1 v1)
    have hm := hpow m m2
    have m0 : 0 < m := by
      unfold tryEval at v1
      rw [ha.den] at v1
      obtain ⟨y, y1, v1⟩ := Res.bind_eq_ok.1 v1
      rw [tryEval_unit h, Res.bind_ok] at v1
      cases y with
      | none => simp at v1
      | some y =>
        obtain ⟨j, rfl, j2⟩ := Poly.tryEval_pos h' ha.num (by omega) pa ha.ne y1
        obtain ⟨z, z1, z2⟩ := Poly.tryEval_int h' ha.num (by omega : a.num.l1 ≤ env.M)
        obtain ⟨j', j3, j4⟩ := z2 _ (Res.same z1 y1)
        have hj : j = j' := congrArg (fun r : Num.Real => r.coe.num) j3
        have e : Real.div env.toEnv (Real.int j) (Real.int 1) = .ok (Real.int j) := by
          have := Real.div_int h' (q := j) (t := 1) (by rw [mul_one, hj]; omega) one_pos h.hM
          rwa [mul_one] at this
        simp only at v1
        rw [e, Res.bind_ok] at v1
        injection v1 with v1
        injection v1 with v1
        have : j = m := congrArg (fun r : Num.Real => r.coe.num) v1
        omega
    simp only at hr
    rw [Real.pow_int h (by omega) (by rw [abs_pow]; omega) hn, Res.bind_ok] at hr
    unfold Frac.ofReal at hr
    refine ofTerm_pos h' hs ht hD0 hD (Term.intLe_ofInt D (m ^ n)) ?_ ?_ hr
    · show |m ^ n| ≤ _
      rw [abs_pow]; omega
    · exact pow_pos m0 n
  | none =>
    simp only at hr
    obtain ⟨p, p1, hr⟩ := Res.bind_eq_ok.1 hr
    rw [ha.den, pow_unit h hs ht hn, Res.bind_ok] at hr
    have hm : max 1 a.num.l1 ≤ L := max_le hL hl
    have hmn : (max 1 a.num.l1) ^ n ≤ L ^ n := pow_le_pow_left₀ (by omega) hm n
    have hpl : a.num.l1 ^ n ≤ L ^ n := pow_le_pow_left₀ n0 hl n
    have hpp := Poly.pow_pos' h hs hD0 ha.num ha.ne pa hD hD2 hn (by omega) (by omega)
      (hf.imp_right fun hf => le_trans (mul_le_mul_of_nonneg_left hmn (by positivity)) hf) p1
    have key : ∃ r, Poly.pow env a.num ⟨n, 1⟩ = .ok r ∧ Poly.IntLe (max D (D * n)) r ∧ Poly.l1 r ≤ L ^ n := by
      have hL1 : 1 ≤ L ^ n := one_le_pow₀ hL
      rcases hf with hf | hf
      · obtain ⟨t, hp⟩ := List.length_eq_one_iff.1 hf
        have ht' := ha.num
        rw [hp] at ht' n0 hl hpow ⊢
        have l1s : Poly.l1 [t] = |t.coe.coe.num| := by rw [Poly.l1_cons, Poly.l1_nil, add_zero]
        have hk := hpow t.coe.coe.num (by rw [l1s])
        obtain ⟨r, r1, r2, r3⟩ := powSingle_int h hs ht hD0 (Poly.intLe_cons.1 ht').1 hD (by omega) hn
          (by rw [l1s] at hl; omega) (by omega)
        exact ⟨r, r1, r2, le_trans r3 (max_le hL1 hk)⟩
      · obtain ⟨r, r1, r2, r3⟩ := Poly.pow_int h hs ht hD0 ha.num hD (by omega) hn (by omega)
          (le_trans (mul_le_mul_of_nonneg_left hmn (by positivity)) hf)
        exact ⟨r, r1, r2, le_trans r3 (max_le hL1 hpl)⟩
    obtain ⟨q, q1, q2, q3⟩ := key
    have hq := Res.same q1 p1
    subst hq
    exact normPoly_pos h' hs ht (le_max_of_le_left hD0) (max_le hD hD2) q2 (by omega) hpp hr

end
end Frac

/-- expressions over positive integers, symbols, `+`, `*` and natural powers. -/
def PosRing : Parser.Expr → Prop
  | .leaf (.num q) => q.den = 1 ∧ 0 < q.num
  | .leaf (.sym _) => True
  | .node c a b => ((c = '+' ∨ c = '*') ∧ PosRing a ∧ PosRing b) ∨
      (c = '^' ∧ PosRing a ∧ ∃ k : Nat, b = .leaf (.num ⟨k, 1⟩))

theorem PosRing.ring : ∀ {e : Parser.Expr}, PosRing e → IntRing e
  | .leaf (.num _), h => h.1
  | .leaf (.sym _), _ => trivial
  | .node _ _ _, h => by
    rcases h with ⟨hc, ha, hb⟩ | ⟨hc, ha, hk⟩
    · exact Or.inl ⟨hc.elim Or.inl fun h => Or.inr (Or.inr h), ha.ring, hb.ring⟩
    · exact Or.inr ⟨hc, ha.ring, hk⟩

namespace Node
section
variable {env : FEnv} (h : env.toEnv.PowOk) (hs : SortOk env.sort) (ht : Poly.SortTotal env)
include h hs ht

theorem ofLeaf_pos {l : Parser.Leaf} {f : Frac} (hp : PosRing (.leaf l)) (hsz : ringSize (.leaf l) ≤ env.M)
    (hf : ofLeaf env l = .ok f) : f.num.Pos := by
  have h' := h.toIntOk
  have hM := h.hM
  cases l with
  | num q =>
    obtain ⟨n, d⟩ := q
    obtain ⟨hd, hn0⟩ := hp
    simp only at hd hn0
    subst hd
    simp only [ringSize] at hsz
    have hn : |n| ≤ env.M := le_trans (le_max_right _ _) hsz
    rw [ofLeaf_const h hs ht hn] at hf
    injection hf with hf
    subst hf
    exact Poly.pos_const hn0
  | sym x =>
    have hi : Term.IntLe 1 ⟨Real.int 1, [(x, ⟨1, 1⟩)]⟩ :=
      ⟨rfl, by intro p hp; rw [List.mem_singleton] at hp; subst hp; simp, by simp [Syms.WF]⟩
    simp only [ofLeaf, Term.ofSym] at hf
    rw [Real.ofInt_int h' (Real.abs1 h'), Res.bind_ok, Rational.ofInt_eq _ _ (Real.abs1 h') hM, Res.bind_ok, Res.bind_ok] at hf
    exact Frac.ofTerm_pos h' hs ht (by norm_num) hM hi (Real.abs1 h') one_pos hf

/-- the polynomial that such an expression evaluates to has positive coefficients. -/
theorem ring_pos {e : Parser.Expr} (he : PosRing e) (hsz : ringSize e ≤ env.M) (hdeg : ringDeg e ≤ env.M) (hpf : PowFits e)
    {n : Node} {f : Frac} (hn : ofExpr env e = .ok n) (hf : tryEval env n = .ok (some f)) : f.num.Pos := by
  have h' := h.toIntOk
  have hM := h.hM
  have hM53 := h.hM53
  have : Closed env.M (fun _ => True) := ⟨fun _ _ _ => trivial⟩
  have : ClosedNat env.M (fun _ => True) := { nat := fun _ _ _ => trivial }
  have full : ∀ {e : Parser.Expr}, PosRing e → ringSize e ≤ env.M → ringDeg e ≤ env.M → PowFits e →
      ∃ n f, ofExpr env e = .ok n ∧ normalize env n = .ok (.frac f) ∧ tryEval env n = .ok (some f) ∧ f.IntPoly (ringDeg e) ∧
      f.num.l1 ≤ ringSize e ∧ f.In (fun _ => True) ∧ (oneTerm e = true → f.num.length = 1) := fun he h1 h2 h3 =>
    ring_int (P := fun _ => True) h hs ht he.ring h1 h2 h3 fun _ _ => trivial
  induction e generalizing n f with
  | leaf l =>
    unfold ofExpr at hn
    obtain ⟨g, g1, hn⟩ := Res.bind_eq_ok.1 hn
    injection hn with hn
    subst hn
    unfold tryEval at hf
    injection hf with hf
    injection hf with hf
    subst hf
    exact ofLeaf_pos h hs ht he hsz g1
  | node c a b ia ib =>
    have pa := ringSize_pos a
    have pb := ringSize_pos b
    have qa := ringDeg_nonneg a
    have qb := ringDeg_nonneg b
    obtain ⟨pfa, pfb, pf⟩ := hpf
    rcases he with ⟨hc, ha, hb⟩ | ⟨rfl, ha, k, rfl⟩
    · unfold ofExpr at hn
      obtain ⟨na, hna, hn⟩ := Res.bind_eq_ok.1 hn
      obtain ⟨nb, hnb, hn⟩ := Res.bind_eq_ok.1 hn
      injection hn with hn
      subst hn
      rcases hc with rfl | rfl
      · have z1 : ringSize (.node '+' a b) = ringSize a + ringSize b := by
          simp only [ringSize]; rw [if_neg (by decide), if_neg (by decide)]
        have z2 : ringDeg (.node '+' a b) = max (ringDeg a) (ringDeg b) := by
          simp only [ringDeg]; rw [if_neg (by decide), if_neg (by decide)]
        rw [z1] at hsz
        rw [z2] at hdeg
        obtain ⟨na', fa, a1, -, a3, a4, a5, -, -⟩ := full ha (by omega) (by omega) pfa
        obtain ⟨nb', fb, b1, -, b3, b4, b5, -, -⟩ := full hb (by omega) (by omega) pfb
        have e1 := Res.same a1 hna
        have e2 := Res.same b1 hnb
        subst e1 e2
        unfold tryEval at hf
        rw [a3, Res.bind_ok, b3, Res.bind_ok] at hf
        simp only at hf
        unfold evalOp at hf
        rw [if_pos rfl] at hf
        obtain ⟨r, r1, hf⟩ := Res.bind_eq_ok.1 hf
        injection hf with hf
        injection hf with hf
        subst hf
        exact Frac.add_pos' h' hs ht hdeg (a4.mono (le_max_left _ _)) (b4.mono (le_max_right _ _)) (by omega)
          (ia ha (by omega) (by omega) pfa a1 a3) (ib hb (by omega) (by omega) pfb b1 b3) r1
      · have z1 : ringSize (.node '*' a b) = ringSize a * ringSize b := if_pos rfl
        have z2 : ringDeg (.node '*' a b) = ringDeg a + ringDeg b := if_pos rfl
        rw [z1] at hsz
        rw [z2] at hdeg
        have sa : ringSize a ≤ env.M := by nlinarith
        have sb : ringSize b ≤ env.M := by nlinarith
        obtain ⟨na', fa, a1, -, a3, a4, a5, -, -⟩ := full ha sa (by omega) pfa
        obtain ⟨nb', fb, b1, -, b3, b4, b5, -, -⟩ := full hb sb (by omega) pfb
        have e1 := Res.same a1 hna
        have e2 := Res.same b1 hnb
        subst e1 e2
        unfold tryEval at hf
        rw [a3, Res.bind_ok, b3, Res.bind_ok] at hf
        simp only at hf
        unfold evalOp at hf
        rw [if_neg (by decide), if_neg (by decide), if_pos rfl] at hf
        obtain ⟨r, r1, hf⟩ := Res.bind_eq_ok.1 hf
        injection hf with hf
        injection hf with hf
        subst hf
        have n2 := Poly.l1_nonneg fb.num
        have hl : fa.num.l1 * fb.num.l1 ≤ ringSize a * ringSize b := mul_le_mul a5 b5 n2 (by omega)
        exact Frac.mul_pos' h' hs ht qa qb hdeg a4 b4 (by omega) (by omega) (by omega)
          (ia ha sa (by omega) pfa a1 a3) (ib hb sb (by omega) pfb b1 b3) r1
    · have ek : expo (.leaf (.num ⟨(k : Int), 1⟩)) = k := by simp [expo]
      obtain ⟨p1, p0, p2, p3⟩ := pf rfl
      rw [ek] at p1 p2 p3
      have z2 : ringDeg (.node '^' a (.leaf (.num ⟨(k : Int), 1⟩))) = ringDeg a * max 1 (k : Int) := by
        simp only [ringDeg, ek]
        rw [if_neg (by decide), if_pos trivial]
      rw [z2] at hdeg
      have da : ringDeg a ≤ env.M := le_trans (le_mul_of_one_le_right qa (le_max_left _ _)) hdeg
      have hsa : ringSize a ≤ env.M := by omega
      have hkM : (k : Int) ≤ env.M := by omega
      obtain ⟨na, fa, a1, -, a3, a4, a5, -, a7⟩ := full ha hsa da pfa
      obtain ⟨r, r1, r2, r3⟩ := Frac.pow_int h hs ht qa a4 hdeg p1 pa a5 hsa p2 (p3.imp_left a7)
      have fin := Frac.pow_pos' h hs ht qa a4 hdeg p1 pa a5 hsa p2 (p3.imp_left a7) (ia ha hsa da pfa a1 a3) r1
      obtain ⟨t1, -⟩ := pow_top h hkM a3 rfl r1
      have on : ofExpr env (.node '^' a (.leaf (.num ⟨(k : Int), 1⟩))) =
          .ok (.op '^' na (.frac ⟨[Term.ofReal (Real.int k)], unitPoly⟩)) := by
        unfold ofExpr
        rw [a1, Res.bind_ok]
        unfold ofExpr
        rw [ofLeaf_const h hs ht (by rw [abs_of_nonneg (by positivity)]; exact hkM)]
        rfl
      have e1 := Res.same on hn
      subst e1
      have e2 := Res.same t1 hf
      injection e2 with e2
      subst e2
      exact fin

end
end Node
end Symxx.Sym
