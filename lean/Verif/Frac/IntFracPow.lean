import Verif.Frac.IntTop
import Verif.Expr.Model
import Verif.Frac.IntPow
import Verif.Frac.Solve
/-!
# Natural powers of polynomial fractions with integer coefficients; numbers of terms; numbers as fractions
-/
namespace Symxx.Sym
open Symxx.Num Nat

namespace Poly
variable {env : FEnv}

theorem mergeAdj_len {e : Env} (n : Nat) : ∀ {p q : Poly}, p.length ≤ n → mergeAdj e p = .ok q → q.length ≤ p.length := by
  induction n with
  | zero =>
    intro p q hl h
    have : p = [] := List.length_eq_zero_iff.1 (by omega)
    subst this
    unfold mergeAdj at h
    injection h with h; subst h; exact le_rfl
  | succ n ih =>
    intro p q hl h
    match p, hl, h with
    | [], _, h => unfold mergeAdj at h; injection h with h; subst h; exact le_rfl
    | [t], _, h => unfold mergeAdj at h; injection h with h; subst h; exact le_rfl
    | a :: b :: rest, hl, h =>
      unfold mergeAdj at h
      simp only [List.length_cons] at hl
      obtain ⟨v, -, h⟩ := Res.bind_eq_ok.1 h
      split at h
      · obtain ⟨c, -, h⟩ := Res.bind_eq_ok.1 h
        obtain ⟨t, -, h⟩ := Res.bind_eq_ok.1 h
        have := ih (p := t :: rest) (by simp only [List.length_cons]; omega) h
        simp only [List.length_cons] at this ⊢
        omega
      · obtain ⟨r, h1, h⟩ := Res.bind_eq_ok.1 h
        injection h with h; subst h
        have := ih (p := b :: rest) (by simp only [List.length_cons]; omega) h1
        simp only [List.length_cons] at this ⊢
        omega

theorem normalize_len (hs : SortOk env.sort) {p q : Poly} (h : normalize env p = .ok q) : q.length ≤ p.length := by
  unfold normalize at h
  obtain ⟨r, h1, h⟩ := Res.bind_eq_ok.1 h
  rw [← (hs _ _ h1).length_eq]
  exact mergeAdj_len _ le_rfl h

theorem mapM_len {f : Term → Res Term} {p q : Poly} (h : mapM f p = .ok q) : q.length = p.length := by
  induction p generalizing q with
  | nil => injection h with h; subst h; rfl
  | cons t ts ih =>
    unfold mapM at h
    obtain ⟨a, -, h⟩ := Res.bind_eq_ok.1 h
    obtain ⟨b, h1, h⟩ := Res.bind_eq_ok.1 h
    injection h with h; subst h
    simp [ih h1]

theorem products_len {e : Env} {p q r : Poly} (h : products e p q = .ok r) : r.length = p.length * q.length := by
  induction p generalizing r with
  | nil => injection h with h; subst h; simp
  | cons t ts ih =>
    unfold products at h
    obtain ⟨a, h1, h⟩ := Res.bind_eq_ok.1 h
    obtain ⟨b, h2, h⟩ := Res.bind_eq_ok.1 h
    injection h with h; subst h
    rw [List.length_append, mapM_len h1, ih h2, List.length_cons]
    ring

theorem expand_len {e : Env} {p : Poly} {f : Int} {vs : List (List Int)} {r : Poly} (h : expand e p f vs = .ok r) :
    r.length = vs.length := by
  induction vs generalizing r with
  | nil => injection h with h; subst h; rfl
  | cons v vs ih =>
    unfold expand at h
    obtain ⟨a, -, h⟩ := Res.bind_eq_ok.1 h
    obtain ⟨b, h1, h⟩ := Res.bind_eq_ok.1 h
    injection h with h; subst h
    simp [ih h1]

theorem pow_ne (hs : SortOk env.sort) {p r : Poly} {n : Nat} (hp : p ≠ []) (h : pow env p ⟨n, 1⟩ = .ok r) : r ≠ [] := by
  unfold pow at h
  obtain ⟨a, -, h⟩ := Res.bind_eq_ok.1 h
  split at h
  · obtain ⟨t, h1, h⟩ := Res.bind_eq_ok.1 h
    exact normalize_ne hs h (by simp)
  · obtain ⟨b, -, h⟩ := Res.bind_eq_ok.1 h
    split at h
    · injection h with h; subst h; exact hp
    · split at h
      · obtain ⟨t, h1, h⟩ := Res.bind_eq_ok.1 h
        exact normalize_ne hs h (by simp)
      · rename_i hlen
        obtain ⟨x, hx, h⟩ := Res.bind_eq_ok.1 h
        cases x with
        | some x =>
          obtain ⟨y, -, h⟩ := Res.bind_eq_ok.1 h
          exact normalize_ne hs h (by simp)
        | none =>
          obtain ⟨_, -, h⟩ := Res.bind_eq_ok.1 h
          obtain ⟨k, hk, h⟩ := Res.bind_eq_ok.1 h
          obtain ⟨_, -, h⟩ := Res.bind_eq_ok.1 h
          obtain ⟨vs, hvs, h⟩ := Res.bind_eq_ok.1 h
          obtain ⟨u, h1, h⟩ := Res.bind_eq_ok.1 h
          have hk : k = n := by
            obtain ⟨-, -, hk⟩ := divT_ok.1 hk
            simpa using hk
          have hlen2 : 2 ≤ p.length := by
            match p, hp, hlen with
            | [], h3, _ => exact absurd rfl h3
            | [t], _, hlen => exact absurd rfl (hlen t)
            | _ :: _ :: _, _, _ => simp
          obtain ⟨L, hL1, -, hmem⟩ := solveEq_spec p.length n (by positivity) hlen2
          rw [hk, hL1] at hvs
          injection hvs with hvs
          refine normalize_ne hs h ?_
          rintro rfl
          have h0 := expand_len h1
          have : ((n : Int) :: List.replicate (p.length - 1) 0) ∈ L := by
            refine (hmem _).2 ⟨by simp; omega, ?_, by simp⟩
            intro x hx
            rcases List.mem_cons.1 hx with rfl | hx
            · positivity
            · rw [List.eq_of_mem_replicate hx]
          rw [← hvs] at h0
          rw [List.length_eq_zero_iff.1 h0.symm] at this
          simp at this

end Poly

namespace Frac
variable {env : FEnv}

theorem normalize_len (hs : SortOk env.sort) {f g : Frac} (h : normalize env f = .ok g) : g.num.length ≤ f.num.length := by
  unfold normalize at h
  obtain ⟨n, h1, h⟩ := Res.bind_eq_ok.1 h
  obtain ⟨d, h2, h⟩ := Res.bind_eq_ok.1 h
  obtain ⟨_, -, h⟩ := Res.bind_eq_ok.1 h
  obtain ⟨_, -, h⟩ := Res.bind_eq_ok.1 h
  obtain ⟨n', h3, h⟩ := Res.bind_eq_ok.1 h
  obtain ⟨d', h4, h⟩ := Res.bind_eq_ok.1 h
  have e1 := Poly.normalize_len hs h1
  have e2 := Poly.mapM_len h3
  split at h
  · obtain ⟨_, -, h⟩ := Res.bind_eq_ok.1 h
    obtain ⟨_, -, h⟩ := Res.bind_eq_ok.1 h
    obtain ⟨_, -, h⟩ := Res.bind_eq_ok.1 h
    obtain ⟨o, -, h⟩ := Res.bind_eq_ok.1 h
    cases o with
    | none => injection h with h; subst h; simp only [List.length_cons] at *; omega
    | some g' =>
      obtain ⟨_, -, h⟩ := Res.bind_eq_ok.1 h
      obtain ⟨n'', h5, h⟩ := Res.bind_eq_ok.1 h
      obtain ⟨d'', h6, h⟩ := Res.bind_eq_ok.1 h
      injection h with h; subst h
      unfold Poly.divReal at h5
      obtain ⟨m, h7, h5⟩ := Res.bind_eq_ok.1 h5
      have e3 := Poly.normalize_len hs h5
      have e4 := Poly.mapM_len h7
      simp only at *
      omega
  · cases h

theorem ofTerm_len (hs : SortOk env.sort) {t : Term} {f : Frac} (h : ofTerm env t = .ok f) : f.num.length ≤ 1 := by
  unfold ofTerm ofPoly at h
  obtain ⟨p, h1, h⟩ := Res.bind_eq_ok.1 h
  obtain ⟨d, h2, h⟩ := Res.bind_eq_ok.1 h
  have e1 := Poly.normalize_len hs h1
  have e2 := normalize_len hs h
  simp only [List.length_singleton] at e1 e2
  omega

theorem mul_len (hs : SortOk env.sort) {a b r : Frac} (h : mul env a b = .ok r) : r.num.length ≤ a.num.length * b.num.length := by
  unfold mul Poly.mulAssign at h
  obtain ⟨n, h1, h⟩ := Res.bind_eq_ok.1 h
  obtain ⟨d, h2, h⟩ := Res.bind_eq_ok.1 h
  obtain ⟨m, h3, h1⟩ := Res.bind_eq_ok.1 h1
  have e1 := Poly.products_len h3
  have e2 := Poly.normalize_len hs h1
  have e3 := normalize_len hs h
  simp only at e3
  omega

theorem pow_len (hs : SortOk env.sort) {a r : Frac} {q : Rational} (ha : a.num.length = 1) (h : pow env a q = .ok r) :
    r.num.length ≤ 1 := by
  unfold pow at h
  obtain ⟨o, -, h⟩ := Res.bind_eq_ok.1 h
  cases o with
  | some x =>
    obtain ⟨y, -, h⟩ := Res.bind_eq_ok.1 h
    exact ofTerm_len hs h
  | none =>
    obtain ⟨n, h1, h⟩ := Res.bind_eq_ok.1 h
    obtain ⟨d, -, h⟩ := Res.bind_eq_ok.1 h
    have e := normalize_len hs h
    simp only at e
    refine le_trans e ?_
    obtain ⟨t, hp⟩ := List.length_eq_one_iff.1 ha
    rw [hp] at h1
    unfold Poly.pow at h1
    obtain ⟨v, -, h1⟩ := Res.bind_eq_ok.1 h1
    split at h1
    · obtain ⟨t, -, h1⟩ := Res.bind_eq_ok.1 h1
      simpa using Poly.normalize_len hs h1
    · obtain ⟨w, -, h1⟩ := Res.bind_eq_ok.1 h1
      split at h1
      · injection h1 with h1; subst h1; simp
      · obtain ⟨u, -, h1⟩ := Res.bind_eq_ok.1 h1
        simpa using Poly.normalize_len hs h1

section
variable (h : env.toEnv.PowOk) (hs : SortOk env.sort) (ht : Poly.SortTotal env)
include h hs ht

theorem pow_unit {n : Nat} (hn : (n : Int) ≤ 2 ^ 53) : Poly.pow env unitPoly ⟨n, 1⟩ = .ok unitPoly := by
  have h' := h.toIntOk
  have hM := h.hM
  have hM53 := h.hM53
  have hnM : |(n : Int)| ≤ env.M := by rw [abs_of_nonneg (by positivity)]; omega
  unfold Poly.pow
  rw [Rational.eqInt_int hM hnM (Real.abs0 h'), Res.bind_ok]
  split
  · unfold Term.ofInt
    rw [Real.ofInt_int h' (Real.abs1 h'), Res.bind_ok, Res.bind_ok]
    exact unitPoly_norm h' hs ht
  · rw [Rational.eqInt_int hM hnM (Real.abs1 h'), Res.bind_ok]
    split
    · rfl
    · show (Term.pow env.toEnv (Term.ofReal (Real.int 1)) ⟨n, 1⟩ >>= fun t => Poly.mk' env [t]) = _
      have e1 : Real.pow env.toEnv (Real.int 1) ⟨n, 1⟩ = .ok (Real.int (1 ^ n)) :=
        Real.pow_int h (Real.abs1 h') (by rw [one_pow]; norm_num) hn
      have e2 : Term.pow env.toEnv (Term.ofReal (Real.int 1)) ⟨n, 1⟩ = .ok (Term.ofReal (Real.int 1)) := by
        unfold Term.pow
        show (Real.pow env.toEnv (Real.int 1) ⟨n, 1⟩ >>= _) = _
        rw [e1, Res.bind_ok, one_pow]
        rfl
      rw [e2, Res.bind_ok]
      exact unitPoly_norm h' hs ht

omit hs ht in
theorem tryEval_unit : Poly.tryEval env.toEnv unitPoly = .ok (some (Real.int 1)) := by
  have h' := h.toIntOk
  unfold Poly.tryEval
  rw [Real.ofInt_int h' (Real.abs0 h'), Res.bind_ok]
  unfold unitPoly Poly.tryEvalLoop
  show (Real.isEquivalentWith env.toEnv (Real.int 0) (Real.int 1) >>= _) = _
  rw [Real.isEquivalentWith_int h', Res.bind_ok, if_pos rfl]
  show (Real.add env.toEnv (Real.int 0) (Real.int 1) >>= _) = _
  rw [Real.add_int h' (Real.abs0 h') (Real.abs1 h') (Real.abs1 h'), Res.bind_ok]
  rfl

omit hs ht in
theorem tryEval_int {D : Int} {a : Frac} (ha : a.IntPoly D) (hl : a.num.l1 ≤ env.M) :
    ∃ v, tryEval env a = .ok v ∧ ∀ r, v = some r → ∃ m, r = Real.int m ∧ |m| ≤ a.num.l1 := by
  have h' := h.toIntOk
  obtain ⟨v, v1, v2⟩ := Poly.tryEval_int h' ha.num hl
  unfold tryEval
  rw [v1, Res.bind_ok, ha.den, tryEval_unit h, Res.bind_ok]
  cases v with
  | none => exact ⟨none, rfl, by simp⟩
  | some x =>
    obtain ⟨m, rfl, m2⟩ := v2 x rfl
    have e : Real.div env.toEnv (Real.int m) (Real.int 1) = .ok (Real.int m) := by
      have := Real.div_int h' (q := m) (t := 1) (by rw [mul_one]; omega) one_pos h.hM
      rwa [mul_one] at this
    simp only
    rw [e, Res.bind_ok]
    exact ⟨_, rfl, by rintro r ⟨⟩; exact ⟨m, rfl, m2⟩⟩

theorem powSingle_int {D : Int} (hD0 : 0 ≤ D) {t : Term} {n : Nat} (hp : t.IntLe D) (hD : D ≤ env.M) (hDn : D * n ≤ env.M)
    (hn : (n : Int) ≤ 2 ^ 53) (hl : |t.coe.coe.num| ≤ env.M) (hb : |t.coe.coe.num| ^ n ≤ 2 ^ 53) :
    ∃ r, Poly.pow env [t] ⟨n, 1⟩ = .ok r ∧ Poly.IntLe (max D (D * n)) r ∧ Poly.l1 r ≤ max 1 (|t.coe.coe.num| ^ n) := by
  have h' := h.toIntOk
  have hM53 := h.hM53
  have hM := h.hM
  have hnM : |(n : Int)| ≤ env.M := by rw [abs_of_nonneg (by positivity)]; omega
  unfold Poly.pow
  rw [Rational.eqInt_int hM hnM (Real.abs0 h'), Res.bind_ok]
  by_cases e0 : n = 0
  · subst e0
    simp only [Nat.cast_zero, decide_true, if_true]
    unfold Term.ofInt
    rw [Real.ofInt_int h' (Real.abs1 h'), Res.bind_ok, Res.bind_ok]
    obtain ⟨r, r1, r2, r3⟩ := Poly.mkInt_int h' hs ht hD (Real.abs1 h')
    exact ⟨r, r1, r2.mono (le_max_left _ _), by simp at r3 ⊢; omega⟩
  have e0' : ¬ ((n : Int) = 0) := by exact_mod_cast e0
  simp only [e0', decide_false, Bool.false_eq_true, if_false]
  rw [Rational.eqInt_int hM hnM (Real.abs1 h'), Res.bind_ok]
  have l1s : ∀ u : Term, Poly.l1 [u] = |u.coe.coe.num| := fun u => by rw [Poly.l1_cons, Poly.l1_nil, add_zero]
  by_cases e1 : n = 1
  · subst e1
    simp only [Nat.cast_one, decide_true, if_true]
    exact ⟨_, rfl, Poly.intLe_cons.2 ⟨hp.mono (le_max_left _ _), Poly.intLe_nil _⟩, by
      rw [pow_one, l1s]; exact le_max_right _ _⟩
  have e1' : ¬ ((n : Int) = 1) := by exact_mod_cast e1
  simp only [e1', decide_false, Bool.false_eq_true, if_false]
  obtain ⟨r, r1, r2, r3⟩ := Term.pow_int h hp (a := n) hD0 hD hDn hn hl (by rw [abs_pow]; exact hb)
  rw [r1, Res.bind_ok]
  have e : Poly.l1 [r] = |t.coe.coe.num| ^ n := by rw [l1s, r3, abs_pow]
  obtain ⟨q, q1, q2, q3⟩ := Poly.normalize_int h' hs ht hDn (p := [r]) (Poly.intLe_cons.2 ⟨r2, Poly.intLe_nil _⟩)
    (by rw [e]; omega)
  exact ⟨q, q1, q2.mono (le_max_right _ _), by rw [e] at q3; exact le_trans q3 (le_max_right _ _)⟩

/-- natural powers of an integer polynomial: `L` bounds the sum of the absolute values of the coefficients. -/
theorem pow_int {D L : Int} (hD0 : 0 ≤ D) {a : Frac} {n : Nat} (ha : a.IntPoly D) (hDn : D * max 1 (n : Int) ≤ env.M)
    (hn : (n : Int) ≤ 2 ^ 53) (hL : 1 ≤ L) (hl : a.num.l1 ≤ L) (hLM : L ≤ env.M) (hb : L ^ n ≤ 2 ^ 53)
    (hf : a.num.length = 1 ∨ (n ! : Int) * L ^ n ≤ 2 ^ 53) :
    ∃ r, pow env a ⟨n, 1⟩ = .ok r ∧ r.IntPoly (D * max 1 (n : Int)) ∧ r.num.l1 ≤ L ^ n := by
  have h' := h.toIntOk
  have hM53 := h.hM53
  have n0 := Poly.l1_nonneg a.num
  have hD : D ≤ env.M := le_trans (le_mul_of_one_le_right hD0 (le_max_left _ _)) hDn
  have hD1 : D ≤ D * max 1 (n : Int) := le_mul_of_one_le_right hD0 (le_max_left _ _)
  have hD2 : D * n ≤ D * max 1 (n : Int) := mul_le_mul_of_nonneg_left (le_max_right _ _) hD0
  have hDD : max D (D * n) ≤ D * max 1 (n : Int) := max_le hD1 hD2
  have hL1 : 1 ≤ L ^ n := one_le_pow₀ hL
  have hpow : ∀ k : Int, |k| ≤ a.num.l1 → |k| ^ n ≤ L ^ n := fun k hk =>
    pow_le_pow_left₀ (abs_nonneg _) (le_trans hk hl) n
  obtain ⟨v, v1, v2⟩ := tryEval_int h ha (by omega)
  unfold pow
  rw [v1, Res.bind_ok]
  cases v with
  | some x =>
    obtain ⟨m, rfl, m2⟩ := v2 x rfl
    have hm := hpow m m2
    simp only
    rw [Real.pow_int h (by omega) (by rw [abs_pow]; omega) hn, Res.bind_ok]
    unfold Frac.ofReal Frac.ofTerm
    obtain ⟨r, r1, r2, r3⟩ := Poly.mkInt_int h' hs ht (D := D) hD (k := m ^ n) (by rw [abs_pow]; omega)
    rw [r1, Res.bind_ok]
    rw [abs_pow] at r3
    obtain ⟨f, f1, f2, f3⟩ := ofPoly_int h' hs ht hD0 hD r2 (by omega) (Poly.normalize_ne hs r1 (by simp))
    exact ⟨f, f1, f2.mono hD1, by omega⟩
  | none =>
    simp only
    have key : ∃ r, Poly.pow env a.num ⟨n, 1⟩ = .ok r ∧ Poly.IntLe (max D (D * n)) r ∧ Poly.l1 r ≤ L ^ n := by
      rcases hf with hf | hf
      · obtain ⟨t, hp⟩ := List.length_eq_one_iff.1 hf
        have ht' := ha.num
        rw [hp] at ht' n0 hl hpow ⊢
        have l1s : Poly.l1 [t] = |t.coe.coe.num| := by rw [Poly.l1_cons, Poly.l1_nil, add_zero]
        have hk := hpow t.coe.coe.num (by rw [l1s])
        obtain ⟨r, r1, r2, r3⟩ := powSingle_int h hs ht hD0 (Poly.intLe_cons.1 ht').1 hD (by omega) hn
          (by rw [l1s] at hl; omega) (by omega)
        exact ⟨r, r1, r2, le_trans r3 (max_le hL1 hk)⟩
      · have hm : max 1 a.num.l1 ≤ L := max_le hL hl
        have hmn : (max 1 a.num.l1) ^ n ≤ L ^ n := pow_le_pow_left₀ (by omega) hm n
        obtain ⟨r, r1, r2, r3⟩ := Poly.pow_int h hs ht hD0 ha.num hD (by omega) hn (by omega)
          (le_trans (mul_le_mul_of_nonneg_left hmn (by positivity)) hf)
        refine ⟨r, r1, r2, le_trans r3 (max_le hL1 (pow_le_pow_left₀ n0 hl n))⟩
    obtain ⟨r, r1, r2, r3⟩ := key
    have rne : r ≠ [] := Poly.pow_ne hs ha.ne r1
    rw [r1, Res.bind_ok, ha.den, pow_unit h hs ht hn, Res.bind_ok]
    obtain ⟨f, f1, f2, f3⟩ := normPoly_int h' hs ht (by positivity) hDn (r2.mono hDD) (by omega) rne
    exact ⟨f, f1, f2, by omega⟩

/-- an integer as a fraction. -/
theorem ofReal_int {k : Int} (hk : |k| ≤ env.M) :
    ofReal env (Real.int k) = .ok ⟨[Term.ofReal (Real.int k)], unitPoly⟩ := by
  have h' := h.toIntOk
  have hM := h.hM
  have hi : ∀ k : Int, Poly.IntLe 0 [Term.ofReal (Real.int k)] := fun k =>
    Poly.intLe_cons.2 ⟨Term.intLe_ofInt 0 k, Poly.intLe_nil 0⟩
  have l1s : ∀ k : Int, Poly.l1 [Term.ofReal (Real.int k)] = |k| := fun k => by
    rw [Poly.l1_cons, Poly.l1_nil, add_zero]; rfl
  have hz : ∀ k : Int, ∀ t ∈ [Term.ofReal (Real.int k)], t.syms.NoZero := by
    intro k t ht
    rw [List.mem_singleton] at ht
    subst ht
    intro p hp
    simp [Term.ofReal] at hp
  have nrm : ∀ k : Int, |k| ≤ env.M → Poly.normalize env [Term.ofReal (Real.int k)] = .ok [Term.ofReal (Real.int k)] := by
    intro k hk
    obtain ⟨q, hq⟩ := ht 0 _ (by omega) (hi k) (by rw [l1s]; exact hk)
    unfold Poly.normalize
    rw [hq, Res.bind_ok, List.perm_singleton.1 (hs _ _ hq)]
    unfold Poly.mergeAdj
    rfl
  have sc : ∀ k : Int, |k| ≤ env.M → scaleAll env.toEnv 1 [Term.ofReal (Real.int k)] = .ok [Term.ofReal (Real.int k)] := by
    intro k hk
    obtain ⟨q, q1, -, -, q4⟩ := scaleAll_int h' le_rfl (by omega) (hi k) (by rw [l1s]; exact hk)
    rw [q1, q4 (hz k)]
  have dv : ∀ k : Int, |k| ≤ env.M →
      Poly.divReal env [Term.ofReal (Real.int k)] (Real.int 1) = .ok [Term.ofReal (Real.int k)] := by
    intro k hk
    obtain ⟨q, q1, -, -, -, -, -, q4⟩ := mapDiv_int h' (D := 0) (by omega) one_pos hM (hi k) (by rw [l1s]; exact hk)
      (fun t _ => one_dvd _)
    unfold Poly.divReal
    rw [q1, Res.bind_ok, q4 rfl (hz k)]
    exact nrm k hk
  have h1 := Real.abs1 h'
  unfold ofReal ofTerm ofPoly onePoly Term.ofInt Poly.mk'
  rw [nrm k hk, Res.bind_ok, Real.ofInt_int h' h1, Res.bind_ok, Res.bind_ok, nrm 1 h1, Res.bind_ok]
  unfold normalize
  simp only
  rw [nrm k hk, Res.bind_ok, nrm 1 h1, Res.bind_ok, multLoop_int hM (hi 1), Res.bind_ok, multLoop_int hM (hi k), Res.bind_ok,
    sc k hk, Res.bind_ok, sc 1 h1, Res.bind_ok]
  simp only
  have e1 : Rational.toT env.M (Term.ofReal (Real.int k)).coe.coe = .ok k := toT_int hk
  have e2 : Rational.toT env.M (Term.ofReal (Real.int 1)).coe.coe = .ok 1 := toT_int h1
  have e3 : gcdT env.M k 1 = .ok 1 := gcdT_ok.2 ⟨⟨hk, h1⟩, by simp⟩
  have e4 : gcdOuter env.M [Term.ofReal (Real.int 1)] [Term.ofReal (Real.int k)] 1 = .ok (some 1) := by
    unfold gcdOuter gcdInner
    simp only [List.tail_cons, Res.bind_ok]
    unfold gcdOuter
    rfl
  rw [e1, Res.bind_ok, e2, Res.bind_ok, e3, Res.bind_ok, e4, Res.bind_ok]
  simp only
  rw [Real.ofInt_int h' h1, Res.bind_ok, dv k hk, Res.bind_ok, dv 1 h1, Res.bind_ok]
  rfl

omit hs ht in
/-- the value of an integer as an exponent. -/
theorem tryEval_const {k : Int} (hk : |k| ≤ env.M) :
    tryEval env ⟨[Term.ofReal (Real.int k)], unitPoly⟩ = .ok (some (Real.int k)) := by
  have h' := h.toIntOk
  unfold tryEval
  have e : Poly.tryEval env.toEnv [Term.ofReal (Real.int k)] = .ok (some (Real.int k)) := by
    unfold Poly.tryEval
    rw [Real.ofInt_int h' (Real.abs0 h'), Res.bind_ok]
    unfold Poly.tryEvalLoop
    show (Real.isEquivalentWith env.toEnv (Real.int 0) (Real.int k) >>= _) = _
    rw [Real.isEquivalentWith_int h', Res.bind_ok, if_pos rfl]
    show (Real.add env.toEnv (Real.int 0) (Real.int k) >>= _) = _
    rw [Real.add_int h' (Real.abs0 h') hk (by rwa [zero_add]), Res.bind_ok, zero_add]
    rfl
  have e2 : Real.div env.toEnv (Real.int k) (Real.int 1) = .ok (Real.int k) := by
    have := Real.div_int h' (q := k) (t := 1) (by rwa [mul_one]) one_pos h.hM
    rwa [mul_one] at this
  simp only
  rw [e, Res.bind_ok, tryEval_unit h, Res.bind_ok]
  simp only
  rw [e2, Res.bind_ok]

end
end Frac

namespace Frac
variable {env : FEnv} (h : env.toEnv.IntOk)
include h

theorem isRational_int {k : Int} (hk : |k| ≤ env.M) : Real.isRational env.toEnv (Real.int k) = .ok true := by
  have hM := h.hM
  unfold Real.isRational Real.int
  simp only
  rw [Rational.eqInt_int hM hk (Real.abs0 h), Res.bind_ok]
  split
  · rfl
  · rw [Rational.eqInt_int hM (Real.abs1 h) (Real.abs1 h), Res.bind_ok]
    rfl

theorem toRational_real {k : Int} (hk : |k| ≤ env.M) : Real.toRational env.toEnv (Real.int k) = .ok ⟨k, 1⟩ := by
  have hM := h.hM
  unfold Real.toRational
  rw [isRational_int h hk, Res.bind_ok]
  have := Rational.mul_int hM hk (Real.abs1 h) (by rwa [mul_one])
  rw [mul_one] at this
  exact this

theorem toRational_const {k : Int} (hk : |k| ≤ env.M) :
    Frac.toRational env.toEnv ⟨[Term.ofReal (Real.int k)], unitPoly⟩ = .ok ⟨k, 1⟩ := by
  have hM := h.hM
  have e : ∀ k : Int, |k| ≤ env.M → Poly.toRational env.toEnv [Term.ofReal (Real.int k)] = .ok ⟨k, 1⟩ := by
    intro k hk
    unfold Poly.toRational
    rw [Rational.ofInt_eq _ _ (Real.abs0 h) hM, Res.bind_ok]
    unfold Poly.toRationalLoop
    have : Term.toRational env.toEnv (Term.ofReal (Real.int k)) = .ok ⟨k, 1⟩ := toRational_real h hk
    rw [this, Res.bind_ok, Rational.add_int hM (Real.abs0 h) hk (by rwa [zero_add]), Res.bind_ok, zero_add]
    rfl
  unfold Frac.toRational
  simp only
  rw [e k hk, Res.bind_ok]
  show (Poly.toRational env.toEnv [Term.ofReal (Real.int 1)] >>= _) = _
  rw [e 1 (Real.abs1 h), Res.bind_ok]
  have := Rational.div_int hM (q := k) (t := 1) (by rwa [mul_one]) one_pos hM
  rwa [mul_one] at this

end Frac
end Symxx.Sym
