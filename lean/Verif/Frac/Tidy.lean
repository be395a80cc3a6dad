import Verif.Frac.Independent
import Verif.Frac.IntTop
import Verif.Frac.IntFracPow
import Verif.Expr.Model
/-!
# Every numerator the library computes over the denominator 1 is sorted and collected

The proofs run the operations with a sort that only answers for integer polynomials that fit the integer type
(`FEnv.bounded`): there every comparison is exact. What returns there returns the same with the real sort.
-/
namespace Symxx.Sym
open Symxx.Num

/-- the sort of `env`, asked only about integer polynomials that fit. -/
noncomputable def FEnv.bounded (env : FEnv) : FEnv :=
  { env with sort := fun p => open Classical in if Poly.IntLe env.M p ∧ p.l1 ≤ env.M then env.sort p else .fuel }

variable {env : FEnv} {B : Nat}

theorem FEnv.bounded_eq {p q : Poly} : env.bounded.sort p = .ok q ↔ (Poly.IntLe env.M p ∧ p.l1 ≤ env.M) ∧ env.sort p = .ok q := by
  unfold FEnv.bounded
  simp only
  split <;> simp_all

theorem _root_.Symxx.Num.Env.Le.refl (e : Env) : Env.Le e e where
  M := rfl
  junk := rfl
  noWrap _ _ := fun _ h => h
  powT _ _ _ := fun _ h => h
  divPow _ _ _ := fun _ h => h
  mulPow _ _ _ := fun _ h => h
  ofPow _ _ := fun _ h => h
  fac _ := fun _ h => h

theorem FEnv.bounded_le : FEnv.Le env.bounded env :=
  ⟨Env.Le.refl _, fun _ _ h => (FEnv.bounded_eq.1 h).2⟩

theorem SortOk.bounded (h : SortOk env.sort) : SortOk env.bounded.sort := fun p q e => h p q (FEnv.bounded_eq.1 e).2

theorem Poly.SortTotal.bounded (h : Poly.SortTotal env) : Poly.SortTotal env.bounded := by
  intro D p hD hp hl
  obtain ⟨q, hq⟩ := h D p hD hp hl
  exact ⟨q, FEnv.bounded_eq.2 ⟨⟨hp.mono hD, hl⟩, hq⟩⟩

/-- standard terms, the non-zero ones in strictly decreasing order of symbols and root. -/
structure Poly.Tidy (p : Poly) : Prop where
  norm : ∀ t ∈ p, t.Norm
  dec : p.nonzero.Pairwise fun a b => b.group < a.group

theorem Term.before_mono {e e' : Env} (h : Env.Le e e') (a b : Term) : Res.Le (before e a b) (before e' a b) := by
  have h1 := Real.gt_mono h
  unfold before
  rw [h.M]
  res_mono

theorem _root_.Symxx.Num.Real.int_canon (k : Int) : (Real.int k).Canon := by
  refine ⟨1, rfl, ⟨one_pos, one_pos, ?_, ?_⟩, one_ne_zero, fun _ => rfl⟩
  · intro m hm h
    have : m ^ 1 ∣ 1 := h
    rw [pow_one, Nat.dvd_one] at this
    omega
  · intro m d _ h
    exact Nat.dvd_one.1 h

theorem Term.IntLe.std {D : Int} {t : Term} (h : t.IntLe D) (hz : t.syms.NoZero) : t.Std := by
  refine ⟨?_, ?_, h.2.2.1, fun p hp => ⟨by rw [(h.2.1 p hp).1]; norm_num, hz p hp⟩⟩
  · rw [h.1]; exact Real.int_canon _
  · rw [h.1]; exact one_pos

/-- comparisons of integer terms are exact. -/
theorem Term.before_exact (hg : env.toEnv.Good B) (hB : 1 ≤ B) {D : Int} {a b : Term} (ha : a.IntLe D) (hb : b.IntLe D)
    (za : a.syms.NoZero) (zb : b.syms.NoZero) (hD : D ≤ env.M) (ka : |a.coe.coe.num| ≤ env.M) (kb : |b.coe.coe.num| ≤ env.M) :
    ∃ v, Term.before env.toEnv a b = .ok v ∧ (v = true ↔ b.key < a.key) := by
  obtain ⟨v, hv⟩ := Term.before_int (hg.powOk_checked hB).toIntOk ha hb hD ka kb
  refine ⟨v, Term.before_mono (Env.checked_le _ B) _ _ _ hv, Term.before_key hg.toBase (ha.std za) (hb.std zb) ?_ hv⟩
  rw [ha.1, hb.1]
  have := hg.hM
  show ((1 * 1 : Nat) : Int) ≤ _
  norm_num
  omega

namespace Poly

theorem normalize_tidy (hg : env.toEnv.Good B) (hB : 1 ≤ B) (hs : SortContract env) {p r : Poly} (hz : ∀ t ∈ p, t.syms.NoZero)
    (h : normalize env.bounded p = .ok r) : r.Tidy := by
  unfold normalize at h
  obtain ⟨p', h1, h⟩ := Res.bind_eq_ok.1 h
  obtain ⟨⟨hi, hl⟩, h1⟩ := FEnv.bounded_eq.1 h1
  have hk : ∀ a ∈ p, |a.coe.coe.num| ≤ env.M := fun a ha => le_trans (l1_mem ha) hl
  obtain ⟨hperm, hsrt⟩ := hs.sorted h1 fun a ha b hb =>
    Term.before_exact hg hB (hi a ha) (hi b hb) (hz a ha) (hz b hb) le_rfl (hk a ha) (hk b hb)
  obtain ⟨q, q1, -, -⟩ := mergeAdj_int (hg.powOk_checked hB).toIntOk (le_refl env.M) (hi.perm hperm) (by rw [l1_perm hperm]; exact hl)
  have e := mergeAdj_mono (Env.checked_le _ B) _ _ q1
  have : r = q := by
    have h' : mergeAdj env.toEnv p' = .ok r := h
    rw [e] at h'
    injection h' with h'
    exact h'.symm
  subst this
  have hgrp : p'.Pairwise fun x y => y.group ≤ x.group := hsrt.imp fun h => by
    unfold Term.key at h
    rcases Prod.Lex.toLex_le_toLex.1 h with h | h
    · exact h.le
    · exact h.1.le
  obtain ⟨m1, m2, -⟩ := mergeAdj_group hg.toBase
    (fun t ht => (((hi.perm hperm) t ht).std (hz t (hperm.subset ht))).norm)
    (by
      rintro a rest rfl
      obtain ⟨h1, h2⟩ := List.pairwise_cons.1 hgrp
      exact ⟨h2, Or.inr h1⟩) q1
  exact ⟨m1, m2⟩

theorem Tidy.noZero {p : Poly} (h : p.Tidy) : ∀ t ∈ p, t.syms.NoZero := fun t ht q hq => ((h.norm t ht).syms.2 q hq).2

theorem mapM_noZero {f : Term → Res Term} (hf : ∀ t t', f t = .ok t' → t'.syms.NoZero) {p q : Poly} (h : mapM f p = .ok q) :
    ∀ t ∈ q, t.syms.NoZero := by
  induction p generalizing q with
  | nil =>
    unfold mapM at h
    injection h with h
    subst h
    simp
  | cons t p ih =>
    unfold mapM at h
    obtain ⟨a, h1, h⟩ := Res.bind_eq_ok.1 h
    obtain ⟨b, h2, h⟩ := Res.bind_eq_ok.1 h
    injection h with h
    subst h
    intro u hu
    rcases List.mem_cons.1 hu with rfl | hu
    · exact hf _ _ h1
    · exact ih h2 u hu

end Poly

theorem Syms.dropZero_noZero {M : Int} : ∀ {s s' : Syms}, dropZero M s = .ok s' → s'.NoZero
  | [], s', h => by unfold dropZero at h; injection h with h; subst h; intro p hp; simp at hp
  | (k, v) :: t, s', h => by
    unfold dropZero at h
    obtain ⟨z, h1, h⟩ := Res.bind_eq_ok.1 h
    obtain ⟨t', h2, h⟩ := Res.bind_eq_ok.1 h
    injection h with h
    subst h
    have i := dropZero_noZero h2
    have hz := Rational.eqInt_sound h1
    intro p hp
    cases z with
    | true => exact i p (by simpa using hp)
    | false =>
      rcases List.mem_cons.1 (by simpa using hp) with rfl | hp
      · intro h0
        simp at hz
        exact hz h0
      · exact i p hp

theorem Term.mul_noZero {e : Env} {a b t : Term} (h : Term.mul e a b = .ok t) : t.syms.NoZero := by
  unfold Term.mul at h
  obtain ⟨s, -, h⟩ := Res.bind_eq_ok.1 h
  obtain ⟨c, -, h⟩ := Res.bind_eq_ok.1 h
  obtain ⟨s', h1, h⟩ := Res.bind_eq_ok.1 h
  injection h with h
  subst h
  exact Syms.dropZero_noZero h1

theorem Term.divReal_noZero {e : Env} {a t : Term} {r : Num.Real} (h : Term.divReal e a r = .ok t) : t.syms.NoZero := by
  unfold Term.divReal at h
  obtain ⟨c, -, h⟩ := Res.bind_eq_ok.1 h
  obtain ⟨s', h1, h⟩ := Res.bind_eq_ok.1 h
  injection h with h
  subst h
  exact Syms.dropZero_noZero h1

/-- no zero exponents in the numerator; tidy when the denominator has one term. -/
def Frac.Neat (f : Frac) : Prop := (∀ t ∈ f.num, t.syms.NoZero) ∧ (f.den.length = 1 → f.num.Tidy)

namespace Frac

theorem gcdOuter_some {M : Int} {den : Poly} (hd : den.length = 1) : ∀ {ns : Poly} {g : Int}, gcdOuter M den ns g ≠ .ok none
  | [], g => by unfold gcdOuter; simp
  | n :: ns, g => by
    have : den.tail = [] := by
      match den, hd with
      | [_], _ => rfl
    unfold gcdOuter
    rw [this]
    unfold gcdInner
    rw [Res.bind_ok]
    exact gcdOuter_some hd

variable (hg : env.toEnv.Good B) (hB : 1 ≤ B) (hs : SortContract env)
include hg hB hs

theorem normalize_neat {f r : Frac} (h : normalize env.bounded f = .ok r) : r.Neat := by
  unfold normalize at h
  obtain ⟨n1, -, h⟩ := Res.bind_eq_ok.1 h
  obtain ⟨d1, -, h⟩ := Res.bind_eq_ok.1 h
  obtain ⟨m, -, h⟩ := Res.bind_eq_ok.1 h
  obtain ⟨m', -, h⟩ := Res.bind_eq_ok.1 h
  obtain ⟨n2, hn2, h⟩ := Res.bind_eq_ok.1 h
  obtain ⟨d2, hd2, h⟩ := Res.bind_eq_ok.1 h
  have z2 : ∀ t ∈ n2, t.syms.NoZero := by
    unfold scaleAll at hn2
    refine Poly.mapM_noZero ?_ hn2
    intro t t' ht
    obtain ⟨c, -, ht⟩ := Res.bind_eq_ok.1 ht
    exact Term.mul_noZero ht
  match n2, d2, h, z2 with
  | n0 :: ns, d0 :: ds, h, z2 =>
    simp only at h
    obtain ⟨x, -, h⟩ := Res.bind_eq_ok.1 h
    obtain ⟨y, -, h⟩ := Res.bind_eq_ok.1 h
    obtain ⟨g, -, h⟩ := Res.bind_eq_ok.1 h
    obtain ⟨o, ho, h⟩ := Res.bind_eq_ok.1 h
    cases o with
    | none =>
      injection h with h
      subst h
      exact ⟨z2, fun hl => absurd ho (gcdOuter_some hl)⟩
    | some g' =>
      simp only at h
      obtain ⟨gr, -, h⟩ := Res.bind_eq_ok.1 h
      obtain ⟨n3, h3, h⟩ := Res.bind_eq_ok.1 h
      obtain ⟨d3, -, h⟩ := Res.bind_eq_ok.1 h
      injection h with h
      subst h
      unfold Poly.divReal at h3
      obtain ⟨q, hq, h3⟩ := Res.bind_eq_ok.1 h3
      have zq : ∀ t ∈ q, t.syms.NoZero := Poly.mapM_noZero (fun t t' ht => Term.divReal_noZero ht) hq
      have ht := Poly.normalize_tidy hg hB hs zq h3
      exact ⟨ht.noZero, fun _ => ht⟩
  | [], _, h, _ => simp at h
  | _ :: _, [], h, _ => simp at h

theorem ofTerm_neat {t : Term} {r : Frac} (h : ofTerm env.bounded t = .ok r) : r.Neat := by
  unfold ofTerm at h
  obtain ⟨p, -, h⟩ := Res.bind_eq_ok.1 h
  unfold ofPoly at h
  obtain ⟨d, -, h⟩ := Res.bind_eq_ok.1 h
  exact normalize_neat hg hB hs h

theorem add_neat {a b r : Frac} (ha : a.Neat) (hb : b.Neat) (h : add env.bounded a b = .ok r) : r.Neat := by
  unfold add at h
  obtain ⟨v, -, h⟩ := Res.bind_eq_ok.1 h
  split at h
  · obtain ⟨n, h1, h⟩ := Res.bind_eq_ok.1 h
    injection h with h
    subst h
    have ht : n.Tidy := Poly.normalize_tidy hg hB hs (p := a.num ++ b.num)
      (fun t ht => (List.mem_append.1 ht).elim (ha.1 t) (hb.1 t)) h1
    exact ⟨ht.noZero, fun _ => ht⟩
  · obtain ⟨x, -, h⟩ := Res.bind_eq_ok.1 h
    obtain ⟨y, -, h⟩ := Res.bind_eq_ok.1 h
    obtain ⟨n, -, h⟩ := Res.bind_eq_ok.1 h
    obtain ⟨d, -, h⟩ := Res.bind_eq_ok.1 h
    exact normalize_neat hg hB hs h

theorem sub_neat {a b r : Frac} (ha : a.Neat) (h : sub env.bounded a b = .ok r) : r.Neat := by
  unfold sub at h
  obtain ⟨nb, h1, h⟩ := Res.bind_eq_ok.1 h
  unfold negate mk2 at h1
  obtain ⟨n, -, h1⟩ := Res.bind_eq_ok.1 h1
  obtain ⟨z, -, h1⟩ := Res.bind_eq_ok.1 h1
  obtain ⟨u, -, h1⟩ := Res.bind_eq_ok.1 h1
  exact add_neat hg hB hs ha (normalize_neat hg hB hs h1) h

theorem mul_neat {a b r : Frac} (h : mul env.bounded a b = .ok r) : r.Neat := by
  unfold mul at h
  obtain ⟨n, -, h⟩ := Res.bind_eq_ok.1 h
  obtain ⟨d, -, h⟩ := Res.bind_eq_ok.1 h
  exact normalize_neat hg hB hs h

theorem div_neat {a b r : Frac} (h : div env.bounded a b = .ok r) : r.Neat := by
  unfold div at h
  obtain ⟨z, -, h⟩ := Res.bind_eq_ok.1 h
  obtain ⟨u, -, h⟩ := Res.bind_eq_ok.1 h
  obtain ⟨n, -, h⟩ := Res.bind_eq_ok.1 h
  obtain ⟨d, -, h⟩ := Res.bind_eq_ok.1 h
  exact normalize_neat hg hB hs h

theorem pow_neat {a r : Frac} {q : Rational} (h : pow env.bounded a q = .ok r) : r.Neat := by
  unfold pow at h
  obtain ⟨o, -, h⟩ := Res.bind_eq_ok.1 h
  cases o with
  | some x =>
    simp only at h
    obtain ⟨y, -, h⟩ := Res.bind_eq_ok.1 h
    exact ofTerm_neat hg hB hs h
  | none =>
    simp only at h
    obtain ⟨n, -, h⟩ := Res.bind_eq_ok.1 h
    obtain ⟨d, -, h⟩ := Res.bind_eq_ok.1 h
    exact normalize_neat hg hB hs h

end Frac

/-- all leaves are neat. -/
def Node.Neat : Node → Prop
  | .frac f => f.Neat
  | .op _ l r => l.Neat ∧ r.Neat

namespace Node
variable (hg : env.toEnv.Good B) (hB : 1 ≤ B) (hs : SortContract env)
include hg hB hs

theorem ofExpr_neat : ∀ {e : Parser.Expr} {n : Node}, ofExpr env.bounded e = .ok n → n.Neat
  | .leaf l, n, h => by
    unfold ofExpr at h
    obtain ⟨f, h1, h⟩ := Res.bind_eq_ok.1 h
    injection h with h
    subst h
    cases l with
    | num q =>
      unfold ofLeaf at h1
      obtain ⟨r, -, h1⟩ := Res.bind_eq_ok.1 h1
      exact Frac.ofTerm_neat hg hB hs h1
    | sym x =>
      unfold ofLeaf at h1
      obtain ⟨r, -, h1⟩ := Res.bind_eq_ok.1 h1
      obtain ⟨t, -, h1⟩ := Res.bind_eq_ok.1 h1
      exact Frac.ofTerm_neat hg hB hs h1
  | .node c a b, n, h => by
    unfold ofExpr at h
    obtain ⟨x, h1, h⟩ := Res.bind_eq_ok.1 h
    obtain ⟨y, h2, h⟩ := Res.bind_eq_ok.1 h
    injection h with h
    subst h
    exact ⟨ofExpr_neat h1, ofExpr_neat h2⟩

theorem evalOp_neat {c : Char} {a b f : Frac} (ha : a.Neat) (hb : b.Neat) (h : evalOp env.bounded c a b = .ok (some f)) :
    f.Neat := by
  unfold evalOp at h
  split at h
  · obtain ⟨r, h1, h⟩ := Res.bind_eq_ok.1 h
    injection h with h; injection h with h; subst h
    exact Frac.add_neat hg hB hs ha hb h1
  split at h
  · obtain ⟨r, h1, h⟩ := Res.bind_eq_ok.1 h
    injection h with h; injection h with h; subst h
    exact Frac.sub_neat hg hB hs ha h1
  split at h
  · obtain ⟨r, h1, h⟩ := Res.bind_eq_ok.1 h
    injection h with h; injection h with h; subst h
    exact Frac.mul_neat hg hB hs h1
  split at h
  · obtain ⟨r, h1, h⟩ := Res.bind_eq_ok.1 h
    injection h with h; injection h with h; subst h
    exact Frac.div_neat hg hB hs h1
  split at h
  · obtain ⟨o, -, h⟩ := Res.bind_eq_ok.1 h
    cases o with
    | none => simp at h
    | some p =>
      simp only at h
      obtain ⟨v, -, h⟩ := Res.bind_eq_ok.1 h
      split at h
      · obtain ⟨q, -, h⟩ := Res.bind_eq_ok.1 h
        obtain ⟨r, h1, h⟩ := Res.bind_eq_ok.1 h
        injection h with h; injection h with h; subst h
        exact Frac.pow_neat hg hB hs h1
      · simp at h
  · simp at h

theorem tryEval_neat : ∀ {n : Node} {f : Frac}, n.Neat → tryEval env.bounded n = .ok (some f) → f.Neat
  | .frac g, f, hn, h => by
    unfold tryEval at h
    injection h with h; injection h with h; subst h
    exact hn
  | .op c l r, f, hn, h => by
    unfold tryEval at h
    obtain ⟨a, h1, h⟩ := Res.bind_eq_ok.1 h
    obtain ⟨b, h2, h⟩ := Res.bind_eq_ok.1 h
    match a, b, h1, h2, h with
    | some a, some b, h1, h2, h =>
      exact evalOp_neat hg hB hs (tryEval_neat hn.1 h1) (tryEval_neat hn.2 h2) h
    | none, _, _, _, h => simp at h
    | some _, none, _, _, h => simp at h

end Node
end Symxx.Sym
