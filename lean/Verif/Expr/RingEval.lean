import Verif.Expr.RingSpec
import Verif.Frac.SurdPow
import Verif.Expr.Total
/-!
# Evaluating arithmetic with roots
-/
namespace Symxx.Sym
open Symxx.Num

namespace Node
variable {env : FEnv} {B I : Nat} {ρ : List Char → ℝ}

/-- what evaluation makes of arithmetic with roots. -/
theorem ring_eval (hg : env.toEnv.Good B) (hB : 1 ≤ B) (hs : SortContract env) (hr : SortReturns env) (ht : Poly.SortTotal env)
    (ho : Frac.SortOne env) {e : Parser.Expr} {x V : ℝ} (he : RootRing env.M B I ρ e x V) :
    1 ≤ V ∧ (RT.Room B I V → ∃ (n : Node) (l : List RT), ofExpr env e = .ok n ∧ tryEval env n = .ok (some (RT.frac l)) ∧
      normalize env n = .ok (.frac (RT.frac l)) ∧ RT.Ring I V l ∧ RT.sum l = x ∧ l ≠ [] ∧
      (RT.nz l).Pairwise fun x y => y.grp < x.grp) := by
  have one : ∀ t : RT, (RT.nz [t]).Pairwise fun x y => y.grp < x.grp := fun t =>
    List.Pairwise.filter _ (List.pairwise_singleton _ _)
  have hM := hg.hM
  induction he with
  | @int e x A D V h hD hA hV =>
    refine ⟨hV, fun hv => ?_⟩
    obtain ⟨n, j, k, e1, e2, e3, k0, v, jA, kD, -, -, -⟩ := ratPart_eval hs.ok ht ho (hg.powOk hB) h
    have : k = 1 := by omega
    subst this
    have v' : x = RT.val ⟨1, 1, j⟩ := by rw [v]; simp [RT.val]
    refine ⟨n, [⟨1, 1, j⟩], e1, e2, e3, ⟨?_, ?_⟩, by rw [v']; simp [RT.sum], by simp, one _⟩
    · intro t ht
      rw [List.mem_singleton.1 ht]
      exact ⟨RT.simplest11, fun _ => rfl, one_dvd _⟩
    · rw [RT.bulk_cons, ← v']; simpa [RT.bulk] using ⟨hV, hA⟩
  | @root e x A J S D V h hD hJ hV =>
    obtain ⟨n, a, b, i, N, e1, e2, e3, a0, b0, sm, v, aA, bD, -, -, J0, -, iJ, NS, -, -⟩ := root_eval hs.ok ht ho hg hB h
    have : b = 1 := by omega
    subst this
    have v' : x = RT.val ⟨i, N, a⟩ := by rw [v]; simp [RT.val]
    have x1 : 1 ≤ |RT.val ⟨i, N, a⟩| := RT.one_le_val sm.1 a0.ne'
    have x0 : |RT.val ⟨i, N, a⟩| = RT.val ⟨i, N, a⟩ := abs_of_nonneg (by
      have : (0 : ℝ) ≤ a := by exact_mod_cast a0.le
      unfold RT.val; positivity)
    refine ⟨by rw [x0, ← v'] at x1; linarith, fun hv => ?_⟩
    refine ⟨n, [⟨i, N, a⟩], e1, e2, e3, ⟨?_, ?_⟩, by rw [v']; simp [RT.sum], by simp, one _⟩
    · intro t ht
      rw [List.mem_singleton.1 ht]
      exact ⟨sm, fun h => absurd h a0.ne', dvd_trans iJ hJ⟩
    · rw [RT.bulk_cons, max_eq_right x1, x0, ← v']; simpa [RT.bulk] using hV
  | @add a b x y V W ha hb iha ihb =>
    obtain ⟨V1, iha⟩ := iha
    obtain ⟨W1, ihb⟩ := ihb
    refine ⟨by linarith, fun hv => ?_⟩
    have hI53 : I ≤ 2 ^ 53 := le_trans (Nat.le_mul_self I) hv.idx
    obtain ⟨n, l, n1, n2, -, n4, n6, n7, -⟩ := iha (hv.mono (by linarith) (by linarith))
    obtain ⟨m, k, m1, m2, -, m4, m6, m7, -⟩ := ihb (hv.mono (by linarith) (by linarith))
    obtain ⟨r, r1, r2, r4, r5, r7, r6⟩ := RT.add_frac hg hB le_rfl hs hr ht hI53 (RT.ring_class hM hB hv) (n4.append m4) n7
    have r1 : fop env '+' (RT.frac l) (RT.frac k) = .ok (RT.frac r) := r1
    obtain ⟨t1, t2⟩ := fop_eval (c := '+') (by simp) n2 m2
    rw [r1] at t1 t2
    refine ⟨.op '+' n m, r, ?_, t1, t2, r2, by rw [r4, n6, m6], r5, r6⟩
    unfold ofExpr
    rw [n1, Res.bind_ok, m1, Res.bind_ok]
  | @sub a b x y V W ha hb iha ihb =>
    obtain ⟨V1, iha⟩ := iha
    obtain ⟨W1, ihb⟩ := ihb
    refine ⟨by linarith, fun hv => ?_⟩
    have hI53 : I ≤ 2 ^ 53 := le_trans (Nat.le_mul_self I) hv.idx
    have hw : RT.Room B I W := hv.mono (by linarith) (by linarith)
    obtain ⟨n, l, n1, n2, -, n4, n6, n7, -⟩ := iha (hv.mono (by linarith) (by linarith))
    obtain ⟨m, k, m1, m2, -, m4, m6, m7, -⟩ := ihb hw
    obtain ⟨r, r1, r2, r4, r5, r7, r6⟩ := RT.sub_frac hg hB le_rfl hs hr ht hI53 (RT.ring_class hM hB hv) (RT.ring_class hM hB hw)
      m4 m7 (fun k hk => n4.append hk) n7
    have r1 : fop env '-' (RT.frac l) (RT.frac k) = .ok (RT.frac r) := r1
    obtain ⟨t1, t2⟩ := fop_eval (c := '-') (by simp) n2 m2
    rw [r1] at t1 t2
    refine ⟨.op '-' n m, r, ?_, t1, t2, r2, by rw [r4, n6, m6], r5, r6⟩
    unfold ofExpr
    rw [n1, Res.bind_ok, m1, Res.bind_ok]
  | @mul a b x y V W ha hb iha ihb =>
    obtain ⟨V1, iha⟩ := iha
    obtain ⟨W1, ihb⟩ := ihb
    refine ⟨one_le_mul_of_one_le_of_one_le V1 W1, fun hv => ?_⟩
    have hu : RT.Room B I V := hv.mono (by linarith) (le_mul_of_one_le_right (by linarith) W1)
    have hw : RT.Room B I W := hv.mono (by linarith) (le_mul_of_one_le_left (by linarith) V1)
    obtain ⟨n, l, n1, n2, -, n4, n6, n7, -⟩ := iha hu
    obtain ⟨m, k, m1, m2, -, m4, m6, m7, -⟩ := ihb hw
    obtain ⟨r, r1, r2, r4, r5, r7, r6⟩ := RT.mul_frac hg hB hs hr ht hu hw hv n4 m4 n7 m7
    have r1 : fop env '*' (RT.frac l) (RT.frac k) = .ok (RT.frac r) := r1
    obtain ⟨t1, t2⟩ := fop_eval (c := '*') (by simp) n2 m2
    rw [r1] at t1 t2
    refine ⟨.op '*' n m, r, ?_, t1, t2, r2, by rw [r4, n6, m6], r5, r6⟩
    unfold ofExpr
    rw [n1, Res.bind_ok, m1, Res.bind_ok]
  | @pow a x V k ha h1 hk iha =>
    obtain ⟨V1, iha⟩ := iha
    have VV : V ≤ V ^ k := le_self_pow₀ V1 (by omega)
    refine ⟨one_le_pow₀ V1, fun hv => ?_⟩
    have hu : RT.Room B I V := hv.mono (by linarith) VV
    obtain ⟨n, l, n1, n2, -, n4, n6, n7, -⟩ := iha hu
    obtain ⟨r, r1, r2, r4, r5, r6⟩ := RT.pow_frac hg hB hs hr ht hk V1 hu hv n4 n7
    have hkM : (k : Int) ≤ env.M := by
      have : k ≤ 2 ^ 53 := le_trans k.self_le_factorial hk
      have : (k : Int) ≤ 2 ^ 53 := by exact_mod_cast this
      omega
    obtain ⟨t1, t2⟩ := pow_top (hg.powOk hB) hkM n2 rfl r1
    refine ⟨.op '^' n (.frac ⟨[Term.ofReal (Real.int k)], unitPoly⟩), r, ?_, t1, t2, r2, by rw [r4, n6], r5, r6⟩
    unfold ofExpr
    rw [n1, Res.bind_ok]
    unfold ofExpr
    rw [ofLeaf_const (hg.powOk hB) hs.ok ht (by rw [abs_of_nonneg (by positivity)]; exact hkM)]
    rfl

end Node
end Symxx.Sym
