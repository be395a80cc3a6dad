import Verif.Cli.Surd
import Verif.Expr.RootEval
/-!
# The printed root as a line
-/
namespace Symxx.Sym
open Symxx.Num Symxx.Parser

/-- a root in its simplest form is determined by its value. -/
theorem surd_unique {a b a' b' : Int} {i N i' N' : Nat} (a0 : 0 < a) (b0 : 0 < b) (g : Int.gcd a b = 1) (sm : Simplest N i)
    (a0' : 0 < a') (b0' : 0 < b') (g' : Int.gcd a' b' = 1) (sm' : Simplest N' i')
    (hv : (a : ℝ) / b * (N : ℝ) ^ ((1 : ℝ) / i) = (a' : ℝ) / b' * (N' : ℝ) ^ ((1 : ℝ) / i')) :
    a = a' ∧ b = b' ∧ i = i' ∧ N = N' := by
  have c1 : Num.Real.Canon ⟨i, ⟨N, 1⟩, ⟨a, b⟩⟩ := ⟨N, rfl, sm, b0.ne', fun h => absurd h a0.ne'⟩
  have c2 : Num.Real.Canon ⟨i', ⟨N', 1⟩, ⟨a', b'⟩⟩ := ⟨N', rfl, sm', b0'.ne', fun h => absurd h a0'.ne'⟩
  have hval : ∀ (a b : Int) (i N : Nat), Num.Real.val ⟨i, ⟨N, 1⟩, ⟨a, b⟩⟩ = (a : ℝ) / b * (N : ℝ) ^ ((1 : ℝ) / i) := by
    intro a b i N
    have v := Num.Real.val_mk i N 1 ⟨a, b⟩
    simp only [Nat.cast_one, div_one] at v
    rw [v]
    simp [Rational.val]
  obtain ⟨u1, u2, u3⟩ := (Num.Real.canon_unique c1 c2).1 (by rw [hval, hval, hv])
  have u1 : (⟨a, b⟩ : Rational) = ⟨a', b'⟩ := Rational.ext_lowest b0 b0' g g' u1
  have eN : (N : Int) = N' := congrArg Rational.num u2
  exact ⟨congrArg Rational.num u1, congrArg Rational.den u1, u3, by exact_mod_cast eN⟩

theorem simplest_one_one : Simplest 1 1 := by
  refine ⟨one_pos, one_pos, fun m hm hd => ?_, fun m d _ h2 => Nat.dvd_one.1 h2⟩
  have := Nat.le_of_dvd one_pos hd
  rw [pow_one] at this
  omega

theorem simplest_index {N i : Nat} (h : Simplest N i) (hN : N ≠ 1) : 1 < i := by
  have h0 := h.2.1
  have h1 := h.1
  rcases Nat.lt_or_ge 1 i with h' | h'
  · exact h'
  · exfalso
    have : i = 1 := by omega
    subst this
    exact h.2.2.1 N (by omega) (by simp)

/-! ### reading it -/

/-- `_n/q` is read as `q^(1/n)`. -/
theorem JuxtQ.root {M : Int} (k : Nat) (hk : 1 < k) (hkM : (k : Int) ≤ M) (q : Nat) (hqM : (q : Int) ≤ M) :
    JuxtQ M ((if k ≠ 2 then ['_'] ++ (toString k).toList ++ ['/'] else ['_', '/']) ++ (toString (q : Int)).toList)
      (· = .node '^' (.leaf (.num ⟨q, 1⟩)) (.leaf (.num ⟨1, k⟩))) := by
  obtain ⟨hDq, hvq⟩ := spell_numeral (M := M) (q := ⟨q, 1⟩) ⟨by simp, hqM, rfl⟩
  obtain ⟨hDk, hvk⟩ := spell_numeral (M := M) (q := ⟨k, 1⟩) ⟨by simp, hkM, rfl⟩
  simp only at hDq hvq hDk hvk
  have hks : (toString k).toList = (toString (k : Int)).toList := rfl
  refine ⟨[.radical ⟨1, k⟩, .digit ⟨q, 1⟩], [.lparen, .digit ⟨q, 1⟩, .op '^', .digit ⟨1, k⟩, .rparen], .rparen,
    .node '^' (.leaf (.num ⟨q, 1⟩)) (.leaf (.num ⟨1, k⟩)), ?_, ?_, ?_, rfl, ?_, ?_, ?_, rfl⟩
  · intro w z rest hz hl
    have h1 := LexPre.num (M := M) hDq (by rw [hvq]; exact hqM) hz hl
    rw [hvq] at h1
    split
    · have := LexPre.root hDk (by rw [hvk]; omega) (by rw [hvk]; exact hkM) h1
      rw [hvk] at this
      rw [hks]
      simpa using this
    · rename_i h2
      rw [not_not] at h2
      subst h2
      have := LexPre.sqrt h1
      simpa using this
  · intro z
    split <;> simp
  · intro z
    split <;> exact .cons (by decide) (by decide)
  · rintro prev rest (rfl | rfl | ⟨c, rfl⟩) <;> simp [expand, glue]
  · intro prev rest hp
    cases prev <;> first | (simp [expand, glue]; done) | (simp [Tok.endsOperand] at hp)
  · exact Derives.paren (ts := [.digit ⟨q, 1⟩, .op '^', .digit ⟨1, k⟩])
      ((Derives.bin (ts := [.digit ⟨q, 1⟩]) .power ((Derives.num _).down (by omega) (by omega)) (.num _)).down (by omega) (by omega))

/-- the tree of the text of a root other than 1. -/
def surdExpr (a : Int) (i N : Nat) (b : Int) : Expr :=
  let r : Expr := .node '^' (.leaf (.num ⟨N, 1⟩)) (.leaf (.num ⟨1, i⟩))
  let t : Expr := if a = 1 then r else .node '*' (.leaf (.num ⟨a, 1⟩)) r
  if b = 1 then t else .node '/' t (.leaf (.num ⟨b, 1⟩))

theorem surd_parse {M : Int} (hM : 2 ≤ M) (dec) {a b : Int} {i N : Nat} (a0 : 0 < a) (haM : a ≤ M) (b0 : 0 < b) (hbM : b ≤ M)
    (hi : 1 < i) (hiM : (i : Int) ≤ M) (hN : N ≠ 1) (hNM : (N : Int) ≤ M) :
    Parser.parse M dec (Cli.surdText a i N b) = .ok (surdExpr a i N b) := by
  have key : ∀ {s : List Char} {b : Bool} {x : Expr}, ReadsQ M b 1 s (· = x) → Parser.parse M dec s = .ok x := by
    intro s b x h
    obtain ⟨e, h1, rfl⟩ := h.parse hM dec
    exact h1
  have er : ((if i ≠ 2 then ['_'] ++ (toString i).toList ++ ['/'] else ['_', '/']) ++ (toString (N : Int)).toList) =
      '_' :: ((if i = 2 then [] else (toString i).toList) ++ '/' :: (toString N).toList) := by
    have : (toString (N : Int)).toList = (toString N).toList := rfl
    rw [this]
    by_cases h2 : i = 2 <;> simp [h2]
  have rt := JuxtQ.root (M := M) i hi hiM N hNM
  rw [er] at rt
  have r1 : ReadsQ M false 2 ((if a = 1 then [] else (toString a).toList) ++
      '_' :: ((if i = 2 then [] else (toString i).toList) ++ '/' :: (toString N).toList))
      (· = (if a = 1 then .node '^' (.leaf (.num ⟨N, 1⟩)) (.leaf (.num ⟨1, i⟩)) else
        .node '*' (.leaf (.num ⟨a, 1⟩)) (.node '^' (.leaf (.num ⟨N, 1⟩)) (.leaf (.num ⟨1, i⟩))))) := by
    by_cases h1 : a = 1
    · rw [if_pos h1, if_pos h1, List.nil_append]
      exact rt.reads.down (by omega) (by omega)
    · rw [if_neg h1, if_neg h1]
      exact ((ReadsQ.num a a0.le haM).down (by omega) (by omega)).juxt rt (by rintro _ _ rfl rfl; rfl)
  unfold Cli.surdText surdExpr
  rw [if_neg hN]
  dsimp only
  by_cases hb : b = 1
  · rw [if_pos hb, if_pos hb, List.append_nil]
    exact key (r1.down (by omega) (by omega))
  · rw [if_neg hb, if_neg hb]
    exact key ((ReadsQ.bin .divide r1 ((ReadsQ.num b b0.le hbM).down (by omega) (by omega))
      (by rintro _ _ rfl rfl; rfl)).down (by omega) (by omega))

/-! ### evaluating it -/

theorem surd_again {env : FEnv} {B : Nat} (hg : env.toEnv.Good B) (hB : 1 ≤ B) (hs : SortOk env.sort) (ht : Poly.SortTotal env)
    (ho : Frac.SortOne env) (dec) {a b : Int} {i N : Nat} (a0 : 0 < a) (haM : a ≤ env.M) (b0 : 0 < b) (hbM : b ≤ env.M)
    (g : Int.gcd a b = 1) (sm : Simplest N i) (hi : i ≤ 2 ^ 53) (hN : N ≤ B) :
    ∃ n, Node.ofText env dec (Cli.surdText a i N b) = .ok n ∧ Node.normalize env n = .ok (.frac (Frac.surd a i N b)) := by
  have hp := hg.powOk hB
  have h := hp.toIntOk
  have hM2 : 2 ≤ env.M := le_trans (by norm_num) hg.hM
  by_cases hN1 : N = 1
  · subst hN1
    have hi1 : i = 1 := sm.2.2.2 1 i (by simp) dvd_rfl
    subst hi1
    rw [Cli.surdText_quo]
    obtain ⟨n, e1, e2⟩ := quo_again hp hs ht hM2 dec (by rwa [abs_of_pos a0]) hbM b0
    refine ⟨n, e1, ?_⟩
    rw [e2]
    show _ = Res.ok (Node.frac (Frac.quo a b))
    unfold Frac.red
    rw [g]
    simp
  · have i1 := simplest_index sm hN1
    have iM : (i : Int) ≤ env.M := le_trans (by exact_mod_cast hi) hg.hM
    have NM : (N : Int) ≤ env.M := hg.leM hN
    have leaf : ∀ n : Int, |n| ≤ env.M → Node.ofExpr env (.leaf (.num ⟨n, 1⟩)) = .ok (.frac (Frac.quo n 1)) := by
      intro n hn
      unfold Node.ofExpr
      rw [Node.ofLeaf_const hp hs ht hn]
      rfl
    have li : Node.ofExpr env (.leaf (.num ⟨1, i⟩)) = .ok (.frac (Frac.quo 1 i)) := by
      have e := Node.ofLeaf_num h hs ho (p := 1) (q := i) ⟨by simpa using h.hM, by simpa using iM⟩ (by omega)
        (by simp [Rational.Lowest])
      unfold Node.ofExpr
      rw [e]
      rfl
    have ev : ∀ f : Frac, Node.tryEval env (.frac f) = .ok (some f) := fun _ => rfl
    have aN : |(N : Int)| ≤ env.M := by rwa [abs_of_nonneg (by positivity)]
    -- the root
    obtain ⟨y, z, j, K, e1, y0, z0, gg, sm', vv, -⟩ := Frac.pow_quo_surd' hs ht ho hg hB (j := N) (k := 1) (n := N) (d := 1) (m := 1) (q := i)
      aN h.hM one_pos (by simp) sm.1 one_pos (by simp) one_pos sm.2.1 (by simp) (by norm_num) hi (by simpa using hN) (by simpa using hB)
    obtain ⟨rfl, rfl, rfl, rfl⟩ := surd_unique y0 z0 gg sm' one_pos one_pos (by simp) sm (by rw [vv]; simp)
    have hv : ((1 : Int) : ℝ) / ((j : Int) : ℝ) = ((1 : Nat) : ℝ) / (j : ℝ) := by simp
    have rn := Node.root_top (l := .frac (Frac.quo K 1)) (r := .frac (Frac.quo 1 j)) h (p := 1) (s := j) (m := 1) (q := j) (by simpa using h.hM) iM
      (by omega) sm.2.1 (by simp) hv (ev _) (ev _) e1
    have rt := Node.root_top_try (l := .frac (Frac.quo K 1)) (r := .frac (Frac.quo 1 j)) h (p := 1) (s := j) (m := 1) (q := j) (by simpa using h.hM) iM
      (by omega) sm.2.1 (by simp) hv (ev _) (ev _) e1
    -- the product
    obtain ⟨t, t1, t2, t3⟩ : ∃ t, Node.ofExpr env (if a = 1 then .node '^' (.leaf (.num ⟨K, 1⟩)) (.leaf (.num ⟨1, j⟩)) else
        .node '*' (.leaf (.num ⟨a, 1⟩)) (.node '^' (.leaf (.num ⟨K, 1⟩)) (.leaf (.num ⟨1, j⟩)))) = .ok t ∧
        Node.tryEval env t = .ok (some (Frac.surd a j K 1)) ∧ Node.normalize env t = .ok (.frac (Frac.surd a j K 1)) := by
      have ro : Node.ofExpr env (.node '^' (.leaf (.num ⟨K, 1⟩)) (.leaf (.num ⟨1, j⟩))) =
          .ok (.op '^' (.frac (Frac.quo K 1)) (.frac (Frac.quo 1 j))) := by
        unfold Node.ofExpr
        rw [leaf K aN, Res.bind_ok, li, Res.bind_ok]
      by_cases ha1 : a = 1
      · rw [if_pos ha1, ha1]
        exact ⟨_, ro, rt, rn⟩
      · rw [if_neg ha1]
        have o1 : Real.outer j K = 1 := by
          have := Real.outer_pow_simplest sm (e := 1) one_pos
          simpa using this
        have ej : K ^ (j / j) = K := by rw [Nat.div_self sm.2.1, pow_one]
        obtain ⟨A, D, i', N', f1, f2, f3, f4, f5, f6, f7, -, -, f8⟩ := Frac.mul_surd hs ht ho hg hB simplest_one_one sm (a := a) (b := 1) (c := 1) (d := 1)
          a0 one_pos one_pos one_pos (by rw [Nat.lcm_one_left]; exact hi) (by rw [Nat.lcm_one_left, ej]; simpa using hN)
          (by rw [Nat.lcm_one_left, ej, one_pow, one_mul, o1]; simpa using haM) (by simpa using h.hM)
        obtain ⟨rfl, rfl, rfl, rfl⟩ := surd_unique f3 f4 f5 f2 a0 one_pos (by simp) sm (by rw [f8]; simp)
        have f1 : Node.fop env '*' (Frac.quo A 1) (Frac.surd 1 i' N' 1) = .ok (Frac.surd A i' N' 1) := f1
        obtain ⟨x1, x2⟩ := Node.fop_eval (c := '*') (by simp) (ev (Frac.quo A 1)) rt
        rw [f1] at x1 x2
        refine ⟨_, ?_, x1, x2⟩
        conv_lhs => unfold Node.ofExpr
        rw [leaf A (by rwa [abs_of_pos a0]), Res.bind_ok, ro, Res.bind_ok]
    unfold Node.ofText
    rw [surd_parse hM2 dec a0 haM b0 hbM i1 iM hN1 NM, Res.bind_ok]
    unfold surdExpr
    dsimp only
    by_cases hb1 : b = 1
    · rw [if_pos hb1, hb1]
      exact ⟨t, t1, t3⟩
    · rw [if_neg hb1]
      obtain ⟨A, D, f1, f3, f4, f5, -, -, f8⟩ := Frac.div_surd hs ht ho hg hB sm hi hN (a := a) (b := 1) (p := b) (q := 1) a0 one_pos b0 one_pos
        (by simpa using haM) (by simpa using hbM)
      obtain ⟨rfl, rfl, -, -⟩ := surd_unique f3 f4 f5 sm a0 b0 g sm (by rw [f8]; simp; ring)
      have f1 : Node.fop env '/' (Frac.surd A j K 1) (Frac.quo D 1) = .ok (Frac.surd A j K D) := f1
      obtain ⟨-, x2⟩ := Node.fop_eval (c := '/') (by simp) t2 (ev (Frac.quo D 1))
      rw [f1] at x2
      refine ⟨_, ?_, x2⟩
      conv_lhs => unfold Node.ofExpr
      rw [t1, Res.bind_ok, leaf D (by rwa [abs_of_pos b0]), Res.bind_ok]

end Symxx.Sym

namespace Symxx.Cli
open Symxx.Num Symxx.Sym Cmd

variable {E : CEnv}

/-- the text of a root is neither a command nor a call. -/
theorem surd_isExpr (s : St E) (a : Int) (i N : Nat) (b : Int) : IsExpr s (surdText a i N b) := by
  by_cases hN : N = 1
  · subst hN; rw [surdText_quo]; exact quo_isExpr s a b
  have noparen : ∀ z : Int, '(' ∉ (toString z).toList := by
    intro z h
    rcases mem_toString_int h with h | h
    · revert h; decide
    · revert h; decide
  have noparen' : ∀ z : Nat, '(' ∉ (toString z).toList := fun z => noparen z
  have nop : '(' ∉ surdText a i N b := by
    intro hc
    unfold surdText at hc
    simp only [List.mem_append] at hc
    rcases hc with hc | hc
    · split at hc
      · exact noparen _ hc
      · simp only [List.mem_append, List.mem_cons] at hc
        rcases hc with hc | hc | hc | hc | hc
        · split at hc
          · cases hc
          · exact noparen _ hc
        · revert hc; decide
        · split at hc
          · cases hc
          · exact noparen' _ hc
        · revert hc; decide
        · exact noparen' _ hc
    · split at hc
      · cases hc
      · rcases List.mem_cons.1 hc with hc | hc
        · revert hc; decide
        · exact noparen _ hc
  refine ⟨lead_word ?_, ?_⟩
  · have : lead (surdText a i N b) = [] := by
      unfold surdText
      rw [if_neg hN]
      split
      · rfl
      · rw [List.append_assoc]
        exact toString_lead a _
    rw [this]
    exact List.Pairwise.nil
  · rintro name inside ⟨r, h1, -⟩
    exact absurd ((List.takeWhile_prefix _).subset (by
      rw [show List.takeWhile (· ≠ ' ') (surdText a i N b) = word (surdText a i N b) from rfl, h1]; simp)) nop

end Symxx.Cli
