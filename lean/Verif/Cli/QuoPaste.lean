import Verif.Cli.Quo
import Verif.Cli.NoWord
/-!
# The printed fraction as a line
-/
namespace Symxx.Sym
open Symxx.Num Symxx.Parser

/-! ### reading it -/

theorem quo_parse {M : Int} (hM : 2 ≤ M) (dec) {j k : Int} (hj : |j| ≤ M) (hk : k ≤ M) (hk0 : 0 < k) :
    Parser.parse M dec (quoText j k) = .ok (
      if k = 1 then if 0 ≤ j then .leaf (.num ⟨j, 1⟩) else .node '-' (.leaf (.num ⟨0, 1⟩)) (.leaf (.num ⟨-j, 1⟩))
      else if 0 ≤ j then .node '/' (.leaf (.num ⟨j, 1⟩)) (.leaf (.num ⟨k, 1⟩))
      else .node '-' (.leaf (.num ⟨0, 1⟩)) (.node '/' (.leaf (.num ⟨-j, 1⟩)) (.leaf (.num ⟨k, 1⟩)))) := by
  obtain ⟨j1, j2⟩ := abs_le.1 hj
  have key : ∀ {s : List Char} {b : Bool} {x : Expr}, ReadsQ M b 1 s (· = x) → Parser.parse M dec s = .ok x := by
    intro s b x h
    obtain ⟨e, h1, rfl⟩ := h.parse hM dec
    exact h1
  have quot : ∀ j : Int, 0 ≤ j → j ≤ M → ReadsQ M false 2 ((toString j).toList ++ '/' :: (toString k).toList)
      (· = .node '/' (.leaf (.num ⟨j, 1⟩)) (.leaf (.num ⟨k, 1⟩))) := fun j h0 h1 =>
    ReadsQ.bin .divide ((ReadsQ.num j h0 h1).down (by omega) (by omega)) ((ReadsQ.num k hk0.le hk).down (by omega) (by omega))
      (by rintro _ _ rfl rfl; rfl)
  unfold quoText
  by_cases hk1 : k = 1
  · rw [if_pos hk1, if_pos hk1]
    by_cases h0 : 0 ≤ j
    · rw [if_pos h0]
      exact key ((ReadsQ.num j h0 j2).down (by omega) (by omega))
    · rw [if_neg h0, toString_neg j (by omega)]
      exact key (((ReadsQ.num (-j) (by omega) (by omega)).down (by omega) (by omega)).neg (by rintro _ rfl; rfl))
  · rw [if_neg hk1, if_neg hk1, List.append_assoc, List.singleton_append]
    by_cases h0 : 0 ≤ j
    · rw [if_pos h0]
      exact key ((quot j h0 j2).down (by omega) (by omega))
    · rw [if_neg h0, toString_neg j (by omega), List.cons_append]
      exact key ((quot (-j) (by omega) (by omega)).neg (by rintro _ rfl; rfl))

theorem quo_refused {M : Int} (hM : 2 ≤ M) (dec) {j k : Int} (hj : |j| ≤ M) (hk : |k| ≤ M) (hk0 : k < 0) :
    Parser.parse M dec (quoText j k) = .throw "Invaild string." := by
  obtain ⟨j1, j2⟩ := abs_le.1 hj
  obtain ⟨k1, k2⟩ := abs_le.1 hk
  have lexNum : ∀ (n : Int) (h0 : 0 ≤ n) (h1 : n ≤ M) {z : List Char} {rest : List Tok}, EndsNumber z → LexPre M [] z rest →
      LexPre M [] ((toString n).toList ++ z) (.digit ⟨n, 1⟩ :: rest) := by
    intro n h0 h1 z rest hz hl
    obtain ⟨hD, hv⟩ := spell_numeral (M := M) (q := ⟨n, 1⟩) ⟨h0, h1, rfl⟩
    simp only at hD hv
    have := LexPre.num (M := M) hD (by rw [hv]; exact h1) hz hl
    rwa [hv] at this
  have l1 : LexPre M [] (toString (-k)).toList [.digit ⟨-k, 1⟩] := by
    have := lexNum (-k) (by omega) (by omega) (z := []) (rest := []) (by intro c hc; simp at hc) .nil
    simpa using this
  have l2 : LexPre M [] ('/' :: (toString k).toList) [.op '/', .op '-', .digit ⟨-k, 1⟩] := by
    rw [toString_neg k hk0]
    exact .op (by simp) (by simp) (.op (by simp) (by simp) l1)
  have ends : EndsNumber ('/' :: (toString k).toList) := .cons (by decide) (by decide)
  unfold quoText
  rw [if_neg (by omega), List.append_assoc, List.singleton_append]
  by_cases h0 : 0 ≤ j
  · rw [parse_lex M hM dec (lexNum j h0 j2 ends l2) (us := [.digit ⟨j, 1⟩, .op '/', .op '-', .digit ⟨-k, 1⟩]) rfl]
    rfl
  · rw [toString_neg j (by omega), List.cons_append, parse_lex M hM dec
      (.op (c := '-') (by simp) (by simp) (lexNum (-j) (by omega) (by omega) ends l2))
      (us := [.digit ⟨0, 1⟩, .op '-', .digit ⟨-j, 1⟩, .op '/', .op '-', .digit ⟨-k, 1⟩]) rfl]
    rfl

/-! ### evaluating it -/

theorem quo_again {env : FEnv} (h : env.toEnv.PowOk) (hs : SortOk env.sort) (ht : Poly.SortTotal env) (hM : 2 ≤ env.M) (dec)
    {j k : Int} (hj : |j| ≤ env.M) (hk : k ≤ env.M) (hk0 : 0 < k) :
    ∃ n, Node.ofText env dec (quoText j k) = .ok n ∧ Node.normalize env n = .ok (.frac (Frac.red j k)) := by
  have h' := h.toIntOk
  have leaf : ∀ n : Int, |n| ≤ env.M → Node.ofExpr env (.leaf (.num ⟨n, 1⟩)) = .ok (.frac (Frac.quo n 1)) := by
    intro n hn
    unfold Node.ofExpr
    rw [Node.ofLeaf_const h hs ht hn]
    rfl
  have ev : ∀ j k : Int, Node.tryEval env (.frac (Frac.quo j k)) = .ok (some (Frac.quo j k)) := fun _ _ => rfl
  have a1 : |(1 : Int)| ≤ env.M := by simpa using h'.hM
  have a0 : |(0 : Int)| ≤ env.M := Real.abs0 h'
  have ak : |k| ≤ env.M := by rwa [abs_of_pos hk0]
  have red1 : ∀ n : Int, Frac.red n 1 = Frac.quo n 1 := fun n => by simp [Frac.red]
  unfold Node.ofText
  rw [quo_parse hM dec hj hk hk0, Res.bind_ok]
  by_cases hk1 : k = 1
  · rw [if_pos hk1, hk1, red1]
    by_cases h0 : 0 ≤ j
    · rw [if_pos h0]
      exact ⟨_, leaf j hj, rfl⟩
    · rw [if_neg h0]
      have an : |-j| ≤ env.M := by rwa [abs_neg]
      refine ⟨.op '-' (.frac (Frac.quo 0 1)) (.frac (Frac.quo (-j) 1)), ?_, ?_⟩
      · unfold Node.ofExpr
        rw [leaf 0 a0, Res.bind_ok, leaf (-j) an, Res.bind_ok]
      · rw [(Node.fop_eval (by simp) (ev _ _) (ev _ _)).2]
        have : Node.fop env '-' (Frac.quo 0 1) (Frac.quo (-j) 1) = .ok (Frac.quo j 1) := by
          show Frac.sub env _ _ = _
          unfold Frac.sub
          rw [Frac.negate_quo h' hs ht an a1 one_ne_zero, Res.bind_ok, neg_neg, red1,
            Frac.add_quo h' hs ht a0 a1 hj a1 one_ne_zero one_ne_zero (by simpa using hj) (by simpa using h'.hM), if_pos rfl, zero_add]
        rw [this]; rfl
  · have quot : ∀ j : Int, |j| ≤ env.M → Node.ofExpr env (.node '/' (.leaf (.num ⟨j, 1⟩)) (.leaf (.num ⟨k, 1⟩))) =
        .ok (.op '/' (.frac (Frac.quo j 1)) (.frac (Frac.quo k 1))) ∧
        Node.fop env '/' (Frac.quo j 1) (Frac.quo k 1) = .ok (Frac.red j k) := by
      intro j hj
      constructor
      · unfold Node.ofExpr
        rw [leaf j hj, Res.bind_ok, leaf k ak, Res.bind_ok]
      · show Frac.div env _ _ = _
        rw [Frac.div_quo h' hs ht hj a1 ak a1 one_ne_zero (by simpa using hj) (by simpa using ak), if_neg hk0.ne', mul_one, one_mul]
    rw [if_neg hk1]
    by_cases h0 : 0 ≤ j
    · rw [if_pos h0]
      refine ⟨_, (quot j hj).1, ?_⟩
      rw [(Node.fop_eval (by simp) (ev _ _) (ev _ _)).2, (quot j hj).2]
      rfl
    · rw [if_neg h0]
      have an : |-j| ≤ env.M := by rwa [abs_neg]
      have ein : Node.tryEval env (.op '/' (.frac (Frac.quo (-j) 1)) (.frac (Frac.quo k 1))) = .ok (some (Frac.red (-j) k)) := by
        rw [(Node.fop_eval (by simp) (ev _ _) (ev _ _)).1, (quot (-j) an).2]
        rfl
      refine ⟨.op '-' (.frac (Frac.quo 0 1)) (.op '/' (.frac (Frac.quo (-j) 1)) (.frac (Frac.quo k 1))), ?_, ?_⟩
      · conv_lhs => unfold Node.ofExpr
        rw [leaf 0 a0, Res.bind_ok, (quot (-j) an).1, Res.bind_ok]
      · rw [(Node.fop_eval (by simp) (ev _ _) ein).2]
        obtain ⟨r1, r2, r3, r4, r5⟩ := Frac.red_facts (n := j) hk0.ne'
        have e : Frac.red (-j) k = Frac.quo (-(j / (Int.gcd j k : Int))) (k / (Int.gcd j k : Int)) := by
          unfold Frac.red
          rw [Int.neg_gcd, Int.neg_ediv_of_dvd (Int.gcd_dvd_left j k)]
        have e' : Frac.red j k = Frac.quo (j / (Int.gcd j k : Int)) (k / (Int.gcd j k : Int)) := rfl
        rw [e, e']
        generalize j / (Int.gcd j k : Int) = a at *
        generalize k / (Int.gcd j k : Int) = b at *
        have lo : Frac.red a b = Frac.quo a b := by simp [Frac.red, r5]
        have aa : |a| ≤ env.M := le_trans r2 hj
        have ab : |b| ≤ env.M := le_trans r3 ak
        have : Node.fop env '-' (Frac.quo 0 1) (Frac.quo (-a) b) = .ok (Frac.quo a b) := by
          show Frac.sub env _ _ = _
          unfold Frac.sub
          rw [Frac.negate_quo h' hs ht (by rwa [abs_neg]) ab r1, Res.bind_ok, neg_neg, lo,
            Frac.add_quo h' hs ht a0 a1 aa ab one_ne_zero r1 (by simpa using aa) (by simpa using ab)]
          simp only [zero_mul, zero_add, mul_one, one_mul, lo]
          split
          · rename_i e; rw [e]
          · rfl
        rw [this]; rfl

end Symxx.Sym

namespace Symxx.Cli
open Symxx.Num Symxx.Sym Cmd

variable {E : CEnv}

/-- the text of a fraction is neither a command nor a call. -/
theorem quo_isExpr (s : St E) (j k : Int) : IsExpr s (quoText j k) := by
  have nop : '(' ∉ quoText j k := by
    have noparen : ∀ z : Int, '(' ∉ (toString z).toList := by
      intro z h
      rcases mem_toString_int h with h | h
      · revert h; decide
      · revert h; decide
    unfold quoText
    split
    · exact noparen j
    · simp only [List.append_assoc, List.mem_append, List.mem_singleton, not_or]
      exact ⟨noparen j, by decide, noparen k⟩
  refine ⟨lead_word ?_, ?_⟩
  · have : lead (quoText j k) = [] := by
      unfold quoText
      split
      · have := toString_lead j []
        rwa [List.append_nil] at this
      · rw [List.append_assoc]
        exact toString_lead j _
    rw [this]
    exact List.Pairwise.nil
  · rintro name inside ⟨r, h1, -⟩
    exact absurd ((List.takeWhile_prefix _).subset (by rw [show List.takeWhile (· ≠ ' ') (quoText j k) = word (quoText j k) from rfl, h1]; simp)) nop

theorem line_shown {line : List Char} {s : St E} (h : IsExpr s line) {n m : Node} (h1 : Node.ofText E.f E.dec line = .ok n)
    (h2 : Node.normalize E.f n = .ok m) : dispatch E line s = (do printResult E m; Cmd.pure false : Cmd E Bool) s := by
  rw [dispatch_other h.1, bind_def, bind_def, cmdOther_expr h.2]
  unfold cmdNormalize parseNormal
  rw [lift_bind, h1, Res.bind_ok, h2]

end Symxx.Cli
