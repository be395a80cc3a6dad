import Verif.Props.QuoPow
import Verif.Props.Calc
import Verif.Expr.RatSubst
/-!
# C99: calling a function with fractions
-/
namespace Symxx.Cli
open Symxx.Num Symxx.Sym Cmd

variable {E : CEnv} {B : Nat}

/-- the text is an integer or a fraction of two integers, as typed: nothing is cancelled. -/
def RatText (p : List Char) (q : Rational) : Prop :=
  '.' ∉ p ∧ ('/' ∉ p ∧ StartsWithNumeral p q.num ∧ q.den = 1 ∨
    ∃ s1 s2, p = s1 ++ '/' :: s2 ∧ '/' ∉ s1 ∧ StartsWithNumeral s1 q.num ∧ StartsWithNumeral s2 q.den)

/-- the texts between the commas are the fractions `qs`. -/
def RatArgs (inside : List Char) (qs : List Rational) : Prop := ∃ ps, Names inside ps ∧ List.Forall₂ RatText ps qs

/-- the sizes: `K` bounds the numerators and denominators of the arguments of a function with `m` parameters. -/
structure RatFits (M : Int) (e : Parser.Expr) (m : Nat) (K : Int) : Prop extends Fits M e m K where
  den : K ^ ((ringDeg e).toNat * m) ≤ M
  cross : ringSize e * K ^ ((ringDeg e).toNat * m) * K ^ ((ringDeg e).toNat * m) ≤ M

theorem ratArgs_args (h : E.f.toEnv.IntOk) {inside : List Char} {qs : List Rational} (ha : RatArgs inside qs)
    (hk : ∀ q ∈ qs, |q.num| ≤ E.f.M ∧ 0 < q.den ∧ q.den ≤ E.f.M) : Args E inside (qs.map Num.Real.ofRat) := by
  obtain ⟨ps, h1, h2⟩ := ha
  refine ⟨ps, h1, ?_⟩
  rw [List.forall₂_map_right_iff]
  clear h1
  have rng : ∀ k : Int, |k| ≤ E.f.M → InRange E.f.M k := fun k hk => by
    have := abs_le.1 hk
    unfold InRange; omega
  induction h2 with
  | nil => exact .nil
  | @cons p q ps qs hp _ ih =>
    obtain ⟨k1, k2, k3⟩ := hk q List.mem_cons_self
    refine .cons ⟨q, ?_, ?_⟩ (ih fun j hj => hk j (List.mem_cons_of_mem _ hj))
    · obtain ⟨dot, hp⟩ := hp
      rcases hp with ⟨q3, q1, q4⟩ | ⟨s1, s2, rfl, q2, q3, q4⟩
      · have hd : p.dropWhile (· ≠ '/') = [] := by
          apply List.dropWhile_eq_nil_iff.2
          intro c hc
          rw [decide_eq_true_eq]
          rintro rfl
          exact q3 hc
        unfold Rational.ofStr
        rw [if_neg dot, hd]
        simp only
        rw [stoll_spec _ _ _ q1, if_pos (rng _ k1)]
        show Res.ok _ = _
        rw [← q4]
      · have hall : ∀ c ∈ s1, (decide (c ≠ '/')) = true := by
          intro c hc
          simp only [ne_eq, decide_not, Bool.not_eq_eq_eq_not, Bool.not_true, decide_eq_false_iff_not]
          rintro rfl; exact q2 hc
        have e1 : (s1 ++ '/' :: s2).takeWhile (· ≠ '/') = s1 := by rw [List.takeWhile_append_of_pos hall]; simp
        have e2 : (s1 ++ '/' :: s2).dropWhile (· ≠ '/') = '/' :: s2 := by rw [List.dropWhile_append_of_pos hall]; simp
        unfold Rational.ofStr
        rw [if_neg dot, e1, e2]
        simp only [stoll_spec E.f.M s1 q.num q3, stoll_spec E.f.M s2 q.den q4, if_pos (rng _ k1),
          if_pos (rng q.den (by rwa [abs_of_pos k2])), Res.bind_ok, catchNum]
        rw [show decide (q.den ≠ 0) = true by simpa using k2.ne']
        rfl
    · unfold Real.ofRational Real.mk3
      rw [Rational.ofInt_eq _ _ (Real.abs1 h) h.hM, Res.bind_ok]
      exact Real.normalize_ofRat h ⟨k1, by rwa [abs_of_pos k2]⟩

theorem lookup_mapR (κ : List Char → Rational) {ps : List (List Char)} {x : List Char} (hx : x ∈ ps) :
    Term.lookup (ps.zip ((ps.map κ).map Num.Real.ofRat)).reverse x = some (Num.Real.ofRat (κ x)) := by
  have e : ps.zip ((ps.map κ).map Num.Real.ofRat) = ps.map fun p => (p, Num.Real.ofRat (κ p)) := by
    clear hx
    induction ps with
    | nil => rfl
    | cons p ps ih => simp only [List.map_cons, List.zip_cons_cons, ih]
  unfold Term.lookup
  cases hf : (ps.zip ((ps.map κ).map Num.Real.ofRat)).reverse.find? fun p => decide (p.1 = x) with
  | none =>
    rw [List.find?_eq_none] at hf
    have := hf (x, Num.Real.ofRat (κ x)) (by rw [List.mem_reverse, e]; exact List.mem_map.2 ⟨x, hx, rfl⟩)
    simp at this
  | some q =>
    have h1 := List.mem_of_find?_eq_some hf
    have h2 := List.find?_some hf
    rw [List.mem_reverse, e] at h1
    obtain ⟨p, -, rfl⟩ := List.mem_map.1 h1
    have h2 : p = x := by simpa using h2
    subst h2
    rfl

/-- what a call prints: a fraction in lowest terms over a positive denominator whose value is `v`; exactly if `v` is not an
integer, the quotient of its two parts as the floating point type computes it follows. -/
def PrintsRat (E : CEnv) (v : ℝ) (text : List Char) : Prop :=
  ∃ (j k : Int) (x y : E.LD), 0 < k ∧ Int.gcd j k = 1 ∧ v = j / k ∧
    text = quoText j k ++ (if k = 1 then [] else " = ".toList ++ E.showLD (E.flt.div x y)) ++ ['\n'] ∧
    ∀ (S : FltSem E.flt) (N : Int), S.Exact N → |j| ≤ N → k ≤ N → S.ld x = some (j : ℝ) ∧ S.ld y = some (k : ℝ)

/-- a function whose body is an expression over integers, symbols, `+`, `-`, `*` and natural powers: a call with fractions
prints the exact value of the body at these fractions, in lowest terms. -/
theorem C99_call (hg : E.f.toEnv.Good B) (hB : 1 ≤ B) (hs : SortOk E.f.sort) (ht : Poly.SortTotal E.f)
    (h1 : Frac.SortOne E.f) (hr : SortRat E.f)
    {name dline cline inside : List Char} {params : List (List Char)} {e : Parser.Expr} {κ : List Char → Rational} {K : Int}
    (hd : DefinesExpr E name dline params e) (he : IntRing e) (hv : ∀ x, .sym x ∈ e.leaves → x ∈ params)
    (hK : RatFits E.f.M e params.length K) (hc : Calls cline name inside) (ha : RatArgs inside (params.map κ))
    (hk : ∀ x ∈ params, |(κ x).num| ≤ K ∧ 0 < (κ x).den ∧ (κ x).den ≤ K) :
    ∃ fn v, Defines E name dline fn ∧ exprSem (fun x => ((κ x).num : ℝ) / (κ x).den) e = some v ∧
      ∀ s : St E, s.funcs.find name = some fn → ∃ text, PrintsRat E v text ∧ dispatch E cline s = (.ok false, s, text) := by
  have h := hg.powOk hB
  have hM53 := h.hM53
  obtain ⟨ins, blanks, txt, rfl, d2, d3, d4, d5, d6⟩ := hd
  obtain ⟨n, f, n1, n2, n3, n4, n5, hin, n6⟩ := Node.ring_sem (P := fun p => NatExp p ∧ p.1 ∈ params) hg hB hs ht he hK.powers
    hK.size (le_trans hK.deg hM53) fun x hx => ⟨⟨by norm_num, rfl⟩, hv x hx⟩
  have hd0 : 0 ≤ ringDeg e := by
    clear * -
    induction e with
    | leaf l => cases l <;> simp [ringDeg]
    | node c a b ia ib =>
      unfold ringDeg
      split
      · omega
      · split
        · exact mul_nonneg ia (le_trans zero_le_one (le_max_left _ _))
        · exact le_trans ia (le_max_left _ _)
  have hcard : params.toFinset.card ≤ params.length := List.toFinset_card_le _
  have K1 := hK.one
  have hpw : K ^ ((ringDeg e).toNat * params.toFinset.card) ≤ K ^ ((ringDeg e).toNat * params.length) :=
    pow_le_pow_right₀ K1 (Nat.mul_le_mul_left _ hcard)
  have hS : SubstRat (params.zip ((params.map κ).map Num.Real.ofRat)).reverse κ K (ringDeg e).toNat params.toFinset f.num := by
    refine ⟨fun t ht q hq => ?_, fun t ht => ?_, fun x hx => hk x (List.mem_toFinset.1 hx)⟩
    · obtain ⟨q1, q2⟩ := hin.1 t ht q hq
      refine ⟨lookup_mapR κ q2, List.mem_toFinset.2 q2, q1, ?_⟩
      rw [Int.toNat_of_nonneg hd0]
      exact le_trans (le_abs_self _) ((n4.num t ht).2.1 q hq).2
    · have hw := (n4.num t ht).2.2.1
      rw [List.nodup_iff_pairwise_ne, List.pairwise_map]
      exact hw.imp fun hlt => ne_of_lt hlt
  have hM : f.num.l1 * K ^ ((ringDeg e).toNat * params.toFinset.card) * K ^ ((ringDeg e).toNat * params.toFinset.card) ≤ E.f.M := by
    have l0 := Poly.l1_nonneg f.num
    have p0 : 0 ≤ K ^ ((ringDeg e).toNat * params.toFinset.card) := by positivity
    refine le_trans ?_ hK.cross
    exact mul_le_mul (mul_le_mul n5 hpw p0 (le_trans l0 n5)) hpw p0 (mul_nonneg (le_trans l0 n5) (le_trans p0 hpw))
  obtain ⟨j, k, r1, k0, g, hj, hk', r2⟩ := Frac.substitute_rat h hs ht h1 hr K1 hK.pow
    (by rw [Int.toNat_of_nonneg hd0]; exact hK.deg) n4 hS (le_trans hpw hK.den) hM
  have ak : |k| = k := abs_of_pos k0
  have key : ∀ s : St E, ∃ (x y : E.LD), printResult E (.frac (Frac.quo j k)) s =
      (.ok (), s, quoText j k ++ (if k = 1 then [] else " = ".toList ++ E.showLD (E.flt.div x y)) ++ ['\n']) ∧
      ∀ (S : FltSem E.flt) (N : Int), S.Exact N → |j| ≤ N → k ≤ N → S.ld x = some (j : ℝ) ∧ S.ld y = some (k : ℝ) := by
    intro s
    obtain ⟨b, x, y, p1, p2, p3⟩ := printResult_quo (E := E) h.toIntOk hj (by rwa [ak]) k0.ne' s
    refine ⟨x, y, ?_, fun S N hS hjN hkN => p3 S N hS hjN (by rwa [ak])⟩
    have : b = true ↔ k = 1 := by
      rw [p2 k0]
      constructor
      · intro hdvd
        have := (Int.gcd_eq_right_iff_dvd k0.le).2 hdvd
        rw [g] at this
        exact_mod_cast this.symm
      · rintro rfl
        exact one_dvd _
    rw [p1]
    by_cases hb : b = true
    · rw [if_pos hb, if_pos (this.1 hb)]
    · rw [if_neg hb, if_neg fun e => hb (this.2 e)]
  have hval : exprSem (fun x => ((κ x).num : ℝ) / (κ x).den) e = some ((j : ℝ) / k) := by
    have := exprSem_everywhere he (f := f) ⟨fun t ht p hp => (hin.1 t ht p hp).1, fun t ht p hp => (hin.2 t ht p hp).1⟩ n4.den n6
      fun x => ((κ x).num : ℝ) / (κ x).den
    rw [this, r2]
    unfold Frac.value
    rw [n4.den, unitPoly_value, div_one]
    simp [Rational.val]
  refine ⟨⟨params, .frac f⟩, (j : ℝ) / k, ⟨ins, blanks, txt, n, rfl, d2, d3, d4, d5, ?_, n3⟩, hval, fun s hf => ?_⟩
  · unfold Node.ofText
    rw [d6, Res.bind_ok, n1]
  · obtain ⟨x, y, p1, p2⟩ := key s
    refine ⟨_, ⟨j, k, x, y, k0, g, rfl, rfl, p2⟩, ?_⟩
    rw [dispatch_other (calls_word hc)]
    refine then_ok ?_
    rw [cmdOther_call hc hf, cmdCall_args hf (ratArgs_args h.toIntOk ha fun q hq => by
        obtain ⟨x, hx, rfl⟩ := List.mem_map.1 hq
        obtain ⟨a1, a2, a3⟩ := hk x hx
        exact ⟨le_trans a1 hK.arg, a2, le_trans a3 hK.arg⟩), if_pos (by simp)]
    simp only
    unfold Node.substitute
    rw [r1, Res.bind_ok, lift_bind]
    exact p1

/-- in a session: after the line that defines the function, as long as no later line redefines it, every call with fractions
prints the exact value of its body. -/
theorem C99_session (hg : E.f.toEnv.Good B) (hB : 1 ≤ B) (hs : SortOk E.f.sort) (ht : Poly.SortTotal E.f)
    (h1 : Frac.SortOne E.f) (hr : SortRat E.f) {input : List Char}
    {s : St E} {j n : Nat} (hrun : (mainloop E n s input).1 = .again) (hj : j < n)
    {name inside : List Char} {params : List (List Char)} {e : Parser.Expr} {κ : List Char → Rational} {K : Int}
    (hd : DefinesExpr E name (lineAt input j) params e) (hlast : ∀ i, j < i → i < n → ∀ fn, ¬ Defines E name (lineAt input i) fn)
    (he : IntRing e) (hv : ∀ x, .sym x ∈ e.leaves → x ∈ params) (hK : RatFits E.f.M e params.length K)
    (hc : Calls (lineAt input n) name inside) (ha : RatArgs inside (params.map κ))
    (hk : ∀ x ∈ params, |(κ x).num| ≤ K ∧ 0 < (κ x).den ∧ (κ x).den ≤ K) :
    ∃ v text, exprSem (fun x => ((κ x).num : ℝ) / (κ x).den) e = some v ∧ PrintsRat E v text ∧
      (mainloop E (n + 1) s input).1 = .again ∧ (mainloop E (n + 1) s input).2.st = (mainloop E n s input).2.st ∧
      (mainloop E (n + 1) s input).2.err = (mainloop E n s input).2.err ∧
      (mainloop E (n + 1) s input).2.out = (mainloop E n s input).2.out ++ "symxx> ".toList ++ text := by
  obtain ⟨fn, v, f1, f2, f3⟩ := C99_call hg hB hs ht h1 hr hd he hv hK hc ha hk
  obtain ⟨text, t1, t2⟩ := f3 _ (session_find hrun hj f1 hlast)
  refine ⟨v, text, f2, t1, ?_⟩
  rw [mainloop_succ hrun]
  have hl := mainloop_line hrun
  unfold iter
  simp only
  rw [hl, t2]
  exact ⟨rfl, rfl, rfl, rfl⟩

/-! ### a session -/

/-- `f` as in the example of C79, called with fractions. -/
def session99 : List Char := "func f(x,y) = (x-2*y)^3+x
1+1
f(-1/2,2/4)
".toList
def args99 (x : List Char) : Rational := if x = ['x'] then ⟨-1, 2⟩ else ⟨2, 4⟩
theorem session99_runs : (mainloop cenv64 2 start session99).1 = .again := by decide +kernel
theorem defines99 : DefinesExpr cenv64 ['f'] (lineAt session99 0) [['x'], ['y']] body79 :=
  ⟨"x,y".toList, [' '], " (x-2*y)^3+x".toList, by decide +kernel, by decide, by decide, by decide,
    splitParams_iff.1 (by decide), by decide +kernel⟩
theorem args99_ok : RatArgs "-1/2,2/4".toList ([['x'], ['y']].map args99) :=
  ⟨["-1/2".toList, "2/4".toList], splitParams_iff.1 (by decide),
    .cons ⟨by decide, .inr ⟨"-1".toList, "2".toList, by decide, by decide,
        ⟨[], ['1'], [], ['-'], true, by decide, by simp, by simp, by simp, by decide, by simp, by decide⟩,
        ⟨[], ['2'], [], [], false, by decide, by simp, by simp, by simp, by decide, by simp, by decide⟩⟩⟩
      (.cons ⟨by decide, .inr ⟨"2".toList, "4".toList, by decide, by decide,
        ⟨[], ['2'], [], [], false, by decide, by simp, by simp, by simp, by decide, by simp, by decide⟩,
        ⟨[], ['4'], [], [], false, by decide, by simp, by simp, by simp, by decide, by simp, by decide⟩⟩⟩ .nil)⟩
theorem fits99 : RatFits cenv64.f.M body79 2 4 :=
  ⟨⟨by decide +kernel, by decide +kernel, by simp [PowFits, body79, ringSize, expo, oneTerm, Nat.factorial], by norm_num,
    by decide +kernel, by decide +kernel, by decide +kernel⟩, by decide +kernel, by decide +kernel⟩
example := C99_session (E := cenv64) fenv64_good (by norm_num) fenv64_sort fenv64_total fenv64_one fenv64_rat session99_runs
    (j := 0) (by norm_num) defines99
    (fun i h1 h2 fn hD => by
      have : i = 1 := by omega
      subst this
      obtain ⟨b, hb⟩ := word_of_defines hD
      have := congrArg List.length hb
      have hl : (lineAt session99 1).length = 3 := by decide +kernel
      rw [hl] at this
      simp at this)
    (Or.inl ⟨Or.inl rfl, Or.inr ⟨rfl, Or.inl ⟨by simp, trivial, Or.inl ⟨by simp, rfl, trivial⟩⟩, 3, rfl⟩, trivial⟩)
    (by intro x hx; simp [body79, Parser.Expr.leaves] at hx; rcases hx with rfl | rfl | rfl <;> simp)
    fits99 (κ := args99) (inside := "-1/2,2/4".toList) ⟨[], by decide +kernel, by decide, by decide⟩ args99_ok
    (by intro x hx; simp at hx; rcases hx with rfl | rfl <;> decide)
/-- the output of that session. -/
theorem C99_example : (mainloop cenv64 3 start session99).2.out = ("symxx\nsymxx> Function: f(x,y) = " ++
    "-8(y**3)+(x**3)-6(x**2)y+12x(y**2)+x\nsymxx> 2\nsymxx> -31/8 = -3.875\n").toList := by
  decide +kernel

/-- beyond the hypotheses. A fraction with a negative denominator as argument: the value is right but is printed as a chain of
quotients (F61); a denominator 0 is reported. -/
theorem C99_sign : (mainloop cenv64 3 start "func f(x) = x\nf(1/-3)\nf(1/0)\n".toList).2.out = ("symxx\nsymxx> Function: f(x) = x" ++
    "\nsymxx> -1/-1/-3 = -0.333333\nsymxx> ").toList ∧
    (mainloop cenv64 3 start "func f(x) = x\nf(1/-3)\nf(1/0)\n".toList).2.err ≠ [] := by
  decide +kernel

end Symxx.Cli
