import Verif.Cli.SumShow
import Verif.Frac.SurdRing
import Verif.Props.RootMul
import Verif.Props.Collect
/-!
# C104: sums and differences of roots in a session

`RootSum M B I R ρ e x L` (`Verif/Expr/SumSpec.lean`): `e` is built with `+` and `-` from products of roots of integers and from integers, and
has the value `x`; all indices are at most `I`, all radicands at most `R`, the integers before the roots add up to at most `L`.
`RT` (`Verif/Frac/SurdSum.lean`): a term `a N^(1/i)`, `RT.sum` the value of a list of them. `Simplest N i`: `N` is divisible by no `i`-th power, and
is no `d`-th power for a divisor `d` of `i` (`Verif/Num/RealSpec.lean`). `sumText` (`Verif/Cli/SumShow.lean`): the terms `a_i/N` in a row.
`RT.size` (`Verif/Frac/SurdRing.lean`): the sum of the absolute values of the terms.
-/
namespace Symxx.Sym
open Symxx.Num

theorem RootSum.value {M : Int} {B I R : Nat} {ρ : List Char → ℝ} {e : Parser.Expr} {x : ℝ} {L : Nat} (h : RootSum M B I R ρ e x L) :
    exprSem ρ e = some x := by
  induction h with
  | int h => exact h.value
  | root h => exact h.value
  | add _ _ i j => simp only [exprSem, i, j, Option.bind_some]; simp [opSem]
  | sub _ _ i j => simp only [exprSem, i, j, Option.bind_some]; simp [opSem]

/-- insertion sort returns where all comparisons do. -/
theorem insertM_returns {e : Env} {t : Term} : ∀ {p : Poly}, (∀ u ∈ p, ∃ v, Term.before e t u = .ok v) → ∃ q, insertM e t p = .ok q
  | [], _ => ⟨_, rfl⟩
  | u :: us, h => by
    obtain ⟨v, hv⟩ := h u (by simp)
    obtain ⟨q, hq⟩ := insertM_returns (p := us) fun w hw => h w (List.mem_cons_of_mem _ hw)
    unfold insertM
    rw [hv, Res.bind_ok, hq]
    cases v
    · exact ⟨u :: q, rfl⟩
    · exact ⟨_, rfl⟩

theorem sortM_returns {e : Env} : ∀ {p : Poly}, (∀ a ∈ p, ∀ b ∈ p, ∃ v, Term.before e a b = .ok v) → ∃ q, sortM e p = .ok q
  | [], _ => ⟨_, rfl⟩
  | t :: ts, h => by
    obtain ⟨q, hq⟩ := sortM_returns (p := ts) fun a ha b hb => h a (List.mem_cons_of_mem _ ha) b (List.mem_cons_of_mem _ hb)
    unfold sortM
    rw [hq, Res.bind_ok]
    exact insertM_returns fun u hu => h t (by simp) u (List.mem_cons_of_mem _ ((sortM_ok e ts q hq).subset hu))

theorem fenv64_returns : SortReturns fenv64 := fun _ h => sortM_returns h.1

end Symxx.Sym

namespace Symxx.Cli
open Symxx.Num Symxx.Sym Cmd

variable {E : CEnv} {B : Nat}

/-- the line is a sum of roots of integers with the value `x`, within the bounds that the comparisons of its terms need. -/
structure SumLine (E : CEnv) (B : Nat) (s : St E) (line : List Char) (ρ : List Char → ℝ) (e : Parser.Expr) (x : ℝ) : Prop where
  isExpr : IsExpr s line
  parse : Parser.parse E.f.M E.dec line = .ok e
  roots : ∃ I R L, RootSum E.f.M B I R ρ e x L ∧ R ≤ B ∧ I * I ≤ 2 ^ 53 ∧ L ^ (I * I) * R ^ I ≤ 2 ^ 53 ∧ (L : Int) ≤ E.f.M

/-- a sum of different roots in simplest form: indices decrease, and radicands where the indices are the same. -/
structure Tidied (m : List RT) : Prop where
  terms : ∀ t ∈ m, t.a ≠ 0 ∧ Simplest t.N t.i
  order : m.Pairwise fun t u => u.i < t.i ∨ u.i = t.i ∧ u.N < t.N

theorem grp_lt {t u : RT} : u.grp < t.grp ↔ u.i < t.i ∨ u.i = t.i ∧ u.N < t.N := Prod.Lex.toLex_lt_toLex

theorem Tidied.nz {m : List RT} (h : Tidied m) : RT.nz m = m := by
  unfold RT.nz
  rw [List.filter_eq_self]
  intro t ht
  simp [(h.terms t ht).1]

/-- such a sum is determined by its value. -/
theorem Tidied.unique {m m' : List RT} (h : Tidied m) (h' : Tidied m') (hv : RT.sum m = RT.sum m') : m = m' := by
  have := RT.nz_unique (fun t ht => (h.terms t ht).2) (fun t ht => (h'.terms t ht).2) (by rw [h.nz]; exact h.order.imp grp_lt.2)
    (by rw [h'.nz]; exact h'.order.imp grp_lt.2) hv
  rwa [h.nz, h'.nz] at this

/-- it is an integer exactly if it has no roots. -/
theorem Tidied.integer {m : List RT} (h : Tidied m) : (∃ z : Int, RT.sum m = z) ↔ ∀ t ∈ m, t.N = 1 := by
  constructor
  · rintro ⟨z, hz⟩
    have e := RT.nz_unique (l := m) (l' := [⟨1, 1, z⟩]) (fun t ht => (h.terms t ht).2)
      (fun t ht => by rw [List.mem_singleton.1 ht]; exact RT.simplest11)
      (by rw [h.nz]; exact h.order.imp grp_lt.2) (List.Pairwise.filter _ (List.pairwise_singleton _ _)) (by rw [hz]; simp [RT.sum, RT.val])
    rw [h.nz] at e
    intro t ht
    rw [e] at ht
    rw [List.mem_singleton.1 (RT.mem_nz.1 ht).1]
  · intro hN
    refine ⟨(m.map RT.a).sum, ?_⟩
    have : ∀ l : List RT, (∀ t ∈ l, t.N = 1) → RT.sum l = ((l.map RT.a).sum : Int) := by
      intro l
      induction l with
      | nil => simp [RT.sum]
      | cons t l ih =>
        intro hl
        rw [RT.sum_cons, ih fun u hu => hl u (List.mem_cons_of_mem _ hu)]
        have := hl t (by simp)
        simp [RT.val, this]
    exact this m hN

theorem rootText_clean (t : RT) : ∀ c ∈ rootText t, c ≠ ' ' ∧ c ≠ '\n' := by
  have num : ∀ z : Int, ∀ c ∈ (toString z).toList, c ≠ ' ' ∧ c ≠ '\n' := by
    intro z c h
    rcases mem_toString_int h with h | rfl
    · constructor <;> rintro rfl <;> revert h <;> decide
    · decide
  have nat : ∀ n : Nat, ∀ c ∈ (toString n).toList, c ≠ ' ' ∧ c ≠ '\n' := fun n => num n
  intro c hc
  unfold rootText at hc
  split at hc
  · exact num _ c hc
  · simp only [List.mem_append, List.mem_cons] at hc
    rcases hc with hc | rfl | hc | rfl | hc
    · split at hc
      · cases hc
      · split at hc
        · rw [List.mem_singleton.1 hc]; decide
        · exact num _ c hc
    · decide
    · split at hc
      · cases hc
      · exact nat _ c hc
    · decide
    · exact nat _ c hc

theorem sumText_clean (m : List RT) : ∀ c ∈ sumText m, c ≠ ' ' ∧ c ≠ '\n' := by
  have rest : ∀ m : List RT, ∀ c ∈ restText m, c ≠ ' ' ∧ c ≠ '\n' := by
    intro m
    induction m with
    | nil => intro c hc; cases hc
    | cons t m ih =>
      intro c hc
      rw [show restText (t :: m) = (if t.a < 0 then '-' :: rootText t.neg else '+' :: rootText t) ++ restText m from rfl] at hc
      rcases List.mem_append.1 hc with hc | hc
      · split at hc
        · rcases List.mem_cons.1 hc with rfl | hc
          · decide
          · exact rootText_clean _ c hc
        · rcases List.mem_cons.1 hc with rfl | hc
          · decide
          · exact rootText_clean _ c hc
      · exact ih c hc
  intro c hc
  cases m with
  | nil => rw [List.mem_singleton.1 hc]; decide
  | cons t m =>
    rcases List.mem_append.1 hc with hc | hc
    · exact rootText_clean _ c hc
    · exact rest _ c hc

/-- the text of a line: what is printed before ` =` or the end of the line. -/
def shown (out : List Char) : List Char := out.takeWhile fun c => c != ' ' && c != '\n'

theorem shown_text {t : List Char} (h : ∀ c ∈ t, c ≠ ' ' ∧ c ≠ '\n') (rest : List Char) (c : Char) (hc : c = ' ' ∨ c = '\n') :
    shown (t ++ c :: rest) = t := by
  unfold shown
  rw [List.takeWhile_append_of_pos (by
    intro c hc
    obtain ⟨h1, h2⟩ := h c hc
    simp [h1, h2])]
  rcases hc with rfl | rfl <;> simp

theorem rt_size_nz (l : List RT) : RT.size (RT.nz l) = RT.size l := by
  induction l with
  | nil => rfl
  | cons t l ih =>
    by_cases h : t.a = 0
    · rw [RT.nz_cons_zero h, ih]
      simp [RT.size, RT.val, h]
    · rw [RT.nz_cons h]
      simp only [RT.size, List.map_cons, List.sum_cons] at ih ⊢
      rw [ih]

theorem rt_sum_le (l : List RT) : |RT.sum l| ≤ RT.size l := by
  induction l with
  | nil => simp [RT.sum, RT.size]
  | cons t l ih =>
    rw [RT.sum_cons]
    refine le_trans (abs_add_le _ _) ?_
    have : RT.size (t :: l) = |t.val| + RT.size l := by simp [RT.size]
    rw [this]
    linarith

theorem rt_value (ρ : List Char → ℝ) (t : RT) : t.term.value ρ = t.val := by
  unfold Term.value
  rw [RT.coe_val]
  simp [RT.term, Term.ofReal, Syms.value]

theorem rt_root {I R : Nat} {t : RT} (h : t.Ok I R) (hR : R ≤ 2 ^ 53) : 1 ≤ (t.N : ℝ) ^ ((1 : ℝ) / t.i) ∧ (t.N : ℝ) ^ ((1 : ℝ) / t.i) ≤ 2 ^ 53 := by
  have hN : (1 : ℝ) ≤ t.N := by exact_mod_cast h.simplest.1
  have hN2 : (t.N : ℝ) ≤ 2 ^ 53 := by exact_mod_cast le_trans h.rad hR
  have hi : (1 : ℝ) ≤ t.i := by exact_mod_cast h.simplest.2.1
  refine ⟨Real.one_le_rpow hN (by positivity), ?_⟩
  calc (t.N : ℝ) ^ ((1 : ℝ) / t.i) ≤ (t.N : ℝ) ^ (1 : ℝ) :=
        Real.rpow_le_rpow_of_exponent_le hN (by rw [div_le_one (by linarith)]; exact hi)
    _ = t.N := Real.rpow_one _
    _ ≤ _ := hN2

theorem rt_size_le {I R : Nat} (hR : R ≤ 2 ^ 53) : ∀ {l : List RT}, (∀ t ∈ l, t.Ok I R) → RT.size l ≤ (RT.l1 l : ℝ) * 2 ^ 53
  | [], _ => by simp [RT.size, RT.l1]
  | t :: l, h => by
    have ih := rt_size_le hR (l := l) fun t ht => h t (List.mem_cons_of_mem _ ht)
    have e : RT.size (t :: l) = |t.val| + RT.size l := by simp [RT.size]
    have hr := rt_root (h t (by simp)) hR
    have : |t.val| ≤ |(t.a : ℝ)| * 2 ^ 53 := by
      unfold RT.val
      rw [abs_mul, abs_of_nonneg (a := (t.N : ℝ) ^ ((1 : ℝ) / t.i)) (by linarith [hr.1])]
      exact mul_le_mul_of_nonneg_left hr.2 (abs_nonneg _)
    rw [e, RT.l1_cons]
    push_cast
    linarith

theorem rt_size_ge {I R : Nat} (hR : R ≤ 2 ^ 53) {l : List RT} (h : ∀ t ∈ l, t.Ok I R) (h0 : RT.nz l ≠ []) : 1 ≤ RT.size l := by
  obtain ⟨t, ht⟩ := List.exists_mem_of_ne_nil _ h0
  obtain ⟨ht, ha⟩ := RT.mem_nz.1 ht
  have hr := rt_root (h t ht) hR
  have h1 : 1 ≤ |t.val| := by
    unfold RT.val
    rw [abs_mul, abs_of_nonneg (a := (t.N : ℝ) ^ ((1 : ℝ) / t.i)) (by linarith [hr.1])]
    have : (1 : ℝ) ≤ |(t.a : ℝ)| := by exact_mod_cast Int.one_le_abs ha
    nlinarith [hr.1]
  refine le_trans h1 ?_
  unfold RT.size
  exact List.single_le_sum (by simp) _ (List.mem_map.2 ⟨t, ht, rfl⟩)

/-- the number behind a sum of roots is accurate, up to the cancellation of its terms. -/
theorem sum_accurate {F : Flt} {S : FltSem F} (hS : S.Accurate x86) {I R : Nat} {l : List RT} (h : ∀ t ∈ l, t.Ok I R) (hI : I ≤ 2 ^ 53)
    (hR : R ≤ 2 ^ 53) (hl : RT.l1 l ≤ 2 ^ 53) (hlen : l.length ≤ 2 ^ 15) (h0 : RT.nz l ≠ []) {v} {w : F.LD}
    (hw : Frac.tryEvalLD F v (RT.frac l) = some w) : ∃ z, S.ld w = some z ∧ |z - RT.sum l| ≤ RT.size l / 2 ^ 41 := by
  have hl' : (RT.l1 l : ℝ) ≤ 2 ^ 53 := by exact_mod_cast hl
  have sz : RT.size l ≤ 2 ^ 106 := by
    have := rt_size_le hR h
    calc RT.size l ≤ (RT.l1 l : ℝ) * 2 ^ 53 := this
      _ ≤ 2 ^ 53 * 2 ^ 53 := mul_le_mul_of_nonneg_right hl' (by positivity)
      _ = 2 ^ 106 := by norm_num
  have sg := rt_size_ge hR h h0
  have hi106 : ∀ x : ℝ, x ≤ 2 ^ 106 → x ≤ x86.hi / 2 ∧ x ≤ x86.hi / 4 := by
    intro x hx
    have e : x86.hi / 4 = 2 ^ 1021 := by
      show (2 : ℝ) ^ 1023 / 4 = 2 ^ 1021
      rw [show (2 : ℝ) ^ 1023 = 2 ^ 1021 * 4 by rw [show (1023 : ℕ) = 1021 + 2 from rfl, pow_add]; norm_num]
      field_simp
    have h' : x ≤ 2 ^ 1021 := le_trans hx (pow_le_pow_right₀ (by norm_num) (by norm_num))
    have p : (0 : ℝ) < x86.hi / 4 := by rw [e]; positivity
    rw [← e] at h'
    generalize x86.hi = y at h' p
    exact ⟨by linarith, h'⟩
  have en : Poly.value (fun _ => 1) (RT.frac l).num = RT.sum l := by
    show Poly.value _ (l.map RT.term) = _
    unfold Poly.value RT.sum
    rw [List.map_map]
    congr 1
    exact List.map_congr_left fun t _ => rt_value _ t
  have ens : Poly.size (fun _ => 1) (RT.frac l).num = RT.size l := by
    show Poly.size _ (l.map RT.term) = _
    unfold Poly.size RT.size
    rw [List.map_map]
    congr 1
    refine List.map_congr_left fun t _ => ?_
    rw [Function.comp_apply, rt_value]
  have vd : ∀ ρ : List Char → ℝ, (Term.con 1).value ρ = 1 := by
    intro ρ
    simp [Term.value, Term.con, Term.ofReal, Num.Real.int, Syms.value, Num.Real.val, Rational.val]
  have ed : Poly.value (fun _ => 1) (RT.frac l).den = 1 := by simp [Poly.value, RT.frac, vd]
  have eds : Poly.size (fun _ => 1) (RT.frac l).den = 1 := by simp [Poly.size, RT.frac, vd]
  have cn : x86.PolyOk (fun _ => 1) 0 0 (RT.frac l).num := by
    refine ⟨?_, ?_, ?_, by rw [ens]; exact (hi106 _ sz).1, x86_few (by
      rw [show (RT.frac l).num.length = l.length by simp [RT.frac]]
      exact_mod_cast (by omega : l.length + (0 + 2) * 0 + 2 ≤ 2 ^ 16))⟩
    · intro t ht
      obtain ⟨u, hu, rfl⟩ := List.mem_map.1 ht
      have ok := h u hu
      exact ⟨by show |u.a| ≤ _; exact le_trans (RT.l1_mem hu) hl, by norm_num [x86, RT.term, Term.ofReal], by norm_num [RT.term, Term.ofReal],
        ⟨by show (0 : Int) < u.N; exact_mod_cast ok.simplest.1, by show (u.N : Int) ≤ 2 ^ 53; exact_mod_cast le_trans ok.rad hR⟩,
        by norm_num [x86, RT.term, Term.ofReal], ⟨ok.simplest.2.1, by show (u.i : Int) ≤ 2 ^ 53; exact_mod_cast le_trans ok.idx hI⟩⟩
    · intro t ht
      obtain ⟨u, hu, rfl⟩ := List.mem_map.1 ht
      trivial
    · intro t ht
      obtain ⟨u, hu, rfl⟩ := List.mem_map.1 ht
      exact le_rfl
  have cd : x86.PolyOk (fun _ => 1) 0 0 (RT.frac l).den := by
    refine ⟨?_, ?_, ?_, ?_, x86_few (by norm_num [RT.frac])⟩ <;> (try simp only [RT.frac, List.mem_singleton, forall_eq])
    · exact ⟨by norm_num [x86, Term.con, Term.ofReal, Num.Real.int], by norm_num [x86, Term.con, Term.ofReal, Num.Real.int],
        by norm_num [Term.con, Term.ofReal, Num.Real.int], by norm_num [x86, Term.con, Term.ofReal, Num.Real.int],
        by norm_num [x86, Term.con, Term.ofReal, Num.Real.int], by norm_num [x86, Term.con, Term.ofReal, Num.Real.int]⟩
    · trivial
    · simp [Term.con, Term.ofReal]
    · rw [show Poly.size (fun _ => 1) [Term.con 1] = 1 from eds]; exact (hi106 _ (by norm_num)).1
  have gn := x86_gam (n := (RT.frac l).num.length) (k := 0) (K := 0) (by simp [RT.frac]; omega)
  have gd := x86_gam (n := (RT.frac l).den.length) (k := 0) (K := 0) (by norm_num [RT.frac])
  have er : ∃ Er, x86.ErrorAt (fun _ => 1) 0 0 (.frac (RT.frac l)) (RT.sum l) Er ∧
      Er = 3 * (x86.gam (RT.frac l).num.length 0 0 * Poly.size (fun _ => 1) (RT.frac l).num +
        |RT.sum l| * (x86.gam (RT.frac l).den.length 0 0 * Poly.size (fun _ => 1) (RT.frac l).den)) / |Poly.value (fun _ => 1) (RT.frac l).den| +
        x86.u * |RT.sum l| + x86.lo := by
    refine ⟨_, ?_, rfl⟩
    refine ⟨cn, cd, by rw [ed]; exact one_ne_zero, by rw [en, ed, div_one], ?_, ?_, rfl⟩
    · rw [eds, ed]
      have := gd.2
      norm_num at *
      linarith
    · rw [ens, ed, abs_one, div_one]; exact (hi106 _ sz).2
  obtain ⟨Er, er, hE⟩ := er
  obtain ⟨-, a, z, z1, z2, z3⟩ := C86_error (v := v) hS er (by
    intro y hy
    exfalso
    simp [Node.names, Frac.names, Poly.names, Term.names, RT.frac, RT.term, Term.ofReal, Term.con] at hy)
  have z1 : Frac.tryEvalLD F v (RT.frac l) = some a := Res.ok.inj z1
  rw [hw] at z1
  injection z1 with z1
  subst z1
  refine ⟨z, z2, le_trans z3 ?_⟩
  rw [hE, ens, eds, ed]
  have g1 := gn.2
  have g2 := gd.2
  have g3 := gd.1
  have ab := rt_sum_le l
  have a0 := abs_nonneg (RT.sum l)
  have eu : x86.u = 1 / 2 ^ 63 := rfl
  have el : x86.lo = 1 / 2 ^ 1022 := rfl
  have e : (1 : ℝ) / 2 ^ 1022 ≤ 1 / 2 ^ 95 :=
    one_div_le_one_div_of_le (by positivity) (pow_le_pow_right₀ (by norm_num) (by norm_num))
  rw [eu, el]
  generalize (1 : ℝ) / 2 ^ 1022 = lo at e ⊢
  generalize x86.gam (RT.frac l).num.length 0 0 = p at g1 ⊢
  generalize x86.gam (RT.frac l).den.length 0 0 = q at g2 g3 ⊢
  generalize RT.size l = σ at sg ab ⊢
  generalize |RT.sum l| = y at ab a0 ⊢
  have m1 : p * σ ≤ 1 / 2 ^ 45 * σ := mul_le_mul_of_nonneg_right g1 (by linarith)
  have m2 : y * (q * 1) ≤ 1 / 2 ^ 45 * σ := by
    calc y * (q * 1) = q * y := by ring
      _ ≤ 1 / 2 ^ 45 * σ := mul_le_mul g2 ab a0 (by positivity)
  rw [abs_one, div_one]
  norm_num at *
  linarith

/-- the line prints the sum `m` with the value `x`; the text is read as an expression with this value. -/
structure Shows (E : CEnv) (s : St E) (line : List Char) (x : ℝ) (m : List RT) (w : E.LD) : Prop where
  tidied : Tidied m
  val : x = RT.sum m
  prints : dispatch E line s = (.ok false, s, sumText m ++ (if ∀ t ∈ m, t.N = 1 then [] else " = ".toList ++ E.showLD w) ++ ['\n'])
  parses : ∃ e', Parser.parse E.f.M E.dec (sumText m) = .ok e' ∧ ∀ ρ, exprSem ρ e' = some x

section
variable (hg : E.f.toEnv.Good B) (hB : 1 ≤ B) (hs : SortContract E.f) (hr : SortReturns E.f) (ht : Poly.SortTotal E.f) (ho : Frac.SortOne E.f)
include hg hB hs hr ht ho

omit hs hr ht ho in
/-- what a line with the value `x` shows if its value is kept as the sum `l`. -/
theorem terms_line {line : List Char} {s : St E} {e : Parser.Expr} {x : ℝ} {n : Node} {l : List RT} {I R : Nat} (hx : IsExpr s line)
    (hp : Parser.parse E.f.M E.dec line = .ok e) (n1 : Node.ofExpr E.f e = .ok n) (n3 : Node.normalize E.f n = .ok (.frac (RT.frac l)))
    (ok : ∀ t ∈ l, t.Ok I R) (hR : R ≤ B) (hI' : I ≤ 2 ^ 53) (l1 : RT.l1 l ≤ E.f.M) (l53 : RT.l1 l ≤ 2 ^ 53) (v : RT.sum l = x) (ne : l ≠ [])
    (dec : (RT.nz l).Pairwise fun x y => y.grp < x.grp) :
    ∃ (m : List RT) (w : E.LD), Shows E s line x m w ∧
      (∀ S : FltSem E.flt, S.Accurate x86 → l.length ≤ 2 ^ 15 → m ≠ [] → ∃ z, S.ld w = some z ∧ |z - x| ≤ RT.size m / 2 ^ 41) := by
  have o1 : Node.ofText E.f E.dec line = .ok n := by
    unfold Node.ofText
    rw [hp, Res.bind_ok, n1]
  have ha : ∀ t ∈ l, |t.a| ≤ E.f.M := fun t ht => le_trans (RT.l1_mem ht) l1
  obtain ⟨w, hw, pr⟩ := printResult_sum hg hB hR hI' ok l1 ne
  have td : Tidied (RT.nz l) := ⟨fun t ht => ⟨(RT.mem_nz.1 ht).2, (ok t (RT.mem_nz.1 ht).1).simplest⟩, dec.imp grp_lt.1⟩
  refine ⟨RT.nz l, w, ⟨td, by rw [RT.sum_nz, v], ?_, ?_⟩, ?_⟩
  · rw [line_shown hx o1 n3]
    exact then_ok (pr s)
  · have M1 := hg.M1
    have fo : FracOk E.f.M B (RT.frac l) := by
      refine ⟨?_, ?_, by simpa [RT.frac] using ne, by simp [RT.frac], ?_⟩
      · intro t ht
        obtain ⟨u, hu, rfl⟩ := List.mem_map.1 ht
        exact ⟨rt_coeOk hg hR hI' (ok u hu) (ha u hu), fun p hp => by cases hp⟩
      · intro t ht
        have : t = Term.con 1 := by simpa [RT.frac] using ht
        subst this
        exact ⟨Node.coeOk_int M1 hB (by simpa using M1), fun p hp => by cases hp⟩
      · intro t ht
        have : t = Term.con 1 := by simpa [RT.frac, eq_comm] using ht
        subst this
        exact ⟨rfl, rfl, Or.inl ⟨by norm_num [Term.con, Term.ofReal, Num.Real.int], rfl⟩⟩
    obtain ⟨t, e', t1, p, sem⟩ := C71_fraction_partial (le_trans (by norm_num) hg.hM) hg fo E.dec
    have e : Frac.toStr E.f.toEnv (RT.frac l) = .ok (sumText (RT.nz l)) := sum_toStr hg hB hR hI' ok ha ne
    rw [e] at t1
    injection t1 with t1
    subst t1
    refine ⟨e', p, fun ρ => ?_⟩
    have vd : Poly.value ρ (RT.frac l).den = 1 := by
      simp [Poly.value, RT.frac, Term.value, Term.con, Term.ofReal, Num.Real.int, Syms.value, Num.Real.val, Rational.val]
    have vn : Poly.value ρ (RT.frac l).num = x := by
      rw [← v]
      show Poly.value ρ (l.map RT.term) = _
      unfold Poly.value RT.sum
      rw [List.map_map]
      congr 1
      exact List.map_congr_left fun t _ => rt_value ρ t
    rw [(sem ρ).1 (by rw [vd]; exact one_ne_zero), vd, vn, div_one]
  · intro S hS hlen h0
    have B53 : R ≤ 2 ^ 53 := by exact_mod_cast hg.le53 hR
    obtain ⟨z, z1, z2⟩ := sum_accurate hS ok hI' B53 l53 hlen h0 (hw [])
    exact ⟨z, z1, by rw [rt_size_nz, ← v]; exact z2⟩

theorem sum_line {line : List Char} {s : St E} {ρ : List Char → ℝ} {e : Parser.Expr} {x : ℝ} (h : SumLine E B s line ρ e x) :
    ∃ (m : List RT) (w : E.LD), Shows E s line x m w ∧
      (∀ S : FltSem E.flt, S.Accurate x86 → e.leaves.length ≤ 2 ^ 15 → m ≠ [] → ∃ z, S.ld w = some z ∧ |z - x| ≤ RT.size m / 2 ^ 41) := by
  obtain ⟨I, R, L, he, hR, hI, hL, hLM⟩ := h.roots
  obtain ⟨n, l, n1, -, n3, ok, l1, v, ne, len, dec⟩ := Node.sum_eval hg hB hR hs hr ht ho hI he hL hLM
  have hI' : I ≤ 2 ^ 53 := le_trans (Nat.le_mul_self I) hI
  obtain ⟨t, ht⟩ := List.exists_mem_of_ne_nil _ ne
  have L53 : (L : Int) ≤ 2 ^ 53 := by
    have i1 : I ≠ 0 := (lt_of_lt_of_le (ok t ht).simplest.2.1 (ok t ht).idx).ne'
    have r1 : 0 < R := lt_of_lt_of_le (ok t ht).simplest.1 (ok t ht).rad
    have : L ≤ 2 ^ 53 := le_trans (Nat.le_self_pow (mul_ne_zero i1 i1) L) (le_trans (Nat.le_mul_of_pos_right _ (pow_pos r1 I)) hL)
    exact_mod_cast this
  obtain ⟨m, w, h1, h2⟩ := terms_line hg hB h.isExpr h.parse n1 n3 ok hR hI' (le_trans l1 hLM) (le_trans l1 L53) v ne dec
  exact ⟨m, w, h1, fun S hS hlen => h2 S hS (le_trans len hlen)⟩

omit hg hB hs hr ht ho in
theorem Shows.form {line : List Char} {s : St E} {x : ℝ} {m : List RT} {w : E.LD} {A : Prop} (h : Shows E s line x m w) (acc : m ≠ [] → A) :
    ((∃ z : Int, x = z) ∧ dispatch E line s = (.ok false, s, sumText m ++ ['\n'])) ∨
       ((¬ ∃ z : Int, x = z) ∧ dispatch E line s = (.ok false, s, sumText m ++ " = ".toList ++ E.showLD w ++ ['\n']) ∧ A) := by
  have d := h.prints
  rw [h.val, h.tidied.integer, d]
  by_cases hN : ∀ t ∈ m, t.N = 1
  · left
    rw [if_pos hN, List.append_nil]
    exact ⟨hN, rfl⟩
  · right
    rw [if_neg hN]
    exact ⟨hN, by simp, acc fun h0 => hN (by rw [h0]; intro t ht; cases ht)⟩

omit hg hB hs hr ht ho in
theorem Shows.read {line : List Char} {s : St E} {x : ℝ} {m : List RT} {w : E.LD} (h : Shows E s line x m w) (ρ : List Char → ℝ) :
    ∃ text rest e', dispatch E line s = (.ok false, s, text ++ rest) ∧
      (rest = ['\n'] ∨ ∃ num, rest = " = ".toList ++ num ++ ['\n']) ∧ Parser.parse E.f.M E.dec text = .ok e' ∧ exprSem ρ e' = some x := by
  have d := h.prints
  obtain ⟨e', p, sem⟩ := h.parses
  rw [List.append_assoc] at d
  refine ⟨_, _, e', d, ?_, p, sem ρ⟩
  split
  · exact Or.inl rfl
  · exact Or.inr ⟨_, rfl⟩

omit hg hB hs hr ht ho in
theorem Shows.same {line line' : List Char} {s s' : St E} {x x' : ℝ} {m m' : List RT} {w w' : E.LD} (h : Shows E s line x m w)
    (h' : Shows E s' line' x' m' w') : shown (dispatch E line s).2.2 = shown (dispatch E line' s').2.2 ↔ x = x' := by
  obtain ⟨td, v, d, ⟨y, p, sem⟩⟩ := h
  obtain ⟨td', v', d', ⟨y', p', sem'⟩⟩ := h'
  have sh : ∀ (m : List RT) (w : E.LD),
      shown (sumText m ++ (if ∀ t ∈ m, t.N = 1 then [] else " = ".toList ++ E.showLD w) ++ ['\n']) = sumText m := by
    intro m w
    rw [List.append_assoc]
    split
    · exact shown_text (sumText_clean m) _ _ (Or.inr rfl)
    · exact shown_text (sumText_clean m) _ ' ' (Or.inl rfl)
  rw [d, d', sh, sh]
  constructor
  · intro hd
    rw [hd, p'] at p
    injection p with p
    have : some x = some x' := by rw [← sem (fun _ => 0), ← sem' (fun _ => 0), p]
    exact Option.some.inj this
  · intro hv
    rw [td.unique td' (by rw [← v, ← v', hv])]

/-- the line prints its value as a sum of different roots in simplest form. A number follows exactly if it is not an integer; if the line
has at most `2^15` numbers it is the value up to an error of `2^-41` relative to the sum of the absolute values of the terms. -/
theorem C104_sum {line : List Char} {s : St E} {ρ : List Char → ℝ} {e : Parser.Expr} {x : ℝ} (h : SumLine E B s line ρ e x) :
    ∃ m : List RT, Tidied m ∧ x = RT.sum m ∧
      (((∃ z : Int, x = z) ∧ dispatch E line s = (.ok false, s, sumText m ++ ['\n'])) ∨
       ((¬ ∃ z : Int, x = z) ∧ ∃ w : E.LD, dispatch E line s = (.ok false, s, sumText m ++ " = ".toList ++ E.showLD w ++ ['\n']) ∧
        ∀ S : FltSem E.flt, S.Accurate x86 → e.leaves.length ≤ 2 ^ 15 → ∃ z, S.ld w = some z ∧ |z - x| ≤ RT.size m / 2 ^ 41)) := by
  obtain ⟨m, w, h1, acc⟩ := sum_line hg hB hs hr ht ho h
  refine ⟨m, h1.tidied, h1.val, (h1.form fun h0 S hS hl => acc S hS hl h0).imp id fun h => ⟨h.1, w, h.2⟩⟩

/-- what the line prints before ` =` is read as an expression with its value. -/
theorem C104_read {line : List Char} {s : St E} {ρ : List Char → ℝ} {e : Parser.Expr} {x : ℝ} (h : SumLine E B s line ρ e x) :
    ∃ text rest e', dispatch E line s = (.ok false, s, text ++ rest) ∧
      (rest = ['\n'] ∨ ∃ num, rest = " = ".toList ++ num ++ ['\n']) ∧ Parser.parse E.f.M E.dec text = .ok e' ∧ exprSem ρ e' = exprSem ρ e := by
  obtain ⟨m, w, h1, -⟩ := sum_line hg hB hs hr ht ho h
  obtain ⟨I, R, L, he, -⟩ := h.roots
  rw [he.value]
  exact h1.read ρ

/-- two such lines show the same text, in any two states, exactly if they have the same value. -/
theorem C104_same {line line' : List Char} {s s' : St E} {ρ : List Char → ℝ} {e e' : Parser.Expr} {x x' : ℝ}
    (h : SumLine E B s line ρ e x) (h' : SumLine E B s' line' ρ e' x') :
    shown (dispatch E line s).2.2 = shown (dispatch E line' s').2.2 ↔ x = x' := by
  obtain ⟨m, w, h1, -⟩ := sum_line hg hB hs hr ht ho h
  obtain ⟨m', w', h1', -⟩ := sum_line hg hB hs hr ht ho h'
  exact h1.same h1'

end

/-! ### a session -/

section
/-- the tree of `n^(1/2)`. -/
def sqrtTree (n : Nat) : Parser.Expr :=
  .node '^' (.leaf (.num ⟨n, 1⟩)) (.node '/' (.leaf (.num ⟨1, 1⟩)) (.leaf (.num ⟨2, 1⟩)))
variable {ρ : List Char → ℝ}

theorem sqrt_part {n : Nat} (h0 : 0 < n) (hn : n ≤ 2 ^ 53) :
    RootExpr fenv64.M (2 ^ 53) ρ (sqrtTree n) (((n : ℝ) / (1 : ℕ)) ^ (((1 : ℕ) : ℝ) / (2 : ℕ)))
      (n ^ 1 * (1 ^ 1) ^ (2 - 1) : Nat) 2 (n ^ 1 * (1 ^ 1) ^ (2 - 1)) (1 ^ 1 : Nat) := by
  have m : fenv64.M = 2 ^ 63 - 1 := by decide +kernel
  have i : RatPart fenv64.M ρ (.leaf (.num ⟨n, 1⟩)) ((n : ℝ) / (1 : ℕ)) n (1 : ℕ) :=
    .number one_pos (by simp) (by rw [m]; have : (n : Int) ≤ 2 ^ 53 := by exact_mod_cast hn
                                  omega) (by rw [m]; norm_num)
  have q : RatPart fenv64.M ρ (.node '/' (.leaf (.num ⟨1, 1⟩)) (.leaf (.num ⟨2, 1⟩))) (((1 : ℕ) : ℝ) / (2 : ℕ)) _ _ :=
    .arith (by simp [PowRat]) (by decide +kernel) (by simp [PosDiv, exprSem, Rational.val]) (by simp [exprSem, opSem, Rational.val])
  exact .root i q h0 one_pos one_pos (by norm_num) (by simp) (by norm_num) (by norm_num) (by norm_num) (by simpa using hn) (by norm_num)

theorem sqrt_sum {n L : Nat} (h0 : 0 < n) (hn : n ≤ 100) (hL : n ≤ L) :
    RootSum fenv64.M (2 ^ 53) 2 100 ρ (sqrtTree n) (((n : ℝ) / (1 : ℕ)) ^ (((1 : ℕ) : ℝ) / (2 : ℕ))) L :=
  .root (sqrt_part h0 (le_trans hn (by norm_num))) (by norm_num) (by simpa using hL) le_rfl (by simpa using hn)

theorem int_sum {n L : Nat} (hn : n ≤ 100) (hL : n ≤ L) :
    RootSum fenv64.M (2 ^ 53) 2 100 ρ (.leaf (.num ⟨n, 1⟩)) ((n : ℝ) / (1 : ℕ)) L := by
  have m : fenv64.M = 2 ^ 63 - 1 := by decide +kernel
  refine .int (.number one_pos (by simp) (by rw [m]; have : (n : Int) ≤ 100 := by exact_mod_cast hn
                                             omega) (by rw [m]; norm_num)) (by norm_num) (by exact_mod_cast hL) (by norm_num) (by norm_num)

/-- `8^(1/2)-3+50^(1/2)`. -/
theorem sumEx_line (ρ : List Char → ℝ) : ∃ e x, SumLine cenv64 (2 ^ 53) start "8^(1/2)-3+50^(1/2)".toList ρ e x :=
  ⟨.node '+' (.node '-' (sqrtTree 8) (.leaf (.num ⟨(3 : ℕ), 1⟩))) (sqrtTree 50), _, start_expr _ (by decide), by decide +kernel,
    2, 100, 8 + 3 + 50, .add (.sub (sqrt_sum (by norm_num) (by norm_num) le_rfl) (int_sum (by norm_num) le_rfl))
      (sqrt_sum (by norm_num) (by norm_num) le_rfl), by norm_num, by norm_num, by norm_num, by
      show ((8 + 3 + 50 : ℕ) : Int) ≤ fenv64.M
      rw [show fenv64.M = 2 ^ 63 - 1 by decide +kernel]; norm_num⟩

/-- `3^(1/2)+2^(1/2)-3^(1/2)`. -/
theorem sumEx2_line (ρ : List Char → ℝ) : SumLine cenv64 (2 ^ 53) start "3^(1/2)+2^(1/2)-3^(1/2)".toList ρ
    (.node '-' (.node '+' (sqrtTree 3) (sqrtTree 2)) (sqrtTree 3))
    ((((3 : ℕ) : ℝ) / (1 : ℕ)) ^ (((1 : ℕ) : ℝ) / (2 : ℕ)) + (((2 : ℕ) : ℝ) / (1 : ℕ)) ^ (((1 : ℕ) : ℝ) / (2 : ℕ)) -
      (((3 : ℕ) : ℝ) / (1 : ℕ)) ^ (((1 : ℕ) : ℝ) / (2 : ℕ))) :=
  ⟨start_expr _ (by decide), by decide +kernel,
    2, 100, 3 + 2 + 3, .sub (.add (sqrt_sum (by norm_num) (by norm_num) le_rfl) (sqrt_sum (by norm_num) (by norm_num) le_rfl))
      (sqrt_sum (by norm_num) (by norm_num) le_rfl), by norm_num, by norm_num, by norm_num, by
      show ((3 + 2 + 3 : ℕ) : Int) ≤ fenv64.M
      rw [show fenv64.M = 2 ^ 63 - 1 by decide +kernel]; norm_num⟩
theorem sumEx3_line (ρ : List Char → ℝ) : SumLine cenv64 (2 ^ 53) start "2^(1/2)".toList ρ (sqrtTree 2)
    ((((2 : ℕ) : ℝ) / (1 : ℕ)) ^ (((1 : ℕ) : ℝ) / (2 : ℕ))) :=
  ⟨start_expr _ (by decide), by decide +kernel, 2, 100, 2, sqrt_sum (by norm_num) (by norm_num) le_rfl, by norm_num, by norm_num, by norm_num, by
      show ((2 : ℕ) : Int) ≤ fenv64.M
      rw [show fenv64.M = 2 ^ 63 - 1 by decide +kernel]; norm_num⟩

example (ρ : List Char → ℝ) : ∃ m, Tidied m ∧ shown (dispatch cenv64 "8^(1/2)-3+50^(1/2)".toList start).2.2 = sumText m := by
  obtain ⟨e, x, h⟩ := sumEx_line ρ
  obtain ⟨m, td, -, d⟩ := C104_sum (E := cenv64) fenv64_good (by norm_num) fenv64_contract fenv64_returns fenv64_total fenv64_one h
  refine ⟨m, td, ?_⟩
  rcases d with ⟨-, d⟩ | ⟨-, w, d, -⟩
  · rw [d]
    exact shown_text (sumText_clean m) _ _ (Or.inr rfl)
  · rw [d, List.append_assoc, List.append_assoc]
    exact shown_text (sumText_clean m) _ ' ' (Or.inl rfl)
example (ρ : List Char → ℝ) :
    shown (dispatch cenv64 "3^(1/2)+2^(1/2)-3^(1/2)".toList start).2.2 = shown (dispatch cenv64 "2^(1/2)".toList start).2.2 :=
  (C104_same (E := cenv64) fenv64_good (by norm_num) fenv64_contract fenv64_returns fenv64_total fenv64_one (sumEx2_line ρ)
    (sumEx3_line ρ)).2 (by ring)
example (ρ : List Char → ℝ) :=
  C104_read (E := cenv64) fenv64_good (by norm_num) fenv64_contract fenv64_returns fenv64_total fenv64_one (sumEx2_line ρ)

/-- a line where the number behind ` = ` is computed with rounded real numbers. -/
theorem C104_accurate : ∃ (m : List RT) (w : cenvR.LD) (z : ℝ), Tidied m ∧ dispatch cenvR "2^(1/2)-3^(1/2)".toList ⟨[], vR⟩ =
      (.ok false, ⟨[], vR⟩, sumText m ++ " = ".toList ++ cenvR.showLD w ++ ['\n']) ∧
    semR.ld w = some z ∧ |z - (√2 - √3)| ≤ RT.size m / 2 ^ 41 := by
  have sq : ∀ n : ℕ, (((n : ℕ) : ℝ) / (1 : ℕ)) ^ (((1 : ℕ) : ℝ) / (2 : ℕ)) = √(n : ℝ) := by
    intro n
    rw [Real.sqrt_eq_rpow]
    simp
  have hl : SumLine cenvR (2 ^ 53) ⟨[], vR⟩ "2^(1/2)-3^(1/2)".toList (fun _ => 1) (.node '-' (sqrtTree 2) (sqrtTree 3)) (√(2 : ℕ) - √(3 : ℕ)) :=
    ⟨⟨by decide +kernel, fun _ _ _ => rfl⟩, by decide +kernel, 2, 100, 2 + 3, by
      rw [← sq, ← sq]
      exact .sub (sqrt_sum (by norm_num) (by norm_num) le_rfl) (sqrt_sum (by norm_num) (by norm_num) le_rfl), by norm_num, by norm_num, by norm_num, by
      show ((2 + 3 : ℕ) : Int) ≤ fenv64.M
      rw [show fenv64.M = 2 ^ 63 - 1 by decide +kernel]; norm_num⟩
  obtain ⟨m, td, -, d⟩ := C104_sum (E := cenvR) fenv64_good (by norm_num) fenv64_contract fenv64_returns fenv64_total fenv64_one hl
  rcases d with ⟨⟨z, hz⟩, -⟩ | ⟨-, w, d, acc⟩
  · exfalso
    have h1 : (1 : ℝ) ≤ √(2 : ℕ) := Real.one_le_sqrt.2 (by norm_num)
    have h2 : √(2 : ℕ) < √(3 : ℕ) := Real.sqrt_lt_sqrt (by norm_num) (by norm_num)
    have h3 : √(3 : ℕ) < 2 := (Real.sqrt_lt' (by norm_num)).2 (by norm_num)
    have a1 : (z : ℝ) < 0 := by rw [← hz]; linarith
    have a2 : (-1 : ℝ) < z := by rw [← hz]; linarith
    have a1 : z < 0 := by exact_mod_cast a1
    have a2 : -1 < z := by exact_mod_cast a2
    omega
  · obtain ⟨z, z1, z2⟩ := acc semR semR_accurate (by simp [sqrtTree, Parser.Expr.leaves])
    exact ⟨m, w, z, td, d, z1, by exact_mod_cast z2⟩
end

/-- sums of roots as they are shown. (The floating-point type of `cenv64` has no roots, so that the number behind ` = ` is left out.) -/
theorem C104_example : exact "8^(1/2)-3+50^(1/2)" = "7_/2-3".toList ∧ exact "3^(1/2)+2^(1/2)-3^(1/2)" = "_/2".toList ∧
    exact "2^(1/2)-3^(1/2)+5^(1/3)" = "_3/5-_/3+_/2".toList ∧ exact "1-2^(1/2)" = "-_/2+1".toList ∧
    does start "8^(1/2)-2^(1/2)-2^(1/2)" = (.ok false, "0\n".toList) ∧
    does start "27^(1/3)-2^(1/2)*8^(1/2)" = (.ok false, "-1\n".toList) := by decide +kernel

end Symxx.Cli
