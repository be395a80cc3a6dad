import Verif.Frac.Canonical
import Verif.Expr.PrintInt
import Verif.Frac.Degree
import Verif.Props.Print
/-!
# C90-C93: the order of the terms, collecting like terms, canonical text, the text simplified again

The specification is in `Verif/Frac/OrderSpec.lean`: `StrictWeak` is what C++ asks of the comparator of `std::sort`,
`SortContract` is what `std::sort` promises in return, `Poly.Collected` says that no two terms are rational multiples
of one another.
-/
namespace Symxx.Sym
open Symxx.Num

variable {env : FEnv} {B : Nat}

/-! ### the sort of the examples meets the contract -/

theorem insertM_sorted {e : Env} {t : Term} {S : Poly} (hw : StrictWeak (Term.before e) S) (ht : t ∈ S) :
    ∀ {p q : Poly}, (∀ u ∈ p, u ∈ S) → p.Pairwise (fun a b => Term.before e b a = .ok false) → insertM e t p = .ok q →
      q.Pairwise fun a b => Term.before e b a = .ok false
  | [], q, _, _, h => by
    unfold insertM at h
    injection h with h
    subst h
    simp
  | u :: us, q, hS, hp, h => by
    unfold insertM at h
    obtain ⟨b, h1, h⟩ := Res.bind_eq_ok.1 h
    obtain ⟨p1, p2⟩ := List.pairwise_cons.1 hp
    have hu := hS u List.mem_cons_self
    cases b with
    | true =>
      simp only [if_true] at h
      injection h with h
      subst h
      refine List.pairwise_cons.2 ⟨fun w hw' => ?_, hp⟩
      have hwS := hS w hw'
      obtain ⟨v, hv⟩ := hw.defined w hwS t ht
      cases v with
      | false => exact hv
      | true =>
        have := hw.trans w hwS t ht u hu hv h1
        rcases List.mem_cons.1 hw' with rfl | hw'
        · rw [hw.irrefl w hwS] at this; cases this
        · rw [p1 w hw'] at this; cases this
    | false =>
      simp only [Bool.false_eq_true, if_false] at h
      obtain ⟨r, h2, h⟩ := Res.bind_eq_ok.1 h
      injection h with h
      subst h
      refine List.pairwise_cons.2 ⟨fun w hw' => ?_,
        insertM_sorted hw ht (fun v hv => hS v (List.mem_cons_of_mem _ hv)) p2 h2⟩
      rcases List.mem_cons.1 ((insertM_perm h2).subset hw') with rfl | hw'
      · exact h1
      · exact p1 w hw'

theorem sortM_sorted {e : Env} {S : Poly} (hw : StrictWeak (Term.before e) S) :
    ∀ {p q : Poly}, (∀ u ∈ p, u ∈ S) → sortM e p = .ok q → q.Pairwise fun a b => Term.before e b a = .ok false
  | [], q, _, h => by
    unfold sortM at h
    injection h with h
    subst h
    simp
  | t :: ts, q, hS, h => by
    unfold sortM at h
    obtain ⟨r, h1, h⟩ := Res.bind_eq_ok.1 h
    have hS' : ∀ u ∈ ts, u ∈ S := fun u hu => hS u (List.mem_cons_of_mem _ hu)
    exact insertM_sorted hw (hS t List.mem_cons_self) (fun u hu => hS' u ((sortM_ok e ts r h1).subset hu))
      (sortM_sorted hw hS' h1) h

theorem fenv64_contract : SortContract fenv64 := fun p q h =>
  ⟨fenv64_sort p q h, fun hw => sortM_sorted hw (fun _ hu => hu) h⟩

/-! ### C90 -/

/-- the comparator that `normalize` hands to `std::sort` is a strict weak order on terms in normal form, if its
comparisons are exact. -/
theorem C90_strict_weak_partial (hg : env.toEnv.Base B) {p : Poly} (hp : ∀ t ∈ p, t.Std)
    (hi : ∀ a ∈ p, ∀ b ∈ p, ((b.coe.index * a.coe.index : Nat) : Int) ≤ 2 * env.M + 1)
    (hx : ∀ a ∈ p, ∀ b ∈ p, ∃ v, Term.before (env.toEnv.checked B) a b = .ok v) :
    StrictWeak (Term.before env.toEnv) p := by
  refine strictWeak_of_key fun a ha b hb => ?_
  obtain ⟨v, hv⟩ := hx a ha b hb
  exact ⟨v, Term.before_mono (Env.checked_le _ B) _ _ _ hv, Term.before_key hg (hp a ha) (hp b hb) (hi a ha b hb) hv⟩

/-- it is one on all terms with integer coefficients and integer exponents that fit `T`; no comparison fails. -/
theorem C90_int (hg : env.toEnv.Good B) (hB : 1 ≤ B) {D : Int} {p : Poly} (hp : p.IntLe D) (hz : ∀ t ∈ p, t.syms.NoZero)
    (hD : D ≤ env.M) (hk : ∀ t ∈ p, |t.coe.coe.num| ≤ env.M) : StrictWeak (Term.before env.toEnv) p :=
  strictWeak_of_key fun a ha b hb =>
    Term.before_exact hg hB (hp a ha) (hp b hb) (hz a ha) (hz b hb) hD (hk a ha) (hk b hb)

/-- `x^e`. -/
def powX (n d : Int) : Term := ⟨re 1 1, [(['x'], ⟨n, d⟩)]⟩

theorem re_std {n d : Int} (hd : 0 < d) : (re n d).Canon :=
  ⟨1, rfl, ⟨one_pos, one_pos, fun m hm h => by
    have : m ^ 1 ∣ 1 := h
    rw [pow_one, Nat.dvd_one] at this
    omega, fun m e _ h => Nat.dvd_one.1 h⟩, hd.ne', fun _ => rfl⟩

theorem root2_canon : root2.Canon := by
  refine ⟨2, rfl, ?_, by norm_num [root2], by norm_num [root2]⟩
  rw [simplest_iff 2 root2.index (by norm_num) (by norm_num [root2])]
  constructor
  · intro p hp
    rw [Nat.prime_two.factorization]
    show _ < 2
    rw [Finsupp.single_apply]
    split <;> norm_num
  · intro d _ h
    have := h 2
    rw [Nat.prime_two.factorization] at this
    simpa using this

/-- `√2 x^(2/3) y - 3 x + 1/2`: terms in normal form. -/
def stdTerms : Poly := [⟨root2, [(['x'], ⟨2, 3⟩), (['y'], ⟨1, 1⟩)]⟩, mono (-3) 1 ['x'] 1, ⟨re 1 2, []⟩]
theorem stdTerms_std : ∀ t ∈ stdTerms, t.Std := by
  intro t ht
  simp only [stdTerms, List.mem_cons, List.not_mem_nil, or_false] at ht
  rcases ht with rfl | rfl | rfl
  · exact ⟨root2_canon, by norm_num [root2], by simp [Syms.Std]; decide⟩
  · exact ⟨re_std one_pos, by norm_num [mono, re], by simp [Syms.Std, mono]⟩
  · exact ⟨re_std two_pos, by norm_num [re], by simp [Syms.Std]⟩

theorem stdTerms_exact : ∀ a ∈ stdTerms, ∀ b ∈ stdTerms,
    ((b.coe.index * a.coe.index : Nat) : Int) ≤ 2 * fenv64.M + 1 ∧
    (Term.before (fenv64.toEnv.checked (2 ^ 53)) a b).isOk = true := by decide +kernel

example : StrictWeak (Term.before fenv64.toEnv) stdTerms :=
  C90_strict_weak_partial fenv64_good.toBase stdTerms_std (fun a ha b hb => (stdTerms_exact a ha b hb).1)
    fun a ha b hb => ok_of_dec (stdTerms_exact a ha b hb).2

example : StrictWeak (Term.before fenv64.toEnv) [mono (2 ^ 60) 1 ['x'] 5, mono 7 1 ['y'] (-2), cst 4] :=
  C90_int fenv64_good (by norm_num) (D := 5)
    (Poly.intLe_cons.2 ⟨(mono_intLe _ _ _).mono (by norm_num), Poly.intLe_cons.2
      ⟨(mono_intLe _ _ _).mono (by norm_num), Poly.intLe_cons.2 ⟨cst_intLe _ _, Poly.intLe_nil _⟩⟩⟩)
    (by simp [Syms.NoZero, mono, cst]) (by decide) (by decide +kernel)

/-- F54. An exponent over a negative denominator (`1/(0-3)` keeps the denominator `-3`) breaks the comparator: three terms each come
before the next, so `std::sort` has undefined behaviour. -/
theorem C90_fails : Term.before fenv64.toEnv (powX 1 2) (powX (-1) 1) = .ok true ∧
    Term.before fenv64.toEnv (powX (-1) 1) (powX 1 (-3)) = .ok true ∧
    Term.before fenv64.toEnv (powX 1 (-3)) (powX 1 2) = .ok true ∧
    ¬ StrictWeak (Term.before fenv64.toEnv) [powX 1 2, powX (-1) 1, powX 1 (-3)] := by
  have h1 : Term.before fenv64.toEnv (powX 1 2) (powX (-1) 1) = .ok true := by decide +kernel
  have h2 : Term.before fenv64.toEnv (powX (-1) 1) (powX 1 (-3)) = .ok true := by decide +kernel
  have h3 : Term.before fenv64.toEnv (powX 1 2) (powX 1 (-3)) = .ok false := by decide +kernel
  refine ⟨h1, h2, by decide +kernel, fun h => ?_⟩
  have := h.trans _ (by simp) _ (by simp) _ (by simp) h1 h2
  rw [h3] at this
  cases this

/-- the library computes these terms from `x^(1/2)+x^(0-1)+x^(1/(0-3))`. -/
theorem C90_fails_text : (do
    let e ← Parser.parse fenv64.M (fun _ => .throw "") "x^(1/2)+x^(0-1)+x^(1/(0-3))".toList
    let n ← Node.ofExpr fenv64 e
    Node.tryEval fenv64 n) = .ok (some ⟨[powX 1 2, powX (-1) 1, powX 1 (-3)], [cst 1]⟩) := by decide +kernel

/-! ### C91 -/

/-- `normalize` collects like terms: an exact run on terms in normal form leaves no two terms (other than zero) of which
one is a rational multiple of the other. -/
theorem C91_collected_partial (hg : env.toEnv.Base B) (hs : SortContract env) {p r : Poly} (hp : ∀ t ∈ p, t.Std)
    (hi : ∀ a ∈ p, ∀ b ∈ p, ((b.coe.index * a.coe.index : Nat) : Int) ≤ 2 * env.M + 1)
    (hx : ∀ a ∈ p, ∀ b ∈ p, ∃ v, Term.before (env.toEnv.checked B) a b = .ok v)
    (h : Poly.normalize (env.checked B) p = .ok r) : Poly.normalize env p = .ok r ∧ r.Collected := by
  refine ⟨Poly.normalize_mono (FEnv.checked_le _ B) p _ h, ?_⟩
  unfold Poly.normalize at h
  obtain ⟨p', h1, h⟩ := Res.bind_eq_ok.1 h
  obtain ⟨hperm, hsrt⟩ := hs.sorted h1 fun a ha b hb => by
    obtain ⟨v, hv⟩ := hx a ha b hb
    exact ⟨v, Term.before_mono (Env.checked_le _ B) _ _ _ hv, Term.before_key hg (hp a ha) (hp b hb) (hi a ha b hb) hv⟩
  have hgrp : p'.Pairwise fun x y => y.group ≤ x.group := hsrt.imp fun h => by
    unfold Term.key at h
    rcases Prod.Lex.toLex_le_toLex.1 h with h | h
    · exact h.le
    · exact h.1.le
  obtain ⟨m1, m2, -⟩ := Poly.mergeAdj_group hg (fun t ht => (hp t (hperm.subset ht)).norm)
    (by
      rintro a rest rfl
      obtain ⟨h1, h2⟩ := List.pairwise_cons.1 hgrp
      exact ⟨h2, Or.inr h1⟩) h
  exact Poly.Tidy.collected ⟨m1, m2⟩

/-- integer polynomials that fit `T` always get collected. -/
theorem C91_int (hg : env.toEnv.Good B) (hB : 1 ≤ B) (hs : SortContract env) (ht : Poly.SortTotal env) {D : Int} {p : Poly}
    (hp : p.IntLe D) (hz : ∀ t ∈ p, t.syms.NoZero) (hD : D ≤ env.M) (hl : p.l1 ≤ env.M) :
    ∃ r, Poly.normalize env p = .ok r ∧ r.Collected := by
  obtain ⟨r, h1, -, -⟩ := Poly.normalize_int (env := env.bounded) (hg.powOk hB).toIntOk hs.ok.bounded ht.bounded hD hp hl
  exact ⟨r, Poly.normalize_mono FEnv.bounded_le _ _ h1, (Poly.normalize_tidy hg hB hs hz h1).collected⟩

theorem ring_tidy {P : List Char × Rational → Prop} [ClosedNat env.M P] (hg : env.toEnv.Good B) (hB : 1 ≤ B)
    (hs : SortContract env) (ht : Poly.SortTotal env) {e : Parser.Expr} (he : IntRing e) (hpf : PowFits e)
    (hsz : ringSize e ≤ env.M) (hdeg : ringDeg e ≤ env.M) (hP : ∀ x, .sym x ∈ e.leaves → P (x, ⟨1, 1⟩)) :
    ∃ n f, Node.ofExpr env e = .ok n ∧ Node.tryEval env n = .ok (some f) ∧ Node.normalize env n = .ok (.frac f) ∧
      f.IntPoly (ringDeg e) ∧ f.num.l1 ≤ ringSize e ∧ f.num.Tidy ∧ f.In P ∧
      ∀ ρ, (∀ x, 0 < ρ x) → exprSem ρ e = some (Poly.value ρ f.num) := by
  have : ClosedNat env.bounded.M P := ‹ClosedNat env.M P›
  obtain ⟨n, f, n1, n2, n3, n4, n5, n7, n6⟩ := Node.ring_sem (P := P) (env := env.bounded) hg hB hs.ok.bounded ht.bounded
    he hpf hsz hdeg hP
  have hf := Node.tryEval_neat hg hB hs (Node.ofExpr_neat hg hB hs n1) n2
  have htd := hf.2 (by rw [n4.den]; rfl)
  refine ⟨n, f, Node.ofExpr_mono FEnv.bounded_le _ _ n1, Node.tryEval_mono FEnv.bounded_le _ _ n2,
    Node.normalize_mono FEnv.bounded_le _ _ n3, n4, n5, htd, n7, fun ρ hρ => ?_⟩
  rw [n6 ρ hρ]
  unfold Frac.value
  rw [n4.den, unitPoly_value, div_one]

/-- an expression over integers, symbols, `+`, `-`, `*` and natural powers evaluates to a polynomial without like
terms. -/
theorem C91_ring (hg : env.toEnv.Good B) (hB : 1 ≤ B) (hs : SortContract env) (ht : Poly.SortTotal env) {e : Parser.Expr}
    (he : IntRing e) (hpf : PowFits e) (hsz : ringSize e ≤ env.M) (hdeg : ringDeg e ≤ env.M) :
    ∃ n f, Node.ofExpr env e = .ok n ∧ Node.tryEval env n = .ok (some f) ∧ Node.normalize env n = .ok (.frac f) ∧
      f.num.Collected ∧ f.den = unitPoly ∧ ∀ ρ, (∀ x, 0 < ρ x) → exprSem ρ e = some (Poly.value ρ f.num) := by
  obtain ⟨n, f, n1, n2, n3, n4, -, n6, -, n7⟩ := ring_tidy (P := NatExp) hg hB hs ht he hpf hsz hdeg
    fun _ _ => ⟨by norm_num, rfl⟩
  exact ⟨n, f, n1, n2, n3, n6.collected, n4.den, n7⟩

/-- F54. `x^(1/2)+x^(0-1)+x^(1/(0-3))+x^(1/2)`: the two terms `x^(1/2)` are not collected. -/
theorem C91_fails : (do
    let e ← Parser.parse fenv64.M (fun _ => .throw "") "x^(1/2)+x^(0-1)+x^(1/(0-3))+x^(1/2)".toList
    let n ← Node.ofExpr fenv64 e
    Node.tryEval fenv64 n) = .ok (some ⟨[powX 1 2, powX (-1) 1, powX 1 (-3), powX 1 2], [cst 1]⟩) ∧
    ¬ Poly.Collected [powX 1 2, powX (-1) 1, powX 1 (-3), powX 1 2] := by
  refine ⟨by decide +kernel, fun h => ?_⟩
  have hv : ∀ n d, (powX n d).coe.val ≠ 0 := fun n d => by simp [powX, re, Real.val, Rational.val]
  unfold Poly.Collected at h
  rw [Poly.nonzero_cons (hv _ _), Poly.nonzero_cons (hv _ _), Poly.nonzero_cons (hv _ _), Poly.nonzero_cons (hv _ _)] at h
  exact (List.pairwise_cons.1 h).1 (powX 1 2) (by simp) ⟨1, fun ρ _ => by simp⟩

/-! ### C92 -/

/-- expressions over integers, symbols, `+`, `-`, `*` and natural powers have a canonical text: two expressions that are
equal as functions normalise to fractions with the same printed text. -/
theorem C92_canonical (hg : env.toEnv.Good B) (hB : 1 ≤ B) (hs : SortContract env) (ht : Poly.SortTotal env)
    {e e' : Parser.Expr} (he : IntRing e) (hpf : PowFits e) (hsz : ringSize e ≤ env.M) (hdeg : ringDeg e ≤ env.M)
    (he' : IntRing e') (hpf' : PowFits e') (hsz' : ringSize e' ≤ env.M) (hdeg' : ringDeg e' ≤ env.M)
    (heq : ∀ ρ, (∀ x, 0 < ρ x) → exprSem ρ e = exprSem ρ e') :
    ∃ n n' f f' s, Node.ofExpr env e = .ok n ∧ Node.normalize env n = .ok f ∧ Node.toStr env.toEnv f = .ok s ∧
      Node.ofExpr env e' = .ok n' ∧ Node.normalize env n' = .ok f' ∧ Node.toStr env.toEnv f' = .ok s := by
  obtain ⟨n, f, n1, -, n3, n4, n5, n6, -, n7⟩ := ring_tidy (P := NatExp) hg hB hs ht he hpf hsz hdeg
    fun _ _ => ⟨by norm_num, rfl⟩
  obtain ⟨n', f', m1, -, m3, m4, m5, m6, -, m7⟩ := ring_tidy (P := NatExp) hg hB hs ht he' hpf' hsz' hdeg'
    fun _ _ => ⟨by norm_num, rfl⟩
  have hi : env.toEnv.IntOk := (hg.powOk hB).toIntOk
  obtain ⟨s, hstr⟩ := Node.toStr_total hi hdeg n4 (le_trans n5 hsz)
  have hz : f.num.nonzero = f'.num.nonzero := n6.unique m6 n4.num m4.num fun ρ hρ => by
    have := heq ρ hρ
    rw [n7 ρ hρ, m7 ρ hρ] at this
    injection this
  refine ⟨n, n', .frac f, .frac f', s, n1, n3, hstr, m1, m3, ?_⟩
  have h1 : Frac.toStr env.toEnv f = .ok s := hstr
  show Frac.toStr env.toEnv f' = .ok s
  rw [Frac.toStr_int hi n4 (le_trans n5 hsz)] at h1
  rw [Frac.toStr_int hi m4 (le_trans m5 hsz'), ← hz]
  exact h1

/-- in particular an expression that is zero everywhere prints as `0`. -/
theorem C92_zero (hg : env.toEnv.Good B) (hB : 1 ≤ B) (hs : SortContract env) (ht : Poly.SortTotal env) {e : Parser.Expr}
    (he : IntRing e) (hpf : PowFits e) (hsz : ringSize e ≤ env.M) (hdeg : ringDeg e ≤ env.M)
    (heq : ∀ ρ, (∀ x, 0 < ρ x) → exprSem ρ e = some 0) :
    ∃ n f, Node.ofExpr env e = .ok n ∧ Node.normalize env n = .ok f ∧ Node.toStr env.toEnv f = .ok ['0'] := by
  obtain ⟨n, f, n1, -, n3, n4, n5, n6, -, n7⟩ := ring_tidy (P := NatExp) hg hB hs ht he hpf hsz hdeg
    fun _ _ => ⟨by norm_num, rfl⟩
  have hi : env.toEnv.IntOk := (hg.powOk hB).toIntOk
  refine ⟨n, .frac f, n1, n3, ?_⟩
  have hz : f.num.nonzero = Poly.nonzero [] := n6.unique (q := []) ⟨by simp, by simp [Poly.nonzero]⟩ n4.num (Poly.intLe_nil 0)
    fun ρ hρ => by
      have := heq ρ hρ
      rw [n7 ρ hρ] at this
      injection this
  show Frac.toStr env.toEnv f = _
  rw [Frac.toStr_int hi n4 (le_trans n5 hsz), hz]
  simp [Poly.nonzero]

/-- `(x+y)*(x-y)` and `x^2-y^2`. -/
def diffSq : Parser.Expr := .node '*' (.node '+' (.leaf (.sym ['x'])) (.leaf (.sym ['y'])))
  (.node '-' (.leaf (.sym ['x'])) (.leaf (.sym ['y'])))
def sqDiff : Parser.Expr := .node '-' (.node '^' (.leaf (.sym ['x'])) (.leaf (.num ⟨2, 1⟩)))
  (.node '^' (.leaf (.sym ['y'])) (.leaf (.num ⟨2, 1⟩)))

theorem diffSq_eq (ρ : List Char → ℝ) (hρ : ∀ x, 0 < ρ x) : exprSem ρ diffSq = exprSem ρ sqDiff := by
  have h1 := hρ ['x']
  have h2 := hρ ['y']
  simp only [diffSq, sqDiff, exprSem, opSem, Option.bind_some]
  simp [Rational.val, h1, h2]
  ring

example := C92_canonical fenv64_good (by norm_num) fenv64_contract fenv64_total (e := diffSq) (e' := sqDiff)
  (by simp [IntRing, diffSq]) (by simp [PowFits, diffSq]) (by decide) (by decide)
  (Or.inl ⟨by simp, Or.inr ⟨rfl, trivial, 2, rfl⟩, Or.inr ⟨rfl, trivial, 2, rfl⟩⟩)
  (by simp [PowFits, sqDiff, ringSize, expo, oneTerm]) (by decide +kernel) (by decide +kernel) diffSq_eq

theorem diffSq_text : (do
    let n ← Node.ofExpr fenv64 diffSq
    let f ← Node.normalize fenv64 n
    Node.toStr fenv64.toEnv f) = .ok "-(y**2)+(x**2)".toList := by decide +kernel

/-- `(x+y)*(x-y) - (x^2-y^2)`. -/
example := C92_zero fenv64_good (by norm_num) fenv64_contract fenv64_total (e := .node '-' diffSq sqDiff)
  (Or.inl ⟨by simp, by simp [IntRing, diffSq], Or.inl ⟨by simp, Or.inr ⟨rfl, trivial, 2, rfl⟩, Or.inr ⟨rfl, trivial, 2, rfl⟩⟩⟩)
  (by simp [PowFits, diffSq, sqDiff, ringSize, expo, oneTerm]) (by decide +kernel) (by decide +kernel)
  (fun ρ hρ => by
    have h := diffSq_eq ρ hρ
    have h1 : ∃ v, exprSem ρ diffSq = some v := ⟨_, by simp only [diffSq, exprSem, opSem, Option.bind_some]; rfl⟩
    obtain ⟨v, hv⟩ := h1
    show ((exprSem ρ diffSq).bind fun x => (exprSem ρ sqDiff).bind fun y => opSem '-' x y) = _
    rw [← h, hv]
    simp [opSem])

/-! ### C93 -/

/-- the text of a simplified expression is read as an expression of the same kind, over the same symbols, equal to it. -/
theorem ring_text (hg : env.toEnv.Good B) (hB : 1 ≤ B) (hs : SortContract env) (ht : Poly.SortTotal env)
    {e : Parser.Expr} (he : IntRing e) (hpf : PowFits e) (hsy : ∀ x, .sym x ∈ e.leaves → SymOk x) (hsz : ringSize e < env.M)
    (hdeg : ringDeg e ≤ 2 ^ 53) (dec) :
    ∃ n f s e', Node.ofExpr env e = .ok n ∧ Node.normalize env n = .ok f ∧ Node.toStr env.toEnv f = .ok s ∧
      Parser.parse env.M dec s = .ok e' ∧ IntRing e' ∧ PowFits e' ∧ ringSize e' ≤ env.M ∧ ringDeg e' ≤ ringDeg e ∧
      (∀ x, .sym x ∈ e'.leaves → .sym x ∈ e.leaves) ∧ ∀ ρ, exprSem ρ e' = exprSem ρ e := by
  have hM := hg.hM
  have hM2 : 2 ≤ env.M := le_trans (by norm_num) hM
  have hdeg' : ringDeg e ≤ env.M := le_trans hdeg hM
  have hi : env.toEnv.IntOk := (hg.powOk hB).toIntOk
  obtain ⟨n, m, s, e', c1, c2, c3, c4, c5⟩ := C71_ring hM2 hg hB hs.ok ht he hpf hsy hsz.le hdeg' dec
  have : ClosedNat env.M (fun p : List Char × Rational => NatExp p ∧ .sym p.1 ∈ e.leaves) :=
    natExp_names env.M fun x => .sym x ∈ e.leaves
  obtain ⟨n', f, n1, -, n3, n4, n5, n6, n8, n7⟩ := ring_tidy (P := fun p => NatExp p ∧ .sym p.1 ∈ e.leaves)
    hg hB hs ht he hpf hsz.le hdeg' fun x hx => ⟨⟨by norm_num, rfl⟩, hx⟩
  rw [c1] at n1
  injection n1 with n1
  subst n1
  rw [c2] at n3
  injection n3 with n3
  subst n3
  have hl : f.num.l1 ≤ env.M := le_trans n5 hsz.le
  have hsmall : Poly.Small (fun x => .sym x ∈ e.leaves) env.toEnv (ringDeg e) f.num := by
    refine ⟨fun t ht => (n4.num t ht).1, fun t ht p hp => ?_, fun t ht h0 => ?_⟩
    · obtain ⟨⟨b, c⟩, a⟩ := n8.1 t ht p hp
      have hnz := n6.noZero t ht p hp
      have hle := le_trans (le_abs_self _) ((n4.num t ht).2.1 p hp).2
      exact ⟨⟨hsy _ a, a⟩, by omega, le_trans hle hdeg, le_trans hle hdeg', c⟩
    · exact n6.tdeg n4.num he n7 (Poly.mem_nonzero.2 ⟨ht, fun h => h0 ((Poly.val_zero (n4.num t ht)).1 h)⟩)
  obtain ⟨s', s1, s2⟩ := poly_shape hg hB (ringDeg_nonneg e) hsmall hl
  have hss : s' = s := by
    have h1 : Frac.toStr env.toEnv f = .ok s := c3
    rw [Frac.toStr_int hi n4 hl, ← Poly.toStr_nonzero hi n4.num hl, s1] at h1
    injection h1
  subst hss
  obtain ⟨e'', p1, p2⟩ := s2.parse hM2 dec
  rw [c4] at p1
  injection p1 with p1
  subst p1
  exact ⟨n, _, s', e', c1, c2, c3, c4, p2.ring, p2.fits, le_trans p2.size (by omega), p2.deg, p2.names, c5⟩

/-- the text of a simplified expression is a fixed point: parsed and simplified again it is the same text. -/
theorem C93_fixed_point (hg : env.toEnv.Good B) (hB : 1 ≤ B) (hs : SortContract env) (ht : Poly.SortTotal env)
    {e : Parser.Expr} (he : IntRing e) (hpf : PowFits e) (hsy : ∀ x, .sym x ∈ e.leaves → SymOk x) (hsz : ringSize e < env.M)
    (hdeg : ringDeg e ≤ 2 ^ 53) (dec) :
    ∃ n f s e' n' f', Node.ofExpr env e = .ok n ∧ Node.normalize env n = .ok f ∧ Node.toStr env.toEnv f = .ok s ∧
      Parser.parse env.M dec s = .ok e' ∧ Node.ofExpr env e' = .ok n' ∧ Node.normalize env n' = .ok f' ∧
      Node.toStr env.toEnv f' = .ok s := by
  have hdeg' : ringDeg e ≤ env.M := le_trans hdeg hg.hM
  obtain ⟨n, f, s, e', c1, c2, c3, c4, p1, p2, p3, p4, -, c5⟩ := ring_text hg hB hs ht he hpf hsy hsz hdeg dec
  obtain ⟨n, n', f1, f2, s, d1, d2, d3, d4, d5, d6⟩ := C92_canonical hg hB hs ht he hpf hsz.le hdeg' p1 p2
    p3 (le_trans p4 hdeg') fun ρ _ => (c5 ρ).symm
  rw [c1] at d1
  injection d1 with d1
  subst d1
  rw [c2] at d2
  injection d2 with d2
  subst d2
  rw [c3] at d3
  injection d3 with d3
  subst d3
  exact ⟨_, _, _, _, n', f2, c1, c2, c3, c4, d4, d5, d6⟩

/-- the shape of the text is read back: `(x+y)*(x-y)` is `-(y**2)+(x**2)`, and that is itself. -/
example := C93_fixed_point fenv64_good (by norm_num) fenv64_contract fenv64_total (e := diffSq)
  (by simp [IntRing, diffSq]) (by simp [PowFits, diffSq])
  (by
    intro x hx
    simp [diffSq, Parser.Expr.leaves] at hx
    rcases hx with rfl | rfl | rfl | rfl
    · exact Or.inr ⟨'x', rfl, by decide⟩
    · exact Or.inr ⟨'y', rfl, by decide⟩
    · exact Or.inr ⟨'x', rfl, by decide⟩
    · exact Or.inr ⟨'y', rfl, by decide⟩) (by decide) (by decide) nodec

end Symxx.Sym
