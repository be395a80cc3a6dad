import Verif.Expr.PrintNum
import Verif.Expr.Total
/-!
# The fractions of the leaves, in closed form
-/
namespace Symxx.Num
namespace Real
variable {env : Env} (h : env.IntOk)
include h

/-- the rational number `q`. -/
def rat (q : Rational) : Real := ⟨1, ⟨1, 1⟩, q⟩

theorem normalize_rat {q : Rational} (hf : q.Fits env.M) (hz : q.num = 0 → q.den = 1) :
    normalize env (rat q) = .ok (rat q) := by
  unfold normalize rat decompose
  have e1 : (!(Rational.isInt ⟨1, 1⟩)) = false := rfl
  simp only [e1, Bool.false_eq_true, if_false, Res.bind_ok, h.fac1, runLoop, stripAll, ne_eq, not_true_eq_false]
  have e2 : gExp env 1 [] = 1 := by unfold gExp; simp
  rw [e2]
  simp only [not_true_eq_false, if_false, Res.bind_ok]
  rw [Rational.eqInt_int h.hM (abs1 h) (abs1 h), Res.bind_ok, Rational.eqInt_spec _ _ _ h.hM (by norm_num) hf, Res.bind_ok]
  by_cases hk0 : q.num = 0
  · have hq : q = ⟨0, 1⟩ := by
      obtain ⟨n, d⟩ := q
      simp only at hk0 hz
      rw [hk0, hz hk0]
    subst hq
    simp [Rational.ofInt_eq env.M 1 (abs1 h) h.hM]
  · simp [hk0]

theorem mul_rat_den {p q : Int} (hf : Rational.Fits env.M ⟨p, q⟩) (hq : 0 < q) :
    mul env (rat ⟨p, q⟩) (int q) = .ok (int p) := by
  obtain ⟨hp, hqM⟩ := hf
  simp only at hp hqM
  unfold mul rat int lcmU ratOfIndex
  have hM := h.hM
  have h1 : ((Nat.lcm 1 1 : Nat) : Int) ≤ 2 * env.M + 1 := by simp; omega
  have hw : wrap env.M ((1 / 1 : Nat) : Int) = 1 := wrap_of_range (inRange_of_abs (by simpa using hM))
  have hl : Nat.lcm 1 1 = 1 := rfl
  have hpw : Rational.pow env.M env.fl ⟨1, 1⟩ ⟨1, 1⟩ = .ok ⟨1, 1⟩ := by
    unfold Rational.pow
    rw [Rational.eqInt_int h.hM (abs1 h) (abs0 h), Res.bind_ok]
    simp only [one_ne_zero, decide_false, Bool.false_eq_true, if_false]
    rw [Rational.eqInt_int h.hM (abs1 h) (abs1 h), Res.bind_ok]
    simp
  have hmul : Rational.mul env.M ⟨p, q⟩ ⟨q, 1⟩ = .ok ⟨p, 1⟩ := by
    unfold Rational.mul
    have g1 : gcdT env.M p 1 = .ok 1 := gcdT_ok.2 ⟨⟨hp, by simpa using hM⟩, by simp⟩
    have g2 : gcdT env.M q q = .ok q := gcdT_ok.2 ⟨⟨hqM, hqM⟩, by simp [abs_of_pos hq]⟩
    have d1 : ∀ x : Int, |x| ≤ env.M → divT env.M x 1 = .ok x := fun x hx =>
      divT_ok.2 ⟨by norm_num, by simpa using inRange_of_abs hx, by simp⟩
    have d2 : divT env.M q q = .ok 1 :=
      divT_ok.2 ⟨hq.ne', by rw [Int.tdiv_self hq.ne']; exact inRange_of_abs (by simpa using hM), by rw [Int.tdiv_self hq.ne']⟩
    simp only [g1, g2, Res.bind_ok, d1 p hp, d2, mul_one]
    rw [chk_ok (inRange_of_abs hp), Res.bind_ok]
    simp only [d1 1 (by simpa using hM), Res.bind_ok, mul_one]
    rw [chk_ok (inRange_of_abs (by simpa using hM)), Res.bind_ok]
    rfl
  simp only
  rw [if_pos h1, Res.bind_ok, if_neg (by norm_num), hl, hw, Rational.ofInt_eq _ _ (abs1 h) h.hM, Res.bind_ok, hpw]
  simp only [Res.bind_ok, hpw]
  rw [Rational.mul_int h.hM (abs1 h) (abs1 h) (by simpa using hM), Res.bind_ok, hmul, Res.bind_ok]
  exact normalize_int' h hp

end Real
end Symxx.Num

namespace Symxx.Sym
open Symxx.Num
namespace Frac
variable {env : FEnv} (h : env.toEnv.IntOk) (hs : SortOk env.sort) (h1 : ∀ t, ∃ q, env.sort [t] = .ok q)
include h hs h1

theorem norm1 (t : Term) : Poly.normalize env [t] = .ok [t] := by
  obtain ⟨q, hq⟩ := h1 t
  have := List.perm_singleton.1 (hs _ _ hq)
  subst this
  unfold Poly.normalize
  rw [hq, Res.bind_ok]
  unfold Poly.mergeAdj
  rfl

/-- the fraction of a term with rational coefficient. -/
theorem ofTerm_rat {p q : Int} (hf : Rational.Fits env.M ⟨p, q⟩) (hq : 0 < q) (hl : Int.gcd p q = 1) {s : Syms}
    (hsy : Syms.dropZero env.M s = .ok s) :
    ofTerm env ⟨Real.rat ⟨p, q⟩, s⟩ = .ok ⟨[⟨Real.int p, s⟩], [⟨Real.int q, []⟩]⟩ := by
  have hM := h.hM
  have hqM : q ≤ env.M := le_trans (le_abs_self _) hf.2
  have hdz : Syms.dropZero env.M [] = .ok [] := rfl
  have n1 := norm1 h hs h1
  unfold ofTerm Poly.mk'
  rw [n1, Res.bind_ok]
  unfold ofPoly onePoly Poly.mk' Term.ofInt
  rw [Real.ofInt_int h (Real.abs1 h), Res.bind_ok, Res.bind_ok, n1, Res.bind_ok]
  unfold normalize
  simp only
  rw [n1, Res.bind_ok, n1, Res.bind_ok]
  have m1 : multLoop env.M [Term.ofReal (Real.int 1)] 1 = .ok 1 := by
    unfold multLoop
    show (chk env.M (1 * 1) >>= fun m => multLoop env.M [] m) = _
    rw [chk_ok (inRange_of_abs (by simpa using hM)), Res.bind_ok]
    rfl
  have m2 : multLoop env.M [⟨Real.rat ⟨p, q⟩, s⟩] 1 = .ok q := by
    unfold multLoop
    show (chk env.M (1 * q) >>= fun m => multLoop env.M [] m) = _
    rw [one_mul, chk_ok (inRange_of_abs hf.2), Res.bind_ok]
    rfl
  have s1 : scaleAll env.toEnv q [⟨Real.rat ⟨p, q⟩, s⟩] = .ok [⟨Real.int p, s⟩] := by
    unfold scaleAll Poly.mapM Term.ofInt
    rw [Real.ofInt_int h hf.2, Res.bind_ok, Res.bind_ok]
    unfold Term.mul
    have : Syms.merge env.M s [] = .ok s := by cases s <;> rfl
    simp only [Term.ofReal]
    rw [this, Res.bind_ok, Real.mul_rat_den h hf hq, Res.bind_ok, hsy, Res.bind_ok, Res.bind_ok]
    rfl
  have s2 : scaleAll env.toEnv q [Term.ofReal (Real.int 1)] = .ok [⟨Real.int q, []⟩] := by
    unfold scaleAll Poly.mapM Term.ofInt
    rw [Real.ofInt_int h hf.2, Res.bind_ok, Res.bind_ok]
    unfold Term.mul
    have : Syms.merge env.M [] [] = .ok [] := rfl
    simp only [Term.ofReal]
    rw [this, Res.bind_ok, Real.mul_int h (Real.abs1 h) hf.2 (by rw [one_mul]; exact hf.2), Res.bind_ok, hdz, Res.bind_ok,
      Res.bind_ok, one_mul]
    rfl
  rw [m1, Res.bind_ok, m2, Res.bind_ok, s1, Res.bind_ok, s2, Res.bind_ok]
  simp only
  have t1 : ∀ x : Int, |x| ≤ env.M → Rational.toT env.M (Real.int x).coe = .ok x := fun x hx =>
    divT_ok.2 ⟨by norm_num [Real.int], by simpa [Real.int] using inRange_of_abs hx, by simp [Real.int]⟩
  have g : gcdT env.M p q = .ok 1 := gcdT_ok.2 ⟨⟨hf.1, hf.2⟩, by rw [hl]; rfl⟩
  rw [t1 p hf.1, Res.bind_ok, t1 q hf.2, Res.bind_ok, g, Res.bind_ok]
  have g2 : gcdOuter env.M [⟨Real.int q, []⟩] [⟨Real.int p, s⟩] 1 = .ok (some 1) := by
    unfold gcdOuter
    show (gcdInner env.M ⟨Real.int p, s⟩ [] 1 >>= _) = _
    unfold gcdInner
    rw [Res.bind_ok]
    rfl
  rw [g2, Res.bind_ok]
  simp only
  rw [Real.ofInt_int h (Real.abs1 h), Res.bind_ok]
  have d : ∀ (x : Int) (u : Syms), |x| ≤ env.M → Syms.dropZero env.M u = .ok u →
      Poly.divReal env [⟨Real.int x, u⟩] (Real.int 1) = .ok [⟨Real.int x, u⟩] := by
    intro x u hx hu
    unfold Poly.divReal Poly.mapM Term.divReal
    have := Real.div_int h (q := x) (t := 1) (by rw [mul_one]; exact hx) one_pos hM
    rw [mul_one] at this
    rw [this, Res.bind_ok, hu, Res.bind_ok, Res.bind_ok]
    show (Poly.normalize env [⟨Real.int x, u⟩]) = _
    exact n1 _
  rw [d p s hf.1 hsy, Res.bind_ok, d q [] hf.2 hdz, Res.bind_ok]

end Frac

namespace Node
variable {env : FEnv} {B : Nat}

theorem coeOk_int {M : Int} (hM : 1 ≤ M) (hB : 1 ≤ B) {n : Int} (hn : |n| ≤ M) : CoeOk M B (Real.int n) := by
  refine ⟨⟨1, rfl, ⟨one_pos, one_pos, ?_, ?_⟩, by simp [Real.int], fun _ => rfl⟩, by simp [Real.int], ⟨hn, by simpa [Real.int] using hM⟩, ?_, ?_⟩
  · intro m hm hd
    have hd : m ^ 1 ∣ 1 := hd
    rw [pow_one, Nat.dvd_one] at hd
    omega
  · intro m d _ hd
    have hd : d ∣ 1 := hd
    exact Nat.dvd_one.1 hd
  · show (1 : Int) ≤ B
    exact_mod_cast hB
  · show ((1 : Nat) : Int) ≤ M
    simpa using hM

theorem polyAt_atom {t : Term} (h : TermAtom t) : ∀ k, PolyAt k [t] := by
  intro k
  have h0 : 0 ≤ t.coe.coe.num := by
    rcases h.2.2 with ⟨h, -⟩ | ⟨h, -⟩ <;> omega
  unfold PolyAt
  split
  · trivial
  · split
    · exact Or.inr ⟨t, rfl, h0⟩
    · split
      · exact ⟨t, rfl, h0⟩
      · exact ⟨t, rfl, h⟩

theorem int_value (n : Int) (s : Syms) (ρ : List Char → ℝ) :
    Poly.value ρ [⟨Real.int n, s⟩] = n * Syms.value ρ s := by
  simp only [Poly.value, List.map_cons, List.map_nil, List.sum_cons, List.sum_nil, add_zero, Term.value]
  rw [Real.val_canon (a := Real.int n) (N := 1) rfl]
  simp [Real.int, Rational.val]

/-- the fraction of a number. -/
theorem ofLeaf_num (h : env.toEnv.IntOk) (hs : SortOk env.sort) (h1 : ∀ t, ∃ q, env.sort [t] = .ok q) {p q : Int}
    (hf : Rational.Fits env.M ⟨p, q⟩) (a3 : 0 < q) (a5 : Rational.Lowest ⟨p, q⟩) :
    ofLeaf env (.num ⟨p, q⟩) = .ok ⟨[⟨Real.int p, []⟩], [⟨Real.int q, []⟩]⟩ := by
  have er : Real.ofRational env.toEnv ⟨p, q⟩ = .ok (Real.rat ⟨p, q⟩) := by
    unfold Real.ofRational Real.mk3
    rw [Rational.ofInt_eq _ _ (Real.abs1 h) h.hM, Res.bind_ok]
    refine Real.normalize_rat h hf ?_
    intro hp
    simp only at hp
    have a5 : Int.gcd p q = 1 := a5
    rw [hp, Int.gcd_zero_left] at a5
    show q = 1
    omega
  simp only [ofLeaf]
  rw [er, Res.bind_ok]
  exact Frac.ofTerm_rat h hs h1 hf a3 a5 rfl

/-- the fraction of a symbol. -/
theorem ofLeaf_sym (h : env.toEnv.IntOk) (hs : SortOk env.sort) (h1 : ∀ t, ∃ q, env.sort [t] = .ok q) (x : List Char) :
    ofLeaf env (.sym x) = .ok ⟨[⟨Real.int 1, [(x, ⟨1, 1⟩)]⟩], [⟨Real.int 1, []⟩]⟩ := by
  have e1 : Real.ofInt env.toEnv 1 = .ok (Real.rat ⟨1, 1⟩) := Real.ofInt_int h (Real.abs1 h)
  have hf : Rational.Fits env.M ⟨1, 1⟩ := ⟨Real.abs1 h, Real.abs1 h⟩
  have hsy : Syms.dropZero env.M [(x, ⟨1, 1⟩)] = .ok [(x, ⟨1, 1⟩)] := by
    unfold Syms.dropZero
    rw [Rational.eqInt_int h.hM (Real.abs1 h) (Real.abs0 h)]
    rfl
  simp only [ofLeaf]
  rw [e1, Res.bind_ok]
  unfold Term.ofSym
  rw [Rational.ofInt_eq _ _ (Real.abs1 h) h.hM, Res.bind_ok, Res.bind_ok]
  exact Frac.ofTerm_rat h hs h1 hf one_pos rfl hsy

theorem ofLeaf_ok (hg : env.toEnv.Good B) (hB : 1 ≤ B) (hs : SortOk env.sort) (h1 : ∀ t, ∃ q, env.sort [t] = .ok q)
    {l : Parser.Leaf} (hl : l.Readable env.M) :
    ∃ f, ofLeaf env l = .ok f ∧ (∀ k, NodeOk env.M B k (.frac f)) ∧ ∀ ρ, (Node.frac f).sem ρ = exprSem ρ (.leaf l) := by
  classical
  have hM := hg.M1
  have h := (hg.powOk hB).toIntOk
  have hT : ∀ n : Int, |n| ≤ env.M → TermOk env.M B ⟨Real.int n, []⟩ := fun n hn => ⟨coeOk_int hM hB hn, by simp⟩
  have hA : ∀ n : Int, 0 ≤ n → TermAtom ⟨Real.int n, []⟩ := fun n hn => ⟨rfl, rfl, Or.inl ⟨hn, rfl⟩⟩
  cases l with
  | num q =>
    obtain ⟨p, q⟩ := q
    obtain ⟨a1, a2, a3, a4, a5⟩ := hl
    simp only at a1 a2 a3 a4
    have hf : Rational.Fits env.M ⟨p, q⟩ := ⟨by rwa [abs_of_nonneg a1], by rwa [abs_of_pos a3]⟩
    have e := ofLeaf_num h hs h1 hf a3 a5
    refine ⟨_, e, fun k => ⟨⟨?_, ?_, by simp, by simp, ?_⟩, ?_⟩, fun ρ => ?_⟩
    · intro t ht; rw [List.mem_singleton] at ht; rw [ht]; exact hT p hf.1
    · intro t ht; rw [List.mem_singleton] at ht; rw [ht]; exact hT q hf.2
    · intro t ht
      injection ht with ht
      rw [← ht]
      exact hA q a3.le
    · intro _
      exact polyAt_atom (hA p a1) k
    · have hq : (q : ℝ) ≠ 0 := by exact_mod_cast a3.ne'
      simp only [Node.sem, exprSem, Frac.value, int_value, Rational.val]
      simp [Syms.value, hq, a3.ne']
  | sym x =>
    have e := ofLeaf_sym h hs h1 x
    have hx : TermOk env.M B ⟨Real.int 1, [(x, ⟨1, 1⟩)]⟩ :=
      ⟨coeOk_int hM hB (Real.abs1 h), by
        intro p hp
        rw [List.mem_singleton] at hp
        subst hp
        exact ⟨hl, by norm_num, hM, rfl⟩⟩
    have hxa : TermAtom ⟨Real.int 1, [(x, ⟨1, 1⟩)]⟩ := ⟨rfl, rfl, Or.inr ⟨rfl, _, rfl⟩⟩
    refine ⟨_, e, fun k => ⟨⟨?_, ?_, by simp, by simp, ?_⟩, ?_⟩, fun ρ => ?_⟩
    · intro t ht; rw [List.mem_singleton] at ht; rw [ht]; exact hx
    · intro t ht; rw [List.mem_singleton] at ht; rw [ht]; exact hT 1 (Real.abs1 h)
    · intro t ht
      injection ht with ht
      rw [← ht]
      exact hA 1 (by norm_num)
    · intro _
      exact polyAt_atom hxa k
    · simp only [Node.sem, exprSem, Frac.value, int_value, Rational.val]
      simp [Syms.value, Rational.val]

theorem ofExpr_ok (hg : env.toEnv.Good B) (hB : 1 ≤ B) (hs : SortOk env.sort) (h1 : ∀ t, ∃ q, env.sort [t] = .ok q)
    {e : Parser.Expr} (he : e.Readable env.M) :
    ∃ n, ofExpr env e = .ok n ∧ (∀ k, NodeOk env.M B k n) ∧ ∀ ρ, n.sem ρ = exprSem ρ e := by
  induction e with
  | leaf l =>
    obtain ⟨f, f1, f2, f3⟩ := ofLeaf_ok hg hB hs h1 he
    exact ⟨.frac f, by unfold ofExpr; rw [f1, Res.bind_ok], f2, f3⟩
  | node c a b ia ib =>
    obtain ⟨hc, ha, hb⟩ := he
    obtain ⟨x, x1, x2, x3⟩ := ia ha
    obtain ⟨y, y1, y2, y3⟩ := ib hb
    refine ⟨.op c x y, by unfold ofExpr; rw [x1, Res.bind_ok, y1, Res.bind_ok], fun k => ⟨hc, x2 _, y2 _⟩, fun ρ => ?_⟩
    show ((Node.sem ρ x).bind fun u => (Node.sem ρ y).bind fun v => opSem c u v) = _
    rw [x3 ρ, y3 ρ]
    rfl

end Node
end Symxx.Sym
