import Verif.Expr.Leaves
/-!
# Denominators are never zero

`Nz`: the two rationals of every coefficient have non-zero denominators. Every operation of the library keeps this
(`Rational` raises an `Error` rather than return a zero denominator, except in `pow`; every operation on fractions ends
with multiplications). Hence printing, whose only fallible step is the negation of a coefficient, never raises an `Error`.
-/
namespace Symxx.Num

/-- non-zero denominators. -/
def Real.Nz (r : Real) : Prop := r.coe.den ≠ 0 ∧ r.rad.den ≠ 0

/-- the floating-point steps and the factorisation raise no `Error`. -/
structure Env.Quiet (env : Env) : Prop where
  divPow : ∀ a b c m, env.fl.divPow a b c ≠ .throw m
  mulPow : ∀ a b c m, env.fl.mulPow a b c ≠ .throw m
  ofPow : ∀ a b m, env.fl.ofPow a b ≠ .throw m
  fac : ∀ n m, env.fac n ≠ .throw m
  ofPowDen : ∀ a b q, env.fl.ofPow a b = .ok q → q.den ≠ 0

namespace Rational
variable {M : Int} {a b r : Rational}

theorem ofInt_den {k : Int} (h : ofInt M k = .ok r) : r.den = 1 := by rw [(ofInt_spec h).1]

theorem mk2_den {n d : Int} (h : mk2 M n d = .ok r) : r.den ≠ 0 := by
  unfold mk2 at h
  obtain ⟨u, h1, h⟩ := Res.bind_eq_ok.1 h
  have := Res.assert_eq_ok.1 h1
  exact (normalize_spec h (by simpa using this)).2.2.1

theorem inverse_den (h : inverse M a = .ok r) : r.den ≠ 0 := mk2_den h
theorem negate_den' (h : negate M a = .ok r) : r.den ≠ 0 := by
  unfold negate at h
  obtain ⟨n, -, h⟩ := Res.bind_eq_ok.1 h
  exact mk2_den h
theorem mul_den (h : mul M a b = .ok r) : r.den ≠ 0 := (mul_spec h).2.1
theorem div_den (h : div M a b = .ok r) : r.den ≠ 0 := by
  unfold div at h
  obtain ⟨n, -, h⟩ := Res.bind_eq_ok.1 h
  exact mul_den h
theorem add_den (ha : a.den ≠ 0) (hb : b.den ≠ 0) (h : add M a b = .ok r) : r.den ≠ 0 := by
  exact ne_of_gt (add_spec ha hb h).2.2.1

end Rational

namespace Real
variable {env : Env}

theorem stripVals_nz {i : Nat} : ∀ {vs : List Nat} {rad : Int} {coe : Rational} {x : Int × Rational}, coe.den ≠ 0 →
    stripVals env i vs rad coe = .ok x → x.2.den ≠ 0 := by
  intro vs
  induction vs with
  | nil => intro rad coe x hc h; cases h; exact hc
  | cons v vs ih =>
    intro rad coe x hc h
    unfold stripVals at h
    obtain ⟨r, -, h⟩ := Res.bind_eq_ok.1 h
    obtain ⟨q, -, h⟩ := Res.bind_eq_ok.1 h
    obtain ⟨c, h1, h⟩ := Res.bind_eq_ok.1 h
    exact ih (Rational.mul_den h1) h

theorem stripWhile_nz {i : Nat} {vs : List Nat} : ∀ {f : Nat} {e : Nat} {rad : Int} {coe : Rational} {x : Int × Rational},
    coe.den ≠ 0 → stripWhile env i vs f e rad coe = .ok x → x.2.den ≠ 0 := by
  intro f
  induction f with
  | zero => intro e rad coe x _ h; cases h
  | succ f ih =>
    intro e rad coe x hc h
    unfold stripWhile at h
    split at h
    · obtain ⟨⟨r, c⟩, h1, h⟩ := Res.bind_eq_ok.1 h
      exact ih (stripVals_nz hc h1) h
    · cases h; exact hc

theorem stripAll_nz {i : Nat} : ∀ {m : FMap} {rad : Int} {coe : Rational} {x : Int × Rational}, coe.den ≠ 0 →
    stripAll env i m rad coe = .ok x → x.2.den ≠ 0 := by
  intro m
  induction m with
  | nil => intro rad coe x hc h; cases h; exact hc
  | cons p m ih =>
    intro rad coe x hc h
    obtain ⟨e, vs⟩ := p
    unfold stripAll at h
    obtain ⟨⟨r, c⟩, h1, h⟩ := Res.bind_eq_ok.1 h
    exact ih (stripWhile_nz hc h1) h

theorem normalize_nz {r r' : Real} (hr : r.Nz) (h : normalize env r = .ok r') : r'.Nz := by
  unfold normalize at h
  obtain ⟨⟨c, rd⟩, h1, h⟩ := Res.bind_eq_ok.1 h
  have h1 : c.den ≠ 0 ∧ rd.den ≠ 0 := by
    split at h1
    · obtain ⟨_, -, h1⟩ := Res.bind_eq_ok.1 h1
      obtain ⟨_, h2, h1⟩ := Res.bind_eq_ok.1 h1
      obtain ⟨_, -, h1⟩ := Res.bind_eq_ok.1 h1
      obtain ⟨_, h3, h1⟩ := Res.bind_eq_ok.1 h1
      cases h1
      exact ⟨Rational.div_den h2, Rational.mul_den h3⟩
    · cases h1; exact hr
  obtain ⟨fs, -, h⟩ := Res.bind_eq_ok.1 h
  obtain ⟨⟨rad, c'⟩, h2, h⟩ := Res.bind_eq_ok.1 h
  have h2 := stripAll_nz h1.1 h2
  obtain ⟨⟨rd', fs'⟩, h3, h⟩ := Res.bind_eq_ok.1 h
  have h3 : rd'.den ≠ 0 := by
    split at h3
    · obtain ⟨_, -, h3⟩ := Res.bind_eq_ok.1 h3
      cases h3; exact h1.2
    · cases h3; exact h1.2
  obtain ⟨⟨rd'', ix⟩, h4, h⟩ := Res.bind_eq_ok.1 h
  have h4 : rd''.den ≠ 0 := by
    split at h4
    · obtain ⟨_, -, h4⟩ := Res.bind_eq_ok.1 h4
      obtain ⟨_, h5, h4⟩ := Res.bind_eq_ok.1 h4
      cases h4
      rw [Rational.ofInt_den h5]; exact one_ne_zero
    · cases h4; exact h3
  obtain ⟨_, -, h⟩ := Res.bind_eq_ok.1 h
  obtain ⟨z, -, h⟩ := Res.bind_eq_ok.1 h
  cases z with
  | true =>
    simp only [if_true] at h
    obtain ⟨o, h5, h⟩ := Res.bind_eq_ok.1 h
    cases h
    exact ⟨h2, by rw [Rational.ofInt_den h5]; exact one_ne_zero⟩
  | false =>
    simp only [Bool.false_eq_true, if_false] at h
    cases h
    exact ⟨h2, h4⟩

theorem mk3_nz {c r : Rational} {i : Nat} {x : Real} (hc : c.den ≠ 0) (hr : r.den ≠ 0) (h : mk3 env c r i = .ok x) : x.Nz :=
  normalize_nz ⟨hc, hr⟩ h

theorem ofRational_nz {c : Rational} {x : Real} (hc : c.den ≠ 0) (h : ofRational env c = .ok x) : x.Nz := by
  unfold ofRational at h
  obtain ⟨o, h1, h⟩ := Res.bind_eq_ok.1 h
  exact mk3_nz hc (by rw [Rational.ofInt_den h1]; exact one_ne_zero) h

theorem ofInt_nz {k : Int} {x : Real} (h : ofInt env k = .ok x) : x.Nz := by
  unfold ofInt at h
  obtain ⟨o, h1, h⟩ := Res.bind_eq_ok.1 h
  exact ofRational_nz (by rw [Rational.ofInt_den h1]; exact one_ne_zero) h

theorem add_nz {a b r : Real} (ha : a.Nz) (hb : b.Nz) (h : add env a b = .ok r) : r.Nz := by
  unfold add at h
  obtain ⟨e, -, h⟩ := Res.bind_eq_ok.1 h
  split at h
  · cases h
  · obtain ⟨c, h1, h⟩ := Res.bind_eq_ok.1 h
    exact normalize_nz (r := { a with coe := c }) ⟨Rational.add_den ha.1 hb.1 h1, ha.2⟩ h

theorem negate_nz {a r : Real} (ha : a.Nz) (h : negate env a = .ok r) : r.Nz := by
  unfold negate at h
  obtain ⟨c, h1, h⟩ := Res.bind_eq_ok.1 h
  exact mk3_nz (Rational.negate_den' h1) ha.2 h

theorem mul_nz {a b r : Real} (h : mul env a b = .ok r) : r.Nz := by
  unfold mul at h
  obtain ⟨l, -, h⟩ := Res.bind_eq_ok.1 h
  split at h
  · cases h
  · obtain ⟨_, -, h⟩ := Res.bind_eq_ok.1 h
    obtain ⟨_, -, h⟩ := Res.bind_eq_ok.1 h
    obtain ⟨_, -, h⟩ := Res.bind_eq_ok.1 h
    obtain ⟨_, -, h⟩ := Res.bind_eq_ok.1 h
    obtain ⟨rad, h1, h⟩ := Res.bind_eq_ok.1 h
    obtain ⟨c, h2, h⟩ := Res.bind_eq_ok.1 h
    exact normalize_nz (r := ⟨l, rad, c⟩) ⟨Rational.mul_den h2, Rational.mul_den h1⟩ h

theorem div_nz {a b r : Real} (h : div env a b = .ok r) : r.Nz := by
  unfold div at h
  obtain ⟨i, -, h⟩ := Res.bind_eq_ok.1 h
  exact mul_nz h


end Real
end Symxx.Num

namespace Symxx.Sym
open Symxx.Num

def Term.Nz (t : Term) : Prop := t.coe.Nz
def Poly.Nz (p : Poly) : Prop := ∀ t ∈ p, Term.Nz t
def Frac.Nz (f : Frac) : Prop := Poly.Nz f.num ∧ Poly.Nz f.den
def Node.Nz : Node → Prop
  | .frac f => f.Nz
  | .op _ l r => Node.Nz l ∧ Node.Nz r

variable {env : FEnv}

namespace Term
variable {e : Env}

theorem ofInt_nz {n : Int} {t : Term} (h : ofInt e n = .ok t) : t.Nz := by
  unfold ofInt at h
  obtain ⟨c, h1, h⟩ := Res.bind_eq_ok.1 h
  cases h
  exact Real.ofInt_nz h1
theorem mk'_coe {c : Num.Real} {s : Syms} {t : Term} (h : mk' e c s = .ok t) : t.coe = c := by
  unfold mk' at h
  obtain ⟨u, h1, h⟩ := Res.bind_eq_ok.1 h
  cases h; rfl
theorem mul_nz {a b t : Term} (h : mul e a b = .ok t) : t.Nz := by
  unfold mul at h
  obtain ⟨u, -, h⟩ := Res.bind_eq_ok.1 h
  obtain ⟨c, h1, h⟩ := Res.bind_eq_ok.1 h
  obtain ⟨v, -, h⟩ := Res.bind_eq_ok.1 h
  cases h
  exact Real.mul_nz h1
theorem divReal_nz {a t : Term} {r : Num.Real} (h : divReal e a r = .ok t) : t.Nz := by
  unfold divReal at h
  obtain ⟨c, h1, h⟩ := Res.bind_eq_ok.1 h
  obtain ⟨v, -, h⟩ := Res.bind_eq_ok.1 h
  cases h
  exact Real.div_nz h1
theorem negate_nz {a t : Term} (ha : a.Nz) (h : negate e a = .ok t) : t.Nz := by
  unfold negate at h
  obtain ⟨c, h1, h⟩ := Res.bind_eq_ok.1 h
  unfold Nz
  rw [mk'_coe h]
  exact Real.negate_nz ha h1
end Term

namespace Poly
theorem nz_cons {t : Term} {p : Poly} : Nz (t :: p) ↔ t.Nz ∧ Nz p := by unfold Nz; simp
theorem nz_append {p q : Poly} : Nz (p ++ q) ↔ Nz p ∧ Nz q := by
  unfold Nz
  simp only [List.mem_append]
  exact ⟨fun h => ⟨fun t ht => h t (Or.inl ht), fun t ht => h t (Or.inr ht)⟩, fun h t ht => ht.elim (h.1 t) (h.2 t)⟩
theorem Nz.nil : Nz [] := fun _ h => by simp at h

theorem mergeAdj_nz {e : Env} (n : Nat) : ∀ {p q : Poly}, p.length ≤ n → Nz p → mergeAdj e p = .ok q → Nz q := by
  induction n with
  | zero =>
    intro p q hl hp h
    have : p = [] := List.length_eq_zero_iff.1 (by omega)
    subst this
    unfold mergeAdj at h
    cases h; exact hp
  | succ n ih =>
    intro p q hl hp h
    match p with
    | [] => unfold mergeAdj at h; cases h; exact hp
    | [t] => unfold mergeAdj at h; cases h; exact hp
    | a :: b :: rest =>
      unfold mergeAdj at h
      obtain ⟨x, -, h⟩ := Res.bind_eq_ok.1 h
      obtain ⟨ha, hb⟩ := nz_cons.1 hp
      simp only [List.length_cons] at hl
      cases x with
      | true =>
        simp only [if_true] at h
        obtain ⟨c, h0, h⟩ := Res.bind_eq_ok.1 h
        obtain ⟨t, h1, h⟩ := Res.bind_eq_ok.1 h
        refine ih (by simp only [List.length_cons]; omega) (nz_cons.2 ⟨?_, (nz_cons.1 hb).2⟩) h
        unfold Term.Nz
        rw [Term.mk'_coe h1]
        exact Real.add_nz ha (nz_cons.1 hb).1 h0
      | false =>
        simp only [Bool.false_eq_true, if_false] at h
        obtain ⟨r, h1, h⟩ := Res.bind_eq_ok.1 h
        cases h
        exact nz_cons.2 ⟨ha, ih (by simp only [List.length_cons]; omega) hb h1⟩

theorem mapM_nz {f : Term → Res Term} : ∀ {p q : Poly}, (∀ t ∈ p, ∀ u, f t = .ok u → u.Nz) → mapM f p = .ok q → Nz q := by
  intro p
  induction p with
  | nil => intro q _ h; cases h; exact Nz.nil
  | cons t ts ih =>
    intro q hp h
    unfold mapM at h
    obtain ⟨u, h1, h⟩ := Res.bind_eq_ok.1 h
    obtain ⟨us, h2, h⟩ := Res.bind_eq_ok.1 h
    cases h
    exact nz_cons.2 ⟨hp t (by simp) _ h1, ih (fun t ht => hp t (by simp [ht])) h2⟩

theorem products_nz {e : Env} {q : Poly} : ∀ {p r : Poly}, products e p q = .ok r → Nz r := by
  intro p
  induction p with
  | nil => intro r h; cases h; exact Nz.nil
  | cons t ts ih =>
    intro r h
    unfold products at h
    obtain ⟨u, h1, h⟩ := Res.bind_eq_ok.1 h
    obtain ⟨us, h2, h⟩ := Res.bind_eq_ok.1 h
    cases h
    exact nz_append.2 ⟨mapM_nz (fun _ _ _ hy => Term.mul_nz hy) h1, ih h2⟩

section
variable (hs : SortOk env.sort)
include hs

theorem normalize_nz {p q : Poly} (hp : Nz p) (h : normalize env p = .ok q) : Nz q := by
  unfold normalize at h
  obtain ⟨r, h1, h⟩ := Res.bind_eq_ok.1 h
  exact mergeAdj_nz r.length le_rfl (fun t ht => hp t ((hs _ _ h1).mem_iff.1 ht)) h

theorem addAssign_nz {p q r : Poly} (hp : Nz p) (hq : Nz q) (h : addAssign env p q = .ok r) : Nz r :=
  normalize_nz hs (nz_append.2 ⟨hp, hq⟩) h

theorem mulAssign_nz {p q r : Poly} (h : mulAssign env p q = .ok r) : Nz r := by
  unfold mulAssign at h
  obtain ⟨n, h1, h⟩ := Res.bind_eq_ok.1 h
  exact normalize_nz hs (products_nz h1) h

theorem divReal_nz {p r : Poly} {c : Num.Real} (h : divReal env p c = .ok r) : Nz r := by
  unfold divReal at h
  obtain ⟨n, h1, h⟩ := Res.bind_eq_ok.1 h
  exact normalize_nz hs (mapM_nz (fun _ _ _ hy => Term.divReal_nz hy) h1) h

end
end Poly

namespace Frac
variable (hs : SortOk env.sort)

theorem scaleAll_nz {e : Env} {m : Int} {p q : Poly} (h : scaleAll e m p = .ok q) : Poly.Nz q := by
  refine Poly.mapM_nz (fun t _ u hu => ?_) h
  obtain ⟨x, h1, hu⟩ := Res.bind_eq_ok.1 hu
  exact Term.mul_nz hu

include hs
theorem normalize_nz {f g : Frac} (h : normalize env f = .ok g) : g.Nz := by
  unfold normalize at h
  obtain ⟨n, h1, h⟩ := Res.bind_eq_ok.1 h
  obtain ⟨d, h2, h⟩ := Res.bind_eq_ok.1 h
  obtain ⟨_, -, h⟩ := Res.bind_eq_ok.1 h
  obtain ⟨_, -, h⟩ := Res.bind_eq_ok.1 h
  obtain ⟨n', h3, h⟩ := Res.bind_eq_ok.1 h
  obtain ⟨d', h4, h⟩ := Res.bind_eq_ok.1 h
  split at h
  · obtain ⟨_, -, h⟩ := Res.bind_eq_ok.1 h
    obtain ⟨_, -, h⟩ := Res.bind_eq_ok.1 h
    obtain ⟨_, -, h⟩ := Res.bind_eq_ok.1 h
    obtain ⟨o, -, h⟩ := Res.bind_eq_ok.1 h
    cases o with
    | none => cases h; exact ⟨scaleAll_nz h3, scaleAll_nz h4⟩
    | some g =>
      obtain ⟨_, -, h⟩ := Res.bind_eq_ok.1 h
      obtain ⟨_, h5, h⟩ := Res.bind_eq_ok.1 h
      obtain ⟨_, h6, h⟩ := Res.bind_eq_ok.1 h
      cases h
      exact ⟨Poly.divReal_nz hs h5, Poly.divReal_nz hs h6⟩
  · cases h

theorem ofTerm_nz {t : Term} {f : Frac} (h : ofTerm env t = .ok f) : f.Nz := by
  unfold ofTerm ofPoly at h
  obtain ⟨p, -, h⟩ := Res.bind_eq_ok.1 h
  obtain ⟨d, -, h⟩ := Res.bind_eq_ok.1 h
  exact normalize_nz hs h

theorem mk2_nz {n d : Poly} {f : Frac} (h : mk2 env n d = .ok f) : f.Nz := by
  unfold mk2 at h
  obtain ⟨_, -, h⟩ := Res.bind_eq_ok.1 h
  obtain ⟨_, -, h⟩ := Res.bind_eq_ok.1 h
  exact normalize_nz hs h

theorem add_nz {a b f : Frac} (ha : a.Nz) (hb : b.Nz) (h : add env a b = .ok f) : f.Nz := by
  unfold add at h
  obtain ⟨x, -, h⟩ := Res.bind_eq_ok.1 h
  split at h
  · obtain ⟨n, h1, h⟩ := Res.bind_eq_ok.1 h
    cases h
    exact ⟨Poly.addAssign_nz hs ha.1 hb.1 h1, ha.2⟩
  · obtain ⟨x, -, h⟩ := Res.bind_eq_ok.1 h
    obtain ⟨y, -, h⟩ := Res.bind_eq_ok.1 h
    obtain ⟨n, -, h⟩ := Res.bind_eq_ok.1 h
    obtain ⟨d, -, h⟩ := Res.bind_eq_ok.1 h
    exact normalize_nz hs h

theorem negate_nz {a f : Frac} (h : negate env a = .ok f) : f.Nz := by
  unfold negate at h
  obtain ⟨n, -, h⟩ := Res.bind_eq_ok.1 h
  exact mk2_nz hs h

theorem sub_nz {a b f : Frac} (ha : a.Nz) (h : sub env a b = .ok f) : f.Nz := by
  unfold sub at h
  obtain ⟨n, h1, h⟩ := Res.bind_eq_ok.1 h
  exact add_nz hs ha (negate_nz hs h1) h

theorem mul_nz {a b f : Frac} (h : mul env a b = .ok f) : f.Nz := by
  unfold mul at h
  obtain ⟨n, -, h⟩ := Res.bind_eq_ok.1 h
  obtain ⟨d, -, h⟩ := Res.bind_eq_ok.1 h
  exact normalize_nz hs h

theorem div_nz {a b f : Frac} (h : div env a b = .ok f) : f.Nz := by
  unfold div at h
  obtain ⟨_, -, h⟩ := Res.bind_eq_ok.1 h
  obtain ⟨_, -, h⟩ := Res.bind_eq_ok.1 h
  obtain ⟨n, -, h⟩ := Res.bind_eq_ok.1 h
  obtain ⟨d, -, h⟩ := Res.bind_eq_ok.1 h
  exact normalize_nz hs h

theorem pow_nz {a f : Frac} {i : Rational} (h : pow env a i = .ok f) : f.Nz := by
  unfold pow at h
  obtain ⟨o, -, h⟩ := Res.bind_eq_ok.1 h
  cases o with
  | some r =>
    obtain ⟨x, -, h⟩ := Res.bind_eq_ok.1 h
    exact ofTerm_nz hs h
  | none =>
    obtain ⟨n, -, h⟩ := Res.bind_eq_ok.1 h
    obtain ⟨d, -, h⟩ := Res.bind_eq_ok.1 h
    exact normalize_nz hs h

theorem substitute_nz {s : List (List Char × Num.Real)} {a f : Frac} (h : substitute env s a = .ok f) : f.Nz := by
  unfold substitute at h
  obtain ⟨n, -, h⟩ := Res.bind_eq_ok.1 h
  obtain ⟨d, -, h⟩ := Res.bind_eq_ok.1 h
  obtain ⟨r, h1, h⟩ := Res.bind_eq_ok.1 h
  obtain ⟨_, -, h⟩ := Res.bind_eq_ok.1 h
  obtain ⟨_, -, h⟩ := Res.bind_eq_ok.1 h
  cases h
  exact normalize_nz hs h1

end Frac

namespace Node
variable (hs : SortOk env.sort)
include hs

theorem ofExpr_nz {e : Parser.Expr} {n : Node} (h : ofExpr env e = .ok n) : n.Nz := by
  induction e generalizing n with
  | leaf l =>
    unfold ofExpr at h
    obtain ⟨f, h1, h⟩ := Res.bind_eq_ok.1 h
    cases h
    unfold ofLeaf at h1
    cases l with
    | num q =>
      obtain ⟨r, -, h1⟩ := Res.bind_eq_ok.1 h1
      exact Frac.ofTerm_nz hs h1
    | sym x =>
      obtain ⟨_, -, h1⟩ := Res.bind_eq_ok.1 h1
      obtain ⟨_, -, h1⟩ := Res.bind_eq_ok.1 h1
      exact Frac.ofTerm_nz hs h1
  | node c a b ia ib =>
    unfold ofExpr at h
    obtain ⟨x, h1, h⟩ := Res.bind_eq_ok.1 h
    obtain ⟨y, h2, h⟩ := Res.bind_eq_ok.1 h
    cases h
    exact ⟨ia h1, ib h2⟩

theorem evalOp_nz {c : Char} {a b f : Frac} (ha : a.Nz) (hb : b.Nz) (h : evalOp env c a b = .ok (some f)) : f.Nz := by
  unfold evalOp at h
  split at h
  · obtain ⟨r, h1, h⟩ := Res.bind_eq_ok.1 h
    cases h
    exact Frac.add_nz hs ha hb h1
  split at h
  · obtain ⟨r, h1, h⟩ := Res.bind_eq_ok.1 h
    cases h
    exact Frac.sub_nz hs ha h1
  split at h
  · obtain ⟨r, h1, h⟩ := Res.bind_eq_ok.1 h
    cases h
    exact Frac.mul_nz hs h1
  split at h
  · obtain ⟨r, h1, h⟩ := Res.bind_eq_ok.1 h
    cases h
    exact Frac.div_nz hs h1
  split at h
  · obtain ⟨o, -, h⟩ := Res.bind_eq_ok.1 h
    cases o with
    | none => cases h
    | some p =>
      obtain ⟨x, -, h⟩ := Res.bind_eq_ok.1 h
      cases x with
      | true =>
        obtain ⟨q, -, h⟩ := Res.bind_eq_ok.1 h
        obtain ⟨r, h1, h⟩ := Res.bind_eq_ok.1 h
        cases h
        exact Frac.pow_nz hs h1
      | false => cases h
  · cases h

theorem tryEval_nz {n : Node} (hn : n.Nz) {f : Frac} (h : tryEval env n = .ok (some f)) : f.Nz := by
  induction n generalizing f with
  | frac g => cases h; exact hn
  | op c l r il ir =>
    unfold tryEval at h
    obtain ⟨lv, h1, h⟩ := Res.bind_eq_ok.1 h
    obtain ⟨rv, h2, h⟩ := Res.bind_eq_ok.1 h
    cases lv with
    | none => cases h
    | some a =>
      cases rv with
      | none => cases h
      | some b => exact evalOp_nz hs (il hn.1 h1) (ir hn.2 h2) h

theorem normalize_nz {n m : Node} (hn : n.Nz) (h : normalize env n = .ok m) : m.Nz := by
  induction n generalizing m with
  | frac g => cases h; exact hn
  | op c l r il ir =>
    unfold normalize at h
    obtain ⟨lv, h1, h⟩ := Res.bind_eq_ok.1 h
    obtain ⟨rv, h2, h⟩ := Res.bind_eq_ok.1 h
    have fb : ∀ m, (do
        let r ← normalize env r
        let l ← normalize env l
        .ok (Node.op c l r) : Res Node) = .ok m → m.Nz := by
      intro m h
      obtain ⟨r', h3, h⟩ := Res.bind_eq_ok.1 h
      obtain ⟨l', h4, h⟩ := Res.bind_eq_ok.1 h
      cases h
      exact ⟨il hn.1 h4, ir hn.2 h3⟩
    cases lv with
    | none => exact fb m h
    | some a =>
      cases rv with
      | none => exact fb m h
      | some b =>
        have ha := tryEval_nz hs hn.1 h1
        have hb := tryEval_nz hs hn.2 h2
        simp only at h
        split at h
        · obtain ⟨x, h3, h⟩ := Res.bind_eq_ok.1 h
          cases h
          exact Frac.add_nz hs ha hb h3
        split at h
        · obtain ⟨x, h3, h⟩ := Res.bind_eq_ok.1 h
          cases h
          exact Frac.sub_nz hs ha h3
        split at h
        · obtain ⟨x, h3, h⟩ := Res.bind_eq_ok.1 h
          cases h
          exact Frac.mul_nz hs h3
        split at h
        · obtain ⟨x, h3, h⟩ := Res.bind_eq_ok.1 h
          cases h
          exact Frac.div_nz hs h3
        split at h
        · obtain ⟨p, -, h⟩ := Res.bind_eq_ok.1 h
          obtain ⟨q, -, h⟩ := Res.bind_eq_ok.1 h
          cases q with
          | none =>
            obtain ⟨l', h4, h⟩ := Res.bind_eq_ok.1 h
            obtain ⟨r', h3, h⟩ := Res.bind_eq_ok.1 h
            cases h
            exact ⟨il hn.1 h4, ir hn.2 h3⟩
          | some q =>
            obtain ⟨x, h3, h⟩ := Res.bind_eq_ok.1 h
            cases h
            exact Frac.pow_nz hs h3
        · cases h

theorem substitute_nz {s : List (List Char × Num.Real)} {n m : Node} (h : substitute env s n = .ok m) : m.Nz := by
  induction n generalizing m with
  | frac f =>
    unfold substitute at h
    obtain ⟨g, h1, h⟩ := Res.bind_eq_ok.1 h
    cases h
    exact Frac.substitute_nz hs h1
  | op c l r il ir =>
    unfold substitute at h
    obtain ⟨l', h1, h⟩ := Res.bind_eq_ok.1 h
    obtain ⟨r', h2, h⟩ := Res.bind_eq_ok.1 h
    exact normalize_nz hs (n := .op c l' r') ⟨il h1, ir h2⟩ h

theorem ofText_nz {dec : List Char → Res Rational} {s : List Char} {n : Node} (h : ofText env dec s = .ok n) : n.Nz := by
  unfold ofText at h
  obtain ⟨e, -, h⟩ := Res.bind_eq_ok.1 h
  exact ofExpr_nz hs h

end Node

end Symxx.Sym

/-! ### no `Error` -/

/-- no `Error` is raised. -/
def Symxx.Res.NoThrow {α : Type} (x : Res α) : Prop := ∀ m, x ≠ .throw m

namespace Symxx.Res.NoThrow
variable {α β : Type}

theorem ok (a : α) : NoThrow (.ok a) := fun _ h => by cases h
theorem ub (m : String) : NoThrow (.ub m : Res α) := fun _ h => by cases h
theorem fuel : NoThrow (.fuel : Res α) := fun _ h => by cases h
theorem bind {x : Res α} {f : α → Res β} (hx : NoThrow x) (hf : ∀ a, x = .ok a → NoThrow (f a)) : NoThrow (x >>= f) := by
  intro m h
  cases x with
  | ok a => exact hf a rfl m h
  | throw m' => exact hx m' rfl
  | exn m' => cases h
  | ub m' => cases h
  | fuel => cases h
theorem of_clean {x : Res α} (h : x.Clean) : NoThrow x := by
  intro m e
  rcases h with ⟨a, rfl⟩ | ⟨w, rfl⟩ <;> cases e
theorem ite {c : Prop} [Decidable c] {x y : Res α} (hx : NoThrow x) (hy : NoThrow y) : NoThrow (if c then x else y) := by
  split
  · exact hx
  · exact hy

end Symxx.Res.NoThrow

namespace Symxx.Num
open Symxx.Res

namespace Rational
variable {M : Int} {a b : Rational}

theorem eqInt_nt {k : Int} : (eqInt M a k).NoThrow := by
  unfold eqInt eq
  exact .bind (.of_clean (ofInt_clean _ _)) fun _ _ => .bind (.of_clean (cross_clean _ _ _)) fun _ _ => .ok _
theorem eq_nt : (eq M a b).NoThrow := .bind (.of_clean (cross_clean _ _ _)) fun _ _ => .ok _
theorem le_nt : (le M a b).NoThrow := .bind (.of_clean (cross_clean _ _ _)) fun _ _ => .ok _
theorem ge_nt : (ge M a b).NoThrow := .bind (.of_clean (cross_clean _ _ _)) fun _ _ => .ok _

end Rational

namespace Real
variable {env : Env} (hq : env.Quiet)
include hq

theorem stripVals_nt {i : Nat} : ∀ {vs : List Nat} {rad : Int} {coe : Rational}, coe.den ≠ 0 →
    (stripVals env i vs rad coe).NoThrow := by
  intro vs
  induction vs with
  | nil => intro rad coe _; exact .ok _
  | cons v vs ih =>
    intro rad coe hc
    unfold stripVals
    exact .bind (hq.divPow _ _ _) fun r _ => .bind (.of_clean (Rational.ofInt_clean _ _)) fun x hx =>
      .bind (.of_clean (Rational.mul_clean _ _ _ hc (by rw [Rational.ofInt_den hx]; exact one_ne_zero))) fun c hc' =>
        ih (Rational.mul_den hc')

theorem stripWhile_nt {i : Nat} {vs : List Nat} : ∀ {f : Nat} {e : Nat} {rad : Int} {coe : Rational},
    coe.den ≠ 0 → (stripWhile env i vs f e rad coe).NoThrow := by
  intro f
  induction f with
  | zero => intro e rad coe _; exact .fuel
  | succ f ih =>
    intro e rad coe hc
    unfold stripWhile
    split
    · exact .bind (stripVals_nt hq hc) fun x hx => ih (stripVals_nz hc hx)
    · exact .ok _

theorem stripAll_nt {i : Nat} : ∀ {m : FMap} {rad : Int} {coe : Rational}, coe.den ≠ 0 →
    (stripAll env i m rad coe).NoThrow := by
  intro m
  induction m with
  | nil => intro rad coe _; exact .ok _
  | cons p m ih =>
    intro rad coe hc
    obtain ⟨e, vs⟩ := p
    unfold stripAll
    exact .bind (stripWhile_nt hq hc) fun x hx => ih (stripWhile_nz hc hx)

theorem rebuildVals_nt {k : Nat} : ∀ {vs : List Nat} {rad : Int}, (rebuildVals env k vs rad).NoThrow := by
  intro vs
  induction vs with
  | nil => intro rad; exact .ok _
  | cons v vs ih =>
    intro rad
    unfold rebuildVals
    exact .bind (hq.mulPow _ _ _) fun _ _ => ih

theorem rebuild_nt {g : Nat} : ∀ {m : FMap} {rad : Int}, (rebuild env g m rad).NoThrow := by
  intro m
  induction m with
  | nil => intro rad; exact .ok _
  | cons p m ih =>
    intro rad
    obtain ⟨e, vs⟩ := p
    unfold rebuild
    exact .bind (rebuildVals_nt hq) fun _ _ => ih

theorem decompose_nt {n : Int} : (decompose env n).NoThrow := .bind (hq.fac _) fun _ _ => .ok _

theorem normalize_nt {r : Real} (hr : r.Nz) : (normalize env r).NoThrow := by
  unfold normalize
  refine .bind ?_ fun x hx => ?_
  · split
    · refine .bind (.of_clean (Rational.ofInt_clean _ _)) fun d hd => .bind (.of_clean (Rational.div_clean _ _ _ hr.1 ?_))
        fun c hc => .bind (hq.ofPow _ _) fun p hp => .bind (.of_clean (Rational.mul_clean _ _ _ hr.2 (hq.ofPowDen _ _ _ hp)))
        fun _ _ => .ok _
      rw [(Rational.ofInt_spec hd).1]
      exact hr.2
    · exact .ok _
  · have hx : x.1.den ≠ 0 := by
      split at hx
      · obtain ⟨_, -, hx⟩ := Res.bind_eq_ok.1 hx
        obtain ⟨_, h2, hx⟩ := Res.bind_eq_ok.1 hx
        obtain ⟨_, -, hx⟩ := Res.bind_eq_ok.1 hx
        obtain ⟨_, h3, hx⟩ := Res.bind_eq_ok.1 hx
        cases hx
        exact Rational.div_den h2
      · cases hx; exact hr.1
    refine .bind (decompose_nt hq) fun fs _ => .bind (stripAll_nt hq hx) fun y _ => .bind ?_ fun z _ => .bind ?_ fun w _ =>
      .bind Rational.eqInt_nt fun _ _ => .bind Rational.eqInt_nt fun _ _ => ?_
    · split
      · exact .bind (decompose_nt hq) fun _ _ => .ok _
      · exact .ok _
    · split
      · exact .bind (rebuild_nt hq) fun _ _ => .bind (.of_clean (Rational.ofInt_clean _ _)) fun _ _ => .ok _
      · exact .ok _
    · split
      · exact .bind (.of_clean (Rational.ofInt_clean _ _)) fun _ _ => .ok _
      · exact .ok _

theorem ofInt_nt {k : Int} : (ofInt env k).NoThrow := by
  unfold ofInt ofRational mk3
  exact .bind (.of_clean (Rational.ofInt_clean _ _)) fun x hx => .bind (.of_clean (Rational.ofInt_clean _ _)) fun y hy =>
    normalize_nt hq ⟨by rw [Rational.ofInt_den hx]; exact one_ne_zero, by rw [Rational.ofInt_den hy]; exact one_ne_zero⟩

theorem negate_nt {a : Real} (ha : a.Nz) : (negate env a).NoThrow := by
  unfold negate mk3
  exact .bind (.of_clean (Rational.negate_clean _ _ ha.1)) fun c hc => normalize_nt hq ⟨Rational.negate_den' hc, ha.2⟩

omit hq in
theorem eq_nt {a b : Real} : (eq env a b).NoThrow := by
  unfold eq
  refine .bind Rational.eq_nt fun _ _ => .ite (.bind Rational.eq_nt fun _ _ => .ite (.ok _) (.ok _)) (.ok _)

omit hq in
theorem isRational_nt {a : Real} : (isRational env a).NoThrow := by
  unfold isRational
  exact .bind Rational.eqInt_nt fun _ _ => .ite (.ok _) (.bind Rational.eqInt_nt fun _ _ => .ite (.ok _)
    (.bind Rational.eqInt_nt fun _ _ => .ite (.ok _) (.ok _)))

omit hq in
theorem toStr_nt {a : Real} : (toStr env a).NoThrow := by
  unfold toStr
  refine .bind Rational.eqInt_nt fun _ _ => .ite (.ok _) (.bind isRational_nt fun _ _ => .ite (.ok _)
    (.bind Rational.eqInt_nt fun _ _ => .bind (.ite (.ok _) Rational.eqInt_nt) fun _ _ => .ok _))

omit hq in
theorem mul_zero_num {M : Int} {a b r : Rational} (ha : a.num = 0) (h : Rational.mul M a b = .ok r) : r.num = 0 := by
  obtain ⟨h1, h2, -⟩ := Rational.mul_spec h
  unfold Rational.val at h1
  rw [ha, Int.cast_zero, zero_div, zero_mul, div_eq_zero_iff] at h1
  rcases h1 with h1 | h1
  · exact_mod_cast h1
  · exact absurd (by exact_mod_cast h1) h2

omit hq in
theorem stripVals_zero {i : Nat} : ∀ {vs : List Nat} {rad : Int} {coe : Rational} {x : Int × Rational}, coe.num = 0 →
    stripVals env i vs rad coe = .ok x → x.2.num = 0 := by
  intro vs
  induction vs with
  | nil => intro rad coe x hc h; cases h; exact hc
  | cons v vs ih =>
    intro rad coe x hc h
    unfold stripVals at h
    obtain ⟨r, -, h⟩ := Res.bind_eq_ok.1 h
    obtain ⟨q, -, h⟩ := Res.bind_eq_ok.1 h
    obtain ⟨c, h1, h⟩ := Res.bind_eq_ok.1 h
    exact ih (mul_zero_num hc h1) h

omit hq in
theorem stripWhile_zero {i : Nat} {vs : List Nat} : ∀ {f : Nat} {e : Nat} {rad : Int} {coe : Rational} {x : Int × Rational},
    coe.num = 0 → stripWhile env i vs f e rad coe = .ok x → x.2.num = 0 := by
  intro f
  induction f with
  | zero => intro e rad coe x _ h; cases h
  | succ f ih =>
    intro e rad coe x hc h
    unfold stripWhile at h
    split at h
    · obtain ⟨⟨r, c⟩, h1, h⟩ := Res.bind_eq_ok.1 h
      exact ih (stripVals_zero hc h1) h
    · cases h; exact hc

omit hq in
theorem stripAll_zero {i : Nat} : ∀ {m : FMap} {rad : Int} {coe : Rational} {x : Int × Rational}, coe.num = 0 →
    stripAll env i m rad coe = .ok x → x.2.num = 0 := by
  intro m
  induction m with
  | nil => intro rad coe x hc h; cases h; exact hc
  | cons p m ih =>
    intro rad coe x hc h
    obtain ⟨e, vs⟩ := p
    unfold stripAll at h
    obtain ⟨⟨r, c⟩, h1, h⟩ := Res.bind_eq_ok.1 h
    exact ih (stripWhile_zero hc h1) h

omit hq in
/-- the zero made for a comparison. -/
theorem ofInt_zero {z : Real} (h : ofInt env 0 = .ok z) : z.coe.num = 0 := by
  unfold ofInt ofRational mk3 normalize at h
  obtain ⟨c, h1, h⟩ := Res.bind_eq_ok.1 h
  obtain ⟨o, h2, h⟩ := Res.bind_eq_ok.1 h
  have e1 := (Rational.ofInt_spec h1).1
  have e2 := (Rational.ofInt_spec h2).1
  subst e1 e2
  obtain ⟨⟨c, rd⟩, h1, h⟩ := Res.bind_eq_ok.1 h
  simp only [Rational.isInt, decide_true, Bool.not_true, Bool.false_eq_true, if_false] at h1
  cases h1
  obtain ⟨fs, -, h⟩ := Res.bind_eq_ok.1 h
  obtain ⟨⟨rad, c'⟩, h2, h⟩ := Res.bind_eq_ok.1 h
  have h2 := stripAll_zero rfl h2
  obtain ⟨⟨rd', fs'⟩, h3, h⟩ := Res.bind_eq_ok.1 h
  obtain ⟨⟨rd'', ix⟩, h4, h⟩ := Res.bind_eq_ok.1 h
  obtain ⟨_, -, h⟩ := Res.bind_eq_ok.1 h
  obtain ⟨z, -, h⟩ := Res.bind_eq_ok.1 h
  cases z with
  | true =>
    simp only [if_true] at h
    obtain ⟨o, h5, h⟩ := Res.bind_eq_ok.1 h
    cases h
    exact h2
  | false =>
    simp only [Bool.false_eq_true, if_false] at h
    cases h
    exact h2

omit hq in
theorem leZero_nt {a : Rational} : (leZero env a).NoThrow :=
  .bind (.of_clean (Rational.ofInt_clean _ _)) fun _ _ => Rational.le_nt
omit hq in
theorem geZero_nt {a : Rational} : (geZero env a).NoThrow :=
  .bind (.of_clean (Rational.ofInt_clean _ _)) fun _ _ => Rational.ge_nt

omit hq in
theorem leZero_num {a : Rational} {b : Bool} (h : leZero env a = .ok b) : b = decide (a.num ≤ 0) := by
  unfold leZero Rational.le Rational.cross at h
  obtain ⟨z, h1, h⟩ := Res.bind_eq_ok.1 h
  rw [(Rational.ofInt_spec h1).1] at h
  obtain ⟨⟨x, y⟩, h2, h⟩ := Res.bind_eq_ok.1 h
  obtain ⟨x', h3, h2⟩ := Res.bind_eq_ok.1 h2
  obtain ⟨y', h4, h2⟩ := Res.bind_eq_ok.1 h2
  cases h2
  rw [(chk_eq_ok.1 h3).2, (chk_eq_ok.1 h4).2] at h
  cases h
  simp
omit hq in
theorem geZero_num {a : Rational} {b : Bool} (h : geZero env a = .ok b) : b = decide (0 ≤ a.num) := by
  unfold geZero Rational.ge Rational.cross at h
  obtain ⟨z, h1, h⟩ := Res.bind_eq_ok.1 h
  rw [(Rational.ofInt_spec h1).1] at h
  obtain ⟨⟨x, y⟩, h2, h⟩ := Res.bind_eq_ok.1 h
  obtain ⟨x', h3, h2⟩ := Res.bind_eq_ok.1 h2
  obtain ⟨y', h4, h2⟩ := Res.bind_eq_ok.1 h2
  cases h2
  rw [(chk_eq_ok.1 h3).2, (chk_eq_ok.1 h4).2] at h
  cases h
  simp

omit hq in
/-- comparison with zero. -/
theorem lt_nt {a z : Real} (hz : z.coe.num = 0) : (lt env a z).NoThrow := by
  unfold lt
  refine .bind eq_nt fun e _ => .ite (.ok _) (.bind leZero_nt fun al hal => .bind (.ite geZero_nt (.ok _)) fun bg hbg => ?_)
  split
  · exact .ok _
  · rename_i h1
    refine .bind geZero_nt fun ag hag => .bind (.ite leZero_nt (.ok _)) fun bl hbl => ?_
    split
    · exact .ok _
    · rename_i h2
      exfalso
      have hal := leZero_num hal
      have hag := geZero_num hag
      rcases le_total a.coe.num 0 with hc | hc
      · have ha : al = true := by rw [hal]; simpa using hc
        rw [ha] at hbg h1
        simp only [if_true] at hbg
        have := geZero_num hbg
        rw [hz] at this
        simp [this] at h1
      · have ha : ag = true := by rw [hag]; simpa using hc
        rw [ha] at hbl h2
        simp only [if_true] at hbl
        have := leZero_num hbl
        rw [hz] at this
        simp [this] at h2

end Real
end Symxx.Num

namespace Symxx.Sym
open Symxx.Num Symxx.Res

namespace Term
variable {env : Env} (hq : env.Quiet)

theorem symsStr_nt : ∀ {s : Syms}, (symsStr env s).NoThrow := by
  intro s
  induction s with
  | nil => exact .ok _
  | cons p s ih =>
    unfold symsStr symStr
    exact .bind (.bind Rational.eqInt_nt fun _ _ => .ok _) fun _ _ => .bind ih fun _ _ => .ok _

theorem dropZero_nt {M : Int} : ∀ {s : Syms}, (Syms.dropZero M s).NoThrow := by
  intro s
  induction s with
  | nil => exact .ok _
  | cons p s ih =>
    obtain ⟨k, v⟩ := p
    unfold Syms.dropZero
    exact .bind Rational.eqInt_nt fun _ _ => .bind ih fun _ _ => .ok _

include hq

theorem coeIs_nt {c : Num.Real} {k : Int} : (coeIs env c k).NoThrow := .bind (Real.ofInt_nt hq) fun _ _ => Real.eq_nt

theorem isPositive_nt {t : Term} : (isPositive env t).NoThrow :=
  .bind (Real.ofInt_nt hq) fun _ hz => .bind (Real.lt_nt (Real.ofInt_zero hz)) fun _ _ =>
    .ite (.ok _) (.bind Real.eq_nt fun _ _ => .ok _)

theorem negate_nt {t : Term} (ht : t.Nz) : (negate env t).NoThrow :=
  .bind (Real.negate_nt hq ht) fun _ _ => .bind dropZero_nt fun _ _ => .ok _

theorem toStr_nt {t : Term} : (toStr env t).NoThrow := by
  unfold toStr
  exact .bind (coeIs_nt hq) fun _ _ => .ite (.ok _) (.bind (coeIs_nt hq) fun _ _ => .bind
    (.ite (.bind (coeIs_nt hq) fun _ _ => .ite (.ok _) Real.toStr_nt) (.ok _)) fun _ _ => .bind symsStr_nt fun _ _ => .ok _)

end Term

namespace Poly
variable {env : Env} (hq : env.Quiet)
include hq

theorem nonzeros_nt : ∀ {p : Poly}, (nonzeros env p).NoThrow := by
  intro p
  induction p with
  | nil => exact .ok _
  | cons t ts ih =>
    unfold nonzeros
    exact .bind (Term.coeIs_nt hq) fun _ _ => .bind ih fun _ _ => .ok _

theorem strLoop_nt : ∀ {p : Poly} {b : Bool}, Nz p → (strLoop env p b).NoThrow := by
  intro p
  induction p with
  | nil => intro b _; exact .ok _
  | cons t ts ih =>
    intro b hp
    obtain ⟨h1, h2⟩ := nz_cons.1 hp
    unfold strLoop
    exact .bind (Term.coeIs_nt hq) fun _ _ => .ite (ih h2) (.ite (.bind (Term.toStr_nt hq) fun _ _ => .bind (ih h2) fun _ _ => .ok _)
      (.bind (Term.isPositive_nt hq) fun _ _ => .ite (.bind (Term.negate_nt hq h1) fun _ _ => .bind (Term.toStr_nt hq) fun _ _ =>
        .bind (ih h2) fun _ _ => .ok _) (.bind (Term.toStr_nt hq) fun _ _ => .bind (ih h2) fun _ _ => .ok _)))

theorem toStr_nt {p : Poly} (hp : Nz p) : (toStr env p).NoThrow := by
  unfold toStr
  exact .ite (.ok _) (.bind (nonzeros_nt hq) fun _ _ => .ite (.ok _) (strLoop_nt hq hp))

end Poly

namespace Frac
variable {env : Env} (hq : env.Quiet)
include hq

theorem denIsOne_nt {p : Poly} : (denIsOne env p).NoThrow := by
  unfold denIsOne
  split
  · exact .bind (Term.coeIs_nt hq) fun _ _ => .ite (.ok _) (.ok _)
  · exact .ok _

theorem toStr_nt {f : Frac} (hf : f.Nz) : (toStr env f).NoThrow := by
  unfold toStr
  exact .ite (.ok _) (.bind (denIsOne_nt hq) fun _ _ => .ite (Poly.toStr_nt hq hf.1)
    (.bind (Poly.toStr_nt hq hf.1) fun _ _ => .bind (Poly.toStr_nt hq hf.2) fun _ _ => .ok _))

theorem outputNeedParen_nt {f : Frac} : (outputNeedParen env f).NoThrow := .bind (denIsOne_nt hq) fun _ _ => .ok _

end Frac

namespace Node
variable {env : Env} (hq : env.Quiet)
include hq

/-- printing never raises an `Error`. -/
theorem toStr_nt {n : Node} (hn : n.Nz) : (toStr env n).NoThrow := by
  induction n with
  | frac f => exact Frac.toStr_nt hq hn
  | op c l r il ir =>
    unfold toStr
    refine .bind ?_ fun _ _ => .bind (il hn.1) fun _ _ => .bind ?_ fun _ _ => .bind (ir hn.2) fun _ _ => .ok _
    · cases l with
      | frac f => exact Frac.outputNeedParen_nt hq
      | op => exact .ok _
    · cases r with
      | frac f => exact Frac.outputNeedParen_nt hq
      | op => exact .ok _

end Node
end Symxx.Sym
