import Verif.Frac.FracSound
import Verif.Num.RealMono
/-!
# Transfer from the checked to the actual environment for terms, polynomials and fractions
-/
namespace Symxx.Sym
open Symxx.Num

/-- every step of `e` that returns, returns the same in `e'`. -/
structure FEnv.Le (e e' : FEnv) : Prop where
  toEnv : Env.Le e.toEnv e'.toEnv
  sort : ∀ p, Res.Le (e.sort p) (e'.sort p)

theorem FEnv.checked_le (env : FEnv) (B : Nat) : FEnv.Le (env.checked B) env := ⟨Env.checked_le _ B, fun _ => .refl _⟩

variable {e e' : Env} {f f' : FEnv}

theorem Syms.dropZero_M (h : Env.Le e e') (s : Syms) : Syms.dropZero e.M s = Syms.dropZero e'.M s := by rw [h.M]

namespace Term

theorem mk'_mono (h : Env.Le e e') (c : Num.Real) (s : Syms) : Res.Le (mk' e c s) (mk' e' c s) := by
  unfold mk'
  rw [h.M]
  res_mono

theorem ofInt_mono (h : Env.Le e e') (n : Int) : Res.Le (ofInt e n) (ofInt e' n) := by
  have := Real.ofInt_mono h
  unfold ofInt
  res_mono

theorem mul_mono (h : Env.Le e e') (a b : Term) : Res.Le (mul e a b) (mul e' a b) := by
  have := Real.mul_mono h
  unfold mul
  rw [h.M]
  res_mono

theorem divReal_mono (h : Env.Le e e') (a : Term) (b : Num.Real) : Res.Le (divReal e a b) (divReal e' a b) := by
  have := Real.div_mono h
  unfold divReal
  rw [h.M]
  res_mono

theorem pow_mono (h : Env.Le e e') (a : Term) (q : Rational) : Res.Le (pow e a q) (pow e' a q) := by
  have := Real.pow_mono h
  unfold pow
  rw [h.M]
  res_mono

theorem negate_mono (h : Env.Le e e') (a : Term) : Res.Le (negate e a) (negate e' a) := by
  have := Real.negate_mono h
  have := mk'_mono h
  unfold negate
  res_mono

theorem isEquivalentWith_mono (h : Env.Le e e') (a b : Term) :
    Res.Le (isEquivalentWith e a b) (isEquivalentWith e' a b) := by
  have := Real.isEquivalentWith_mono h
  unfold isEquivalentWith
  rw [h.M]
  res_mono

theorem eq_mono (h : Env.Le e e') (a b : Term) : Res.Le (eq e a b) (eq e' a b) := by
  have := Real.eq_mono h
  unfold eq
  rw [h.M]
  res_mono

theorem coeIs_mono (h : Env.Le e e') (c : Num.Real) (k : Int) : Res.Le (coeIs e c k) (coeIs e' c k) := by
  have := Real.eq_mono h
  have := Real.ofInt_mono h
  unfold coeIs
  res_mono

theorem substLoop_mono (h : Env.Le e e') (b : List (List Char × Num.Real)) (s : Syms) : ∀ c : Num.Real,
    Res.Le (substLoop e b s c) (substLoop e' b s c) := by
  have h1 := Real.pow_mono h
  have h2 := Real.mul_mono h
  induction s with
  | nil => intro _; exact .refl _
  | cons p s ih =>
    intro c
    obtain ⟨k, v⟩ := p
    unfold substLoop
    split
    · res_mono
    · exact ih c

theorem substitute_mono (h : Env.Le e e') (b : List (List Char × Num.Real)) (t : Term) :
    Res.Le (substitute e b t) (substitute e' b t) := by
  have := substLoop_mono h
  unfold substitute
  res_mono

end Term

namespace Poly

theorem mergeAdj_mono (h : Env.Le e e') : ∀ p : Poly, Res.Le (mergeAdj e p) (mergeAdj e' p)
  | [] => by unfold mergeAdj; exact .refl _
  | [t] => by unfold mergeAdj; exact .refl _
  | a :: b :: rest => by
    have h1 := Term.isEquivalentWith_mono h
    have h2 := Real.add_mono h
    have h3 := Term.mk'_mono h
    unfold mergeAdj
    refine Res.Le.bind (h1 a b) fun v => Res.Le.ite ?_ ?_
    · exact Res.Le.bind (h2 _ _) fun c => Res.Le.bind (h3 _ _) fun t => mergeAdj_mono h (t :: rest)
    · exact Res.Le.bind (mergeAdj_mono h (b :: rest)) fun r => .refl _
termination_by p => p.length

theorem normalize_mono (h : FEnv.Le f f') (p : Poly) : Res.Le (normalize f p) (normalize f' p) := by
  have h1 := mergeAdj_mono h.toEnv
  have h2 := h.sort
  unfold normalize
  res_mono

theorem addAssign_mono (h : FEnv.Le f f') (p q : Poly) : Res.Le (addAssign f p q) (addAssign f' p q) :=
  normalize_mono h _

theorem mk'_mono (h : FEnv.Le f f') (p : Poly) : Res.Le (mk' f p) (mk' f' p) := normalize_mono h _

theorem tryEvalLoop_mono (h : Env.Le e e') (p : Poly) : ∀ r, Res.Le (tryEvalLoop e p r) (tryEvalLoop e' p r) := by
  have h1 := Real.isEquivalentWith_mono h
  have h2 := Real.add_mono h
  induction p with
  | nil => intro _; exact .refl _
  | cons t p ih =>
    intro r
    unfold tryEvalLoop
    split
    · exact .refl _
    · res_mono

theorem tryEval_mono (h : Env.Le e e') (p : Poly) : Res.Le (tryEval e p) (tryEval e' p) := by
  have h1 := Real.ofInt_mono h
  have h2 := tryEvalLoop_mono h
  unfold tryEval
  res_mono

theorem evalLoop_mono (h : Env.Le e e') (p : Poly) : ∀ r, Res.Le (evalLoop e p r) (evalLoop e' p r) := by
  have h2 := Real.add_mono h
  induction p with
  | nil => intro _; exact .refl _
  | cons t p ih =>
    intro r
    unfold evalLoop
    res_mono

theorem eval_mono (h : Env.Le e e') (p : Poly) : Res.Le (eval e p) (eval e' p) := by
  have h1 := Real.ofInt_mono h
  have h2 := evalLoop_mono h
  unfold eval
  res_mono

theorem mapM_mono {g g' : Term → Res Term} (h : ∀ t, Res.Le (g t) (g' t)) (p : Poly) : Res.Le (mapM g p) (mapM g' p) := by
  induction p with
  | nil => exact .refl _
  | cons t p ih =>
    unfold mapM
    res_mono

theorem negate_mono (h : Env.Le e e') (p : Poly) : Res.Le (negate e p) (negate e' p) :=
  mapM_mono (Term.negate_mono h) p

theorem add_mono (h : FEnv.Le f f') (p q : Poly) : Res.Le (add f p q) (add f' p q) := by
  have h1 := tryEval_mono h.toEnv
  have h2 := Real.add_mono h.toEnv
  have h3 := mk'_mono h
  have h4 := addAssign_mono h
  unfold add
  refine Res.Le.bind (h1 p) fun a => Res.Le.bind (h1 q) fun b => ?_
  cases a <;> cases b <;> simp only <;> res_mono

theorem subAssign_mono (h : FEnv.Le f f') (p q : Poly) : Res.Le (subAssign f p q) (subAssign f' p q) := by
  have h1 := negate_mono h.toEnv
  have h3 := normalize_mono h
  have h4 := addAssign_mono h
  unfold subAssign
  res_mono

theorem sub_mono (h : FEnv.Le f f') (p q : Poly) : Res.Le (sub f p q) (sub f' p q) := by
  have h1 := tryEval_mono h.toEnv
  have h2 := Real.sub_mono h.toEnv
  have h3 := mk'_mono h
  have h4 := subAssign_mono h
  unfold sub
  refine Res.Le.bind (h1 p) fun a => Res.Le.bind (h1 q) fun b => ?_
  cases a <;> cases b <;> simp only <;> res_mono

theorem products_mono (h : Env.Le e e') (p q : Poly) : Res.Le (products e p q) (products e' p q) := by
  have h1 := fun x => mapM_mono (Term.mul_mono h x)
  induction p with
  | nil => exact .refl _
  | cons t p ih =>
    unfold products
    refine Res.Le.bind (h1 t q) fun a => Res.Le.bind ih fun b => .refl _

theorem mulAssign_mono (h : FEnv.Le f f') (p q : Poly) : Res.Le (mulAssign f p q) (mulAssign f' p q) := by
  have h1 := products_mono h.toEnv
  have h3 := normalize_mono h
  unfold mulAssign
  res_mono

theorem mul_mono (h : FEnv.Le f f') (p q : Poly) : Res.Le (mul f p q) (mul f' p q) := by
  have h1 := tryEval_mono h.toEnv
  have h2 := Real.mul_mono h.toEnv
  have h3 := mk'_mono h
  have h4 := mulAssign_mono h
  unfold mul
  refine Res.Le.bind (h1 p) fun a => Res.Le.bind (h1 q) fun b => ?_
  cases a <;> cases b <;> simp only <;> res_mono

theorem divReal_mono (h : FEnv.Le f f') (p : Poly) (c : Num.Real) : Res.Le (divReal f p c) (divReal f' p c) := by
  have h3 := normalize_mono h
  unfold divReal
  exact Res.Le.bind (mapM_mono (fun t => Term.divReal_mono h.toEnv t c) p) fun q => h3 q

theorem powerProd_mono (h : Env.Le e e') (p : Poly) : ∀ (v : List Int) (acc : Term),
    Res.Le (powerProd e p v acc) (powerProd e' p v acc) := by
  have h1 := Term.pow_mono h
  have h2 := Term.mul_mono h
  induction p with
  | nil => intro v acc; unfold powerProd; exact .refl _
  | cons t p ih =>
    intro v acc
    cases v with
    | nil => unfold powerProd; exact .refl _
    | cons a v =>
      unfold powerProd
      rw [h.M]
      res_mono

theorem expandOne_mono (h : Env.Le e e') (p : Poly) (k : Int) (v : List Int) :
    Res.Le (expandOne e p k v) (expandOne e' p k v) := by
  have h1 := powerProd_mono h
  have h2 := Real.ofRational_mono h
  unfold expandOne
  rw [h.M]
  res_mono

theorem expand_mono (h : Env.Le e e') (p : Poly) (k : Int) (v : List (List Int)) :
    Res.Le (expand e p k v) (expand e' p k v) := by
  have h1 := expandOne_mono h
  induction v with
  | nil => exact .refl _
  | cons a v ih =>
    unfold expand
    res_mono

theorem pow_mono (h : FEnv.Le f f') (p : Poly) (i : Rational) : Res.Le (pow f p i) (pow f' p i) := by
  have h1 := Term.ofInt_mono h.toEnv
  have h2 := mk'_mono h
  have h3 := Term.pow_mono h.toEnv
  have h4 := tryEval_mono h.toEnv
  have h5 := Real.pow_mono h.toEnv
  have h6 := expand_mono h.toEnv
  unfold pow
  rw [h.toEnv.M]
  refine Res.Le.bind (.refl _) fun b => Res.Le.ite ?_ ?_
  · res_mono
  · refine Res.Le.bind (.refl _) fun b => Res.Le.ite (.refl _) ?_
    split
    · res_mono
    · refine Res.Le.bind (h4 p) fun a => ?_
      cases a with
      | none =>
        exact Res.Le.bind (.refl _) fun _ => Res.Le.bind (.refl _) fun n => Res.Le.bind (h.toEnv.noWrap _) fun _ =>
          Res.Le.bind (.refl _) fun vs =>
          Res.Le.bind (h6 _ _ _) fun r => h2 r
      | some x => exact Res.Le.bind (h5 _ _) fun y => h2 _

theorem eqGo_mono (h : Env.Le e e') (p : Poly) : ∀ q, Res.Le (eqGo e p q) (eqGo e' p q) := by
  have h1 := Term.eq_mono h
  induction p with
  | nil => intro q; unfold eqGo; exact .refl _
  | cons a p ih =>
    intro q
    cases q with
    | nil => unfold eqGo; exact .refl _
    | cons b q => unfold eqGo; res_mono

theorem eq_mono (h : Env.Le e e') (p q : Poly) : Res.Le (eq e p q) (eq e' p q) := by
  have := eqGo_mono h
  unfold eq
  res_mono

theorem substitute_mono (h : Env.Le e e') (b : List (List Char × Num.Real)) (p : Poly) :
    Res.Le (substitute e b p) (substitute e' b p) := mapM_mono (Term.substitute_mono h b) p

theorem isZero_mono (h : Env.Le e e') (p : Poly) : Res.Le (isZero e p) (isZero e' p) := by
  have := Term.coeIs_mono h
  induction p with
  | nil => exact .refl _
  | cons a p ih =>
    unfold isZero
    res_mono

end Poly

namespace Frac

theorem scaleAll_mono (h : Env.Le e e') (m : Int) (p : Poly) : Res.Le (scaleAll e m p) (scaleAll e' m p) := by
  refine Poly.mapM_mono (fun t => ?_) p
  exact Res.Le.bind (Term.ofInt_mono h m) fun a => Term.mul_mono h t a

theorem normalize_mono (h : FEnv.Le f f') (a : Frac) : Res.Le (normalize f a) (normalize f' a) := by
  have h1 := Poly.normalize_mono h
  have h2 := scaleAll_mono h.toEnv
  have h3 := Real.ofInt_mono h.toEnv
  have h4 := Poly.divReal_mono h
  unfold normalize
  rw [h.toEnv.M]
  refine Res.Le.bind (h1 _) fun n => Res.Le.bind (h1 _) fun d => Res.Le.bind (.refl _) fun m =>
    Res.Le.bind (.refl _) fun m => Res.Le.bind (h2 _ _) fun n => Res.Le.bind (h2 _ _) fun d => ?_
  split
  · refine Res.Le.bind (.refl _) fun x => Res.Le.bind (.refl _) fun y => Res.Le.bind (.refl _) fun g =>
      Res.Le.bind (.refl _) fun o => ?_
    cases o <;> simp only <;> res_mono
  · exact .refl _

theorem onePoly_mono (h : FEnv.Le f f') : Res.Le (onePoly f) (onePoly f') := by
  have h1 := Term.ofInt_mono h.toEnv
  have h2 := Poly.mk'_mono h
  unfold onePoly
  res_mono

theorem ofPoly_mono (h : FEnv.Le f f') (p : Poly) : Res.Le (ofPoly f p) (ofPoly f' p) := by
  have h1 := onePoly_mono h
  have h2 := normalize_mono h
  unfold ofPoly
  res_mono

theorem ofTerm_mono (h : FEnv.Le f f') (t : Term) : Res.Le (ofTerm f t) (ofTerm f' t) := by
  have h1 := Poly.mk'_mono h
  have h2 := ofPoly_mono h
  unfold ofTerm
  res_mono

theorem ofReal_mono (h : FEnv.Le f f') (r : Num.Real) : Res.Le (ofReal f r) (ofReal f' r) := ofTerm_mono h _

theorem mk2_mono (h : FEnv.Le f f') (n d : Poly) : Res.Le (mk2 f n d) (mk2 f' n d) := by
  have h1 := Poly.isZero_mono h.toEnv
  have h2 := normalize_mono h
  unfold mk2
  res_mono

theorem add_mono (h : FEnv.Le f f') (a b : Frac) : Res.Le (add f a b) (add f' a b) := by
  have h1 := Poly.eq_mono h.toEnv
  have h2 := Poly.addAssign_mono h
  have h3 := Poly.mul_mono h
  have h4 := Poly.add_mono h
  have h5 := Poly.mulAssign_mono h
  have h6 := normalize_mono h
  unfold add
  res_mono

theorem negate_mono (h : FEnv.Le f f') (a : Frac) : Res.Le (negate f a) (negate f' a) := by
  have h1 := Poly.negate_mono h.toEnv
  have h2 := mk2_mono h
  unfold negate
  res_mono

theorem sub_mono (h : FEnv.Le f f') (a b : Frac) : Res.Le (sub f a b) (sub f' a b) := by
  have h1 := negate_mono h
  have h2 := add_mono h
  unfold sub
  res_mono

theorem subAssign_mono (h : FEnv.Le f f') (a b : Frac) : Res.Le (subAssign f a b) (subAssign f' a b) := by
  have h1 := negate_mono h
  have h2 := add_mono h
  have h3 := normalize_mono h
  unfold subAssign
  res_mono

theorem mul_mono (h : FEnv.Le f f') (a b : Frac) : Res.Le (mul f a b) (mul f' a b) := by
  have h1 := Poly.mulAssign_mono h
  have h3 := normalize_mono h
  unfold mul
  res_mono

theorem div_mono (h : FEnv.Le f f') (a b : Frac) : Res.Le (div f a b) (div f' a b) := by
  have h0 := Poly.isZero_mono h.toEnv
  have h1 := Poly.mulAssign_mono h
  have h3 := normalize_mono h
  unfold div
  res_mono

theorem inverse_mono (h : FEnv.Le f f') (a : Frac) : Res.Le (inverse f a) (inverse f' a) := mk2_mono h _ _

theorem tryEval_mono (h : FEnv.Le f f') (a : Frac) : Res.Le (tryEval f a) (tryEval f' a) := by
  have h1 := Poly.tryEval_mono h.toEnv
  have h2 := Real.div_mono h.toEnv
  unfold tryEval
  refine Res.Le.bind (h1 _) fun x => Res.Le.bind (h1 _) fun y => ?_
  cases x <;> cases y <;> simp only <;> res_mono

theorem eval_mono (h : FEnv.Le f f') (a : Frac) : Res.Le (eval f a) (eval f' a) := by
  have h1 := Poly.eval_mono h.toEnv
  have h2 := Real.div_mono h.toEnv
  unfold eval
  res_mono

theorem pow_mono (h : FEnv.Le f f') (a : Frac) (i : Rational) : Res.Le (pow f a i) (pow f' a i) := by
  have h1 := tryEval_mono h
  have h2 := Real.pow_mono h.toEnv
  have h3 := ofReal_mono h
  have h4 := Poly.pow_mono h
  have h5 := normalize_mono h
  unfold pow
  refine Res.Le.bind (h1 _) fun x => ?_
  cases x <;> simp only <;> res_mono

theorem substitute_mono (h : FEnv.Le f f') (b : List (List Char × Num.Real)) (a : Frac) :
    Res.Le (substitute f b a) (substitute f' b a) := by
  have h1 := Poly.substitute_mono h.toEnv
  have h2 := normalize_mono h
  have h3 := Poly.isZero_mono h.toEnv
  unfold substitute
  res_mono

end Frac
end Symxx.Sym
