import Verif.Expr.Model
import Verif.Frac.FracMono
/-!
# Expressions: an exact run is a run
-/
namespace Symxx.Sym
open Symxx.Num
variable {e e' : Env} {f f' : FEnv}

theorem Term.toRational_mono (h : Env.Le e e') (a : Term) : Res.Le (Term.toRational e a) (Term.toRational e' a) := by
  unfold Term.toRational Real.toRational Real.isRational
  rw [h.M]
  exact .refl _

theorem Poly.toRationalLoop_mono (h : Env.Le e e') (p : Poly) :
    ∀ r, Res.Le (Poly.toRationalLoop e p r) (Poly.toRationalLoop e' p r) := by
  have h1 := Term.toRational_mono h
  induction p with
  | nil => intro r; exact .refl _
  | cons t p ih =>
    intro r
    unfold Poly.toRationalLoop
    rw [h.M]
    res_mono

theorem Poly.toRational_mono (h : Env.Le e e') (p : Poly) : Res.Le (Poly.toRational e p) (Poly.toRational e' p) := by
  have h1 := Poly.toRationalLoop_mono h
  unfold Poly.toRational
  rw [h.M]
  res_mono

theorem Frac.toRational_mono (h : Env.Le e e') (a : Frac) : Res.Le (Frac.toRational e a) (Frac.toRational e' a) := by
  have h1 := Poly.toRational_mono h
  unfold Frac.toRational
  rw [h.M]
  res_mono

theorem isRational_congr (h : Env.Le e e') (a : Num.Real) : Real.isRational e a = Real.isRational e' a := by
  unfold Real.isRational
  rw [h.M]

theorem realToRational_congr (h : Env.Le e e') (a : Num.Real) : Real.toRational e a = Real.toRational e' a := by
  unfold Real.toRational
  rw [h.M, isRational_congr h]

namespace Node

theorem evalOp_mono (h : FEnv.Le f f') (c : Char) (a b : Frac) : Res.Le (evalOp f c a b) (evalOp f' c a b) := by
  have h1 := Frac.add_mono h
  have h2 := Frac.sub_mono h
  have h3 := Frac.mul_mono h
  have h4 := Frac.div_mono h
  have h5 := Frac.pow_mono h
  have h6 := Frac.tryEval_mono h
  have h7 := Frac.toRational_mono h.toEnv
  unfold evalOp
  refine Res.Le.ite (by res_mono) (Res.Le.ite (by res_mono) (Res.Le.ite (by res_mono) (Res.Le.ite (by res_mono)
    (Res.Le.ite ?_ (.refl _)))))
  refine Res.Le.bind (h6 _) fun x => ?_
  cases x with
  | none => exact .refl _
  | some x =>
    simp only
    rw [isRational_congr h.toEnv]
    res_mono

theorem tryEval_mono (h : FEnv.Le f f') (n : Node) : Res.Le (tryEval f n) (tryEval f' n) := by
  have h1 := evalOp_mono h
  induction n with
  | frac x => exact .refl _
  | op c l r hl hr =>
    unfold tryEval
    refine Res.Le.bind hl fun x => Res.Le.bind hr fun y => ?_
    cases x <;> cases y <;> simp only
    all_goals first | exact .refl _ | exact h1 _ _ _

theorem normalize_mono (h : FEnv.Le f f') (n : Node) : Res.Le (normalize f n) (normalize f' n) := by
  have h1 := Frac.add_mono h
  have h2 := Frac.sub_mono h
  have h3 := Frac.mul_mono h
  have h4 := Frac.div_mono h
  have h5 := Frac.pow_mono h
  have h6 := Frac.tryEval_mono h
  have h7 := tryEval_mono h
  induction n with
  | frac x => exact .refl _
  | op c l r hl hr =>
    unfold normalize
    refine Res.Le.bind (h7 l) fun x => Res.Le.bind (h7 r) fun y => ?_
    cases x with
    | none => simp only; res_mono
    | some x =>
      cases y with
      | none => simp only; res_mono
      | some y =>
        simp only
        refine Res.Le.ite (by res_mono) (Res.Le.ite (by res_mono) (Res.Le.ite (by res_mono) (Res.Le.ite (by res_mono)
          (Res.Le.ite ?_ (.refl _)))))
        refine Res.Le.bind (h6 _) fun p => Res.Le.bind ?_ fun q => ?_
        · cases p with
          | none => exact .refl _
          | some p => simp only; rw [isRational_congr h.toEnv, realToRational_congr h.toEnv]; exact .refl _
        · cases q <;> simp only <;> res_mono

theorem substitute_mono (h : FEnv.Le f f') (b : List (List Char × Num.Real)) (n : Node) :
    Res.Le (substitute f b n) (substitute f' b n) := by
  have h1 := Frac.substitute_mono h
  have h2 := normalize_mono h
  induction n with
  | frac x => unfold substitute; res_mono
  | op c l r hl hr => unfold substitute; res_mono

end Node
end Symxx.Sym
