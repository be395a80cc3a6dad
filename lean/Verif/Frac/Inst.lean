import Verif.Frac.FracMono
import Verif.Props.Real
/-!
# A concrete environment for the examples: insertion with the comparator of the code
-/
namespace Symxx.Sym
open Symxx.Num

/-- insert before the first term that does not come earlier (what `std::sort` does on short arrays). -/
def insertM (env : Env) (t : Term) : Poly → Res Poly
  | [] => .ok [t]
  | u :: us => do
    if ← Term.before env t u then .ok (t :: u :: us)
    else do
      let r ← insertM env t us
      .ok (u :: r)

/-- insertion sort with the comparator of frac.hpp 611-626. -/
def sortM (env : Env) : Poly → Res Poly
  | [] => .ok []
  | t :: ts => do
    let r ← sortM env ts
    insertM env t r

theorem insertM_perm {env : Env} {t : Term} {p q : Poly} (h : insertM env t p = .ok q) : q.Perm (t :: p) := by
  induction p generalizing q with
  | nil =>
    unfold insertM at h
    injection h with h
    subst h
    exact .refl _
  | cons u us ih =>
    unfold insertM at h
    obtain ⟨b, h1, h⟩ := Res.bind_eq_ok.1 h
    split at h
    · injection h with h
      subst h
      exact .refl _
    · obtain ⟨r, h2, h⟩ := Res.bind_eq_ok.1 h
      injection h with h
      subst h
      exact ((ih h2).cons u).trans (.swap _ _ _)

theorem sortM_ok (env : Env) : SortOk (sortM env) := by
  intro p
  induction p with
  | nil =>
    intro q h
    unfold sortM at h
    injection h with h
    subst h
    exact .refl _
  | cons t ts ih =>
    intro q h
    unfold sortM at h
    obtain ⟨r, h1, h⟩ := Res.bind_eq_ok.1 h
    exact (insertM_perm h).trans ((ih r h1).cons t)

/-- 64-bit integers, exact floating point, insertion sort. -/
def fenv64 : FEnv := { Real.envI64 with sort := sortM Real.envI64 }

theorem fenv64_good : fenv64.toEnv.Good (2 ^ 53) := Real.envI64_good
theorem fenv64_sort : SortOk fenv64.sort := sortM_ok _

/-- the number `n/d`. -/
def re (n d : Int) : Num.Real := ⟨1, ⟨1, 1⟩, ⟨n, d⟩⟩
/-- the square root of 2. -/
def root2 : Num.Real := ⟨2, ⟨2, 1⟩, ⟨1, 1⟩⟩
/-- `n/d * x^k`. -/
def mono (n d : Int) (x : List Char) (k : Int) : Term := ⟨re n d, [(x, ⟨k, 1⟩)]⟩
/-- the constant `n`. -/
def cst (n : Int) : Term := ⟨re n 1, []⟩
def X : Term := mono 1 1 ['x'] 1
def Y : Term := mono 1 1 ['y'] 1

theorem re_valid (n d : Int) (hd : d ≠ 0) : (re n d).Valid := by
  refine ⟨⟨by norm_num [re], by norm_num [re], hd⟩, ?_, fun _ => ?_, fun _ => rfl⟩ <;>
    simp [re, Rational.val]

theorem root2_valid : root2.Valid := by
  refine ⟨⟨by norm_num [root2], by norm_num [root2], by norm_num [root2]⟩, ?_, ?_, ?_⟩ <;>
    simp [root2, Rational.val]

theorem mono_wf (n d : Int) (hd : d ≠ 0) (x : List Char) (k : Int) : (mono n d x k).WF :=
  ⟨re_valid n d hd, Syms.wf_cons.2 ⟨by simp, by norm_num, Syms.wf_nil⟩⟩

theorem cst_wf (n : Int) : (cst n).WF := ⟨re_valid n 1 (by norm_num), Syms.wf_nil⟩
theorem X_wf : X.WF := mono_wf _ _ (by norm_num) _ _
theorem Y_wf : Y.WF := mono_wf _ _ (by norm_num) _ _

theorem wf2 {a b : Term} (ha : a.WF) (hb : b.WF) : Poly.WF [a, b] := Poly.wf_cons.2 ⟨ha, Poly.wf_singleton hb⟩
theorem wf3 {a b c : Term} (ha : a.WF) (hb : b.WF) (hc : c.WF) : Poly.WF [a, b, c] := Poly.wf_cons.2 ⟨ha, wf2 hb hc⟩

theorem ok_of_dec {α} {x : Res α} (h : x.isOk = true) : ∃ r, x = .ok r := by
  match x, h with
  | .ok r, _ => exact ⟨r, rfl⟩

end Symxx.Sym
