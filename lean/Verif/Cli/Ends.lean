import Verif.Expr.Ends
import Verif.Cli.Basic
/-!
# Every line of a session comes to an end

The bodies of all functions keep positive indices (`St.Ix`), so that no command runs forever (`dispatch_p`).
-/
namespace Symxx.Sym
open Symxx.Num Symxx.Res

theorem Real.toTex_p {env : Env} {a : Num.Real} : Post (Num.Real.toTex env a) fun _ => True := by
  unfold Num.Real.toTex
  exact .bind Rational.eqInt_p fun _ _ => .ite (.ok trivial) (.bind Num.Real.isRational_p fun _ _ => .ite (.ok trivial)
    (.bind Rational.eqInt_p fun _ _ => .bind (.ite (.ok trivial) Rational.eqInt_p) fun _ _ => .ok trivial))

section
variable {e : Env} (he : e.Ends)
include he

omit he in
theorem Term.symsTex_p : ∀ {s : Syms}, Post (Term.symsTex e s) fun _ => True := by
  intro s
  induction s with
  | nil => exact .ok trivial
  | cons p s ih =>
    unfold Term.symsTex
    exact .bind (.bind (R := fun _ => True) Rational.eqInt_p fun _ _ => .ok trivial) fun _ _ => .bind ih fun _ _ => .ok trivial

theorem Term.toTex_p {a : Term} : Post (Term.toTex e a) fun _ => True := by
  unfold Term.toTex
  refine .bind (Term.coeIs_p he) fun _ _ => .ite (.ok trivial) (.bind (Term.coeIs_p he) fun _ _ => .bind (P := fun _ => True) (.ite ?_ (.ok trivial)) fun _ _ =>
    .bind Term.symsTex_p fun _ _ => .ok trivial)
  exact .bind (Term.coeIs_p he) fun _ _ => .ite (.ok trivial) Real.toTex_p

theorem Poly.texLoop_p : ∀ {p : Poly} {b : Bool}, Poly.Ix e.M p → Post (Poly.texLoop e p b) fun _ => True := by
  intro p
  induction p with
  | nil => intro b _; exact .ok trivial
  | cons t p ih =>
    intro b hp
    have h := Poly.Ix.cons.1 hp
    unfold Poly.texLoop
    refine .bind (Term.coeIs_p he) fun _ _ => .ite (ih h.2) (.ite ?_ (.bind (Term.isPositive_p he) fun _ _ => .ite ?_ ?_))
    · exact .bind (Term.toTex_p he) fun _ _ => .bind (ih h.2) fun _ _ => .ok trivial
    · exact .bind (Term.negate_p he h.1) fun _ _ => .bind (Term.toTex_p he) fun _ _ => .bind (ih h.2) fun _ _ => .ok trivial
    · exact .bind (Term.toTex_p he) fun _ _ => .bind (ih h.2) fun _ _ => .ok trivial

theorem Poly.toTex_p {p : Poly} (hp : Poly.Ix e.M p) : Post (Poly.toTex e p) fun _ => True :=
  .ite (.ok trivial) (.bind (Poly.nonzeros_p he) fun _ _ => .ite (.ok trivial) (Poly.texLoop_p he hp))

theorem Frac.toTex_p {a : Frac} (ha : a.Ix e.M) : Post (Frac.toTex e a) fun _ => True :=
  .ite (.ok trivial) (.bind (Frac.denIsOne_p he) fun _ _ => .ite (Poly.toTex_p he ha.1) (.bind (Poly.toTex_p he ha.1) fun _ _ =>
    .bind (Poly.toTex_p he ha.2) fun _ _ => .ok trivial))

theorem Node.toTex_p : ∀ {n : Node}, n.Ix e.M → Post (Node.toTex e n) fun _ => True := by
  intro n
  induction n with
  | frac f => intro h; exact Frac.toTex_p he h
  | op c l r ihl ihr =>
    intro h
    unfold Node.toTex
    refine .bind (P := fun _ => True) ?_ fun _ _ => .bind (ihl h.1) fun _ _ => .bind (P := fun _ => True) ?_ fun _ _ => .bind (ihr h.2) fun _ _ => .ok trivial
    · cases l with
      | frac f => exact Frac.outputNeedParen_p he
      | op c l r => exact .ok trivial
    · cases r with
      | frac f => exact Frac.outputNeedParen_p he
      | op c l r => exact .ok trivial

end

theorem Node.tryEvalLD_p {F : Flt} {v : List (List Char × F.LD)} : ∀ {n : Node}, Post (Node.tryEvalLD F v n) fun _ => True := by
  intro n
  induction n with
  | frac f => exact .ok trivial
  | op c l r ihl ihr =>
    unfold Node.tryEvalLD
    refine .bind ihl fun _ _ => .bind ihr fun _ _ => .bind ihl fun _ _ => .bind ihr fun _ _ => ?_
    split
    · split
      · exact .ite (.ok trivial) (.ite (.ok trivial) (.ite (.ok trivial) (.ite (.ok trivial) (.ite (.ok trivial) .throw))))
      · exact .ub
    · exact .ok trivial

end Symxx.Sym

namespace Symxx.Cli
open Symxx.Num Symxx.Sym Symxx.Res

/-- nothing outside the modelled code runs forever, and sorting permutes. -/
structure CEnv.Ends (E : CEnv) : Prop extends toF : E.f.Ends where
  dec : ∀ s, E.dec s ≠ .fuel
  dTrunc : ∀ d, E.flt.dTrunc d ≠ .fuel
  stold : ∀ s, E.stold s ≠ .fuel

/-- the bodies of all functions have positive indices. -/
def St.Ix {E : CEnv} (s : St E) : Prop := ∀ p ∈ s.funcs, p.2.body.Ix E.f.M

variable {E : CEnv}

/-- the command comes to an end and keeps `St.Ix`; if it returns, `P` holds of the result. -/
def CPost {α : Type} (x : Cmd E α) (P : α → Prop) : Prop := ∀ s : St E, s.Ix → Post (x s).1 P ∧ (x s).2.1.Ix

namespace CPost
variable {α β : Type} {P : α → Prop}

theorem bind {x : Cmd E α} {f : α → Cmd E β} {R : β → Prop} (hx : CPost x P) (hf : ∀ a, P a → CPost (f a) R) : CPost (x >>= f) R := by
  intro s hs
  obtain ⟨h1, h2⟩ := hx s hs
  rw [Cmd.bind_def]
  revert h1 h2
  generalize x s = r
  obtain ⟨r, s', o⟩ := r
  intro h1 h2
  cases r with
  | ok a => exact hf a (h1.2 a rfl) s' h2
  | throw m => exact ⟨.throw, h2⟩
  | exn m => exact ⟨.exn, h2⟩
  | ub m => exact ⟨.ub, h2⟩
  | fuel => exact absurd rfl h1.1

theorem pure {a : α} (h : P a) : CPost (Cmd.pure a : Cmd E α) P := fun _ hs => ⟨.ok h, hs⟩
theorem lift {r : Res α} (h : Post r P) : CPost (Cmd.lift r : Cmd E α) P := fun _ hs => ⟨h, hs⟩
theorem print {t : List Char} : CPost (Cmd.print t : Cmd E Unit) fun _ => True := fun _ hs => ⟨.ok trivial, hs⟩
theorem get : CPost (Cmd.get : Cmd E (St E)) St.Ix := fun _ hs => ⟨.ok hs, hs⟩
theorem put {s : St E} (h : s.Ix) : CPost (Cmd.put s : Cmd E Unit) fun _ => True := fun _ _ => ⟨.ok trivial, h⟩
theorem when {b : Bool} {c : Cmd E Unit} (h : CPost c fun _ => True) : CPost (Cmd.when b c) fun _ => True := by
  unfold Cmd.when
  split
  · exact h
  · exact pure trivial
theorem ite {c : Prop} [Decidable c] {x y : Cmd E α} (hx : CPost x P) (hy : CPost y P) : CPost (if c then x else y) P := by
  split
  · exact hx
  · exact hy

end CPost

theorem find_ix {s : St E} (hs : s.Ix) {k : List Char} {fn : Fn} (h : s.funcs.find k = some fn) : fn.body.Ix E.f.M := by
  have : ∀ {t : Table Fn}, t.find k = some fn → ∃ p ∈ t, p.2 = fn := by
    intro t
    induction t with
    | nil => intro h; cases h
    | cons p t ih =>
      intro h
      unfold Table.find at h
      split at h
      · exact ⟨p, by simp, by cases h; rfl⟩
      · obtain ⟨q, h1, h2⟩ := ih h
        exact ⟨q, by simp [h1], h2⟩
  obtain ⟨p, hp, rfl⟩ := this h
  exact hs p hp

theorem mem_set {α : Type} {k : List Char} {v : α} {p : List Char × α} : ∀ {t : Table α}, p ∈ t.set k v → p = (k, v) ∨ p ∈ t := by
  intro t
  induction t with
  | nil => intro h; unfold Table.set at h; exact .inl (by simpa using h)
  | cons q t ih =>
    intro h
    unfold Table.set at h
    split at h
    · rcases List.mem_cons.1 h with h | h
      · exact .inl h
      · exact .inr h
    · split at h
      · rename_i e
        rcases List.mem_cons.1 h with h | h
        · exact .inl (by rw [h, e])
        · exact .inr (List.mem_cons_of_mem _ h)
      · rcases List.mem_cons.1 h with h | h
        · exact .inr (by rw [h]; simp)
        · exact (ih h).imp_right (List.mem_cons_of_mem _)

theorem bindArgs_ix : ∀ {l : List (List Char)} {as : List Num.Real} {e : Table Num.Real}, (∀ a ∈ as, a.Ix) → BindIx e → BindIx (bindArgs l as e) := by
  intro l
  induction l with
  | nil => intro as e _ he; unfold bindArgs; exact he
  | cons x l ih =>
    intro as e ha he
    cases as with
    | nil => exact he
    | cons a as =>
      unfold bindArgs
      refine ih (fun b hb => ha b (by simp [hb])) fun p hp => ?_
      rcases mem_set hp with rfl | h
      · exact ha a (by simp)
      · exact he p h

variable (hE : E.Ends)
include hE

theorem printFunc_p {n : List Char} : CPost (printFunc E n) fun _ => True := by
  unfold printFunc
  refine .bind .get fun s hs => ?_
  split
  · exact .lift .exn
  · rename_i fn h
    exact .bind (.lift (Node.toStr_p hE.toF (find_ix hs h))) fun _ _ => .print

omit hE in
theorem polyIsRational_p : ∀ {p : Poly}, Post (polyIsRational E.f.toEnv p) fun _ => True := by
  intro p
  induction p with
  | nil => exact .ok trivial
  | cons t p ih => unfold polyIsRational; exact .bind (.ite Num.Real.isRational_p (.ok trivial)) fun _ _ => .ite ih (.ok trivial)

theorem isInteger_p {n : Node} (hn : n.Ix E.f.M) : Post (isInteger E n) fun _ => True := by
  unfold isInteger
  refine .bind (Node.tryEval_p hE.toF hn) fun o _ => ?_
  split
  · refine .ite (.bind (P := fun _ => True) ?_ fun _ _ => .ite (.bind Frac.toRational_p fun _ _ => .ok trivial) (.ok trivial)) (.ok trivial)
    exact .bind polyIsRational_p fun _ _ => .ite polyIsRational_p (.ok trivial)
  · exact .ok trivial

theorem printResult_p {n : Node} (hn : n.Ix E.f.M) : CPost (printResult E n) fun _ => True := by
  unfold printResult
  refine .bind (.lift (Node.normalize_p hE.toF hn)) fun e he => .bind (.lift (Node.toStr_p hE.toF he)) fun t _ => .bind .print fun _ _ =>
    .bind (.lift (isInteger_p hE he)) fun b _ => .ite .print (.bind .get fun s _ => .bind (.lift Node.tryEvalLD_p) fun v _ => ?_)
  split
  · exact .print
  · exact .print

omit hE in
theorem printConstant_p {n : List Char} : CPost (printConstant E n) fun _ => True := by
  unfold printConstant
  refine .bind .get fun s _ => ?_
  split
  · exact .lift .exn
  · exact .print

theorem parseNormal_p {b : List Char} : Post (parseNormal E b) (Node.Ix E.f.M) :=
  .bind (Node.ofText_p hE.toF hE.dec) fun _ h => Node.normalize_p hE.toF h

theorem cmdNormalize_p {b : List Char} : CPost (cmdNormalize E b) fun _ => True := .bind (.lift (parseNormal_p hE)) fun _ h => printResult_p hE h
theorem cmdTex_p {b : List Char} : CPost (cmdTex E b) fun _ => True :=
  .bind (.lift (Node.ofText_p hE.toF hE.dec)) fun _ h => .bind (.lift (Node.toTex_p hE.toF.toEnds h)) fun _ _ => .print
theorem cmdNtex_p {b : List Char} : CPost (cmdNtex E b) fun _ => True :=
  .bind (.lift (parseNormal_p hE)) fun _ h => .bind (.lift (Node.toTex_p hE.toF.toEnds h)) fun _ _ => .print

theorem realTryTo_p {r : Num.Real} : Post (realTryTo E r) fun _ => True :=
  .ite .ub (.bind Rational.chk_p fun _ _ => .bind (.nf (hE.dTrunc _)) fun _ _ => Rational.chk_p.triv)

theorem cmdFactor_p {b : List Char} : CPost (cmdFactor E b) fun _ => True := by
  unfold cmdFactor
  refine .bind (.lift (parseNormal_p hE)) fun n hn => .bind (.lift (Node.tryEval_p hE.toF hn)) fun o _ => ?_
  split
  · exact .lift .throw
  · refine .bind (.lift (Frac.tryEval_p hE.toF)) fun o _ => ?_
    split
    · exact .lift .throw
    · exact .bind (.lift (realTryTo_p hE)) fun _ _ => .bind (.lift (.nf (hE.toF.toEnds.fac _))) fun _ _ => .print

omit hE in
theorem splitParams_p : ∀ {l t : List Char}, Post (splitParams l t) fun _ => True := by
  intro l
  induction l with
  | nil => intro t; exact .ok trivial
  | cons c l ih =>
    intro t
    unfold splitParams
    exact .ite ih (.ite (.bind .assert fun _ _ => .bind ih fun _ _ => .ok trivial) ih)

theorem cmdFunc_p {b : List Char} : CPost (cmdFunc E b) fun _ => True := by
  unfold cmdFunc
  split
  · exact .lift .throw
  · split
    · exact .lift .throw
    · refine .bind (.lift splitParams_p) fun args _ => ?_
      split
      · refine .bind (.lift (parseNormal_p hE)) fun f hf => .bind .get fun s hs => .bind (P := fun _ => True) (.lift ?_) fun _ _ =>
          .bind (.put ?_) fun _ _ => printFunc_p hE
        · unfold assignNode
          split
          · exact .ub
          · exact .ok trivial
        · intro p hp
          rcases mem_set hp with rfl | h
          · exact hf
          · exact hs p h
      · exact .lift .throw

theorem cmdConstant_p {b : List Char} : CPost (cmdConstant E b) fun _ => True := by
  unfold cmdConstant
  split
  · exact .lift .throw
  · exact .bind (.lift .assert) fun _ _ => .bind (.lift (.nf (hE.stold _))) fun _ _ => .bind .get fun s hs => .bind (.put hs) fun _ _ => printConstant_p

omit hE in
theorem seqAll_p : ∀ {l : List (Cmd E Unit)}, (∀ c ∈ l, CPost c fun _ => True) → CPost (seqAll E l) fun _ => True := by
  intro l
  induction l with
  | nil => intro _; exact .pure trivial
  | cons c l ih => intro h; unfold seqAll; exact .bind (h c (by simp)) fun _ _ => ih fun c hc => h c (by simp [hc])

theorem cmdPrint_p {b : List Char} : CPost (cmdPrint E b) fun _ => True := by
  unfold cmdPrint
  refine .bind .get fun s hs => .ite (.bind (seqAll_p fun c hc => ?_) fun _ _ => seqAll_p fun c hc => ?_) (.bind (.when (printFunc_p hE)) fun _ _ =>
    .when printConstant_p)
  · obtain ⟨p, -, rfl⟩ := List.mem_map.1 hc; exact printFunc_p hE
  · obtain ⟨p, -, rfl⟩ := List.mem_map.1 hc; exact printConstant_p

theorem realOfText_p {s : List Char} : Post (realOfText E s) Real.Ix := .bind (Parser.ofStr_p hE.dec) fun _ _ => Real.ofRational_p hE.toF.toEnds

theorem splitArgs_p : ∀ {l t : List Char}, Post (splitArgs E l t) fun as => ∀ a ∈ as, Real.Ix a := by
  intro l
  induction l with
  | nil =>
    intro t
    unfold splitArgs
    exact .ite (.ok fun _ h => by simp at h) (.bind (realOfText_p hE) fun r hr => .ok fun a ha => by rw [List.mem_singleton.1 ha]; exact hr)
  | cons c l ih =>
    intro t
    unfold splitArgs
    refine .ite ih (.ite (.bind .assert fun _ _ => .bind (realOfText_p hE) fun r hr => .bind ih fun rs hrs => .ok fun a ha => ?_) ih)
    rcases List.mem_cons.1 ha with rfl | h
    · exact hr
    · exact hrs a h

theorem cmdCall_p {n a : List Char} : CPost (cmdCall E n a) fun _ => True := by
  unfold cmdCall
  refine .bind (.lift (splitArgs_p hE)) fun as has => .bind .get fun s hs => ?_
  split
  · exact .lift .exn
  · rename_i fn h
    exact .bind (.lift .assert) fun _ _ => .bind (.lift (Node.substitute_p hE.toF (bindArgs_ix has fun _ h => by simp at h) (find_ix hs h))) fun _ hn =>
      printResult_p hE hn

theorem cmdOther_p {str cmd : List Char} : CPost (cmdOther E str cmd) fun _ => True := by
  unfold cmdOther
  split
  · exact cmdNormalize_p hE
  · split
    · exact cmdNormalize_p hE
    · refine .bind .get fun s hs => ?_
      extract_lets
      split
      · exact cmdNormalize_p hE
      · exact cmdCall_p hE

/-- no line runs forever. -/
theorem dispatch_p {str : List Char} : CPost (dispatch E str) fun _ => True := by
  unfold dispatch
  refine .bind (.when (cmdNormalize_p hE)) fun _ _ => .bind (.when (cmdTex_p hE)) fun _ _ => ?_
  exact .ite (.bind (cmdNtex_p hE) fun _ _ => .pure trivial) (.ite (.bind (cmdFunc_p hE) fun _ _ => .pure trivial)
    (.ite (.bind (cmdConstant_p hE) fun _ _ => .pure trivial) (.ite (.bind (cmdPrint_p hE) fun _ _ => .pure trivial)
    (.ite (.bind (cmdFactor_p hE) fun _ _ => .pure trivial) (.ite (.bind .print fun _ _ => .pure trivial) (.ite (.pure trivial)
    (.bind (cmdOther_p hE) fun _ _ => .pure trivial)))))))

theorem iter_p {w : World E} (hw : w.st.Ix) : (iter E w).1 ≠ .hang ∧ (iter E w).2.st.Ix := by
  have h := dispatch_p hE (str := w.inp.getline.str) w.st hw
  obtain ⟨⟨r, s, o⟩, e⟩ : ∃ x, dispatch E w.inp.getline.str w.st = x := ⟨_, rfl⟩
  rw [e] at h
  simp only [iter, e]
  cases r with
  | ok b => cases b <;> exact ⟨by simp, h.2⟩
  | throw m => exact ⟨by simp, h.2⟩
  | exn m => exact ⟨by simp, h.2⟩
  | ub m => exact ⟨by simp, h.2⟩
  | fuel => exact absurd rfl h.1.1

theorem loop_p : ∀ {n : Nat} {w : World E}, w.st.Ix → (loop E n w).1 ≠ .hang := by
  intro n
  induction n with
  | zero => intro w _; unfold loop; simp
  | succ n ih =>
    intro w hw
    obtain ⟨h1, h2⟩ := iter_p hE hw
    unfold loop
    split
    · rename_i w' e
      rw [e] at h2
      exact ih h2
    · exact h1

end Symxx.Cli
