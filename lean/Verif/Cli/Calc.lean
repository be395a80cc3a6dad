import Verif.Cli.Session
import Verif.Expr.IntSubst
/-!
# Calls of functions and expressions over integers
-/
namespace Symxx.Cli
open Symxx.Num Symxx.Sym Cmd

variable {E : CEnv}

/-! ### the arguments of a call -/

theorem realOfText_iff {p : List Char} {a : Num.Real} : realOfText E p = .ok a ↔
    ∃ q, Rational.ofStr E.f.M E.dec p = .ok q ∧ Real.ofRational E.f.toEnv q = .ok a := Res.bind_eq_ok

theorem splitArgs_from {s temp : List Char} {as : List Num.Real} (ht : ∀ c ∈ temp, c ≠ ',' ∧ isSpace c = false) :
    splitArgs E s temp = .ok as ↔ ∃ ps, NamesFrom temp s ps ∧ List.Forall₂ (fun p a => realOfText E p = .ok a) ps as := by
  induction s generalizing temp as with
  | nil =>
    simp only [namesFrom_nil ht]
    rw [splitArgs]
    cases temp with
    | nil =>
      simp only [List.isEmpty_nil, if_true, exists_eq_left, List.forall₂_nil_left_iff, Res.ok.injEq]
      exact eq_comm
    | cons d t =>
      simp only [List.isEmpty_cons, Bool.false_eq_true, if_false, exists_eq_left]
      rw [Res.bind_eq_ok]
      constructor
      · rintro ⟨r, h1, h2⟩
        injection h2 with h2; subst h2
        exact List.Forall₂.cons h1 List.Forall₂.nil
      · rintro h
        obtain ⟨a, l, h1, h2, rfl⟩ := List.forall₂_cons_left_iff.1 h
        rw [List.forall₂_nil_left_iff] at h2
        subst h2
        exact ⟨a, h1, rfl⟩
  | cons c s ih =>
    unfold splitArgs
    by_cases hs : isSpace c = true
    · rw [if_pos hs, ih ht]
      unfold NamesFrom
      rw [List.filter_cons_of_neg (by simp [hs])]
    · rw [if_neg hs]
      by_cases hc : c = ','
      · subst hc
        rw [if_pos rfl]
        simp only [namesFrom_comma ht]
        cases temp with
        | nil => simp [Res.assert]
        | cons d t =>
          simp only [List.isEmpty_cons, Bool.not_false, Res.assert_true, Res.bind_ok, ne_eq, reduceCtorEq,
            not_false_eq_true, true_and]
          rw [Res.bind_eq_ok]
          constructor
          · rintro ⟨r, h1, h2⟩
            obtain ⟨rs, h4, h3⟩ := Res.bind_eq_ok.1 h2
            injection h3 with h3; subst h3
            obtain ⟨ps, p1, p2⟩ := (ih (temp := []) (by simp)).1 h4
            exact ⟨(d :: t) :: ps, ⟨ps, rfl, p1⟩, List.Forall₂.cons h1 p2⟩
          · rintro ⟨_, ⟨ps, rfl, p1⟩, p2⟩
            obtain ⟨a, l, h1, h2, rfl⟩ := List.forall₂_cons_left_iff.1 p2
            exact ⟨a, h1, Res.bind_eq_ok.2 ⟨l, (ih (temp := []) (by simp)).2 ⟨ps, p1, h2⟩, rfl⟩⟩
      · rw [if_neg hc, ih]
        · unfold NamesFrom
          rw [List.filter_cons_of_pos (by simp [hs])]
          simp only [List.append_assoc, List.singleton_append]
        · intro d hd
          rcases List.mem_append.1 hd with hd | hd
          · exact ht d hd
          · rw [List.mem_singleton] at hd; subst hd
            exact ⟨hc, by simpa using hs⟩

theorem splitArgs_iff {s : List Char} {as : List Num.Real} : splitArgs E s [] = .ok as ↔ Args E s as := by
  rw [splitArgs_from (by simp)]
  unfold Args Names NamesFrom
  simp only [List.nil_append, realOfText_iff]

/-! ### which command -/

theorem calls_unique {line a b c d : List Char} (h1 : Calls line a b) (h2 : Calls line c d) : a = c ∧ b = d := by
  obtain ⟨m, e1, ha, hb⟩ := h1
  obtain ⟨m', e2, hc, hd⟩ := h2
  rw [e1] at e2
  simp only [List.append_assoc, List.cons_append] at e2
  have t1 := (split_at (c := '(') (b := b ++ ')' :: m) ha)
  have t2 := (split_at (c := '(') (b := d ++ ')' :: m') hc)
  rw [e2] at t1
  have r1 : a = c := by rw [← t1.1, t2.1]
  subst r1
  have r2 := t1.2.symm.trans t2.2
  injection r2 with _ r2
  have u1 := (split_at (c := ')') (b := m) hb)
  have u2 := (split_at (c := ')') (b := m') hd)
  rw [r2] at u1
  exact ⟨rfl, by rw [← u1.1, u2.1]⟩

theorem cmdOther_call {line name inside : List Char} (h : Calls line name inside) {s : St E} {fn : Fn}
    (hf : s.funcs.find name = some fn) : cmdOther E line (word line) s = cmdCall E name inside s := by
  obtain ⟨more, e, h1, h2⟩ := h
  have e1 := split_at (c := '(') (b := inside ++ ')' :: more) h1
  have e2 := split_at (c := ')') (b := more) h2
  unfold cmdOther
  rw [e]
  simp only [List.append_assoc, List.cons_append]
  rw [e1.2]
  simp only
  rw [e2.2]
  simp only
  rw [e1.1, e2.1]
  show Cmd.bind get _ s = _
  unfold Cmd.bind
  simp only [Cmd.get]
  rw [hf]
  simp only [List.nil_append]

theorem cmdOther_expr {line : List Char} {s : St E} (h : ∀ name inside, Calls line name inside → s.funcs.find name = none) :
    cmdOther E line (word line) s = cmdNormalize E line s := by
  unfold cmdOther
  cases e1 : (word line).dropWhile (· ≠ '(') with
  | nil => rfl
  | cons d t =>
    simp only
    cases e2 : t.dropWhile (· ≠ ')') with
    | nil => rfl
    | cons d' u =>
      simp only
      obtain ⟨rfl, s1, s2⟩ := split_of e1
      obtain ⟨rfl, t1, t2⟩ := split_of e2
      have hf := h ((word line).takeWhile (· ≠ '(')) (t.takeWhile (· ≠ ')')) ⟨u, by
        simp only [List.append_assoc, List.cons_append]; rw [← t1]; exact s1, s2, t2⟩
      show Cmd.bind get _ s = _
      unfold Cmd.bind
      simp only [Cmd.get]
      rw [hf]
      simp only [List.nil_append]

theorem calls_word {line name inside : List Char} (h : Calls line name inside) : word line ∉ commandNames := by
  obtain ⟨more, e, -⟩ := h
  have hp : '(' ∈ word line := by rw [e]; simp
  intro hm
  have : ∀ w ∈ commandNames, '(' ∉ w := by decide
  exact this _ hm hp

/-- a line whose first word is no command. -/
theorem dispatch_other {line : List Char} (h : word line ∉ commandNames) :
    dispatch E line = (do cmdOther E line (word line); Cmd.pure false) := by
  simp only [commandNames, List.mem_cons, List.not_mem_nil, or_false, not_or] at h
  obtain ⟨h1, h2, h3, h4, h5, h6, h7, h8, h9⟩ := h
  have hw : ∀ (a b : Bool) (x y : Cmd E Unit) (z : Cmd E Bool), a = false → b = false →
      (do Cmd.when a x; Cmd.when b y; z) = z := by
    rintro _ _ x y z rfl rfl
    funext s
    show ((z s).1, (z s).2.1, [] ++ ([] ++ (z s).2.2)) = z s
    simp
  refine (hw _ _ _ _ _ (decide_eq_false h1) (decide_eq_false h2)).trans ?_
  show (if word line = "ntex".toList then _ else _) = _
  rw [if_neg h3]
  show (if word line = "func".toList then _ else _) = _
  rw [if_neg h4]
  show (if word line = "constant".toList then _ else _) = _
  rw [if_neg h5]
  show (if word line = "print".toList then _ else _) = _
  rw [if_neg h6]
  show (if word line = "factor".toList then _ else _) = _
  rw [if_neg h7]
  show (if word line = "version".toList then _ else _) = _
  rw [if_neg h8]
  show (if word line = "quit".toList then _ else _) = _
  rw [if_neg h9]
  rfl

/-- outcome `ok false`, from a command that completes. -/
theorem then_ok {c : Cmd E Unit} {s s' : St E} {o : List Char} (h : c s = (.ok (), s', o)) :
    (do c; Cmd.pure false : Cmd E Bool) s = (.ok false, s', o) := by
  rw [bind_def, h]
  simp [Cmd.pure]

theorem then_throw {c : Cmd E Unit} {s s' : St E} {m : String} {o : List Char} (h : c s = (.throw m, s', o)) :
    (do c; Cmd.pure false : Cmd E Bool) s = (.throw m, s', o) := by
  rw [bind_def, h]

/-! ### the call -/

theorem lookup_bindArgs (x : List Char) : ∀ (ps : List (List Char)) (as : List Num.Real) (e : Table Num.Real),
    Term.lookup (bindArgs ps as e) x = ((ps.zip as).reverse.find? fun p => p.1 = x).elim (Term.lookup e x) fun p => some p.2 := by
  have hset : ∀ (e : Table Num.Real) (k : List Char) (v : Num.Real),
      Term.lookup (e.set k v) x = if x = k then some v else Term.lookup e x := by
    have hl : ∀ e : Table Num.Real, Term.lookup e x = e.find x := by
      intro e
      unfold Term.lookup
      induction e with
      | nil => rfl
      | cons p t ih =>
        obtain ⟨k, v⟩ := p
        unfold Table.find
        by_cases h : x = k
        · subst h; rw [if_pos rfl, List.find?_cons_of_pos (by simp)]; rfl
        · rw [if_neg h, List.find?_cons_of_neg (by simpa using fun h' => h h'.symm)]; exact ih
    intro e k v
    rw [hl, hl, Table.find_set]
  intro ps
  induction ps with
  | nil => intro as e; rfl
  | cons p ps ih =>
    intro as e
    cases as with
    | nil => rfl
    | cons a as =>
      rw [bindArgs, ih, hset, List.zip_cons_cons, List.reverse_cons, List.find?_append]
      cases (ps.zip as).reverse.find? fun p => decide (p.1 = x) with
      | some q => rfl
      | none =>
        simp only [Option.none_or, Option.elim]
        by_cases h : x = p
        · subst h; rw [if_pos rfl, List.find?_cons_of_pos (by simp)]
        · rw [if_neg h, List.find?_cons_of_neg (by simpa using fun h' => h h'.symm)]; rfl

/-- the table built for a call binds what the list of pairs binds, the last pair first. -/
theorem lookup_bind (ps : List (List Char)) (as : List Num.Real) (x : List Char) :
    Term.lookup (bindArgs ps as []) x = Term.lookup (ps.zip as).reverse x := by
  rw [lookup_bindArgs]
  unfold Term.lookup
  cases (ps.zip as).reverse.find? fun p => decide (p.1 = x) <;> rfl

theorem substLoop_congr {env : Env} {e e' : List (List Char × Num.Real)} (h : ∀ x, Term.lookup e x = Term.lookup e' x) (s : Syms)
    (c : Num.Real) : Term.substLoop env e s c = Term.substLoop env e' s c := by
  induction s generalizing c with
  | nil => rfl
  | cons p s ih =>
    unfold Term.substLoop
    rw [h]
    cases Term.lookup e' p.1 with
    | none => exact ih c
    | some v =>
      simp only
      congr 1; funext q; congr 1; funext r; exact ih r

theorem any_lookup {e e' : List (List Char × Num.Real)} (h : ∀ x, Term.lookup e x = Term.lookup e' x) (x : List Char) :
    (e.any fun q => decide (q.1 = x)) = e'.any fun q => decide (q.1 = x) := by
  have key : ∀ l : List (List Char × Num.Real), (l.any fun q => decide (q.1 = x)) = (Term.lookup l x).isSome := by
    intro l
    unfold Term.lookup
    rw [Option.isSome_map, Bool.eq_iff_iff, List.find?_isSome, List.any_eq_true]
  rw [key, key, h]

theorem Node.substitute_congr {env : FEnv} {e e' : List (List Char × Num.Real)}
    (h : ∀ x, Term.lookup e x = Term.lookup e' x) (n : Node) : Node.substitute env e n = Node.substitute env e' n := by
  have ht : ∀ t, Term.substitute env.toEnv e t = Term.substitute env.toEnv e' t := by
    intro t
    unfold Term.substitute
    rw [substLoop_congr h]
    simp only [any_lookup h]
  have hp : ∀ p, Poly.substitute env.toEnv e p = Poly.substitute env.toEnv e' p := by
    intro p
    unfold Poly.substitute
    rw [funext ht]
  induction n with
  | frac f => unfold Node.substitute Frac.substitute; simp only [hp]
  | op c l r il ir => unfold Node.substitute; rw [il, ir]

theorem cmdCall_args {name inside : List Char} {s : St E} {fn : Fn} {as : List Num.Real} (hf : s.funcs.find name = some fn)
    (ha : Args E inside as) : cmdCall E name inside s =
      if as.length = fn.params.length then
        (do
          let n ← lift (Node.substitute E.f (fn.params.zip as).reverse fn.body)
          printResult E n : Cmd E Unit) s
      else (.throw ("Expected " ++ toString fn.params.length ++ " arguments"), s, []) := by
  have hg : ∀ f : St E → Cmd E Unit, (get >>= f) s = f s s := fun f => by
    rw [bind_def]; rfl
  have hb := Node.substitute_congr (env := E.f) (lookup_bind fn.params as) fn.body
  unfold cmdCall
  rw [lift_bind, splitArgs_iff.2 ha]
  simp only
  rw [hg, hf]
  simp only
  rw [lift_bind]
  by_cases hl : as.length = fn.params.length
  · rw [if_pos hl, decide_eq_true hl]
    simp only [Res.assert_true]
    rw [hb]
  · rw [if_neg hl, decide_eq_false hl]
    rfl

/-! ### integers -/

theorem isInteger_con (h : E.f.toEnv.IntOk) {k : Int} (hk : |k| ≤ E.f.M) : isInteger E (.frac (Frac.con k)) = .ok true := by
  have e1 : ∀ j : Int, |j| ≤ E.f.M → polyIsRational E.f.toEnv [Term.con j] = .ok true := by
    intro j hj
    unfold polyIsRational Term.isRational
    have : (Term.con j).noSymbols = true := rfl
    rw [this, if_pos rfl]
    have e : Real.isRational E.f.toEnv (Term.con j).coe = .ok true := Frac.isRational_int h hj
    rw [e, Res.bind_ok, if_pos rfl]
    rfl
  unfold isInteger
  have e2 : Node.tryEval E.f (.frac (Frac.con k)) = .ok (some (Frac.con k)) := rfl
  rw [e2, Res.bind_ok]
  simp only
  have e3 : (Frac.con k).noSymbols = true := rfl
  rw [e3, if_pos rfl]
  unfold fracIsRational Frac.con
  simp only
  rw [e1 k hk, Res.bind_ok, if_pos rfl, show unitPoly = [Term.con 1] from rfl, e1 1 (Real.abs1 h), Res.bind_ok, if_pos rfl]
  have := Frac.toRational_const h hk
  rw [show (⟨[Term.con k], [Term.con 1]⟩ : Frac) = ⟨[Term.ofReal (Real.int k)], unitPoly⟩ from rfl, this, Res.bind_ok]
  rfl

theorem printResult_con (h : E.f.toEnv.IntOk) {k : Int} (hk : |k| ≤ E.f.M) (s : St E) :
    printResult E (.frac (Frac.con k)) s = (.ok (), s, (toString k).toList ++ ['\n']) := by
  have e1 : Node.normalize E.f (.frac (Frac.con k)) = .ok (.frac (Frac.con k)) := rfl
  unfold printResult
  rw [lift_bind, e1]
  simp only
  rw [lift_bind, Node.toStr_con h hk]
  simp only
  rw [bind_def]
  simp only [Cmd.print]
  rw [lift_bind, isInteger_con h hk]
  simp only [if_true]
  rfl

end Symxx.Cli
