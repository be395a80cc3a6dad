import Verif.Props.Cli
import Verif.Cli.PrintCmd
/-!
# C102: `print` shows the definitions of the session

`FuncShown`, `constShown` (`Verif/Cli/PrintCmd.lean`) are the lines shown; `Latest (Defines E name)` (`Verif/Cli/Spec.lean`) is the
last definition typed under a name.
-/
namespace Symxx.Cli
open Symxx.Num Symxx.Sym Cmd

variable {E : CEnv}

theorem tidy_session (hs : SortOk E.f.sort) (hq : E.f.toEnv.Quiet) {n : Nat} {s : St E} (h0 : Tidy s) {input : List Char}
    (h : (mainloop E n s input).1 = .again) : Tidy (mainloop E n s input).2.st := by
  induction n with
  | zero => exact h0
  | succ n ih =>
    obtain ⟨h1, h2⟩ := mainloop_succ_again.1 h
    rw [mainloop_st h1]
    rw [iter_again, mainloop_line h1] at h2
    rcases h2 with h2 | ⟨m, h2⟩
    · exact (ih h1).line h2
    · rw [C62_line hs hq h2]; exact ih h1

theorem tidy_start {s : St E} (hf : s.funcs = []) (hc : s.constants.names.Pairwise (· < ·)) : Tidy s where
  funcs := by rw [hf]; exact List.Pairwise.nil
  constants := hc
  body := by intro n fn h; rw [hf] at h; cases h

theorem iter_ok {w : World E} {o : List Char} {s' : St E}
    (h : dispatch E w.inp.getline.str w.st = (.ok false, s', o)) :
    (iter E w).1 = .again ∧ (iter E w).2.st = s' ∧ (iter E w).2.out = w.out ++ "symxx> ".toList ++ o ∧
      (iter E w).2.err = w.err := by
  unfold iter
  simp only [h]
  exact ⟨trivial, trivial, trivial, trivial⟩

/-- `print name` in a session that starts without functions: it always succeeds, changes nothing and shows the function last
defined under that name, if any, and then the constant of that name, if any - nothing else. -/
theorem C102_named (hs : SortOk E.f.sort) (hq : E.f.toEnv.Quiet) {n : Nat} {s : St E} (hf : s.funcs = [])
    (hc : s.constants.names.Pairwise (· < ·)) {input name : List Char} (hn : name ≠ [])
    (h : (mainloop E n s input).1 = .again) (hl : lineAt input n = "print ".toList ++ name) :
    (mainloop E (n + 1) s input).1 = .again ∧ (mainloop E (n + 1) s input).2.st = (mainloop E n s input).2.st ∧
    (mainloop E (n + 1) s input).2.err = (mainloop E n s input).2.err ∧
    ∃ f c o, Latest (Defines E name) none ((List.range n).map (lineAt input)) f ∧
      Latest (DefinesConst E name) (s.constants.find name) ((List.range n).map (lineAt input)) c ∧ FuncShown E name f o ∧
      (mainloop E (n + 1) s input).2.out =
        (mainloop E n s input).2.out ++ "symxx> ".toList ++ (o ++ constShown E name c) := by
  have ht := tidy_session hs hq (tidy_start hf hc) h
  have hsplit := split_at (c := ' ') (a := "print".toList) (b := name) (by decide)
  have e : "print ".toList ++ name = "print".toList ++ ' ' :: name := rfl
  have hw : word (lineAt input n) = "print".toList := by rw [hl, e]; exact hsplit.1
  have hr : rest (lineAt input n) = name := by
    rw [hl, e]; unfold rest; rw [hsplit.2]; rfl
  have hd := congrFun (dispatch_print (E := E) hw) (mainloop E n s input).2.st
  rw [hr, then_false_eq (cmdPrint_named hn (ht.shown name))] at hd
  rw [← mainloop_line h] at hd
  obtain ⟨a1, a2, a3, a4⟩ := iter_ok hd
  rw [mainloop_succ h]
  have hfl := funcs_latest h name
  rw [hf] at hfl
  exact ⟨a1, a2, a4, _, _, _, hfl, consts_latest h name, ht.shown name, a3⟩

/-- `print` alone: the functions that are defined, each once, in the order of their names, then the constants. -/
theorem C102_all (hs : SortOk E.f.sort) (hq : E.f.toEnv.Quiet) {n : Nat} {s : St E} (hf : s.funcs = [])
    (hc : s.constants.names.Pairwise (· < ·)) {input : List Char} (h : (mainloop E n s input).1 = .again)
    (hl : lineAt input n = "print".toList ∨ lineAt input n = "print ".toList) :
    (mainloop E (n + 1) s input).1 = .again ∧ (mainloop E (n + 1) s input).2.st = (mainloop E n s input).2.st ∧
    (mainloop E (n + 1) s input).2.err = (mainloop E n s input).2.err ∧
    ∃ (fs : List (List Char × List Char)) (cs : List (List Char × List Char)),
      (fs.map Prod.fst).Pairwise (· < ·) ∧ (cs.map Prod.fst).Pairwise (· < ·) ∧
      (∀ name o, (name, o) ∈ fs ↔ ∃ fn, Latest (Defines E name) none ((List.range n).map (lineAt input)) (some fn) ∧
        FuncShown E name (some fn) o) ∧
      (∀ name o, (name, o) ∈ cs ↔ ∃ v, Latest (DefinesConst E name) (s.constants.find name)
        ((List.range n).map (lineAt input)) (some v) ∧ o = constText name (E.showLD v)) ∧
      (mainloop E (n + 1) s input).2.out = (mainloop E n s input).2.out ++ "symxx> ".toList ++
        ((fs.map Prod.snd).flatten ++ (cs.map Prod.snd).flatten) := by
  have ht := tidy_session hs hq (tidy_start hf hc) h
  have hw : word (lineAt input n) = "print".toList := by rcases hl with hl | hl <;> rw [hl] <;> decide
  have hr : rest (lineAt input n) = [] := by rcases hl with hl | hl <;> rw [hl] <;> decide
  have hd := congrFun (dispatch_print (E := E) hw) (mainloop E n s input).2.st
  rw [hr, then_false_eq (cmdPrint_all ht)] at hd
  rw [← mainloop_line h] at hd
  obtain ⟨a1, a2, a3, a4⟩ := iter_ok hd
  rw [mainloop_succ h]
  have hfl := fun name => funcs_latest h name
  simp only [hf] at hfl
  have hcl := fun name => consts_latest h name
  have uf : ∀ name a b, Latest (Defines E name) none ((List.range n).map (lineAt input)) a →
      Latest (Defines E name) none ((List.range n).map (lineAt input)) b → a = b := fun name a b =>
    C64_unique (fun l a b h1 h2 => by
      obtain ⟨body, rfl⟩ := word_of_defines h1
      rw [defines_iff] at h1 h2
      rw [h1] at h2
      injection h2 with h2; injection h2)
  have uc : ∀ name a b, Latest (DefinesConst E name) (s.constants.find name) ((List.range n).map (lineAt input)) a →
      Latest (DefinesConst E name) (s.constants.find name) ((List.range n).map (lineAt input)) b → a = b := fun name a b =>
    C64_unique (fun l a b h1 h2 => by
      obtain ⟨body, rfl⟩ := word_of_definesConst h1
      rw [definesConst_iff] at h1 h2
      rw [h1] at h2
      injection h2 with h2; injection h2)
  generalize (mainloop E n s input).2 = w at *
  refine ⟨a1, a2, a4, w.st.funcs.names.map (fun n => (n, shownOf w.st n)),
    w.st.constants.names.map (fun n => (n, constShown E n (w.st.constants.find n))), ?_, ?_, ?_, ?_, ?_⟩
  · rw [List.map_map]
    have : (Prod.fst ∘ fun n => (n, shownOf w.st n)) = id := rfl
    rw [this, List.map_id]; exact ht.funcs
  · rw [List.map_map]
    have : (Prod.fst ∘ fun n => (n, constShown E n (w.st.constants.find n))) = id := rfl
    rw [this, List.map_id]; exact ht.constants
  · intro name o
    rw [List.mem_map]
    constructor
    · rintro ⟨m, hm, he⟩
      injection he with he1 he2
      subst he1; subst he2
      obtain ⟨fn, hfn⟩ := (Table.find_mem _ _).1 hm
      have := ht.shown m
      rw [hfn] at this
      exact ⟨fn, by rw [← hfn]; exact hfl m, this⟩
    · rintro ⟨fn, h1, h2⟩
      have e := uf _ _ _ (hfl name) h1
      refine ⟨name, (Table.find_mem _ _).2 ⟨fn, e⟩, ?_⟩
      have := ht.shown name
      rw [e] at this
      rw [this.unique h2]
  · intro name o
    rw [List.mem_map]
    constructor
    · rintro ⟨m, hm, he⟩
      injection he with he1 he2
      subst he1; subst he2
      obtain ⟨v, hv⟩ := (Table.find_mem _ _).1 hm
      exact ⟨v, by rw [← hv]; exact hcl m, by rw [hv]; rfl⟩
    · rintro ⟨v, h1, rfl⟩
      have e := uc _ _ _ (hcl name) h1
      exact ⟨name, (Table.find_mem _ _).2 ⟨v, e⟩, by rw [e]; rfl⟩
  · rw [a3]
    congr 1
    simp only [List.map_map]
    rfl

/-- a line that defines a function prints what `print name` prints from then on (unless a constant has the same name). -/
theorem C102_again {s : St E} {line name : List Char} {fn : Fn} {b : Bool} (hn : name ≠ []) (hd : Defines E name line fn)
    (h : (dispatch E line s).1 = .ok b) (hc : s.constants.find name = none) :
    dispatch E ("print ".toList ++ name) (dispatch E line s).2.1 =
      (.ok false, (dispatch E line s).2.1, (dispatch E line s).2.2) := by
  obtain ⟨body, rfl⟩ := word_of_defines hd
  rw [dispatch_func (word_func body), drop_func] at h ⊢
  obtain ⟨name', fn', t, h1, h2, h3⟩ := cmdFunc_ok (then_false_ok h)
  rw [defines_iff, h1] at hd
  injection hd with hd; injection hd with hd1 hd2
  subst hd1; subst hd2
  rw [then_false_eq h3]
  have hsplit := split_at (c := ' ') (a := "print".toList) (b := name') (by decide)
  have e : "print ".toList ++ name' = "print".toList ++ ' ' :: name' := rfl
  have hw : word ("print ".toList ++ name') = "print".toList := by rw [e]; exact hsplit.1
  have hr : rest ("print ".toList ++ name') = name' := by
    rw [e]; unfold rest; rw [hsplit.2]; rfl
  rw [dispatch_print hw, hr]
  have hfind : (s.define (name', fn')).funcs.find name' = some fn' := by
    unfold St.define; rw [Table.find_set, if_pos rfl]
  have hcf : (s.define (name', fn')).constants.find name' = none := hc
  have := cmdPrint_named (E := E) (s := s.define (name', fn')) hn (by rw [hfind]; exact .some h2)
  rw [hcf] at this
  simpa [constShown] using then_false_eq this

/-- a session with two functions, a redefinition, constants, an error and `print`. -/
def printSession : List Char :=
  "func g(x,y) = x*y-1\nconstant k = 2.5\nfunc f(t) = t\nfunc f(x) = x+1\nfunc f() = 1/0\nprint f\nprint\nprint k\nprint z\n".toList
theorem C102_example : (mainloop cenv64 9 start printSession).1 = .again ∧
    (mainloop cenv64 9 start printSession).2.out = ("symxx\nsymxx> Function: g(x,y) = xy-1\nsymxx> Constant: k = 2.5\n" ++
      "symxx> Function: f(t) = t\nsymxx> Function: f(x) = x+1\nsymxx> symxx> Function: f(x) = x+1\n" ++
      "symxx> Function: f(x) = x+1\nFunction: g(x,y) = xy-1\nConstant: k = 2.5\nsymxx> Constant: k = 2.5\nsymxx> ").toList := by
  decide +kernel

theorem session_before (k : Nat) (hk : k ≤ 9) : (mainloop cenv64 k start printSession).1 = .again := by
  by_contra hne
  have key : ∀ j, (mainloop cenv64 (k + j) start printSession).1 ≠ .again := by
    intro j
    induction j with
    | zero => exact hne
    | succ j ih => intro h; exact ih (mainloop_succ_again.1 h).1
  have := key (9 - k)
  rw [Nat.add_sub_cancel' hk] at this
  exact this C102_example.1

example := C102_named (E := cenv64) fenv64_sort fenv64_quiet (s := start) rfl List.Pairwise.nil (name := ['f']) (by decide)
  (session_before 5 (by decide)) (by decide)
example := C102_all (E := cenv64) fenv64_sort fenv64_quiet (s := start) rfl List.Pairwise.nil
  (session_before 6 (by decide)) (Or.inl (by decide))
example := C102_named (E := cenv64) fenv64_sort fenv64_quiet (s := start) rfl List.Pairwise.nil (name := ['k']) (by decide)
  (session_before 7 (by decide)) (by decide)
example := C102_named (E := cenv64) fenv64_sort fenv64_quiet (s := start) rfl List.Pairwise.nil (name := ['z']) (by decide)
  (session_before 8 (by decide)) (by decide)

/-- the hypotheses of `C102_again`. -/
example : dispatch cenv64 "print f".toList (after start "func f(x) = x") = (.ok false, after start "func f(x) = x",
    "Function: f(x) = x\n".toList) := by
  have h : (dispatch cenv64 "func f(x) = x".toList start).1 = .ok false := by decide +kernel
  have hd : ∃ fn, Defines cenv64 ['f'] "func f(x) = x".toList fn :=
    ⟨⟨[['x']], .frac ⟨[⟨⟨1, ⟨1, 1⟩, ⟨1, 1⟩⟩, [(['x'], ⟨1, 1⟩)]⟩], [⟨⟨1, ⟨1, 1⟩, ⟨1, 1⟩⟩, []⟩]⟩⟩,
      (defines_iff (body := "f(x) = x".toList)).2 (by decide +kernel)⟩
  obtain ⟨fn, hd⟩ := hd
  have key := C102_again (E := cenv64) (by decide) hd h rfl
  have ho : (dispatch cenv64 "func f(x) = x".toList start).2.2 = "Function: f(x) = x\n".toList := by decide +kernel
  rw [ho] at key
  exact key

/-- a blank before the parenthesis belongs to the name: `print f` does not find the function and `f (2)` is no call. -/
theorem C102_blank : does start "func f (x) = x+1" = (.ok false, "Function: f (x) = x+1\n".toList) ∧
    does (after start "func f (x) = x+1") "print f" = (.ok false, []) ∧
    does (after start "func f (x) = x+1") "print f " = (.ok false, "Function: f (x) = x+1\n".toList) ∧
    (does (after start "func f (x) = x+1") "f(2)").2 ≠ "3\n".toList ∧
    (does (after start "func f (x) = x+1") "f (2)").2 ≠ "3\n".toList := by decide +kernel

end Symxx.Cli
