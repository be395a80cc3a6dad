import Verif.Cli.Session
import Verif.Props.Print
import Verif.Expr.Dens
/-!
# C62–C65, C74–: the interactive session

`Verif/Cli/Spec.lean` says what a line defines, which line is read at which iteration and which command a line asks for.
-/
namespace Symxx.Cli
open Symxx.Num Symxx.Sym Cmd

variable {E : CEnv}

/-- the session of the examples: 64-bit integers, the decimals and the floating-point formats of x86-64. -/
def cenv64 : CEnv where
  f := fenv64
  dec := dec64
  flt := flt64
  stold s := do
    let q ← Num.stold x87 s
    .ok (some q)
  showLD x := match x with
    | some q => showG q
    | none => "nan".toList
  version := "symxx\n".toList

/-- no functions, no constants. -/
def start : St cenv64 := ⟨[], []⟩
/-- the state after a line. -/
def after (s : St cenv64) (line : String) : St cenv64 := (dispatch cenv64 line.toList s).2.1
/-- what a line does: outcome and output. -/
def does (s : St cenv64) (line : String) : Res Bool × List Char :=
  ((dispatch cenv64 line.toList s).1, (dispatch cenv64 line.toList s).2.2)

theorem fenv64_quiet : fenv64.toEnv.Quiet where
  divPow _ _ _ _ h := by cases h
  mulPow _ _ _ _ h := by cases h
  ofPow _ _ _ h := by cases h
  fac n m := by
    show (if 0 < n then Res.ok (Symxx.Num.Real.trial (2 * n.toNat) n.toNat 2) else .ub "empty range") ≠ .throw m
    split <;> simp
  ofPowDen a b q h := by cases h; exact one_ne_zero

/-- C80 in a session: `2.50` is `5/2`, `0.53` is read as `13/25`, `0.001*1000` is `0`. -/
theorem C80_session : does start "2.50" = (.ok false, "5/2 = 2.5\n".toList) ∧ does start "0.53" = (.ok false, "13/25 = 0.52\n".toList) ∧
    does start "0.001*1000" = (.ok false, "0\n".toList) := by decide +kernel

/-! ### C62 -/

/-- a line that raises an `Error` leaves functions and constants as they were. -/
theorem C62_line (hs : SortOk E.f.sort) (hq : E.f.toEnv.Quiet) {line : List Char} {s : St E} {m : String}
    (h : (dispatch E line s).1 = .throw m) : (dispatch E line s).2.1 = s := by
  rcases dispatch_throw h with h | ⟨name, fn, hd, -, ht⟩
  · exact h
  · exfalso
    obtain ⟨inside, blanks, text, n, -, -, -, -, -, h1, h2⟩ := hd
    exact Node.toStr_nt hq (Node.normalize_nz hs (Node.ofText_nz hs h1) h2) m ht

/-- in a session: an iteration that reports an error leaves functions and constants as they were, goes on with the next
line, and reports one error. -/
theorem C62_session (hs : SortOk E.f.sort) (hq : E.f.toEnv.Quiet) {n : Nat} {s : St E} {input : List Char}
    (h : (mainloop E n s input).1 = .again) (he : (mainloop E (n + 1) s input).2.err ≠ (mainloop E n s input).2.err) :
    (mainloop E (n + 1) s input).2.st = (mainloop E n s input).2.st ∧ (mainloop E (n + 1) s input).1 = .again ∧
      ∃ m, (mainloop E (n + 1) s input).2.err = (mainloop E n s input).2.err ++ [m] := by
  rw [mainloop_succ h] at he ⊢
  generalize (mainloop E n s input).2 = w at he ⊢
  have key := fun m => C62_line hs hq (line := w.inp.getline.str) (s := w.st) (m := m)
  unfold iter at he ⊢
  simp only at he ⊢
  generalize dispatch E w.inp.getline.str w.st = d at he key ⊢
  rcases d with ⟨r, s', o⟩
  cases r with
  | ok b => cases b <;> exact absurd rfl he
  | throw m => exact ⟨key m rfl, rfl, m, rfl⟩
  | exn m => exact absurd rfl he
  | ub m => exact absurd rfl he
  | fuel => exact absurd rfl he

/-- `f(2,3)` with a function of one argument; a definition whose right side is a division by zero. -/
theorem C62_example : does (after start "func f(x) = x^2+1") "f(2,3)" = (.throw "Expected 1 arguments", []) ∧
    (does (after start "func f(x) = x^2+1") "func f(y) = y/(1-1)").1 = .throw divisionByZero := by decide +kernel
example := C62_line (E := cenv64) fenv64_sort fenv64_quiet (congrArg Prod.fst C62_example.1)
example : after (after start "func f(x) = x^2+1") "func f(y) = y/(1-1)" = after start "func f(x) = x^2+1" :=
  C62_line (E := cenv64) fenv64_sort fenv64_quiet C62_example.2

/-! ### C63 -/

/-- `asked`, command by command. -/
theorem asked_eq (line : List Char) : asked E line =
    (if word line = "normalize".toList then (do cmdNormalize E (rest line); Cmd.pure false)
    else if word line = "tex".toList then (do cmdTex E (rest line); Cmd.pure false)
    else if word line = "ntex".toList then (do cmdNtex E (rest line); Cmd.pure false)
    else if word line = "func".toList then (do cmdFunc E (rest line); Cmd.pure false)
    else if word line = "constant".toList then (do cmdConstant E (rest line); Cmd.pure false)
    else if word line = "print".toList then (do cmdPrint E (rest line); Cmd.pure false)
    else if word line = "factor".toList then (do cmdFactor E (rest line); Cmd.pure false)
    else if word line = "version".toList then (do cmdVersion E; Cmd.pure false)
    else if word line = "quit".toList then Cmd.pure true
    else (do cmdOther E line (word line); Cmd.pure false) : Cmd E Bool) := by
  have key : ∀ (l : List (List Char × (List Char → Cmd E Bool))) (k : List Char) (g : List Char → Cmd E Bool)
      (w r : List Char) (d : Cmd E Bool),
      Option.elim (((k, g) :: l).find? (fun p => p.1 = w)) d (fun p => p.2 r) =
        if w = k then g r else Option.elim (l.find? (fun p => p.1 = w)) d (fun p => p.2 r) := by
    intro l k g w r d
    by_cases h : w = k
    · subst h
      rw [if_pos rfl, List.find?_cons_of_pos (by simp)]
      rfl
    · rw [if_neg h, List.find?_cons_of_neg (by simpa using fun h' => h h'.symm)]
  have hm : ∀ (o : Option (List Char × (List Char → Cmd E Bool))) (r : List Char) (d : Cmd E Bool),
      (match o with | some p => p.2 r | none => d) = Option.elim o d (fun p => p.2 r) := by
    intro o r d
    cases o <;> rfl
  unfold asked commands
  refine (hm _ _ _).trans ?_
  simp only [key]
  rfl

/-- what a line that is not `normalize` or `tex` does. -/
theorem dispatch_rest {line : List Char} (h1 : word line ≠ "normalize".toList) (h2 : word line ≠ "tex".toList) :
    dispatch E line =
    (if word line = "ntex".toList then (do cmdNtex E (rest line); Cmd.pure false)
    else if word line = "func".toList then (do cmdFunc E (rest line); Cmd.pure false)
    else if word line = "constant".toList then (do cmdConstant E (rest line); Cmd.pure false)
    else if word line = "print".toList then (do cmdPrint E (rest line); Cmd.pure false)
    else if word line = "factor".toList then (do cmdFactor E (rest line); Cmd.pure false)
    else if word line = "version".toList then (do cmdVersion E; Cmd.pure false)
    else if word line = "quit".toList then Cmd.pure true
    else (do cmdOther E line (word line); Cmd.pure false) : Cmd E Bool) := by
  have hw : ∀ (a b : Bool) (x y : Cmd E Unit) (z : Cmd E Bool), a = false → b = false →
      (do Cmd.when a x; Cmd.when b y; z) = z := by
    rintro _ _ x y z rfl rfl
    funext s
    show ((z s).1, (z s).2.1, [] ++ ([] ++ (z s).2.2)) = z s
    simp
  exact hw _ _ _ _ _ (decide_eq_false h1) (decide_eq_false h2)

/-- every line whose first word is not `normalize` or `tex` runs the command it asks for, and nothing else. -/
theorem C63_one_command_partial {line : List Char} (h1 : word line ≠ "normalize".toList) (h2 : word line ≠ "tex".toList) :
    dispatch E line = asked E line := by
  rw [dispatch_rest h1 h2, asked_eq, if_neg h1, if_neg h2]

/-- what is missing: `normalize t` and `tex t` run the command asked for and then, unless it failed, also normalise the whole
line, command word included. -/
theorem C63_twice {line : List Char} (h : word line = "normalize".toList ∨ word line = "tex".toList) :
    dispatch E line = (do
      let _ ← asked E line
      cmdNormalize E line
      Cmd.pure false) := by
  have ho : ∀ w, '(' ∉ w → cmdOther E line w = cmdNormalize E line := by
    intro w hw
    unfold cmdOther
    have e : ∀ l : List Char, '(' ∉ l → l.dropWhile (· ≠ '(') = [] := by
      intro l hl
      induction l with
      | nil => rfl
      | cons c t ih =>
        rw [List.mem_cons, not_or] at hl
        rw [List.dropWhile_cons_of_pos (by simpa using fun h => hl.1 h.symm)]
        exact ih hl.2
    rw [e w hw]
  have h12 : "tex".toList ≠ "normalize".toList := by decide
  have h21 : "normalize".toList ≠ "tex".toList := by decide
  rcases h with h | h
  · rw [asked_eq, if_pos h]
    have e : ∀ (x : Cmd E Unit) (y z : Cmd E Bool), y = z → (do x; y) = (do let _ ← (do x; Cmd.pure false : Cmd E Bool); z) := by
      rintro x y _ rfl
      funext s
      simp only [bind_def]
      rcases x s with ⟨r, s', o⟩
      cases r <;> simp [Cmd.pure]
    unfold dispatch
    rw [show line.takeWhile (· ≠ ' ') = word line from rfl, show (line.dropWhile (· ≠ ' ')).tail = rest line from rfl]
    rw [h]
    dsimp only
    rw [decide_eq_true (rfl : "normalize".toList = _), decide_eq_false h21]
    refine e _ _ _ ?_
    rw [if_neg (by decide), if_neg (by decide), if_neg (by decide), if_neg (by decide), if_neg (by decide), if_neg (by decide),
      if_neg (by decide), ho _ (by decide)]
    funext s
    show ((_ : Res Bool), _, [] ++ _) = _
    rw [List.nil_append]
  · rw [asked_eq, if_neg (h ▸ h12), if_pos h]
    have e : ∀ (w x : Cmd E Unit) (y z : Cmd E Bool), y = z →
        (do Cmd.when false w; x; y) = (do let _ ← (do x; Cmd.pure false : Cmd E Bool); z) := by
      rintro w x y _ rfl
      funext s
      simp only [bind_def, Cmd.when, Cmd.pure, Bool.false_eq_true, if_false]
      rcases x s with ⟨r, s', o⟩
      cases r <;> simp
    unfold dispatch
    rw [show line.takeWhile (· ≠ ' ') = word line from rfl, show (line.dropWhile (· ≠ ' ')).tail = rest line from rfl]
    rw [h]
    dsimp only
    rw [decide_eq_true (rfl : "tex".toList = _), decide_eq_false h12]
    refine e _ _ _ _ ?_
    rw [if_neg (by decide), if_neg (by decide), if_neg (by decide), if_neg (by decide), if_neg (by decide), if_neg (by decide),
      if_neg (by decide), ho _ (by decide)]

/-- the full claim is false: `normalize x` prints `x` and then the product of its own letters; `normalize 1+1` prints 2 and
then fails; `tex 1/2` prints the fraction and then fails. -/
theorem C63_fails : does start "normalize x" = (.ok false, "x\naeilmnorxz\n".toList) ∧
    (asked cenv64 "normalize x".toList start).2.2 = "x\n".toList ∧
    does start "normalize 1+1" = (.throw "Invaild string.", "2\n".toList) ∧
    does start "tex 1/2" = (.throw "Invaild string.", "\\frac{1}{2}\n".toList) := by decide +kernel

example : word "func f(x) = x".toList ≠ "normalize".toList ∧ word "func f(x) = x".toList ≠ "tex".toList := by decide

/-! ### C64 -/

/-- as long as the session runs: what is stored under a name is what the last line that defines it defined, or what was there
at the beginning. -/
theorem C64_history {n : Nat} {s : St E} {input : List Char} (h : (mainloop E n s input).1 = .again) (name : List Char) :
    Latest (Defines E name) (s.funcs.find name) ((List.range n).map (lineAt input)) ((mainloop E n s input).2.st.funcs.find name) ∧
    Latest (DefinesConst E name) (s.constants.find name) ((List.range n).map (lineAt input))
      ((mainloop E n s input).2.st.constants.find name) :=
  ⟨funcs_latest h name, consts_latest h name⟩

/-- `Latest` determines the value. -/
theorem C64_unique {α : Type} {P : List Char → α → Prop} (hP : ∀ l a b, P l a → P l b → a = b) {init : Option α}
    {lines : List (List Char)} {a b : Option α} (ha : Latest P init lines a) (hb : Latest P init lines b) : a = b := by
  induction ha generalizing b with
  | start =>
    generalize hl : ([] : List (List Char)) = l at hb
    cases hb with
    | start => rfl
    | now => simp at hl
    | before => simp at hl
  | @now lines line a h =>
    generalize hl : lines ++ [line] = l at hb
    cases hb with
    | start => simp at hl
    | @now lines' line' b h' =>
      obtain ⟨-, h2⟩ := List.append_inj' hl rfl
      injection h2 with h2
      subst h2
      rw [hP _ _ _ h h']
    | @before lines' line' r h' =>
      obtain ⟨-, h2⟩ := List.append_inj' hl rfl
      injection h2 with h2
      subst h2
      exact absurd h (h' _)
  | @before lines line r h hr ih =>
    generalize hl : lines ++ [line] = l at hb
    cases hb with
    | start => simp at hl
    | @now lines' line' b h' =>
      obtain ⟨-, h2⟩ := List.append_inj' hl rfl
      injection h2 with h2
      subst h2
      exact absurd h' (h _)
    | @before lines' line' r h' hr' =>
      obtain ⟨h1, -⟩ := List.append_inj' hl rfl
      subst h1
      exact ih hr'

/-- a session with definitions, a call, a redefinition, an error and another call. -/
def session : List Char := "func f(x) = x^2+1\nf(2)\nconstant c = 7\nfunc f(x,y) = x-y\nf(1)\nf(5,3)\n".toList
theorem session_runs : (mainloop cenv64 6 start session).1 = .again ∧
    (mainloop cenv64 6 start session).2.out = ("symxx\nsymxx> Function: f(x) = (x**2)+1\nsymxx> 5\nsymxx> Constant: c = 7\n" ++
      "symxx> Function: f(x,y) = -y+x\nsymxx> symxx> 2\n").toList ∧
    (mainloop cenv64 6 start session).2.err = ["Expected 2 arguments"] := by decide +kernel
example := C64_history session_runs.1 ['f']

/-! ### C65 -/

/-- the loop returns exactly when the first word of a line read is `quit` (and it has come that far). -/
theorem C65_exit {n : Nat} {s : St E} {input : List Char} : (mainloop E n s input).1 = .exit ↔
    ∃ k < n, word (lineAt input k) = "quit".toList ∧ (mainloop E k s input).1 = .again := exit_iff

/-- every other line that completes or raises an `Error` is followed by the next. -/
theorem C65_continues_partial {n : Nat} {s : St E} {input : List Char} (h : (mainloop E n s input).1 = .again)
    (hw : word (lineAt input n) ≠ "quit".toList) (hd : Alive (dispatch E (lineAt input n) (mainloop E n s input).2.st).1) :
    (mainloop E (n + 1) s input).1 = .again := by
  rw [mainloop_succ h, iter_again, mainloop_line h]
  rcases hd with ⟨b, hb⟩ | hb
  · left
    cases b with
    | true => exact absurd (dispatch_true_iff.1 hb) hw
    | false => exact hb
  · exact Or.inr hb

/-- the end of the input does not end the session: the last line (the text after the last line break, if nothing follows it
the empty line) is run again and again. -/
theorem C65_end_of_input {input : List Char} {k : Nat} (hk : (pieces input).length - 1 ≤ k) :
    lineAt input k = (pieces input).getLast (pieces_ne input) := by
  unfold lineAt
  rw [Nat.min_eq_right hk, List.getLast_eq_getElem]
  rw [List.getElem?_eq_getElem (by have := List.length_pos_iff.2 (pieces_ne input); omega)]
  rfl

/-- without a line `quit` the session never ends by itself. -/
theorem C65_no_quit {s : St E} {input : List Char} (h : ∀ p ∈ pieces input, word p ≠ "quit".toList) (n : Nat) :
    (mainloop E n s input).1 ≠ .exit := by
  intro he
  obtain ⟨k, -, hw, -⟩ := C65_exit.1 he
  refine h _ ?_ hw
  unfold lineAt
  have := List.length_pos_iff.2 (pieces_ne input)
  rw [List.getElem?_eq_getElem (by omega)]
  exact List.getElem_mem _

theorem C65_example : (mainloop cenv64 9 start "1+1\nquit now\n2+2\n".toList).1 = .exit ∧
    (mainloop cenv64 9 start "1+1\nquit now\n2+2\n".toList).2.out = "symxx\nsymxx> 2\nsymxx> ".toList ∧
    (mainloop cenv64 4 start "1/(1-1)\n1+1".toList).1 = .again ∧
    (mainloop cenv64 4 start "1/(1-1)\n1+1".toList).2.out = "symxx\nsymxx> symxx> 2\nsymxx> 2\nsymxx> 2\n".toList := by
  decide +kernel
example := C65_no_quit (E := cenv64) (s := start) (input := "1+1\n2*x".toList) (by decide)

/-- the full claim is false: `constant c = q` raises `std::invalid_argument`, which nobody catches. -/
theorem C65_fails : (mainloop cenv64 9 start "constant c = q\n1+1\nquit\n".toList).1 = .abort "invalid_argument" := by
  decide +kernel

end Symxx.Cli
