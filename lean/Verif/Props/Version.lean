import Verif.Props.PrintCmd
/-!
# C63: the lines `version …` and `quit …`

What is said of `version` here is said of the text printed, so that a program which prints something else, or nothing, is
excluded (cli.hpp 250-253, 279-285).
-/
namespace Symxx.Cli
open Symxx.Num Symxx.Sym Cmd

variable {E : CEnv}

/-- a line whose first word is `version` prints the version text and nothing else, whatever follows the word, and leaves the
functions and constants alone. -/
theorem C63_version {line : List Char} (h : word line = "version".toList) (s : St E) :
    dispatch E line s = (.ok false, s, E.version) := by
  rw [C63_one_command_partial (by rw [h]; decide) (by rw [h]; decide), asked_eq, h]
  show (Res.ok false, s, E.version ++ []) = _
  rw [List.append_nil]

/-- a line whose first word is `quit` prints nothing and asks to leave. -/
theorem C63_quit {line : List Char} (h : word line = "quit".toList) (s : St E) :
    dispatch E line s = (.ok true, s, []) := by
  rw [C63_one_command_partial (by rw [h]; decide) (by rw [h]; decide), asked_eq, h]
  rfl

/-- in a session: after a line `version …` the session goes on with what it knew, and has printed the prompt and the version. -/
theorem C63_version_session {n : Nat} {s : St E} {input : List Char} (h : (mainloop E n s input).1 = .again)
    (hl : word (lineAt input n) = "version".toList) :
    (mainloop E (n + 1) s input).1 = .again ∧ (mainloop E (n + 1) s input).2.st = (mainloop E n s input).2.st ∧
    (mainloop E (n + 1) s input).2.err = (mainloop E n s input).2.err ∧
    (mainloop E (n + 1) s input).2.out = (mainloop E n s input).2.out ++ "symxx> ".toList ++ E.version := by
  have hd := C63_version hl (mainloop E n s input).2.st
  rw [← mainloop_line h] at hd
  obtain ⟨a1, a2, a3, a4⟩ := iter_ok hd
  rw [mainloop_succ h]
  exact ⟨a1, a2, a4, a3⟩

/-- the session begins with the version. -/
theorem C63_banner {s : St E} {input : List Char} : (mainloop E 0 s input).2.out = E.version ∧
    (mainloop E 0 s input).2.st = s ∧ (mainloop E 0 s input).1 = .again := ⟨rfl, rfl, rfl⟩

/-- a session with a definition and `version now`. -/
theorem C63_version_example : (mainloop cenv64 1 start "constant c = 7\nversion now\n".toList).1 = .again ∧
    word (lineAt "constant c = 7\nversion now\n".toList 1) = "version".toList ∧
    (mainloop cenv64 2 start "constant c = 7\nversion now\n".toList).2.out =
      "symxx\nsymxx> Constant: c = 7\nsymxx> symxx\n".toList := by decide +kernel
example := C63_version_session C63_version_example.1 C63_version_example.2.1
example := C63_version (E := cenv64) (line := "version".toList) (by decide) start
example := C63_quit (E := cenv64) (line := "quit now".toList) (by decide) start

end Symxx.Cli
