import Verif.Cli.Model
import Verif.Num.RatMore
import Verif.Expr.Spec
/-!
# What a session means: lines, definitions, the latest definition

`Defines`, `DefinesConst`, `Latest`, `pieces`, `lineAt` only speak about the text typed and about the parser and the normal
form of expressions; they know nothing of how the commands are run.
-/
namespace Symxx.Cli
open Symxx.Num Symxx.Sym

/-- the first word of a line: everything before the first blank. -/
def word (line : List Char) : List Char := line.takeWhile (· ≠ ' ')

/-- `ps` is the list of non-empty names separated by commas in `s`; blanks are ignored, one comma at the end is allowed. -/
def Names (s : List Char) (ps : List (List Char)) : Prop :=
  (∀ p ∈ ps, p ≠ [] ∧ ∀ c ∈ p, c ≠ ',' ∧ isSpace c = false) ∧
    (s.filter (fun c => !isSpace c) = [','].intercalate ps ∨
      ps ≠ [] ∧ s.filter (fun c => !isSpace c) = [','].intercalate ps ++ [','])

/-- the line `func name(params) = text`, whose text is an expression with the normal form `body`. -/
def Defines (E : CEnv) (name : List Char) (line : List Char) (fn : Fn) : Prop :=
  ∃ inside blanks text n, line = "func ".toList ++ name ++ ['('] ++ inside ++ [')'] ++ blanks ++ ['='] ++ text ∧
    '(' ∉ name ∧ ')' ∉ inside ∧ (∀ c ∈ blanks, isSpace c = true) ∧ Names inside fn.params ∧
    Node.ofText E.f E.dec text = .ok n ∧ Node.normalize E.f n = .ok fn.body

/-- the line `constant name = text`, whose text is a decimal number. Blanks around and inside the name are ignored. -/
def DefinesConst (E : CEnv) (name : List Char) (line : List Char) (v : E.LD) : Prop :=
  ∃ pre text, line = "constant ".toList ++ pre ++ ['='] ++ text ∧ '=' ∉ pre ∧
    name = pre.filter (fun c => !isSpace c) ∧ name ≠ [] ∧ E.stold text = .ok v

/-- `r` is the value of the last line that defines one, `init` if there is none. -/
inductive Latest {α : Type} (P : List Char → α → Prop) (init : Option α) : List (List Char) → Option α → Prop where
  | start : Latest P init [] init
  | now {lines line a} : P line a → Latest P init (lines ++ [line]) (some a)
  | before {lines line r} : (∀ a, ¬ P line a) → Latest P init lines r → Latest P init (lines ++ [line]) r

/-- the pieces of a text between line breaks; a text without a line break is one piece. -/
def pieces : List Char → List (List Char)
  | [] => [[]]
  | c :: t =>
    if c = '\n' then [] :: pieces t
    else match pieces t with
      | [] => [[c]]
      | p :: ps => (c :: p) :: ps

/-- the line read at iteration `k`: past the end of input, the last piece again and again. -/
def lineAt (input : List Char) (k : Nat) : List Char := ((pieces input)[min k ((pieces input).length - 1)]?).getD []

/-- the rest of a line: everything after the first blank. -/
def rest (line : List Char) : List Char := (line.dropWhile (· ≠ ' ')).tail

/-- the commands, by name; `quit` ends the session (`true`). -/
def commands (E : CEnv) : List (List Char × (List Char → Cmd E Bool)) :=
  let go (c : List Char → Cmd E Unit) : List Char → Cmd E Bool := fun b => do c b; Cmd.pure false
  [("normalize".toList, go (cmdNormalize E)), ("tex".toList, go (cmdTex E)), ("ntex".toList, go (cmdNtex E)),
    ("func".toList, go (cmdFunc E)), ("constant".toList, go (cmdConstant E)), ("print".toList, go (cmdPrint E)),
    ("factor".toList, go (cmdFactor E)), ("version".toList, go fun _ => cmdVersion E),
    ("quit".toList, fun _ => Cmd.pure true)]

/-- the one command a line asks for: the one named by the first word; otherwise a call of a function or, failing that, the
normal form of the line. -/
def asked (E : CEnv) (line : List Char) : Cmd E Bool :=
  match (commands E).find? fun p => p.1 = word line with
  | some p => p.2 (rest line)
  | none => do
    cmdOther E line (word line)
    Cmd.pure false

/-! ### calls -/

/-- the first word of the line is `name(inside)`, with anything behind. -/
def Calls (line name inside : List Char) : Prop :=
  ∃ more, word line = name ++ '(' :: inside ++ ')' :: more ∧ '(' ∉ name ∧ ')' ∉ inside

/-- the texts between the commas are read as the numbers `as`. -/
def Args (E : CEnv) (inside : List Char) (as : List Num.Real) : Prop :=
  ∃ ps, Names inside ps ∧ List.Forall₂ (fun p a => ∃ q, Rational.ofStr E.f.M E.dec p = .ok q ∧
    Real.ofRational E.f.toEnv q = .ok a) ps as

/-- the texts between the commas begin with the integers `ks`. -/
def IntArgs (inside : List Char) (ks : List Int) : Prop :=
  ∃ ps, Names inside ps ∧ List.Forall₂ (fun p k => StartsWithNumeral p k ∧ '.' ∉ p ∧ '/' ∉ p) ps ks

/-- the names of the commands. -/
def commandNames : List (List Char) :=
  ["normalize".toList, "tex".toList, "ntex".toList, "func".toList, "constant".toList, "print".toList, "factor".toList,
    "version".toList, "quit".toList]

/-- the line is an expression: its first word is neither a command nor a call of a function that is defined. -/
def IsExpr {E : CEnv} (s : St E) (line : List Char) : Prop :=
  word line ∉ commandNames ∧ ∀ name inside, Calls line name inside → s.funcs.find name = none

/-- the line `func name(params) = text`, whose text is the expression `e`. -/
def DefinesExpr (E : CEnv) (name : List Char) (line : List Char) (params : List (List Char)) (e : Parser.Expr) : Prop :=
  ∃ inside blanks text, line = "func ".toList ++ name ++ ['('] ++ inside ++ [')'] ++ blanks ++ ['='] ++ text ∧
    '(' ∉ name ∧ ')' ∉ inside ∧ (∀ c ∈ blanks, isSpace c = true) ∧ Names inside params ∧ Parser.parse E.f.M E.dec text = .ok e

/-- the sizes for which everything is computed exactly: `K` bounds the arguments of a function with `m` parameters. -/
structure Fits (M : Int) (e : Parser.Expr) (m : Nat) (K : Int) : Prop where
  size : ringSize e ≤ M
  deg : ringDeg e ≤ 2 ^ 53
  powers : PowFits e
  one : 1 ≤ K
  arg : K ≤ M
  pow : K ^ (ringDeg e).toNat ≤ 2 ^ 53
  all : ringSize e * K ^ ((ringDeg e).toNat * m) ≤ M

end Symxx.Cli
