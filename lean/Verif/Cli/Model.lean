import Verif.Expr.Tex
import Verif.Expr.Numeric
/-!
# Model of `BasicCLI<IntType>` (cli.hpp)

The session is a state machine: a state (functions and constants), standard input, standard output and standard error.
The floating-point types, `std::stold` and the output of a `long double` are parameters.
`std::isspace` is that of the "C" locale. The location in an error message is left out.

Copying a node into the table: assigning an operator node to a slot that already holds an operator node copies two
pointers (`OpData` has a copy constructor and a destructor but an implicit copy assignment, expr.hpp 33-63); the
temporary then deletes the children it shares with the table, and `print_func` reads them. This is undefined behaviour
(theorem `C76_assignment_shares`, `Verif/Props/Heap.lean`).
-/
namespace Symxx.Cli
open Symxx.Num Symxx.Sym

/-- what the session depends on. -/
structure CEnv where
  f : FEnv
  dec : List Char → Res Rational
  flt : Flt
  stold : List Char → Res flt.LD
  showLD : flt.LD → List Char
  version : List Char

/-- `long double` (cli.hpp 45). -/
abbrev CEnv.LD (E : CEnv) : Type := E.flt.LD

/-- `std::map<std::string, α>`: an association list sorted by key. -/
abbrev Table (α : Type) := List (List Char × α)

namespace Table
variable {α : Type}

/-- `find`. -/
def find : Table α → List Char → Option α
  | [], _ => none
  | (k', v) :: t, k => if k = k' then some v else find t k

/-- `m[k] = v`. -/
def set : Table α → List Char → α → Table α
  | [], k, v => [(k, v)]
  | (k', v') :: t, k, v =>
    if k < k' then (k, v) :: (k', v') :: t
    else if k = k' then (k', v) :: t
    else (k', v') :: set t k v

end Table

/-- a function: its parameters and its body (cli.hpp 41). -/
structure Fn where
  params : List (List Char)
  body : Node
  deriving Repr, DecidableEq

/-- `funcs`, `constants` (cli.hpp 41-51). -/
structure St (E : CEnv) where
  funcs : Table Fn
  constants : Table E.LD

/-- a command: from a state to an outcome, the state left behind and the text written to standard output; both remain
when an exception is thrown. -/
def Cmd (E : CEnv) (α : Type) : Type := St E → Res α × St E × List Char

namespace Cmd
variable {E : CEnv} {α β : Type}

/-- normal return. -/
def pure (a : α) : Cmd E α := fun s => (.ok a, s, [])
/-- sequencing: what has been written stays written. -/
def bind (x : Cmd E α) (f : α → Cmd E β) : Cmd E β := fun s =>
  match x s with
  | (.ok a, s, o) => ((f a s).1, (f a s).2.1, o ++ (f a s).2.2)
  | (.throw m, s, o) => (.throw m, s, o)
  | (.exn m, s, o) => (.exn m, s, o)
  | (.ub m, s, o) => (.ub m, s, o)
  | (.fuel, s, o) => (.fuel, s, o)
instance : Monad (Cmd E) where
  pure := Cmd.pure
  bind := Cmd.bind
/-- a computation without effect on state and output. -/
def lift (r : Res α) : Cmd E α := fun s => (r, s, [])
/-- `std::cout << t`. -/
def print (t : List Char) : Cmd E Unit := fun s => (.ok (), s, t)
/-- the state. -/
def get : Cmd E (St E) := fun s => (.ok s, s, [])
/-- replace the state. -/
def put (s : St E) : Cmd E Unit := fun _ => (.ok (), s, [])
/-- `if (b) { c }`. -/
def when (b : Bool) (c : Cmd E Unit) : Cmd E Unit := if b then c else Cmd.pure ()

end Cmd
open Cmd

variable (E : CEnv)

/-- the names, each followed by `,`, without the last `,` (cli.hpp 56-64). -/
def argStr (l : List (List Char)) : List Char := (l.flatMap fun a => a ++ [',']).dropLast

/-- `print_func` (cli.hpp 53-67); `funcs.at` raises `std::out_of_range`. -/
def printFunc (name : List Char) : Cmd E Unit := do
  let s ← get
  match s.funcs.find name with
  | none => lift (.exn "map::at")
  | some fn => do
    let t ← lift (Node.toStr E.f.toEnv fn.body)
    print ("Function: ".toList ++ name ++ ['('] ++ argStr fn.params ++ ") = ".toList ++ t ++ ['\n'])

/-- `Poly::is_rational` (frac.hpp 584-594). -/
def polyIsRational (env : Env) : Poly → Res Bool
  | [] => .ok true
  | t :: ts => do
    if ← Term.isRational env t then polyIsRational env ts else .ok false

/-- `Frac::is_rational` (frac.hpp 867-870). -/
def fracIsRational (env : Env) (f : Frac) : Res Bool := do
  if ← polyIsRational env f.num then polyIsRational env f.den else .ok false

/-- the condition of cli.hpp 72-79: the result is an integer, nothing else is printed. -/
def isInteger (n : Node) : Res Bool := do
  match ← Node.tryEval E.f n with
  | some f =>
    if f.noSymbols then do
      if ← fracIsRational E.f.toEnv f then do
        let q ← Frac.toRational E.f.toEnv f
        .ok q.isInt
      else .ok false
    else .ok false
  | none => .ok false

/-- `print_result` (cli.hpp 69-89); `expr` is a copy, normalised in place before `try_eval`. -/
def printResult (expr : Node) : Cmd E Unit := do
  let e ← lift (Node.normalize E.f expr)
  let t ← lift (Node.toStr E.f.toEnv e)
  print t
  let b ← lift (isInteger E e)
  if b then print ['\n']
  else do
    let s ← get
    let v ← lift (Node.tryEvalLD E.flt s.constants e)
    match v with
    | some v => print (" = ".toList ++ E.showLD v ++ ['\n'])
    | none => print ['\n']

/-- `print_constant` (cli.hpp 91-94). -/
def printConstant (name : List Char) : Cmd E Unit := do
  let s ← get
  match s.constants.find name with
  | none => lift (.exn "map::at")
  | some v => print ("Constant: ".toList ++ name ++ " = ".toList ++ E.showLD v ++ ['\n'])

/-- `ExprParser<IntType>(body).parse().normalize()` (cli.hpp 99, 109, 115, 158-160). -/
def parseNormal (body : List Char) : Res Node := do
  let n ← Node.ofText E.f E.dec body
  Node.normalize E.f n

/-- `cmd_normalize` (cli.hpp 97-100). -/
def cmdNormalize (body : List Char) : Cmd E Unit := do
  let n ← lift (parseNormal E body)
  printResult E n

/-- `cmd_tex` (cli.hpp 102-105). -/
def cmdTex (body : List Char) : Cmd E Unit := do
  let n ← lift (Node.ofText E.f E.dec body)
  let t ← lift (Node.toTex E.f.toEnv n)
  print (t ++ ['\n'])

/-- `cmd_ntex` (cli.hpp 107-110). -/
def cmdNtex (body : List Char) : Cmd E Unit := do
  let n ← lift (parseNormal E body)
  let t ← lift (Node.toTex E.f.toEnv n)
  print (t ++ ['\n'])

/-- `np->try_to<IntType>()` (num.hpp 687-701, 277-284): the quotient of the coefficient times the truncated root; it never
returns null, integer division by zero is not an exception. -/
def realTryTo (r : Num.Real) : Res Int := do
  if r.coe.den = 0 then .ub "/ 0"
  else do
    let q ← chk E.f.M (r.coe.num.tdiv r.coe.den)
    let p ← E.flt.dTrunc (r.rootD E.flt)
    chk E.f.M (q * p)

/-- `cmd_factor` (cli.hpp 112-127). -/
def cmdFactor (body : List Char) : Cmd E Unit := do
  let n ← lift (parseNormal E body)
  let npp ← lift (Node.tryEval E.f n)
  match npp with
  | none => lift (.throw "Invailed string")
  | some f => do
    let np ← lift (Frac.tryEval E.f f)
    match np with
    | none => lift (.throw "Invailed string")
    | some r => do
      let n ← lift (realTryTo E r)
      let fs ← lift (E.f.fac n)
      print ((fs.flatMap fun p => (toString p).toList ++ [' ']) ++ ['\n'])

/-- the loop over the parameters (cli.hpp 138-153); `temp` as in the code. -/
def splitParams : List Char → List Char → Res (List (List Char))
  | [], temp => .ok (if temp.isEmpty then [] else [temp])
  | c :: cs, temp =>
    if isSpace c then splitParams cs temp
    else if c = ',' then do
      Res.assert (!temp.isEmpty) "Argument can not be \"\"."
      let r ← splitParams cs []
      .ok (temp :: r)
    else splitParams cs (temp ++ [c])

/-- assignment of a node to a slot of the table that holds `old` (cli.hpp 170, expr.hpp 33-63, 66-82): a new slot holds the
fraction 0. -/
def assignNode (old : Option Fn) (new : Node) : Res Unit :=
  match old, new with
  | some ⟨_, .op _ _ _⟩, .op _ _ _ => .ub "children deleted twice"
  | _, _ => .ok ()

/-- `cmd_func` (cli.hpp 129-172). `body[i]` at the end of the string is `'\0'`. -/
def cmdFunc (body : List Char) : Cmd E Unit :=
  match body.dropWhile (· ≠ '(') with
  | [] => lift (.throw "Function needs '(' and ')'.")
  | _ :: t =>
    match t.dropWhile (· ≠ ')') with
    | [] => lift (.throw "Function needs '(' and ')'.")
    | _ :: u => do
      let name := body.takeWhile (· ≠ '(')
      let args ← lift (splitParams (t.takeWhile (· ≠ ')')) [])
      match u.dropWhile isSpace with
      | '=' :: src => do
        let func ← lift (parseNormal E src)
        let s ← get
        lift (assignNode (s.funcs.find name) func)
        put { s with funcs := s.funcs.set name ⟨args, func⟩ }
        printFunc E name
      | _ => lift (.throw "Expected '='.")

/-- `cmd_constant` (cli.hpp 174-188); the right operand of `=` is evaluated first. -/
def cmdConstant (body : List Char) : Cmd E Unit :=
  match body.dropWhile (· ≠ '=') with
  | [] => lift (.throw "Expected '='.")
  | _ :: t => do
    let temp := (body.takeWhile (· ≠ '=')).filter fun c => !isSpace c
    lift (Res.assert (!temp.isEmpty) "Constant's name can not be empty.")
    let v ← lift (E.stold t)
    let s ← get
    put { s with constants := s.constants.set temp v }
    printConstant E temp

/-- run the commands in order. -/
def seqAll : List (Cmd E Unit) → Cmd E Unit
  | [] => Cmd.pure ()
  | c :: cs => do
    c
    seqAll cs

/-- `cmd_print` (cli.hpp 190-216). -/
def cmdPrint (body : List Char) : Cmd E Unit := do
  let s ← get
  if body.isEmpty then do
    seqAll E (s.funcs.map fun p => printFunc E p.1)
    seqAll E (s.constants.map fun p => printConstant E p.1)
  else do
    when (s.funcs.find body).isSome (printFunc E body)
    when (s.constants.find body).isSome (printConstant E body)

/-- `Real<IntType>{Rational<IntType>{temp}}` (cli.hpp 228, 236). -/
def realOfText (s : List Char) : Res Num.Real := do
  let q ← Rational.ofStr E.f.M E.dec s
  Real.ofRational E.f.toEnv q

/-- the loop over the arguments (cli.hpp 222-237). -/
def splitArgs : List Char → List Char → Res (List Num.Real)
  | [], temp =>
    if temp.isEmpty then .ok []
    else do
      let r ← realOfText E temp
      .ok [r]
  | c :: cs, temp =>
    if isSpace c then splitArgs cs temp
    else if c = ',' then do
      Res.assert (!temp.isEmpty) "Argument can not be \"\"."
      let r ← realOfText E temp
      let rs ← splitArgs cs []
      .ok (r :: rs)
    else splitArgs cs (temp ++ [c])

/-- `(*env)[fargs[i]] = args[i]` (cli.hpp 243-246). -/
def bindArgs : List (List Char) → List Num.Real → Table Num.Real → Table Num.Real
  | x :: xs, a :: as, e => bindArgs xs as (e.set x a)
  | _, _, e => e

/-- `cmd_call` (cli.hpp 218-248). -/
def cmdCall (name argstr : List Char) : Cmd E Unit := do
  let args ← lift (splitArgs E argstr [])
  let s ← get
  match s.funcs.find name with
  | none => lift (.exn "map::at")
  | some fn => do
    lift (Res.assert (args.length = fn.params.length) ("Expected " ++ toString fn.params.length ++ " arguments"))
    let n ← lift (Node.substitute E.f (bindArgs fn.params args []) fn.body)
    printResult E n

/-- `cmd_version` (cli.hpp 250-253). -/
def cmdVersion : Cmd E Unit := print E.version

/-- the `else` branch (cli.hpp 286-305). -/
def cmdOther (str cmd : List Char) : Cmd E Unit := do
  match cmd.dropWhile (· ≠ '(') with
  | [] => cmdNormalize E str
  | _ :: t =>
    match t.dropWhile (· ≠ ')') with
    | [] => cmdNormalize E str
    | _ :: _ => do
      let s ← get
      let name := cmd.takeWhile (· ≠ '(')
      match s.funcs.find name with
      | none => cmdNormalize E str
      | some _ => cmdCall E name (t.takeWhile (· ≠ ')'))

/-- the body of the loop after the line has been read (cli.hpp 266-305); `true` is `return 0`. -/
def dispatch (str : List Char) : Cmd E Bool := do
  let cmd := str.takeWhile (· ≠ ' ')
  let body := (str.dropWhile (· ≠ ' ')).tail
  when (cmd = "normalize".toList) (cmdNormalize E body)
  when (cmd = "tex".toList) (cmdTex E body)
  if cmd = "ntex".toList then do
    cmdNtex E body
    Cmd.pure false
  else if cmd = "func".toList then do
    cmdFunc E body
    Cmd.pure false
  else if cmd = "constant".toList then do
    cmdConstant E body
    Cmd.pure false
  else if cmd = "print".toList then do
    cmdPrint E body
    Cmd.pure false
  else if cmd = "factor".toList then do
    cmdFactor E body
    Cmd.pure false
  else if cmd = "version".toList then do
    cmdVersion E
    Cmd.pure false
  else if cmd = "quit".toList then Cmd.pure true
  else do
    cmdOther E str cmd
    Cmd.pure false

/-- standard input: what is left, whether the stream is still good, and the string variable `str` of the loop. -/
structure Input where
  rest : List Char
  good : Bool
  str : List Char
  deriving Repr, DecidableEq

/-- `std::getline(std::cin, str)` (cli.hpp 265): on a stream that is not good nothing is extracted and `str` keeps its
value; otherwise `str` is erased first, and reaching the end of input sets `eofbit`. -/
def Input.getline (i : Input) : Input :=
  if !i.good then i
  else
    match i.rest.dropWhile (· ≠ '\n') with
    | [] => ⟨[], false, i.rest⟩
    | _ :: t => ⟨t, true, i.rest.takeWhile (· ≠ '\n')⟩

/-- the world seen by the loop. -/
structure World (E : CEnv) where
  st : St E
  inp : Input
  out : List Char
  err : List String

/-- how an iteration of the loop ends: the next iteration, `return 0`, an exception that is not `Error` and leaves `main`
(the process is terminated), undefined behaviour, or a computation that does not end. -/
inductive Next where
  | again
  | exit
  | abort (msg : String)
  | ub (why : String)
  | hang
  deriving Repr, DecidableEq

/-- one iteration of the loop (cli.hpp 262-310). -/
def iter (w : World E) : Next × World E :=
  let inp := w.inp.getline
  let (r, s, o) := dispatch E inp.str w.st
  let w := { w with st := s, inp := inp, out := w.out ++ "symxx> ".toList ++ o }
  match r with
  | .ok true => (.exit, w)
  | .ok false => (.again, w)
  | .throw m => (.again, { w with err := w.err ++ [m] })
  | .exn m => (.abort m, w)
  | .ub m => (.ub m, w)
  | .fuel => (.hang, w)

/-- at most `n` iterations of `while (true)` (cli.hpp 260-311). -/
def loop : Nat → World E → Next × World E
  | 0, w => (.again, w)
  | n + 1, w =>
    match iter E w with
    | (.again, w) => loop n w
    | r => r

/-- `mainloop` (cli.hpp 256-313) on an input: the version line, then the loop. -/
def mainloop (n : Nat) (s : St E) (input : List Char) : Next × World E :=
  loop E n ⟨s, ⟨input, true, []⟩, E.version, []⟩

end Symxx.Cli
