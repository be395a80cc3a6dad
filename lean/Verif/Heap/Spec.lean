import Verif.Heap.Model
/-!
# What a client program means if every variable holds a tree of its own

`Step v i r v'`: in a state where the variables hold the trees `v`, the statement `i` has the outcome `r` and leaves the
trees `v'`. It only speaks of trees (`Node.normalize`, `Node.substitute`, `Node.toStr`); there are no addresses. If
`normalize` or `substitute` raises, the variable holds some tree afterwards; all other variables are untouched.
-/
namespace Symxx.Heap
open Symxx Symxx.Num Symxx.Sym

/-- the tree in every variable in scope. -/
abbrev Vals := Nat → Option Node

/-- the outcome without the value. -/
def outcome {α : Type} : Res α → Res (List Char)
  | .ok _ => .ok []
  | .throw e => .throw e
  | .exn e => .exn e
  | .ub e => .ub e
  | .fuel => .fuel

/-- a method that changes `x` from `t`: either it returns and `x` is its result, or it fails in the same way and `x` is some
tree. -/
def Changes (v : Vals) (x : Nat) (result : Res Node) (r : Res (List Char)) (v' : Vals) : Prop :=
  r = outcome result ∧ ∃ t', v' = Function.update v x (some t') ∧ ∀ t, result = .ok t → t' = t

variable (env : FEnv) (dec : List Char → Res Rational)

/-- one statement on trees. -/
def Step (v : Vals) (i : Stmt) (r : Res (List Char)) (v' : Vals) : Prop :=
  match i with
  | .parse x text =>
    match v x with
    | some _ => r = .ok [] ∧ v' = v
    | none => r = outcome (Node.ofText env dec text) ∧
        match Node.ofText env dec text with
        | .ok t => v' = Function.update v x (some t)
        | _ => v' = v
  | .leaf x f =>
    match v x with
    | some _ => r = .ok [] ∧ v' = v
    | none => r = .ok [] ∧ v' = Function.update v x (some (.frac f))
  | .copy x y =>
    match v x, v y with
    | none, some t => r = .ok [] ∧ v' = Function.update v x (some t)
    | _, _ => r = .ok [] ∧ v' = v
  | .assign x y =>
    match v x, v y with
    | some _, some t => r = .ok [] ∧ v' = Function.update v x (some t)
    | _, _ => r = .ok [] ∧ v' = v
  | .normalize x =>
    match v x with
    | none => r = .ok [] ∧ v' = v
    | some t => Changes v x (Node.normalize env t) r v'
  | .substitute x e =>
    match v x with
    | none => r = .ok [] ∧ v' = v
    | some t => Changes v x (Node.substitute env e t) r v'
  | .print x =>
    match v x with
    | none => r = .ok [] ∧ v' = v
    | some t => r = Node.toStr env.toEnv t ∧ v' = v
  | .destroy x => r = .ok [] ∧ v' = Function.update v x none

/-- a whole program: it stops after undefined behaviour (of the arithmetic) or a computation that does not end. -/
def Steps : Vals → List Stmt → List (Res (List Char)) → Vals → Prop
  | v, [], rs, v' => rs = [] ∧ v' = v
  | v, i :: is, rs, v' => ∃ r v₁, Step env dec v i r v₁ ∧
      if Survives r then ∃ rs', rs = r :: rs' ∧ Steps v₁ is rs' v' else rs = [r] ∧ v' = v₁

/-- is the tree an operator? -/
def isOp : Node → Bool
  | .op _ _ _ => true
  | .frac _ => false

/-- the statement is not the assignment of an operator node to another operator node. -/
def Allowed (v : Vals) : Stmt → Prop
  | .assign x y => x ≠ y → ∀ t u, v x = some t → v y = some u → isOp t = true → isOp u = true → False
  | _ => True

/-- no statement that is reached is such an assignment. -/
def AllAllowed : Vals → List Stmt → Prop
  | _, [] => True
  | v, i :: is => Allowed v i ∧ ∀ r v', Step env dec v i r v' → Survives r = true → AllAllowed v' is

end Symxx.Heap
