import Verif.Expr.Model
/-!
# Ownership in `ExprNode<T>` (expr.hpp 33-82)

Elsewhere in this model an `ExprNode` is an inductive tree. In the code an operator node owns two children allocated with
`new`. Here every `ExprNode` object lives at an address of a memory; reading, writing or deleting an object that is not
alive is a memory fault (`none`). Every function below follows the pointers as the code does.

Simplifications: memory never runs out; a node created by `new` and a local variable are both cells; the order of
allocations inside one constructor is fixed (left child first); numbers inside a fraction are values (their vectors manage
themselves); a fraction whose `substitute` raises keeps its old value.
-/
namespace Symxx.Heap
open Symxx Symxx.Num Symxx.Sym

/-- the `std::variant<Frac<T>, OpData<T>>` of a node (expr.hpp 70) with the two pointers of `OpData` (expr.hpp 36-38). -/
inductive Cell where
  | frac (f : Frac)
  | op (c : Char) (l r : Nat)
  deriving Repr, DecidableEq

/-- memory: the next fresh address and the objects alive. -/
structure Mem where
  next : Nat
  cell : Nat → Option Cell

/-- a computation: a memory fault (`none`), or an outcome and the memory it leaves behind (also when it throws). -/
def M (α : Type) : Type := Mem → Option (Res α × Mem)

namespace M
variable {α β : Type}

/-- normal return. -/
def pure (a : α) : M α := fun m => some (.ok a, m)
/-- sequencing. -/
def bind (x : M α) (f : α → M β) : M β := fun m =>
  match x m with
  | none => none
  | some (.ok a, m) => f a m
  | some (.throw e, m) => some (.throw e, m)
  | some (.exn e, m) => some (.exn e, m)
  | some (.ub e, m) => some (.ub e, m)
  | some (.fuel, m) => some (.fuel, m)
instance : Monad M where
  pure := M.pure
  bind := M.bind
/-- a computation that does not touch the memory. -/
def lift (r : Res α) : M α := fun m => some (r, m)

end M
open M

/-- read a node. -/
def get (p : Nat) : M Cell := fun m =>
  match m.cell p with
  | none => none
  | some c => some (.ok c, m)

/-- overwrite a node. -/
def set (p : Nat) (c : Cell) : M Unit := fun m =>
  match m.cell p with
  | none => none
  | some _ => some (.ok (), ⟨m.next, Function.update m.cell p (some c)⟩)

/-- a new node. -/
def alloc (c : Cell) : M Nat := fun m => some (.ok m.next, ⟨m.next + 1, Function.update m.cell m.next (some c)⟩)

/-- the storage of a node is given back. -/
def free (p : Nat) : M Unit := fun m =>
  match m.cell p with
  | none => none
  | some _ => some (.ok (), ⟨m.next, Function.update m.cell p none⟩)

/-- `new ExprNode<T>(*p)`: the copy constructors of `ExprNode` and `OpData` (expr.hpp 82, 44-51). -/
def copyNode : Nat → Nat → M Nat
  | 0, _ => lift .fuel
  | n + 1, p => do
    match ← get p with
    | .frac f => alloc (.frac f)
    | .op c l r => do
      let l' ← copyNode n l
      let r' ← copyNode n r
      alloc (.op c l' r')

/-- `delete p`: the destructor `~OpData` (expr.hpp 53-63), then the storage. -/
def deleteNode : Nat → Nat → M Unit
  | 0, _ => lift .fuel
  | n + 1, p => do
    match ← get p with
    | .frac _ => free p
    | .op _ l r => do
      deleteNode n l
      deleteNode n r
      free p

/-- `ExprNode(char op, ExprNode *lhs, ExprNode *rhs)` (expr.hpp 77-78): the temporary `OpData{op, lhs, rhs}` is copied into
the variant (`OpData` has no move constructor), then destroyed; so the children are copied and the originals deleted. -/
def newOp (n : Nat) (c : Char) (l r : Nat) : M Nat := do
  let l' ← copyNode n l
  let r' ← copyNode n r
  let p ← alloc (.op c l' r')
  deleteNode n l
  deleteNode n r
  M.pure p

/-- the variant of the node `p` becomes a fraction (`val = …`, expr.hpp 186-206): an `OpData` is destroyed first. -/
def becomeFrac (n p : Nat) (f : Frac) : M Unit := do
  match ← get p with
  | .frac _ => set p (.frac f)
  | .op _ l r => do
    deleteNode n l
    deleteNode n r
    set p (.frac f)

/-- `*p = *q`, the implicit copy assignment of `ExprNode` (expr.hpp 66-82): that of the variant. If both hold an `OpData`
this is the implicit copy assignment of `OpData` (expr.hpp 33-64), which copies the two pointers; otherwise the old
alternative is destroyed and the new one constructed by copy. -/
def assign (n p q : Nat) : M Unit := do
  match ← get q with
  | .frac f => becomeFrac n p f
  | .op c l r => do
    match ← get p with
    | .op _ _ _ => set p (.op c l r)
    | .frac _ => do
      let l' ← copyNode n l
      let r' ← copyNode n r
      set p (.op c l' r')

/-- the number of nodes of a tree (specification). -/
def size : Node → Nat
  | .frac _ => 1
  | .op _ l r => size l + size r + 1

variable (env : FEnv)

/-- `try_eval()` (expr.hpp 98-132). -/
def tryEval : Nat → Nat → M (Option Frac)
  | 0, _ => lift .fuel
  | n + 1, p => do
    match ← get p with
    | .frac f => M.pure (some f)
    | .op c l r => do
      let lv ← tryEval n l
      let rv ← tryEval n r
      match lv, rv with
      | some a, some b => lift (Node.evalOp env c a b)
      | _, _ => M.pure none

/-- the value of the operator in `normalize` (expr.hpp 183-212): a fraction, or nothing if the exponent is not a rational
number. -/
def normOp (c : Char) (a b : Frac) : Res (Option Frac) :=
  if c = '+' then do
    let x ← Frac.add env a b
    .ok (some x)
  else if c = '-' then do
    let x ← Frac.sub env a b
    .ok (some x)
  else if c = '*' then do
    let x ← Frac.mul env a b
    .ok (some x)
  else if c = '/' then do
    let x ← Frac.div env a b
    .ok (some x)
  else if c = '^' then do
    let power ← Frac.tryEval env b
    match power with
    | none => .ok none
    | some p => do
      if ← Real.isRational env.toEnv p then do
        let q ← Real.toRational env.toEnv p
        let x ← Frac.pow env a q
        .ok (some x)
      else .ok none
  else .throw Node.unreachable

/-- `normalize()` (expr.hpp 168-215). -/
def normalize : Nat → Nat → M Unit
  | 0, _ => lift .fuel
  | n + 1, p => do
    match ← get p with
    | .frac _ => M.pure ()
    | .op c l r => do
      let lv ← tryEval env n l
      let rv ← tryEval env n r
      match lv, rv with
      | some a, some b => do
        match ← lift (normOp env c a b) with
        | some x => becomeFrac n p x
        | none => do
          normalize n l
          normalize n r
      | _, _ => do
        normalize n r
        normalize n l

/-- `substitute` (expr.hpp 84-96). -/
def substitute (e : List (List Char × Num.Real)) : Nat → Nat → M Unit
  | 0, _ => lift .fuel
  | n + 1, p => do
    match ← get p with
    | .frac f => do
      let f ← lift (Frac.substitute env e f)
      set p (.frac f)
    | .op _ l r => do
      substitute e n l
      substitute e n r
      normalize env (n + 1) p

/-- `withparen(true)` of a node with operator `op` and left child `l` (expr.hpp 312-337, 368). -/
def withParenL (env : Env) (op : Char) (l : Nat) : M Bool := do
  match ← get l with
  | .frac f => lift (Frac.outputNeedParen env f)
  | .op c _ _ => M.pure (Node.leftParen op c)

/-- `withparen(false)` of a node with operator `op` and right child `r` (expr.hpp 338-368). -/
def withParenR (env : Env) (op : Char) (r : Nat) : M Bool := do
  match ← get r with
  | .frac f => lift (Frac.outputNeedParen env f)
  | .op c _ _ => M.pure (Node.rightParen op c)

/-- `to_string` (expr.hpp 217-242). -/
def toStr (env : Env) : Nat → Nat → M (List Char)
  | 0, _ => lift .fuel
  | n + 1, p => do
    match ← get p with
    | .frac f => lift (Frac.toStr env f)
    | .op c l r => do
      let pl ← withParenL env c l
      let a ← toStr env n l
      let pr ← withParenR env c r
      let b ← toStr env n r
      M.pure (Node.wrap pl a ++ [c] ++ Node.wrap pr b)

/-- the nodes the parser allocates for a tree (parser.hpp 101-150): `new ExprNode<T>(frac)` for a leaf, `new
ExprNode<T>(op, lhs, rhs)` for an operator. Simplification: left subtree, right subtree, operator; the code may have
allocated more leaves before. -/
def buildTree (n : Nat) : Node → M Nat
  | .frac f => alloc (.frac f)
  | .op c l r => do
    let a ← buildTree n l
    let b ← buildTree n r
    newOp n c a b

/-- `parse()` for a text whose tree is `t` (parser.hpp 79-158): the tree is built, `return *nodes.top();` copies it, and the
nodes of the stack are not deleted. -/
def parse (n : Nat) (t : Node) : M Nat := do
  let p ← buildTree n t
  copyNode n p

/-! ## Client programs -/

/-- what a client can do with variables of type `ExprNode<T>` (expr.hpp 74-298; the rest of the class is private). -/
inductive Stmt where
  /-- `ExprNode x = ExprParser(text).parse()` -/
  | parse (x : Nat) (text : List Char)
  /-- `ExprNode x(f)` -/
  | leaf (x : Nat) (f : Frac)
  /-- `ExprNode x(y)` -/
  | copy (x y : Nat)
  /-- `x = y` -/
  | assign (x y : Nat)
  /-- `x.normalize()` -/
  | normalize (x : Nat)
  /-- `x.substitute(e)` -/
  | substitute (x : Nat) (e : List (List Char × Num.Real))
  /-- `std::cout << x` -/
  | print (x : Nat)
  /-- the end of the scope of `x` -/
  | destroy (x : Nat)
  deriving Repr

/-- a running client: the address of every variable in scope, and the memory. -/
structure State where
  var : Nat → Option Nat
  mem : Mem

/-- nothing declared, nothing allocated. -/
def State.init : State := ⟨fun _ => none, ⟨0, fun _ => none⟩⟩

/-- declare `x` at the address computed. -/
def declare (s : State) (x : Nat) (c : M Nat) : Option (Res (List Char) × State) :=
  match s.var x with
  | some _ => some (.ok [], s)
  | none =>
    match c s.mem with
    | none => none
    | some (.ok p, m) => some (.ok [], ⟨Function.update s.var x (some p), m⟩)
    | some (.throw e, m) => some (.throw e, ⟨s.var, m⟩)
    | some (.exn e, m) => some (.exn e, ⟨s.var, m⟩)
    | some (.ub e, m) => some (.ub e, ⟨s.var, m⟩)
    | some (.fuel, m) => some (.fuel, ⟨s.var, m⟩)

/-- work on the variable `x`. -/
def onVar (s : State) (x : Nat) (c : Nat → M (List Char)) : Option (Res (List Char) × State) :=
  match s.var x with
  | none => some (.ok [], s)
  | some p =>
    match c p s.mem with
    | none => none
    | some (r, m) => some (r, ⟨s.var, m⟩)

/-- one statement: a memory fault, or an outcome with the text printed. A statement about a variable that is not in scope,
or the declaration of a variable that is, does not compile: it does nothing. The fuel of the recursion, one more than the
number of nodes ever allocated, is enough (`Verif/Heap/Own.lean`). -/
def exec (dec : List Char → Res Rational) (s : State) : Stmt → Option (Res (List Char) × State)
  | .parse x text => declare s x (do
      let t ← lift (Node.ofText env dec text)
      parse (size t) t)
  | .leaf x f => declare s x (alloc (.frac f))
  | .copy x y =>
    match s.var y with
    | none => some (.ok [], s)
    | some q => declare s x (copyNode (s.mem.next + 1) q)
  | .assign x y =>
    match s.var y with
    | none => some (.ok [], s)
    | some q => onVar s x fun p => do
      assign (s.mem.next + 1) p q
      M.pure []
  | .normalize x => onVar s x fun p => do
    normalize env (s.mem.next + 1) p
    M.pure []
  | .substitute x e => onVar s x fun p => do
    substitute env e (s.mem.next + 1) p
    M.pure []
  | .print x => onVar s x fun p => toStr env.toEnv (s.mem.next + 1) p
  | .destroy x =>
    match s.var x with
    | none => some (.ok [], s)
    | some p =>
      match deleteNode (s.mem.next + 1) p s.mem with
      | none => none
      | some (.ok _, m) => some (.ok [], ⟨Function.update s.var x none, m⟩)
      | some (_, m) => some (.fuel, ⟨Function.update s.var x none, m⟩)

/-- the program stops after undefined behaviour or a computation that does not end; it survives exceptions. -/
def Survives {α : Type} : Res α → Bool
  | .ub _ => false
  | .fuel => false
  | _ => true

/-- a program, statement by statement: a memory fault, or the outcomes and the final state. -/
def run (dec : List Char → Res Rational) : State → List Stmt → Option (List (Res (List Char)) × State)
  | s, [] => some ([], s)
  | s, i :: is =>
    match exec env dec s i with
    | none => none
    | some (r, s') =>
      if Survives r then
        match run dec s' is with
        | none => none
        | some (rs, s'') => some (r :: rs, s'')
      else some ([r], s')

end Symxx.Heap
