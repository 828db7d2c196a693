import Verif.Spec.Expr

/-!
# Programs over variables of type `Fsm` (C66)

A program is a list of statements such as `x += y`, `x = y | z`, `x.Reverse()`, `x.Swap(y)`; the names in a statement need not be
different. `Stmt.effect` says what a reader expects: every variable stands for an expression (`Spec.Expr`), and a statement changes the
variable on its left only. Nothing here mentions the model of the code.
-/

namespace Pire.Spec

/-- Ways to make an automaton from nothing. -/
inductive Leaf
  /-- `Fsm()` -/
  | empty
  /-- `Fsm::MakeFalse()` -/
  | nothing
  /-- `Fsm().Append(string)` -/
  | lit (s : List Nat)
  /-- `Fsm().AppendDot()` -/
  | dot
  /-- `Fsm().AppendStrings(strings)` -/
  | strings (t : List (List Nat))

def Leaf.expr : Leaf → Expr
  | .empty => .empty
  | .nothing => .nothing
  | .lit s => .lit s
  | .dot => .dot
  | .strings t => .strings t

/-- Member functions without an operand of type `Fsm`. -/
inductive UnOp
  | iterate | complement | prependAnything | appendAnything | surround | reverse
  | canonize (maxSize : Nat)
  /-- `*= n` -/
  | times (n : Nat)

def UnOp.expr : UnOp → Expr → Expr
  | .iterate, e => .star e
  | .complement, e => .not e
  | .prependAnything, e => .prependAny e
  | .appendAnything, e => .appendAny e
  | .surround, e => .surround e
  | .reverse, e => .reverse e
  | .canonize m, e => .canon e m
  | .times n, e => .pow e n

/-- `+`, `|`, `&` -/
inductive BinOp
  | cat | alt | both

def BinOp.expr : BinOp → Expr → Expr → Expr
  | .cat, a, b => .cat a b
  | .alt, a, b => .alt a b
  | .both, a, b => .both a b

inductive Stmt
  /-- `x = Fsm()...` -/
  | make (x : Nat) (l : Leaf)
  /-- `x = y` -/
  | copy (x y : Nat)
  /-- `x.Swap(y)` -/
  | swap (x y : Nat)
  /-- `x.Iterate()`, `x.Complement()`, ..., `x *= n` -/
  | mod1 (o : UnOp) (x : Nat)
  /-- `x = *y`, `x = ~y`, `x = y.Surrounded()`, `x = y * n`; or a copy, modified -/
  | val1 (o : UnOp) (x y : Nat)
  /-- `x += y`, `x |= y`, `x &= y` -/
  | mod2 (o : BinOp) (x y : Nat)
  /-- `x = y + z`, `x = y | z`, `x = y & z` -/
  | val2 (o : BinOp) (x y z : Nat)

/-- What the variables stand for after a statement. -/
def Stmt.effect (E : Nat → Expr) : Stmt → Nat → Expr
  | .make x l => Function.update E x l.expr
  | .copy x y => Function.update E x (E y)
  | .swap x y => Function.update (Function.update E x (E y)) y (E x)
  | .mod1 o x => Function.update E x (o.expr (E x))
  | .val1 o x y => Function.update E x (o.expr (E y))
  | .mod2 o x y => Function.update E x (o.expr (E x) (E y))
  | .val2 o x y z => Function.update E x (o.expr (E y) (E z))

/-- `x += x` and `x |= x`. -/
def Stmt.selfImport : Stmt → Prop
  | .mod2 .cat x y | .mod2 .alt x y => x = y
  | _ => False

/-- What the variables stand for after a program; at the beginning all are `Fsm()`. -/
def effects (p : List Stmt) : Nat → Expr := p.foldl Stmt.effect fun _ => .empty

end Pire.Spec
