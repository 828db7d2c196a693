import Verif.Model.Parser

/-!
# The memory of the parser — pire/re_parser.y, pire/any.h

The semantic values of the parser are pointers to `Any` objects on the heap, which the actions allocate and delete. `Parse.step` and `Parse.vstep` of `Model/Parser` are one
particular way to find the reductions; here any sequence of steps is allowed in which a production is reduced only if its right hand side is on top of the stack, which is
what the parser that bison generates does, too (its tables are not modelled).
-/

namespace Pire.Stack

open Pire.Spec Pire.Lex Pire.Enc Pire.Parse

/-- The symbols of the grammar, pire/re_parser.y:69-73, 82-159. -/
inductive Sym
  | letters | count | dot | and | not | bol | eol | opn | cls | bar
  | regexp | alternative | conjunction | negation | concatenation | iteration | term
  deriving DecidableEq

/-- What an `Any` of the parser holds, pire/any.h:97-118: `Fsm`, or the value of a token. -/
inductive Held
  | val (v : Val)
  | count (lo : Nat) (hi : Option Nat)

/-- The heap: the `Any` objects there are. Pointers are not used again. -/
structure Heap where
  cells : Nat → Option Held
  fresh : Nat

/-- An empty heap. -/
def Heap.empty : Heap := ⟨fun _ => none, 0⟩

/-- `new Any(v)`; the pointer is `fresh`. -/
def Heap.new (h : Heap) (v : Held) : Heap := ⟨Function.update h.cells h.fresh (some v), h.fresh + 1⟩

/-- The outcome of an action: an exception leaves the heap as it is then; `bad`: a null or dangling pointer has been used, or one deleted twice, or the action does not end. -/
inductive Did (α : Type)
  | ok (a : α)
  | throws (h : Heap)
  | bad

/-- Sequencing. -/
def Did.bind {α β : Type} : Did α → (α → Did β) → Did β
  | .ok a, f => f a
  | .throws h, _ => .throws h
  | .bad, _ => .bad

instance : Monad Did where
  pure := .ok
  bind := Did.bind

/-- `*p`. -/
def Heap.held (h : Heap) (p : Option Nat) : Did Held :=
  match p with
  | none => .bad
  | some a =>
    match h.cells a with
    | none => .bad
    | some v => .ok v

/-- `*p = v`. -/
def Heap.put (h : Heap) (p : Option Nat) (v : Held) : Did Heap :=
  match p with
  | none => .bad
  | some a =>
    match h.cells a with
    | none => .bad
    | some _ => .ok { h with cells := Function.update h.cells a (some v) }

/-- `delete p`. -/
def Heap.delete (h : Heap) (p : Option Nat) : Did Heap :=
  match p with
  | none => .ok h
  | some a =>
    match h.cells a with
    | none => .bad
    | some _ => .ok { h with cells := Function.update h.cells a none }

/-- An exception thrown while the heap is `h`. -/
def run {α : Type} (h : Heap) : Res α → Did α
  | .ok a => .ok a
  | .throws => .throws h
  | .bad => .bad

/-- `ConvertToFSM`, pire/re_parser.y:215-243: the object becomes an automaton. A repetition count is a type mismatch. -/
def convert (e : Encoding) (h : Heap) (p : Option Nat) : Did (Fsm × Heap) := do
  match ← h.held p with
  | .count _ _ => .throws h
  | .val v =>
    let f ← run h (convertToFsm e v)
    let h ← h.put p (.val (.fsm f))
    return (f, h)

/-- A symbol on the stack with its value. -/
abbrev Entry := Sym × Option Nat

/-- The state of `yyparse`: the stack (the top first), the token that has been read but not shifted, the heap, `Lexer::Retval()`. -/
structure World where
  stack : List Entry
  look : Option Entry
  heap : Heap
  ret : Option Fsm

/-- `yyparse` begins. -/
def World.start : World := ⟨[], none, Heap.empty, none⟩

/-- `yylex`, pire/re_parser.y:163-176: `new Any(term.Value())` if there is a value, a null pointer if not. -/
def yylex (h : Heap) : Tok → Entry × Heap
  | .letters cs neg => ((.letters, some h.fresh), h.new (.val (.range cs neg)))
  | .count lo hi => ((.count, some h.fresh), h.new (.count lo hi))
  | .dot => ((.dot, some h.fresh), h.new (.val .dot))
  | .bol => ((.bol, some h.fresh), h.new (.val .bol))
  | .eol => ((.eol, some h.fresh), h.new (.val .eol))
  | .opn => ((.opn, none), h)
  | .cls => ((.cls, none), h)
  | .bar => ((.bar, none), h)
  | .amp => ((.and, none), h)
  | .tilde => ((.not, none), h)

/-- The productions, pire/re_parser.y:82-159. -/
inductive Prod
  | regexp | altOne | altOr | conjOne | conjAnd | negOne | negNot | catNil | catSnoc | iterOne | iterRep | termLetters | termDot | termBol | termEol | termGroup

/-- A production and its action, pire/re_parser.y:82-159. `none`: its right hand side is not on top of the stack. The start symbol can only be at the bottom of the stack.
`catSnoc`: that `ConvertToFSM` changes `*$2` is left out, as it is deleted at once. `Parenthesized` does nothing for the features of the library. -/
def reduce (e : Encoding) (p : Prod) (w : World) : Option (Did World) :=
  match p, w.stack with
  | .regexp, [(.alternative, p1)] => some do
    let (f, h) ← convert e w.heap p1
    let h ← h.delete p1
    return { w with stack := [(.regexp, none)], heap := h, ret := some f }
  | .altOne, (.conjunction, p1) :: s => some (.ok { w with stack := (.alternative, p1) :: s })
  | .altOr, (.conjunction, p3) :: (.bar, p2) :: (.alternative, p1) :: s => some do
    let (y, h) ← convert e w.heap p3
    let (x, h) ← convert e h p1
    let h ← h.put p1 (.val (.fsm (x.union y)))
    let h ← h.delete p2
    let h ← h.delete p3
    return { w with stack := (.alternative, p1) :: s, heap := h }
  | .conjOne, (.negation, p1) :: s => some (.ok { w with stack := (.conjunction, p1) :: s })
  | .conjAnd, (.negation, p3) :: (.and, p2) :: (.conjunction, p1) :: s => some do
    let (y, h) ← convert e w.heap p3
    let (x, h) ← convert e h p1
    let z ← run h (lift (x.inter y))
    let h ← h.put p1 (.val (.fsm z))
    let h ← h.delete p2
    let h ← h.delete p3
    return { w with stack := (.conjunction, p1) :: s, heap := h }
  | .negOne, (.concatenation, p1) :: s => some (.ok { w with stack := (.negation, p1) :: s })
  | .negNot, (.concatenation, p2) :: (.not, p1) :: s => some do
    let (x, h) ← convert e w.heap p2
    let z ← run h (lift x.complement)
    let h ← h.put p2 (.val (.fsm z))
    let h ← h.delete p1
    return { w with stack := (.negation, p2) :: s, heap := h }
  | .catNil, s => some (.ok { w with stack := (.concatenation, some w.heap.fresh) :: s, heap := w.heap.new (.val (.fsm Fsm.init)) })
  | .catSnoc, (.iteration, p2) :: (.concatenation, p1) :: s => some do
    let (a, h) ← convert e w.heap p1
    match ← h.held p2 with
    | .count _ _ => .throws h
    | .val v =>
      let a ← run h (appendIteration e a v)
      let h ← h.put p1 (.val (.fsm a))
      let h ← h.delete p2
      return { w with stack := (.concatenation, p1) :: s, heap := h }
  | .iterOne, (.term, p1) :: s => some (.ok { w with stack := (.iteration, p1) :: s })
  | .iterRep, (.count, p2) :: (.term, p1) :: s => some do
    let (orig, h) ← convert e w.heap p1
    let p := some h.fresh
    let h := h.new (.val (.fsm orig))
    match ← h.held p2 with
    | .val _ => .throws h
    | .count lo hi =>
      let cur ← run h (repeatAction orig lo hi)
      let h ← h.put p (.val (.fsm cur))
      let h ← h.delete p1
      let h ← h.delete p2
      return { w with stack := (.iteration, p) :: s, heap := h }
  | .termLetters, (.letters, p1) :: s => some (.ok { w with stack := (.term, p1) :: s })
  | .termDot, (.dot, p1) :: s => some (.ok { w with stack := (.term, p1) :: s })
  | .termBol, (.bol, p1) :: s => some (.ok { w with stack := (.term, p1) :: s })
  | .termEol, (.eol, p1) :: s => some (.ok { w with stack := (.term, p1) :: s })
  | .termGroup, (.cls, p3) :: (.alternative, p2) :: (.opn, p1) :: s => some do
    match ← w.heap.held p2 with
    | .val (.fsm _) =>
      let h ← w.heap.delete p1
      let h ← h.delete p3
      return { w with stack := (.term, p2) :: s, heap := h }
    | _ => .throws w.heap
  | _, _ => none

/-- What `yyparse` does: it reads a token, shifts it or reduces. -/
inductive Event
  | read (t : Tok)
  | shift
  | reduce (p : Prod)

/-- One step; `none`: the parser does not do this now. -/
def step (e : Encoding) (w : World) : Event → Option (Did World)
  | .read t =>
    match w.look with
    | some _ => none
    | none => let (x, h) := yylex w.heap t; some (.ok { w with look := some x, heap := h })
  | .shift =>
    match w.look with
    | none => none
    | some x => some (.ok { w with stack := x :: w.stack, look := none })
  | .reduce p => Stack.reduce e p w

/-- Many steps. -/
def steps (e : Encoding) : World → List Event → Option (Did World)
  | w, [] => some (.ok w)
  | w, a :: l =>
    match step e w a with
    | some (.ok w) => steps e w l
    | r => r

/-- The destructors of the symbols, pire/re_parser.y:75, of the values in this order. -/
def destroy (h : Heap) : List Entry → Did Heap
  | [] => .ok h
  | x :: l => do
    let h ← h.delete x.2
    destroy h l

/-- The end of `yyparse`, by acceptance or by a syntax error (there is no error recovery in the grammar): the token that has been read and everything on the stack are
destroyed. If an action throws, this does not happen. -/
def World.cleanup (w : World) : Did Heap := destroy w.heap (w.look.toList ++ w.stack)

end Pire.Stack
