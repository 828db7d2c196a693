import Verif.Spec.Lang

/-!
# Expressions over the automata API and the language they denote (C22)

`Expr.den` is the textbook meaning. Nothing here mentions the model of the code.
-/

namespace Pire.Spec

inductive Expr
  /-- `Fsm()` -/
  | empty
  /-- `Fsm::MakeFalse()` -/
  | nothing
  /-- `Fsm().Append(string)` -/
  | lit (s : List Nat)
  /-- `Fsm().AppendDot()` -/
  | dot
  /-- `Fsm().AppendStrings(strings)` -/
  | strings (t : List (List Nat))
  | cat (a b : Expr)
  | alt (a b : Expr)
  | both (a b : Expr)
  | not (a : Expr)
  | star (a : Expr)
  | pow (a : Expr) (n : Nat)
  | prependAny (a : Expr)
  | appendAny (a : Expr)
  | surround (a : Expr)
  | reverse (a : Expr)
  /-- `Canonize(maxSize)`; 0 is the default limit -/
  | canon (a : Expr) (maxSize : Nat)

namespace Expr

/-- The language an expression denotes. -/
def den : Expr → Language Nat
  | empty => 1
  | nothing => 0
  | lit s => single s
  | dot => anyByte
  | strings t => oneOf t
  | cat a b => a.den * b.den
  | alt a b => a.den + b.den
  | both a b => Spec.inter a.den b.den
  | not a => Spec.compl a.den
  | star a => KStar.kstar a.den
  | pow a n => a.den ^ n
  | prependAny a => allWords * a.den
  | appendAny a => a.den * allWords
  | surround a => allWords * a.den * allWords
  | reverse a => mirror a.den
  | canon a _ => a.den

/-- Expressions whose automaton may have a final initial state: the only ones the code mishandles on the right of `+`
and as the base of `*n`. -/
def mayStartFinal : Expr → Bool
  | empty => true
  | lit s => s.isEmpty
  | pow _ n => n == 0
  | canon _ _ => true
  | _ => false

/-- Literals consist of letters (of bytes in `strings`), and the operands of `cat` and `pow` avoid the defect C04. -/
def Ok : Expr → Prop
  | empty | nothing | dot => True
  | lit s => IsWord s
  | strings t => ∀ s ∈ t, ∀ c ∈ s, c < 256
  | cat a b => a.Ok ∧ b.Ok ∧ b.mayStartFinal = false
  | pow a _ => a.Ok ∧ a.mayStartFinal = false
  | alt a b | both a b => a.Ok ∧ b.Ok
  | not a | star a | prependAny a | appendAny a | surround a | reverse a | canon a _ => a.Ok

end Expr
end Pire.Spec
