import Verif.Model.Lexer
import Verif.Model.Fsm
import Verif.Model.Dead
import Verif.Model.Determine
import Verif.Model.Minimize

/-!
# The parser of patterns

pire/re_parser.y.  The tables bison generates are not modelled; the grammar is unambiguous, and `step` below is one step
of a deterministic shift-reduce parser for it.  `Props/Pattern` proves that `parse` accepts exactly the token sequences
that trees of the grammar spell, and with that tree; `eval…` runs the actions on a finished tree.  What the library does
is `pull`: it asks the lexer for one token after the other and runs the actions meanwhile.  `Proofs/ParserPull` proves
that a pattern that is accepted yields the same either way.
-/

namespace Pire.Parse

open Pire.Spec Pire.Lex Pire.Enc

/-! ### Shift and reduce -/

/-- What has been reduced so far between two parentheses: the alternatives, the conjuncts of the current alternative,
whether the current conjunct is negated, its concatenation, and a term that a repetition count may still follow. -/
structure Frame where
  alt : Option Alt
  conj : Option Conj
  neg : Bool
  cat : Cat
  last : Option Term

/-- Nothing read yet. -/
def Frame.new : Frame := ⟨none, none, false, .nil, none⟩

/-- Reduce `iteration: term` and `concatenation: concatenation iteration`, pire/re_parser.y:109-119, 122. -/
def Frame.closeTerm (f : Frame) : Cat :=
  match f.last with
  | none => f.cat
  | some t => .snoc f.cat (.one t)

/-- Reduce to `conjunction`, pire/re_parser.y:97-105. -/
def Frame.closeConj (f : Frame) : Conj :=
  let n := if f.neg then Neg.not f.closeTerm else Neg.one f.closeTerm
  match f.conj with
  | none => .one n
  | some c => .and c n

/-- Reduce to `alternative`, pire/re_parser.y:92-95. -/
def Frame.closeAlt (f : Frame) : Alt :=
  match f.alt with
  | none => .one f.closeConj
  | some a => .or a f.closeConj

/-- Shift a complete term, pire/re_parser.y:153-159. -/
def Frame.term (f : Frame) (t : Term) : Frame := { f with cat := f.closeTerm, last := some t }

/-- One token, pire/re_parser.y:82-159; the list is the frames outside of the current one. `none`: syntax error. -/
def step (st : Frame × List Frame) (t : Tok) : Option (Frame × List Frame) :=
  let (f, out) := st
  match t with
  | .letters cs neg => some (f.term (.letters cs neg), out)
  | .dot => some (f.term .dot, out)
  | .bol => some (f.term .bol, out)
  | .eol => some (f.term .eol, out)
  | .opn => some (Frame.new, f :: out)
  | .cls =>
    match out with
    | [] => none
    | g :: out => some (g.term (.group f.closeAlt), out)
  | .bar => some (⟨some f.closeAlt, none, false, .nil, none⟩, out)
  | .amp => some (⟨f.alt, some f.closeConj, false, .nil, none⟩, out)
  | .tilde =>
    match f.neg, f.cat, f.last with
    | false, .nil, none => some ({ f with neg := true }, out)
    | _, _, _ => none
  | .count lo hi =>
    match f.last with
    | none => none
    | some t => some ({ f with cat := .snoc f.cat (.rep t lo hi), last := none }, out)

/-- `yyparse` without the actions. -/
def parse (ts : List Tok) : Option Alt :=
  match ts.foldlM step (Frame.new, []) with
  | some (f, []) => some f.closeAlt
  | _ => none

/-! ### Actions -/

/-- The values on the parser stack (`Any`) that are not tokens without value. -/
inductive Val
  | fsm (f : Fsm)
  | range (cs : Finset Nat) (neg : Bool)
  | dot
  | bol
  | eol

/-- `none` of the model of `Fsm` is an exception. -/
def lift : Option Fsm → Res Fsm
  | some f => .ok f
  | none => .throws

/-- `AppendRange`, pire/re_parser.y:190-213. -/
def appendRange (e : Encoding) (a : Fsm) (cs : Finset Nat) : Res Fsm :=
  let strings := ((elems cs).map e.toLocal).filter (· ≠ [])
  if strings = [] then .ok Fsm.makeFalse
  else lift (a.appendStrings strings)

/-- `ConvertToFSM`, pire/re_parser.y:215-243. -/
def convertToFsm (e : Encoding) : Val → Res Fsm
  | .fsm f => .ok f
  | .dot => .ok (e.appendDot Fsm.init)
  | .bol => .ok (Fsm.init.appendChar BeginMark)
  | .eol => .ok (Fsm.init.appendChar EndMark)
  | .range cs neg => do
    let a ← appendRange e Fsm.init cs
    if neg then
      let x := e.appendDot Fsm.init
      let x ← lift x.complement
      let a := a.union x
      let a ← lift a.complement
      .ok a.removeDeadEnds
    else .ok a

/-- The action of `concatenation: concatenation iteration`, pire/re_parser.y:109-119. -/
def appendIteration (e : Encoding) (a : Fsm) : Val → Res Fsm
  | .range cs false => appendRange e a cs
  | .dot => .ok (e.appendDot a)
  | v => do
    let b ← convertToFsm e v
    .ok (a.concat b)

/-- The action of `iteration: term YRE_COUNT`, pire/re_parser.y:124-151. `(orig | Fsm()) * (second - first)` converts a
negative count to `size_t` and does not end. -/
def repeatAction (orig : Fsm) (lo : Nat) (hi : Option Nat) : Res Fsm :=
  if lo = 0 ∧ hi = some 1 then .ok (orig.union Fsm.init)
  else if lo = 0 ∧ hi = none then .ok orig.iterate
  else if lo = 1 ∧ hi = none then .ok (orig.concat orig.iterate)
  else
    let cur := orig.power lo
    match hi with
    | none => .ok (cur.concat orig.iterate)
    | some hi =>
      if hi = lo then .ok cur
      else if hi < lo then .bad
      else .ok (cur.concat ((orig.union Fsm.init).power (hi - lo)))

/-! The actions of all the productions.  `Parenthesized` does nothing for the features of the library. -/
mutual
/-- `alternative`, pire/re_parser.y:92-95. -/
def evalAlt (e : Encoding) : Alt → Res Fsm
  | .one c => evalConj e c
  | .or a c => do let x ← evalAlt e a; let y ← evalConj e c; .ok (x.union y)
/-- `conjunction`, pire/re_parser.y:97-100. -/
def evalConj (e : Encoding) : Conj → Res Fsm
  | .one n => evalNeg e n
  | .and c n => do let x ← evalConj e c; let y ← evalNeg e n; lift (x.inter y)
/-- `negation`, pire/re_parser.y:102-105. -/
def evalNeg (e : Encoding) : Neg → Res Fsm
  | .one c => evalCat e c
  | .not c => do let x ← evalCat e c; lift x.complement
/-- `concatenation`, pire/re_parser.y:107-119. -/
def evalCat (e : Encoding) : Cat → Res Fsm
  | .nil => .ok Fsm.init
  | .snoc c i => do let a ← evalCat e c; let v ← evalIter e i; appendIteration e a v
/-- `iteration`, pire/re_parser.y:122-151. -/
def evalIter (e : Encoding) : Iter → Res Val
  | .one t => evalTerm e t
  | .rep t lo hi => do
    let v ← evalTerm e t
    let orig ← convertToFsm e v
    let f ← repeatAction orig lo hi
    .ok (.fsm f)
/-- `term`, pire/re_parser.y:153-159. -/
def evalTerm (e : Encoding) : Term → Res Val
  | .letters cs neg => .ok (.range cs neg)
  | .dot => .ok .dot
  | .bol => .ok .bol
  | .eol => .ok .eol
  | .group a => do let f ← evalAlt e a; .ok (.fsm f)
end

/-! ### Tokens and actions in turn -/

/-- What the stack of the parser holds between two parentheses, as in `Frame`, but the values the actions have made. `cat` is `none` as long as
`concatenation: ` (pire/re_parser.y:108) has not been reduced. -/
structure VFrame where
  alt : Option Fsm
  conj : Option Fsm
  neg : Bool
  cat : Option Fsm
  last : Option Val

/-- Nothing read yet. -/
def VFrame.new : VFrame := ⟨none, none, false, none, none⟩

/-- Reduce `iteration: term` and `concatenation: concatenation iteration`, pire/re_parser.y:109-119, 122. -/
def VFrame.closeTerm (e : Encoding) (f : VFrame) : Res VFrame :=
  match f.last with
  | none => .ok f
  | some v => do
    let a ← appendIteration e (f.cat.getD Fsm.init) v
    .ok { f with cat := some a, last := none }

/-- Reduce to `conjunction`, pire/re_parser.y:97-105. -/
def VFrame.closeConj (e : Encoding) (f : VFrame) : Res Fsm := do
  let f ← f.closeTerm e
  let a := f.cat.getD Fsm.init
  let n ← if f.neg then lift a.complement else Res.ok a
  match f.conj with
  | none => .ok n
  | some c => lift (c.inter n)

/-- Reduce to `alternative`, pire/re_parser.y:92-95. -/
def VFrame.closeAlt (e : Encoding) (f : VFrame) : Res Fsm := do
  let c ← f.closeConj e
  match f.alt with
  | none => .ok c
  | some a => .ok (a.union c)

/-- One token with the actions, pire/re_parser.y:82-159. `ok none`: syntax error. An action that throws ends the parse with an exception just as a
syntax error does, so the actions bison may still run before it notices the error are left out: those of the reductions without a count
throw at worst. -/
def vstep (e : Encoding) (st : VFrame × List VFrame) (t : Tok) : Res (Option (VFrame × List VFrame)) :=
  let (f, out) := st
  match t with
  | .letters cs neg => do let f ← f.closeTerm e; .ok (some ({ f with last := some (.range cs neg) }, out))
  | .dot => do let f ← f.closeTerm e; .ok (some ({ f with last := some .dot }, out))
  | .bol => do let f ← f.closeTerm e; .ok (some ({ f with last := some .bol }, out))
  | .eol => do let f ← f.closeTerm e; .ok (some ({ f with last := some .eol }, out))
  | .opn => do let f ← f.closeTerm e; .ok (some (VFrame.new, f :: out))
  | .cls =>
    match out with
    | [] => .ok none
    | g :: out => do let a ← f.closeAlt e; .ok (some ({ g with last := some (.fsm a) }, out))
  | .bar => do let a ← f.closeAlt e; .ok (some (⟨some a, none, false, none, none⟩, out))
  | .amp => do let c ← f.closeConj e; .ok (some (⟨f.alt, some c, false, none, none⟩, out))
  | .tilde =>
    match f.neg, f.cat, f.last with
    | false, none, none => .ok (some ({ f with neg := true }, out))
    | _, _, _ => .ok none
  | .count lo hi =>
    match f.last with
    | none => .ok none
    | some v => do
      let orig ← convertToFsm e v
      let x ← repeatAction orig lo hi
      let a ← appendIteration e (f.cat.getD Fsm.init) (.fsm x)
      .ok (some ({ f with cat := some a, last := none }, out))

/-- The end of the input: `regexp: alternative`, pire/re_parser.y:83-89; with an open parenthesis a syntax error. -/
def finish (e : Encoding) (st : VFrame × List VFrame) : Res Fsm :=
  match st.2 with
  | [] => st.1.closeAlt e
  | _ => .throws

/-- How a parse ends: with an automaton, what is left of the input, or with an exception; `errMsg`: `Lexer::ErrMsg()` has been set. -/
inductive Pulled
  | done (f : Fsm) (rest : List Nat)
  | failed (errMsg : Bool)
  | bad

/-- What `DoLex` leaves of the input when it finds its end, pire/re_lexer.cpp:108-111. -/
def leftover (s : List Nat) : List Nat :=
  match getChar s with
  | .ok (c, s1) => ungetChar c s1
  | _ => s

/-- `yyparse` with `yylex`, pire/re_parser.y:163-188. An exception of the lexer sets the message and ends the input; `yyerror` sets the message only if
there is one already. -/
def pull (features : List Feature) (e : Encoding) : Nat → List Nat → VFrame × List VFrame → Pulled
  | 0, _, _ => .bad
  | fuel + 1, s, st =>
    match lex features s with
    | .bad => .bad
    | .throws =>
      match finish e st with
      | .bad => .bad
      | _ => .failed true
    | .ok none =>
      match finish e st with
      | .bad => .bad
      | .throws => .failed false
      | .ok f => .done f (leftover s)
    | .ok (some (t, s)) =>
      match vstep e st t with
      | .bad => .bad
      | .throws => .failed false
      | .ok none => .failed false
      | .ok (some st) => pull features e fuel s st

/-- `Lexer::Parse`, pire/re_lexer.cpp:379-387, with `yre_parse`, pire/re_parser.y:264-275, on the code points of a
pattern, by a lexer that has not been used before. -/
def parsePattern (features : List Feature) (e : Encoding) (pattern : List Nat) : Res Fsm :=
  match pull features e (pattern.length + 1) pattern (VFrame.new, []) with
  | .done f _ => .ok f
  | .failed _ => .throws
  | .bad => .bad

end Pire.Parse
