import Verif.Model.Parser
import Verif.Model.Capture

/-!
# Parsing with `Features::Capture` — pire/extra/capture.cpp

The fields of `CaptureImpl` change in two ways: `Lex` counts the opening parentheses and remembers the kind of a repetition; `Parenthesized`,
called by the actions of the parser, puts the marks.  Which tokens `Lex` returns does not depend on the fields, so the tokens, each repetition
with its laziness, are computed first.  Bison reduces `'(' alternative ')'` and `term YRE_COUNT` without looking at the next token (there is
nothing else to do after `')'` and `YRE_COUNT`), so `Parenthesized` runs before the next token is read: the fields see the parentheses and the
repetitions in the order in which they stand in the pattern, as the actions on the tree below do.

`Lexer::AddFeature` puts the feature before all others of its priority (`Lex.addFeature`), in particular before the one that reads `{...}`; the
features of lower priority read nothing, and the others do not accept the same characters.
-/

namespace Pire
namespace Capture

open Pire.Spec Pire.Lex Pire.Enc Pire.Parse

/-! ### The lexer -/

/-- `Accepts`, capture.cpp:41. -/
def accepts (c : Nat) : Bool := c == 40 || c == 43 || c == 42 || c == 63 || c == 123

/-- `Lex`, capture.cpp:42-78, without the changes of the fields: the token (`none` is `Term(0)`), whether the repetition is lazy (`none` for
an opening parenthesis), the rest of the input. -/
def captureLex (s : List Nat) : Res (Option Tok × Option Bool × List Nat) := do
  let (c, s) ← getChar s
  let (lz, s) ←
    (if c ≠ 40 then
      if peekChar s = 63 then do
        let (_, s) ← getChar s
        Res.ok (some true, s)
      else Res.ok (some false, s)
    else Res.ok (none, s) : Res (Option Bool × List Nat))
  if c = 40 then .ok (some .opn, lz, s)
  else if c = 43 then .ok (some (.count 1 none), lz, s)
  else if c = 42 then .ok (some (.count 0 none), lz, s)
  else if c = 63 then .ok (some (.count 0 (some 1)), lz, s)
  else .ok (none, lz, ungetChar c s)

/-- `Lexer::DoLex`, pire/re_lexer.cpp:104-144, with the capture feature first: if it returns `Term(0)` then the other features are asked. -/
def doLexC (features : List Feature) (s : List Nat) : Res (Option (Tok × Option Bool × List Nat)) := do
  let (c, s1) ← getChar s
  let s := ungetChar c s1
  let ch := peekChar s
  if ch = End then .ok none
  else
    let (t, lz, s) ← (if accepts ch then captureLex s else Res.ok (none, none, s) : Res (Option Tok × Option Bool × List Nat))
    match t with
    | some t => .ok (some (t, lz, s))
    | none =>
      let (t, s) ← (features.findSome? fun f => f.lex ch s).getD (lexBuiltin s)
      .ok (some (t, lz, s))

/-- `Lexer::Lex`, pire/re_lexer.cpp:146-186; the capture feature does not alter terms. -/
def lexC (features : List Feature) (s : List Nat) : Res (Option (Tok × Option Bool × List Nat)) := do
  match ← doLexC features s with
  | none => .ok none
  | some (.letters cs neg, lz, s) =>
    let (cs, neg) ← alterAll features cs neg
    if (cs.filter fun c => isControl c = true).Nonempty then .throws
    else .ok (some (.letters cs neg, lz, s))
  | some (t, lz, s) => .ok (some (t, lz, s))

/-- All the tokens, and the laziness of the repetitions among them. -/
def tokensC (features : List Feature) : Nat → List Nat → Res (List Tok × List Bool)
  | 0, _ => .bad
  | fuel + 1, s => do
    match ← lexC features s with
    | none => .ok ([], [])
    | some (t, lz, s) =>
      let (ts, lzs) ← tokensC features fuel s
      .ok (t :: ts, lz.toList ++ lzs)

/-! ### The marks -/

/-- The fields of `CaptureImpl`, capture.cpp:35-38 and 88-91; `rep` is `StateRepetition`: `none` is `NoRepetition`, otherwise whether it is
greedy. -/
structure Fields where
  state : Nat
  pos : Nat
  level : Nat
  rep : Option Bool

/-- The constructor, capture.cpp:34-39. -/
def Fields.start (pos : Nat) : Fields := ⟨0, pos, 0, none⟩

/-- The part of `Lex` for an opening parenthesis, capture.cpp:56-63. -/
def Fields.opened (s : Fields) : Fields :=
  if s.state = 0 ∧ s.pos > 1 then { s with pos := s.pos - 1 }
  else if s.state = 0 ∧ s.pos = 1 then { s with state := 1, level := 0 }
  else if s.state = 1 then { s with level := s.level + 1 }
  else s

/-- The part of `Lex` for a repetition, capture.cpp:47-55. -/
def Fields.counted (s : Fields) (lz : Bool) : Fields := { s with rep := some !lz }

/-- `Parenthesized`, capture.cpp:80-92. -/
def Fields.parenthesized (s : Fields) (f : Fsm) : Fsm × Fields :=
  match s.rep with
  | some greedy => (setRepetitionMark f greedy, { s with rep := none })
  | none =>
    if s.state = 1 ∧ s.level = 0 then (setCaptureMark f, { s with state := 2 })
    else if s.state = 1 ∧ s.level > 0 then (f, { s with level := s.level - 1 })
    else (f, s)

/-- The fields and the laziness of the repetitions to come. -/
abbrev Drive := Fields × List Bool

/-! The actions of the parser, as in Model/Parser, with the calls of `Parenthesized`. -/
mutual
/-- `alternative`, pire/re_parser.y:92-95. -/
def evalAlt (e : Encoding) : Alt → Drive → Res (Fsm × Drive)
  | .one c, s => evalConj e c s
  | .or a c, s => do let (x, s) ← evalAlt e a s; let (y, s) ← evalConj e c s; .ok (x.union y, s)
/-- `conjunction`, pire/re_parser.y:97-100. -/
def evalConj (e : Encoding) : Conj → Drive → Res (Fsm × Drive)
  | .one n, s => evalNeg e n s
  | .and c n, s => do
    let (x, s) ← evalConj e c s
    let (y, s) ← evalNeg e n s
    let z ← lift (x.inter y)
    .ok (z, s)
/-- `negation`, pire/re_parser.y:102-105. -/
def evalNeg (e : Encoding) : Neg → Drive → Res (Fsm × Drive)
  | .one c, s => evalCat e c s
  | .not c, s => do let (x, s) ← evalCat e c s; let z ← lift x.complement; .ok (z, s)
/-- `concatenation`, pire/re_parser.y:107-119. -/
def evalCat (e : Encoding) : Cat → Drive → Res (Fsm × Drive)
  | .nil, s => .ok (Fsm.init, s)
  | .snoc c i, s => do
    let (a, s) ← evalCat e c s
    let (v, s) ← evalIter e i s
    let f ← appendIteration e a v
    .ok (f, s)
/-- `iteration`, pire/re_parser.y:122-151. -/
def evalIter (e : Encoding) : Iter → Drive → Res (Val × Drive)
  | .one t, s => evalTerm e t s
  | .rep t lo hi, s => do
    let (v, s, lzs) ← evalTerm e t s
    let orig ← convertToFsm e v
    let f ← repeatAction orig lo hi
    match lzs with
    | [] => .bad
    | lz :: lzs =>
      let (f, s) := (s.counted lz).parenthesized f
      .ok (.fsm f, s, lzs)
/-- `term`, pire/re_parser.y:153-159. -/
def evalTerm (e : Encoding) : Term → Drive → Res (Val × Drive)
  | .letters cs neg, s => .ok (.range cs neg, s)
  | .dot, s => .ok (.dot, s)
  | .bol, s => .ok (.bol, s)
  | .eol, s => .ok (.eol, s)
  | .group a, s => do
    let (f, s, lzs) ← evalAlt e a (s.1.opened, s.2)
    let (f, s) := s.parenthesized f
    .ok (.fsm f, s, lzs)
end

/-- `Lexer::Parse`, pire/re_lexer.cpp:379-387, with `Features::Capture(pos)`. The actions are run after all tokens have been read: this makes a difference only for
patterns that are rejected (see `Parse.pull`). -/
def parseCapture (features : List Feature) (e : Encoding) (pos : Nat) (pattern : List Nat) : Res Fsm := do
  let (ts, lzs) ← tokensC features (pattern.length + 1) pattern
  match parse ts with
  | none => .throws
  | some t =>
    let (f, _) ← evalAlt e t (Fields.start pos, lzs)
    .ok f

end Capture
end Pire
