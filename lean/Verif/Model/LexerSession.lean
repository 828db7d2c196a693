import Verif.Model.CaptureParse

/-!
# A lexer that is used for more than one pattern — pire/re_lexer.{h,cpp}, pire/re_parser.y

`Lexer::Assign` may be called again after `Lexer::Parse`.  What `Parse` leaves behind is the rest of the input, `ErrMsg()` and the fields of the
features; of the features of the library only `Features::Capture` has fields.
-/

namespace Pire
namespace Parse

open Pire.Spec Pire.Lex Pire.Enc

/-- A `Lexer` without the capture feature, pire/re_lexer.h:107-187: the rest of the input (`none`: what a parse that failed has left, which depends on
the place of the error and is not modelled), the features, the encoding, whether `ErrMsg()` is not empty. -/
structure Session where
  input : Option (List Nat)
  features : List Feature
  enc : Encoding
  err : Bool

/-- The constructors, pire/re_lexer.h:110-133 (the other ones call `Assign`). -/
def Session.new : Session := ⟨some [], defaultFeatures, .latin1, false⟩

/-- What can be done with a lexer: `Assign` (pire/re_lexer.h:136-140), `AddFeature` (pire/re_lexer.cpp:90-102), `SetEncoding` (pire/re_lexer.h:150), setting `ErrMsg()` to a text or to the
empty one (pire/re_lexer.h:151-153), `Parse`. -/
inductive Use
  | assign (pattern : List Nat)
  | add (f : Feature)
  | encoding (e : Encoding)
  | errMsg (nonempty : Bool)
  | parse

/-- One use: the lexer afterwards, and what `Parse` returned. `none`: `Parse` on an input that is not modelled.
`Parse`: pire/re_lexer.cpp:379-387 and `yre_parse`, pire/re_parser.y:264-275, which throws whenever there is a message. Nothing is used after a parse that does not
end (`bad`). -/
def Session.use (s : Session) : Use → Option (Session × Option (Res Fsm))
  | .assign p => some ({ s with input := some p }, none)
  | .add f => some ({ s with features := addFeature f s.features }, none)
  | .encoding e => some ({ s with enc := e }, none)
  | .errMsg b => some ({ s with err := b }, none)
  | .parse =>
    match s.input with
    | none => none
    | some p =>
      match pull s.features s.enc (p.length + 1) p (VFrame.new, []) with
      | .done f rest => some ({ s with input := some rest }, some (if s.err then .throws else .ok f))
      | .failed b => some ({ s with input := none, err := s.err || b }, some .throws)
      | .bad => some (s, some .bad)

/-- Several uses: the lexer afterwards and the results of the calls of `Parse`. -/
def Session.uses (s : Session) : List Use → Option (Session × List (Res Fsm))
  | [] => some (s, [])
  | u :: us => (s.use u).bind fun x => (x.1.uses us).map fun y => (y.1, x.2.toList ++ y.2)

end Parse

namespace Capture

open Pire.Spec Pire.Lex Pire.Enc Pire.Parse

/-- `Lexer::Parse` by a lexer with `Features::Capture` whose fields (pire/extra/capture.cpp:88-91) are `s`: the automaton and the fields afterwards.
As in `parseCapture` the actions are run after the tokens have been read; for a pattern that is accepted this makes no difference. -/
def parseFrom (features : List Feature) (e : Encoding) (s : Fields) (pattern : List Nat) : Res (Fsm × Fields) := do
  let (ts, lzs) ← tokensC features (pattern.length + 1) pattern
  match parse ts with
  | none => .throws
  | some t =>
    let (f, s, _) ← evalAlt e t (s, lzs)
    .ok (f, s)

end Capture
end Pire
