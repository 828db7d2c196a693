import Verif.Model.HalfFinal
import Verif.Model.Io

/-!
# Saving and loading states of half-final scanners — pire/scanners/half_final.h:58-122

In a release build: a debug build stops at `Y_ASSERT(0)` at the end of `Save`. The vector `MatchedRegexps` is a pair of its size and
`State.matched`.
-/

namespace Pire
namespace HalfFinal

open Io

/-- `HalfFinalScanner::State`, half_final.h:58-120: a state and the size of `MatchedRegexps`. `MatchedRegexpsIds` is filled by `GetMatchedRegexpsIds`
before it is read. -/
structure Stored where
  state : State
  size : Nat

/-- What `Initialize` leaves (half_final.h:138-143) and running maintains: the vector is as long as there are regexps. -/
def stored (s : Multi) (st : State) : Stored := ⟨st, s.m.regexpsCount⟩

/-- `State::Save`, half_final.h:95-102: header, the scanner state and the *size* of the vector. -/
def Stored.save (x : Stored) : Bytes :=
  (Header.mk' 5 8).bytes ++ alignSave headerLen ++ (le 8 x.state.st ++ le 8 x.size) ++ alignSave 16

/-- `State::Load`, half_final.h:104-112: the vector is cleared and resized, so all counters are 0. -/
def Stored.load (b : Bytes) : Option (Stored × Bytes) :=
  (loadHeader 5 8 b).bind fun h => (take 16 h.2).bind fun x => (alignLoad 16 x.2).bind fun b =>
    some (⟨{ st := num (x.1.take 8), matched := fun _ => 0 }, num (x.1.drop 8)⟩, b)

/-- `operator ==`, half_final.h:83-85: the same scanner state and the same vector. -/
def Stored.same (x y : Stored) : Bool :=
  x.state.st == y.state.st && x.size == y.size && (List.range x.size).all fun i => x.state.matched i == y.state.matched i

end HalfFinal
end Pire
