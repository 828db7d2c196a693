import Verif.Model.Run

/-!
# `pire/run.h`, debug build (`PIRE_DEBUG`)
-/

namespace Pire
namespace Scn
variable {σ α ρ : Type}

/-- `DoRun` of the debug build, pire/run.h:245-267 (without the messages): the predicate is asked before the first character too; every scanner is run in this way,
without words and shortcuts. -/
def doRunDebug (sc : Scn σ α) (pred : Pred σ ρ) (mem : Mem) (b e : Nat) (st : σ) (acc : ρ) : σ × ρ :=
  let r := pred st b acc
  if r.2 then (st, r.1)
  else
    let r := safeLoop sc pred mem (e - b) b st r.1
    (r.st, r.acc)

/-- `Run`, pire/run.h:271-275, debug build. -/
def runDebug (sc : Scn σ α) (mem : Mem) (b e : Nat) (st : σ) : σ := (doRunDebug sc runPred mem b e st ()).1

/-- `LongestPrefix`, pire/run.h:277-292, debug build. -/
def longestPrefixDebug (sc : Scn σ α) (mem : Mem) (b e : Nat) (throughBegin throughEnd : Bool) : Option Nat :=
  longestPrefixWith (fun pred => doRunDebug sc pred mem) sc b e throughBegin throughEnd

/-- `ShortestPrefix`, pire/run.h:294-311, debug build. -/
def shortestPrefixDebug (sc : Scn σ α) (mem : Mem) (b e : Nat) (throughBegin throughEnd : Bool) : Option Nat :=
  shortestPrefixWith (fun pred => doRunDebug sc pred mem) sc b e throughBegin throughEnd

end Scn
end Pire
