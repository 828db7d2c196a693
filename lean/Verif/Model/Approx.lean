import Verif.Model.Multi
import Verif.Model.Simple
import Verif.Model.Slow

/-!
# Approximate matching — pire/approx_matching.cpp
-/

namespace Pire
namespace Fsm

/-- The loop over the characters that may stand instead of a letter, pire/approx_matching.cpp:48-52. -/
def approxSubst (n shift state dest : Nat) (g : Fsm) : Fsm :=
  (List.range MaxChar).foldl (fun g ch =>
    if !g.connected (state + shift) (dest + shift) ch then g.connect (state + shift) (dest + shift + n) ch else g) g

/-- The loop over the targets of a letter, pire/approx_matching.cpp:47-55. -/
def approxDest (n shift state : Nat) (g : Fsm) (dest : Nat) : Fsm :=
  (approxSubst n shift state dest g).connect (state + shift) (dest + shift + n) Epsilon

/-- The loop over the letters of a state, pire/approx_matching.cpp:46-60. The tables `outgoingLettersTable` and `destinationsTable`
(30-40) hold what `OutgoingLetters` and `Destinations` of the original automaton return, so the model calls those. -/
def approxLetter (f : Fsm) (shift state : Nat) (g : Fsm) (letter : Nat) : Fsm :=
  let g := (elems (f.destinations state letter)).foldl (approxDest f.size shift state) g
  (List.range MaxChar).foldl (fun g ch => g.connect (state + shift) (state + shift + f.size) ch) g

/-- The loop over the states, pire/approx_matching.cpp:45-65. -/
def approxState (f : Fsm) (shift : Nat) (g : Fsm) (state : Nat) : Fsm :=
  let g := (f.outgoingLetters state).foldl (approxLetter f shift state) g
  if f.isFinal state then g.setFinal (state + shift + f.size) true else g

/-- The main loop, pire/approx_matching.cpp:41-66: one more copy of the automaton and the edges to it. -/
def approxLayer (f g : Fsm) (fsmIdx : Nat) : Fsm :=
  (List.range f.size).foldl (approxState f (fsmIdx * f.size)) (g.import_ f)

/-- The body of the loops over two letters in a row, pire/approx_matching.cpp:76-86. `state` is a state of the new automaton. -/
def approxSwap (f : Fsm) (state firstLetter firstDest secondLetter : Nat) (g : Fsm) (secondDest : Nat) : Fsm :=
  let currentDist := state / f.size
  let intState := state % f.size
  if secondDest ≠ intState ∨ firstDest ≠ intState then
    let g := g.resize (g.size + 1)
    let dest := secondDest + (currentDist + 1) * f.size
    let middle := g.size - 1
    (g.connect state middle secondLetter).connect middle dest firstLetter
  else g

/-- The loops over two letters in a row, pire/approx_matching.cpp:68-90. -/
def approxSwaps (f g : Fsm) (state : Nat) : Fsm :=
  let intState := state % f.size
  (f.outgoingLetters intState).foldl (fun g firstLetter =>
    (elems (f.destinations intState firstLetter)).foldl (fun g firstDest =>
      (f.outgoingLetters firstDest).foldl (fun g secondLetter =>
        (elems (f.destinations firstDest secondLetter)).foldl (approxSwap f state firstLetter firstDest secondLetter) g) g) g) g

/-- `CreateApproxFsm`, pire/approx_matching.cpp:26-92. -/
def createApprox (f : Fsm) (distance : Nat) : Fsm :=
  let g := (List.range distance).foldl (approxLayer f) f
  let maxState := if distance > 0 then g.size - f.size else 0
  (List.range maxState).foldl (approxSwaps f) g

/-- The first lines of the constructors with an argument `distance`: pire/scanners/multi.h:125-127, simple.h:236-238, slow.h:255-257. -/
def withDistance (f : Fsm) (distance : Nat) : Fsm := if distance ≠ 0 then f.createApprox distance else f

end Fsm

/-- `Scanner(Fsm&, distance)`, multi.h:123-131; `Compile<Scanner>(distance)`, fsm.h:274-278. -/
def Multi.compileApprox (P : Policy) (base : Nat) (f : Fsm) (distance : Nat) : Option Multi := Multi.compile P base (f.withDistance distance)

/-- `SimpleScanner(Fsm&, distance)`, simple.h:234-258. -/
def Simple.compileApprox (base : Nat) (f : Fsm) (distance : Nat) : Option Simple := Simple.compile base (f.withDistance distance)

/-- `SlowScanner(fsm, false, true, distance)`, slow.h:252-283, which is `Compile<SlowScanner>(distance)` by the specialization slow.h:422-425. -/
def Slow.compileApprox (f : Fsm) (distance : Nat) : Slow := Slow.compile (f.withDistance distance)

end Pire
