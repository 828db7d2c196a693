import Verif.Model.CountCtor

/-!
# The constructors of `AdvancedCountingScanner` and `NoGlueLimitCountingScanner` — pire/extra/count.cpp:34-737, 836-873

`CountingFsm`: tags `NotMatched = 1`, `Matched = 2`, `Separated = 4` (count.cpp:47-51); actions `IncrementAction = 1`, `ResetAction = 2` (count.h:122-123).
-/

namespace Pire
namespace Count
namespace Adv

/-- `SetTag(state, Separated)` for all states, pire/extra/count.cpp:60-62. -/
def tagSep (f : Fsm) : Fsm := (List.range f.size).foldl (fun g q => g.setTag q 4) f

/-- Lines 65-71: states where `re` has matched are marked; they are made final if the separator may be empty. -/
def tagRe (finals : Finset Nat) (allowEmpty : Bool) (f : Fsm) : Fsm :=
  (elems finals).foldl (fun g q => let g := g.setTag q 2; if allowEmpty then g.setFinal q true else g) f

/-- Lines 56-71: `re` followed by `sep`, both canonical. -/
def series (re sep : Fsm) : Fsm :=
  tagRe re.finals (sep.isFinal sep.initial) (re.concat (tagSep sep))

/-- The constructor of `CountingFsm`, pire/extra/count.cpp:53-76: `mFsm` and `mReInitial`. `none`: `Canonize` throws. -/
def countingFsm (re sep : Fsm) : Option (Fsm × Nat) := do
  let re ← re.canonize
  let sep ← sep.canonize
  let f := series re sep
  return (f.prependAnything.removeEpsilons, f.initial)

/-- `TaggedState`, `StateGroup`, pire/extra/count.cpp:262-264. -/
abbrev Group := Finset (Nat × Nat)

/-- `DeterminedState`, pire/extra/count.cpp:266-272. -/
structure St where
  matched : Group
  unmatched : Group
  separated : Group
  lagging : Group
  deriving DecidableEq

/-- `State{}`. -/
def St.none : St := ⟨∅, ∅, ∅, ∅⟩

/-- `InvalidCharRange`, pire/extra/count.cpp:282-289: `MaxCharUnaligned = 260`. -/
def invalidRange (range : List Nat) : Bool := range.all fun c => !(decide (c < 260) && decide (c ≠ 256))

/-- `mInvalidLetters`, pire/extra/count.cpp:302-306. -/
def invalidLetter (f : Fsm) (c : Nat) : Bool := f.letters.set.any fun e => e.rep == c && invalidRange e.members

/-- `MakeTaggedStates`, pire/extra/count.cpp:505-518: what is added to the groups passed as `matched`, `unmatched` and `separated`. -/
def tagged (f : Fsm) (dests : Finset Nat) (src : Nat) : St :=
  let live := dests.filter (· ∉ f.deadStates)
  let first := live.filter fun d => src ≠ 2 ∧ f.tag d = 2
  let rest := live.filter fun d => ¬ (src ≠ 2 ∧ f.tag d = 2)
  { matched := first.image fun d => (d, f.tag d)
    separated := (rest.filter fun d => src = 4 ∨ f.tag d = 4).image fun d => (d, 4)
    unmatched := (rest.filter fun d => ¬ (src = 4 ∨ f.tag d = 4)).image fun d => (d, src)
    lagging := ∅ }

/-- All of the groups in one: the same group has been passed as `matched`, `unmatched` and `separated`. -/
def St.all (s : St) : Group := s.matched ∪ s.unmatched ∪ s.separated

/-- The body of the loop of `SplitDestinations`, pire/extra/count.cpp:355-363, for one state of the source. -/
def splitOne (f : Fsm) (re0 c : Nat) (x : Nat × Nat) : St :=
  let t := tagged f (f.destinations x.1 c) x.2
  if f.isFinal x.1 then { t with separated := t.separated ∪ (tagged f (f.destinations re0 c) 4).all } else t

/-- `SplitDestinations`, pire/extra/count.cpp:355-363: what is added to the three groups. -/
def split (f : Fsm) (re0 c : Nat) (src : Group) : St :=
  { matched := src.biUnion fun x => (splitOne f re0 c x).matched
    unmatched := src.biUnion fun x => (splitOne f re0 c x).unmatched
    separated := src.biUnion fun x => (splitOne f re0 c x).separated
    lagging := ∅ }

/-- `CalculateTransitionTagImpl`, pire/extra/count.cpp:365-386. -/
def transitionTag (d : St) : Nat :=
  if d.matched ≠ ∅ then 1
  else if d.unmatched = ∅ then
    if d.separated ≠ ∅ then if ∃ x ∈ d.separated, x.2 = 2 then 1 else 0
    else 2 ||| if ∃ x ∈ d.lagging, x.2 ≠ 1 then 1 else 0
  else 0

/-- `TagsOfGroup`, pire/extra/count.cpp:388-394. -/
def tagsOf (g : Group) : Nat := g.fold (· ||| ·) 0 Prod.snd

/-- `SplitGroupByTag`, pire/extra/count.cpp:396-407; `tag` is that of the automaton or that of the group. -/
def splitByTag (tag : Nat × Nat → Nat) (src : Group) : St :=
  { matched := src.filter fun x => tag x = 2
    separated := src.filter fun x => tag x ≠ 2 ∧ tag x = 4
    unmatched := src.filter fun x => tag x ≠ 2 ∧ tag x ≠ 4
    lagging := ∅ }

/-- The first half of `UpdateLaggingStates`, pire/extra/count.cpp:410-417. -/
def dropBehind (move : Bool) (s : St) : St :=
  if s.matched ≠ ∅ then
    { s with lagging := if move then s.lagging ∪ s.unmatched ∪ s.separated else s.lagging, unmatched := ∅, separated := ∅ }
  else s

/-- The second half, pire/extra/count.cpp:418-431. -/
def keepMatched (move : Bool) (s : St) : St :=
  if s.unmatched = ∅ ∧ s.separated ≠ ∅ ∧ tagsOf s.separated &&& 2 ≠ 0 ∧ tagsOf s.separated ≠ 2 then
    { s with separated := s.separated.filter fun x => x.2 = 2
             lagging := if move then s.lagging ∪ s.separated.filter fun x => x.2 ≠ 2 else s.lagging }
  else s

/-- `UpdateLaggingStates`, pire/extra/count.cpp:409-432. -/
def updateLagging (move : Bool) (s : St) : St := keepMatched move (dropBehind move s)

/-- `GetRawStates`, pire/extra/count.cpp:529-539, for one group. -/
def rawStates (g : Group) (excluded : Nat) : Finset Nat := (g.filter fun x => x.2 &&& excluded = 0).image Prod.fst

/-- `RemoveDuplicateLaggingStates`, pire/extra/count.cpp:434-447. -/
def dedupLagging (s : St) : St :=
  let remove := rawStates s.matched 0 ∪ rawStates s.unmatched 0 ∪ rawStates s.separated 0
  let removeUnmatched := rawStates s.lagging 1
  { s with lagging := s.lagging.filter fun x => x.1 ∉ remove ∧ (x.2 ≠ 1 ∨ x.1 ∉ removeUnmatched) }

/-- `RemoveDuplicateSeparatedStates`, `RemoveRawStates`, pire/extra/count.cpp:449-455 and 541-551. -/
def dedupSeparated (s : St) : St :=
  let remove := rawStates s.matched 0 ∪ rawStates s.unmatched 0
  { s with separated := s.separated.filter fun x => x.1 ∉ remove }

/-- `NormalizeState`, pire/extra/count.cpp:457-482; the three `if`s. -/
def normalize (s : St) : St :=
  let s := if s.matched ≠ ∅ then { s with unmatched := s.matched, matched := s.unmatched } else s
  let s := if s.unmatched = ∅ ∧ s.separated ≠ ∅ then { s with unmatched := s.separated, separated := s.unmatched } else s
  if s.unmatched = ∅ ∧ s.lagging ≠ ∅ then
    let g := splitByTag Prod.snd s.lagging
    if g.matched ≠ ∅ then { s with unmatched := g.matched, separated := g.separated, lagging := g.unmatched }
    else if g.separated ≠ ∅ then { s with unmatched := g.separated, lagging := g.unmatched }
    else { s with unmatched := g.unmatched, lagging := g.matched }
  else s

/-- The virtual functions of `BasicCountingFsmDetermineTask`, pire/extra/count.cpp:484-503. -/
structure Kind where
  prepare : St → Nat → St
  post : St → St
  tag : St → St → Nat
  initial : St

/-- `Next`, pire/extra/count.cpp:321-333: the next state. -/
def Kind.next (k : Kind) (f : Fsm) (s : St) (c : Nat) : St :=
  if invalidLetter f c then k.initial else normalize (k.post (k.prepare s c))

/-- `Next`, pire/extra/count.cpp:321-333: the value given to `AddAction`. The code records it in `mActionByState` (486-493, nothing is recorded for 0);
`AcceptStates` (333-352) takes it from there, where it is for every state and letter since `Next` has been called for all of them. -/
def Kind.action (k : Kind) (f : Fsm) (s : St) (c : Nat) : Nat :=
  if invalidLetter f c then 1 else k.tag s (k.prepare s c)

/-- `CountingFsmDetermineTask`, pire/extra/count.cpp:562-586. -/
def full (f : Fsm) (re0 : Nat) : Kind where
  prepare := fun s c =>
    let a := split f re0 c s.unmatched
    { a with separated := a.separated ∪ (split f re0 c s.separated).all, lagging := (split f re0 c s.lagging).all }
  post := fun s => dedupSeparated (dedupLagging (updateLagging true s))
  tag := fun _ d => transitionTag d
  initial := ⟨∅, {(f.initial, 1)}, ∅, ∅⟩

/-- `IsEmptyState`, pire/extra/count.cpp:663-665. -/
def St.isEmpty (s : St) : Bool := decide (s.matched = ∅ ∧ s.unmatched = ∅ ∧ s.separated = ∅ ∧ s.lagging = ∅)

/-- `SplitSeparatedByFsmTag`, pire/extra/count.cpp:671-676. (`state.matched` is empty where it is called, `state.unmatched` is asserted to be.) -/
def splitSeparated (f : Fsm) (s : St) : St :=
  let g := splitByTag (fun x => f.tag x.1) s.separated
  { s with matched := s.matched ∪ g.matched, unmatched := s.unmatched ∪ g.unmatched, separated := g.separated }

/-- `ChooseOneDestState`, pire/extra/count.cpp:678-688: the new value of `dest`. -/
def chooseDest (f : Fsm) (re0 : Nat) (dest src : Group) (c : Nat) : Group :=
  let d := split f re0 c src
  if d.matched ≠ ∅ then d.matched else if d.separated ≠ ∅ then d.separated else if d.unmatched ≠ ∅ then d.unmatched else dest

/-- `ChooseOneSeparatedState`, pire/extra/count.cpp:690-702. -/
def chooseSeparated (f : Fsm) (s : St) : St :=
  if s.separated.card ≤ 1 then s
  else
    let s := dedupSeparated s
    let g := splitByTag (fun x => f.tag x.1) s.separated
    if g.separated ≠ ∅ then { s with separated := g.separated }
    else if g.matched ≠ ∅ then { s with separated := g.matched }
    else s

/-- `PrepareNextState`, pire/extra/count.cpp:602-624: the first part. -/
def simpleFirst (f : Fsm) (re0 c : Nat) (src : Group) : St :=
  let next := split f re0 c src
  if next.matched = ∅ ∧ next.separated ≠ ∅ then
    if next.unmatched = ∅ then
      let next := splitSeparated f next
      let next := if next.separated.card > 1 then dedupSeparated next else next
      if next.unmatched = ∅ then { next with unmatched := next.separated, separated := next.unmatched } else next
    else chooseSeparated f next
  else next

/-- `PrepareNextState`, pire/extra/count.cpp:625-641: the second part. -/
def simpleSecond (f : Fsm) (re0 c : Nat) (src : Group) (next : St) : St :=
  if next.matched = ∅ ∧ next.separated = ∅ ∧ src ≠ ∅ then
    chooseSeparated f <|
      if next.unmatched ≠ ∅ then { next with separated := chooseDest f re0 next.separated src c }
      else
        let d := split f re0 c src
        let next := { next with matched := next.matched ∪ d.matched, unmatched := next.unmatched ∪ d.unmatched, separated := next.separated ∪ d.separated }
        if next.matched = ∅ ∧ next.separated ≠ ∅ then splitSeparated f next else next
  else next

/-- `SimpleCountingFsmDetermineTask`, pire/extra/count.cpp:588-706. -/
def simple (f : Fsm) (re0 : Nat) : Kind where
  prepare := fun s c =>
    let src := if s.isEmpty then s.unmatched ∪ {(re0, 1)} else s.unmatched
    let next := simpleSecond f re0 c s.separated (simpleFirst f re0 c src)
    if !s.isEmpty && next.isEmpty then { next with lagging := chooseDest f re0 next.lagging {(re0, 1)} c } else next
  post := fun s =>
    let s := if s.lagging ≠ ∅ then { s with unmatched := s.lagging, lagging := s.unmatched } else s
    dedupSeparated (updateLagging false s)
  tag := fun s d => if (tagsOf s.unmatched ||| tagsOf s.separated) &&& 6 = 0 then transitionTag d &&& 1 else transitionTag d
  initial := St.none

/-- The task given to `Determine`. -/
def Kind.task (k : Kind) (f : Fsm) : DTask St where
  letters := f.letters
  initial := k.initial
  next := k.next f
  required := fun _ => true

/-- `mDetermined`, `mActions`, `mSimple`, pire/extra/count.cpp:107-111. -/
structure Table where
  fsm : Fsm
  actions : Nat → Nat → Nat
  simple : Bool

/-- `AcceptStates` and `Connect`, pire/extra/count.cpp:335-352 and 120-122. -/
def Kind.accept (k : Kind) (f : Fsm) (smp : Bool) (states : List St) (conns : List (Nat × Nat × Nat)) : Table :=
  let g := { Fsm.init.resize states.length with initial := 0, determined := true }
  let fin := (List.range states.length).foldl (fun g ns => g.setFinal ns (decide (∃ x ∈ (states.getD ns St.none).unmatched, f.isFinal x.1 = true))) g
  { fsm := fin.connectAll conns, actions := fun ns c => k.action f (states.getD ns St.none) c, simple := smp }

/-- `CountingFsm::Determine`, pire/extra/count.cpp:708-724. -/
def determine (f : Fsm) (re0 : Nat) : Option Table :=
  match ((full f re0).task f).run (f.size * 4096) with
  | some r => some ((full f re0).accept f false r.1 r.2)
  | none => (((simple f re0).task f).run (2 ^ 64 - 1)).map fun r => (simple f re0).accept f true r.1 r.2

/-! ### `Minimize`, pire/extra/count.cpp:726-730 -/

/-- `StateLessForMinimize`, pire/extra/count.cpp:153-169: neither of the states is less than the other. -/
def sameRow (letters : Partition) (t : Table) (p q : Nat) : Bool := letters.set.all fun e => t.actions p e.rep == t.actions q e.rep

/-- The keys of `stateClassMap` in the order in which they are given numbers, pire/extra/count.cpp:180-187. -/
def firstStates (letters : Partition) (t : Table) : List Nat :=
  (List.range t.fsm.size).foldl (fun l q => if l.any (sameRow letters t · q) then l else l ++ [q]) []

/-- `StateClass` of the constructor of `CountingFsmMinimizeTask`. -/
def rowClass (letters : Partition) (t : Table) (q : Nat) : Nat := (firstStates letters t).findIdx (sameRow letters t · q)

/-- `reversedTransitions`, pire/extra/count.cpp:189-199; see `Fsm.minPrev`. -/
def rowPrev (letters : Partition) (t : Table) (p l : Nat) : List Nat :=
  (List.range t.fsm.size).filter fun q => letters.set.any fun e => e.idx == l && t.fsm.firstDst q e.rep == p

def rowTask (letters : Partition) (t : Table) : MTask := { size := t.fsm.size, letters := letters.size, prev := rowPrev letters t }

/-- `AcceptStates`, pire/extra/count.cpp:222-247. -/
def mergeRows (letters : Partition) (t : Table) (cls : Nat → Nat) (classes : Nat) : Table :=
  let g := (Fsm.init.resize classes).setFinal 0 false
  let g := g.connectAll ((List.range t.fsm.size).flatMap fun q => letters.set.map fun e => (cls q, cls (t.fsm.firstDst q e.rep), e.rep))
  let g := (List.range t.fsm.size).foldl (fun g q => if t.fsm.isFinal q then g.setFinal (cls q) true else g) g
  let acts := (List.range t.fsm.size).foldl (fun a q => letters.set.foldl (fun a e =>
    if t.actions q e.rep ≠ 0 then Function.update a (cls q) (Function.update (a (cls q)) e.rep (t.actions q e.rep)) else a) a) fun _ _ => 0
  { fsm := { g with initial := cls t.fsm.initial, determined := true }, actions := acts, simple := t.simple }

/-- `CountingFsm::Minimize`, pire/extra/count.cpp:726-730. -/
def minimize (letters : Partition) (t : Table) : Table :=
  let r := (rowTask letters t).run (rowClass letters t) (firstStates letters t).length
  mergeRows letters t r.cls r.classes

/-- `MakeAdvancedCountingScanner` up to the filling of the scanner, pire/extra/count.cpp:837-846: the table and the letters. -/
def table (re sep : Fsm) : Option (Table × Partition) := do
  let (f, re0) ← countingFsm re sep
  let t ← determine f re0
  return (minimize f.letters t, f.letters)

/-- `AdvancedCountingScanner(re, sep, simple)`, pire/extra/count.cpp:836-868: the scanner, with its memory at `base`, and `*simple`. `none` = `Error`. -/
def ctor (base : Nat) (re sep : Fsm) : Option (Loaded × Bool) := (table re sep).map fun x =>
  (fillTable remapAdvanced base x.1.fsm.size x.1.fsm.initial x.2 (fun q c => x.1.fsm.firstDst q c) x.1.actions, x.1.simple)

/-- `NoGlueLimitCountingScanner(re, sep, simple)`, pire/extra/count.cpp:836-862, 870-873; `RemapAction` is the identity (count.h:449-452). -/
def ctorNoLimit (base : Nat) (re sep : Fsm) : Option (NoLimit × Bool) := (table re sep).map fun x =>
  (⟨fillTable id base x.1.fsm.size x.1.fsm.initial x.2 (fun q c => x.1.fsm.firstDst q c) x.1.actions, none, false⟩, x.1.simple)

end Adv
end Count
end Pire
