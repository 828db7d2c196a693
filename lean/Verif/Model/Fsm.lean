import Verif.Model.Partition

/-!
# `Pire::Fsm` — pire/fsm.h, pire/fsm.cpp

The transition table `TVector<TMap<size_t, TSet<size_t>>>` is a function `tr q c : Option (Finset Nat)`
(`none` = the row has no such key).  Row indices `≥ size` have no meaning in the code; the model keeps them empty
and the invariant `Fsm.WF` (Proofs) shows they are never touched.  `unsigned long` payloads (tags, outputs) are
natural numbers; only `|` is applied to them.
-/

namespace Pire

/-- `class Fsm`, pire/fsm.h:208-235. -/
structure Fsm where
  /-- `m_transitions.size()` -/
  size : Nat
  /-- `m_transitions[q].find(c)` -/
  tr : Nat → Nat → Option (Finset Nat)
  initial : Nat
  /-- `m_final` -/
  finals : Finset Nat
  letters : Partition
  /-- `m_sparsed` -/
  sparsed : Bool
  determined : Bool
  outputs : Nat → Option (Nat → Option Nat)
  tags : Nat → Option Nat
  isAlt : Bool

namespace Fsm

/-- The default constructor, pire/fsm.cpp:192-201. -/
def init : Fsm where
  size := 1
  tr := fun _ _ => none
  initial := 0
  finals := {0}
  letters := Partition.empty
  sparsed := false
  determined := false
  outputs := fun _ => none
  tags := fun _ => none
  isAlt := false

/-- `IsFinal`, pire/fsm.h:153. -/
def isFinal (f : Fsm) (q : Nat) : Bool := q ∈ f.finals

/-- `SetFinal`, pire/fsm.cpp:265-271. -/
def setFinal (f : Fsm) (q : Nat) (b : Bool) : Fsm :=
  { f with finals := if b then insert q f.finals else f.finals.erase q }

/-- `ClearFinal`, pire/fsm.h:155. -/
def clearFinal (f : Fsm) : Fsm := { f with finals := ∅ }

/-- `ClearHints`, pire/fsm.h:244. -/
def clearHints (f : Fsm) : Fsm := { f with isAlt := false }

/-- `SetInitial`, pire/fsm.h:184. -/
def setInitial (f : Fsm) (q : Nat) : Fsm := { f with initial := q }

/-- `MakeFalse`, pire/fsm.cpp:203-208. -/
def makeFalse : Fsm := init.setFinal 0 false

/-- `Translate`, pire/fsm.cpp:210-216. -/
def translate (f : Fsm) (c : Nat) : Nat :=
  if !f.sparsed || c == Epsilon then c else f.letters.representative c

/-- The target set stored under raw key `c` (empty when the key is absent). -/
def dst (f : Fsm) (q c : Nat) : Finset Nat := (f.tr q c).getD ∅

/-- `Destinations`, pire/fsm.cpp:232-236. -/
def destinations (f : Fsm) (q c : Nat) : Finset Nat := f.dst q (f.translate c)

/-- `Connected(from, to, c)`, pire/fsm.cpp:218-222. -/
def connected (f : Fsm) (q p c : Nat) : Bool := p ∈ f.destinations q c

/-- The keys of a row in map order. Keys are letters below `MaxChar` or `Epsilon` (invariant `Fsm.WF`), all of them
below 264. -/
def rowKeys (row : Nat → Option (Finset Nat)) : List Nat :=
  (List.range MaxChar).filter fun c => (row c).isSome

/-- All `(letter, target)` pairs of a row in iteration order. -/
def rowEdges (row : Nat → Option (Finset Nat)) : List (Nat × Nat) :=
  (rowKeys row).flatMap fun c => (elems ((row c).getD ∅)).map fun p => (c, p)

/-- `OutgoingLetters`, pire/fsm.cpp:238-244. -/
def outgoingLetters (f : Fsm) (q : Nat) : List Nat := rowKeys (f.tr q)

/-- `Resize`, pire/fsm.cpp:246-251 (`std::vector::resize`: new rows are empty, surplus rows are dropped). -/
def resize (f : Fsm) (n : Nat) : Fsm :=
  { f with size := n, tr := fun q c => if q < f.size ∧ q < n then f.tr q c else none }

/-- `Swap`, pire/fsm.cpp:253-263, seen from the left operand: everything is taken from the other automaton
except `m_sparsed`, which the code does not swap. -/
def swapFrom (this other : Fsm) : Fsm := { other with sparsed := this.sparsed }

/-- `Connect`, pire/fsm.cpp:430-434. -/
def connect (f : Fsm) (q p c : Nat) : Fsm :=
  { f with
    tr := fun q' c' => if q' = q ∧ c' = c then some (insert p (f.dst q c)) else f.tr q' c'
    isAlt := false }

/-- A loop whose body is `Connect(from, to, c)`. -/
def connectAll (f : Fsm) (l : List (Nat × Nat × Nat)) : Fsm :=
  l.foldl (fun g t => g.connect t.1 t.2.1 t.2.2) f

/-- `ConnectFinal`, pire/fsm.cpp:436-441. -/
def connectFinal (f : Fsm) (p c : Nat) : Fsm :=
  (f.connectAll ((elems f.finals).map fun q => (q, p, c))).clearHints

/-- `Disconnect(from, to, c)`, pire/fsm.cpp:443-449 (the key stays, even with an empty set). -/
def disconnect (f : Fsm) (q p c : Nat) : Fsm :=
  { f with
    tr := fun q' c' => if q' = q ∧ c' = c then (f.tr q c).map (·.erase p) else f.tr q' c'
    isAlt := false }

/-- `Disconnect(from, to)`, pire/fsm.cpp:451-456. -/
def disconnectAny (f : Fsm) (q p : Nat) : Fsm :=
  { f with
    tr := fun q' c' => if q' = q then (f.tr q c').map (·.erase p) else f.tr q' c'
    isAlt := false }

/-- `Append(char)` and `AppendSpecial(Char)`, pire/fsm.cpp:284-292 and 301-309 (identical bodies; the byte is
converted to `unsigned char`, i.e. a number below 256, in the first one). -/
def appendChar (f : Fsm) (c : Nat) : Fsm :=
  let f := f.resize (f.size + 1)
  let f := f.connectFinal (f.size - 1) c
  let f := f.clearFinal
  let f := f.setFinal (f.size - 1) true
  { f with determined := false }

/-- `Append(const ystring&)`, pire/fsm.cpp:294-299. -/
def appendStr (f : Fsm) (s : List Nat) : Fsm := s.foldl appendChar f

/-- The body of `AppendDot`, pire/fsm.cpp:273-282, for an arbitrary list of letters to loop over. -/
def appendLetters (f : Fsm) (l : List Nat) : Fsm :=
  let f := f.resize (f.size + 1)
  let f := l.foldl (fun g c => g.connectFinal (g.size - 1) c) f
  let f := f.clearFinal
  let f := f.setFinal (f.size - 1) true
  { f with determined := false }

/-- `AppendDot`, pire/fsm.cpp:273-282: the loop runs over the letters `0 .. 255`. -/
def appendDot (f : Fsm) : Fsm := f.appendLetters (List.range 256)

/-- Local variables of `AppendStrings`, pire/fsm.cpp:327-336: the automaton under construction and the two local
transition tables (value 0 = not created yet, as in the code). -/
structure ASt where
  fsm : Fsm
  start : Nat → Nat
  ltr : Nat → Nat → Nat

/-- One iteration of the middle loop of `AppendStrings`, pire/fsm.cpp:351-359. `usedTransitions` is never filled
by the code, so `determined && find(...) != end()` is `false`. -/
def asMid (s : ASt × Nat) (c : Nat) : ASt × Nat :=
  let (st, state) := s
  if st.ltr state c = 0 then
    let new := st.fsm.size
    let f := st.fsm.resize (st.fsm.size + 1)
    let f := f.connect state new c
    ({ st with fsm := { f with determined := false },
               ltr := fun q d => if q = state ∧ d = c then new else st.ltr q d }, new)
  else (st, st.ltr state c)

/-- The body of the main loop of `AppendStrings`, pire/fsm.cpp:338-371. `usedFirsts` and `usedTransitions` are
never filled by the code, so the flag `determined` becomes false. The empty string was excluded before. -/
def asStep (fin : Nat) (st : ASt) : List Nat → ASt
  | [] => st
  | [c] => { st with fsm := { st.fsm.connectFinal fin c with determined := false } }
  | c :: cs =>
    let st1 : ASt :=
      if st.start c = 0 then
        let new := st.fsm.size
        let f := st.fsm.resize (st.fsm.size + 1)
        let f := f.connectFinal new c
        { st with fsm := { f with determined := false },
                  start := fun d => if d = c then new else st.start d }
      else st
    let (st2, state) := cs.dropLast.foldl asMid (st1, st1.start c)
    { st2 with fsm := { st2.fsm.connect state fin (cs.getLastD 0) with determined := false } }

/-- `AppendStrings`, pire/fsm.cpp:311-376; `none` = throws `Error`. -/
def appendStrings (f : Fsm) (strings : List (List Nat)) : Option Fsm :=
  if strings.any List.isEmpty then none
  else
    let f := f.resize (f.size + 1)
    let fin := f.size - 1
    let st := strings.foldl (asStep fin) { fsm := f, start := fun _ => 0, ltr := fun _ _ => 0 }
    some (st.fsm.clearFinal.setFinal fin true)

/-- Unpacking of one letter class in a row, pire/fsm.cpp:387-394 and 406-413: every member that has no entry gets
a copy of the representative's entry. -/
def unpackClass (row : Nat → Option (Finset Nat)) (e : PClass) : Nat → Option (Finset Nat) :=
  match row e.rep with
  | none => row
  | some S => e.members.foldl (fun r c => if c ≠ e.rep ∧ r c = none then Function.update r c (some S) else r) row

/-- Unpacking of all letter classes in a row. -/
def unpackRow (l : Partition) (row : Nat → Option (Finset Nat)) : Nat → Option (Finset Nat) :=
  l.set.foldl unpackClass row

/-- Shift of a target set by the number of states of the left operand, pire/fsm.cpp:400-402. -/
def shift (n : Nat) (s : Finset Nat) : Finset Nat := s.image (· + n)

/-- `Import`, pire/fsm.cpp:378-428. (`m_sparsed` is not reset by the code.) -/
def import_ (f rhs : Fsm) : Fsm :=
  let old := f.size
  { f with
    size := f.size + rhs.size
    tr := fun q =>
      if q < old then unpackRow f.letters (f.tr q)
      else if q < old + rhs.size then unpackRow rhs.letters (fun c => (rhs.tr (q - old) c).map (shift old))
      else fun _ => none
    outputs := fun p =>
      if old ≤ p then
        match rhs.outputs (p - old) with
        | none => f.outputs p
        | some m => some fun q =>
            match (f.outputs p).bind (· q) with
            | some v => some v
            | none => if old ≤ q then m (q - old) else none
      else f.outputs p
    tags := fun p =>
      match f.tags p with
      | some v => some v
      | none => if old ≤ p then rhs.tags (p - old) else none
    letters := Partition.empty }

/-- `operator +=`, pire/fsm.cpp:470-497. The row of the imported initial state is not one of the rows being
modified, because final states of the left operand are below `lhsSize` (`Fsm.WF`). -/
def concat (f rhs : Fsm) : Fsm :=
  let n := f.size
  let g := f.import_ rhs
  let g := (rowEdges (g.tr (n + rhs.initial))).foldl (fun h e => h.connectFinal e.2 e.1) g
  let g := { g with
    outputs := match rhs.outputs rhs.initial with
      | none => g.outputs
      | some m => fun p =>
          if p ∈ g.finals ∧ ∃ q < rhs.size, (m q).isSome then
            some fun q =>
              match (g.outputs p).bind (· q) with
              | some v => some v
              | none => if n ≤ q then m (q - n) else none
          else g.outputs p }
  let g := g.clearFinal
  let g := (elems rhs.finals).foldl (fun h q => h.setFinal (q + n) true) g
  { g with determined := false }.clearHints

/-- `operator |=`, pire/fsm.cpp:499-528. -/
def union (f rhs : Fsm) : Fsm :=
  let n := f.size
  let g := f.import_ rhs
  let g := { g with finals := (elems rhs.finals).foldl (fun s q => insert (q + n) s) g.finals }
  let g :=
    if !f.isAlt && !rhs.isAlt then
      let g := g.resize (g.size + 1)
      let g := g.connect (g.size - 1) g.initial Epsilon
      let g := g.connect (g.size - 1) (n + rhs.initial) Epsilon
      { g with initial := g.size - 1 }
    else if f.isAlt && !rhs.isAlt then
      g.connect g.initial (n + rhs.initial) Epsilon
    else if !f.isAlt && rhs.isAlt then
      let g := g.connect (n + rhs.initial) g.initial Epsilon
      { g with initial := rhs.initial + n }
    else
      (elems (rhs.destinations rhs.initial Epsilon)).foldl
        (fun h p => (h.connect h.initial (p + n) Epsilon).disconnect (rhs.initial + n) (p + n) Epsilon) g
  { g with determined := false, isAlt := true }

/-- `Iterate`, pire/fsm.cpp:540-558. -/
def iterate (f : Fsm) : Fsm :=
  let f := f.resize (f.size + 2)
  let f := f.connect (f.size - 2) (f.size - 1) Epsilon
  let f := f.connect (f.size - 2) f.initial Epsilon
  let f := f.connectFinal f.initial Epsilon
  let f := f.connectFinal (f.size - 1) Epsilon
  let f := f.clearFinal
  let f := f.setFinal (f.size - 1) true
  let f := { f with initial := f.size - 2 }
  { f with determined := false }

/-- `operator *(size_t)`, pire/fsm.cpp:576-582. -/
def power (f : Fsm) : Nat → Fsm
  | 0 => init
  | n + 1 => (power f n).concat f

/-- `PrependAnything`, pire/fsm.cpp:1171-1182. -/
def prependAnything (f : Fsm) : Fsm :=
  let new := f.size
  let f := f.resize (f.size + 1)
  let f := f.connectAll ((List.range MaxChar).map fun c => (new, new, c))
  let f := f.connect new f.initial Epsilon
  { f with initial := new, determined := false }

/-- `AppendAnything`, pire/fsm.cpp:1184-1196. -/
def appendAnything (f : Fsm) : Fsm :=
  let new := f.size
  let f := f.resize (f.size + 1)
  let f := f.connectAll ((List.range MaxChar).map fun c => (new, new, c))
  let f := f.connectFinal new Epsilon
  let f := f.clearFinal
  let f := f.setFinal new true
  { f with determined := false }

/-- `Surround`, pire/fsm.cpp:1198-1203. -/
def surround (f : Fsm) : Fsm := f.prependAnything.appendAnything

/-- `MakeSuffix`, pire/fsm.cpp:593-599. -/
def makeSuffix (f : Fsm) : Fsm :=
  (f.connectAll (((List.range f.size).filter (· ≠ f.initial)).map fun i => (f.initial, i, Epsilon))).clearHints

/-- `Reverse`, pire/fsm.cpp:601-631. -/
def reverse (f : Fsm) : Fsm :=
  let out := init.resize (f.size + 1)
  let out := { out with letters := f.letters }
  let out := out.connectAll
    ((List.range f.size).flatMap fun q => (rowEdges (f.tr q)).map fun e => (e.2, q, e.1))
  let out := { out with finals := ∅ }
  let out := out.setFinal f.initial true
  let out := out.connectAll ((elems f.finals).map fun q => (f.size, q, Epsilon))
  let out := out.setInitial f.size
  let out := { out with
    outputs := fun q =>
      if ∃ p < f.size, (f.outputs p).bind (· q) ≠ none then
        some fun p => (f.outputs p).bind (· q)
      else none
    tags := f.tags }
  swapFrom f out

/-- `Divert`, pire/fsm.cpp:1205-1231, the transition part and the output part. -/
def divert (f : Fsm) (q p d : Nat) : Fsm :=
  if p = d then f
  else
    { f with
      outputs := fun q' =>
        if q' = q then
          (f.outputs q).map fun m =>
            match m p with
            | none => m
            | some v => fun x => if x = p then none else if x = d then (match m d with | some u => some u | none => some v) else m x
        else f.outputs q'
      tr := fun q' c =>
        if q' = q then (f.tr q c).map fun s => if p ∈ s then insert d (s.erase p) else s
        else f.tr q' c
      isAlt := false }

end Fsm
end Pire
