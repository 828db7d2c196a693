import Verif.Model.Fsm

/-!
# `Sparse`, `Unsparse`, `RemoveEpsilons` — pire/fsm.cpp:713-857
-/

namespace Pire
namespace Fsm

/-- Loop body of `Unsparse` for one class and one row, pire/fsm.cpp:853-855: `i[j] = i[rep]` for every member `j`
(`operator[]` creates an empty entry when the key is absent). -/
def unsparseClass (row : Nat → Option (Finset Nat)) (e : PClass) : Nat → Option (Finset Nat) :=
  e.members.foldl (fun r j =>
    let v := (r e.rep).getD ∅
    Function.update (Function.update r e.rep (some v)) j (some v)) row

/-- `Unsparse`, pire/fsm.cpp:850-857. Loops over classes and rows are independent, so the row loop is outside. -/
def unsparse (f : Fsm) : Fsm :=
  { f with
    tr := fun q => if q < f.size then f.letters.set.foldl unsparseClass (f.tr q) else f.tr q
    sparsed := false }

/-- `LettersEquality`, pire/fsm.cpp:825-837: the two letters have the same entry (or both none) in every row. -/
def lettersEq (f : Fsm) (a b : Nat) : Bool := (List.range f.size).all fun q => decide (f.tr q a = f.tr q b)

/-- The letters `Sparse` classifies, in loop order, pire/fsm.cpp:842-843. -/
@[irreducible] def allLetters (needEpsilons : Bool) : List Nat :=
  (List.range MaxChar).filter fun l => l ≠ Epsilon || needEpsilons

/-- `Sparse(needEpsilons)`, pire/fsm.cpp:839-848. -/
def sparse (f : Fsm) (needEpsilons : Bool := false) : Fsm :=
  { f with
    letters := (allLetters needEpsilons).foldl (fun p l => p.append f.lettersEq l) Partition.empty
    sparsed := true }

/-- `outputs[from][to] |= v`. -/
def orOutput (outs : Nat → Option (Nat → Option Nat)) (q p v : Nat) : Nat → Option (Nat → Option Nat) :=
  Function.update outs q (some (Function.update ((outs q).getD fun _ => none) p
    (some ((((outs q).bind (· p)).getD 0) ||| v))))

/-- `Output(from, to)`, pire/fsm.cpp:458-468. -/
def output (f : Fsm) (q p : Nat) : Nat := ((f.outputs q).bind (· p)).getD 0

/-- `MergeEpsilonConnection(from, to)`, pire/fsm.cpp:715-762. Only called with `from ≠ to`. The loops over the row of
`to` touch independent fields (transitions of `from`; outputs), so they are written separately. -/
def mergeEps (f : Fsm) (q p : Nat) : Fsm :=
  let fr : Option Nat := (f.outputs q).bind (· p)
  let outs := match fr with
    | none => f.outputs
    | some v => (rowEdges (f.tr p)).foldl (fun o (e : Nat × Nat) => orOutput o q e.2 v) f.outputs
  let outs' := match outs p with
    | none => outs
    | some m => fun x => if x = q then
        some fun y => match m y with
          | none => (outs q).bind (· y)
          | some u => some ((((outs q).bind (· y)).getD 0) ||| (fr.getD 0 ||| u))
        else outs x
  { f with
    tr := fun x c => if x = q then
        match f.tr p c with
        | none => f.tr q c
        | some S => some (f.dst q c ∪ S)
      else f.tr x c
    finals := if p ∈ f.finals then insert q f.finals else f.finals
    tags := match f.tags p with
      | none => f.tags
      | some t => Function.update f.tags q (some ((f.tags q).getD 0 ||| t))
    outputs := outs' }

/-- The automaton and the inverse epsilon map `inveps` of `RemoveEpsilons`. -/
structure REState where
  fsm : Fsm
  inveps : Nat → Finset Nat

/-- `inveps[x].insert(q)` for every `x` in a list. -/
def invInsert (inv : Nat → Finset Nat) (q : Nat) (l : List Nat) : Nat → Finset Nat :=
  l.foldl (fun inv x => Function.update inv x (insert q (inv x))) inv

/-- `ShortCutEpsilon(from, thru, inveps)`, pire/fsm.cpp:768-781. Only called with `from ≠ thru`, so the set being
iterated (targets of `thru`) is not modified by the loop; the three effects of the loop body are independent. -/
def shortCut (st : REState) (q thru : Nat) : REState :=
  let tos := elems (st.fsm.destinations thru Epsilon)
  let v := st.fsm.output q thru
  let outs := match st.fsm.outputs q with
    | none => st.fsm.outputs
    | some _ => tos.foldl (fun o x => orOutput o q x (v ||| st.fsm.output thru x)) st.fsm.outputs
  { fsm := { st.fsm.connectAll (tos.map fun x => (q, x, Epsilon)) with outputs := outs }
    inveps := invInsert st.inveps q tos }

/-- The inverse map, pire/fsm.cpp:790-795. -/
def buildInveps (f : Fsm) : Nat → Finset Nat :=
  (List.range f.size).foldl (fun inv q => invInsert inv q (elems (f.destinations q Epsilon))) fun _ => ∅

/-- One iteration of the outer closure loop, pire/fsm.cpp:800-803. `inveps[thru]` can only receive the element the
inner loop is looking at, so it does not change under iteration (`shortCut_inveps_self` in Proofs/Epsilon). -/
def closeThru (st : REState) (thru : Nat) : REState :=
  (elems (st.inveps thru)).foldl (fun st q => if q ≠ thru then shortCut st q thru else st) st

/-- One iteration of the outer merge loop, pire/fsm.cpp:808-813. The set of epsilon targets of `from` being iterated
is already transitively closed, so merging does not change it (`mergeFrom_eps` in Proofs/Epsilon). -/
def mergeFrom (f : Fsm) (q : Nat) : Fsm :=
  (elems (f.destinations q Epsilon)).foldl (fun g p => if p ≠ q then g.mergeEps q p else g) f

/-- Dropping the epsilon entries, pire/fsm.cpp:818-819. -/
def dropEps (f : Fsm) : Fsm := { f with tr := fun q c => if c = Epsilon then none else f.tr q c }

/-- `RemoveEpsilons`, pire/fsm.cpp:785-823. -/
def removeEpsilons (f : Fsm) : Fsm :=
  let f := f.unsparse
  let st := (List.range f.size).foldl closeThru { fsm := f, inveps := f.buildInveps }
  let f := (List.range f.size).foldl mergeFrom st.fsm
  f.dropEps.sparse.clearHints

end Fsm
end Pire
