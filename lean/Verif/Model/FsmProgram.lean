import Verif.Model.Minimize
import Verif.Spec.FsmProgram

/-!
# `Fsm` objects in memory: operations whose operands may be one object — pire/fsm.h:66-83, pire/fsm.cpp:378-582

The models of `+=`, `|=` and `&=` (`Fsm.concat`, `Fsm.union`, `Fsm.inter`) are functions of two values. Here the operands are places in
a store, read where the code reads them, so that one place may be both. `Import` is a loop over the rows of the right operand with
an iterator into the table of the left one; an iterator that leaves the table is undefined behaviour (`outside`).
-/

namespace Pire
namespace FsmMem

open Spec

/-- Objects of type `Fsm`: the variables of the program, and the temporary of the expression being evaluated. -/
inductive Place
  | var (x : Nat)
  | temp
  deriving DecidableEq

abbrev Store := Place → Fsm

/-- How a statement ends. -/
inductive Ran (α : Type)
  | done (a : α)
  /-- `Error` is thrown -/
  | throws
  /-- undefined behaviour: an iterator beyond the end of its table -/
  | outside

namespace Ran

/-- Statements in sequence. -/
def bind {α β : Type} : Ran α → (α → Ran β) → Ran β
  | done a, k => k a
  | throws, _ => throws
  | outside, _ => outside

/-- Calls that may throw. -/
def ofOption {α : Type} : Option α → Ran α
  | some a => done a
  | none => throws

end Ran

/-- Writing to an object. -/
def put (s : Store) (x : Place) (f : Fsm) : Store := Function.update s x f

/-- `dest->insert(...)` for all entries of a row, pire/fsm.cpp:399-404: entries that are there already stay. -/
def insertRow (dest row : Nat → Option (Finset Nat)) (n : Nat) : Nat → Option (Finset Nat) := fun c =>
  match dest c with
  | some v => some v
  | none => (row c).map (Fsm.shift n)

/-- The second loop of `Import`, pire/fsm.cpp:397-414: `outer` runs over the rows of `y` from `i`, `k` more of them; `dest` is at row
`i + n` of `x`. The rows of `y` are read from the store as it is at that moment. -/
def importRows (x y : Place) (n : Nat) : (k i : Nat) → Store → Ran Store
  | 0, _, s => .done s
  | k + 1, i, s =>
    if (s x).size ≤ i + n then .outside
    else
      let row := insertRow ((s x).tr (i + n)) ((s y).tr i) n
      let s := put s x { s x with tr := Function.update (s x).tr (i + n) row }
      let s := put s x { s x with tr := Function.update (s x).tr (i + n) (Fsm.unpackRow (s y).letters ((s x).tr (i + n))) }
      importRows x y n k (i + 1) s

/-- The loop over the outputs, pire/fsm.cpp:416-421. -/
def importOutputs (n : Nat) (this rhs : Nat → Option (Nat → Option Nat)) : Nat → Option (Nat → Option Nat) := fun p =>
  if n ≤ p then
    match rhs (p - n) with
    | none => this p
    | some m => some fun q =>
        match (this p).bind (· q) with
        | some v => some v
        | none => if n ≤ q then m (q - n) else none
  else this p

/-- The loop over the tags, pire/fsm.cpp:423-425. -/
def importTags (n : Nat) (this rhs : Nat → Option Nat) : Nat → Option Nat := fun p =>
  match this p with
  | some v => some v
  | none => if n ≤ p then rhs (p - n) else none

/-- The loop over the outputs of the right operand's initial state, pire/fsm.cpp:480-485. -/
def addOutputs (n : Nat) (this : Fsm) (rhs : Fsm) : Nat → Option (Nat → Option Nat) :=
  match rhs.outputs rhs.initial with
  | none => this.outputs
  | some m => fun p =>
      if p ∈ this.finals ∧ ∃ q < rhs.size, (m q).isSome then
        some fun q =>
          match (this.outputs p).bind (· q) with
          | some v => some v
          | none => if n ≤ q then m (q - n) else none
      else this.outputs p

/-- `Import`, pire/fsm.cpp:378-428: `Resize`, the loop that unpacks the letters of all rows, the loop `importRows`, then outputs, tags and
letters. Outputs and tags of `y` are read as they are when their loops begin (with `x = y` these loops are not reached). -/
def import_ (x y : Place) (s : Store) : Ran Store :=
  let n := (s x).size
  let s := put s x ((s x).resize ((s x).size + (s y).size))
  let s := put s x { s x with tr := fun q => Fsm.unpackRow (s x).letters ((s x).tr q) }
  (importRows x y n (s y).size 0 s).bind fun s =>
  let s := put s x { s x with outputs := importOutputs n (s x).outputs (s y).outputs }
  let s := put s x { s x with tags := importTags n (s x).tags (s y).tags }
  .done (put s x { s x with letters := Partition.empty })

/-- `operator +=`, pire/fsm.cpp:470-497. -/
def add (x y : Place) (s : Store) : Ran Store :=
  let n := (s x).size
  (import_ x y s).bind fun s =>
  let g := s x
  let g := (Fsm.rowEdges (g.tr (n + (s y).initial))).foldl (fun h e => h.connectFinal e.2 e.1) g
  let s := put s x g
  let s := put s x { s x with outputs := addOutputs n (s x) (s y) }
  let s := put s x (s x).clearFinal
  let s := put s x ((elems (s y).finals).foldl (fun h q => h.setFinal (q + n) true) (s x))
  .done (put s x { s x with determined := false }.clearHints)

/-- `operator |=`, pire/fsm.cpp:499-528. -/
def or (x y : Place) (s : Store) : Ran Store :=
  let n := (s x).size
  (import_ x y s).bind fun s =>
  let s := put s x { s x with finals := (elems (s y).finals).foldl (fun s q => insert (q + n) s) (s x).finals }
  let g := s x
  let rhs := s y
  let g :=
    if !g.isAlt && !rhs.isAlt then
      let g := g.resize (g.size + 1)
      let g := g.connect (g.size - 1) g.initial Epsilon
      let g := g.connect (g.size - 1) (n + rhs.initial) Epsilon
      { g with initial := g.size - 1 }
    else if g.isAlt && !rhs.isAlt then
      g.connect g.initial (n + rhs.initial) Epsilon
    else if !g.isAlt && rhs.isAlt then
      let g := g.connect (n + rhs.initial) g.initial Epsilon
      { g with initial := rhs.initial + n }
    else
      (elems (rhs.destinations rhs.initial Epsilon)).foldl
        (fun h p => (h.connect h.initial (p + n) Epsilon).disconnect (rhs.initial + n) (p + n) Epsilon) g
  .done (put s x { g with determined := false, isAlt := true })

/-- `operator &=`, pire/fsm.cpp:530-538: `rhs2` (here the value `r`, an object of its own) is copied before `*this` is changed. -/
def and (x y : Place) (s : Store) : Ran Store :=
  let r := s y
  (Ran.ofOption (s x).complement).bind fun g =>
  let s := put s x g
  (Ran.ofOption r.complement).bind fun r =>
  let s := put s x ((s x).union r)
  (Ran.ofOption (s x).complement).bind fun g =>
  .done (put s x g)

/-- One of `+=`, `|=`, `&=`. -/
def modify2 : BinOp → Place → Place → Store → Ran Store
  | .cat => add
  | .alt => or
  | .both => and

/-- The loop of `operator * (size_t)`, pire/fsm.cpp:576-582: `ret` is the temporary. -/
def timesLoop (x : Place) : Nat → Store → Ran Store
  | 0, s => .done s
  | n + 1, s => (add .temp x s).bind (timesLoop x n)

/-- `x *= n`, pire/fsm.h:76, with `operator *`, pire/fsm.cpp:576-582. -/
def times (x : Nat) (n : Nat) (s : Store) : Ran Store :=
  (timesLoop (.var x) n (put s .temp Fsm.init)).bind fun s => .done (put s (.var x) (s .temp))

/-- Member functions on an object, pire/fsm.cpp:540-574, 599-632, 1156-1203. -/
def modify1 (o : UnOp) (x : Nat) (s : Store) : Ran Store :=
  let v := Place.var x
  match o with
  | .iterate => .done (put s v (s v).iterate)
  | .complement => (Ran.ofOption (s v).complement).bind fun g => .done (put s v g)
  | .prependAnything => .done (put s v (s v).prependAnything)
  | .appendAnything => .done (put s v (s v).appendAnything)
  | .surround => .done (put s v (s v).surround)
  | .reverse => .done (put s v (s v).reverse)
  | .canonize m => (Ran.ofOption ((s v).canonize m)).bind fun g => .done (put s v g)
  | .times n => times x n s

/-- The same on a temporary copy, as `operator *`, `operator ~` and `Surrounded` do, pire/fsm.h:69, 81-83: the temporary is a copy of `y`,
the result is assigned to `x`. -/
def value1 (o : UnOp) (x y : Nat) (s : Store) : Ran Store :=
  match o with
  | .times n => (timesLoop (.var y) n (put s .temp Fsm.init)).bind fun s => .done (put s (.var x) (s .temp))
  | .iterate => .done (put s (.var x) (s (.var y)).iterate)
  | .complement => (Ran.ofOption (s (.var y)).complement).bind fun g => .done (put s (.var x) g)
  | .prependAnything => .done (put s (.var x) (s (.var y)).prependAnything)
  | .appendAnything => .done (put s (.var x) (s (.var y)).appendAnything)
  | .surround => .done (put s (.var x) (s (.var y)).surround)
  | .reverse => .done (put s (.var x) (s (.var y)).reverse)
  | .canonize m => (Ran.ofOption ((s (.var y)).canonize m)).bind fun g => .done (put s (.var x) g)

/-- `x = y + z` and so on, pire/fsm.h:78-80: `Fsm a(*this); return a += rhs;`. -/
def value2 (o : BinOp) (x y z : Nat) (s : Store) : Ran Store :=
  (modify2 o .temp (.var z) (put s .temp (s (.var y)))).bind fun s => .done (put s (.var x) (s .temp))

/-- The constructors, pire/fsm.cpp:192-208, 273-376. -/
def leaf : Leaf → Option Fsm
  | .empty => some Fsm.init
  | .nothing => some Fsm.makeFalse
  | .lit s => some (Fsm.init.appendStr s)
  | .dot => some Fsm.init.appendDot
  | .strings t => Fsm.init.appendStrings t

/-- `Swap`, pire/fsm.cpp:253-263: it leaves `m_sparsed` where it was. -/
def swap (x y : Place) (s : Store) : Store :=
  let a := s x
  let b := s y
  let s' := put s x { s y with sparsed := (s x).sparsed }
  put s' y { a with sparsed := b.sparsed }

/-- One statement. -/
def exec (s : Store) : Stmt → Ran Store
  | .make x l => (Ran.ofOption (leaf l)).bind fun g => .done (put s (.var x) g)
  | .copy x y => .done (put s (.var x) (s (.var y)))
  | .swap x y => .done (swap (.var x) (.var y) s)
  | .mod1 o x => modify1 o x s
  | .val1 o x y => value1 o x y s
  | .mod2 o x y => modify2 o (.var x) (.var y) s
  | .val2 o x y z => value2 o x y z s

/-- A program; all variables are `Fsm()` at the beginning. -/
def run : List Stmt → Store → Ran Store
  | [], s => .done s
  | c :: p, s => (exec s c).bind (run p)

def start : Store := fun _ => Fsm.init

end FsmMem
end Pire
