import Verif.Model.BitSet
import Verif.Model.Epsilon
import Verif.Model.Simple

/-!
# `SlowScanner` — pire/scanners/slow.h; its `Save` and `Load` — pire/scanner_io.cpp:71-170

Without actions (`need_actions = false`) and with `removeEpsilons = true`, as `Fsm::Compile<SlowScanner>` does. The arrays are
lists; `none` in the results of `next` etc. = an access outside of an array, or through a null pointer.
-/

namespace Pire

/-- Where the jumps come from, slow.h:348-354: `m_vecptr` points to a vector with the given contents; it is null and the arrays
`m_jumpPos` and `m_jumps` (mapped) have the given contents; all these pointers are null. -/
inductive Jumps
  | vecs (v : List (List Nat))
  | flat (pos jumps : List Nat)
  | null

/-- `SlowScanner`, slow.h:341-354. `vec` is its own `m_vec` (empty unless compiled or loaded); `empty` tells whether `m_finals` is
that of the static empty scanner (`Empty()`, slow.h:85). -/
structure Slow where
  statesCount : Nat
  lettersCount : Nat
  start : Nat
  finals : List Bool
  letters : List Nat
  vec : List (List Nat)
  jumps : Jumps
  empty : Bool

/-- `SlowScanner::State`, slow.h:63-74. -/
structure SlowState where
  states : List Nat
  flags : BitSet
deriving DecidableEq

namespace Slow

/-- `Initialize`, slow.h:90-96. -/
def initState (s : Slow) : SlowState := { states := [s.start], flags := BitSet.ofSize s.statesCount }

/-- `Translate`, slow.h:98-101. -/
def translate (s : Slow) (c : Nat) : Option Nat := s.letters[c]?

/-- The targets of `state` on the letter class `l`: the range `[begin, end)`, slow.h:108-120. -/
def targets (s : Slow) (state l : Nat) : Option (List Nat) :=
  match s.jumps with
  | .vecs v => v[state * s.lettersCount + l]?
  | .flat pos jumps => do
    let b ← pos[state * s.lettersCount + l]?
    let e ← pos[state * s.lettersCount + l + 1]?
    if b ≤ e ∧ e ≤ jumps.length then some ((jumps.drop b).take (e - b)) else none
  | .null => none

/-- One target, slow.h:122-126. -/
def visit (st : SlowState) (p : Nat) : Option SlowState := do
  let b ← st.flags.test p
  if b then some st
  else
    let fl ← st.flags.set p
    some { states := st.states ++ [p], flags := fl }

/-- `NextTranslated(current, next, l)`, slow.h:103-130. -/
def nextTranslated (s : Slow) (current next : SlowState) (l : Nat) : Option SlowState :=
  current.states.foldlM (fun st q => do
    let ts ← s.targets q l
    ts.foldlM visit st) { states := [], flags := next.flags.clear }

/-- `Next(current, next, c)`, slow.h:132-135. -/
def nextInto (s : Slow) (current next : SlowState) (c : Nat) : Option SlowState := do
  let l ← s.translate c
  s.nextTranslated current next l

/-- `Next(state, c)`, slow.h:139-150. -/
def next (s : Slow) (st : SlowState) (c : Nat) : Option SlowState :=
  s.nextInto st { states := [], flags := BitSet.ofSize s.statesCount } c

/-- `Final`, slow.h:152-158: states are looked at in order until a final one is found. -/
def final (s : Slow) (st : SlowState) : Option Bool := go st.states
where
  /-- The loop. -/
  go : List Nat → Option Bool
    | [] => some false
    | q :: qs => do
      let b ← s.finals[q]?
      if b then some true else go qs

/-- `Run<SlowScanner>`, slow.h:436-451: `state` and `temp` take turns. Arguments: source, destination. -/
def runLoop (s : Slow) : SlowState → SlowState → List Nat → Option SlowState
  | src, _, [] => some src
  | src, dest, c :: cs => do
    let dest ← s.nextInto src dest c
    s.runLoop dest src cs

/-- `Run<SlowScanner>`, slow.h:436-451. -/
def run (s : Slow) (st : SlowState) (text : List Nat) : Option SlowState := s.runLoop st s.initState text

/-- The scanner interface: `Initialize`, `Next`, `TakeAction` 134, `Final`, `Dead` 157-160. Reads outside of the arrays are replaced by
arbitrary values here (`C24_slow_never_out_of_bounds` shows that there are none). -/
def scn (s : Slow) : Scn SlowState Unit where
  initial := s.initState
  next := fun st c => ((s.next st c).getD st, ())
  takeAction := fun st _ => st
  final := fun st => (s.final st).getD false
  dead := fun _ => false

/-- `RegexpsCount`, slow.h:88. -/
def regexpsCount (s : Slow) : Nat := if s.empty then 0 else 1

/-- `AcceptedRegexps`, slow.h:165-167. -/
def acceptedRegexps (s : Slow) (st : SlowState) : List Nat := if (s.final st).getD false then [0] else []

/-- The letter table, slow.h:276-279. -/
def letterTable (p : Partition) : List Nat :=
  p.set.foldl (fun t e => e.members.foldl (fun t c => t.set c e.idx) t) (List.replicate MaxChar 0)

/-- `m_vec[i].push_back(x)`, slow.h:394. -/
def push (v : List (List Nat)) (i x : Nat) : List (List Nat) := v.modify i (· ++ [x])

/-- The scanner for an automaton without epsilon transitions, slow.h:252-283, with `BuildScanner`, pire/fsm.h:251-271; `SetTag`
388 takes a `ui8`, `SetJump` 377-386 stores `unsigned`. -/
def build (f : Fsm) : Slow :=
  let letters := letterTable f.letters
  let n := f.letters.size
  let vec := (List.range f.size).foldl (fun v fr => f.letters.set.foldl (fun v e =>
    (elems (f.destinations fr e.rep)).foldl (fun v dest => push v (fr * n + letters.getD e.rep 0) (dest % 2 ^ 32)) v) v)
    (List.replicate (f.size * n) [])
  { statesCount := f.size
    lettersCount := n
    start := f.initial
    finals := (List.range f.size).map fun q => ((f.tags q).getD 0 ||| if f.isFinal q then 1 else 0) % 256 != 0
    letters := letters
    vec := vec
    jumps := .vecs vec
    empty := false }

/-- `SlowScanner(fsm)`, slow.h:252-283. -/
def compile (f : Fsm) : Slow := build (f.removeEpsilons.sparse false)

/-- `Null`, slow.h:427-431. -/
def null : Slow := { compile Fsm.makeFalse with empty := true }

/-- `Alias`, slow.h:372-385: what a default-constructed scanner is. -/
def aliased (s : Slow) : Slow := { s with vec := [] }

/-- The copy constructor, slow.h:225-250. `m_vec` of an empty or mapped scanner is empty. -/
def copyCtor (s : Slow) : Slow :=
  if s.vec = [] then
    { s with jumps := match s.jumps with
        | .vecs _ => .null
        | j => j }
  else { s with jumps := .vecs s.vec, empty := false }

open Io

/-- `sizeof(SlowScanner::Locals)`, slow.h:341-345. -/
def localsLen : Nat := 24

/-- The numbers of jumps before each element of `m_vec`, and in total, pire/scanner_io.cpp:84-91. -/
def positions (v : List (List Nat)) : List Nat := (v.map List.length).scanl (· + ·) 0

/-- `Save`, pire/scanner_io.cpp:71-110, of a scanner that is empty or was compiled or loaded. -/
def save (s : Slow) : Bytes :=
  (Header.mk' 3 localsLen).bytes ++ alignSave headerLen ++
  (le 8 s.statesCount ++ le 8 s.lettersCount ++ le 8 s.start) ++ alignSave localsLen ++
  le 1 (if s.empty then 1 else 0) ++ alignSave 1 ++
  if s.empty then [] else
    s.letters.flatMap (le 8) ++ alignSave (MaxChar * 8) ++
    s.finals.flatMap (fun b => le 1 (if b then 1 else 0)) ++ alignSave s.finals.length ++
    (positions s.vec).flatMap (le 8) ++ alignSave ((s.vec.length + 1) * 8) ++
    (s.vec.flatten.flatMap (le 4) ++ alignSave (4 * s.vec.flatten.length))

/-- `LoadPodArray`: `n` numbers of `k` bytes each, pire/stub/saveload.h:149-153, 166-170. -/
def takeNums (k n : Nat) (b : Bytes) : Option (List Nat × Bytes) :=
  match n with
  | 0 => some ([], b)
  | n + 1 => (take k b).bind fun x => (takeNums k n x.2).map fun y => (num x.1 :: y.1, y.2)

/-- The vectors, pire/scanner_io.cpp:151-157: as many elements as the differences of positions say. -/
def takeVecs (sizes : List Nat) (b : Bytes) : Option (List (List Nat) × Bytes) :=
  match sizes with
  | [] => some ([], b)
  | n :: sizes => (takeNums 4 n b).bind fun x => (takeVecs sizes x.2).map fun y => (x.1 :: y.1, y.2)

/-- The sizes of the vectors, pire/scanner_io.cpp:136-149 (`n - c` in `size_t`). -/
def sizesOf : List Nat → List Nat
  | c :: n :: l => (n + 2 ^ 64 - c) % 2 ^ 64 :: sizesOf (n :: l)
  | _ => []

/-- `Load`, pire/scanner_io.cpp:112-170. Allocations (`resize`) are supposed to succeed. -/
def load (null : Slow) (b : Bytes) : Option (Slow × Bytes) :=
  (loadHeader 3 localsLen b).bind fun h => (takeNums 8 3 h.2).bind fun m => (alignLoad localsLen m.2).bind fun b =>
    (take 1 b).bind fun e => (alignLoad 1 e.2).bind fun b =>
      if num e.1 ≠ 0 then some (null.aliased, b)
      else
        let n := m.1.getD 0 0
        let k := m.1.getD 1 0
        (takeNums 8 MaxChar b).bind fun ls => (alignLoad (MaxChar * 8) ls.2).bind fun b =>
        (takeNums 1 n b).bind fun fs => (alignLoad n fs.2).bind fun b =>
        (takeNums 8 (k * n % 2 ^ 64 + 1) b).bind fun ps =>
        (takeVecs (sizesOf ps.1) ps.2).bind fun vs => (alignLoad (4 * vs.1.flatten.length) vs.2).bind fun b =>
        some ({ statesCount := n, lettersCount := k, start := m.1.getD 2 0, finals := fs.1.map (· != 0), letters := ls.1,
                vec := vs.1, jumps := .vecs vs.1, empty := false }, b)

/-- What `Mmap` can end with: an exception; a byte outside of the range is read; the scanner and the returned pointer. -/
inductive MapResult
  | throws
  | overread
  | ok (s : Slow) (p : Nat)

/-- `MapPtr`, pire/scanners/common.h:88-96, for `count` items of `k` bytes: the new pointer and size; `none` = throws. -/
def mapPtr (k count p size : Nat) : Option (Nat × Nat) :=
  if size < count * k % 2 ^ 64 then none
  else Multi.alignPtr (p + count * k % 2 ^ 64) (size - count * k % 2 ^ 64)

/-- The numbers in an array of `count` items of `k` bytes at `p`. -/
def memNums (mem : Mem) (k p count : Nat) : List Nat := (List.range count).map fun i => num (Multi.memBytes mem (p + k * i) k)

/-- What the local scanner `s` of `Mmap` can be, slow.h:173-199: as `MapResult`; `empty` = the empty scanner; the last argument is what is left of `size`. -/
inductive Mapping
  | throws
  | overread
  | empty (p left : Nat)
  | ok (s : Slow) (p left : Nat)

/-- `Mmap` up to the actions, slow.h:173-195; `pl`, `pf`, `pp`, `pj` are where the arrays are. -/
def mapIn (mem : Mem) (ptr size0 : Nat) : Mapping :=
  if ptr % 8 ≠ 0 then .throws
  else
    match mapPtr headerLen 1 ptr size0 with
    | none => .throws
    | some (p, size) =>
      if !(Header.ofBytes (Multi.memBytes mem ptr headerLen)).valid 3 localsLen then .throws
      else
        match mapPtr localsLen 1 p size with
        | none => .throws
        | some (p', size) =>
          let n := num (Multi.memBytes mem p 8)
          let k := num (Multi.memBytes mem (p + 8) 8)
          let start := num (Multi.memBytes mem (p + 16) 8)
          if size = 0 then .overread
          else
            let empty := mem p'
            match Multi.alignPtr (p' + 1) (size - 1) with
            | none => .throws
            | some (pl, size) =>
              if empty ≠ 0 then .empty pl size
              else
                match mapPtr 8 MaxChar pl size with
                | none => .throws
                | some (pf, size) =>
                  match mapPtr 1 n pf size with
                  | none => .throws
                  | some (pp, size) =>
                    let nk := n * k % 2 ^ 64
                    match mapPtr 8 ((nk + 1) % 2 ^ 64) pp size with
                    | none => .throws
                    | some (pj, size) =>
                      if ptr + size0 < pp + 8 * nk + 8 then .overread
                      else
                        let total := num (Multi.memBytes mem (pp + 8 * nk) 8)
                        match mapPtr 4 total pj size with
                        | none => .throws
                        | some (pe, size) =>
                          .ok { statesCount := n, lettersCount := k, start := start, finals := (memNums mem 1 pf n).map (· != 0),
                                letters := memNums mem 8 pl MaxChar, vec := [],
                                jumps := .flat (memNums mem 8 pp (nk + 1)) (memNums mem 4 pj total), empty := false } pe size

/-- `Mmap`, slow.h:173-201; `self` is the scanner it is called on: it stays as it is if the mapped one is empty. -/
def mmap (self : Slow) (mem : Mem) (ptr size0 : Nat) : MapResult :=
  match mapIn mem ptr size0 with
  | .throws => .throws
  | .overread => .overread
  | .empty p _ => .ok self p
  | .ok s p _ => .ok s p

end Slow
end Pire
