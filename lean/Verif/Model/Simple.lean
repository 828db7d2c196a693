import Verif.Model.Io

/-!
# `SimpleScanner` — pire/scanners/simple.h, its `Save` and `Load` — pire/scanner_io.cpp:35-69

A scanner owns a block of `statesCount` rows of 265 `size_t`s at address `base` (`m_transitions`): the tag, then one jump per
character. States are addresses of the second element of a row; jumps are differences of addresses, modulo 2^64.
-/

namespace Pire

/-- `SimpleScanner`, simple.h:169-177; `empty` tells whether `m_transitions` is that of the static empty scanner (line 54). -/
structure Simple where
  statesCount : Nat
  initial : Nat
  base : Nat
  mem : Mem
  empty : Bool

namespace Simple

/-- `STATE_ROW_SIZE`, simple.h:41. -/
def rowSize : Nat := MaxChar + 1

/-- `BufSize`, simple.h:160-163. -/
def bufSize (n : Nat) : Nat := rowSize * n * 8

/-- The address of `m_transitions[i]`. -/
def word (base i : Nat) : Nat := base + 8 * i

/-- The state (an address) with the given number, as computed in `SetInitial`, simple.h:221-225. -/
def indexToState (s : Simple) (q : Nat) : Nat := word s.base (q * rowSize + 1)

/-- `StateIndex`, simple.h:154-157. -/
def stateIndex (s : Simple) (st : Nat) : Nat := (st + 2 ^ 64 - s.base) % 2 ^ 64 / (rowSize * 8)

/-- `m_transitions[i] = v`. -/
def set (s : Simple) (i v : Nat) : Simple := { s with mem := writeLE s.mem (word s.base i) 8 v }

/-- `SetTag`, simple.h:227-231. -/
def setTag (s : Simple) (state tag : Nat) : Simple := s.set (state * rowSize) tag

/-- `SetJump`, simple.h:210-217, with `size_t` arithmetic. -/
def setJump (s : Simple) (old c new : Nat) : Simple :=
  s.set (old * rowSize + 1 + c) ((new + 2 ^ 64 - old) % 2 ^ 64 * rowSize * 8 % 2 ^ 64)

/-- The constructor from a canonized automaton, simple.h:241-257. -/
def compileCanonized (base : Nat) (f : Fsm) : Simple :=
  let s : Simple := { statesCount := f.size, initial := word base (f.initial * rowSize + 1), base := base, mem := fun _ => 0, empty := false }
  let s := (List.range f.size).foldl (fun s q => s.setTag q ((f.tags q).getD 0 ||| if f.isFinal q then 1 else 0)) s
  (List.range f.size).foldl (fun s fr => f.letters.set.foldl (fun s e =>
    e.members.foldl (fun s l => (elems (f.destinations fr e.rep)).foldl (fun s dest => s.setJump fr l dest) s) s) s) s

/-- `SimpleScanner(Fsm&)`, simple.h:234-258 (`distance = 0`); `none` = `Canonize` throws. -/
def compile (base : Nat) (f : Fsm) : Option Simple := (f.canonize 0).map (compileCanonized base)

/-- `Next`, simple.h:74-79. -/
def next (s : Simple) (st c : Nat) : Nat := (st + Scn.readLE s.mem (st + 8 * c) 8) % 2 ^ 64

/-- `Final`, simple.h:62. -/
def final (s : Simple) (st : Nat) : Bool := Scn.readLE s.mem (st - 8) 8 != 0

/-- `Initialize` 71, `Next` 74, `TakeAction` 81, `Final` 62, `Dead` 64. -/
def scn (s : Simple) : Scn Nat Unit where
  initial := s.initial
  next := fun st c => (s.next st c, ())
  takeAction := fun st _ => st
  final := s.final
  dead := fun _ => false

/-- `RegexpsCount`, simple.h:58. -/
def regexpsCount (s : Simple) : Nat := if s.empty then 0 else 1

/-- `AcceptedRegexps`, simple.h:66-68. -/
def acceptedRegexps (s : Simple) (st : Nat) : List Nat := if s.final st then [0] else []

/-- A scanner with the given fields. -/
def withBlock (n initial base : Nat) (mem : Mem) : Simple :=
  { statesCount := n, initial := initial, base := base, mem := mem, empty := false }

/-- The copy constructor, simple.h:83-97: `owned` = the source owns its memory. -/
def copyCtor (owned : Bool) (base : Nat) (s : Simple) : Simple :=
  if owned then
    withBlock s.statesCount ((s.initial + (base + 2 ^ 64 - s.base)) % 2 ^ 64) base
      fun x => if base ≤ x ∧ x < base + bufSize s.statesCount then s.mem (s.base + (x - base)) else 0
  else s

/-- `Null`, simple.h:184-188. -/
def null (base : Nat) : Option Simple := (compile base Fsm.makeFalse).map fun s => { s with empty := true }

open Io

/-- `sizeof(SimpleScanner::Locals)`, simple.h:169-172. -/
def localsLen : Nat := 16

/-- `Save`, pire/scanner_io.cpp:35-49, of a scanner that is empty or owns its memory. -/
def save (s : Simple) : Bytes :=
  (Header.mk' 2 localsLen).bytes ++ alignSave headerLen ++
  (le 8 s.statesCount ++ le 8 ((s.initial + 2 ^ 64 - s.base) % 2 ^ 64)) ++ alignSave localsLen ++
  le 1 (if s.empty then 1 else 0) ++ alignSave 1 ++
  if s.empty then [] else
    (List.range (bufSize s.statesCount)).map (fun i => s.mem (s.base + i)) ++ alignSave (bufSize s.statesCount)

/-- `Markup` and `m.initial += m_transitions` on a block at `base`, simple.h:205-208, 146, pire/scanner_io.cpp:64-67. -/
def placeAt (n initial base : Nat) (mem : Mem) : Simple :=
  withBlock n ((initial + base) % 2 ^ 64) base mem

/-- `Load`, pire/scanner_io.cpp:51-69. -/
def load (null : Simple) (base : Nat) (b : Bytes) : Option (Simple × Bytes) :=
  (loadHeader 2 localsLen b).bind fun h => (take localsLen h.2).bind fun x => (alignLoad localsLen x.2).bind fun b =>
    (take 1 b).bind fun e => (alignLoad 1 e.2).bind fun b =>
      if num e.1 ≠ 0 then some (null, b)
      else
        let n := num (x.1.take 8)
        (take (bufSize n % 2 ^ 64) b).bind fun y => (alignLoad (bufSize n % 2 ^ 64) y.2).bind fun b =>
          some (placeAt n (num ((x.1.drop 8).take 8)) base (Multi.blockMem base y.1), b)

/-- What `Mmap` can end with: an exception; a byte outside of the range is read; the scanner and the returned pointer. -/
inductive MapResult
  | throws
  | overread
  | ok (s : Simple) (p : Nat)

/-- `Mmap`, simple.h:122-152. For a saved empty scanner `Swap` is not called: `self`, the scanner `Mmap` is called on, stays. -/
def mmap (self : Simple) (mem : Mem) (ptr size : Nat) : MapResult :=
  if ptr % 8 ≠ 0 then .throws
  else if size < headerLen then .throws
  else
    match Multi.alignPtr (ptr + headerLen) (size - headerLen) with
    | none => .throws
    | some (p, size) =>
      if !(Header.ofBytes (Multi.memBytes mem ptr headerLen)).valid 2 localsLen then .throws
      else if size < localsLen then .throws
      else
        let n := num (Multi.memBytes mem p 8)
        let initial := num (Multi.memBytes mem (p + 8) 8)
        match Multi.alignPtr (p + localsLen) (size - localsLen) with
        | none => .throws
        | some (p, size) =>
          if size = 0 then .overread
          else
            let empty := mem p
            match Multi.alignPtr (p + 1) (size - 1) with
            | none => .throws
            | some (p, size) =>
              if empty ≠ 0 then .ok self p
              else if size < bufSize n % 2 ^ 64 then .throws
              else
                match Multi.alignPtr (p + bufSize n % 2 ^ 64) (size - bufSize n % 2 ^ 64) with
                | none => .throws
                | some (p', _) => .ok (placeAt n initial p mem) p'

end Simple
end Pire
