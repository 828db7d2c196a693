import Verif.Model.Easy
import Verif.Model.Io

/-!
# The sample programs `pigrep` and `blacklist` — samples/pigrep/pigrep.cpp, samples/blacklist/blacklist.cpp

What they print, given what they read. `getline` and `operator >>` are modelled after the C++ standard; a `std::string` is somewhere in memory (`Strings`).
-/

namespace Pire.Samples

open Pire.Lex Pire.Parse Pire.Enc Pire.Scn Pire.Spec Pire.Io Easy

/-- Where a string of these bytes is in memory: the memory and the address. -/
abbrev Strings := List Nat → Mem × Nat

/-- `Runner(sc).Begin().Run(str).End()`, samples/pigrep/pigrep.cpp:42, samples/blacklist/blacklist.cpp:81. -/
def matched (isa : Isa) (at_ : Strings) (sc : Multi) (s : List Nat) : Bool :=
  (sc.scn scannerPolicy).runnerBeginEndMulti isa (sc.exitMasks scannerPolicy) (at_ s).1 (at_ s).2 ((at_ s).2 + s.length)

/-! ### pigrep -/

/-- What `getline(stream, line)` yields until it fails: it fails only if there is nothing to read. `cur` is what has been read of the line. -/
def linesOf (cur : List Nat) : List Nat → List (List Nat)
  | [] => if cur = [] then [] else [cur]
  | c :: s => if c = 10 then cur :: linesOf [] s else linesOf (cur ++ [c]) s

/-- `GrepStream`, samples/pigrep/pigrep.cpp:38-45: what is printed. -/
def grepStream (isa : Isa) (at_ : Strings) (sc : Multi) (pre input : List Nat) : List Nat :=
  ((linesOf [] input).filter (matched isa at_ sc)).flatMap fun l => pre ++ l ++ [10]

/-- What the arguments are taken for. -/
structure Arguments where
  opts : Opts
  pattern : Option (List Nat)
  files : List (List Nat)

/-- The loop over the arguments, samples/pigrep/pigrep.cpp:63-80. A pattern that has not been given is the string of a single NUL. -/
def arguments (a : Arguments) : List (List Nat) → Arguments
  | [] => a
  | x :: xs =>
    if x = [45, 105] then arguments { a with opts := a.opts ++ [.i] } xs
    else if x = [45, 117] then arguments { a with opts := a.opts ++ [.utf8] } xs
    else if x = [45, 120] then arguments { a with opts := a.opts ++ [.andNot] } xs
    else if x = [45, 101] ∧ a.pattern = none then
      match xs with
      | p :: ys => arguments { a with pattern := some p } ys
      | [] => { a with files := [x] }
    else if x.head? = some 45 then { a with files := x :: xs }
    else if a.pattern = none then arguments { a with pattern := some x } xs
    else { a with files := x :: xs }

/-- The scanner, samples/pigrep/pigrep.cpp:84-87; `base` is where it gets allocated. -/
def grepScanner (base : Nat) (opts : Opts) (raw : List Nat) : Res Multi := do
  let pattern ← match opts.encoding.decode raw with
    | none => Res.bad
    | some none => Res.throws
    | some (some p) => Res.ok p
  let f ← parsePattern opts.features opts.encoding pattern
  match Multi.compile scannerPolicy base f.surround with
  | none => Res.throws
  | some s => Res.ok s

/-- The loop over the files, samples/pigrep/pigrep.cpp:92-107: what is printed, and whether all files could be opened. `one`: there is just one. `-` is the standard input,
which is empty when it has been read. `none` is a file that cannot be opened. -/
def grepFiles (isa : Isa) (at_ : Strings) (sc : Multi) (file : List Nat → Option (List Nat)) (one : Bool) : List Nat → List (List Nat) → List Nat × Bool
  | _, [] => ([], true)
  | stdin, f :: fs =>
    if f = [45] then
      let r := grepFiles isa at_ sc file one [] fs
      (grepStream isa at_ sc (if one then [] else [40, 115, 116, 100, 105, 110, 41, 58, 32]) stdin ++ r.1, r.2)
    else
      match file f with
      | none => ([], false)
      | some s =>
        let r := grepFiles isa at_ sc file one stdin fs
        (grepStream isa at_ sc (if one then [] else f ++ [58, 32]) s ++ r.1, r.2)

/-- `main`, samples/pigrep/pigrep.cpp:58-115: what is printed, and whether the program succeeds. -/
def pigrep (isa : Isa) (at_ : Strings) (base : Nat) (file : List Nat → Option (List Nat)) (args : List (List Nat)) (stdin : List Nat) : Res (List Nat × Bool) :=
  let a := arguments ⟨[], none, []⟩ args
  match a.pattern with
  | none => .ok ([], false)
  | some p =>
    match grepScanner base a.opts p with
    | .bad => .bad
    | .throws => .ok ([], false)
    | .ok sc =>
      if a.files = [] then .ok (grepStream isa at_ sc [] stdin, true)
      else .ok (grepFiles isa at_ sc file (a.files.length == 1) stdin a.files)

/-! ### blacklist -/

/-- `isspace`. -/
def blank (c : Nat) : Bool := c == 32 || (9 ≤ c && c ≤ 13)

/-- What `std::cin >> word` yields until it fails; `cur` is what has been read of the word. -/
def wordsOf (cur : List Nat) : List Nat → List (List Nat)
  | [] => if cur = [] then [] else [cur]
  | c :: s => if blank c then (if cur = [] then wordsOf [] s else cur :: wordsOf [] s) else wordsOf (cur ++ [c]) s

/-- The first pattern of `Generate`: `^([a-z]+://)?([A-Za-z0-9\-]+\.)*`. -/
def before : List Nat := "^([a-z]+://)?([A-Za-z0-9\\-]+\\.)*".toList.map Char.toNat

/-- The second one: `(/.*)?$`. -/
def behind : List Nat := "(/.*)?$".toList.map Char.toNat

/-- The automaton of `Generate`, samples/blacklist/blacklist.cpp:67-71. -/
def blacklistFsm (input : List Nat) : Res Fsm := do
  let re := (wordsOf [] input).foldl (fun re domain => re.union (Fsm.init.appendStr domain)) Fsm.makeFalse
  let p ← parsePattern defaultFeatures .latin1 before
  let q ← parsePattern defaultFeatures .latin1 behind
  Res.ok ((p.concat re).concat q)

/-- `Generate`, samples/blacklist/blacklist.cpp:65-75: the contents of the file. `base` is where the scanner gets allocated, `pad` the padding of its `Locals`. -/
def generate (base : Nat) (pad : Nat → Fin 256) (input : List Nat) : Res Bytes := do
  let f ← blacklistFsm input
  match Multi.compile scannerPolicy base f with
  | none => Res.throws
  | some s => Res.ok (Multi.saveReloc scannerPolicy pad s)

/-- `Filter`, samples/blacklist/blacklist.cpp:77-84. -/
def filter (isa : Isa) (at_ : Strings) (sc : Multi) (input : List Nat) : List Nat :=
  ((wordsOf [] input).filter (matched isa at_ sc)).flatMap fun l => l ++ [10]

/-- `Use`, samples/blacklist/blacklist.cpp:86-93, tools/common/filemap.h: the file of `size` bytes is mapped at `ptr`. `null` is the empty scanner. -/
def use (isa : Isa) (at_ : Strings) (null : Multi) (mem : Mem) (ptr size : Nat) (input : List Nat) : Res (List Nat) :=
  match Multi.mmap scannerPolicy null mem ptr size with
  | .throws => .throws
  | .overread => .bad
  | .ok sc _ => .ok (filter isa at_ sc input)

end Pire.Samples
