import Verif.Model.MultiCopy
import Verif.Model.Simple
import Verif.Model.Loaded

/-!
# Scanner objects: who owns which memory

`Scanner` (pire/scanners/multi.h), `SimpleScanner` (simple.h) and `LoadedScanner` (loaded.h) have the same ownership discipline: the tables are in one block of
memory, `m_buffer` (a `std::unique_ptr<char[]>`, multi.h:325-326, simple.h:174-175, loaded.h:236-237) owns the block or is null, and then the tables belong to
somebody else: to the static empty scanner or to mapped memory. Here many scanner variables live in one memory; what is freed gets overwritten.
-/

namespace Pire
namespace Life

/-- What differs between the three classes. `α` has the fields of the scanner and some memory the tables are read from. -/
structure Kind (α : Type) where
  /-- the memory the tables are read from -/
  mem : α → Mem
  /-- the same fields, reading from other memory -/
  withMem : Mem → α → α
  /-- where the tables begin -/
  base : α → Nat
  /-- the number of bytes in which the tables are -/
  size : α → Nat
  /-- the number of bytes that the copy constructor allocates -/
  room : α → Nat
  /-- `Null()` -/
  null : α
  /-- the deep copy of the copy constructor, into a block at the given address -/
  copyTo : Nat → α → α

/-- A scanner variable: its fields, and where `m_buffer` points to (`none`: null). -/
structure Var (α : Type) where
  obj : α
  buffer : Option Nat

/-- Memory, the blocks that `new` has given and `delete` has not taken back, the block of the static empty scanner, the mapped blocks, and the variables that exist. -/
structure World (α : Type) where
  mem : Mem
  owned : List (Nat × Nat)
  static : Nat × Nat
  mapped : List (Nat × Nat)
  vars : Nat → Option (Var α)

variable {α : Type}

/-- All blocks, each with its length. -/
def World.blocks (w : World α) : List (Nat × Nat) := w.owned ++ w.static :: w.mapped

/-- Some bytes of memory replaced. -/
def fill (mem : Mem) (a n : Nat) (src : Mem) : Mem := fun x => if a ≤ x ∧ x < a + n then src x else mem x

/-- The bytes are within an existing block. -/
def World.covers (w : World α) (a n : Nat) : Bool := w.blocks.any fun b => decide (b.1 ≤ a) && decide (a + n ≤ b.1 + b.2)

/-- What a program can do with scanner variables. `x` in `make` and `attach` is what has been built at its address; `val` is for the specification only. -/
inductive Op (α V : Type)
  /-- `Scanner()`, multi.h:121, simple.h:50, loaded.h:77: `Alias(Null())`. -/
  | default (v : Nat)
  /-- A constructor that gets a block from `new` and fills it: from an `Fsm`, multi.h:123-131, 352-376, simple.h:234-259, loaded.h:155-175, 246-254; also the local
  scanner in `Load` (multi.h:574-597, pire/scanner_io.cpp:51-69, 194-217). `n` bytes are allocated: `BufSize()`, or 8 more in `Scanner`, multi.h:363. -/
  | make (v : Nat) (x : α) (n : Nat) (val : V)
  /-- The local scanner in `Mmap`, multi.h:252-288, simple.h:122-152, loaded.h:126-155: no block of its own, the tables are in mapped memory. -/
  | attach (v : Nat) (x : α) (val : V)
  /-- The copy constructor, multi.h:196-206, simple.h:83-97, loaded.h:79-89: if the source has no block, pointers are copied (`Alias`), otherwise the tables are copied
  into a new block, here at `a`. -/
  | copy (v u a : Nat)
  /-- `Swap`, multi.h:223-237, simple.h:108-114, loaded.h:91-101: exchanges `m_buffer` and all other fields (signatures are not exchanged, they are the same in a class). -/
  | swap (v u : Nat)
  /-- The destructor: `std::unique_ptr` deletes the block. What is in it then is `junk`. -/
  | destroy (v : Nat) (junk : Mem)
  /-- Memory gets mapped. -/
  | map (a n : Nat) (content : Mem)
  /-- Memory is unmapped. -/
  | unmap (a n : Nat) (junk : Mem)

/-- What an operation does. `none`: freed memory is read, or a block is freed twice. -/
def step {V : Type} (K : Kind α) (w : World α) : Op α V → Option (World α)
  | .default v => some { w with vars := Function.update w.vars v (some ⟨K.null, none⟩) }
  | .make v x n _ => some { w with
      mem := fill w.mem (K.base x) n (K.mem x)
      owned := (K.base x, n) :: w.owned
      vars := Function.update w.vars v (some ⟨x, some (K.base x)⟩) }
  | .attach v x _ => some { w with vars := Function.update w.vars v (some ⟨x, none⟩) }
  | .copy v u a => (w.vars u).bind fun y =>
      match y.buffer with
      | none => some { w with vars := Function.update w.vars v (some y) }
      | some _ =>
        if w.covers (K.base y.obj) (K.size y.obj) then
          let x := K.copyTo a (K.withMem w.mem y.obj)
          some { w with
            mem := fill w.mem a (K.room x) (K.mem x)
            owned := (a, K.room x) :: w.owned
            vars := Function.update w.vars v (some ⟨x, some a⟩) }
        else none
  | .swap v u => some { w with vars := Function.update (Function.update w.vars v (w.vars u)) u (w.vars v) }
  | .destroy v junk => (w.vars v).bind fun y =>
      match y.buffer with
      | none => some { w with vars := Function.update w.vars v none }
      | some a => (w.owned.find? fun b => b.1 == a).map fun b => { w with
          mem := fill w.mem a b.2 junk
          owned := w.owned.erase b
          vars := Function.update w.vars v none }
  | .map a n content => some { w with mem := fill w.mem a n content, mapped := (a, n) :: w.mapped }
  | .unmap a n junk => some { w with mem := fill w.mem a n junk, mapped := w.mapped.erase (a, n) }

/-- One operation after another. -/
def run {V : Type} (K : Kind α) (w : World α) (ops : List (Op α V)) : Option (World α) := ops.foldlM (step K) w

/-! Operations that are made of these, with the local variable `t`. -/

/-- `operator =`, multi.h:239, simple.h:116, loaded.h:103: `Scanner(s).Swap(*this)`. -/
def assign {V : Type} (t v u a : Nat) (junk : Mem) : List (Op α V) := [.copy t u a, .swap t v, .destroy t junk]

/-- The move constructor, multi.h:208-212, loaded.h:104-106: `Alias(Null()); Swap(s)`. (`SimpleScanner` has none, its copy constructor is used.) -/
def moveInto {V : Type} (v u : Nat) : List (Op α V) := [.default v, .swap v u]

/-- `Load`, multi.h:574-597, pire/scanner_io.cpp:51-69, 194-217: a local scanner is filled, swapped with `*this` and destroyed. (The non-relocatable `Scanner`,
multi.h:611-616, has two local scanners, one of each strategy.) -/
def loadInto {V : Type} (t v : Nat) (x : α) (n : Nat) (val : V) (junk : Mem) : List (Op α V) := [.make t x n val, .swap t v, .destroy t junk]

/-- `Mmap`, multi.h:252-288, simple.h:122-152, loaded.h:126-155. -/
def mmapInto {V : Type} (t v : Nat) (x : α) (val : V) (junk : Mem) : List (Op α V) := [.attach t x val, .swap t v, .destroy t junk]

/-! ### The three classes -/

/-- `Impl::Scanner<Relocation, Shortcutting>`, also `HalfFinalScanner`, which derives from it: `BufSize() + sizeof(size_t)` bytes are allocated, multi.h:363, 413. -/
def multiKind (P : Policy) (null : Multi) : Kind Multi where
  mem := Multi.mem
  withMem := fun m s => { s with mem := m }
  base := Multi.base
  size := fun s => Multi.bufSize P s.m
  room := fun s => Multi.bufSize P s.m + 8
  null := null
  copyTo := fun a s => Multi.deepCopy P P a s

/-- `SimpleScanner`. -/
def simpleKind (null : Simple) : Kind Simple where
  mem := Simple.mem
  withMem := fun m s => { s with mem := m }
  base := Simple.base
  size := fun s => Simple.bufSize s.statesCount
  room := fun s => Simple.bufSize s.statesCount
  null := null
  copyTo := fun a s => Simple.copyCtor true a s

/-- `LoadedScanner`, the base of the counting scanners and of `CapturingScanner`, which have no fields of their own (except `NoGlueLimitCountingScanner`).
The tables are between the addresses of the letters and the end of the tags. -/
def loadedKind (null : Loaded) : Kind Loaded where
  mem := Loaded.mem
  withMem := fun m s => { s with mem := m }
  base := Loaded.letters
  size := fun s => s.tags + s.statesCount - s.letters
  room := fun s => Loaded.bufSize s.statesCount s.lettersCount
  null := null
  copyTo := fun a s => Loaded.copyCtor true a s

end Life
end Pire
