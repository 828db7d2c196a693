import Mathlib.Data.List.Basic
import Mathlib.Logic.Function.Basic

/-!
# `Singleton`, called by several threads — pire/stub/singleton.h

The tables of character classes (pire/classes.cpp:109), of similar glyphs (pire/extra/glyphs.cpp:110) and of code pages (pire/stub/codepage_h.h:82) are got by it; every `Lexer`
gets the first of them when it is made (pire/re_lexer.h:111-133, pire/re_lexer.cpp:371-376). Threads are numbered, may call it as often as they like, and are interleaved in any
order, one access to `p` at a time (sequential consistency). The objects are numbered in the order in which they are made and are not told apart otherwise.
-/

namespace Pire.Once

/-- Where a thread is, pire/stub/singleton.h:30-37. -/
inductive Where
  /-- outside of `Singleton` -/
  | out
  /-- before `if (!p)` -/
  | test
  /-- before `new T` -/
  | make
  /-- before `p = a` -/
  | store (a : Nat)
  /-- before `return p` -/
  | fetch
  deriving DecidableEq

/-- `p`, how many objects there are, where the threads are, and what the calls have returned, and to which thread, the last one first. `none` is a null pointer. -/
structure Sys where
  p : Option Nat
  made : Nat
  place : Nat → Where
  results : List (Nat × Option Nat)

/-- Nobody has called it: `static T* p = 0`, pire/stub/singleton.h:33. -/
def Sys.start : Sys := ⟨none, 0, fun _ => .out, []⟩

/-- The thread `i` takes one step, pire/stub/singleton.h:30-37. -/
def Sys.step (s : Sys) (i : Nat) : Sys :=
  match s.place i with
  | .out => { s with place := Function.update s.place i .test }
  | .test => { s with place := Function.update s.place i (if s.p = none then .make else .fetch) }
  | .make => { s with made := s.made + 1, place := Function.update s.place i (.store s.made) }
  | .store a => { s with p := some a, place := Function.update s.place i .fetch }
  | .fetch => { s with place := Function.update s.place i .out, results := (i, s.p) :: s.results }

/-- The threads take steps in this order. -/
def Sys.run (s : Sys) (schedule : List Nat) : Sys := schedule.foldl Sys.step s

/-- Whether the next step of a thread reads or writes `p`. -/
def Where.accesses : Where → Bool
  | .test | .store _ | .fetch => true
  | .out | .make => false

/-- A data race: two threads are about to access `p`, one of them to write it. In C++ the behaviour of such a program is undefined. -/
def Sys.Race (s : Sys) : Prop := ∃ i j a, i ≠ j ∧ s.place i = .store a ∧ (s.place j).accesses = true

end Pire.Once
