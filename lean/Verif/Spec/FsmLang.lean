import Verif.Model.Fsm
import Verif.Spec.Lang

/-!
# What it means for an automaton to accept a word

`Run E q w p`: there is a path from `q` to `p` whose labels spell `w`, epsilon labels (257) being skipped.  The
language of an `Fsm` is the set of words spelled by paths from its initial to one of its final states; when letters
have been packed into classes a letter follows the transitions stored for its representative.
-/

namespace Pire

/-- Paths in a labelled graph, epsilon edges read nothing. -/
inductive Run (E : Nat → Nat → Nat → Prop) : Nat → List Nat → Nat → Prop
  | refl (q) : Run E q [] q
  | eps {q q' w p} : E q 257 q' → Run E q' w p → Run E q w p
  | step {q c q' w p} : c ≠ 257 → E q c q' → Run E q' w p → Run E q (c :: w) p

namespace Fsm

/-- Targets of letter `c` from state `q`, letter classes resolved; epsilon is never classified. -/
def eff (f : Fsm) (q c : Nat) : Finset Nat :=
  if c = 257 then f.dst q c else f.dst q (f.letters.repOr c)

/-- The edge relation of an automaton. -/
def Edge (f : Fsm) (q c p : Nat) : Prop := p ∈ f.eff q c

/-- The words accepted when starting from state `q`. -/
def LangFrom (f : Fsm) (q : Nat) : Language Nat := {w | ∃ p ∈ f.finals, Run f.Edge q w p}

/-- The language of an automaton. -/
def Lang (f : Fsm) : Language Nat := f.LangFrom f.initial

end Fsm
end Pire
