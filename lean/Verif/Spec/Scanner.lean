import Verif.Model.Multi
import Verif.Spec.Running

/-!
# What it means for a (multi-regexp) scanner to recognise a list of languages
-/

namespace Pire
namespace Spec

open Classical in
/-- The indexes, in increasing order, of the languages that contain the word `w`. -/
noncomputable def hits (Ls : List (Language Nat)) (w : List Nat) : List Nat :=
  (List.range Ls.length).filter fun i => decide (w ∈ Ls.getD i 0)

end Spec

open Spec

/-- `s` recognises the languages `Ls`: after feeding any word letter by letter from `Initial()`,
`AcceptedRegexps` lists exactly the indexes of the languages the word belongs to, `Final` tells whether there are any, and
`Dead` tells exactly whether no continuation of the word belongs to one of them. -/
structure Multi.Recognizes (P : Policy) (s : Multi) (Ls : List (Language Nat)) : Prop where
  count : s.regexpsCount = Ls.length
  accepted : ∀ w, IsWord w → s.acceptedRegexps P ((s.scn P).after (s.scn P).initial w) = hits Ls w
  final : ∀ w, IsWord w → ((s.scn P).final ((s.scn P).after (s.scn P).initial w) = true ↔ ∃ L ∈ Ls, w ∈ L)
  dead : ∀ w, IsWord w → ((s.scn P).dead ((s.scn P).after (s.scn P).initial w) = true ↔
    ∀ v, IsWord v → ¬ ∃ L ∈ Ls, w ++ v ∈ L)

/-- The states a scanner can get into by reading letters. -/
def Multi.Reached (P : Policy) (s : Multi) (st : Nat) : Prop :=
  ∃ w, IsWord w ∧ st = (s.scn P).after (s.scn P).initial w

end Pire
