import Verif.Spec.Syntax

/-!
# Brackets that contain classes named by capital letters

`Syntax.Items` leaves these out, because such a bracket does not mean what its reader expects.
-/

namespace Pire
namespace Spec

/-- What may stand between brackets: the text, the characters and classes it mentions (those of a class for a capital letter too, not their complement),
whether there is a class with a small letter, and whether there is one with a capital letter. Otherwise as `Items`. -/
inductive Mixed (fl : Flavor) : Bool → List Nat → Finset Nat → Bool → Bool → Prop
  | nil {b} : Mixed fl b [] ∅ false false
  | dash {t cs lo up} : Mixed fl true t cs lo up → Mixed fl true (45 :: t) (fl.fold 45 ∪ cs) lo up
  | single {b s c t cs lo up} : Bound s c → Mixed fl false t cs lo up → Mixed fl b (s ++ t) (fl.fold c ∪ cs) lo up
  | range {b s x s' y t cs lo up} : Bound s x → Bound s' y → (∀ c, x ≤ c → c ≤ y → Usable c) → Mixed fl true t cs lo up →
      Mixed fl b (s ++ 45 :: (s' ++ t)) ((Finset.Icc x y).biUnion fl.fold ∪ cs) lo up
  | quoted {b c t cs lo up} : c ∈ [42, 43, 123, 125, 40, 41, 36, 63, 46, 38, 126] → Mixed fl true t cs lo up →
      Mixed fl b (92 :: c :: t) (fl.fold c ∪ cs) lo up
  | bare {b c t cs lo up} : c ∈ [91, 94] → Mixed fl true t cs lo up → Mixed fl b (c :: t) (fl.fold c ∪ cs) lo up
  | cls {b n k t cs lo up} : charClass n = some k → Mixed fl true t cs lo up → Mixed fl b (92 :: n :: t) (k ∪ cs) true up
  | cap {b n k t cs lo up} : charClass n = some k → Mixed fl true t cs lo up → Mixed fl b (92 :: (n - 32) :: t) (k ∪ cs) lo true

end Spec
end Pire
