import Verif.Model.Inline
import Verif.Model.Samples

/-!
# The sample program `validator` — samples/inline/validator.cpp
-/

namespace Pire.Samples

open Pire.Lex Pire.Parse Pire.Enc Pire.Scn Pire.Spec Pire.Io Pire.Inline

/-- What follows `PIRE_REGEXP(`, samples/inline/validator.cpp:35. -/
def validatorSource : List Nat := "\"^[a-z0-9\\\\.\\\\-_]+@([a-z0-9\\\\-]+\\\\.)+[a-z]{2,}$\", \"\")".toList.map Char.toNat

/-- `Enter email: `, samples/inline/validator.cpp:33, 37. -/
def prompt : List Nat := "Enter email: ".toList.map Char.toNat

/-- `Invalid email, try once more` and a line break, samples/inline/validator.cpp:36. -/
def complaint : List Nat := "Invalid email, try once more\n".toList.map Char.toNat

/-- `main`, samples/inline/validator.cpp:30-41: what is printed. The generated string is at `ptr`; `size` is the generated size; `null` is the empty scanner. -/
def validator (isa : Isa) (at_ : Strings) (null : Multi) (mem : Mem) (ptr size : Nat) (input : List Nat) : Res (List Nat) :=
  match Multi.mmap scannerPolicy null mem ptr size with
  | .throws => if wordsOf [] input = [] then .ok (prompt ++ [10]) else .throws
  | .overread => if wordsOf [] input = [] then .ok (prompt ++ [10]) else .bad
  | .ok sc _ => .ok (prompt ++ (wordsOf [] input).flatMap (fun w => (if matched isa at_ sc w then [] else complaint) ++ prompt) ++ [10])

end Pire.Samples
