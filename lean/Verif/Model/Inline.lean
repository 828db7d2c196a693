import Verif.Model.Parser
import Verif.Model.Glue
import Verif.Model.Io

/-!
# `PIRE_REGEXP("regexp", "flags", ...)` — pire/inline.lpp

The program `pire_inline` replaces such expressions in a source file by the tables of the compiled scanner. Modelled is what happens between the parentheses; finding
the expressions (the rest of the flex rules, comments, line numbers) is not. `Die` is `throws`.
-/

namespace Pire
namespace Inline

open Lex Parse Enc Io Multi

/-! ### Reading the arguments -/

/-- `isdigit`. -/
def isDigit (c : Nat) : Bool := decide (48 ≤ c ∧ c ≤ 57)

/-- `strtol(s, 0, 8)` of digits, converted to `char`: it stops at 8 and 9, and is at most `LONG_MAX`. -/
def octal (ds : List Nat) : Nat :=
  min ((ds.takeWhile fun d => decide (d ≤ 55)).foldl (fun n d => n * 8 + (d - 48)) 0) (2 ^ 63 - 1) % 256

/-- The loop over a string literal, pire/inline.lpp:88-119; `p` is what follows `yytext` up to its terminator, the closing quotation mark being the last character of it.
`none`: `Die`. With `\x` the pointer stands on the `x`, which is no digit, so the number is empty and its value is 0. After the digits of an octal number `p` is
advanced once more by the loop. -/
def readString : Nat → List Nat → List Nat → Option (List Nat)
  | 0, _, _ => none
  | fuel + 1, p, acc =>
    match p with
    | [] => none
    | c :: r =>
      if c = 0 then none
      else if r.headD 0 = 0 then some acc
      else if c = 92 then
        match r with
        | [] => none
        | d :: r =>
          if d = 39 ∨ d = 34 ∨ d = 92 then readString fuel r (acc ++ [d])
          else if d = 110 then readString fuel r (acc ++ [10])
          else if d = 116 then readString fuel r (acc ++ [9])
          else if isDigit d then readString fuel ((d :: r).dropWhile isDigit).tail (acc ++ [octal ((d :: r).takeWhile isDigit)])
          else if d = 120 then readString fuel r (acc ++ [0])
          else none
      else readString fuel r (acc ++ [c])

/-- What follows a quotation mark, up to the end of the longest match of the rule `"\""([^\"]|\\.)*"\""`, pire/inline.lpp:87: a quotation mark inside of it must follow
a backslash, so the match ends at the first one that does not or, if there is none, at the last one. `b`: the previous character is a backslash. The result: the inside of the
match, and what follows it; `none`: no match. -/
def closing : Bool → List Nat → Option (List Nat × List Nat)
  | _, [] => none
  | b, c :: r =>
    if c = 34 then
      if b then
        match closing false r with
        | some x => some (34 :: x.1, x.2)
        | none => some ([], r)
      else some ([], r)
    else (closing (c == 92) r).map fun x => (c :: x.1, x.2)

/-- The rules between the parentheses, pire/inline.lpp:87-123, without those for comments: string literals, blanks, line breaks, commas, the closing parenthesis. `args` are
the arguments before the one that is being read. Any other character is copied to the output (by flex) and has no effect here; where a comment begins, the end of the file is
reached, or after `Die`, the result is `none`. -/
def readArguments : Nat → List Nat → List (List Nat) → List Nat → Option (List (List Nat))
  | 0, _, _, _ => none
  | fuel + 1, text, args, cur =>
    match text with
    | [] => none
    | c :: r =>
      if c = 34 then
        match closing false r with
        | none => readArguments fuel r args cur
        | some (s, t) => (readString (s.length + 2) (s ++ [34]) cur).bind fun v => readArguments fuel t args v
      else if c = 44 then readArguments fuel r (args ++ [cur]) []
      else if c = 41 then some (args ++ [cur])
      else if c = 47 ∧ (r.head? = some 47 ∨ r.head? = some 42) then none
      else readArguments fuel r args cur

/-- The variables set by the flags, pire/inline.lpp:133-136. -/
structure Flags where
  features : List Feature
  enc : Encoding
  surround : Bool
  greedy : Bool
  reverse : Bool

/-- One flag, pire/inline.lpp:138-151: `i u s a g r`. -/
def Flags.set (f : Flags) (c : Nat) : Option Flags :=
  if c = 105 then some { f with features := addFeature .caseInsensitive f.features }
  else if c = 117 then some { f with enc := .utf8 }
  else if c = 115 then some { f with surround := true }
  else if c = 97 then some { f with features := addFeature .andNot f.features }
  else if c = 103 then some { f with greedy := true }
  else if c = 114 then some { f with reverse := true }
  else none

/-- All flags, pire/inline.lpp:133-152; the loop ends at a zero. -/
def Flags.read (l : List Nat) : Option Flags :=
  (l.takeWhile (· ≠ 0)).foldlM Flags.set ⟨defaultFeatures, .latin1, false, false, false⟩

/-! ### The scanner -/

/-- A regexp and its flags. -/
structure Item where
  pattern : List Nat
  flags : List Nat

/-- The automaton of one regexp, pire/inline.lpp:133-168; the `Lexer` is assigned the bytes of the pattern, whatever the encoding. -/
def Item.automaton (x : Item) : Res Fsm :=
  match Flags.read x.flags with
  | none => .throws
  | some o => do
    let f ← parsePattern o.features o.enc (assignChars x.pattern)
    let f := if o.reverse then f.reverse else f
    if o.greedy && o.surround then .throws
    else if o.greedy then do
      let g ← lift f.surround.complement
      .ok (g.concat f)
    else if o.surround then .ok f.surround
    else .ok f

/-- `Pire::Scanner tsc(fsm)`, pire/inline.lpp:170. -/
def Item.scanner (base : Nat) (x : Item) : Res Multi := do
  let f ← x.automaton
  match compile scannerPolicy base f with
  | none => .throws
  | some s => .ok s

/-- The loop for all regexps but the first, pire/inline.lpp:175-179: `sc = Glue(sc, tsc)`; the result of `Glue` is copied by the assignment (multi.h:239). A scanner that is not empty
has a buffer of its own. `addr` says where blocks get allocated. -/
def glueAll (null : Multi) (addr : Nat → Nat) : Nat → Multi → List Item → Res Multi
  | _, sc, [] => .ok sc
  | n, sc, x :: xs => do
    let t ← x.scanner (addr n)
    match glue scannerPolicy null (!sc.empty) true (addr (n + 1)) (addr (n + 2)) sc t with
    | .bad => .bad
    | .fail => .bad
    | .ok g => glueAll null addr (n + 4) (copyCtor scannerPolicy (!g.empty) (addr (n + 3)) g) xs

/-- The whole loop, pire/inline.lpp:128-180: the first scanner is swapped into `sc`. -/
def scanners (null : Multi) (addr : Nat → Nat) : List Item → Res Multi
  | [] => .throws
  | x :: xs => do
    let t ← x.scanner (addr 0)
    glueAll null addr 1 t xs

/-- Regexps and flags alternate, pire/inline.lpp:125-131; `none`: usage. -/
def items : List (List Nat) → Option (List Item)
  | [] => some []
  | [_] => none
  | p :: f :: l => (items l).map (⟨p, f⟩ :: ·)

/-! ### Writing the tables -/

/-- A digit as `%X` prints it. -/
def hexDigit (n : Nat) : Nat := if n < 10 then 48 + n else 55 + n

/-- `\x%02X`, pire/inline.lpp:189. -/
def hexByte (b : Nat) : List Nat := [92, 120, hexDigit (b / 16), hexDigit (b % 16)]

/-- The loop that prints the bytes, pire/inline.lpp:187-194. -/
def printBytes : Nat → List (Fin 256) → List Nat
  | _, [] => []
  | pos, b :: bs => hexByte b ++ if 78 ≤ pos + 4 then [34, 10, 32, 32, 32, 32, 34] ++ printBytes 5 bs else printBytes (pos + 4) bs

/-- The comment, pire/inline.lpp:172, 177-178, 186: the patterns, separated by ` | `, up to the first zero. -/
def comment (xs : List Item) : List Nat := ([32, 124, 32].intercalate (xs.map (·.pattern))).takeWhile (· ≠ 0)

/-- The argument of `PIRE_LITERAL`, pire/inline.lpp:186-195, from the comment to the last quotation mark. -/
def literalText (xs : List Item) (bytes : List (Fin 256)) : List Nat :=
  [47, 47, 32] ++ comment xs ++ [32, 10, 32, 32, 32, 32, 34] ++ printBytes 5 bytes ++ [34]

/-- What is generated: the text of the literal, and the size given to `MmappedScanner`, which is printed as an `unsigned int`. -/
structure Generated where
  text : List Nat
  size : Nat

/-- `PIRE_REGEXP(...)`, pire/inline.lpp:123-198, for arguments that have been read; `pad` are the padding bytes of the saved scanner. -/
def generate (null : Multi) (addr : Nat → Nat) (pad : Nat → Fin 256) (args : List (List Nat)) : Res Generated :=
  match items args with
  | none => .throws
  | some xs => do
    let s ← scanners null addr xs
    let bytes := saveReloc scannerPolicy pad s
    .ok ⟨literalText xs bytes, bytes.length % 2 ^ 32⟩

/-- The same from the text that follows `PIRE_REGEXP(`. -/
def expand (null : Multi) (addr : Nat → Nat) (pad : Nat → Fin 256) (text : List Nat) : Res Generated :=
  match readArguments (text.length + 1) text [] [] with
  | none => .throws
  | some args => generate null addr pad args

end Inline
end Pire
