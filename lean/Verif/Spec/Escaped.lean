import Verif.Model.Text

/-!
The C/C++ lexical rules for escape sequences, as far as they are needed: an independent reader of
character and string literals.
-/

namespace Actl.Escaped

open Actl.Text

/-- Meaning of the character after a backslash. -/
def escapeMeaning : List (Byte × Byte) :=
  [(lit '0', 0#8), (lit 'a', 7#8), (lit 'b', 8#8), (lit 't', 9#8), (lit 'n', 10#8),
   (lit 'v', 11#8), (lit 'f', 12#8), (lit 'r', 13#8), (lit '"', lit '"'), (lit '\'', lit '\''),
   (lit '\\', lit '\\')]

/-- Read the inside of a literal up to the closing delimiter `q`: the characters denoted and what
follows the literal.  An unknown escape or a missing delimiter is an error. -/
def readLiteral (q : Byte) : List Byte → Option (List Byte × List Byte)
  | [] => none
  | c :: s =>
    if c = q then some ([], s)
    else if c = lit '\\' then
      match s with
      | [] => none
      | e :: s' =>
        match escapeMeaning.lookup e with
        | none => none
        | some v =>
          match readLiteral q s' with
          | none => none
          | some (vs, r) => some (v :: vs, r)
    else
      match readLiteral q s with
      | none => none
      | some (vs, r) => some (c :: vs, r)

end Actl.Escaped
