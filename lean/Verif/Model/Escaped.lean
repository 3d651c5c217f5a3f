import Verif.Model.Text

/-!
Model of `io/format/text/decorator/escaped.hpp`, for `char` and a device whose writes succeed.
-/

namespace Actl.Escaped

open Actl.Text

/-- `detail::escape`, `escaped.hpp:20-37`; the result `0` means "not escaped". -/
def escape (c : Byte) : Byte :=
  if c = 0#8 then lit '0'
  else if c = 7#8 then lit 'a'
  else if c = 8#8 then lit 'b'
  else if c = 9#8 then lit 't'
  else if c = 10#8 then lit 'n'
  else if c = 11#8 then lit 'v'
  else if c = 12#8 then lit 'f'
  else if c = 13#8 then lit 'r'
  else if c = lit '"' then lit '"'
  else if c = lit '\'' then lit '\''
  else if c = lit '\\' then lit '\\'
  else 0#8

/-- `write_final` of an `escaped_string`, `escaped.hpp:45-56`: the characters written. -/
def writeEscaped : List Byte → List Byte
  | [] => []
  | c :: s =>
    let e := escape c
    (if e ≠ 0#8 then [lit '\\', e] else [c]) ++ writeEscaped s

/-- `encode(escaped, char)`, `escaped.hpp:60-62`. -/
def encodeChar (c : Byte) : List Byte := [lit '\''] ++ writeEscaped [c] ++ [lit '\'']

/-- `encode(escaped, string)`, `escaped.hpp:64-68`. -/
def encodeString (s : List Byte) : List Byte := [lit '"'] ++ writeEscaped s ++ [lit '"']

end Actl.Escaped
