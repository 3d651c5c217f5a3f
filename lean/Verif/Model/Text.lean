/-!
Characters and character classes (`string/char_classes.hpp`).

`char` is `Byte = BitVec 8`; its value as a C++ `char` (signed, as on x86) is `BitVec.toInt`.
-/

namespace Actl.Text

abbrev Byte := BitVec 8

/-- The byte of an ASCII character. -/
def lit (c : Char) : Byte := BitVec.ofNat 8 c.toNat

/-- The bytes of an ASCII string. -/
def bytes (s : String) : List Byte := s.toList.map lit

/-- `is_digit`, `string/char_classes.hpp:12-14`: `static_cast<unsigned char>(c - '0') < 10`. -/
def isDigit (c : Byte) : Bool := (c - lit '0').toNat < 10

/-- `is_lower`, `string/char_classes.hpp:17-19`. -/
def isLower (c : Byte) : Bool := (c - lit 'a').toNat < 26

/-- `is_upper`, `string/char_classes.hpp:22-24`. -/
def isUpper (c : Byte) : Bool := (c - lit 'A').toNat < 26

/-- `is_alpha`, `string/char_classes.hpp:27-29`: `is_upper(c & ~0x20)`. -/
def isAlpha (c : Byte) : Bool := isUpper (c &&& ~~~0x20#8)

/-- `is_alphanumeric`, `string/char_classes.hpp:32-34`. -/
def isAlphanumeric (c : Byte) : Bool := isAlpha c || isDigit c

/-- `is_space`, `string/char_classes.hpp:43-45`. -/
def isSpace (c : Byte) : Bool := (c - lit '\t').toNat < 5 || c == lit ' '

end Actl.Text
