import Verif.Model.IntWrite
import Verif.Model.IntParse
import Verif.Model.Till

/-!
# Structured values as text

Model of writing with the format `spaced{space} >>= text` and of reading with the same format or with
`skipws{} >>= text`: `io/io.hpp:35-48`, `io/core/{read_write,batch}.hpp`, `io/format/{apply_format,
composed_format}.hpp`, `io/format/text/skipws.hpp`, `io/format/text/decorator/spaced.hpp`, `io/argument/{range,tuple,
size,byte}.hpp`.  Numbers, booleans and strings are those of `Model/IntWrite.lean`, `Model/IntParse.lean`,
`Model/Parser.lean` and `Model/Till.lean`.

Simplifications.
* The device is the list of its unread characters, resp. the characters written; it takes all characters.  A read sees
  all unread characters at once; how they are cut into buffers does not matter (C14).
* A string has the capacity of its size; what is read does not depend on it (C23).
* Integer types are those other than `char`, `wchar_t`, `char16_t` and `char32_t`; a signed type narrower than `int` cannot be
  written (it does not compile, `Model/IntWrite.lean`).  `char` is the type `char`.
* Where reading a `char` fails at the end of the input, the device is behind its end afterwards (`byte.hpp:25-26`); here it
  stays at its end.  Nothing is read from it after a failure.
* `none` is undefined behaviour or an exception (`resize` with more elements than fit into memory).
-/

namespace Actl.TextTree

open Actl.Text

mutual

/-- The types covered.  `str` is `std::string`, `array` has a static size, `vec` is a random access container that can be resized
(`std::vector`), `seq` a container without random access, filled by `emplace` at the end (`std::list`). -/
inductive Ty
  | int (w : Nat) (signed : Bool)
  | bool
  | char
  | str
  | tuple (ts : Tys)
  | array (n : Nat) (t : Ty)
  | vec (t : Ty)
  | seq (t : Ty)

/-- The types of the elements of a tuple. -/
inductive Tys
  | nil
  | cons (t : Ty) (ts : Tys)

end

mutual

/-- The values of a type. -/
def Val : Ty → Type
  | .int _ _ => Int
  | .bool => Bool
  | .char => Byte
  | .str => List Byte
  | .tuple ts => Vals ts
  | .array _ t => List (Val t)
  | .vec t => List (Val t)
  | .seq t => List (Val t)

/-- The elements of a tuple. -/
def Vals : Tys → Type
  | .nil => Unit
  | .cons t ts => Val t × Vals ts

end

mutual

/-- A value-initialized object. -/
def default : (t : Ty) → Val t
  | .int _ _ => (0 : Int)
  | .bool => false
  | .char => (0#8 : Byte)
  | .str => []
  | .tuple ts => defaults ts
  | .array n t => List.replicate n (default t)
  | .vec _ => []
  | .seq _ => []

/-- The same for the elements of a tuple. -/
def defaults : (ts : Tys) → Vals ts
  | .nil => ()
  | .cons t ts => (default t, defaults ts)

end

/-- The settings: the separator of `spaced`, and base and flags of `text`. -/
structure Cfg where
  space : List Byte
  num : IntText.Fmt
  alpha : Bool

/-! ### Writing -/

/-- The characters written and `separate`, `spaced.hpp:21`. -/
structure St where
  out : List Byte
  separate : Bool

/-- `encode(spaced, x)`, `spaced.hpp:54-63`, with the separator written. -/
def St.unit (c : Cfg) (s : St) : St := if s.separate then { s with out := s.out ++ c.space } else { s with separate := true }

/-- `manipulate(spaced, change_level)`, `spaced.hpp:77-80`. -/
def St.level (deeper : Bool) (s : St) : St := { s with separate := !deeper }

/-- A number, a boolean, a string (`text` encodes it) or a character (`byte.hpp:18-21`). -/
def writeLeaf (c : Cfg) (text : Option (List Byte)) (s : St) : Option St :=
  text.map fun t => { s.unit c with out := (s.unit c).out ++ t }

/-- `write(od, fmt, size{n})`, `size.hpp:21-25`: a `size_t` one level deeper. -/
def writeSize (c : Cfg) (n : Nat) (s : St) : Option St :=
  (writeLeaf c (IntText.encode 64 false c.num n) ((s.unit c).level true)).map (St.level false)

/-- The loop of `range.hpp:45-47`. -/
def writeAll {α : Type} (w : α → St → Option St) : List α → St → Option St
  | [], s => some s
  | x :: xs, s => (w x s).bind (writeAll w xs)

mutual

/-- `write` of one argument: a unit for `spaced` (`composed_format.hpp:35-41`, `batch.hpp:49-51`), then numbers,
booleans and strings (`text.hpp:85-89`), tuples (`tuple.hpp:31-35`) and ranges (`range.hpp:39-49`). -/
def write (c : Cfg) : (t : Ty) → Val t → St → Option St
  | .int w signed, x, s => writeLeaf c (IntText.encode w signed c.num x) s
  | .bool, x, s => writeLeaf c (some (Parser.encodeBool c.alpha x)) s
  | .char, x, s => writeLeaf c (some [x]) s
  | .str, x, s => writeLeaf c (some x) s
  | .tuple ts, x, s => (writeTuple c ts x ((s.unit c).level true)).map (St.level false)
  | .array _ t, x, s => (writeAll (write c t) x ((s.unit c).level true)).map (St.level false)
  | .vec t, x, s =>
    ((writeSize c (List.length x) ((s.unit c).level true)).bind (writeAll (write c t) x)).map (St.level false)
  | .seq t, x, s =>
    ((writeSize c (List.length x) ((s.unit c).level true)).bind (writeAll (write c t) x)).map (St.level false)

/-- `write_tuple`, `tuple.hpp:17-21`, `io.hpp:35-38`. -/
def writeTuple (c : Cfg) : (ts : Tys) → Vals ts → St → Option St
  | .nil, _, s => some s
  | .cons t ts, x, s => (write c t x.1 s).bind (writeTuple c ts x.2)

end

/-- The text of a value. -/
def text (c : Cfg) (t : Ty) (x : Val t) : Option (List Byte) := (write c t x ⟨[], false⟩).map (·.out)

/-! ### Reading -/

/-- The format used for reading. -/
inductive Reader | skipws | spaced
deriving DecidableEq

/-- The unread characters and `separate` of `spaced`. -/
structure RSt where
  d : List Byte
  separate : Bool

/-- `manipulate(spaced, change_level)`, `spaced.hpp:77-80`. -/
def RSt.level (deeper : Bool) (s : RSt) : RSt := { s with separate := !deeper }

/-- The input buffers of the device. -/
def buffers (d : List Byte) : List (List Byte) := if d = [] then [] else [d]

/-- The first format applied to an argument other than a number, boolean, character or string: `spaced` reads its separator,
`spaced.hpp:54-63`, `const_byte_span.hpp:16-20`; `skipws` does nothing. -/
def enter (c : Cfg) : Reader → RSt → Option (Bool × RSt)
  | .skipws, s => some (true, s)
  | .spaced, s =>
    (Parser.readConst (if s.separate then c.space else []) (buffers s.d)).map fun r =>
      (r.2, ⟨s.d.drop r.1, true⟩)

/-- The first format applied to a number, boolean, character or string: `skipws` skips whitespace, `skipws.hpp:19-23`, `skip.hpp:19-23`. -/
def enterLeaf (c : Cfg) : Reader → RSt → Option (Bool × RSt)
  | .skipws, s => some (true, { s with d := s.d.dropWhile isSpace })
  | .spaced, s => enter c .spaced s

/-- A number or boolean read with a parser: `parser_executor.hpp:29-35`; the target keeps its value at a failure. -/
def readLeaf {α : Type} (c : Cfg) (r : Reader) (parse : List (List Byte) → Option (Nat × Option α)) (x : α) (s : RSt) :
    Option (Bool × α × RSt) :=
  (enterLeaf c r s).bind fun e =>
    if e.1 then
      (parse (buffers e.2.d)).map fun p => (p.2.isSome, p.2.getD x, { e.2 with d := e.2.d.drop p.1 })
    else some (false, x, e.2)

/-- A character, `byte.hpp:23-27`: at the end of the input the target becomes the null character. -/
def readChar (c : Cfg) (r : Reader) (x : Byte) (s : RSt) : Option (Bool × Byte × RSt) :=
  (enterLeaf c r s).map fun e =>
    if e.1 then (!e.2.d.isEmpty, e.2.d.headD 0#8, { e.2 with d := e.2.d.drop 1 }) else (false, x, e.2)

/-- An argument that is no number, boolean, character or string: one level deeper. -/
def nested {α : Type} (c : Cfg) (r : Reader) (rd : RSt → Option (Bool × α × RSt)) (x : α) (s : RSt) :
    Option (Bool × α × RSt) :=
  (enter c r s).bind fun e =>
    if e.1 then (rd (e.2.level true)).map fun p => (p.1, p.2.1, p.2.2.level false)
    else some (false, x, e.2)

/-- Reading into a string, `parser/string.hpp:15-33`, `till.hpp:55-59`: the number of characters read and the string. -/
def readWord (old : List Byte) (chunks : List (List Byte)) : Option (Nat × Option (List Byte)) :=
  (Till.readString (fun n d => Till.readTillBuf isSpace n (chunks.flatten.length + 1) 0 d) (chunks.flatten.length + 1) []
    (Till.firstLength old.length) chunks).map fun p => (chunks.flatten.length - p.2.flatten.length, some p.1)

/-- `read(id, fmt, io::size{size})`, `size.hpp:27-31`. -/
def readSize (c : Cfg) (r : Reader) (s : RSt) : Option (Bool × Int × RSt) :=
  nested c r (readLeaf c r (IntText.readInt 64 false c.num.base) (0 : Int)) 0 s

/-- `read_range`, `range.hpp:51-57`. -/
def readRange {α : Type} (rd : α → RSt → Option (Bool × α × RSt)) : List α → RSt → Option (Bool × List α × RSt)
  | [], s => some (true, [], s)
  | x :: xs, s =>
    (rd x s).bind fun p =>
      if p.1 then (readRange rd xs p.2.2).map fun q => (q.1, p.2.1 :: q.2.1, q.2.2)
      else some (false, p.2.1 :: xs, p.2.2)

/-- The loop of `read_container` for containers without random access, `range.hpp:64-71`. -/
def readEmplace {α : Type} (rd : α → RSt → Option (Bool × α × RSt)) (fresh : α) :
    Nat → List α → RSt → Option (Bool × List α × RSt)
  | 0, xs, s => some (true, xs, s)
  | n + 1, xs, s =>
    (rd fresh s).bind fun p =>
      if p.1 then readEmplace rd fresh n (xs ++ [p.2.1]) p.2.2 else some (false, xs, p.2.2)

/-- `x.resize(n)`, which throws if there is no memory: always for 2⁶³ elements. -/
def resize {α : Type} (fresh : α) (n : Nat) (xs : List α) : Option (List α) :=
  if n < 2 ^ 63 then some (xs.take n ++ List.replicate (n - xs.length) fresh) else none

/-- `read_container`, `range.hpp:59-76`, with the continuation for the elements. -/
def readContainer {α : Type} (c : Cfg) (r : Reader) (old : List α)
    (elements : Nat → RSt → Option (Bool × List α × RSt)) (s : RSt) : Option (Bool × List α × RSt) :=
  (readSize c r s).bind fun p => if p.1 then elements p.2.1.toNat p.2.2 else some (false, old, p.2.2)

mutual

/-- `read` of one argument into an existing object: success, the object afterwards and the state (`tuple.hpp:37-41`,
`range.hpp:78-86`). -/
def read (c : Cfg) (r : Reader) : (t : Ty) → Val t → RSt → Option (Bool × Val t × RSt)
  | .int w signed, x, s => readLeaf c r (IntText.readInt w signed c.num.base) x s
  | .bool, x, s => readLeaf c r (Parser.readBool c.alpha) x s
  | .char, x, s => readChar c r x s
  | .str, x, s => readLeaf c r (readWord x) x s
  | .tuple ts, x, s => nested c r (readTuple c r ts x) x s
  | .array _ t, x, s => nested c r (readRange (read c r t) x) x s
  | .vec t, x, s =>
    nested c r (readContainer c r x fun n s =>
      (resize (default t) n x).bind fun xs => readRange (read c r t) xs s) x s
  | .seq t, x, s => nested c r (readContainer c r x fun n s => readEmplace (read c r t) (default t) n x s) x s

/-- `read_tuple`, `tuple.hpp:23-27`, `io.hpp:45-48`. -/
def readTuple (c : Cfg) (r : Reader) : (ts : Tys) → Vals ts → RSt → Option (Bool × Vals ts × RSt)
  | .nil, x, s => some (true, x, s)
  | .cons t ts, x, s =>
    (read c r t x.1 s).bind fun p =>
      if p.1 then (readTuple c r ts x.2 p.2.2).map fun q => (q.1, (p.2.1, q.2.1), q.2.2)
      else some (false, (p.2.1, x.2), p.2.2)

end

end Actl.TextTree
