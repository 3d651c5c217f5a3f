import Verif.Model.TextTree
import Verif.Model.Buffered
import Verif.Model.Devices

/-!
# Structured values as text on devices

The reading and writing of `Model/TextTree.lean`, call by call on a device: `parser_executor.hpp`, `skip.hpp`, `till.hpp`
and `parser/string.hpp` see the device through `input_buffer()`, `move`, `peek` and `eof` only, a character is read with `get()` and `eof()`
(`byte.hpp:23-27`); everything written goes through `write(span)` (`byte_span.hpp:15-19`), except for characters, which
go through `write(char)` (`byte.hpp:18-21`), and the first write that is not complete ends the operation.

Simplifications: those of `Model/TextTree.lean` except for the device; a string has the capacity of its size.  Loops have a bound `N` on their
iterations, `none` if it does not suffice.
-/

namespace Actl.TextTree

open Actl.Text

/-! ### Reading -/

/-- What reading uses of a device; `none` is undefined behaviour. -/
structure Dev (δ : Type) where
  buffer : δ → Option (List Byte)
  move : Nat → δ → Option δ
  peek : δ → Option Byte
  get : δ → Option (Byte × δ)
  eof : δ → Bool

/-- `io::buffered` over another device with a buffer of `B` characters, `wrapper/buffered.hpp:27-98`. -/
def bufferedDev (B : Nat) : Dev Buffered.Reader where
  buffer := Buffered.Reader.inputBuffer
  move n r := some (r.move B n)
  peek r := some r.peek
  get r := some (r.get B)
  eof := Buffered.Reader.eof

/-- `io::memory`, `memory.hpp:27-34,93-105`. -/
def memoryDev : Dev Device.Mem where
  buffer m := if 0 ≤ m.pos ∧ m.pos ≤ m.data.length then some (m.data.drop m.pos.toNat) else none
  move n m := some (m.move n)
  peek := Device.Mem.peek
  get := Device.Mem.get
  eof := Device.Mem.eof

/-- `io::string`, `string.hpp:69-81,91-98`. -/
def stringDev : Dev Device.Str where
  buffer d := if d.pos ≤ d.s.length then some (d.s.drop d.pos) else none
  move n d := some (d.move n)
  peek d := some d.peek
  get d := some d.get
  eof := Device.Str.eof

variable {δ : Type} (D : Dev δ) (N : Nat)

/-- `while (parsed_available_data(id, parser)) {}`, `parser_executor.hpp:14-22,30,43`. -/
def drive {σ : Type} (parse : σ → List Byte → Option (Nat × σ)) : Nat → σ → δ → Option (σ × δ)
  | 0, _, _ => none
  | fuel + 1, st, d =>
    (D.buffer d).bind fun s =>
      if s.isEmpty then some (st, d)
      else (parse st s).bind fun p => (D.move p.1 d).bind fun d' =>
        if p.1 = s.length then drive parse fuel p.2 d' else some (p.2, d')

/-- `skip::operator()`, `skip.hpp:19-23`. -/
def skipDev (p : Byte → Bool) : Nat → δ → Option δ
  | 0, _ => none
  | fuel + 1, d =>
    if D.eof d then some d
    else (D.peek d).bind fun c => if p c then (D.move 1 d).bind (skipDev p fuel) else some d

/-- `read_till` for devices with an input buffer, `till.hpp:38-53`; `i` characters are already stored. -/
def tillDev (t : Byte → Bool) (size : Nat) : Nat → Nat → δ → Option (List Byte × δ)
  | 0, _, _ => none
  | fuel + 1, i, d =>
    (D.buffer d).bind fun s => (D.move (Till.scan t (size - i) s).length d).bind fun d' =>
      if i + (Till.scan t (size - i) s).length = size || s.isEmpty ||
          (Till.scan t (size - i) s).length ≠ min s.length (size - i) then some (Till.scan t (size - i) s, d')
      else (tillDev t size fuel (i + (Till.scan t (size - i) s).length) d').map fun q =>
        (Till.scan t (size - i) s ++ q.1, q.2)

/-- The device and `separate` of `spaced`, `spaced.hpp:21`. -/
structure DSt (δ : Type) where
  dev : δ
  separate : Bool

/-- `manipulate(spaced, change_level)`, `spaced.hpp:77-80`. -/
def DSt.level (deeper : Bool) (s : DSt δ) : DSt δ := { s with separate := !deeper }

/-- `enter` on a device: `spaced.hpp:54-63`, `const_byte_span.hpp:16-20`. -/
def enterDev (c : Cfg) : Reader → DSt δ → Option (Bool × DSt δ)
  | .skipws, s => some (true, s)
  | .spaced, s =>
    (drive D Parser.constParse N (if s.separate then c.space else []) s.dev).map fun r =>
      (Parser.constReady r.1, ⟨r.2, true⟩)

/-- `enterLeaf` on a device: `skipws.hpp:19-23`. -/
def enterLeafDev (c : Cfg) : Reader → DSt δ → Option (Bool × DSt δ)
  | .skipws, s => (skipDev D isSpace N s.dev).map fun d => (true, { s with dev := d })
  | .spaced, s => enterDev D N c .spaced s

/-- A number, boolean or string: `readLeaf` on a device. -/
def readLeafDev {α : Type} (c : Cfg) (r : Reader) (run : δ → Option (Option α × δ)) (x : α) (s : DSt δ) :
    Option (Bool × α × DSt δ) :=
  (enterLeafDev D N c r s).bind fun e =>
    if e.1 then (run e.2.dev).map fun p => (p.1.isSome, p.1.getD x, { e.2 with dev := p.2 })
    else some (false, x, e.2)

/-- A character, `byte.hpp:23-27`: it is assigned even at the end of the input. -/
def readCharDev (c : Cfg) (r : Reader) (x : Byte) (s : DSt δ) : Option (Bool × Byte × DSt δ) :=
  (enterLeafDev D N c r s).bind fun e =>
    if e.1 then (D.get e.2.dev).map fun p => (!D.eof p.2, p.1, { e.2 with dev := p.2 })
    else some (false, x, e.2)

/-- An argument that is no number, boolean, character or string: one level deeper. -/
def nestedDev {α : Type} (c : Cfg) (r : Reader) (rd : DSt δ → Option (Bool × α × DSt δ)) (x : α) (s : DSt δ) :
    Option (Bool × α × DSt δ) :=
  (enterDev D N c r s).bind fun e =>
    if e.1 then (rd (e.2.level true)).map fun p => (p.1, p.2.1, p.2.2.level false)
    else some (false, x, e.2)

/-- `parser_executor{x, integral_parser<Int>{fmt.base}}`, `parser_executor.hpp:29-35`, `parser/arithmetic.hpp:23-27`. -/
def intDev (w : Nat) (signed : Bool) (base : Nat) (d : δ) : Option (Option Int × δ) :=
  (drive D (IntText.intParse w signed) N (.init base) d).map fun p =>
    (if IntText.intReady p.1 then some (IntText.intValue w signed p.1) else none, p.2)

/-- `parser_executor{x, boolean_parser{…}}`, `parser_executor.hpp:29-35`, `parser/arithmetic.hpp:19-21`. -/
def boolDev (alpha : Bool) (d : δ) : Option (Option Bool × δ) :=
  (drive D (Parser.boolParse alpha) N .init d).map fun p =>
    (if Parser.boolReady p.1 then p.1.x else none, p.2)

/-- Reading into a string with a capacity of `old` characters, `parser/string.hpp:15-33`, `till.hpp:55-59`. -/
def wordDev (old : List Byte) (d : δ) : Option (Option (List Byte) × δ) :=
  (Till.readString (fun n d => tillDev D isSpace n N 0 d) N [] (Till.firstLength old.length) d).map fun p =>
    (some p.1, p.2)

/-- `read(id, fmt, io::size{size})`, `size.hpp:27-31`. -/
def readSizeDev (c : Cfg) (r : Reader) (s : DSt δ) : Option (Bool × Int × DSt δ) :=
  nestedDev D N c r (readLeafDev D N c r (intDev D N 64 false c.num.base) (0 : Int)) 0 s

/-- `read_range`, `range.hpp:51-57`. -/
def readRangeDev {α : Type} (rd : α → DSt δ → Option (Bool × α × DSt δ)) :
    List α → DSt δ → Option (Bool × List α × DSt δ)
  | [], s => some (true, [], s)
  | x :: xs, s =>
    (rd x s).bind fun p =>
      if p.1 then (readRangeDev rd xs p.2.2).map fun q => (q.1, p.2.1 :: q.2.1, q.2.2)
      else some (false, p.2.1 :: xs, p.2.2)

/-- The loop of `read_container` for containers without random access, `range.hpp:64-71`. -/
def readEmplaceDev {α : Type} (rd : α → DSt δ → Option (Bool × α × DSt δ)) (fresh : α) :
    Nat → List α → DSt δ → Option (Bool × List α × DSt δ)
  | 0, xs, s => some (true, xs, s)
  | n + 1, xs, s =>
    (rd fresh s).bind fun p =>
      if p.1 then readEmplaceDev rd fresh n (xs ++ [p.2.1]) p.2.2 else some (false, xs, p.2.2)

/-- `read_container`, `range.hpp:59-76`, with the continuation for the elements. -/
def readContainerDev {α : Type} (c : Cfg) (r : Reader) (old : List α)
    (elements : Nat → DSt δ → Option (Bool × List α × DSt δ)) (s : DSt δ) : Option (Bool × List α × DSt δ) :=
  (readSizeDev D N c r s).bind fun p => if p.1 then elements p.2.1.toNat p.2.2 else some (false, old, p.2.2)

mutual

/-- `read` of one argument from a device into an existing object: success, the object afterwards and the state
(`tuple.hpp:37-41`, `range.hpp:78-86`). -/
def readDev (c : Cfg) (r : Reader) : (t : Ty) → Val t → DSt δ → Option (Bool × Val t × DSt δ)
  | .int w signed, x, s => readLeafDev D N c r (intDev D N w signed c.num.base) x s
  | .bool, x, s => readLeafDev D N c r (boolDev D N c.alpha) x s
  | .char, x, s => readCharDev D N c r x s
  | .str, x, s => readLeafDev D N c r (wordDev D N x) x s
  | .tuple ts, x, s => nestedDev D N c r (readTupleDev c r ts x) x s
  | .array _ t, x, s => nestedDev D N c r (readRangeDev (readDev c r t) x) x s
  | .vec t, x, s =>
    nestedDev D N c r (readContainerDev D N c r x fun n s =>
      (resize (default t) n x).bind fun xs => readRangeDev (readDev c r t) xs s) x s
  | .seq t, x, s =>
    nestedDev D N c r (readContainerDev D N c r x fun n s => readEmplaceDev (readDev c r t) (default t) n x s) x s

/-- `read_tuple`, `tuple.hpp:23-27`, `io.hpp:45-48`. -/
def readTupleDev (c : Cfg) (r : Reader) : (ts : Tys) → Vals ts → DSt δ → Option (Bool × Vals ts × DSt δ)
  | .nil, x, s => some (true, x, s)
  | .cons t ts, x, s =>
    (readDev c r t x.1 s).bind fun p =>
      if p.1 then (readTupleDev c r ts x.2 p.2.2).map fun q => (q.1, (p.2.1, q.2.1), q.2.2)
      else some (false, (p.2.1, x.2), p.2.2)

end

/-! ### Writing -/

/-- `write(span)` of a device: whether all characters were written, `byte_span.hpp:15-19`. -/
abbrev Sink (δ : Type) := δ → List Byte → Option (Bool × δ)

/-- `io::buffered`, `wrapper/buffered.hpp:135-158`: always all characters. -/
def bufferedSink : Sink Buffered.Writer := fun w s => some (true, w.write s)

/-- `io::memory`, `memory.hpp:66-72`. -/
def memorySink : Sink Device.Mem := fun m s => (m.write s).map fun p => (p.1 == s.length, p.2)

/-- `io::string`, `string.hpp:42-45`. -/
def stringSink : Sink Device.Str := fun d s => some ((d.write s).1 == s.length, (d.write s).2)

/-- The writing calls of a device: `write(span)`, `byte_span.hpp:15-19`, and `write(char)`, `byte.hpp:18-21`, with whether all
characters were written. -/
abbrev Port (δ : Type) := δ → Buffered.WOp → Option (Bool × δ)

/-- `io::buffered`, `wrapper/buffered.hpp:129-158`: always all characters. -/
def bufferedPort : Port Buffered.Writer := fun w op => some (true, w.step op)

/-- `io::memory`, `memory.hpp:59-72`. -/
def memoryPort : Port Device.Mem
  | m, .put x => (m.write1 x).map fun p => (p.1 == 1, p.2)
  | m, .write s => memorySink m s
  | m, .flush => some (true, m)

/-- `io::string`, `string.hpp:37-45`. -/
def stringPort : Port Device.Str
  | d, .put x => some ((d.write1 x).1 == 1, (d.write1 x).2)
  | d, .write s => stringSink d s
  | d, .flush => some (true, d)

variable (wr : Port δ)

/-- The first part of `batch{space or nothing, x}`, `spaced.hpp:54-63`, `batch.hpp:49-51`. -/
def unitDev (c : Cfg) (s : DSt δ) : Option (Bool × DSt δ) :=
  (wr s.dev (.write (if s.separate then c.space else []))).map fun p => (p.1, ⟨p.2, true⟩)

/-- Go on with `f` after a success. -/
def andThen (p : Option (Bool × DSt δ)) (f : DSt δ → Option (Bool × DSt δ)) : Option (Bool × DSt δ) :=
  p.bind fun q => if q.1 then f q.2 else some q

/-- A number, a boolean or a string, `text` encodes it; a character is written as it is. -/
def writeLeafDev (c : Cfg) (call : Option Buffered.WOp) (s : DSt δ) : Option (Bool × DSt δ) :=
  call.bind fun t => andThen (unitDev wr c s) fun s => (wr s.dev t).map fun p => (p.1, { s with dev := p.2 })

/-- `nested_scope_guard`, `manipulator.hpp:25-36`: the level is left at a failure, too. -/
def deeperDev (f : DSt δ → Option (Bool × DSt δ)) (s : DSt δ) : Option (Bool × DSt δ) :=
  (f (s.level true)).map fun p => (p.1, p.2.level false)

/-- `write(od, fmt, size{n})`, `size.hpp:21-25`. -/
def writeSizeDev (c : Cfg) (n : Nat) (s : DSt δ) : Option (Bool × DSt δ) :=
  andThen (unitDev wr c s) (deeperDev (writeLeafDev wr c ((IntText.encode 64 false c.num n).map .write)))

/-- The loop of `range.hpp:45-47`. -/
def writeAllDev {α : Type} (w : α → DSt δ → Option (Bool × DSt δ)) : List α → DSt δ → Option (Bool × DSt δ)
  | [], s => some (true, s)
  | x :: xs, s => andThen (w x s) (writeAllDev w xs)

mutual

/-- `write` of one argument to a device (`text.hpp:85-89`, `tuple.hpp:31-35`, `range.hpp:39-49`). -/
def writeDev (c : Cfg) : (t : Ty) → Val t → DSt δ → Option (Bool × DSt δ)
  | .int w signed, x, s => writeLeafDev wr c ((IntText.encode w signed c.num x).map .write) s
  | .bool, x, s => writeLeafDev wr c (some (.write (Parser.encodeBool c.alpha x))) s
  | .char, x, s => writeLeafDev wr c (some (.put x)) s
  | .str, x, s => writeLeafDev wr c (some (.write x)) s
  | .tuple ts, x, s => andThen (unitDev wr c s) (deeperDev (writeTupleDev c ts x))
  | .array _ t, x, s => andThen (unitDev wr c s) (deeperDev (writeAllDev (writeDev c t) x))
  | .vec t, x, s =>
    andThen (unitDev wr c s) (deeperDev fun s =>
      andThen (writeSizeDev wr c (List.length x) s) (writeAllDev (writeDev c t) x))
  | .seq t, x, s =>
    andThen (unitDev wr c s) (deeperDev fun s =>
      andThen (writeSizeDev wr c (List.length x) s) (writeAllDev (writeDev c t) x))

/-- `write_tuple`, `tuple.hpp:17-21`, `io.hpp:35-38`. -/
def writeTupleDev (c : Cfg) : (ts : Tys) → Vals ts → DSt δ → Option (Bool × DSt δ)
  | .nil, _, s => some (true, s)
  | .cons t ts, x, s => andThen (writeDev c t x.1 s) (writeTupleDev c ts x.2)

end

end Actl.TextTree
