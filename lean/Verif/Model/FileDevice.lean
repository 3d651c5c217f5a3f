import Verif.Model.Text

/-!
# File devices

Model of `io/device/file.hpp` and `io/device/mode.hpp`, over the streams of C (`<cstdio>`), and of skipping characters of such a
device, `io/utility/skip.hpp:19-23`.

Simplifications.  Characters are single bytes.  A stream is a seekable regular file that no one else changes, with memory
and disk space for everything written; its buffer is not modelled (what is written is in the file at the latest when the
device is destroyed, `file.hpp:44-47,117-119`).  There are no line ending conversions, as on POSIX.  `none` is undefined
behaviour or a failed assertion.
-/

namespace Actl.FileDevice

open Actl.Text

/-! ### Streams -/

/-- The last operation on a stream: reading and writing must not follow each other directly (C11 7.21.5.3p7). -/
inductive Last | nothing | read | write
deriving DecidableEq, Repr

/-- A stream of C. -/
structure Stream where
  data : List Byte
  pos : Nat
  /-- the end-of-file indicator -/
  eof : Bool
  readable : Bool
  writable : Bool
  /-- all output goes to the end -/
  append : Bool
  last : Last
deriving DecidableEq, Repr

/-- `fgetc`: the character, or `none` for `EOF`. -/
def fgetc (f : Stream) : Option (Option Byte × Stream) :=
  if f.readable = false ∨ f.last = .write then none
  else if f.eof then some (none, { f with last := .read })
  else match f.data[f.pos]? with
    | some c => some (some c, { f with pos := f.pos + 1, last := .read })
    | none => some (none, { f with eof := true, last := .read })

/-- `fread` of `n` characters. -/
def fread (n : Nat) (f : Stream) : Option (List Byte × Stream) :=
  if f.readable = false ∨ f.last = .write then none
  else if f.eof ∨ n = 0 then some ([], { f with last := .read })
  else
    some ((f.data.drop f.pos).take n,
      { f with pos := f.pos + ((f.data.drop f.pos).take n).length, last := .read,
               eof := decide (((f.data.drop f.pos).take n).length < n) })

/-- `fseek` from the current position; `none` if it fails. -/
def fseek (offset : Int) (f : Stream) : Option Stream :=
  if (f.pos : Int) + offset < 0 then none
  else some { f with pos := ((f.pos : Int) + offset).toNat, eof := false, last := .nothing }

/-- `fwrite`, and `fputc` for a single character.  Input may be followed by output only at the end of the file. -/
def fwrite (s : List Byte) (f : Stream) : Option Stream :=
  if f.writable = false ∨ (f.last = .read ∧ f.eof = false) then none
  else if f.append then
    some { f with data := f.data ++ s, pos := f.data.length + s.length, last := .write }
  else
    some { f with
      data := f.data.take f.pos ++ List.replicate (f.pos - f.data.length) 0 ++ s ++ f.data.drop (f.pos + s.length)
      pos := f.pos + s.length
      last := .write }

/-- `fflush` -/
def fflush (f : Stream) : Stream := { f with last := if f.last = .write then .nothing else f.last }

/-- `fopen` of a file with the given contents, if it exists; `none` if it fails. -/
def fopen (mode : String) (existing : Option (List Byte)) : Option Stream :=
  match mode with
  | "r" => existing.map fun s => ⟨s, 0, false, true, false, false, .nothing⟩
  | "w" => some ⟨[], 0, false, false, true, false, .nothing⟩
  | "a" => some ⟨existing.getD [], 0, false, false, true, true, .nothing⟩
  | "r+" => existing.map fun s => ⟨s, 0, false, true, true, false, .nothing⟩
  | "w+" => some ⟨[], 0, false, true, true, false, .nothing⟩
  | "a+" => some ⟨existing.getD [], 0, false, true, true, true, .nothing⟩
  | _ => none

/-! ### The device -/

/-- `mode_str`, `file.hpp:18-33`, without the letters `b`, which change nothing here: two entries each. -/
def modeStr : List String := ["r", "r", "w", "w", "w+", "w+", "a", "a", "a+", "a+", "a", "a", "r+", "r+"]

/-- The constructor, `file.hpp:36-42`; the mode is one of 2–15, `io.hpp:24`. -/
def openFile (mode : Nat) (existing : Option (List Byte)) : Option Stream :=
  (modeStr[mode % 16 - 2]?).bind fun m => fopen m existing

/-- `eof`, `file.hpp:53-55`. -/
def eof (f : Stream) : Bool := f.eof

/-- `get`, `file.hpp:73-76`. -/
def get (f : Stream) : Option (Byte × Stream) := (fgetc f).map fun p => (p.1.getD 0, p.2)

/-- `move`, `file.hpp:84-89`. -/
def move (offset : Int) (f : Stream) : Option Stream := fseek offset f

/-- `peek`, `file.hpp:67-71`. -/
def peek (f : Stream) : Option (Byte × Stream) := (get f).bind fun p => (move (-1) p.2).map fun g => (p.1, g)

/-- `read`, `file.hpp:78-82`. -/
def read (n : Nat) (f : Stream) : Option (List Byte × Stream) := fread n f

/-- `write`, `file.hpp:103-111`. -/
def write (s : List Byte) (f : Stream) : Option Stream := fwrite s f

/-- `flush`, `file.hpp:113-115`. -/
def flush (f : Stream) : Stream := fflush f

/-- `skip::operator()`, `skip.hpp:19-23`, with at most `fuel` rounds. -/
def skip (p : Byte → Bool) : Nat → Stream → Option Stream
  | 0, _ => none
  | fuel + 1, f =>
    if eof f then some f
    else (peek f).bind fun q => if p q.1 then (move 1 q.2).bind (skip p fuel) else some q.2

end Actl.FileDevice
