import Verif.Spec.Stream

/-!
Model of `io/device/wrapper/buffered.hpp`: `buffered_reader` and the writing `buffered`.

The buffer has `B` characters.  The underlying device is given by the characters it has not
delivered yet (reader: `rest`; a `Device::read` of `k` characters delivers `min k` of them, as the
memory, string and file devices do) or by the characters it has received (writer: `sink`).
Pointers into the buffer are offsets.
-/

namespace Actl.Buffered

open Actl.Text

/-! ### Reader -/

/-- `buffered_reader`: `buf` are the valid characters `[data, m_end)` of the buffer, `ptr` is
`m_ptr`, `rest` is what the underlying device has left. -/
structure Reader where
  buf : List Byte
  ptr : Nat
  rest : List Byte
deriving DecidableEq, Repr

namespace Reader

/-- A new reader: `m_end = m_ptr = data(m_buf)`, `buffered.hpp:24,35`. -/
def fresh (data : List Byte) : Reader := ⟨[], 0, data⟩

/-- `underflow`, `buffered.hpp:37-40`. -/
def underflow (B : Nat) (r : Reader) : Reader := ⟨r.rest.take B, 0, r.rest.drop B⟩

/-- `input_buffer`, `buffered.hpp:45-47` (a span of negative length is not usable). -/
def inputBuffer (r : Reader) : Option (List Byte) :=
  if r.ptr ≤ r.buf.length then some (r.buf.drop r.ptr) else none

/-- `peek`, `buffered.hpp:49-51`. -/
def peek (r : Reader) : Byte := if r.ptr < r.buf.length then r.buf.getD r.ptr 0#8 else 0#8

/-- `move`, `buffered.hpp:86-93`, forward. -/
def move (B : Nat) (r : Reader) (offset : Nat) : Reader :=
  let r := { r with ptr := r.ptr + offset }
  if r.ptr = r.buf.length then r.underflow B else r

/-- `move(-offset)`, `buffered.hpp:86-93`.  `none`: the assertion fails, `m_ptr` is before the buffer. -/
def moveBack (B : Nat) (r : Reader) (offset : Nat) : Option Reader :=
  if r.ptr < offset then none
  else
    let r := { r with ptr := r.ptr - offset }
    some (if r.ptr = r.buf.length then r.underflow B else r)

/-- `get`, `buffered.hpp:53-57`. -/
def get (B : Nat) (r : Reader) : Byte × Reader := (r.peek, r.move B 1)

/-- `read`, `buffered.hpp:59-84`.  When `m_ptr` is beyond `m_end` then `available` wraps around
and stale or foreign memory is read: `none`. -/
def read (B : Nat) (r : Reader) (k : Nat) : Option (List Byte × Reader) :=
  if r.buf.length < r.ptr then none
  else
    let available := r.buf.length - r.ptr
    if k < available then
      some ((r.buf.drop r.ptr).take k, { r with ptr := r.ptr + k })
    else
      let first := r.buf.drop r.ptr
      let count := k - available
      let remainder := count % B
      -- whole blocks go directly to the destination
      let direct := if remainder < count then r.rest.take (count - remainder) else []
      let rest := if remainder < count then r.rest.drop (count - remainder) else r.rest
      let r := underflow B { r with rest := rest }
      let remainder := min remainder (r.buf.length - r.ptr)
      if 0 < remainder then
        some (first ++ direct ++ (r.buf.drop r.ptr).take remainder, r.move B remainder)
      else some (first ++ direct, r)

/-- `eof`, `buffered.hpp:95-97`. -/
def eof (r : Reader) : Bool := decide (r.buf.length < r.ptr)

end Reader

/-- What a client does with a buffered reader.  `consume k` is the pattern of
`parsed_available_data`, `io/core/parser_executor.hpp:14-22`: look at `input_buffer()`, use at most
`k` characters from its front and `move` over them.  `back k` is `move(-k)`. -/
inductive Op
  | peek
  | get
  | read (k : Nat)
  | eof
  | consume (k : Nat)
  | back (k : Nat)
deriving DecidableEq, Repr

namespace Reader

/-- One call; `none` is undefined behaviour. -/
def step (B : Nat) (r : Reader) : Op → Option (Stream.Out × Reader)
  | .peek => some (.char r.peek, r)
  | .get => some (.char (r.get B).1, (r.get B).2)
  | .read k => match r.read B k with | none => none | some (s, r) => some (.chars s, r)
  | .eof => some (.bool r.eof, r)
  | .consume k =>
    match r.inputBuffer with
    | none => none
    | some s => some (.chars (s.take k), if s.isEmpty then r else r.move B (s.take k).length)
  | .back k => match r.moveBack B k with | none => none | some r => some (.unit, r)

/-- The outputs up to the first undefined behaviour. -/
def run (B : Nat) : Reader → List Op → List Stream.Out
  | _, [] => []
  | r, op :: ops => match r.step B op with | none => [] | some (o, r) => o :: run B r ops

end Reader

/-- `while (parsed_available_data(id, parser)) {}` on a buffered reader,
`io/core/parser_executor.hpp:14-22,30`: consumed characters, parser and reader afterwards.  At most
`fuel` iterations (`none` if they do not suffice, or on undefined behaviour). -/
def Reader.drive {σ : Type} (B : Nat) (parse : σ → List Byte → Option (Nat × σ)) :
    Nat → σ → Reader → Option (Nat × σ × Reader)
  | 0, _, _ => none
  | fuel + 1, st, r =>
    match r.inputBuffer with
    | none => none
    | some s =>
      if s.isEmpty then some (0, st, r)
      else match parse st s with
        | none => none
        | some (offset, st') =>
          if offset = s.length then
            match drive B parse fuel st' (r.move B offset) with
            | none => none
            | some (n, st'', r') => some (offset + n, st'', r')
          else some (offset, st', r.move B offset)

/-! ### Writer -/

/-- `buffered` for output: the whole buffer of `B` characters, `m_ptr`, the characters already
passed to the underlying device. -/
structure Writer where
  buf : List Byte
  ptr : Nat
  sink : List Byte
deriving DecidableEq, Repr

namespace Writer

/-- A new writer (the contents of the buffer are arbitrary). -/
def fresh (buf : List Byte) : Writer := ⟨buf, 0, []⟩

/-- `overflow`, `buffered.hpp:117-120`. -/
def overflow (w : Writer) : Writer := { w with sink := w.sink ++ w.buf.take w.ptr, ptr := 0 }

/-- `move`, `buffered.hpp:160-165`. -/
def move (w : Writer) (offset : Nat) : Writer :=
  let w := { w with ptr := w.ptr + offset }
  if w.ptr = w.buf.length then w.overflow else w

/-- `write(Char)`, `buffered.hpp:129-133`. -/
def put (w : Writer) (c : Byte) : Writer := move { w with buf := w.buf.set w.ptr c } 1

/-- `write(span)`, `buffered.hpp:135-158`. -/
def write (w : Writer) (s : List Byte) : Writer :=
  let available := w.buf.length - w.ptr
  if s.length < available then
    { w with buf := w.buf.take w.ptr ++ s ++ w.buf.drop (w.ptr + s.length), ptr := w.ptr + s.length }
  else
    let buf := w.buf.take w.ptr ++ s.take available
    let sink := w.sink ++ buf
    let chars := s.drop available
    let count := s.length - available
    let remainder := count % w.buf.length
    let sink := if remainder < count then sink ++ chars.take (count - remainder) else sink
    let chars := if remainder < count then chars.drop (count - remainder) else chars
    if 0 < remainder then
      ⟨chars.take remainder ++ buf.drop remainder, remainder, sink⟩
    else ⟨buf, w.ptr, sink⟩                                     -- m_ptr stays

/-- `flush`, `buffered.hpp:167-170`; the destructor `:172-174` does the same. -/
def flush (w : Writer) : Writer := w.overflow

end Writer

/-- What a client does with a writer. -/
inductive WOp
  | put (c : Byte)
  | write (s : List Byte)
  | flush
deriving DecidableEq, Repr

namespace Writer

def step (w : Writer) : WOp → Writer
  | .put c => w.put c
  | .write s => w.write s
  | .flush => w.flush

/-- Everything the underlying device has received after all the calls and the destructor. -/
def received (w : Writer) (ops : List WOp) : List Byte := ((ops.foldl step w).flush).sink

end Writer

end Actl.Buffered
