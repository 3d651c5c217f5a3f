import Verif.Model.FailingDevice

/-!
Model of `buffered<Device, Buffer, true>`, `io/device/wrapper/buffered.hpp:109-175`, over a device that may fail: the calls of the base are made one by one, and what they return is ignored.
-/

namespace Actl.Failing

open Actl.Text Actl.Buffered

/-- The buffer, the distance of `m_ptr` from its start, and the base. -/
structure Over (δ : Type) where
  buf : List Byte
  ptr : Nat
  dev : δ

namespace Over

variable {δ : Type} (D : Dev δ)

/-- `Device::write(span)`; the result is dropped (`buffered.hpp:118`, `:146`, `:151`). -/
def send (o : Over δ) (s : List Byte) : Over δ := { o with dev := (D.call o.dev (.write s)).2 }

/-- `overflow`, `buffered.hpp:117-120`. -/
def overflow (o : Over δ) : Over δ := { send D o (o.buf.take o.ptr) with ptr := 0 }

/-- `move`, `buffered.hpp:160-165`. -/
def move (o : Over δ) (offset : Nat) : Over δ :=
  let o := { o with ptr := o.ptr + offset }
  if o.ptr = o.buf.length then o.overflow D else o

/-- `write(Char)`, `buffered.hpp:129-133`; it returns 1. -/
def put (o : Over δ) (c : Byte) : Over δ := move D { o with buf := o.buf.set o.ptr c } 1

/-- `write(span)`, `buffered.hpp:135-158`; it returns `chars.size()`. -/
def write (o : Over δ) (s : List Byte) : Over δ :=
  let size := o.buf.length
  let available := size - o.ptr
  if s.length < available then
    { o with buf := o.buf.take o.ptr ++ s ++ o.buf.drop (o.ptr + s.length), ptr := o.ptr + s.length }
  else
    let o := { o with buf := o.buf.take o.ptr ++ s.take available }
    let o := o.send D o.buf
    let chars := s.drop available
    let count := s.length - available
    let remainder := count % size
    let o := if remainder < count then o.send D (chars.take (count - remainder)) else o
    let chars := if remainder < count then chars.drop (count - remainder) else chars
    if 0 < remainder then { o with buf := chars.take remainder ++ o.buf.drop remainder, ptr := remainder } else o

/-- `flush`, `buffered.hpp:167-170`: the base is flushed, too. -/
def flush (o : Over δ) : Over δ := { o.overflow D with dev := (D.call (o.overflow D).dev .flush).2 }

/-- One call. -/
def step (o : Over δ) : WOp → Over δ
  | .put c => o.put D c
  | .write s => o.write D s
  | .flush => o.flush D

end Over

/-- The buffered device as the writing functions see it: it always says that it has written everything. -/
def overPort {δ : Type} (D : Dev δ) : TextTree.Port (Over δ) := fun o op => some (true, o.step D op)

end Actl.Failing
