import Verif.Model.TextDevice
import Verif.Model.BinaryDevice

/-!
Devices that may take fewer characters than they are given, at any call (a full disk, a closed pipe), as the writing functions see them: `io/argument/byte.hpp`,
`io/argument/byte_span.hpp`.
-/

namespace Actl.Failing

open Actl.Text Actl.Buffered

/-- The characters of a call. -/
def chars : WOp → List Byte
  | .put c => [c]
  | .write s => s
  | .flush => []

/-- A device: `call` is `write(char)` or `write(span)` with the number of characters it says it has written, `received` is everything it has taken so far. -/
structure Dev (δ : Type) where
  call : δ → WOp → Nat × δ
  received : δ → List Byte

/-- The device tells the truth about how many of the first characters it has taken.  It may fail at any call and take characters again later. -/
def Dev.Honest {δ : Type} (D : Dev δ) : Prop :=
  ∀ d op, (D.call d op).1 ≤ (chars op).length ∧ D.received (D.call d op).2 = D.received d ++ (chars op).take (D.call d op).1

/-- `write_final` of a character or a span: `od.write(c) == 1`, `byte.hpp:18-21`, and `od.write(s) == s.size()`, `byte_span.hpp:15-19`. -/
def Dev.port {δ : Type} (D : Dev δ) : TextTree.Port δ := fun d op => some ((D.call d op).1 == (chars op).length, (D.call d op).2)

/-- The same for spans alone, which is what binary values are made of. -/
def Dev.sink {δ : Type} (D : Dev δ) : TextTree.Sink δ := fun d s => D.port d (.write s)

end Actl.Failing
