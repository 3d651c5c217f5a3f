import Verif.Model.FileDevice

/-! What one expects of a file device. -/

namespace Actl.FileDevice

open Actl.Text

/-- `in`, `mode.hpp:15`. -/
def isIn (mode : Nat) : Bool := mode.testBit 1
/-- `out`, `mode.hpp:16`. -/
def isOut (mode : Nat) : Bool := mode.testBit 2
/-- `app`, `mode.hpp:17`. -/
def isApp (mode : Nat) : Bool := mode.testBit 3

/-- Input operations. -/
inductive Input
  | get
  | read (n : Nat)

/-- How many characters an operation asks for. -/
def Input.wants : Input → Nat
  | .get => 1
  | .read n => n

/-- What the operations deliver if `rest` is still to be read; `get` delivers a zero at the end. -/
def expected : List Byte → List Input → List (List Byte)
  | _, [] => []
  | rest, .get :: ops => [rest.headD 0] :: expected rest.tail ops
  | rest, .read n :: ops => rest.take n :: expected (rest.drop n) ops

/-- Carrying out input operations. -/
def run : List Input → Stream → Option (List (List Byte) × Stream)
  | [], f => some ([], f)
  | .get :: ops, f => (get f).bind fun p => (run ops p.2).map fun q => ([p.1] :: q.1, q.2)
  | .read n :: ops, f => (read n f).bind fun p => (run ops p.2).map fun q => (p.1 :: q.1, q.2)

/-- Writing pieces one after another. -/
def writeAll : List (List Byte) → Stream → Option Stream
  | [], f => some f
  | s :: ss, f => (write s f).bind (writeAll ss)

end Actl.FileDevice
