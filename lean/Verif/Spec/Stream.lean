import Verif.Model.Text

/-!
What a readable device is supposed to do: an independent cursor over a sequence of characters.
`pos` counts the characters consumed; it exceeds the length after `get` at the end.
-/

namespace Actl.Stream

open Actl.Text

inductive Op
  | peek
  | get
  | read (k : Nat)          -- read into a span of `k` characters
  | move (offset : Int)
  | eof
deriving DecidableEq, Repr

inductive Out
  | char (c : Byte)
  | chars (s : List Byte)    -- the transferred characters; the count returned is their number
  | bool (b : Bool)
  | unit
  | count (n : Nat)          -- number of characters written
deriving DecidableEq, Repr

def step (data : List Byte) (pos : Nat) : Op → Out × Nat
  | .peek => (.char (data.getD pos 0#8), pos)
  | .get => (.char (data.getD pos 0#8), pos + 1)
  | .read k => (.chars ((data.drop pos).take k), pos + ((data.drop pos).take k).length)
  | .move off => (.unit, ((pos : Int) + off).toNat)
  | .eof => (.bool (decide (data.length < pos)), pos)

def run (data : List Byte) : Nat → List Op → List Out
  | _, [] => []
  | pos, op :: ops => (step data pos op).1 :: run data (step data pos op).2 ops

/-- Allowed at this position: reading is allowed while the end has not been overrun, moving is
allowed within the data (this is what the library asserts). -/
def Legal (data : List Byte) (pos : Nat) : Op → Prop
  | .read _ => pos ≤ data.length
  | .move off => 0 ≤ (pos : Int) + off ∧ (pos : Int) + off ≤ data.length
  | _ => True

def LegalRun (data : List Byte) : Nat → List Op → Prop
  | _, [] => True
  | pos, op :: ops => Legal data pos op ∧ LegalRun data (step data pos op).2 ops

instance (data : List Byte) (pos : Nat) (op : Op) : Decidable (Legal data pos op) := by
  cases op <;> unfold Legal <;> infer_instance

instance decLegalRun (data : List Byte) : (pos : Nat) → (ops : List Op) →
    Decidable (LegalRun data pos ops)
  | _, [] => isTrue trivial
  | pos, op :: ops =>
    have := decLegalRun data (step data pos op).2 ops
    inferInstanceAs (Decidable (Legal data pos op ∧ LegalRun data (step data pos op).2 ops))

/-! ### Reading and writing the same memory -/

inductive IOOp
  | rd (op : Op)
  | put (c : Byte)
  | write (s : List Byte)
deriving DecidableEq, Repr

/-- Overwrite `data` from `pos` on, keeping its length. -/
def overwrite (data : List Byte) (pos : Nat) (s : List Byte) : List Byte :=
  data.take pos ++ s.take (data.length - pos) ++ data.drop (pos + s.length)

def ioStep (data : List Byte) (pos : Nat) : IOOp → Out × List Byte × Nat
  | .rd op => ((step data pos op).1, data, (step data pos op).2)
  | .put c => (.count (min 1 (data.length - pos)), overwrite data pos [c],
      pos + min 1 (data.length - pos))
  | .write s => (.count (min s.length (data.length - pos)), overwrite data pos s,
      pos + min s.length (data.length - pos))

/-- All the outputs and the final contents. -/
def ioRun : List Byte → Nat → List IOOp → List Out × List Byte
  | data, _, [] => ([], data)
  | data, pos, op :: ops =>
    let r := ioStep data pos op
    let t := ioRun r.2.1 r.2.2 ops
    (r.1 :: t.1, t.2)

def IOLegal (data : List Byte) (pos : Nat) : IOOp → Prop
  | .rd op => Legal data pos op
  | .put _ => True
  | .write _ => pos ≤ data.length

def IOLegalRun : List Byte → Nat → List IOOp → Prop
  | _, _, [] => True
  | data, pos, op :: ops =>
    IOLegal data pos op ∧ IOLegalRun (ioStep data pos op).2.1 (ioStep data pos op).2.2 ops

end Actl.Stream
