import Verif.Model.Buffered

/-!
What buffered devices are supposed to do.
-/

namespace Actl.Buffered

open Actl.Text Actl.Stream

/-- One call on a reader of `data` after `pos` consumed characters: `consume k` may deliver any
number of the next characters up to `k`, but at least one if there are any. -/
def SpecStep (data : List Byte) (pos : Nat) (op : Op) (out : Out) (pos' : Nat) : Prop :=
  match op with
  | .peek => out = .char (data.getD pos 0#8) ∧ pos' = pos
  | .get => out = .char (data.getD pos 0#8) ∧ pos' = pos + 1
  | .read k => out = .chars ((data.drop pos).take k) ∧ pos' = pos + min k (data.length - pos)
  | .eof => out = .bool (decide (data.length < pos)) ∧ pos' = pos
  | .consume k => ∃ n, n ≤ k ∧ n ≤ data.length - pos ∧ (n = 0 → k = 0 ∨ pos = data.length) ∧
      out = .chars ((data.drop pos).take n) ∧ pos' = pos + n
  | .back k => out = .unit ∧ pos' + k = pos

/-- Spans may be read until the end has been overrun by `get`. -/
def SpecLegal (data : List Byte) (pos : Nat) : Op → Prop
  | .read _ | .consume _ => pos ≤ data.length
  | _ => True

/-- The outputs follow the specification for as long as the client is within its contract.  Moving back
may be refused (by an assertion). -/
def Follows (data : List Byte) : Nat → List Op → List Out → Prop
  | _, [], outs => outs = []
  | pos, op :: ops, outs => SpecLegal data pos op → ((∃ k, op = .back k) ∧ outs = []) ∨
      ∃ o outs' pos', outs = o :: outs' ∧ SpecStep data pos op o pos' ∧ Follows data pos' ops outs'

/-- What a sequence of calls on a writer is supposed to send. -/
def written : List WOp → List Byte
  | [] => []
  | .put c :: ops => c :: written ops
  | .write s :: ops => s ++ written ops
  | .flush :: ops => written ops

/-- No span write ends exactly on a boundary of the buffer while characters of earlier writes are
waiting in it; `p` is the number of waiting characters. -/
def NoBoundary (B : Nat) : Nat → List WOp → Prop
  | _, [] => True
  | p, .put _ :: ops => NoBoundary B ((p + 1) % B) ops
  | p, .write s :: ops =>
      (p + s.length < B ∨ (p + s.length) % B ≠ 0 ∨ p = 0) ∧ NoBoundary B ((p + s.length) % B) ops
  | _, .flush :: ops => NoBoundary B 0 ops

end Actl.Buffered
