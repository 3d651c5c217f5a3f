/-!
What queues and bounded vectors are supposed to do.  `none`: the call is outside of the contract.
-/

namespace Actl.Containers

inductive Out (α : Type)
  | unit
  | val (x : α)
  | vals (xs : List α)
  | nat (n : Nat)
  | bool (b : Bool)
deriving DecidableEq, Repr

inductive QOp (α : Type)
  | push (x : α)
  | pop
  | front
  | back
  | size
  | empty
deriving DecidableEq, Repr

/-- A FIFO queue, oldest element first. -/
def qSpec {α : Type} : List α → QOp α → Option (Out α × List α)
  | q, .push x => some (.unit, q ++ [x])
  | [], .pop => none
  | _ :: q, .pop => some (.unit, q)
  | [], .front => none
  | x :: q, .front => some (.val x, x :: q)
  | q, .back => match q.getLast? with | none => none | some x => some (.val x, q)
  | q, .size => some (.nat q.length, q)
  | q, .empty => some (.bool q.isEmpty, q)

inductive VOp (α : Type)
  | push (x : α)
  | pop
  | clear
  | at (i : Nat)
  | set (i : Nat) (x : α)        -- assignment through `operator[]`
  | front
  | back
  | size
  | empty
  | elements                     -- iteration from begin() to end()
deriving DecidableEq, Repr

/-- A vector of at most `cap` elements. -/
def vSpec {α : Type} (cap : Nat) (v : List α) : VOp α → Option (Out α × List α)
  | .push x => if v.length < cap then some (.unit, v ++ [x]) else none
  | .pop => if v = [] then none else some (.unit, v.dropLast)
  | .clear => some (.unit, [])
  | .at i => match v[i]? with | none => none | some x => some (.val x, v)
  | .set i x => if i < v.length then some (.unit, v.set i x) else none
  | .front => match v.head? with | none => none | some x => some (.val x, v)
  | .back => match v.getLast? with | none => none | some x => some (.val x, v)
  | .size => some (.nat v.length, v)
  | .empty => some (.bool v.isEmpty, v)
  | .elements => some (.vals v, v)

/-- All the outputs of a history, `none` if a call is outside of the contract. -/
def run {σ ω o : Type} (step : σ → ω → Option (o × σ)) : σ → List ω → Option (List o)
  | _, [] => some []
  | s, op :: ops =>
    match step s op with
    | none => none
    | some (x, s) => match run step s ops with | none => none | some xs => some (x :: xs)

end Actl.Containers
