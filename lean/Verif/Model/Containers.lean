import Verif.Spec.Containers

/-!
Model of `container/adaptor/queue_using_stacks.hpp`, `container/adaptor/vector_as_queue.hpp`,
`container/adaptor/array_as_vector.hpp`, `container/array/semi_static_array.hpp`.
`none` is undefined behaviour.
-/

namespace Actl.Containers

variable {α : Type}

/-! ### queue_using_stacks -/

/-- The two stacks, tops first, `queue_using_stacks.hpp:18-19`.  As written, `pop` calls `pop_back`
(`:65`) which `std::stack` does not have; the model is for a `Stack` whose `pop_back` is `pop`. -/
structure TwoStacks (α : Type) where
  inS : List α
  outS : List α
deriving DecidableEq, Repr

/-- The loop of `fill_out_stack`, `queue_using_stacks.hpp:23-26`. -/
def moveAll : List α → List α → List α
  | [], out => out
  | x :: inS, out => moveAll inS (x :: out)

/-- `fill_out_stack`, `queue_using_stacks.hpp:21-28`. -/
def TwoStacks.fill (q : TwoStacks α) : TwoStacks α :=
  if q.outS.isEmpty then ⟨[], moveAll q.inS q.outS⟩ else q

/-- The public functions, `queue_using_stacks.hpp:37-66`; `front` is called `top`; there is no
`back`. -/
def TwoStacks.step (q : TwoStacks α) : QOp α → Option (Out α × TwoStacks α)
  | .push x => some (.unit, { q with inS := x :: q.inS })
  | .pop => match q.fill.outS with | [] => none | _ :: out => some (.unit, { q.fill with outS := out })
  | .front => match q.fill.outS with | [] => none | x :: _ => some (.val x, q.fill)
  | .back => none
  | .size => some (.nat (q.inS.length + q.outS.length), q)
  | .empty => some (.bool (q.inS.isEmpty && q.outS.isEmpty), q)

/-! ### vector_as_queue -/

/-- `m_vector` and `m_begin`, `vector_as_queue.hpp:70-71`. -/
structure VecQueue (α : Type) where
  vec : List α
  begin : Nat
deriving DecidableEq, Repr

/-- The public functions, `vector_as_queue.hpp:27-67`.  `size_t` is taken to be unbounded except
that a negative size is `2^64` minus its absolute value. -/
def VecQueue.step (q : VecQueue α) : QOp α → Option (Out α × VecQueue α)
  | .push x => some (.unit, { q with vec := q.vec ++ [x] })
  | .pop => some (.unit, { q with begin := q.begin + 1 })       -- the assertion is not checked
  | .front => match q.vec[q.begin]? with | none => none | some x => some (.val x, q)
  | .back => match q.vec.getLast? with | none => none | some x => some (.val x, q)
  | .size => some (.nat (if q.begin ≤ q.vec.length then q.vec.length - q.begin
      else 2 ^ 64 - (q.begin - q.vec.length)), q)
  | .empty => some (.bool (q.begin == q.vec.length), q)

/-! ### array_as_vector -/

/-- `m_array` (all of its `N` elements) and the offset of `m_end`, `array_as_vector.hpp:109-110`. -/
structure ArrVec (α : Type) where
  arr : List α
  «end» : Nat
deriving DecidableEq, Repr

/-- The public functions, `array_as_vector.hpp:27-106`.  Access to an element outside of the array
is undefined behaviour. -/
def ArrVec.step (v : ArrVec α) : VOp α → Option (Out α × ArrVec α)
  | .push x => if v.end < v.arr.length then some (.unit, ⟨v.arr.set v.end x, v.end + 1⟩) else none
  | .pop => if v.end = 0 then none else some (.unit, { v with «end» := v.end - 1 })
  | .clear => some (.unit, { v with «end» := 0 })
  | .at i => match v.arr[i]? with | none => none | some x => some (.val x, v)
  | .set i x => if i < v.arr.length then some (.unit, { v with arr := v.arr.set i x }) else none
  | .front => match v.arr[0]? with | none => none | some x => some (.val x, v)
  | .back => if v.end = 0 then none
      else match v.arr[v.end - 1]? with | none => none | some x => some (.val x, v)
  | .size => some (.nat v.end, v)
  | .empty => some (.bool (v.end == 0), v)
  | .elements => some (.vals (v.arr.take v.end), v)

/-- An object with the array it owns (its identity `id`) and `m_end`, an iterator into the array
number `owner`. -/
structure ArrObj (α : Type) where
  id : Nat
  arr : List α
  owner : Nat
  «end» : Nat

/-- The implicitly defined copy constructor: both members are copied (`array_as_vector.hpp:17-111`
declares none), so `m_end` still points into the old array. -/
def ArrObj.copy (v : ArrObj α) (newId : Nat) : ArrObj α := { v with id := newId }

/-- `size()`, `array_as_vector.hpp:45-47`; the difference of pointers into different arrays is
undefined. -/
def ArrObj.size (v : ArrObj α) : Option Nat := if v.owner = v.id then some v.end else none

/-! ### semi_static_array -/

section SemiStatic

variable [DecidableEq α]

/-- `dynamic_index_f`, `semi_static_array.hpp:116-121` (also `dynamic_index`, `:106-114`); `dyn` is
`dynamic_extent<T>`. -/
def dynamicIndex (dyn : α) (statics : List α) (i : Nat) : Nat :=
  ((statics.take i).map (fun s => if s = dyn then 1 else 0)).sum

/-- `operator[](size_t)`, `semi_static_array.hpp:61-67`. -/
def semiAt (dyn : α) (statics dynamics : List α) (i : Nat) : Option α :=
  match statics[i]? with
  | none => none
  | some s => if s ≠ dyn then some s else dynamics[dynamicIndex dyn statics i]?

/-- Assignment through `operator[](constant<I>)`, `semi_static_array.hpp:79-83`: the dynamic values
afterwards; only available for dynamic positions. -/
def semiSet (dyn : α) (statics dynamics : List α) (i : Nat) (x : α) : Option (List α) :=
  match statics[i]? with
  | none => none
  | some s => if s = dyn then some (dynamics.set (dynamicIndex dyn statics i) x) else none

/-- `(..., assign_at<Is>(xs))`, `semi_static_array.hpp:123-135`: `assign_at` for the positions from
`i` on. -/
def assignAll (dyn : α) (statics : List α) : Nat → List α → List α → List α
  | _, [], dynamics => dynamics
  | i, x :: xs, dynamics =>
    assignAll dyn statics (i + 1) xs
      (if statics[i]? = some dyn then dynamics.set (dynamicIndex dyn statics i) x else dynamics)

/-- The constructor from all the values, `semi_static_array.hpp:49-50`; `zero` is `T{}`. -/
def semiInit (dyn zero : α) (statics xs : List α) : List α :=
  assignAll dyn statics 0 xs (List.replicate (statics.count dyn) zero)

end SemiStatic

end Actl.Containers
