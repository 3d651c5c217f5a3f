import Mathlib.Data.List.Basic
import Mathlib.Data.Int.Basic
import Mathlib.Order.Basic

/-!
Model of `range/span.hpp` with the members it gets from `range/interface/contiguous_range_interface.hpp`
and of `range/operation/copy.hpp`.

The memory is one array of elements, a pointer is the index of the element it points to (the length of the
array for the pointer past the end), or `none` for the null pointer.  A call ends in one of three ways:
with a value, with a failed `AC_ASSERT` (which throws when `ACTL_DEBUG` is defined, `AC_ASSERT.hpp:10-22`),
or in undefined behaviour.  `size_t` has `w` bits, `ptrdiff_t` is taken to hold all differences of indices.
-/

namespace Actl.Span

universe u

variable {α : Type u}

/-- How a call ends. -/
inductive Out (β : Type u) where
  | ok (b : β)
  | fail
  | ub
  deriving DecidableEq

/-- Run one step after another. -/
def Out.bind {β γ : Type u} : Out β → (β → Out γ) → Out γ
  | .ok b, f => f b
  | .fail, _ => .fail
  | .ub, _ => .ub

/-- A pointer into the array, `none` for the null pointer. -/
abbrev Ptr := Option Nat

/-- `p + k` for an array of `len` elements: undefined when the result is not within the array or one past
its end; null plus zero is null. -/
def add (len : Nat) (p : Ptr) (k : Int) : Out Ptr :=
  match p with
  | none => if k = 0 then .ok none else .ub
  | some i => if 0 ≤ (i : Int) + k ∧ (i : Int) + k ≤ len then .ok (some ((i : Int) + k).toNat) else .ub

/-- `p - q`. -/
def diff (p q : Ptr) : Out Int :=
  match p, q with
  | none, none => .ok 0
  | some i, some j => .ok ((i : Int) - j)
  | _, _ => .ub

/-- Reading `*p`. -/
def read (mem : List α) (p : Ptr) : Out α :=
  match p with
  | none => .ub
  | some i => match mem[i]? with
    | some a => .ok a
    | none => .ub

/-- Writing `*p = a`. -/
def write (mem : List α) (p : Ptr) (a : α) : Out (List α) :=
  match p with
  | none => .ub
  | some i => if i < mem.length then .ok (mem.set i a) else .ub

/-- `static_cast<size_t>(k)`. -/
def toSize (w : Nat) (k : Int) : Nat := (k % (2 ^ w : Nat)).toNat

/-- `span<T, N>`, `span.hpp:18-74`: `extent` is `N`, `none` for `dynamic_size`; `count` is `m_size` of
`size_holder<dynamic_size>`, `size_holder.hpp:28-39` (with a static extent nothing is stored, the member is
then the value the constructor was given and no function below looks at it). -/
structure Sp where
  extent : Option Nat
  data : Ptr
  count : Nat
  deriving DecidableEq

/-- `span(T* ptr, size_t count)`, `span.hpp:29`, with `storage_t`, `span.hpp:65-71`, and the constructors
of `size_holder`, `size_holder.hpp:19-21,31`. -/
def make (N : Option Nat) (ptr : Ptr) (count : Nat) : Out Sp :=
  match N with
  | none => if ptr.isSome || count == 0 then .ok ⟨N, ptr, count⟩ else .fail
  | some n =>
    if count == n then (if ptr.isSome || count == 0 then .ok ⟨N, ptr, count⟩ else .fail) else .fail

/-- `span()`, `span.hpp:25-27`, for the extents 0 and `dynamic_size`. -/
def makeEmpty (N : Option Nat) : Out Sp := make N none 0

/-- `span(T* first, T* last)`, `span.hpp:31-32`. -/
def makeRange (w : Nat) (N : Option Nat) (first last : Ptr) : Out Sp :=
  (diff last first).bind fun d => make N first (toSize w d)

/-- `size()`, `span.hpp:41-43`, `size_holder.hpp:23-25,33-35`. -/
def Sp.size (s : Sp) : Nat :=
  match s.extent with
  | some n => n
  | none => s.count

/-- `span(r)` for a contiguous range whose `data` and `size` are those of the span `r`, `span.hpp:34-35`;
for instance a span with another extent. -/
def convert (N : Option Nat) (r : Sp) : Out Sp := make N r.data r.size

/-- `first(n)`, `span.hpp:45-48`. -/
def first (s : Sp) (n : Nat) : Out Sp :=
  if n ≤ s.size then make none s.data n else .fail

/-- `end()`, `contiguous_range_interface.hpp:26-28`. -/
def endOf (len : Nat) (s : Sp) : Out Ptr := add len s.data s.size

/-- `last(n)`, `span.hpp:50-53`. -/
def last (len : Nat) (s : Sp) (n : Nat) : Out Sp :=
  if n ≤ s.size then
    (endOf len s).bind fun e => (add len e (-(n : Int))).bind fun p => make none p n
  else .fail

/-- `subspan(offset, count)`, `span.hpp:55-58`: the sum is computed in `size_t`. -/
def subspan (w len : Nat) (s : Sp) (offset count : Nat) : Out Sp :=
  if (offset + count) % 2 ^ w ≤ s.size then (add len s.data offset).bind fun p => make none p count
  else .fail

/-- `subspan(offset)`, `span.hpp:60-62`: the difference is computed in `size_t`. -/
def subspanFrom (w len : Nat) (s : Sp) (offset : Nat) : Out Sp :=
  subspan w len s offset (toSize w ((s.size : Int) - offset))

/-- `empty()`, `basic_range_interface.hpp:21-23`. -/
def empty (len : Nat) (s : Sp) : Out (ULift.{u} Bool) :=
  match endOf len s with
  | .ok e => .ok ⟨s.data == e⟩
  | .fail => .fail
  | .ub => .ub

/-- `front()`, `basic_range_interface.hpp:30-34`. -/
def front (mem : List α) (s : Sp) : Out α :=
  (empty mem.length s).bind fun b => if b.down then .fail else read mem s.data

/-- `back()`, `bidirectional_range_interface.hpp:17-23`. -/
def back (mem : List α) (s : Sp) : Out α :=
  (empty mem.length s).bind fun b =>
    if b.down then .fail
    else match endOf mem.length s with
      | .ok e => match add mem.length e (-1) with
        | .ok p => read mem p
        | .fail => .fail
        | .ub => .ub
      | .fail => .fail
      | .ub => .ub

/-- The position of `s[i]`, `random_access_range_interface.hpp:18-24`; `size()` there is
`to_unsigned(end() - begin())`, `random_access_range_interface.hpp:26-28`. -/
def at_ (w len : Nat) (s : Sp) (i : Int) : Out Ptr :=
  match endOf len s with
  | .ok e => match diff e s.data with
    | .ok d => if 0 ≤ i ∧ i < toSize w d then add len s.data i else .fail
    | .fail => .fail
    | .ub => .ub
  | .fail => .fail
  | .ub => .ub

/-- Reading `s[i]`. -/
def index (w : Nat) (mem : List α) (s : Sp) (i : Int) : Out α :=
  match at_ w mem.length s i with
  | .ok p => read mem p
  | .fail => .fail
  | .ub => .ub

/-- Writing `s[i] = a`: the memory afterwards. -/
def assign (w : Nat) (mem : List α) (s : Sp) (i : Int) (a : α) : Out (List α) :=
  match at_ w mem.length s i with
  | .ok p => write mem p a
  | .fail => .fail
  | .ub => .ub

/-- `for (auto x : s)`: from `begin` till `end`; at most `fuel` elements are read, which is enough when it
exceeds the length of the array. -/
def walk (mem : List α) : Nat → Ptr → Ptr → Out (List α)
  | 0, _, _ => .ub
  | fuel + 1, i, e =>
    if i = e then .ok []
    else match read mem i with
      | .ok a => match add mem.length i 1 with
        | .ok j => (walk mem fuel j e).bind fun l => .ok (a :: l)
        | .fail => .fail
        | .ub => .ub
      | .fail => .fail
      | .ub => .ub

/-- The elements a range-based `for` over the span reads. -/
def elems (mem : List α) (s : Sp) : Out (List α) :=
  match endOf mem.length s with
  | .ok e => walk mem (mem.length + 1) s.data e
  | .fail => .fail
  | .ub => .ub

/-! ### Copying -/

/-- The loop of `ranges::copy(target, source)`, `copy.hpp:23-25`, for pointers into the array; `fuel` as in
`walk`.  The results are the memory and the target pointer. -/
def copyLoop : Nat → List α → Ptr → Ptr → Ptr → Out (List α × Ptr)
  | 0, _, _, _, _ => .ub
  | fuel + 1, mem, target, i, e =>
    if i = e then .ok (mem, target)
    else match read mem i with
      | .ok a => match write mem target a with
        | .ok mem' => match add mem.length i 1 with
          | .ok i' => match add mem.length target 1 with
            | .ok target' => copyLoop fuel mem' target' i' e
            | .fail => .fail
            | .ub => .ub
          | .fail => .fail
          | .ub => .ub
        | .fail => .fail
        | .ub => .ub
      | .fail => .fail
      | .ub => .ub

/-- `ranges::copy(OutIter target, source)`, `copy.hpp:15-26`, for a pointer and a span. -/
def copyTo (mem : List α) (target : Ptr) (source : Sp) : Out (List α × Ptr) :=
  match endOf mem.length source with
  | .ok e => copyLoop (mem.length + 1) mem target source.data e
  | .fail => .fail
  | .ub => .ub

/-- `ranges::copy(TargetRange&& target, source)`, `copy.hpp:28-36`, for two spans (spans have no
`static_size`, so that the constraint on the static sizes always holds). -/
def copy (mem : List α) (target source : Sp) : Out (List α) :=
  if target.size = source.size then
    match copyTo mem target.data source with
    | .ok r => .ok r.1
    | .fail => .fail
    | .ub => .ub
  else .fail

end Actl.Span
