import Verif.Spec.Tensor

/-!
Model of `container/tensor.hpp`.  Storage is a list of cells, pointers are offsets into it; `none`
is undefined behaviour (a write or fill out of the storage, a fill with `last` before `first`).
`size_t` is modelled modulo `2^64` in the index computations, and unbounded in the initialization
from nested lists.
-/

namespace Actl.Tensor

/-- `compute_product`, `tensor.hpp:50-55`. -/
def computeProduct (dims : List Nat) : Nat := dims.foldl (fun res v => res * v % 2 ^ 64) 1

/-- `get_index<I>(res, is...)`, `tensor.hpp:470-483`. -/
def getIndex (dims : List Nat) : Nat → Nat → List Nat → Nat
  | _, res, [] => res
  | I, res, i :: is =>
    let res := if I > 0 then res * dims.getD I 0 % 2 ^ 64 else res
    getIndex dims (I + 1) ((res + i) % 2 ^ 64) is

/-- `operator()(is...)`, `tensor.hpp:460-468`: the cell. -/
def callIndex (dims is : List Nat) : Nat := getIndex dims 0 0 is

/-- `operator[](i)`, `tensor.hpp:307-337,358-366`: a view of the remaining dimensions at an offset
(and for rank one, `:334-336`, the cell). -/
def subscript (view : Nat × List Nat) (i : Nat) : Nat × List Nat :=
  match view with
  | (off, []) => (off, [])
  | (off, [_]) => ((off + i) % 2 ^ 64, [])
  | (off, _ :: ds) => ((off + i * computeProduct ds) % 2 ^ 64, ds)

/-- `t[i][j]...`: the cell. -/
def chained (dims is : List Nat) : Nat := (is.foldl subscript (0, dims)).1

variable {α : Type}

/-- `std::fill(mem + a, mem + b, z)`. -/
def fill (z : α) (mem : List α) (a b : Nat) : Option (List α) :=
  if a ≤ b ∧ b ≤ mem.length then some (mem.take a ++ List.replicate (b - a) z ++ mem.drop b) else none

/-- `std::copy(il.begin(), il.end(), mem + p)`: memory and end. -/
def copyAt (mem : List α) (p : Nat) (xs : List α) : Option (List α × Nat) :=
  if p + xs.length ≤ mem.length then
    some (mem.take p ++ xs ++ mem.drop (p + xs.length), p + xs.length)
  else none

/-- `strides`, `tensor.hpp:134-139`, for the dimensions from some level on. -/
def codeStrides : List Nat → List Nat
  | [] => []
  | [_] => []
  | [_, d1] => [d1]
  | d0 :: ds => match codeStrides ds with
    | [] => []
    | s :: ss => s * d0 :: s :: ss

/-- The loop of `initialize<I>` for `I + 1 < N`, `tensor.hpp:158-163`. -/
def rows {β : Type} (z : α) (f : β → Nat → List α → Option (List α × Nat)) (stride : Nat) :
    List β → Nat → List α → Option (List α × Nat)
  | [], p, mem => some (mem, p)
  | x :: xs, p, mem =>
    match f x p mem with
    | none => none
    | some (mem, e) =>
      match fill z mem e (p + stride) with
      | none => none
      | some mem => rows z f stride xs (p + stride) mem

/-- `initialize<I>`, `tensor.hpp:149-167`, where `n + 1 = N - I` and `strides` are those from
`strides[I]` on. -/
def initLevel (z : α) : (n : Nat) → List Nat → Nest α (n + 1) → Nat → List α → Option (List α × Nat)
  | 0, _, il, p, mem => copyAt mem p il
  | _ + 1, [], _, _, _ => none
  | n + 1, s :: ss, il, p, mem =>
    rows z (initLevel z n ss) s (items il) p mem

/-- The constructor from nested lists, `tensor.hpp:130-142`; `mem` is the fresh storage. -/
def nestedInit (z : α) (n : Nat) (dims : List Nat) (il : Nest α (n + 1)) (mem : List α) :
    Option (List α) :=
  match initLevel z n (codeStrides dims) il 0 mem with
  | none => none
  | some (mem, e) => fill z mem e mem.length

/-- `compute_dimensions<I>`, `tensor.hpp:265-272`, on the dimensions from `I` on. -/
def computeDims : (n : Nat) → Nest α n → List Nat → List Nat
  | 0, _, dims => dims
  | _ + 1, _, [] => []
  | n + 1, il, d :: ds =>
    Nat.max d (items il).length ::
      (items il).foldl (fun ds x => computeDims n x ds) ds

/-- `tensor_shape(il)`, `tensor.hpp:240-244`: dimensions and data; `fresh` gives the storage of the
required size. -/
def ofNested (z : α) (n : Nat) (il : Nest α (n + 1)) (fresh : Nat → List α) :
    Option (List Nat × List α) :=
  let dims := computeDims (n + 1) il (List.replicate (n + 1) 0)
  match nestedInit z n dims il (fresh (dims.foldl (· * ·) 1)) with
  | none => none
  | some data => some (dims, data)

/-- `TensorEqual`, `tensor.hpp:544-557`, for tensors of the same element type: rank, dimensions one
by one, elements one by one. -/
def equal [DecidableEq α] (l r : List Nat × List α) : Bool :=
  if l.1.length ≠ r.1.length then false
  else if (List.range l.1.length).any (fun i => l.1.getD i 0 ≠ r.1.getD i 0) then false
  else decide (l.2 = r.2)

end Actl.Tensor
