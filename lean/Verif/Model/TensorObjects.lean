import Verif.Model.TensorAccess
import Verif.Spec.TensorObjects

/-!
Model of the life of tensors, `container/tensor.hpp`: construction, copies and moves (the ones the compiler
generates), swap, destruction, views, access and iteration.

Memory is a list of blocks of cells; a block is the array that a `std::unique_ptr` owns or the `std::array` in an object.
An uninitialised cell is `none`, a block whose lifetime has ended is `none`.  Objects, blocks and views are numbered in the order
of creation and numbers are not used again.  `none` as a result is undefined behaviour, a failed assertion or a call that does
not compile.  Not modelled: failure of `new`, constructors and assignments of the elements that do more than copy, dimensions
partly in the type (`tensor.hpp:491-495` converts `dynamic_size` to `int` in a template argument, which does not compile),
nested lists (C31).
-/

namespace Actl.TensorObj

open Actl.Tensor (computeProduct checkedIndex View)

/-- A tensor: its type, `m_dims` (`tensor.hpp:193-209`; in the type for `static_array`, `:266-301`) and the block of its
data; `none` is the null pointer. -/
structure Obj where
  ty : Ty
  dims : List Nat
  data : Option Nat
deriving DecidableEq, Repr

/-- A `tensor_view` or the result of a subscript: `tensor_data<N, T*>` (`tensor.hpp:169-191`) with its own dimensions; `at` has
the offset in the block, the dimensions and the rank. -/
structure VObj where
  data : Option Nat
  at_ : View
  fixed : Bool
deriving DecidableEq, Repr

structure State (α : Type) where
  objs : List (Option Obj)
  blocks : List (Option (List (Option α)))
  views : List VObj

variable {α : Type}

/-- Whether `Data` is `std::array`: `tensor_fixed<T, 0, Dims...>`, `tensor.hpp:497-505`; the others have a `unique_ptr`,
`:525-528`. -/
def inArray : Ty → Bool
  | .fixed ds => !decide (16 < computeProduct ds)
  | _ => false

/-- `m_dims` from the dimensions given: in the type, `tensor.hpp:266-301`; `std::copy_n` of `N` elements of the list, `:203-205`;
a vector, `:193-196`.  There is no `tensor<T, 0>` with a `std::array` of dimensions, `:512-515,530-531`. -/
def makeDims : Ty → List Nat → Option (List Nat)
  | .fixed ds, dims => if dims = ds then some ds else none
  | .rank n, dims => if 0 < n ∧ n ≤ dims.length then some (dims.take n) else none
  | .dynamic, dims => some dims

/-- The cells of a new tensor: `tensor_container(size)`, `tensor.hpp:67-69,93`, then nothing, `:118`, `std::fill_n`, `:126-128`, or
the assertion and `std::copy_n`, `:120-124`. -/
def makeCells (size : Nat) : Init α → Option (List (Option α))
  | .nothing => some (List.replicate size none)
  | .value x => some (List.replicate size (some x))
  | .range xs => if size = xs.length then some (xs.map some) else none

/-- What a move leaves of `m_dims`: a `std::vector` is left empty, a `std::array` is copied. -/
def leftDims : Ty → List Nat → List Nat
  | .dynamic, _ => []
  | _, dims => dims

/-- Whether the dimensions are a `static_array`. -/
def inType : Ty → Bool
  | .fixed _ => true
  | _ => false

/-- `data()` with the dimensions: of a tensor, `tensor.hpp:71-77,95-101`, or a view, `:176-182`. -/
def State.find (s : State α) : Handle → Option VObj
  | .obj x => do
    let o ← (← s.objs[x]?)
    pure ⟨o.data, ⟨o.dims.length, o.dims, 0⟩, inType o.ty⟩
  | .view v => s.views[v]?

/-- The block behind a tensor or a view, if it exists. -/
def State.block (s : State α) (w : VObj) : Option (Nat × List (Option α)) := do
  let b ← w.data
  let cells ← (← s.blocks[b]?)
  pure (b, cells)

/-- Repeated subscripts, `tensor.hpp:319-327,358-366`. -/
def subscripts (v : View) : List Nat → Option View
  | [] => some v
  | i :: is => do
    let u ← v.subscript i
    subscripts u is

/-- One statement. -/
def State.step (s : State α) : Stmt α → Option (State α × Option (Obs α))
  -- `tensor.hpp:222-237,274-275`
  | .make ty dims i => do
    let dims ← makeDims ty dims
    let cells ← makeCells (computeProduct dims) i
    pure ({ s with objs := s.objs ++ [some ⟨ty, dims, some s.blocks.length⟩], blocks := s.blocks ++ [some cells] }, none)
  -- the copy constructor exists with a `std::array` only
  | .copy x => do
    let o ← (← s.objs[x]?)
    if inArray o.ty then
      let b ← o.data
      let cells ← (← s.blocks[b]?)
      pure ({ s with objs := s.objs ++ [some ⟨o.ty, o.dims, some s.blocks.length⟩], blocks := s.blocks ++ [some cells] }, none)
    else none
  -- the move constructor: a `std::array` is copied, a `unique_ptr` leaves null, a `std::vector` is left empty
  | .move x => do
    let o ← (← s.objs[x]?)
    if inArray o.ty then
      let b ← o.data
      let cells ← (← s.blocks[b]?)
      pure ({ s with objs := s.objs ++ [some ⟨o.ty, o.dims, some s.blocks.length⟩], blocks := s.blocks ++ [some cells] }, none)
    else
      pure ({ s with objs := s.objs.set x (some ⟨o.ty, leftDims o.ty o.dims, none⟩) ++ [some o] }, none)
  -- move assignment: the `unique_ptr` deletes the array it owned
  | .assign x y => do
    let p ← (← s.objs[x]?)
    let o ← (← s.objs[y]?)
    if p.ty = o.ty ∧ x ≠ y then
      if inArray o.ty then
        let b ← p.data
        let c ← o.data
        let cells ← (← s.blocks[c]?)
        pure ({ s with blocks := s.blocks.set b (some cells) }, none)
      else
        let objs := (s.objs.set y (some ⟨o.ty, leftDims o.ty o.dims, none⟩)).set x (some ⟨p.ty, o.dims, o.data⟩)
        match p.data with
        | none => pure ({ s with objs := objs }, none)
        | some b => pure ({ s with objs := objs, blocks := s.blocks.set b none }, none)
    else none
  -- `tensor.hpp:79-81,103-105,144-146,248-252,486-489`: the dimensions, then the pointers or the elements
  | .swap x y => do
    let p ← (← s.objs[x]?)
    let o ← (← s.objs[y]?)
    if p.ty = o.ty then
      if inArray o.ty then
        let b ← p.data
        let c ← o.data
        let l ← (← s.blocks[b]?)
        let k ← (← s.blocks[c]?)
        pure ({ s with blocks := (s.blocks.set b (some k)).set c (some l) }, none)
      else
        pure ({ s with objs := (s.objs.set x (some ⟨p.ty, o.dims, o.data⟩)).set y (some ⟨o.ty, p.dims, p.data⟩) }, none)
    else none
  -- the destructor: ends the lifetime of the array
  | .destroy x => do
    let o ← (← s.objs[x]?)
    match o.data with
    | none => pure ({ s with objs := s.objs.set x none }, none)
    | some b => pure ({ s with objs := s.objs.set x none, blocks := s.blocks.set b none }, none)
  -- `tensor_view` with the dimensions and `data()`, `tensor.hpp:174,222-224`, or subscripts, `:319-327,358-366`; where dimensions
  -- are not in the type, a subscript does not compile (`:313` makes a `span` of non-const elements of const ones)
  | .view h is => do
    let w ← s.find h
    if is = [] then pure ({ s with views := s.views ++ [⟨w.data, w.at_, false⟩] }, none)
    else if w.fixed ∧ is.length < w.at_.n then
      let u ← subscripts w.at_ is
      pure ({ s with views := s.views ++ [⟨w.data, u, true⟩] }, none)
    else none
  -- `tensor.hpp:184-186,248-252`, for views of the same type
  | .swapViews v w => do
    let a ← s.views[v]?
    let b ← s.views[w]?
    pure ({ s with views := (s.views.set v ⟨b.data, b.at_, b.fixed⟩).set w ⟨a.data, a.at_, a.fixed⟩ }, none)
  -- `operator()`, `tensor.hpp:460-483`
  | .write h is a => do
    let w ← s.find h
    let k ← checkedIndex w.at_.dims 0 0 is
    let (b, cells) ← s.block w
    if w.at_.off + k < cells.length then
      pure ({ s with blocks := s.blocks.set b (some (cells.set (w.at_.off + k) (some a))) }, none)
    else none
  | .read h is => do
    let w ← s.find h
    let k ← checkedIndex w.at_.dims 0 0 is
    let (_, cells) ← s.block w
    let a ← (← cells[w.at_.off + k]?)
    pure (s, some (.value a))
  -- `dimensions()`, `size()`, `empty()`, `tensor.hpp:240-246,289-299,456-458`
  | .dims h => do
    let w ← s.find h
    pure (s, some (.dims w.at_.dims (computeProduct w.at_.dims) (decide (computeProduct w.at_.dims = 0))))
  -- `begin()` to `end()`, `tensor.hpp:408-422`
  | .elements h => do
    let w ← s.find h
    let (_, cells) ← s.block w
    if w.at_.off + computeProduct w.at_.dims ≤ cells.length then
      let as ← ((cells.drop w.at_.off).take (computeProduct w.at_.dims)).mapM id
      pure (s, some (.elements as))
    else none

/-- A program: what it shows. -/
def State.run (s : State α) : List (Stmt α) → Option (List (Obs α))
  | [] => some []
  | c :: cs => do
    let (s, o) ← s.step c
    let os ← s.run cs
    pure (o.toList ++ os)

def State.empty : State α := ⟨[], [], []⟩

end Actl.TensorObj
