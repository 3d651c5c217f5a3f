import Verif.Model.Tensor

/-!
Checked access to the elements of a tensor, `container/tensor.hpp`: the assertions of the subscript and of the
call operator, the rank as the template argument it is, and views.

A tensor or a view is an offset into the storage (`data()`), its dimensions and the template argument `N` with
which `tensor_subscript` was instantiated: the number of dimensions if the rank is static, `dynamic_size`
(`2^64 - 1`, `meta/static_size.hpp:14`) for `tensor<T>`, whose dimensions are a `std::vector`.  `none` is a failed
assertion or a read outside the dimensions.  Arithmetic of `size_t` is modulo `2^64`.
-/

namespace Actl.Tensor

/-- `tensor_base`, `tensor.hpp:389-484`. -/
structure View where
  n : Nat
  dims : List Nat
  off : Nat
deriving DecidableEq, Repr

/-- A tensor of static rank, `tensor<T, N>` and `tensor_fixed<T, Ds...>`, `tensor.hpp:525-528,566-576`. -/
def View.ofStatic (dims : List Nat) : View := ⟨dims.length, dims, 0⟩

/-- `tensor<T>`, `tensor.hpp:517-520,574-576`. -/
def View.ofDynamic (dims : List Nat) : View := ⟨2 ^ 64 - 1, dims, 0⟩

/-- The conversion of an index of type `int`, `long`, ... to `size_t`, `tensor.hpp:462,467`. -/
def toSize (i : Int) : Nat := (i % 2 ^ 64).toNat

/-- `tensor_reference::get`, `tensor.hpp:307-337`: the dimensions behind the first are read through a pointer, as many as
the template argument says. -/
def View.reference (v : View) (i : Nat) : Option View :=
  if 1 < v.n then
    if v.n ≤ v.dims.length then
      some ⟨v.n - 1, (v.dims.drop 1).take (v.n - 1),
        (v.off + i * computeProduct ((v.dims.drop 1).take (v.n - 1))) % 2 ^ 64⟩
    else none
  else some ⟨0, [], (v.off + i) % 2 ^ 64⟩

/-- `operator[](i)`, `tensor.hpp:358-366`, with the assertion of line 359 and the one of `dimension`, `:353-356`. -/
def View.subscript (v : View) (i : Int) : Option View :=
  match v.dims with
  | [] => none
  | d :: _ => if toSize i < d then v.reference (toSize i) else none

/-- `t[i][j]...`: the cell, when the subscripts lead to an element. -/
def View.chain : View → List Int → Option Nat
  | v, [] => if v.n = 0 then some v.off else none
  | v, i :: is => (v.subscript i).bind fun u => u.chain is

/-- `get_index<I>(res, is...)`, `tensor.hpp:470-483`, with the assertions of lines 473 and 479. -/
def checkedIndex (dims : List Nat) : Nat → Nat → List Nat → Option Nat
  | I, res, [] => if I = dims.length then some res else none
  | I, res, i :: is =>
    if I < dims.length ∧ i < dims.getD I 0 then
      checkedIndex dims (I + 1) (((if I > 0 then res * dims.getD I 0 % 2 ^ 64 else res) + i) % 2 ^ 64) is
    else none

/-- `operator()(is...)`, `tensor.hpp:460-468`: the cell. -/
def View.call (v : View) (is : List Int) : Option Nat :=
  (checkedIndex v.dims 0 0 (is.map toSize)).map fun k => (v.off + k) % 2 ^ 64

variable {α : Type}

/-- Assignment to the element at a cell. -/
def store (mem : List α) (cell : Nat) (x : α) : Option (List α) :=
  if cell < mem.length then some (mem.set cell x) else none

/-- `begin()` to `end()`, `tensor.hpp:408-422`: the elements in the order of iteration. -/
def View.elements (v : View) (mem : List α) : List α := (mem.drop v.off).take (computeProduct v.dims)

end Actl.Tensor
