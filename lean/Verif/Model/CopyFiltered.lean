import Mathlib.Data.List.Basic

/-!
Model of `ranges::copy` (`range/operation/copy.hpp`) from a filtered range (`range/filtered_range.hpp`) over a vector to a position in the same vector or in
another one.  Iterators of a vector are positions; the content of the vector changes under the filtered range while the copy goes on.
`none`: an element outside the vector is accessed.
-/

namespace Actl.CopyFiltered

variable {α : Type}

/-- `find_next`, `filtered_range.hpp:63-67`, on the current content `mem` of the vector.  The number of steps left, first argument, is at least the number of
elements from the position on wherever it is used. -/
def seek (p : α → Bool) (mem : List α) : Nat → Nat → Nat
  | 0, i => i
  | fuel + 1, i =>
    match mem[i]? with
    | none => i
    | some x => if !p x then seek p mem fuel (i + 1) else i

/-- The loop of `copy`, `copy.hpp:21-25`, in one vector: `i` is the base of the iterator of the filtered range (`++` is `filtered_range.hpp:49-53`), `t` the target.  The result is
the content of the vector and the position returned. -/
def copyIn (p : α → Bool) : Nat → List α → Nat → Nat → Option (List α × Nat)
  | 0, _, _, _ => none
  | fuel + 1, mem, i, t =>
    if i = mem.length then some (mem, t)
    else match mem[i]? with
      | none => none
      | some x =>
        if t < mem.length then
          let mem := mem.set t x
          copyIn p fuel mem (seek p mem mem.length (i + 1)) (t + 1)
        else none

/-- `ranges::copy(v.begin() + t, filter_range(w, p))` where `w` is the part of the vector `mem` from the position `a` on (a `span`, say, or `v` itself for
`a = 0`); `begin()` is `filtered_range.hpp:77-79`. -/
def copyFiltered (p : α → Bool) (mem : List α) (a t : Nat) : Option (List α × Nat) :=
  copyIn p (mem.length + 1) mem (seek p mem mem.length a) t

/-- The same loop where the target `dst` is another vector. -/
def copyOut (p : α → Bool) (src : List α) : Nat → List α → Nat → Nat → Option (List α × Nat)
  | 0, _, _, _ => none
  | fuel + 1, dst, i, t =>
    if i = src.length then some (dst, t)
    else match src[i]? with
      | none => none
      | some x =>
        if t < dst.length then copyOut p src fuel (dst.set t x) (seek p src src.length (i + 1)) (t + 1)
        else none

/-- `ranges::copy(dst.begin() + t, filter_range(src, p))`. -/
def copyFilteredTo (p : α → Bool) (src dst : List α) (t : Nat) : Option (List α × Nat) :=
  copyOut p src (src.length + 1) dst (seek p src src.length 0) t

end Actl.CopyFiltered
