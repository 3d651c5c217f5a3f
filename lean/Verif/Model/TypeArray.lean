/-!
Model of `sequence/type_array/`: metafunctions on `type_array<Types...>`.

A `type_array` is the list of its types, an instantiation is a function call, and `none` means that no
specialization matches, i.e. that the program is ill-formed.  The specializations of each template are
mutually exclusive, so the order of the equations does not matter.  Template arguments of type `size_t`
are natural numbers below `2 ^ 64` with wrapping subtraction.
-/

namespace Actl.TypeArray

variable {T : Type}

/-- Subtraction in `size_t` (64 bits). -/
def wsub (a b : Nat) : Nat := (a + 2 ^ 64 - b) % 2 ^ 64

/-- The specializations of `type_at` for an index below 8, `at.hpp:29-67`. -/
def typeAtSmall (ts : List T) : Nat → Option T
  | 0 => match ts with | t :: _ => some t | _ => none
  | 1 => match ts with | _ :: t :: _ => some t | _ => none
  | 2 => match ts with | _ :: _ :: t :: _ => some t | _ => none
  | 3 => match ts with | _ :: _ :: _ :: t :: _ => some t | _ => none
  | 4 => match ts with | _ :: _ :: _ :: _ :: t :: _ => some t | _ => none
  | 5 => match ts with | _ :: _ :: _ :: _ :: _ :: t :: _ => some t | _ => none
  | 6 => match ts with | _ :: _ :: _ :: _ :: _ :: _ :: t :: _ => some t | _ => none
  | 7 => match ts with | _ :: _ :: _ :: _ :: _ :: _ :: _ :: t :: _ => some t | _ => none
  | _ => none

/-- `type_at`, `at.hpp:29-72`. -/
def typeAt (ts : List T) (i : Nat) : Option T :=
  if i < 8 then typeAtSmall ts i
  else
    match ts with
    | _ :: _ :: _ :: _ :: _ :: _ :: _ :: _ :: rest => typeAt rest (wsub i 8)
    | _ => none

/-- `types_concat`, `concat.hpp:20-36`. -/
def typesConcat : List (List T) → List T
  | [ts] => ts
  | [] => []
  | ts :: us :: rest => typesConcat ((ts ++ us) :: rest)
termination_by l => l.length

/-- `types_slice` with first index 0, `slice.hpp:28-57`. -/
def slicePrefix (ts : List T) (n : Nat) : Option (List T) :=
  if n = 0 then some []
  else if n = 1 then match ts with | t0 :: _ => some [t0] | _ => none
  else if n = 2 then match ts with | t0 :: t1 :: _ => some [t0, t1] | _ => none
  else if n = 3 then match ts with | t0 :: t1 :: t2 :: _ => some [t0, t1, t2] | _ => none
  else
    match ts with
    | t0 :: t1 :: t2 :: t3 :: rest =>
      (slicePrefix rest (wsub n 4)).bind fun r => some (typesConcat [[t0, t1, t2, t3], r])
    | _ => none

/-- `types_slice`, `slice.hpp:28-77`. -/
def typesSlice (ts : List T) (first last : Nat) : Option (List T) :=
  if first = 0 then slicePrefix ts last
  else if first = 1 then match ts with | _ :: rest => slicePrefix rest (wsub last 1) | _ => none
  else if first = 2 then match ts with | _ :: _ :: rest => slicePrefix rest (wsub last 2) | _ => none
  else if first = 3 then match ts with | _ :: _ :: _ :: rest => slicePrefix rest (wsub last 3) | _ => none
  else
    match ts with
    | _ :: _ :: _ :: _ :: rest => typesSlice rest (wsub first 4) (wsub last 4)
    | _ => none

/-- `prefix_t`, `slice.hpp:20-22`. -/
def typesPrefix (ts : List T) (length : Nat) : Option (List T) := typesSlice ts 0 length

/-- `suffix_t`, `slice.hpp:24-26`. -/
def typesSuffix (ts : List T) (length : Nat) : Option (List T) :=
  typesSlice ts (wsub ts.length length) ts.length

end Actl.TypeArray
