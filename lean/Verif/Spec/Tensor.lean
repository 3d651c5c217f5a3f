/-!
Index tuples, and what nested initializer lists list.
-/

namespace Actl.Tensor

/-- An index for every dimension, each smaller than the dimension. -/
def InRange : List Nat → List Nat → Prop
  | [], [] => True
  | d :: ds, i :: is => i < d ∧ InRange ds is
  | _, _ => False

/-- Number of elements. -/
def volume : List Nat → Nat
  | [] => 1
  | d :: ds => d * volume ds

/-- Lists nested `n` deep. -/
def Nest (α : Type) : Nat → Type
  | 0 => α
  | n + 1 => List (Nest α n)

variable {α : Type}

/-- The elements of the outermost list. -/
def items {n : Nat} (il : Nest α (n + 1)) : List (Nest α n) := il

/-- The value listed at an index tuple, if any. -/
def listed : (n : Nat) → Nest α n → List Nat → Option α
  | 0, x, [] => some x
  | n + 1, il, i :: is =>
    match (items il)[i]? with
    | none => none
    | some x => listed n x is
  | _, _, _ => none

/-- No list of level `k` is longer than the `k`-th dimension. -/
def Fits : (n : Nat) → List Nat → Nest α n → Prop
  | 0, [], _ => True
  | n + 1, d :: ds, il =>
    (items il).length ≤ d ∧ ∀ x ∈ (items il), Fits n ds x
  | _, _, _ => False

/-- Some list of level `k` has length `m`. -/
def HasLen : (n : Nat) → Nat → Nat → Nest α n → Prop
  | 0, _, _, _ => False
  | n + 1, 0, m, il => (items il).length = m
  | n + 1, k + 1, m, il => ∃ x ∈ (items il), HasLen n k m x

/-- All the dimensions but the last are the same. -/
def LeadEq : List Nat → Prop
  | d0 :: d1 :: d2 :: ds => d0 = d1 ∧ LeadEq (d1 :: d2 :: ds)
  | _ => True

end Actl.Tensor
