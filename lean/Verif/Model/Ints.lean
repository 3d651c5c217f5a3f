/-!
C++ integer types, conversions and arithmetic (C++20: two's complement).
-/

namespace Actl.Ints

/-- An integer type. -/
structure IntT where
  signed : Bool
  width : Nat
deriving DecidableEq, Repr

def IntT.lo (t : IntT) : Int := if t.signed then -2 ^ (t.width - 1) else 0
def IntT.hi (t : IntT) : Int := if t.signed then 2 ^ (t.width - 1) else 2 ^ t.width

/-- Values of the type. -/
def IntT.Has (t : IntT) (x : Int) : Prop := t.lo ≤ x ∧ x < t.hi

instance (t : IntT) (x : Int) : Decidable (t.Has x) := by unfold IntT.Has; infer_instance

/-- Conversion to the type (modular since C++20). -/
def IntT.cast (t : IntT) (x : Int) : Int := (x - t.lo) % 2 ^ t.width + t.lo

/-- Integral promotion. -/
def IntT.promote (t : IntT) : IntT := if t.width < 32 then ⟨true, 32⟩ else t

/-- The result of an arithmetic operation in the type; `none` is signed overflow. -/
def IntT.arith (t : IntT) (x : Int) : Option Int :=
  if t.signed then (if t.Has x then some x else none) else some (t.cast x)

end Actl.Ints
