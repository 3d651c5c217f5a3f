import Verif.Model.Modular

/-!
Model of programs over `ring_element` variables,
/repo/include/actl/numeric/modular/ring.hpp:110-192 (`int_modulo<Mod>` is the static
instance, ring.hpp:191-192).

A program is the sequence of operations that an execution performs on a store of variables;
the operands of an operation may be the same variable, also the assigned one.  `mod_add` and
`mod_sub` receive the assigned variable by reference and the other operand by a reference that
may be the same object; both read their operands before the only write (`z` is computed
first, ring.hpp:56-57, 66), so the model reads the operands and then writes.

Simplification: the integral branches only; the `std::istream` / `std::ostream` operators
(ring.hpp:178-184) read and write `value` with no further processing, so a value read is a
value constructed with `lit`.
-/

namespace Actl.Modular

/-- The variables of a program (`ring_element::value`, ring.hpp:114). -/
abbrev Store := Nat → Nat

/-- Assignment of the variable `d`. -/
def Store.set (s : Store) (d v : Nat) : Store := fun i => if i = d then v else s i

/-- One operation on variables. -/
inductive Op where
  /-- `d = ring_element()`, ring.hpp:120 -/
  | dflt (d : Nat)
  /-- `d = ring_element(k)`, ring.hpp:126-128 -/
  | lit (d : Nat) (k : Int)
  /-- `d = a` (implicit copy) -/
  | copy (d a : Nat)
  /-- `d += a`, ring.hpp:130-133 -/
  | addTo (d a : Nat)
  /-- `d -= a`, ring.hpp:135-138 -/
  | subTo (d a : Nat)
  /-- `d *= a`, ring.hpp:140-143 -/
  | mulTo (d a : Nat)
  /-- `d /= a`, ring.hpp:145-148 -/
  | divTo (d a : Nat)
  /-- `d = a + b`, ring.hpp:155-158 -/
  | add (d a b : Nat)
  /-- `d = a - b`, ring.hpp:150-153 -/
  | sub (d a b : Nat)
  /-- `d = a * b`, ring.hpp:166-168 -/
  | mul (d a b : Nat)
  /-- `d = a / b`, ring.hpp:170-172 -/
  | div (d a b : Nat)
  /-- `d = -a`, ring.hpp:160-164 -/
  | neg (d a : Nat)
deriving DecidableEq, Repr

/-- How an execution ends: normally, by an exception of `mod_div` (ring.hpp:105-106) with the
variables as they are at that moment, or in undefined behaviour. -/
inductive Outcome where
  | ok (s : Store)
  | throws (s : Store)
  | ub

/-- The conversion of an integer to `value_type`, an unsigned `w`-bit word, when the argument
of the constructor is formed (ring.hpp:127); nothing else is done with it (ring.hpp:128). -/
def literal (R : Ring) (k : Int) : Nat := (k % ((2 ^ R.w : Nat) : Int)).toNat

/-- Assign the result of `mod_mul`. -/
def assignMul (R : Ring) (s : Store) (d x y : Nat) : Outcome :=
  match modMul R x y with
  | none => .ub
  | some v => .ok (s.set d v)

/-- Assign the result of `mod_div`, which works on references to const and local copies. -/
def assignDiv (R : Ring) (s : Store) (d x y : Nat) : Outcome :=
  match modDiv R x y with
  | .ub => .ub
  | .throws => .throws s
  | .ok v => .ok (s.set d v)

/-- One operation, ring.hpp:120-172. -/
def stepOp (R : Ring) (s : Store) : Op → Outcome
  | .dflt d => .ok (s.set d 0)
  | .lit d k => .ok (s.set d (literal R k))
  | .copy d a => .ok (s.set d (s a))
  | .addTo d a => .ok (s.set d (modAdd R (s d) (s a)))
  | .subTo d a => .ok (s.set d (modSub R (s d) (s a)))
  | .mulTo d a => assignMul R s d (s d) (s a)
  | .divTo d a => assignDiv R s d (s d) (s a)
  | .add d a b => .ok (s.set d (modAdd R (s a) (s b)))
  | .sub d a b => .ok (s.set d (modSub R (s a) (s b)))
  | .mul d a b => assignMul R s d (s a) (s b)
  | .div d a b => assignDiv R s d (s a) (s b)
  | .neg d a => .ok (s.set d (modNeg R (s a)))

/-- A sequence of operations; an exception ends it. -/
def runOps (R : Ring) : List Op → Store → Outcome
  | [], s => .ok s
  | o :: os, s =>
    match stepOp R s o with
    | .ub => .ub
    | .throws s' => .throws s'
    | .ok s' => runOps R os s'

/-- `a == b`, ring.hpp:174-176. -/
def equalVars (s : Store) (a b : Nat) : Bool := s a == s b

/-- The condition asserted by `a.check()`, ring.hpp:186-188 (`0 <= value` holds of an unsigned
word). -/
def checkVar (R : Ring) (s : Store) (a : Nat) : Bool := decide (s a < R.mod)

end Actl.Modular
