import Mathlib.Data.Nat.Bitwise

/-! # Output parameters

Models `functional/parameter/out.hpp` and `functional/parameter/inout.hpp`: `out<Ref>` and `inout<Ref>`, their
construction, conversions and assignment.

Simplifications:
* memory maps addresses to numbers (elements of containers have addresses of their own); a number is also read as
  a row of bits for the references to single bits (`lifetime/Reference.hpp` names such references as one of the
  kinds meant);
* the wrapped references are `T&` to a number, `std::vector<T>&`, `std::span<T>` and a reference to a bit which,
  like `std::vector<bool>::reference`, is assigned through, also by its copy assignment;
* the types are those of the model's values, so overloads are resolved by matching on these; `none` stands for a
  program that does not compile.
-/

namespace Actl.OutParam

/-- The reference types (`lifetime/Reference.hpp`, `std/span.hpp`): a number; the container with elements at
`a, …, a + n - 1`; a view of these; a bit of a number. -/
inductive Ref
  | cell (a : Nat)
  | container (a n : Nat)
  | view (a n : Nat)
  | bit (a i : Nat)
deriving DecidableEq, Repr

/-- Memory. -/
abbrev Mem := Nat → Nat

def Mem.set (m : Mem) (a v : Nat) : Mem := fun b => if b = a then v else m b

/-- Sets or clears a bit of a number. -/
def Mem.setBit (m : Mem) (a i : Nat) (v : Bool) : Mem :=
  m.set a (if (m a).testBit i = v then m a else m a ^^^ 2 ^ i)

/-- `out<Ref>` (`inout = false`, `out.hpp:47-132`) or `inout<Ref>` (`inout.hpp:49-65`), with its `m_ref`. -/
structure Wrapper where
  inout : Bool
  ref : Ref
deriving DecidableEq, Repr

/-- What a wrapper can be constructed from: a reference that is not wrapped, or another wrapper. -/
inductive Arg
  | plain (r : Ref)
  | wrapped (w : Wrapper)

/-- `out{x}` and `inout{x}`: from a plain reference by the deduction guide (`out.hpp:51-55`, `:134-135`,
`inout.hpp:53-56`, `:67-68`).  From a wrapper of the same template by the copy constructor; an `inout` is an `out`,
but `inout` has no constructor from an `out` (`!is_out_v<Arg>` in `inout.hpp:54`). -/
def wrap (inout : Bool) : Arg → Option Wrapper
  | .plain r => some ⟨inout, r⟩
  | .wrapped w => if inout = true ∧ w.inout = false then none else some ⟨inout, w.ref⟩

/-- The implicit conversions of references to references that the constructors of wrappers admit: to the same type,
and of a container to a view of its elements. -/
def convertRef : Ref → (toView : Bool) → Option Ref
  | .container a n, true => some (.view a n)
  | .view a n, true => some (.view a n)
  | _, true => none
  | r, false => some r

/-- The implicit conversion of a temporary wrapper to a parameter of type `out<Ref>` or `inout<Ref>`
(`out.hpp:66-70`, `inout.hpp:59-62`): wraps `*source`, converted. -/
def convert (w : Wrapper) (inout toView : Bool) : Option Wrapper :=
  if inout = true ∧ w.inout = false then none
  else (convertRef w.ref toView).map fun r => ⟨inout, r⟩

/-- `*w` (`out.hpp:78-80`) and the conversion to `Ref` (`out.hpp:83-85`). -/
def deref (w : Wrapper) : Ref := w.ref

/-- What can be assigned: a number, a reference, or a wrapper: of the same class or not, and as a temporary, a
variable or a constant. -/
inductive Category
  | temporary | variable | constant
deriving DecidableEq, Repr

inductive Source
  | value (v : Nat)
  | ref (r : Ref)
  | wrapper (w : Wrapper) (c : Category)

/-- The number that a reference to one denotes. -/
def load (m : Mem) : Ref → Option Nat
  | .cell a => some (m a)
  | .bit a i => some (if (m a).testBit i then 1 else 0)
  | _ => none

/-- After an assignment: memory, the wrapper's reference, and the reference returned. -/
structure Result where
  mem : Mem
  self : Ref
  result : Ref

/-- The source as a number; a wrapper converts to what it wraps (`out.hpp:83-85`). -/
def Source.toNumber (m : Mem) : Source → Option Nat
  | .value v => some v
  | .ref r => load m r
  | .wrapper w _ => load m w.ref

/-- The source as a view. -/
def Source.toView : Source → Option Ref
  | .value _ => none
  | .ref r => convertRef r true
  | .wrapper w _ => convertRef w.ref true

/-- The default `assign(out<Target>&, Source)` (`out.hpp:142-146`): `*target = source`.  `*target` of a view is a
temporary copy of it, which is assigned and then returned by value. -/
def assign (m : Mem) (target : Ref) (source : Source) : Option Result :=
  match target with
  | .cell a => (source.toNumber m).map fun v => ⟨m.set a v, .cell a, .cell a⟩
  | .bit a i => (source.toNumber m).map fun v => ⟨m.setBit a i (v != 0), .bit a i, .bit a i⟩
  | .view a n => source.toView.map fun r => ⟨m, .view a n, r⟩
  | .container _ _ => none

/-- The two references have the same type. -/
def sameType : Ref → Ref → Bool
  | .cell _, .cell _ => true
  | .container _ _, .container _ _ => true
  | .view _ _, .view _ _ => true
  | .bit _ _, .bit _ _ => true
  | _, _ => false

/-- `w = source` (`out.hpp:122-126`, `inout.hpp:64`).  The template is chosen, and calls `assign`, except:
* from a constant of the same class the implicit copy assignment is as good and no template, so it is chosen; it is
  deleted for a wrapped `T&`, and assigns the member otherwise;
* from a temporary of the same class likewise the implicit move assignment, which is not declared for `T&`.
Containers are not assigned in this model. -/
def assignTo (m : Mem) (w : Wrapper) (source : Source) : Option Result :=
  match source with
  | .wrapper s c =>
    if s.inout = w.inout ∧ sameType s.ref w.ref = true ∧ c ≠ .variable then
      match w.ref, s.ref with
      | .view _ _, .view b k => some ⟨m, .view b k, .view b k⟩
      | .bit a i, .bit b j => some ⟨m.setBit a i ((m b).testBit j), .bit a i, .bit a i⟩
      | _, _ => if c = .constant then none else assign m w.ref source
    else assign m w.ref source
  | _ => assign m w.ref source

/-- The objects that a reference denotes, as addresses. -/
def Ref.addresses : Ref → List Nat
  | .cell a => [a]
  | .container a n => (List.range n).map (a + ·)
  | .view a n => (List.range n).map (a + ·)
  | .bit a _ => [a]

end Actl.OutParam
