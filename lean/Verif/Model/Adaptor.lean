import Verif.Model.Equality

/-! # Iterator adaptors

Models `range/iterator/interface/iterator_adaptor.hpp`, the operators it gets from
`range/iterator/interface/{basic,input,forward,bidirectional,random_access}_iterator_interface.hpp`, and
`range/iterator/transform_iterator.hpp`.

Simplifications:
* the adapted iterator is a pointer into an array of elements, restricted to the operators of its category; moving
  it out of the array and reading past its end are undefined;
* the difference of two pointers and the sum of a pointer and an offset are computed without bounds, negating an
  offset as the language does;
* a function has no effects;
* `none` stands for a program that does not compile and for undefined behaviour.
-/

namespace Actl.Adaptor

open Equality (IntTy Elem promote)

/-- `std::iterator_traits<Iter>::iterator_category`. -/
inductive Cat
  | input | forward | bidirectional | randomAccess
deriving DecidableEq, Repr

/-- `std::is_base_of_v<Tag, Category>`: how many tags the category is derived from. -/
def Cat.rank : Cat → Nat
  | .input => 0
  | .forward => 1
  | .bidirectional => 2
  | .randomAccess => 3

def Cat.isBaseOf (tag cat : Cat) : Bool := tag.rank ≤ cat.rank

/-! ### The adapted iterator -/

/-- `*p` of a pointer at the position `p` of the array. -/
def ptrRead {α : Type} (xs : List α) (p : Int) : Option α := if 0 ≤ p then xs[p.toNat]? else none

/-- `p += k`. -/
def ptrAdd (n : Nat) (p k : Int) : Option Int := if 0 ≤ p + k ∧ p + k ≤ n then some (p + k) else none

/-! ### The adaptor -/

variable {α β : Type}

/-- `transform_iterator` (`transform_iterator.hpp:35-36`, `iterator_adaptor.hpp:102-103`). -/
structure Iter (α β : Type) where
  base : Int
  fn : α → β

/-- `operator*` (`transform_iterator.hpp:31-33`). -/
def deref (xs : List α) (it : Iter α β) : Option β := (ptrRead xs it.base).map it.fn

/-- `operator->` (`input_iterator_interface.hpp:24-26`, `detail/arrow_operator.hpp:23-46`): the object whose member
is accessed; a proxy holds the result of `*it`. -/
def arrow (xs : List α) (it : Iter α β) : Option β := deref xs it

/-- `++it` (`iterator_adaptor.hpp:65-68`). -/
def preInc (xs : List α) (it : Iter α β) : Option (Iter α β) :=
  (ptrAdd xs.length it.base 1).map fun p => { it with base := p }

/-- `it++` (`basic_iterator_interface.hpp:53-60`): the iterator after it, and the copy. -/
def postInc (xs : List α) (it : Iter α β) : Option (Iter α β × Iter α β) :=
  (preInc xs it).map fun it' => (it', it)

/-- `--it` (`iterator_adaptor.hpp:79-84`). -/
def preDec (cat : Cat) (xs : List α) (it : Iter α β) : Option (Iter α β) :=
  if Cat.bidirectional.isBaseOf cat then
    (ptrAdd xs.length it.base (-1)).map fun p => { it with base := p }
  else none

/-- `it--` (`bidirectional_iterator_interface.hpp:24-30`). -/
def postDec (cat : Cat) (xs : List α) (it : Iter α β) : Option (Iter α β × Iter α β) :=
  (preDec cat xs it).map fun it' => (it', it)

/-- `l == r` (`iterator_adaptor.hpp:71-77`). -/
def equal (cat : Cat) (l r : Iter α β) : Option Bool :=
  if Cat.forward.isBaseOf cat then some (decide (l.base = r.base)) else none

/-- `it += offset` (`iterator_adaptor.hpp:86-92`). -/
def addEq (cat : Cat) (xs : List α) (it : Iter α β) (offset : Int) : Option (Iter α β) :=
  if Cat.randomAccess.isBaseOf cat then
    (ptrAdd xs.length it.base offset).map fun p => { it with base := p }
  else none

/-- `l - r` (`iterator_adaptor.hpp:94-100`). -/
def difference (cat : Cat) (l r : Iter α β) : Option Int :=
  if Cat.randomAccess.isBaseOf cat then some (l.base - r.base) else none

/-- `-offset` of a number of a built-in type, [expr.unary.op]. -/
def negate (k : Elem) : Option Int :=
  if (promote k.ty).signed then
    if -k.val < 2 ^ ((promote k.ty).bits - 1) then some (-k.val) else none
  else some (-k.val % 2 ^ (promote k.ty).bits)

/-- `it -= offset` (`random_access_iterator_interface.hpp:57-61`). -/
def subEq (cat : Cat) (xs : List α) (it : Iter α β) (offset : Elem) : Option (Iter α β) :=
  (negate offset).bind fun k => addEq cat xs it k

/-- `it + offset` and `offset + it` (`random_access_iterator_interface.hpp:36-49`). -/
def plus (cat : Cat) (xs : List α) (it : Iter α β) (offset : Int) : Option (Iter α β) := addEq cat xs it offset

/-- `it - offset` (`random_access_iterator_interface.hpp:63-67`). -/
def minus (cat : Cat) (xs : List α) (it : Iter α β) (offset : Elem) : Option (Iter α β) := subEq cat xs it offset

/-- `it[offset]` (`random_access_iterator_interface.hpp:24-28`). -/
def index (cat : Cat) (xs : List α) (it : Iter α β) (offset : Int) : Option β :=
  (plus cat xs it offset).bind fun it' => deref xs it'

/-- `l <=> r` (`random_access_iterator_interface.hpp:76-79`). -/
def compare3 (cat : Cat) (l r : Iter α β) : Option Ordering := (difference cat l r).map fun d => compare d 0

/-! ### Programs -/

/-- A statement on variables that hold iterators; `Elem` is an offset with its type. -/
inductive Cmd
  | deref (r : Nat) | arrow (r : Nat) | preInc (r : Nat) | postInc (d r : Nat) | preDec (r : Nat)
  | postDec (d r : Nat) | addEq (r : Nat) (k : Elem) | subEq (r : Nat) (k : Elem) | plus (d r : Nat) (k : Elem)
  | minus (d r : Nat) (k : Elem) | index (r : Nat) (k : Elem) | assign (d r : Nat)
  | difference (l r : Nat) | equal (l r : Nat) | compare3 (l r : Nat)
deriving Repr

/-- What a statement shows. -/
inductive Out (β : Type)
  | value (x : β) | number (n : Int) | truth (b : Bool) | order (o : Ordering) | nothing
deriving Repr

/-- A variable gets a value. -/
def set {γ : Type} (s : Nat → γ) (r : Nat) (x : γ) : Nat → γ := fun q => if q = r then x else s q

/-- One statement. In `d = r++` the variable `r` has moved before `d` is assigned. -/
def step (cat : Cat) (xs : List α) (s : Nat → Iter α β) : Cmd → Option ((Nat → Iter α β) × Out β)
  | .deref r => (deref xs (s r)).map fun x => (s, .value x)
  | .arrow r => (arrow xs (s r)).map fun x => (s, .value x)
  | .preInc r => (preInc xs (s r)).map fun it => (set s r it, .nothing)
  | .postInc d r => (postInc xs (s r)).map fun p => (set (set s r p.1) d p.2, .nothing)
  | .preDec r => (preDec cat xs (s r)).map fun it => (set s r it, .nothing)
  | .postDec d r => (postDec cat xs (s r)).map fun p => (set (set s r p.1) d p.2, .nothing)
  | .addEq r k => (addEq cat xs (s r) k.val).map fun it => (set s r it, .nothing)
  | .subEq r k => (subEq cat xs (s r) k).map fun it => (set s r it, .nothing)
  | .plus d r k => (plus cat xs (s r) k.val).map fun it => (set s d it, .nothing)
  | .minus d r k => (minus cat xs (s r) k).map fun it => (set s d it, .nothing)
  | .index r k => (index cat xs (s r) k.val).map fun x => (s, .value x)
  | .assign d r => some (set s d (s r), .nothing)
  | .difference l r => (difference cat (s l) (s r)).map fun n => (s, .number n)
  | .equal l r => (equal cat (s l) (s r)).map fun b => (s, .truth b)
  | .compare3 l r => (compare3 cat (s l) (s r)).map fun o => (s, .order o)

/-- What a program shows. -/
def run (cat : Cat) (xs : List α) (s : Nat → Iter α β) : List Cmd → Option (List (Out β))
  | [] => some []
  | c :: cs => (step cat xs s c).bind fun p => (run cat xs p.1 cs).map (p.2 :: ·)

/-- `for (; it != end; ++it) use(*it)`, with a bound on the number of steps. -/
def collect (cat : Cat) (xs : List α) : Nat → Iter α β → Iter α β → Option (List β)
  | 0, _, _ => none
  | fuel + 1, it, stop =>
    (equal cat it stop).bind fun b =>
      if b then some []
      else (deref xs it).bind fun x => (preInc xs it).bind fun it' =>
        (collect cat xs fuel it' stop).map (x :: ·)

end Actl.Adaptor
