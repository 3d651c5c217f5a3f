import Verif.Model.Binary
import Verif.Model.Parser

/-!
# Sets and maps in the binary format

Model of `write` and `read` of sets and maps, `io/argument/range.hpp:21-86`, with the binary format
(`io/format/binary/binary.hpp`), on top of the other types of `Model/Binary.lean`.

An element of a map is written as `batch{key, colon{}, value}`; `colon` is empty and nothing is written for it
(`argument/empty.hpp`).  It is read into `batch{const_cast<Pair::first_type&>(x.first), colon{}, x.second}`, where
`Pair` is `std::pair<Key const, Value>` and `first_type` is `Key const`: the cast does not remove the `const`, and a
constant is encoded as a span of constant bytes (`binary.hpp:27-32`), which is compared with the input
(`const_byte_span.hpp:16-20`), not assigned.

Simplifications.
* The device is the list of its unread characters, resp. the characters written.
* An associative container is the list of its elements in order of iteration.  Inserting searches this list from the
  front; the search tree of the standard library finds the same place in a sorted list.
* The comparisons of the containers are parameters.
-/

namespace Actl.BinaryAssoc

open Actl.Text

/-- The types covered: those of `Model/Binary.lean`, pairs, vectors, sets and maps; `unique` tells `std::set` and
`std::map` from `std::multiset` and `std::multimap`. -/
inductive Ty
  | base (t : Binary.Ty)
  | pair (a b : Ty)
  | vec (t : Ty)
  | set (unique : Bool) (t : Ty)
  | map (unique : Bool) (k : Binary.Ty) (t : Ty)

/-- The values of a type. -/
def Val : Ty → Type
  | .base t => Binary.Val t
  | .pair a b => Val a × Val b
  | .vec t => List (Val t)
  | .set _ t => List (Val t)
  | .map _ k t => List (Binary.Val k × Val t)

/-- A value-initialized object. -/
def default : (t : Ty) → Val t
  | .base t => Binary.default t
  | .pair a b => (default a, default b)
  | .vec _ => []
  | .set _ _ => []
  | .map _ _ _ => []

/-- The comparisons of sets and of the keys of maps. -/
structure Less where
  elem : (t : Ty) → Val t → Val t → Bool
  key : (k : Binary.Ty) → Binary.Val k → Binary.Val k → Bool

/-- `cont.emplace(x)`, `container/functions.hpp:20-25`: a unique container has `x` put before the first element that is
not less, unless that one is equivalent; others have it put behind all equivalent ones. -/
def emplace {α : Type} (unique : Bool) (less : α → α → Bool) (x : α) : List α → List α
  | [] => [x]
  | y :: ys =>
    if less y x then y :: emplace unique less x ys
    else if less x y then x :: y :: ys
    else if unique then y :: ys else y :: emplace unique less x ys

/-- The elements of a map are compared by their keys. -/
def Less.entry (less : Less) (k : Binary.Ty) {β : Type} (x y : Binary.Val k × β) : Bool := less.key k x.1 y.1

/-- `write`, binary: `tuple.hpp:31-35`, `range.hpp:39-49`. -/
def write : (t : Ty) → Val t → List Byte
  | .base t, x => Binary.write t x
  | .pair a b, x => write a x.1 ++ write b x.2
  | .vec t, x => Binary.toBytes 8 (List.length x) ++ Binary.writeAll (write t) x
  | .set _ t, x => Binary.toBytes 8 (List.length x) ++ Binary.writeAll (write t) x
  | .map _ k t, x =>
    Binary.toBytes 8 (List.length x) ++ Binary.writeAll (fun e => Binary.write k e.1 ++ write t e.2) x

/-- Reading a span of constant bytes, `const_byte_span.hpp:16-20`: success and the rest. -/
def matchBytes (data : List Byte) (d : List Byte) : Bool × List Byte :=
  match Parser.readConst data (if d = [] then [] else [d]) with
  | some (n, ok) => (ok, d.drop n)
  | none => (false, d)

/-- Reading into each constant element in turn, `range.hpp:51-57`. -/
def matchAll {α : Type} (m : α → List Byte → Bool × List Byte) : List α → List Byte → Bool × List Byte
  | [], d => (true, d)
  | x :: xs, d =>
    match m x d with
    | (false, d) => (false, d)
    | (true, d) => matchAll m xs d

/-- Constants of this type can be "read": `read_container` does not compile for them (`resize` and `emplace` of a
constant container). -/
def fixed : Binary.Ty → Bool
  | .unit => true
  | .arith _ => true
  | .pair a b => fixed a && fixed b
  | .array _ t => fixed t
  | .vec _ => false
  | .seq _ => false

/-- `read` into a constant, for `fixed` types. -/
def matchConst : (k : Binary.Ty) → Binary.Val k → List Byte → Bool × List Byte
  | .unit, _, d => (true, d)
  | .arith n, x, d => matchBytes (Binary.toBytes n (BitVec.toNat (w := 8 * n) x)) d
  | .pair a b, x, d =>
    match matchConst a x.1 d with
    | (false, d) => (false, d)
    | (true, d) => matchConst b x.2 d
  | .array _ t, x, d => matchAll (matchConst t) x d
  | .vec _, _, d => (false, d)
  | .seq _, _, d => (false, d)

/-- The loop of `read_container`, `range.hpp:64-71`. -/
def readEmplace {α : Type} (ins : α → List α → List α) (rd : α → List Byte → Bool × α × List Byte) (fresh : α) :
    Nat → List α → List Byte → Bool × List α × List Byte
  | 0, xs, d => (true, xs, d)
  | n + 1, xs, d =>
    match rd fresh d with
    | (false, _, d) => (false, xs, d)
    | (true, x, d) => readEmplace ins rd fresh n (ins x xs) d

/-- `read` of an element of a map, `batch.hpp:53-55`: the key is a constant. -/
def readEntry {β : Type} (k : Binary.Ty) (rd : β → List Byte → Bool × β × List Byte) (e : Binary.Val k × β)
    (d : List Byte) : Bool × (Binary.Val k × β) × List Byte :=
  match matchConst k e.1 d with
  | (false, d) => (false, e, d)
  | (true, d) => match rd e.2 d with | (ok, y, d) => (ok, (e.1, y), d)

/-- `read_container`, `range.hpp:59-76`, with the continuation for the elements. -/
def readContainer {α : Type} (old : List α) (elements : Nat → List Byte → Bool × List α × List Byte) (d : List Byte) :
    Bool × List α × List Byte :=
  match Binary.readBytes (Binary.toBytes 8 0) d with
  | (false, _, d) => (false, old, d)
  | (true, bs, d) => elements (Binary.ofBytes bs) d

/-- `read` into an existing object, for types with which it compiles: success, the object afterwards, the unread
rest. -/
def read (less : Less) : (t : Ty) → Val t → List Byte → Bool × Val t × List Byte
  | .base t, x, d => Binary.read t x d
  | .pair a b, x, d =>
    match read less a x.1 d with
    | (false, y, d) => (false, (y, x.2), d)
    | (true, y, d) => match read less b x.2 d with | (ok, z, d) => (ok, (y, z), d)
  | .vec t, x, d =>
    readContainer x (fun n => Binary.readRange (read less t) (Binary.resize (default t) n x)) d
  | .set u t, x, d =>
    readContainer x (fun n => readEmplace (emplace u (less.elem t)) (read less t) (default t) n x) d
  | .map u k t, x, d =>
    readContainer x (fun n => readEmplace (emplace u (less.entry k)) (readEntry k (read less t))
      (Binary.default k, default t) n x) d

/-- `read` compiles. -/
def compiles : Ty → Bool
  | .base _ => true
  | .pair a b => compiles a && compiles b
  | .vec t => compiles t
  | .set _ t => compiles t
  | .map _ k t => fixed k && compiles t

/-- `read`; `none` if it does not compile. -/
def readBack (less : Less) (t : Ty) (old : Val t) (d : List Byte) : Option (Bool × Val t × List Byte) :=
  if compiles t then some (read less t old d) else none

end Actl.BinaryAssoc
