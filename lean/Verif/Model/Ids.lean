import Mathlib.Order.Defs.LinearOrder

/-!
Model of `container/container_id.hpp` and `container/functions.hpp`: ids of the elements of a
container, and the functions taking them.

A container is a list of elements in the order of iteration, each in a node with an address.
Simplifications: addresses are never used again after a node is erased (an id of an erased element
stays invalid); the elements of a vector also have "addresses", which no id shows.  An iterator of a
container without random access is the address of its node, `end()` is `-1`.  `none` is undefined
behaviour (or the assertion of a debug build).
-/

namespace Actl.Ids

/-- The containers the functions tell apart: random access sequences (`std::vector`, `std::deque`),
other sequences (`std::list`), sorted and hashed associative containers. -/
inductive Kind | vec | list | set | multiset | hashSet | hashMultiset
deriving DecidableEq, Repr

/-- `RandomAccessRange<C>`. -/
def Kind.ra : Kind → Bool | .vec => true | _ => false
/-- `UniqueRange<C>`. -/
def Kind.unique : Kind → Bool | .set | .hashSet => true | _ => false
/-- `SortedRange<C>`. -/
def Kind.sorted : Kind → Bool | .set | .multiset => true | _ => false
/-- `AssociativeRange<C>`. -/
def Kind.assoc : Kind → Bool | .vec | .list => false | _ => true
/-- The hashed containers: the order of iteration is unspecified. -/
def Kind.hashed : Kind → Bool | .hashSet | .hashMultiset => true | _ => false

/-- The order in which a hashed container iterates, possibly another one after every insertion. -/
structure Order (α : Type) where
  f : Nat → List (Nat × α) → List (Nat × α)
  perm : ∀ n l, (f n l).Perm l

/-- A container: its elements with the addresses of their nodes; `next` is the address of the next
node. -/
structure Cont (α : Type) where
  kind : Kind
  items : List (Nat × α)
  next : Nat

variable {α κ : Type} [LinearOrder κ] (key : α → κ)

/-- The elements in the order of iteration. -/
def Cont.values (c : Cont α) : List α := c.items.map Prod.snd

/-- An empty container. -/
def Cont.empty (k : Kind) : Cont α := ⟨k, [], 0⟩

/-- `static_cast<int>` of an index (`container_id.hpp:111, 134`): modulo `2^32`. -/
def toInt (n : Nat) : Int := Int.bmod n (2 ^ 32)

/-- `id_begin`, `container_id.hpp:100-106`. -/
def Cont.idBegin (c : Cont α) : Int :=
  if c.kind.ra then 0 else match c.items with | [] => -1 | p :: _ => p.1

/-- `id_end`, `container_id.hpp:108-114`. -/
def Cont.idEnd (c : Cont α) : Int := if c.kind.ra then toInt c.items.length else -1

/-- `id_null`, `container_id.hpp:116-123`. -/
def Cont.idNull (c : Cont α) : Int := if c.kind.ra then -1 else c.idEnd

/-- The ids met from `id_begin` to `id_end` by `id_range`, `container_id.hpp:125-129`: an
`integer_iterator<int>` counts up to `id_end`, and overflows if that is negative. -/
def Cont.ids (c : Cont α) : Option (List Int) :=
  if c.kind.ra then
    if 0 ≤ c.idEnd then some ((List.range c.idEnd.toNat).map fun i : Nat => (i : Int)) else none
  else some (c.items.map fun p => (p.1 : Int))

/-- `iterator_to_id`, `container_id.hpp:131-137`, of the iterator at position `i` (`end()` if `i` is
the size). -/
def Cont.iteratorToId (c : Cont α) (i : Nat) : Int :=
  if c.kind.ra then toInt i else match c.items[i]? with | none => -1 | some p => p.1

/-- `id_to_iterator`, `container_id.hpp:139-147`: the position, possibly that of `end()`. -/
def Cont.idToIterator (c : Cont α) (id : Int) : Option Nat :=
  if c.kind.ra then if 0 ≤ id ∧ id ≤ c.items.length then some id.toNat else none
  else if id = -1 then some c.items.length
  else c.items.findIdx? fun p => (p.1 : Int) == id

/-- `id_at`, `container_id.hpp:158-177`. -/
def Cont.at (c : Cont α) (id : Int) : Option α :=
  if c.kind.ra then if 0 ≤ id then c.values[id.toNat]? else none
  else (c.items.find? fun p => (p.1 : Int) == id).map Prod.snd

/-- Assignment to (a part of) `id_at(cont, id)`, which returns a reference. -/
def Cont.modify (c : Cont α) (id : Int) (f : α → α) : Cont α :=
  { c with items := if c.kind.ra then if 0 ≤ id then c.items.modify id.toNat (fun p => (p.1, f p.2))
      else c.items
    else c.items.map fun p => if (p.1 : Int) = id then (p.1, f p.2) else p }

/-- The position at which a sorted container puts a new element: after those not greater. -/
def upperBound (x : α) (l : List (Nat × α)) : Nat :=
  (l.takeWhile fun p => decide (key p.2 ≤ key x)).length

/-- The position of the first element with the key, or the size. -/
def Cont.findPos (c : Cont α) (k : κ) : Nat :=
  c.items.findIdx fun p => decide (key p.2 = k)

/-- The items after the insertion of a new node, `functions.hpp:20-31`: `emplace_back`, `emplace` at
`end()`, or wherever the associative container puts it. -/
def Cont.inserted (ord : Order α) (c : Cont α) (x : α) : List (Nat × α) :=
  if c.kind.hashed then ord.f c.next ((c.next, x) :: c.items)
  else if c.kind.sorted then c.items.insertIdx (upperBound key x c.items) (c.next, x)
  else c.items ++ [(c.next, x)]

/-- `emplace`, `functions.hpp:18-32`: the container, the position of the iterator returned, and
whether the element was inserted.  Elements are compared by their keys (`mimic_pair.hpp:62-72` for the
graphs; otherwise `key` is the identity). -/
def Cont.emplace (ord : Order α) (c : Cont α) (x : α) : Cont α × Nat × Bool :=
  if c.kind.unique ∧ c.findPos key (key x) < c.items.length then
    (c, c.findPos key (key x), false)
  else
    let items := c.inserted key ord x
    (⟨c.kind, items, c.next + 1⟩, items.findIdx fun p => p.1 == c.next, true)

/-- `id_emplace`, `container_id.hpp:181-185`. -/
def Cont.idEmplace (ord : Order α) (c : Cont α) (x : α) : Cont α × Int × Bool :=
  let r := c.emplace key ord x
  (r.1, r.1.iteratorToId r.2.1, r.2.2)

/-- `id_erase`, `container_id.hpp:187-190`; erasing `end()` is undefined. -/
def Cont.idErase (c : Cont α) (id : Int) : Option (Cont α) :=
  match c.idToIterator id with
  | none => none
  | some i => if i < c.items.length then some { c with items := c.items.eraseIdx i } else none

/-- `id_find`, `container_id.hpp:192-195`, with `find`, `functions.hpp:42-51`: `std::find`, or the
search of a sorted container (which of several equivalent elements a multiset finds is unspecified;
the first is taken). -/
def Cont.idFind (c : Cont α) (k : κ) : Int := c.iteratorToId (c.findPos key k)

end Actl.Ids
