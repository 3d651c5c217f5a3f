import Verif.Model.Ranges

/-!
Model of programs over `range/filtered_range.hpp`: moves of an iterator in both directions, the members of the range
(`range/interface/basic_range_interface.hpp`, `bidirectional_range_interface.hpp`), a filtered range of a filtered range, and loops that
assign to the elements (`filtered_range<std::vector<T>&, P>` gives references to elements that are not constant).

Iterators are positions as in `Model/Ranges.lean`: the elements before, nearest first, and the elements from it on.  The pointer to the
range (`m_range`) is the parameter `p`; that the range outlives its iterators is assumed.
-/

namespace Actl.Ranges

variable {α : Type}

/-- Equality of two iterators of one range, `iterator_adaptor.hpp:71-77`: that of the positions. -/
def fsame (a b : List α × List α) : Bool := a.2.length == b.2.length

/-- `*it`, `iterator_adaptor.hpp:61-63`; `none` at the end of the original range. -/
def fderef (it : List α × List α) : Option α := it.2.head?

/-- One move: `true` is `++`, `filtered_range.hpp:49-53`, `false` is `--`, `filtered_range.hpp:55-60`. -/
def fmove (p : α → Bool) (it : List α × List α) (up : Bool) : Option (List α × List α) :=
  if up then finc p it else fdec p it.1 it.2

/-- A program of moves. -/
def fmoves (p : α → Bool) : List α × List α → List Bool → Option (List α × List α)
  | it, [] => some it
  | it, m :: ms => (fmove p it m).bind fun it => fmoves p it ms

/-- `empty()`, `basic_range_interface.hpp:21-23`. -/
def fempty (p : α → Bool) (xs : List α) : Bool := fsame (fbegin p xs) (fend p xs)

/-- `front()`, `basic_range_interface.hpp:30-34`. -/
def ffront (p : α → Bool) (xs : List α) : Option α :=
  if fempty p xs then none else fderef (fbegin p xs)

/-- `back()`, `bidirectional_range_interface.hpp:17-23`. -/
def fback (p : α → Bool) (xs : List α) : Option α :=
  if fempty p xs then none
  else (fdec p (fend p xs).1 (fend p xs).2).bind fderef

/-! ### A filtered range of a filtered range -/

/-- `find_next`, `filtered_range.hpp:63-67`, of the outer range: the original is a range filtered by `p` with the end `e`, and `++` is that of its
iterators.  `fuel` bounds the number of iterations. -/
def findNext2 (p q : α → Bool) (e : List α × List α) : Nat → List α × List α → Option (List α × List α)
  | 0, _ => none
  | fuel + 1, it =>
    if fsame it e then some it
    else match fderef it with
      | none => none
      | some x => if q x then some it else (finc p it).bind (findNext2 p q e fuel)

/-- The elements met by a loop over `filter_range(filter_range(xs, p), q)`: `begin()` and `++` of the outer iterators,
`filtered_range.hpp:77-79`, `:49-53`, until `end()`, `:81-83`. -/
def fwalk2 (p q : α → Bool) (e : List α × List α) (n : Nat) : Nat → List α × List α → Option (List α)
  | 0, _ => none
  | fuel + 1, it =>
    if fsame it e then some []
    else match fderef it with
      | none => none
      | some x => (finc p it).bind fun it => (findNext2 p q e n it).bind fun it => (fwalk2 p q e n fuel it).map (x :: ·)

/-- The whole loop. -/
def nested (p q : α → Bool) (xs : List α) : Option (List α) :=
  (findNext2 p q (fend p xs) (xs.length + 1) (fbegin p xs)).bind
    (fwalk2 p q (fend p xs) (xs.length + 1) (xs.length + 1))

/-! ### Loops that assign -/

/-- `*it = v`. -/
def fassign (v : α → α) (it : List α × List α) : Option (List α × List α) :=
  match it.2 with
  | [] => none
  | x :: t => some (it.1, v x :: t)

/-- `for (auto& x : filter_range(xs, p)) x = f(x);`: `end()` is taken once, a position that assignments do not move.  The result is the content
of the original range after the loop. -/
def floop (p : α → Bool) (f : α → α) (e : List α × List α) : Nat → List α × List α → Option (List α)
  | 0, _ => none
  | fuel + 1, it =>
    if fsame it e then some (it.1.reverse ++ it.2)
    else (fassign f it).bind fun it => (finc p it).bind (floop p f e fuel)

/-- `for (auto it = r.end(); it != b; ) { --it; *it = f(*it); }`, where `b` is `r.begin()` taken before the loop (`kept`), or taken anew for every
comparison. -/
def floopBack (p : α → Bool) (f : α → α) (kept : Option (List α × List α)) : Nat → List α × List α → Option (List α)
  | 0, _ => none
  | fuel + 1, it =>
    let b := match kept with
      | some b => b
      | none => fbegin p (it.1.reverse ++ it.2)
    if fsame it b then some (it.1.reverse ++ it.2)
    else (fdec p it.1 it.2).bind fun it => (fassign f it).bind (floopBack p f kept fuel)

end Actl.Ranges
