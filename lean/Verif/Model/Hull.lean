import Verif.Model.Geometry
import Mathlib.Data.List.Sort

/-!
# Convex hull by Andrew's monotone chain

Model of `algorithm/convex_hull/andrew_monotone_chain.hpp`, on the array the code works in.

`std::partition` leaves each side in an unspecified order; both sides are sorted before they are
used, and the comparison is a total order on points, so the model keeps the order of the input in
the partition and any sorting algorithm gives the same array.
-/

namespace Actl.Geo

variable {F : Type*} [Field F] [LinearOrder F]

/-- `right_turn(p, q, origin)`, `orientation/orientation.hpp` 45-48. -/
def rightTurn (p q origin : Vec F 2) : Bool := decide (orientation3 p q origin = .right)

/-- The minimum of a non-empty range with respect to `less` (`minmax_element`, first). -/
def minPoint (x : Vec F 2) : List (Vec F 2) → Vec F 2
  | [] => x
  | y :: ys => minPoint (if less y x then y else x) ys

/-- The maximum of a non-empty range with respect to `less` (`minmax_element`, second). -/
def maxPoint (x : Vec F 2) : List (Vec F 2) → Vec F 2
  | [] => x
  | y :: ys => maxPoint (if less y x then x else y) ys

/-- `sort(range, less)`. -/
def sortPoints (l : List (Vec F 2)) : List (Vec F 2) := l.mergeSort fun p q => !less q p

/-- `sort(range, greater_functor)`. -/
def sortPointsDown (l : List (Vec F 2)) : List (Vec F 2) := l.mergeSort fun p q => !less p q

/-- Reading the array; the code stays within it. -/
def pointAt (points : List (Vec F 2)) (i : Nat) : Vec F 2 := (points[i]?).getD 0

/-- The lambda `pop`, `andrew_monotone_chain.hpp` 41-45: the new value of `last`. -/
def popLast (points : List (Vec F 2)) (p : Vec F 2) : Nat → Nat
  | 0 => 0
  | last + 1 =>
    if rightTurn p (pointAt points (last + 1)) (pointAt points last) then last + 1
    else popLast points p last

/-- The loop of `andrew_monotone_chain.hpp` 46-52: `fuel` iterations are left (`n - i`). -/
def hullLoop (pivot : Nat) : Nat → Nat → List (Vec F 2) → Nat → List (Vec F 2) × Nat
  | 0, _, points, last => (points, last)
  | fuel + 1, i, points, last =>
    let points := if i = pivot then points.take i ++ sortPointsDown (points.drop i) else points
    let last := popLast points (pointAt points i) last
    hullLoop pivot fuel (i + 1) (points.set (last + 1) (pointAt points i)) (last + 1)

/-- `convex_hull`, `andrew_monotone_chain.hpp` 27-57: the span returned.  Line 34 makes the line
through the extreme points and the comparison, line 37 partitions, line 39 sorts the first part,
lines 53-56 close the chain. -/
def convexHull (points : List (Vec F 2)) : List (Vec F 2) :=
  match points with
  | [] => []
  | [x] => [x]
  | x :: y :: rest =>
    let a := minPoint x (y :: rest)
    let b := maxPoint x (y :: rest)
    let comp := fun p => !decide (orientationLine p (Line.through a b .free) = .right)
    let pivot := (points.filter comp).length
    let points := sortPoints (points.filter comp) ++ points.filter fun p => !comp p
    let r := hullLoop pivot (points.length - 2) 2 points 1
    let points := r.1
    let last := popLast points (pointAt points 0) r.2
    let last := if last = 1 ∧ isEqual (pointAt points 0) (pointAt points 1) = true then last - 1
      else last
    points.take (last + 1)

end Actl.Geo
