import Verif.Model.Winding

/-!
# Point in a monotone polygon

Model of `algorithm/within/monotone_polygon.hpp`, `algorithm/within/convex_monotone_polygon.hpp` and of
the conversion of a convex polygon in `polygon.hpp`.  Exact arithmetic as in `Model/Geometry.lean`.
`none` stands for an access out of range or an invalid range given to `std::lower_bound`.
-/

namespace Actl.Geo

variable {F : Type*} [Mul F] [Sub F] [Zero F] [LinearOrder F]

/-- `std::lower_bound(first, last, p, less)` as the number of elements skipped.  Simplification: a linear
search, which gives the result of the standard function for every partitioned range. -/
def lowerBound (l : List (Vec F 2)) (p : Vec F 2) : Nat := (l.takeWhile fun v => less v p).length

/-- `detail::to_inclusion`, `detail/to_inclusion.hpp` 14-18. -/
def toInclusion : Turn → Within
  | .left => .outside
  | .collinear => .border
  | .right => .inside

/-- The vertices `lit[-1]` and `lit[0]`, `monotone_polygon.hpp` 31-32, `convex_monotone_polygon.hpp`
41-43. -/
def lowerEdge (poly : List (Vec F 2)) (right : Nat) (p : Vec F 2) : Option (Vec F 2 × Vec F 2) :=
  if right = 0 then none
  else
    let lit := 1 + lowerBound ((poly.drop 1).take (right - 1)) p
    match poly[lit - 1]?, poly[lit]? with
    | some x, some y => some (x, y)
    | _, _ => none

/-- The vertices `uit[0]` and the one after it in the polygon (`uit[-1]`, or the first),
`monotone_polygon.hpp` 34-39, `convex_monotone_polygon.hpp` 48-53. -/
def upperEdge (poly : List (Vec F 2)) (right : Nat) (p : Vec F 2) : Option (Vec F 2 × Vec F 2) :=
  let uit := lowerBound (poly.reverse.take (poly.length - right - 1)) p
  match poly.reverse[uit]?, (if uit = 0 then poly[0]? else poly.reverse[uit - 1]?) with
  | some x, some y => some (x, y)
  | _, _ => none

/-- `within(point, monotone_polygon)`, `within/monotone_polygon.hpp` 16-42. -/
def withinMonotone (p : Vec F 2) (poly : List (Vec F 2)) (right : Nat) : Option Within :=
  match poly with
  | [] => some .outside
  | [v] => some (if isEqual p v then .border else .outside)
  | _ =>
    match poly[0]?, poly[right]? with
    | some a, some m =>
      if less p a || less m p then some .outside
      else
        match lowerEdge poly right p with
        | none => none
        | some (x, y) =>
          if orientation3 p y x = .right then
            match upperEdge poly right p with
            | none => none
            | some (x', y') => some (toInclusion (orientation3 p y' x'))
          else some (toInclusion (orientation3 p y x))
    | _, _ => none

/-- `within(point, convex_monotone_polygon)`, `within/convex_monotone_polygon.hpp` 16-56. -/
def withinConvexMonotone (p : Vec F 2) (poly : List (Vec F 2)) (right : Nat) : Option Within :=
  match poly with
  | [] => some .outside
  | [v] => some (if isEqual p v then .border else .outside)
  | _ =>
    match poly[0]?, poly[right]? with
    | some a, some m =>
      if less p a || less m p then some .outside
      else
        match orientation3 p m a with
        | .collinear =>
          if isEqual p a || isEqual p m then some .border
          else if right = 1 ∨ right + 1 = poly.length then some .border else some .inside
        | .left =>
          match lowerEdge poly right p with
          | none => none
          | some (x, y) => some (toInclusion (orientation3 p y x))
        | .right =>
          match upperEdge poly right p with
          | none => none
          | some (x', y') => some (toInclusion (orientation3 p y' x'))
    | _, _ => none

/-- First component of `minmax_element`: the position of the first minimum.  `best` at `pos` is the
minimum so far, `i` the position of the next element. -/
def minIndex (best : Vec F 2) (pos : Nat) : Nat → List (Vec F 2) → Nat
  | _, [] => pos
  | i, y :: ys => if less y best then minIndex y i (i + 1) ys else minIndex best pos (i + 1) ys

/-- Second component of `minmax_element`: the position of the last maximum. -/
def maxIndex (best : Vec F 2) (pos : Nat) : Nat → List (Vec F 2) → Nat
  | _, [] => pos
  | i, y :: ys => if less y best then maxIndex best pos (i + 1) ys else maxIndex y i (i + 1) ys

/-- `convex_monotone_polygon(convex_polygon)`, `polygon.hpp` 127-137: the vertices and `right`.
Points are compared by `less`, as everywhere. -/
def toMonotone (poly : List (Vec F 2)) : List (Vec F 2) × Nat :=
  match poly with
  | [] => ([], 0)
  | x :: xs =>
    let first := minIndex x 0 1 xs
    let second := maxIndex x 0 1 xs
    let right : Int := (second : Int) - first
    (poly.rotate first, (if right < 0 then right + poly.length else right).toNat)

end Actl.Geo
