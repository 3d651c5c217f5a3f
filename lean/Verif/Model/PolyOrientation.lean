import Verif.Model.Geometry

/-!
# Orientation of a simple polygon

Model of `algorithm/orientation/simple_polygon.hpp`, exact arithmetic as in `Model/Geometry.lean`.
-/

namespace Actl.Geo

variable {F : Type*} [Mul F] [Sub F] [Zero F] [LinearOrder F]

/-- The loop of `std::min_element` as called by `min_element(range, comp)`, `range/algorithm.hpp` 137-140, with `less` on
points: `n` elements are left, the next is at position `i`, the least so far at `best`. -/
def minLoop (poly : List (Vec F 2)) : Nat → Nat → Nat → Nat
  | 0, _, best => best
  | n + 1, i, best =>
    minLoop poly n (i + 1) (if less ((poly[i]?).getD 0) ((poly[best]?).getD 0) then i else best)

/-- `min_element(poly, less(policy))`, `orientation/simple_polygon.hpp` 21: the position of the first least vertex. -/
def minElement (poly : List (Vec F 2)) : Nat := minLoop poly (poly.length - 1) 1 0

/-- `orientation(simple_polygon)`, `orientation/simple_polygon.hpp` 17-23.  `none`: the assertion of `cyclic_iterator` that the
range is not empty (`cyclic_iterator.hpp` 30) or that 1 is less than its size (51) fails.  As `point.hpp` 174 names an undeclared
`less_t`, the model takes it for the operation `less`. -/
def orientationSimple (poly : List (Vec F 2)) : Option Turn :=
  if poly.length < 2 then none
  else
    let i : Int := minElement poly
    some (orientation3 (cyclicAt poly i (-1)) (cyclicAt poly i 0) (cyclicAt poly i 1))

end Actl.Geo
