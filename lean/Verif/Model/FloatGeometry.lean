import Verif.Model.Hull
import Verif.Model.Winding

/-!
# Geometry on points with floating point coordinates

The functions of `Model/Geometry.lean`, `Model/Hull.lean` and `Model/Winding.lean` on points of a floating point type.
Coordinates are numbers of an ordered field, and `fl` rounds the exact result of every arithmetic operation to a number of the type
(no overflow, underflow or contraction of operations; `product` is the product of the type).  Comparisons are exact.

The algorithms take the orientation test as a parameter: `turn` is `orientation(policy, l, r, origin)`.  Every function
gives `none` when it reads outside an array or fails an assertion.  `std::partition` and `std::sort` are treated as in
`Model/Hull.lean`.
-/

namespace Actl.Geo

variable {F : Type*} [Field F] [LinearOrder F]

/-- `operator-` of points, `point.hpp` 157-160. -/
def subR (fl : F → F) (p q : Vec F 2) : Vec F 2 := ![fl (p 0 - q 0), fl (p 1 - q 1)]

/-- `area(p0, p1)` in the plane, `area/point_point.hpp` 17-22. -/
def areaR (fl : F → F) (p0 p1 : Vec F 2) : F := fl (fl (p0 0 * p1 1) - fl (p0 1 * p1 0))

/-- `orientation(l, r, origin)`, `orientation/point_point.hpp` 14-29. -/
def orientation3R (fl : F → F) (l r origin : Vec F 2) : Turn := Turn.ofSign (areaR fl (subR fl r origin) (subR fl l origin))

/-! ## Convex hull -/

/-- The lambda `pop`, `andrew_monotone_chain.hpp` 41-45. -/
def popLastT (turn : Vec F 2 → Vec F 2 → Vec F 2 → Turn) (points : List (Vec F 2)) (p : Vec F 2) : Nat → Option Nat
  | 0 => some 0
  | last + 1 =>
    (points[last + 1]?).bind fun q => (points[last]?).bind fun o =>
      if turn p q o = .right then some (last + 1) else popLastT turn points p last

/-- Lines 48-49 of `andrew_monotone_chain.hpp`: at `pivot` the rest of the array is sorted. -/
def resortT (pivot i : Nat) (points : List (Vec F 2)) : List (Vec F 2) :=
  if i = pivot then points.take i ++ sortPointsDown (points.drop i) else points

/-- The loop of `andrew_monotone_chain.hpp` 46-52. -/
def hullLoopT (turn : Vec F 2 → Vec F 2 → Vec F 2 → Turn) (pivot : Nat) :
    Nat → Nat → List (Vec F 2) → Nat → Option (List (Vec F 2) × Nat)
  | 0, _, points, last => some (points, last)
  | fuel + 1, i, points, last =>
    ((resortT pivot i points)[i]?).bind fun p =>
      (popLastT turn (resortT pivot i points) p last).bind fun last =>
        if last + 1 < points.length then
          hullLoopT turn pivot fuel (i + 1) ((resortT pivot i points).set (last + 1) p) (last + 1)
        else none

/-- Lines 53-56 of `andrew_monotone_chain.hpp`. -/
def closeT (turn : Vec F 2 → Vec F 2 → Vec F 2 → Turn) (points : List (Vec F 2)) (last : Nat) : Option (List (Vec F 2)) :=
  (points[0]?).bind fun p0 => (popLastT turn points p0 last).bind fun last =>
    (points[1]?).map fun p1 =>
      points.take ((if last = 1 ∧ isEqual p0 p1 = true then last - 1 else last) + 1)

/-- `convex_hull`, `andrew_monotone_chain.hpp` 27-57.  The line through the extreme points `a` and `b` starts at `a` and has the vector
`b - a`, so the test of a point `p` against it is `orientation(p, b, a)`.  Line 38 is the assertion. -/
def convexHullT (turn : Vec F 2 → Vec F 2 → Vec F 2 → Turn) (points : List (Vec F 2)) : Option (List (Vec F 2)) :=
  match points with
  | [] => some []
  | [x] => some [x]
  | x :: y :: rest =>
    let a := minPoint x (y :: rest)
    let b := maxPoint x (y :: rest)
    let low := points.filter fun p => !decide (turn p b a = .right)
    let upp := points.filter fun p => decide (turn p b a = .right)
    if 2 ≤ low.length then
      (hullLoopT turn low.length (points.length - 2) 2 (sortPoints low ++ upp) 1).bind fun r => closeT turn r.1 r.2
    else none

/-- `convex_hull` of points of a floating point type. -/
def convexHullR (fl : F → F) (points : List (Vec F 2)) : Option (List (Vec F 2)) := convexHullT (orientation3R fl) points

/-! ## Point in a triangle, winding number, area -/

/-- `within(point, triangle)`, `within/triangle.hpp` 18-36. -/
def withinTriangleT (turn : Vec F 2 → Vec F 2 → Vec F 2 → Turn) (p a b c : Vec F 2) : Within :=
  let s0 := turn p b a
  let s1 := turn p c b
  let s2 := turn p a c
  if s0 = s1 ∧ s1 = s2 then .inside
  else if s0 ≠ .collinear ∧ s0 = s1.neg then .outside
  else if s1 ≠ .collinear ∧ s1 = s2.neg then .outside
  else if s2 ≠ .collinear ∧ s2 = s0.neg then .outside
  else .border

/-- `within(point, triangle)` of a floating point type. -/
def withinTriangleR (fl : F → F) (p a b c : Vec F 2) : Within := withinTriangleT (orientation3R fl) p a b c

/-- The body of the loop of `winding_number`, `winding_number.hpp` 31-54: `none` when it returns `boundary`, otherwise what is
added to `res`. -/
def windStepT (turn : Vec F 2 → Vec F 2 → Vec F 2 → Turn) (p a b : Vec F 2) : Option Int :=
  if isEqual p a then none
  else if a 1 = p 1 ∧ b 1 = p 1 then
    if a 0 < b 0 then
      if ¬ p 0 < a 0 ∧ ¬ b 0 < p 0 then none else some 0
    else
      if ¬ p 0 < b 0 ∧ ¬ a 0 < p 0 then none else some 0
  else if decide (a 1 < p 1) ≠ decide (b 1 < p 1) then
    if turn p b a = .collinear then none
    else if decide (a 1 < p 1) = decide (turn p b a = .right) then some (if decide (a 1 < p 1) then 1 else -1)
    else some 0
  else some 0

/-- The loop, `winding_number.hpp` 30-56. -/
def windLoopT (turn : Vec F 2 → Vec F 2 → Vec F 2 → Turn) (p : Vec F 2) (poly : List (Vec F 2)) : Nat → Int → Int → Int
  | 0, _, res => res
  | n + 1, i, res =>
    match windStepT turn p (cyclicAt poly i 0) (cyclicAt poly i 1) with
    | none => boundary
    | some d => windLoopT turn p poly n (cyclicNext poly.length i) (res + d)

/-- `winding_number`, `winding_number.hpp` 19-57. -/
def windingNumberT (turn : Vec F 2 → Vec F 2 → Vec F 2 → Turn) (p : Vec F 2) (poly : List (Vec F 2)) : Int :=
  match poly with
  | [] => 0
  | [v] => if isEqual p v then boundary else 0
  | _ => windLoopT turn p poly poly.length 0 0

/-- `within(point, simple_polygon)`, `within/simple_polygon.hpp` 15-27, of a floating point type. -/
def withinSimpleR (fl : F → F) (p : Vec F 2) (poly : List (Vec F 2)) : Within :=
  if windingNumberT (orientation3R fl) p poly = 0 then .outside
  else if windingNumberT (orientation3R fl) p poly = boundary then .border
  else .inside

/-- The loop of `area(polygon)`, `area/simple_polygon.hpp` 24-27. -/
def polyAreaLoopR (fl : F → F) (poly : List (Vec F 2)) : Nat → Int → F → F
  | 0, _, res => res
  | n + 1, i, res =>
    polyAreaLoopR fl poly n (cyclicNext poly.length i)
      (fl (res + fl (cyclicAt poly i 0 0 * fl (cyclicAt poly i 1 1 - cyclicAt poly i (-1) 1))))

/-- `area(simple_polygon)`, `area/simple_polygon.hpp` 16-29: twice the oriented area. -/
def polyAreaR (fl : F → F) (poly : List (Vec F 2)) : F := polyAreaLoopR fl poly poly.length 0 0

end Actl.Geo
