import Verif.Model.Hull
import Verif.Model.Winding

/-!
# Geometry on points with integer coordinates

The models of `Model/Geometry.lean`, `Model/Hull.lean` and `Model/Winding.lean` compute exactly.
Here are the same functions on points of signed integers of the machine, where an operation whose
exact result does not fit its type is undefined: every function gives `none` then, and also when it
reads outside an array.

Two widths are parameters.  `w` is the width of the type in which coordinates are subtracted
(`point.hpp`, `operator-` through `std::minus`; 32 for `int` and, after promotion, for anything
shorter, 64 for `long long`).  `W` is the width of the type in which the products are computed and
subtracted: `area` calls `product(policy, x, y)`, which is declared nowhere in this snapshot, so the
width is left open; `W = w` is the product of the coordinate type itself.

`std::partition` and `std::sort` are treated as in `Model/Hull.lean`.
-/

namespace Actl.Geo

/-- The result of a signed operation of `w` bits: undefined when the exact value does not fit. -/
def fitInt (w : Nat) (x : Int) : Option Int :=
  if -2 ^ (w - 1) ≤ x ∧ x < 2 ^ (w - 1) then some x else none

/-- `operator-` of points, `point.hpp` 157-160, coordinate by coordinate. -/
def subI (w : Nat) (p q : Vec Int 2) : Option (Vec Int 2) :=
  (fitInt w (p 0 - q 0)).bind fun x => (fitInt w (p 1 - q 1)).map fun y => ![x, y]

/-- `area(p0, p1)` in the plane, `area/point_point.hpp` 17-22. -/
def areaI (W : Nat) (p0 p1 : Vec Int 2) : Option Int :=
  (fitInt W (p0 0 * p1 1)).bind fun a => (fitInt W (p0 1 * p1 0)).bind fun b => fitInt W (a - b)

/-- `orientation(l, r)` in the plane, `orientation/point_point.hpp` 14-19. -/
def orientationI (W : Nat) (l r : Vec Int 2) : Option Turn := (areaI W r l).map Turn.ofSign

/-- `orientation(l, r, origin)`, `orientation/point_point.hpp` 21-29. -/
def orientation3I (w W : Nat) (l r origin : Vec Int 2) : Option Turn :=
  (subI w l origin).bind fun l => (subI w r origin).bind fun r => orientationI W l r

/-! ## Convex hull -/

/-- `minPoint` of `Model/Hull.lean` on integer points. -/
def minPointI (x : Vec Int 2) : List (Vec Int 2) → Vec Int 2
  | [] => x
  | y :: ys => minPointI (if less y x then y else x) ys

/-- `maxPoint` of `Model/Hull.lean` on integer points. -/
def maxPointI (x : Vec Int 2) : List (Vec Int 2) → Vec Int 2
  | [] => x
  | y :: ys => maxPointI (if less y x then x else y) ys

/-- `partition(points, comp)`, `andrew_monotone_chain.hpp` 34-37, for the line that starts at `a` and
has the vector `v`: the points not to its right and the points to its right. -/
def splitI (w W : Nat) (a v : Vec Int 2) :
    List (Vec Int 2) → Option (List (Vec Int 2) × List (Vec Int 2))
  | [] => some ([], [])
  | p :: ps =>
    (subI w p a).bind fun d => (orientationI W d v).bind fun t => (splitI w W a v ps).map fun r =>
      if t = .right then (r.1, p :: r.2) else (p :: r.1, r.2)

/-- The lambda `pop`, `andrew_monotone_chain.hpp` 41-45. -/
def popLastI (w W : Nat) (points : List (Vec Int 2)) (p : Vec Int 2) : Nat → Option Nat
  | 0 => some 0
  | last + 1 =>
    (points[last + 1]?).bind fun q => (points[last]?).bind fun o =>
      (orientation3I w W p q o).bind fun t =>
        if t = .right then some (last + 1) else popLastI w W points p last

/-- `sort(range, greater_functor)` on integer points. -/
def sortDownI (l : List (Vec Int 2)) : List (Vec Int 2) := l.mergeSort fun p q => !less p q

/-- `sort(range, less)` on integer points. -/
def sortI (l : List (Vec Int 2)) : List (Vec Int 2) := l.mergeSort fun p q => !less q p

/-- Lines 48-49 of `andrew_monotone_chain.hpp`: at `pivot` the rest of the array is sorted. -/
def resortI (pivot i : Nat) (points : List (Vec Int 2)) : List (Vec Int 2) :=
  if i = pivot then points.take i ++ sortDownI (points.drop i) else points

/-- The loop of `andrew_monotone_chain.hpp` 46-52. -/
def hullLoopI (w W pivot : Nat) :
    Nat → Nat → List (Vec Int 2) → Nat → Option (List (Vec Int 2) × Nat)
  | 0, _, points, last => some (points, last)
  | fuel + 1, i, points, last =>
    ((resortI pivot i points)[i]?).bind fun p =>
      (popLastI w W (resortI pivot i points) p last).bind fun last =>
        if last + 1 < points.length then
          hullLoopI w W pivot fuel (i + 1) ((resortI pivot i points).set (last + 1) p) (last + 1)
        else none

/-- Lines 53-56 of `andrew_monotone_chain.hpp`. -/
def closeI (w W : Nat) (points : List (Vec Int 2)) (last : Nat) : Option (List (Vec Int 2)) :=
  (points[0]?).bind fun p0 => (popLastI w W points p0 last).bind fun last =>
    (points[1]?).map fun p1 =>
      points.take ((if last = 1 ∧ isEqual p0 p1 = true then last - 1 else last) + 1)

/-- `convex_hull`, `andrew_monotone_chain.hpp` 27-57. -/
def convexHullI (w W : Nat) (points : List (Vec Int 2)) : Option (List (Vec Int 2)) :=
  match points with
  | [] => some []
  | [x] => some [x]
  | x :: y :: rest =>
    (subI w (maxPointI x (y :: rest)) (minPointI x (y :: rest))).bind fun v =>
      (splitI w W (minPointI x (y :: rest)) v points).bind fun s =>
        (hullLoopI w W s.1.length (points.length - 2) 2 (sortI s.1 ++ s.2) 1).bind fun r =>
          closeI w W r.1 r.2

/-! ## Point in a triangle, winding number, area -/

/-- `within(point, triangle)`, `within/triangle.hpp` 18-36. -/
def withinTriangleI (w W : Nat) (p a b c : Vec Int 2) : Option Within :=
  (orientation3I w W p b a).bind fun s0 => (orientation3I w W p c b).bind fun s1 =>
    (orientation3I w W p a c).map fun s2 =>
      if s0 = s1 ∧ s1 = s2 then .inside
      else if s0 ≠ .collinear ∧ s0 = s1.neg then .outside
      else if s1 ≠ .collinear ∧ s1 = s2.neg then .outside
      else if s2 ≠ .collinear ∧ s2 = s0.neg then .outside
      else .border

/-- The body of the loop of `winding_number`, `winding_number.hpp` 31-54: `some none` when it returns
`boundary`, otherwise what is added to `res`. -/
def windStepI (w W : Nat) (p a b : Vec Int 2) : Option (Option Int) :=
  if isEqual p a then some none
  else if a 1 = p 1 ∧ b 1 = p 1 then
    if a 0 < b 0 then
      if ¬ p 0 < a 0 ∧ ¬ b 0 < p 0 then some none else some (some 0)
    else
      if ¬ p 0 < b 0 ∧ ¬ a 0 < p 0 then some none else some (some 0)
  else if decide (a 1 < p 1) ≠ decide (b 1 < p 1) then
    (orientation3I w W p b a).map fun orient =>
      if orient = .collinear then none
      else if decide (a 1 < p 1) = decide (orient = .right) then
        some (if decide (a 1 < p 1) then 1 else -1)
      else some 0
  else some (some 0)

/-- `it[k]` for a cyclic iterator at position `i`, `range/iterator/cyclic_iterator.hpp` 48-58. -/
def cyclicAtI (poly : List (Vec Int 2)) (i k : Int) : Option (Vec Int 2) :=
  poly[(cyclicAdd poly.length i k).toNat]?

/-- The loop of `winding_number`, `winding_number.hpp` 30-56.  The counter is an `int` (32 bits)
whatever the type of the coordinates. -/
def windLoopI (w W : Nat) (p : Vec Int 2) (poly : List (Vec Int 2)) : Nat → Int → Int → Option Int
  | 0, _, res => some res
  | n + 1, i, res =>
    (cyclicAtI poly i 0).bind fun a => (cyclicAtI poly i 1).bind fun b =>
      (windStepI w W p a b).bind fun s =>
        match s with
        | none => some boundary
        | some d => (fitInt 32 (res + d)).bind fun res =>
            windLoopI w W p poly n (cyclicNext poly.length i) res

/-- `winding_number`, `winding_number.hpp` 19-57. -/
def windingNumberI (w W : Nat) (p : Vec Int 2) (poly : List (Vec Int 2)) : Option Int :=
  match poly with
  | [] => some 0
  | [v] => some (if isEqual p v then boundary else 0)
  | _ => windLoopI w W p poly poly.length 0 0

/-- `within(point, simple_polygon)`, `within/simple_polygon.hpp` 15-27. -/
def withinSimpleI (w W : Nat) (p : Vec Int 2) (poly : List (Vec Int 2)) : Option Within :=
  (windingNumberI w W p poly).map fun n =>
    if n = 0 then .outside else if n = boundary then .border else .inside

/-- The loop of `area(polygon)`, `area/simple_polygon.hpp` 24-27: the difference has `w` bits, the
product and the sum `W`. -/
def polyAreaLoopI (w W : Nat) (poly : List (Vec Int 2)) : Nat → Int → Int → Option Int
  | 0, _, res => some res
  | n + 1, i, res =>
    (cyclicAtI poly i 0).bind fun a => (cyclicAtI poly i 1).bind fun b =>
      (cyclicAtI poly i (-1)).bind fun c => (fitInt w (b 1 - c 1)).bind fun d =>
        (fitInt W (a 0 * d)).bind fun t => (fitInt W (res + t)).bind fun res =>
          polyAreaLoopI w W poly n (cyclicNext poly.length i) res

/-- `area(simple_polygon)`, `area/simple_polygon.hpp` 16-29. -/
def polyAreaI (w W : Nat) (poly : List (Vec Int 2)) : Option Int :=
  polyAreaLoopI w W poly poly.length 0 0

end Actl.Geo
