import Verif.Model.IntLines
import Verif.Model.IntPolygon
import Verif.Model.ClosestPair

/-!
# The closest and the furthest points with integer coordinates

The functions of `Model/ClosestPair.lean` and `Model/Antipodal.lean` on points of signed integers, as in `Model/IntLines.lean`: `w` is the
width of coordinates, `W` the width of products; `none` is an operation whose exact result does not fit.

`square_root` of an integer (`square_root.hpp` 17-21) calls `std::sqrt`, which gives a `double`: `root` is this function, with values in
`F`.  Where an integer is compared with a distance it is converted to the type of distances: `conv`.
-/

namespace Actl.Geo

variable {F : Type*} [Zero F] [LinearOrder F]

/-- A distance and the points that have it, `nearest/multi_point.hpp` 22. -/
abbrev DistPairI (F : Type*) := F × Vec Int 2 × Vec Int 2

omit [Zero F] [LinearOrder F] in
/-- `distance(point, point)`, `distance/point_point.hpp` 14-19, with `norm`, `algorithm/point/norm.hpp` 14-17. -/
def distancePointI (root : Int → F) (w W : Nat) (p q : Vec Int 2) : Option F :=
  (subI w p q).bind fun d => (dotI W d d).map root

omit [Zero F] in
/-- The body of the double loop, `nearest/multi_point.hpp` 31-33. -/
def bruteStepI (root : Int → F) (w W : Nat) (points : List (Vec Int 2)) (i j : Nat) (res : DistPairI F) : Option (DistPairI F) :=
  (points[i]?).bind fun p => (points[j]?).bind fun q => (distancePointI root w W p q).map fun dist =>
    if j = 1 ∨ dist < res.1 then (dist, p, q) else res

/-- The double loop over at most three points, `nearest/multi_point.hpp` 28-35.  The pair starts value-initialised. -/
def bruteForceI (root : Int → F) (w W : Nat) (points : List (Vec Int 2)) : Option (DistPairI F) :=
  (List.range points.length).foldlM (fun res i =>
    (List.range' (i + 1) (points.length - (i + 1))).foldlM (fun res j => bruteStepI root w W points i j res) res)
    (0, ![0, 0], ![0, 0])

omit [Zero F] in
/-- The loop over the previous points of the strip, `nearest/multi_point.hpp` 50-56, the last one first. -/
def scanStripI (root conv : Int → F) (w W : Nat) (p : Vec Int 2) : DistPairI F → List (Vec Int 2) → Option (DistPairI F)
  | res, [] => some res
  | res, q :: qs =>
    (fitInt w (p 1 - q 1)).bind fun dy =>
      if conv dy < res.1 then
        (distancePointI root w W p q).bind fun dist =>
          scanStripI root conv w W p (if dist < res.1 then (dist, p, q) else res) qs
      else some res

/-- `abs` of an integer. -/
def absI (w : Nat) (x : Int) : Option Int := if x < 0 then fitInt w (-x) else some x

omit [Zero F] in
/-- The loop over all the points by `y`, `nearest/multi_point.hpp` 47-59.  `kept` as in `stripLoop`. -/
def stripLoopI (root conv : Int → F) (w W : Nat) (mx : Int) :
    DistPairI F → List (Vec Int 2) → List (Vec Int 2) → Option (DistPairI F)
  | res, _, [] => some res
  | res, kept, p :: ps =>
    (fitInt w (p 0 - mx)).bind fun dx => (absI w dx).bind fun ax =>
      if conv ax < res.1 then
        (scanStripI root conv w W p res kept).bind fun res => stripLoopI root conv w W mx res (p :: kept) ps
      else stripLoopI root conv w W mx res kept ps

/-- `detail::nearest`, `nearest/multi_point.hpp` 19-61: the pair returned and the new content of `points`. -/
def nearestRecI (root conv : Int → F) (w W : Nat) (alg : StdAlgorithms (Vec Int 2)) (points : List (Vec Int 2)) :
    Option (DistPairI F × List (Vec Int 2)) :=
  if points.length ≤ 3 then (bruteForceI root w W points).map fun res => (res, alg.sort yLess points)
  else
    (points[points.length / 2]?).bind fun m =>
      (nearestRecI root conv w W alg (points.take (points.length / 2))).bind fun l =>
        (nearestRecI root conv w W alg (points.drop (points.length / 2))).bind fun r =>
          (stripLoopI root conv w W (m 0) (if r.1.1 < l.1.1 then r.1 else l.1) [] (List.merge l.2 r.2 fun a b => !yLess b a)).map
            fun res => (res, List.merge l.2 r.2 fun a b => !yLess b a)
termination_by points.length
decreasing_by
  all_goals simp only [List.length_take, List.length_drop]; omega

/-- `nearest(points)`, `nearest/multi_point.hpp` 65-78: the pair and the new content of `points`.  `none` also for the assertion of
line 69. -/
def nearestPairI (root conv : Int → F) (w W : Nat) (alg : StdAlgorithms (Vec Int 2)) (points : List (Vec Int 2)) :
    Option ((Vec Int 2 × Vec Int 2) × List (Vec Int 2)) :=
  if points.length ≤ 1 then none
  else
    match equalNeighbours (alg.sort less points) with
    | some pair => some (pair, alg.sort less points)
    | none => (nearestRecI root conv w W alg (alg.sort less points)).map fun r => (r.1.2, r.2)

/-- The lambda of `max_distance`, `max_distance.hpp` 19-22. -/
def maxStepI (root : Int → F) (w W : Nat) (poly : List (Vec Int 2)) (res : F) (pair : Nat × Nat) : Option F :=
  (poly[pair.1]?).bind fun p => (poly[pair.2]?).bind fun q => (distancePointI root w W p q).map fun dist =>
    if res < dist then dist else res

/-- `max_distance`, `max_distance.hpp` 16-25. -/
def maxDistanceI (root : Int → F) (w W : Nat) (poly : List (Vec Int 2)) : Option F :=
  (antipodalVerticesI w W poly).bind fun pairs => pairs.foldlM (maxStepI root w W poly) 0

end Actl.Geo
