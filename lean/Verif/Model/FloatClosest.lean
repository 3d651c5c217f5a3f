import Verif.Model.FloatLines
import Verif.Model.ClosestPair
import Verif.Model.Antipodal

/-!
# The closest and the furthest points in floating point

The functions of `Model/ClosestPair.lean` and `Model/Antipodal.lean` on points of a floating point type: `fl` rounds the exact result of
every arithmetic operation, as in `Model/FloatGeometry.lean`, and `sqrt` is the exact square root, which is rounded as well.  Comparisons
are exact.
-/

namespace Actl.Geo

variable {F : Type*} [Field F] [LinearOrder F]

/-- The double loop over at most three points, `nearest/multi_point.hpp` 28-35. -/
def bruteForceR (fl sqrt : F → F) (points : List (Vec F 2)) : DistPair F :=
  (List.range points.length).foldl (fun res i =>
    (List.range' (i + 1) (points.length - (i + 1))).foldl (fun res j =>
      let dist := distancePointR fl sqrt (elemAt points i) (elemAt points j)
      if j = 1 ∨ dist < res.1 then (dist, elemAt points i, elemAt points j) else res) res)
    (0, 0, 0)

/-- The loop over the previous points of the strip, `nearest/multi_point.hpp` 50-56, the last one first. -/
def scanStripR (fl sqrt : F → F) (p : Vec F 2) : DistPair F → List (Vec F 2) → DistPair F
  | res, [] => res
  | res, q :: qs =>
    if fl (p 1 - q 1) < res.1 then
      let dist := distancePointR fl sqrt p q
      scanStripR fl sqrt p (if dist < res.1 then (dist, p, q) else res) qs
    else res

/-- The loop over all the points by `y`, `nearest/multi_point.hpp` 47-59.  `kept` as in `stripLoop`. -/
def stripLoopR (fl sqrt : F → F) (mx : F) : DistPair F → List (Vec F 2) → List (Vec F 2) → DistPair F
  | res, _, [] => res
  | res, kept, p :: ps =>
    if absValue (fl (p 0 - mx)) < res.1 then stripLoopR fl sqrt mx (scanStripR fl sqrt p res kept) (p :: kept) ps
    else stripLoopR fl sqrt mx res kept ps

/-- `detail::nearest`, `nearest/multi_point.hpp` 19-61. -/
def nearestRecR (fl sqrt : F → F) (alg : StdAlgorithms (Vec F 2)) (points : List (Vec F 2)) :
    DistPair F × List (Vec F 2) :=
  if points.length ≤ 3 then (bruteForceR fl sqrt points, alg.sort yLess points)
  else
    let middle := points.length / 2
    let mx := elemAt points middle 0
    let l := nearestRecR fl sqrt alg (points.take middle)
    let r := nearestRecR fl sqrt alg (points.drop middle)
    let res := if r.1.1 < l.1.1 then r.1 else l.1
    let points := List.merge l.2 r.2 fun a b => !yLess b a
    (stripLoopR fl sqrt mx res [] points, points)
termination_by points.length
decreasing_by
  all_goals simp only [List.length_take, List.length_drop]; omega

/-- `nearest(points)`, `nearest/multi_point.hpp` 65-78.  `none`: the assertion of line 69. -/
def nearestPairR (fl sqrt : F → F) (alg : StdAlgorithms (Vec F 2)) (points : List (Vec F 2)) :
    Option ((Vec F 2 × Vec F 2) × List (Vec F 2)) :=
  if points.length ≤ 1 then none
  else
    let points := alg.sort less points
    match equalNeighbours points with
    | some pair => some (pair, points)
    | none =>
      let r := nearestRecR fl sqrt alg points
      some (r.1.2, r.2)

/-- `vecj`, `antipodal_vertices.hpp` 25. -/
def edgeFromR (fl : F → F) (poly : List (Vec F 2)) (j : Nat) : Vec F 2 :=
  subR fl (polyAt poly (if j + 1 ≠ poly.length then j + 1 else 0)) (polyAt poly j)

/-- The inner loop of `antipodal_vertices.hpp` 23-28; `left_turn` is `orientation/point_point.hpp` 14-19. -/
def antipodalInnerR (fl : F → F) (poly : List (Vec F 2)) (i : Nat) : Nat → Nat → List (Nat × Nat) →
    Option (Nat × List (Nat × Nat))
  | 0, j, out => some (j, out)
  | k + 1, j, out =>
    let out := out ++ [(i, j)]
    if i + 1 < poly.length then
      if Turn.ofSign (areaR fl (edgeFromR fl poly j) (subR fl (polyAt poly (i + 1)) (polyAt poly i))) = .left then
        antipodalInnerR fl poly i k (j + 1) out
      else some (j, out)
    else none

/-- The outer loop of `antipodal_vertices.hpp` 22-29; the first argument as in `antipodalOuter`. -/
def antipodalOuterR (fl : F → F) (poly : List (Vec F 2)) : Nat → Nat → Nat → List (Nat × Nat) →
    Option (List (Nat × Nat))
  | 0, _, _, _ => none
  | k + 1, i, j, out =>
    if j = poly.length then some out
    else
      match antipodalInnerR fl poly i (poly.length - j) j out with
      | none => none
      | some (j, out) => antipodalOuterR fl poly k (i + 1) j out

/-- `antipodal_vertices`, `antipodal_vertices.hpp` 15-31. -/
def antipodalVerticesR (fl : F → F) (poly : List (Vec F 2)) : Option (List (Nat × Nat)) :=
  if poly.length = 0 then none else antipodalOuterR fl poly (poly.length + 1) 0 1 []

/-- `max_distance`, `max_distance.hpp` 16-25. -/
def maxDistanceR (fl sqrt : F → F) (poly : List (Vec F 2)) : Option F :=
  (antipodalVerticesR fl poly).map fun pairs =>
    pairs.foldl (fun res pair =>
      let dist := distancePointR fl sqrt (polyAt poly pair.1) (polyAt poly pair.2)
      if res < dist then dist else res) 0

end Actl.Geo
