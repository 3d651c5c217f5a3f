import Verif.Model.Distance
import Verif.Model.SortAngle

/-!
# The closest pair of points

Model of `include/actl/geometry/algorithm/nearest/multi_point.hpp`.  The arrays are lists; the two
halves of the span `points` and the buffer `tmp` do not overlap, so every recursive call returns the
new content of its half.  `std::sort` is a parameter (`StdAlgorithms`).
-/

namespace Actl.Geo

variable {F : Type*} [Add F] [Mul F] [Sub F] [Zero F] [Neg F] [LinearOrder F]

/-- `std::pair<T, std::pair<Point, Point>>`, line 22: a distance and the points that have it. -/
abbrev DistPair (F : Type*) := F × Vec F 2 × Vec F 2

omit [Add F] [Mul F] [Sub F] [Zero F] [Neg F] in
/-- The lambda `y_comp`, lines 23-25. -/
def yLess (l r : Vec F 2) : Bool := decide (l 1 < r 1)

omit [Add F] [Mul F] [Sub F] [Neg F] [LinearOrder F] in
/-- Reading the span; the code stays within it. -/
def elemAt (points : List (Vec F 2)) (i : Nat) : Vec F 2 := (points[i]?).getD 0

/-- The double loop over at most three points, lines 28-35.  The pair starts value-initialised. -/
def bruteForce (sqrt : F → F) (points : List (Vec F 2)) : DistPair F :=
  (List.range points.length).foldl (fun res i =>
    (List.range' (i + 1) (points.length - (i + 1))).foldl (fun res j =>
      let dist := distancePoint sqrt (elemAt points i) (elemAt points j)
      if j = 1 ∨ dist < res.1 then (dist, elemAt points i, elemAt points j) else res) res)
    (0, 0, 0)

/-- The loop over the previous points of the strip, lines 50-56, the last one first. -/
def scanStrip (sqrt : F → F) (p : Vec F 2) : DistPair F → List (Vec F 2) → DistPair F
  | res, [] => res
  | res, q :: qs =>
    if p 1 - q 1 < res.1 then
      let dist := distancePoint sqrt p q
      scanStrip sqrt p (if dist < res.1 then (dist, p, q) else res) qs
    else res

/-- The loop over all the points by `y`, lines 47-59.  `kept` is `tmp[0], …, tmp[count - 1]` from the
last one to the first. -/
def stripLoop (sqrt : F → F) (mx : F) : DistPair F → List (Vec F 2) → List (Vec F 2) → DistPair F
  | res, _, [] => res
  | res, kept, p :: ps =>
    if absValue (p 0 - mx) < res.1 then stripLoop sqrt mx (scanStrip sqrt p res kept) (p :: kept) ps
    else stripLoop sqrt mx res kept ps

/-- `detail::nearest`, lines 19-61: the pair returned and the new content of `points`.  `std::merge`
of line 45 takes an element of the second range only if it is less than that of the first. -/
def nearestRec (sqrt : F → F) (alg : StdAlgorithms (Vec F 2)) (points : List (Vec F 2)) :
    DistPair F × List (Vec F 2) :=
  if points.length ≤ 3 then (bruteForce sqrt points, alg.sort yLess points)
  else
    let middle := points.length / 2
    let mx := elemAt points middle 0
    let l := nearestRec sqrt alg (points.take middle)
    let r := nearestRec sqrt alg (points.drop middle)
    let res := if r.1.1 < l.1.1 then r.1 else l.1
    let points := List.merge l.2 r.2 fun a b => !yLess b a
    (stripLoop sqrt mx res [] points, points)
termination_by points.length
decreasing_by
  all_goals simp only [List.length_take, List.length_drop]; omega

/-- The search for equal neighbours, lines 71-74. -/
def equalNeighbours : List (Vec F 2) → Option (Vec F 2 × Vec F 2)
  | a :: b :: rest => if isEqual a b then some (a, b) else equalNeighbours (b :: rest)
  | _ => none

/-- `nearest(points)`, lines 65-78: the pair and the new content of `points`.  `none`: the assertion
of line 69. -/
def nearestPair (sqrt : F → F) (alg : StdAlgorithms (Vec F 2)) (points : List (Vec F 2)) :
    Option ((Vec F 2 × Vec F 2) × List (Vec F 2)) :=
  if points.length ≤ 1 then none
  else
    let points := alg.sort less points
    match equalNeighbours points with
    | some pair => some (pair, points)
    | none =>
      let r := nearestRec sqrt alg points
      some (r.1.2, r.2)

end Actl.Geo
