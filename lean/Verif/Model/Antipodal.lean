import Verif.Model.Distance

/-!
# Antipodal vertices of a convex polygon

Model of `include/actl/geometry/algorithm/polygon/antipodal_vertices.hpp` and `max_distance.hpp`.
Iterators of the polygon are positions; the output is the list of the written pairs.  `none` is
undefined behaviour: reading `i[1]` past the end, line 26, or the iterator after `end`, line 22.
-/

namespace Actl.Geo

variable {F : Type*} [Add F] [Mul F] [Sub F] [Zero F] [LinearOrder F]

/-- Reading the polygon; positions are checked by the callers. -/
def polyAt (poly : List (Vec F 2)) (i : Nat) : Vec F 2 := (poly[i]?).getD 0

/-- `vecj`, line 25. -/
def edgeFrom (poly : List (Vec F 2)) (j : Nat) : Vec F 2 :=
  polyAt poly (if j + 1 ≠ poly.length then j + 1 else 0) - polyAt poly j

/-- The inner loop, lines 23-28, the first argument is the number of positions from `j` to the end:
the new `j` and the written pairs. -/
def antipodalInner (poly : List (Vec F 2)) (i : Nat) : Nat → Nat → List (Nat × Nat) →
    Option (Nat × List (Nat × Nat))
  | 0, j, out => some (j, out)
  | k + 1, j, out =>
    let out := out ++ [(i, j)]
    if i + 1 < poly.length then
      if orientation (polyAt poly (i + 1) - polyAt poly i) (edgeFrom poly j) = .left then
        antipodalInner poly i k (j + 1) out
      else some (j, out)
    else none

/-- The outer loop, lines 22-29.  The first argument bounds the number of iterations: the reading of
`i[1]` is undefined when `i` has passed the last vertex. -/
def antipodalOuter (poly : List (Vec F 2)) : Nat → Nat → Nat → List (Nat × Nat) →
    Option (List (Nat × Nat))
  | 0, _, _, _ => none
  | k + 1, i, j, out =>
    if j = poly.length then some out
    else
      match antipodalInner poly i (poly.length - j) j out with
      | none => none
      | some (j, out) => antipodalOuter poly k (i + 1) j out

/-- `antipodal_vertices`, lines 15-31: the pairs written to the output. -/
def antipodalVertices (poly : List (Vec F 2)) : Option (List (Nat × Nat)) :=
  if poly.length = 0 then none else antipodalOuter poly (poly.length + 1) 0 1 []

/-- `max_distance`, `max_distance.hpp` 16-25.  `max(inout{res}, x)` replaces `res` if it is less. -/
def maxDistance (sqrt : F → F) (poly : List (Vec F 2)) : Option F :=
  (antipodalVertices poly).map fun pairs =>
    pairs.foldl (fun res pair =>
      let dist := distancePoint sqrt (polyAt poly pair.1) (polyAt poly pair.2)
      if res < dist then dist else res) 0

end Actl.Geo
