import Verif.Model.Geometry
import Mathlib.Algebra.BigOperators.Fin

/-!
# What the geometric predicates mean

Independent of the algorithms: a line, ray or segment is a set of points `start + t • vector`, a
point of a triangle is a convex combination of its vertices, the area of a polygon is the shoelace
sum, orthogonality is the vanishing of the sum of products.
-/

namespace Actl.Geo

variable {F : Type*}

/-- The parameters `t` that belong to a line (all), a ray (`t ≥ 0` or `t > 0`), or a segment
(between 0 and 1, the ends belonging or not). -/
def Allowed [Zero F] [One F] [LinearOrder F] : LineKind → F → Prop
  | .free, _ => True
  | .closedRay, t => 0 ≤ t
  | .openRay, t => 0 < t
  | .closedSegment, t => 0 ≤ t ∧ t ≤ 1
  | .halfOpenSegment, t => 0 < t ∧ t ≤ 1
  | .openSegment, t => 0 < t ∧ t < 1

/-- The point lies on the line, ray or segment. -/
def On [Zero F] [One F] [Add F] [Mul F] [LinearOrder F] {n : Nat} (p : Vec F n) (l : Line F n) :
    Prop :=
  ∃ t : F, Allowed l.kind t ∧ p = l.start + t • l.vector

/-- The sum of the signed areas over the consecutive pairs of an open chain. -/
def chainSum [Mul F] [Sub F] [Add F] [Zero F] : List (Vec F 2) → F
  | a :: b :: rest => (a 0 * b 1 - a 1 * b 0) + chainSum (b :: rest)
  | _ => 0

/-- The shoelace sum of a closed polygon: the chain of its vertices and back to the first. -/
def shoelace [Mul F] [Sub F] [Add F] [Zero F] : List (Vec F 2) → F
  | [] => 0
  | a :: rest => chainSum (a :: rest ++ [a])

/-- The sum of the products of the coordinates. -/
def inner [AddCommMonoid F] [Mul F] {n : Nat} (u v : Vec F n) : F := ∑ i, u i * v i

/-- The squared distance of two points. -/
def dist2 [CommRing F] {n : Nat} (p q : Vec F n) : F := ∑ i, (p i - q i) ^ 2

/-- The point lies in the plane (line, in two dimensions). -/
def InPlane [CommRing F] {n : Nat} (p : Vec F n) (pl : Plane F n) : Prop :=
  inner pl.normal p = pl.d

/-- `p` is the combination of the three points with the given coefficients. -/
def Combination [CommRing F] (p a b c : Vec F 2) (x y z : F) : Prop :=
  x + y + z = 1 ∧ p = x • a + y • b + z • c

end Actl.Geo
