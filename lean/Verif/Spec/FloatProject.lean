import Verif.Spec.FloatLines
import Verif.Spec.Distance

/-!
What the errors of projections are compared with.
-/

namespace Actl.Geo

variable {F : Type*} [Field F] [LinearOrder F] {n : Nat}

/-- What `k` roundings can change a number by, relative to it. -/
def grow (u : F) (k : Nat) : F := (1 + u) ^ k - 1

/-- The sum of the absolute values of the products of coordinates. -/
def absInner (p q : Vec F n) : F := ∑ i, |p i * q i|

/-- The error of a quotient `t = x / y` of two numbers with the errors `ex` and `ey`, which is rounded. -/
def quotientError (u t ex y ey : F) : F :=
  let d := (ex + |t| * ey) / (|y| - ey)
  d + u * (|t| + d)

/-- The error of a sum `x` computed from parts with the error `d`, which is rounded. -/
def sumError (u x d : F) : F := d + u * (|x| + d)

/-- The error of the parameter `t` of the foot of the perpendicular, `w` being the vector from the start of the line to the point. -/
def footError (u : F) (w v : Vec F n) (t : F) : F :=
  quotientError u t (grow u (n + 2) * absInner w v) (inner v v) (grow u (n + 1) * inner v v)

/-- The error of the multiple `t` of the normal in the projection on a plane. -/
def planeError (u : F) (pl : Plane F n) (p : Vec F n) (t : F) : F :=
  quotientError u t (sumError u (inner pl.normal p - pl.d) (grow u (n + 1) * absInner pl.normal p)) (inner pl.normal pl.normal)
    (grow u (n + 1) * inner pl.normal pl.normal)

/-- The error of the product which decides on which side of the last end of a segment a point is. -/
def endError (u : F) (p : Vec F n) (l : Line F n) : F :=
  grow u (n + 2) * absInner (p - (l.start + l.vector)) l.vector + (1 + grow u (n + 2)) * (u * absInner (l.start + l.vector) l.vector)

/-- The error of the parameter of the nearest point. -/
def nearestError (u : F) (p : Vec F n) (l : Line F n) : F :=
  footError u (p - l.start) l.vector (inner (p - l.start) l.vector / inner l.vector l.vector) +
    (grow u (n + 2) * absInner (p - l.start) l.vector + endError u p l) / inner l.vector l.vector

/-- The relative error of a projection on a line, of the distance of the point from the start of the line. -/
def projectBound (u : F) (n : Nat) : F := (1 + u) * ((grow u (n + 2) + grow u (n + 1)) / (1 - grow u (n + 1))) + u

/-- The error of the distance from a line in the plane: of the distances from the ends, of the distance from the infinite line, and of the
products which decide between them. -/
def distanceError (u : F) (sqrt : F → F) (p : Vec F 2) (l : Line F 2) : F :=
  let len := sqrt (inner l.vector l.vector)
  let stop := u * sqrt (inner (l.start + l.vector) (l.start + l.vector))
  let first := grow u 5 * sqrt (dist2 p l.start)
  let last := grow u 5 * (sqrt (dist2 p (l.start + l.vector)) + stop) + stop
  let height := quotientError u (|wedge (p - l.start) l.vector| / len) (wedgeError u 3 (p - l.start) l.vector) len (grow u 4 * len)
  first + last + height + (grow u 4 * absInner (p - l.start) l.vector + endError u p l) / len

end Actl.Geo
