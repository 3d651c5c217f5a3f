import Verif.Spec.Geometry
import Verif.Model.Distance

/-!
# What distances and crossing tests are about
-/

namespace Actl.Geo

variable {F : Type*}

/-- `sqrt` gives the non-negative square root of every non-negative number. -/
def IsSqrt [Semiring F] [LinearOrder F] (sqrt : F → F) : Prop :=
  ∀ x, 0 ≤ x → 0 ≤ sqrt x ∧ sqrt x * sqrt x = x

/-- The parameters of a line, of a ray and of a segment, the ends always included. -/
def Reach [Zero F] [One F] [LinearOrder F] : LineKind → F → Prop
  | .free, _ => True
  | .closedRay, t | .openRay, t => 0 ≤ t
  | .closedSegment, t | .halfOpenSegment, t | .openSegment, t => 0 ≤ t ∧ t ≤ 1

/-- The point lies on the line, ray or segment, or is an end of it. -/
def Touches [Zero F] [One F] [Add F] [Mul F] [LinearOrder F] {n : Nat} (p : Vec F n)
    (l : Line F n) : Prop :=
  ∃ t : F, Reach l.kind t ∧ p = l.start + t • l.vector

/-- `q` is the only point of the set `S` nearest to `p`. -/
def Nearest [CommRing F] [LinearOrder F] {n : Nat} (S : Vec F n → Prop) (p q : Vec F n) : Prop :=
  S q ∧ ∀ x, S x → dist2 p q ≤ dist2 p x ∧ (dist2 p x = dist2 p q → x = q)

/-- `d` is the distance from `p` to the nearest point of `S`. -/
def IsDistance [CommRing F] [LinearOrder F] {n : Nat} (S : Vec F n → Prop) (p : Vec F n) (d : F) :
    Prop :=
  0 ≤ d ∧ (∃ q, S q ∧ dist2 p q = d ^ 2) ∧ ∀ x, S x → d ^ 2 ≤ dist2 p x

/-- The point lies on the surface of the sphere. -/
def OnSphere [CommRing F] {n : Nat} (p : Vec F n) (s : Sphere F n) : Prop :=
  dist2 p s.center = s.radius ^ 2

end Actl.Geo
