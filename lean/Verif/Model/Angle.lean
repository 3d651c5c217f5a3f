import Verif.Model.Distance

/-!
# Angles, bisectors and inversion

Model of `include/actl/geometry/algorithm/point/{angle,bisector,invert}.hpp`.  The arithmetic is exact,
as in `Verif.Model.Geometry`; `square_root` and `atan2` of the code are parameters.
-/

namespace Actl.Geo

variable {F : Type*}

/-- `angle(point)`, `point/angle.hpp` 14-17: the first two coordinates. -/
def polarAngle {A : Type*} (atan2 : F → F → A) {n : Nat} (p : Vec F (n + 2)) : A := atan2 (p 1) (p 0)

/-- `angle(point, point)`, `point/angle.hpp` 19-24. -/
def angle [Add F] [Mul F] [Sub F] [Zero F] {A : Type*} (sqrt : F → F) (atan2 : F → F → A) {n : Nat}
    (l r : Vec F n) : A :=
  atan2 (areaN sqrt l r) (dot l r)

/-- `angle(point, point, origin)`, `point/angle.hpp` 26-34. -/
def angleAt [Add F] [Mul F] [Sub F] [Zero F] {A : Type*} (sqrt : F → F) (atan2 : F → F → A) {n : Nat}
    (l r origin : Vec F n) : A :=
  angle sqrt atan2 (l - origin) (r - origin)

/-- `bisector`, `point/bisector.hpp` 13-19. -/
def bisector [Add F] [Mul F] [Zero F] (sqrt : F → F) {n : Nat} (l r : Vec F n) : Vec F n :=
  (fun i => l i * norm sqrt r) + fun i => r i * norm sqrt l

/-- `invert(point, radius)`, `point/invert.hpp` 14-21.  `none`: the assertion of line 18 fails. -/
def invert [Add F] [Mul F] [Zero F] [Div F] [DecidableEq F] {n : Nat} (p : Vec F n) (radius : F) :
    Option (Vec F n) :=
  if degenerate p then none else
    let t := radius * radius / dotSelf p
    some fun i => p i * t

/-- `invert(point, sphere)`, `point/invert.hpp` 23-28. -/
def invertSphere [Add F] [Mul F] [Sub F] [Zero F] [Div F] [DecidableEq F] {n : Nat} (p : Vec F n)
    (s : Sphere F n) : Option (Vec F n) :=
  (invert (p - s.center) s.radius).map fun q => s.center + q

end Actl.Geo
