import Verif.Model.Distance

/-!
# Intersections with circles and spheres, tangents

Model of `include/actl/geometry/algorithm/intersect/{circle_circle,line_sphere,intersect}.hpp`,
`tangents/point_circle.hpp` and `detail/scalar_to_point_adaptor.hpp`.

Results are written through output iterators.  An output iterator is modelled by the assignments
made through it, each with the position it is made at (for a pointer: the cell; an inserter ignores
the position), and by the current position.
-/

namespace Actl.Geo

variable {F : Type*}

/-- An output iterator: what has been assigned, where, and the position now. -/
structure Output (P : Type*) where
  writes : List (Nat × P)
  pos : Nat
deriving DecidableEq

/-- `*output++ = x`. -/
def Output.put {P : Type*} (o : Output P) (x : P) : Output P :=
  { writes := o.writes ++ [(o.pos, x)], pos := o.pos + 1 }

/-- `*output++ = x` through a `scalar_to_point_adaptor`, `detail/scalar_to_point_adaptor.hpp` 24-39:
the assignment goes to the iterator inside, and neither `++` advances it. -/
def Output.putAdapted [Add F] [Mul F] {n : Nat} (l : Line F n) (o : Output (Vec F n)) (x : F) :
    Output (Vec F n) :=
  { writes := o.writes ++ [(o.pos, l.at x)], pos := o.pos }

/-- `compare3way`, `numeric/comparison/compare3way.hpp`. -/
def compare3 [LinearOrder F] (x y : F) : Int := if x < y then -1 else if y < x then 1 else 0

/-- `intersect(circle, circle, output)`, `intersect/circle_circle.hpp` 16-53.  `none`: division by
zero, line 35. -/
def intersectCircles [Add F] [Mul F] [Sub F] [Zero F] [One F] [Neg F] [Div F] [LinearOrder F]
    (sqrt : F → F) (lhs rhs : Sphere F 2) (output : Output (Vec F 2)) :
    Option (Output (Vec F 2)) :=
  let centersVector := rhs.center - lhs.center
  let centersDist2 := dotSelf centersVector
  let sgn0 := compare3 centersDist2 ((lhs.radius - rhs.radius) * (lhs.radius - rhs.radius))
  let sgn1 := compare3 ((lhs.radius + rhs.radius) * (lhs.radius + rhs.radius)) centersDist2
  if sgn0 < 0 ∨ sgn1 < 0 then some output
  else if centersDist2 = 0 then none
  else
    let lradius2 := lhs.radius * lhs.radius
    let rradius2 := rhs.radius * rhs.radius
    let a := (lradius2 - rradius2) / centersDist2
    let projection := lhs.center + ((a + 1) / (1 + 1)) • centersVector
    if sgn0 = 0 ∨ sgn1 = 0 then some (output.put projection)
    else
      let b := (lradius2 + rradius2) / centersDist2
      let offset := sqrt ((1 + 1) * b - a * a - 1) / (1 + 1)
      let offsetVector := offset • perpendicular centersVector
      some ((output.put (projection - offsetVector)).put (projection + offsetVector))

/-- The lambda `check`, `intersect/line_sphere.hpp` 37-41.  `none`: division by zero. -/
def checkRoot [Zero F] [Div F] [LinearOrder F] {S : Type*} (put : S → F → S) (kind : LineKind)
    (vdot x : F) (output : S) : Option S :=
  if lineTest kind x vdot then
    if vdot = 0 then none else some (put output (x / vdot))
  else some output

/-- `intersect(line_scalar_policy, line, sphere, output)`, `intersect/line_sphere.hpp` 16-50.  `put`
is `*output++ = x`. -/
def lineSphereWith [Add F] [Mul F] [Sub F] [Zero F] [Div F] [LinearOrder F] {S : Type*}
    (sqrt : F → F) (put : S → F → S) {n : Nat} (l : Line F n) (s : Sphere F n) (output : S) :
    Option S :=
  let vdot := dotSelf l.vector
  let a := areaN sqrt (s.center - l.start) l.vector
  let delta := vdot * (s.radius * s.radius) - a * a
  if delta < 0 then some output
  else
    let projection := dot (s.center - l.start) l.vector
    if delta = 0 then checkRoot put l.kind vdot projection output
    else
      let offset := sqrt delta
      (checkRoot put l.kind vdot (projection - offset) output).bind
        (checkRoot put l.kind vdot (projection + offset))

/-- The parameters of the common points, with the output iterator of the caller. -/
def lineSphereScalar [Add F] [Mul F] [Sub F] [Zero F] [Div F] [LinearOrder F] (sqrt : F → F)
    {n : Nat} (l : Line F n) (s : Sphere F n) (output : Output F) : Option (Output F) :=
  lineSphereWith sqrt Output.put l s output

/-- `intersect(line, sphere, output)`, `intersect/intersect.hpp` 23-36: the same through the
adaptor. -/
def lineSpherePoints [Add F] [Mul F] [Sub F] [Zero F] [Div F] [LinearOrder F] (sqrt : F → F)
    {n : Nat} (l : Line F n) (s : Sphere F n) (output : Output (Vec F n)) :
    Option (Output (Vec F n)) :=
  lineSphereWith sqrt (Output.putAdapted l) l s output

/-- `tangents(point, circle, output)`, `tangents/point_circle.hpp` 17-39.  The iterator returned by
`intersect` is dropped (line 30): the position stays. -/
def tangents [Add F] [Mul F] [Sub F] [Zero F] [One F] [Neg F] [Div F] [LinearOrder F]
    (sqrt : F → F) (p : Vec F 2) (c : Sphere F 2) (output : Output (Vec F 2)) :
    Option (Output (Vec F 2)) :=
  match withinSphere sqrt p c with
  | .outside =>
    let d := norm sqrt (c.center - p)
    let dist := sqrt (d * d - c.radius * c.radius)
    (intersectCircles sqrt ⟨p, dist⟩ c output).map fun o => { o with pos := output.pos }
  | .border => some (output.put p)
  | .inside => some output

/-- `tangents(polar_angle_policy, point, circle, output)`, `tangents/point_circle.hpp` 41-64: the
angles of the tangents.  `atan2` is the function of the C library. -/
def tangentAngles [Add F] [Mul F] [Sub F] [Zero F] [Neg F] [LinearOrder F] (sqrt : F → F)
    (atan2 : F → F → F) (p : Vec F 2) (c : Sphere F 2) (output : Output F) : Output F :=
  let centerVector := c.center - p
  match withinSphere sqrt p c with
  | .outside =>
    let centerAngle := atan2 (centerVector 1) (centerVector 0)
    let offset := atan2 c.radius (norm sqrt centerVector)
    (output.put (centerAngle - offset)).put (centerAngle + offset)
  | .border => output.put (atan2 (perpendicular centerVector 1) (perpendicular centerVector 0))
  | .inside => output

end Actl.Geo
