import Verif.Model.Geometry

/-!
# Intersection of two planar lines, rays or segments

Model of `algorithm/intersect/line_line_2d.hpp`, `detail/common_line.hpp`,
`detail/scalar_to_point_adaptor.hpp`, `algorithm/crosses/line_line_2d.hpp` and
`algorithm/point/circumcenter.hpp`.  What is written to the output iterator is the list returned.
-/

namespace Actl.Geo

variable {F : Type*} [Field F] [LinearOrder F]

/-- `cross_test`, `intersect/line_line_2d.hpp` 27-43. -/
def crossTest (l r : Line F 2) (tarea larea rarea : F) : Bool :=
  if tarea < 0 then
    lineTest l.kind (-larea) (-tarea) && lineTest r.kind (-rarea) (-tarea)
  else lineTest l.kind larea tarea && lineTest r.kind rarea tarea

/-- `intersect(line_scalar_policy, lhs, rhs)`, `intersect/line_line_2d.hpp` 47-65: the parameter on
`lhs` of the common point. -/
def intersectScalar (lhs rhs : Line F 2) : List F :=
  let tarea := area rhs.vector lhs.vector
  if tarea = 0 then []
  else
    let v := lhs.start - rhs.start
    let larea := area v rhs.vector
    let rarea := area v lhs.vector
    if !crossTest lhs rhs tarea larea rarea then [] else [larea / tarea]

/-- `intersect(general_position_policy, lhs, rhs)`, `intersect/line_line_2d.hpp` 67-80: the
parameter goes through `scalar_to_point_adaptor` (`detail/scalar_to_point_adaptor.hpp` 24-27). -/
def intersectGeneral (lhs rhs : Line F 2) : List (Vec F 2) :=
  (intersectScalar lhs rhs).map lhs.at

/-- An end of a line: the point and its kind, the pairs of `detail/common_line.hpp`. -/
abbrev End (F : Type*) := Vec F 2 × Endpoint

/-- `max_endpoint`, `detail/common_line.hpp` 15-38. -/
def maxEndpoint (lhs rhs : End F) (start : Bool) : End F :=
  if lhs.2 = .free then
    if rhs.2 ≠ .free then rhs
    else if less lhs.1 rhs.1 == start then lhs else rhs
  else if rhs.2 = .free then lhs
  else if less lhs.1 rhs.1 then (if start then rhs else lhs)
  else if less rhs.1 lhs.1 then (if start then lhs else rhs)
  else if rhs.2.val ≤ lhs.2.val then lhs else rhs

/-- `get_point` in `common_line`, `detail/common_line.hpp` 54-58. -/
def getPoint (l : Line F 2) (start : Bool) : End F :=
  if less 0 l.vector == start then (l.start, l.kind.first) else (l.stop, l.kind.last)

/-- `endpoint_test` on points, `detail/line_test.hpp` 13-25. -/
def endpointTestPoint (k : Endpoint) (l r : Vec F 2) : Bool :=
  match k with
  | .free => true
  | .closed => !less r l
  | .opened => less l r

/-- `common_line`, `detail/common_line.hpp` 40-67.  (`make_any_line` always gives one of the six
kinds, `kind_roundtrip`.) -/
def commonLine (l r : Line F 2) : List (Line F 2) :=
  let la := maxEndpoint (getPoint l true) (getPoint r true) true
  let lb := maxEndpoint (getPoint l false) (getPoint r false) false
  if endpointTestPoint la.2 la.1 lb.1 then (makeAnyLine la.1 la.2 lb.1 lb.2).toList else []

/-- `intersect(lhs, rhs)`, `intersect/line_line_2d.hpp` 82-104: a single common point is output as a
closed segment with zero vector. -/
def intersect (lhs rhs : Line F 2) : List (Line F 2) :=
  let tarea := area rhs.vector lhs.vector
  let v := lhs.start - rhs.start
  let larea := area v rhs.vector
  if tarea = 0 then
    if larea ≠ 0 then [] else commonLine lhs rhs
  else
    let rarea := area v lhs.vector
    if !crossTest lhs rhs tarea larea rarea then []
    else [{ start := lhs.at (larea / tarea), vector := 0, kind := .closedSegment }]

/-- `crosses(line, line)`, `crosses/line_line_2d.hpp` 37-44: whether anything was output. -/
def crossesLines (l r : Line F 2) : Bool := !(intersect l r).isEmpty

/-- `circumcenter`, `point/circumcenter.hpp` 14-32; `none` when `intersect` writes nothing and the
uninitialised `res` is returned. -/
def circumcenter (a b c : Vec F 2) : Option (Vec F 2) :=
  ((intersectGeneral { start := a + b, vector := perpendicular (a - b), kind := .free }
      { start := a + c, vector := perpendicular (a - c), kind := .free }).getLast?).map
    fun res => fun i => res i / 2

end Actl.Geo
