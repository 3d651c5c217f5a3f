import Verif.Spec.FloatGeometry

/-!
What the error of the arithmetic on lines is compared with.
-/

namespace Actl.Geo

variable {F : Type*} [Field F] [LinearOrder F]

/-- Twice the oriented area of the triangle of two vectors. -/
def wedge (p q : Vec F 2) : F := p 0 * q 1 - p 1 * q 0

/-- What `k` roundings of either product may change that by. -/
def wedgeError (u : F) (k : Nat) (p q : Vec F 2) : F := ((1 + u) ^ k - 1) * (|p 0 * q 1| + |p 1 * q 0|)

/-- The kind has a first end. -/
def HasFirst (k : LineKind) : Prop := k ≠ .free

/-- The kind has a second end. -/
def HasSecond (k : LineKind) : Prop := k = .closedSegment ∨ k = .halfOpenSegment ∨ k = .openSegment

/-- Compared with the error of the arithmetic, the two lines are far from parallel, and their common point is far from the ends of
both. -/
structure ClearlyMeet (u : F) (l r : Line F 2) : Prop where
  parallel : wedgeError u 2 r.vector l.vector < |wedge r.vector l.vector|
  left : HasFirst l.kind → wedgeError u 3 (l.start - r.start) r.vector < |wedge (l.start - r.start) r.vector|
  right : HasFirst r.kind → wedgeError u 3 (l.start - r.start) l.vector < |wedge (l.start - r.start) l.vector|
  leftEnd : HasSecond l.kind → wedgeError u 2 r.vector l.vector + wedgeError u 3 (l.start - r.start) r.vector <
    |wedge r.vector l.vector - wedge (l.start - r.start) r.vector|
  rightEnd : HasSecond r.kind → wedgeError u 2 r.vector l.vector + wedgeError u 3 (l.start - r.start) l.vector <
    |wedge r.vector l.vector - wedge (l.start - r.start) l.vector|

/-- The error of the parameter of the common point, `t` on the line `l`. -/
def paramError (u : F) (l r : Line F 2) (t : F) : F :=
  let d := (wedgeError u 3 (l.start - r.start) r.vector + |t| * wedgeError u 2 r.vector l.vector) /
    (|wedge r.vector l.vector| - wedgeError u 2 r.vector l.vector)
  d + u * (|t| + d)

/-- The error of a coordinate of the common point: `s + t v` is computed with an error `e` of `t`. -/
def pointError (u s v t e : F) : F :=
  let d := e * |v| + u * ((|t| + e) * |v|)
  d + u * (|s + t * v| + d)

end Actl.Geo
