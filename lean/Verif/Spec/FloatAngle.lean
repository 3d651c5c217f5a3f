import Verif.Spec.SortAngle
import Verif.Spec.FloatGeometry

/-!
Order by angle without angles, and directions that rounding does not confuse.
-/

namespace Actl.Geo

variable {F : Type*} [Field F] [LinearOrder F]

/-- The angle is in `[0, π)`. -/
def Upper (v : Vec F 2) : Prop := 0 < v 1 ∨ v 1 = 0 ∧ 0 < v 0

/-- `v` does not come after `w`: `v` is the origin, or neither is and the angle of `v` is at most that of `w`: it is in the upper half and the
other one is not, or both are in the same half and `w` is not to the right of `v`. -/
def NotAfter (v w : Vec F 2) : Prop :=
  v = 0 ∨ (v ≠ 0 ∧ w ≠ 0 ∧ ((Upper v ∧ ¬ Upper w) ∨ ((Upper v ↔ Upper w) ∧ 0 ≤ v 0 * w 1 - v 1 * w 0)))

/-- Any two of the points are on one line through the origin, or make with it a triangle whose area is larger than the error of one
operation. -/
def DirectionsApart {E : Type*} (u : F) (toPoint : E → Vec F 2) (points : List E) : Prop :=
  ∀ a ∈ points, ∀ b ∈ points, toPoint a 0 * toPoint b 1 - toPoint a 1 * toPoint b 0 = 0 ∨
    u * (|toPoint a 0 * toPoint b 1| + |toPoint a 1 * toPoint b 0|) < |toPoint a 0 * toPoint b 1 - toPoint a 1 * toPoint b 0|

end Actl.Geo
