import Verif.Spec.Hull
import Verif.Spec.Geometry

/-!
# Where a point lies relative to a set of points

Independent of polygons and of their vertices.
-/

namespace Actl.Geo

variable {F : Type*} [Field F] [LinearOrder F]

/-- The points surround `p`: in every direction one of them is further than `p`. -/
def Surrounded (points : List (Vec F 2)) (p : Vec F 2) : Prop :=
  ∀ v : Vec F 2, v ≠ 0 → ∃ q ∈ points, inner v p < inner v q

/-- The points support `p`: it lies between them, and in some direction none of them is further than `p`. -/
def OnRim (points : List (Vec F 2)) (p : Vec F 2) : Prop :=
  InHull points p ∧ ∃ v : Vec F 2, v ≠ 0 ∧ ∀ q ∈ points, inner v q ≤ inner v p

end Actl.Geo
