import Verif.Spec.Winding
import Verif.Spec.Monotone

/-!
# What extreme vertices and tangents of a polygon are
-/

namespace Actl.Geo

variable {F : Type*} [Field F] [LinearOrder F]

/-- The directed line from `a` to `b`, where `v` is on it, has the whole polygon on its left, and `v`
is the first vertex on it in the order of the polygon: the vertex before is not on the line. -/
def TouchesLeft (a b v : Vec F 2) (poly : List (Vec F 2)) : Prop :=
  v ∈ poly ∧ (∀ q ∈ poly, LeftOrOn a b q) ∧ ∀ w, (w, v) ∈ edges poly → StrictLeft a b w

/-- The point is outside of the convex polygon: strictly on the right of an edge. -/
def OutsideConvex (p : Vec F 2) (poly : List (Vec F 2)) : Prop :=
  ∃ e ∈ edges poly, StrictRight e.1 e.2 p

end Actl.Geo
