import Verif.Spec.Monotone

/-!
# Simple polygons
-/

namespace Actl.Geo

variable {F : Type*} [Field F] [LinearOrder F]

/-- A simple polygon: its vertices are different, and a point common to two of its edges is an end of
both. -/
def Simple (poly : List (Vec F 2)) : Prop :=
  poly.Nodup ∧ ∀ e ∈ edges poly, ∀ f ∈ edges poly, e ≠ f → ∀ q : Vec F 2, OnSegment q e.1 e.2 →
    OnSegment q f.1 f.2 → (q = e.1 ∨ q = e.2) ∧ (q = f.1 ∨ q = f.2)

/-- The boundary turns to the left at the first vertex. -/
def LeftTurnAtFirst (poly : List (Vec F 2)) : Prop :=
  ∃ a b c : Vec F 2, poly.head? = some a ∧ poly[1]? = some b ∧ poly.getLast? = some c ∧ StrictLeft a b c

end Actl.Geo
