import Verif.Spec.SimplePolygon
import Mathlib.Logic.Relation

/-!
# Inside and outside of a simple polygon
-/

namespace Actl.Geo

variable {F : Type*} [Field F] [LinearOrder F]

/-- The segment has no point of the border. -/
def Clear (poly : List (Vec F 2)) (p q : Vec F 2) : Prop := ∀ z, OnSegment z p q → ¬ OnBorder z poly

/-- The points are the ends of a chain of segments that does not meet the border. -/
def Joined (poly : List (Vec F 2)) : Vec F 2 → Vec F 2 → Prop := Relation.ReflTransGen (Clear poly)

/-- The border turns to the left at the vertex that is least in the order by the first, then the second coordinate. -/
def CounterClockwise (poly : List (Vec F 2)) : Prop :=
  ∃ a b c : Vec F 2, (a, b) ∈ edges poly ∧ (b, c) ∈ edges poly ∧ (∀ v ∈ poly, v ≠ b → LexLess b v) ∧ StrictLeft a b c

end Actl.Geo
