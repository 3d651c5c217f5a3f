import Verif.Spec.Hull

/-!
# Polygons as closed chains: edges, border, inside of a convex polygon
-/

namespace Actl.Geo

variable {F : Type*} [Field F] [LinearOrder F]

/-- Consecutive pairs of a list. -/
def pairs {α : Type*} : List α → List (α × α)
  | a :: b :: rest => (a, b) :: pairs (b :: rest)
  | _ => []

/-- The edges of a polygon, from each vertex to the next and from the last to the first. -/
def edges (poly : List (Vec F 2)) : List (Vec F 2 × Vec F 2) := pairs (poly ++ poly.take 1)

/-- The point lies on the segment between the two points, ends included. -/
def OnSegment (p a b : Vec F 2) : Prop := ∃ t : F, 0 ≤ t ∧ t ≤ 1 ∧ p = a + t • (b - a)

/-- The point lies on an edge of the polygon. -/
def OnBorder (p : Vec F 2) (poly : List (Vec F 2)) : Prop := ∃ e ∈ edges poly, OnSegment p e.1 e.2

/-- The point is strictly on the left of each edge. -/
def StrictlyIn (p : Vec F 2) (poly : List (Vec F 2)) : Prop := ∀ e ∈ edges poly, StrictLeft e.1 e.2 p

end Actl.Geo
