import Verif.Spec.Winding

/-!
# Monotone polygons

Points are ordered from left to right, and from bottom to top on a vertical line.
-/

namespace Actl.Geo

variable {F : Type*} [Field F] [LinearOrder F]

/-- On the left of the other point, or straight below it. -/
def LexLess (p q : Vec F 2) : Prop := p 0 < q 0 ∨ p 0 = q 0 ∧ p 1 < q 1

/-- The vertices go from the first one to the right up to the vertex with index `right` (the lower
chain), then back to the left (the upper chain). -/
def Monotone (poly : List (Vec F 2)) (right : Nat) : Prop :=
  ∃ a lower m upper, poly = a :: lower ++ m :: upper ∧ right = lower.length + 1 ∧
    (a :: lower ++ [m]).Pairwise LexLess ∧ (a :: upper.reverse ++ [m]).Pairwise LexLess

/-- The edges of the lower chain, from left to right. -/
def lowerEdges (poly : List (Vec F 2)) (right : Nat) : List (Vec F 2 × Vec F 2) :=
  (edges poly).take right

/-- The edges of the upper chain, from right to left. -/
def upperEdges (poly : List (Vec F 2)) (right : Nat) : List (Vec F 2 × Vec F 2) :=
  (edges poly).drop right

/-- The point is strictly on the right of the directed line. -/
def StrictRight (a b p : Vec F 2) : Prop :=
  (b 0 - a 0) * (p 1 - a 1) - (b 1 - a 1) * (p 0 - a 0) < 0

/-- The point is between the two, ends included, in the order from left to right. -/
def Spans (a b p : Vec F 2) : Prop := ¬ LexLess p a ∧ ¬ LexLess b p

/-- At the position of the point the lower chain is not above the upper one: a point under the lower
chain is also under the upper chain. -/
def NotInverted (poly : List (Vec F 2)) (right : Nat) (p : Vec F 2) : Prop :=
  ∀ e ∈ lowerEdges poly right, ∀ e' ∈ upperEdges poly right, Spans e.1 e.2 p → Spans e'.2 e'.1 p →
    StrictRight e.1 e.2 p → StrictLeft e'.1 e'.2 p

end Actl.Geo
