import Verif.Spec.Geometry
import Mathlib.Data.List.Rotate

/-!
# What a convex hull is

Independent of the algorithm.  The vertices of a convex polygon are listed counter-clockwise.
-/

namespace Actl.Geo

variable {F : Type*} [Field F] [LinearOrder F]

/-- The three points make a strict turn to the left (counter-clockwise). -/
def StrictLeft (a b c : Vec F 2) : Prop :=
  0 < (b 0 - a 0) * (c 1 - a 1) - (b 1 - a 1) * (c 0 - a 0)

/-- The point is on the left of the directed line from `a` to `b`, or on it. -/
def LeftOrOn (a b p : Vec F 2) : Prop :=
  0 ≤ (b 0 - a 0) * (p 1 - a 1) - (b 1 - a 1) * (p 0 - a 0)

/-- All consecutive triples of an open chain turn strictly to the left. -/
def LeftTurns : List (Vec F 2) → Prop
  | a :: b :: c :: rest => StrictLeft a b c ∧ LeftTurns (b :: c :: rest)
  | _ => True

/-- The point is on the left of every edge of an open chain, or on its line. -/
def LeftOfChain (p : Vec F 2) : List (Vec F 2) → Prop
  | a :: b :: rest => LeftOrOn a b p ∧ LeftOfChain p (b :: rest)
  | _ => True

/-- Going once around the closed polygon makes strict left turns only. -/
def TurnsLeft (h : List (Vec F 2)) : Prop := LeftTurns (h ++ h.take 2)

/-- A strictly convex polygon, listed once and counter-clockwise: at least three vertices, and from
wherever one starts going around, all the other vertices are strictly on the left of the first
edge. -/
def StrictlyConvex (h : List (Vec F 2)) : Prop :=
  3 ≤ h.length ∧ ∀ a b rest, h ~r (a :: b :: rest) → ∀ p ∈ rest, StrictLeft a b p

/-- The point lies in the polygon: on the left of (or on) each edge, the closing edge included. -/
def InPolygon (p : Vec F 2) (h : List (Vec F 2)) : Prop := LeftOfChain p (h ++ h.take 1)

/-- All the points are on one line. -/
def AllCollinear (l : List (Vec F 2)) : Prop :=
  ∀ a ∈ l, ∀ b ∈ l, ∀ c ∈ l, (b 0 - a 0) * (c 1 - a 1) - (b 1 - a 1) * (c 0 - a 0) = 0

/-- The smallest convex set that contains the points: points and all that lies on a segment between
two of its elements. -/
inductive InHull (h : List (Vec F 2)) : Vec F 2 → Prop
  | vertex {p} (hp : p ∈ h) : InHull h p
  | segment {p q} {t : F} (hp : InHull h p) (hq : InHull h q) (h0 : 0 ≤ t) (h1 : t ≤ 1) :
      InHull h fun i => p i + t * (q i - p i)

end Actl.Geo
