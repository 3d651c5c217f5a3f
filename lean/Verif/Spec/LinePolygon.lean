import Verif.Spec.Winding
import Verif.Spec.Monotone
import Verif.Spec.Geometry

/-!
# A line and a polygon

The even-odd rule next to a line: to decide whether the points just left (just right) of a point of the
line are in the polygon, count the edges that the parallel just left (right) of the line crosses before
it.
-/

namespace Actl.Geo

variable {F : Type*} [Field F] [LinearOrder F]

/-- The edge has one end strictly left of the line and the other not, and it meets the line before the
parameter `t`. -/
def CrossesLeft (l : Line F 2) (t : F) (e : Vec F 2 × Vec F 2) : Prop :=
  (StrictLeft l.start (l.start + l.vector) e.1 ↔ ¬ StrictLeft l.start (l.start + l.vector) e.2) ∧
    ∃ s < t, OnSegment (l.at s) e.1 e.2

/-- The edge has one end strictly right of the line and the other not, and it meets the line before the
parameter `t`. -/
def CrossesRight (l : Line F 2) (t : F) (e : Vec F 2 × Vec F 2) : Prop :=
  (StrictRight l.start (l.start + l.vector) e.1 ↔ ¬ StrictRight l.start (l.start + l.vector) e.2) ∧
    ∃ s < t, OnSegment (l.at s) e.1 e.2

open Classical in
/-- The points just left of `l.at t` are in the polygon, by the even-odd rule. -/
def InsideLeft (l : Line F 2) (t : F) (poly : List (Vec F 2)) : Prop :=
  Odd ((edges poly).countP fun e => decide (CrossesLeft l t e))

open Classical in
/-- The points just right of `l.at t` are in the polygon, by the even-odd rule. -/
def InsideRight (l : Line F 2) (t : F) (poly : List (Vec F 2)) : Prop :=
  Odd ((edges poly).countP fun e => decide (CrossesRight l t e))

/-- The edge lies on the line, in its direction, and passes the parameter `t`. -/
def Forward (l : Line F 2) (t : F) (e : Vec F 2 × Vec F 2) : Prop :=
  ∃ s s', e.1 = l.at s ∧ e.2 = l.at s' ∧ s < t ∧ t ≤ s'

/-- The edge lies on the line, against its direction, and passes the parameter `t`. -/
def Backward (l : Line F 2) (t : F) (e : Vec F 2 × Vec F 2) : Prop :=
  ∃ s s', e.1 = l.at s ∧ e.2 = l.at s' ∧ s' < t ∧ t ≤ s

/-- What a simple counter-clockwise polygon fulfils along a line: consecutive vertices are different;
the border does not turn back on the line; two edges on the line in opposite directions do
not overlap; and the points just left of an edge on the line are in the polygon. -/
structure SimpleAlong (l : Line F 2) (poly : List (Vec F 2)) : Prop where
  proper : ∀ e ∈ edges poly, e.1 ≠ e.2
  noTurn : ∀ a b c rest, poly ~r (a :: b :: c :: rest) → (∃ s, a = l.at s) → (∃ s, b = l.at s) →
    (∃ s, c = l.at s) → 0 < inner (b - a) (c - b)
  apart : ∀ t, ∀ e ∈ edges poly, ∀ e' ∈ edges poly, Forward l t e → ¬ Backward l t e'
  forward : ∀ t, ∀ e ∈ edges poly, Forward l t e → InsideLeft l t poly
  backward : ∀ t, ∀ e ∈ edges poly, Backward l t e → InsideRight l t poly

end Actl.Geo
