import Verif.Spec.FloatLines
import Verif.Spec.Geometry
import Verif.Model.Circles

/-!
What is written when a line meets a polygon.
-/

namespace Actl.Geo

variable {F : Type*} [Field F] [LinearOrder F]

/-- The point `p` is computed for `q`, a point of a line from `a`: within one rounding of `q` and two of the vector from `a` to `q`. -/
def NearPoint (u : F) (a q p : Vec F 2) : Prop := ∀ i, |p i - q i| ≤ u * |q i| + ((1 + u) ^ 3 - (1 + u)) * |q i - a i|

/-- All the elements are assigned to the position the output has, which does not move: an iterator of an array keeps the last of them
only, a `back_inserter` appends all. -/
def WroteInPlace {P : Type*} (before after : Output P) (xs : List P) : Prop :=
  after.writes = before.writes ++ xs.map (fun x => (before.pos, x)) ∧ after.pos = before.pos

end Actl.Geo
