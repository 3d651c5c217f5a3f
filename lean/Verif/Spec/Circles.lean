import Verif.Spec.Distance
import Verif.Model.Circles

/-!
# What writing results means
-/

namespace Actl.Geo

variable {F : Type*}

/-- Through the output iterator the values `xs` were written to consecutive positions, and the
iterator stands after the last. -/
def Wrote {P : Type*} (before after : Output P) (xs : List P) : Prop :=
  after.writes = before.writes ++ (List.range' before.pos xs.length).zip xs ∧
    after.pos = before.pos + xs.length

/-- `t` is a point where a line through `p` touches the circle: it lies on the circle, and `p` is
seen from it at a right angle to the radius. -/
def TangentAt [CommRing F] (p : Vec F 2) (c : Sphere F 2) (t : Vec F 2) : Prop :=
  OnSphere t c ∧ inner (t - p) (t - c.center) = 0

end Actl.Geo
