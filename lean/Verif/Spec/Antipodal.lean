import Verif.Spec.Hull

/-!
# What antipodal vertices are
-/

namespace Actl.Geo

variable {F : Type*} [Field F] [LinearOrder F]

/-- The polygon lies between the line through `p` and the line through `q` that are orthogonal to
`d`. -/
def Between (d : Vec F 2) (poly : List (Vec F 2)) (p q : Vec F 2) : Prop :=
  ∀ v ∈ poly, inner p d ≤ inner v d ∧ inner v d ≤ inner q d

/-- There are parallel lines through the two points with the polygon between them. -/
def Antipodal (poly : List (Vec F 2)) (p q : Vec F 2) : Prop := ∃ d, d ≠ 0 ∧ Between d poly p q

end Actl.Geo
