import Verif.Spec.Geometry
import Mathlib.Algebra.Order.Ring.Defs

/-!
# What a closest pair is
-/

namespace Actl.Geo

variable {F : Type*}

/-- `a` and `b` are two elements of the list, at different positions. -/
def PairIn {E : Type*} (l : List E) (a b : E) : Prop := ∃ rest, l.Perm (a :: b :: rest)

/-- Two of the points whose distance is the least one. -/
def ClosestPair [CommRing F] [LinearOrder F] (l : List (Vec F 2)) (a b : Vec F 2) : Prop :=
  PairIn l a b ∧ ∀ c d, PairIn l c d → dist2 a b ≤ dist2 c d

end Actl.Geo
