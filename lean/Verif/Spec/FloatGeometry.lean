import Verif.Spec.RealRound
import Verif.Model.Geometry
import Mathlib.Algebra.BigOperators.Group.Finset.Basic

/-!
Roundings of numbers of either sign, and triangles whose area is large against the error of the arithmetic.
-/

namespace Actl.Geo

variable {F : Type*} [Field F] [LinearOrder F]

/-- A rounding with a relative error of at most `u`, the same one for the same number, whatever its sign. -/
structure SignedRounding (fl : F → F) (u : F) : Prop where
  nonneg : 0 ≤ u
  small : u < 1
  near : ∀ y : F, |fl y - y| ≤ u * |y|

/-- Rounding to the nearest number with `prec` binary digits, halves away from zero. -/
def roundSigned (prec : Nat) (x : ℚ) : ℚ :=
  if x < 0 then -IntText.roundBinary prec (-x) else IntText.roundBinary prec x

/-- Twice the oriented area of the triangle is larger than the possible error of the two products it is computed from. -/
def WellApart (u : F) (l r o : Vec F 2) : Prop :=
  ((1 + u) ^ 3 - 1) * (|(r 0 - o 0) * (l 1 - o 1)| + |(r 1 - o 1) * (l 0 - o 0)|) <
    |(r 0 - o 0) * (l 1 - o 1) - (r 1 - o 1) * (l 0 - o 0)|

/-- Any three different points of the list make such a triangle. -/
def AllWellApart (u : F) (points : List (Vec F 2)) : Prop :=
  ∀ l ∈ points, ∀ r ∈ points, ∀ o ∈ points, l ≠ r → r ≠ o → l ≠ o → WellApart u l r o

/-- The coordinates of the point are multiples of `g`, by at most `M`. -/
def OnGrid (g : F) (M : Int) (p : Vec F 2) : Prop := ∀ i, ∃ k : Int, |k| ≤ M ∧ p i = k * g

/-- The type has the multiples of the unit of the grid and of its square that come up in areas of triangles. -/
structure Exact (fl : F → F) (g : F) (M : Int) : Prop where
  unit : ∀ k : Int, |k| ≤ 2 * M → fl (k * g) = k * g
  square : ∀ k : Int, |k| ≤ 8 * (M * M) → fl (k * g ^ 2) = k * g ^ 2

/-- The vertex at a position counted around the polygon. -/
def corner (poly : List (Vec F 2)) (i : Nat) : Vec F 2 := (poly[i % poly.length]?).getD 0

/-- The sum of the absolute values of the terms of the area of a polygon: every `x` times the difference of the `y` of the two
neighbours. -/
def areaSize (poly : List (Vec F 2)) : F :=
  ∑ j ∈ Finset.range poly.length,
    |corner poly j 0 * (corner poly (j + 1) 1 - corner poly (j + poly.length - 1) 1)|

end Actl.Geo
