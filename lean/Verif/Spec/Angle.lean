import Verif.Spec.Distance
import Mathlib.Analysis.SpecialFunctions.Trigonometric.Basic

/-!
# What angles are about
-/

namespace Actl.Geo

open Real

/-- What `atan2` is to compute: the angle in `(-π, π]` of the direction `(x, y)`, and `0` for none. -/
structure IsAtan2 (atan2 : ℝ → ℝ → ℝ) : Prop where
  gt : ∀ y x, -π < atan2 y x
  le : ∀ y x, atan2 y x ≤ π
  cos : ∀ y x, √(x ^ 2 + y ^ 2) * Real.cos (atan2 y x) = x
  sin : ∀ y x, √(x ^ 2 + y ^ 2) * Real.sin (atan2 y x) = y
  zero : atan2 0 0 = 0

/-- The vector turned counterclockwise by the angle. -/
noncomputable def turn (p : Vec ℝ 2) (θ : ℝ) : Vec ℝ 2 :=
  ![Real.cos θ * p 0 - Real.sin θ * p 1, Real.sin θ * p 0 + Real.cos θ * p 1]

/-- The length of a vector. -/
noncomputable def len {n : Nat} (p : Vec ℝ n) : ℝ := √(∑ i, p i ^ 2)

end Actl.Geo
