import Verif.Props.Circles
import Mathlib.Analysis.SpecialFunctions.Complex.Arg

/-!
# C65: the angles of tangents

The half-angle between the tangents from a point at distance `d` is `asin (r / d)`; the code takes
`atan2 (r, d)`, which is smaller, so the reported directions cut the circle.
-/

namespace Actl.Geo

open Real

/-- `atan2 (y, x)` of the C library. -/
noncomputable def atan2 (y x : ℝ) : ℝ := Complex.arg ⟨x, y⟩

theorem cos_atan2 {x y : ℝ} (h : x ^ 2 + y ^ 2 ≠ 0) :
    cos (atan2 y x) * √(x ^ 2 + y ^ 2) = x ∧ sin (atan2 y x) * √(x ^ 2 + y ^ 2) = y := by
  have hz : (⟨x, y⟩ : ℂ) ≠ 0 := by
    intro h0
    have h1 : x = 0 := congrArg Complex.re h0
    have h2 : y = 0 := congrArg Complex.im h0
    apply h; rw [h1, h2]; ring
  have hn : ‖(⟨x, y⟩ : ℂ)‖ = √(x ^ 2 + y ^ 2) := Complex.norm_eq_sqrt_sq_add_sq _
  have hn0 : √(x ^ 2 + y ^ 2) ≠ 0 := by rw [← hn]; exact norm_ne_zero_iff.2 hz
  rw [atan2, Complex.cos_arg hz, Complex.sin_arg, hn]
  exact ⟨div_mul_cancel₀ _ hn0, div_mul_cancel₀ _ hn0⟩

/-- The square of the distance of the centre of the circle from the line through `p` at the angle
`φ`: the line touches the circle when it is the square of the radius. -/
noncomputable def lineOffset2 (p : Vec ℝ 2) (c : Sphere ℝ 2) (φ : ℝ) : ℝ :=
  (cos φ * (c.center 1 - p 1) - sin φ * (c.center 0 - p 0)) ^ 2

/-- C65. Both angles reported for a point outside a circle of positive radius are wrong: the lines in
these directions come nearer to the centre than the radius. -/
theorem tangentAngles_fails (p : Vec ℝ 2) (c : Sphere ℝ 2) (hr : 0 < c.radius)
    (hout : c.radius ^ 2 < dist2 p c.center) (out : Output ℝ) :
    ∃ φ₁ φ₂, Wrote out (tangentAngles Real.sqrt atan2 p c out) [φ₁, φ₂] ∧
      lineOffset2 p c φ₁ < c.radius ^ 2 ∧ lineOffset2 p c φ₂ < c.radius ^ 2 := by
  have hw := (withinSphere_correct isSqrt_real p c hr.le).2.2.1.2 hout
  unfold tangentAngles
  rw [hw]
  refine ⟨_, _, wrote_two _ _ _, ?_⟩
  have hd : norm Real.sqrt (c.center - p) ^ 2 = dist2 p c.center := by
    rw [norm_sq isSqrt_real, dist2_eq]; exact Finset.sum_congr rfl fun i _ => by simp; ring
  have hd0 := norm_nonneg' isSqrt_real (c.center - p)
  have hd2 : dist2 p c.center = (c.center 0 - p 0) ^ 2 + (c.center 1 - p 1) ^ 2 := by
    simp only [dist2, Fin.sum_univ_two]; ring
  simp only [lineOffset2, Pi.sub_apply]
  generalize norm Real.sqrt (c.center - p) = d at *
  generalize c.center 0 - p 0 = x at *
  generalize c.center 1 - p 1 = y at *
  rw [← hd] at hout hd2
  have hdp : 0 < d := lt_of_le_of_ne hd0 (by rintro rfl; nlinarith)
  have hx : x ^ 2 + y ^ 2 ≠ 0 := by rw [← hd2]; positivity
  have hsd : √(x ^ 2 + y ^ 2) = d := by rw [← hd2, Real.sqrt_sq hd0]
  obtain ⟨a1, a2⟩ := cos_atan2 hx
  obtain ⟨b1, b2⟩ := cos_atan2 (x := d) (y := c.radius) (by positivity)
  rw [hsd] at a1 a2
  have hm := Real.sq_sqrt (show 0 ≤ d ^ 2 + c.radius ^ 2 by positivity)
  have hm0 : 0 < √(d ^ 2 + c.radius ^ 2) := Real.sqrt_pos.2 (by positivity)
  have hcs := Real.cos_sq_add_sin_sq (atan2 y x)
  rw [Real.cos_sub, Real.sin_sub, Real.cos_add, Real.sin_add]
  generalize cos (atan2 y x) = C at *
  generalize sin (atan2 y x) = S at *
  generalize cos (atan2 c.radius d) = C' at *
  generalize sin (atan2 c.radius d) = S' at *
  generalize √(d ^ 2 + c.radius ^ 2) = m at *
  have key : (d * S') ^ 2 < c.radius ^ 2 := by
    have h1 : (d * S') ^ 2 * m ^ 2 < c.radius ^ 2 * m ^ 2 := by
      have : (d * S') ^ 2 * m ^ 2 = d ^ 2 * c.radius ^ 2 := by
        rw [← b2]; ring
      rw [this, hm]
      have : 0 < c.radius ^ 2 * c.radius ^ 2 := by positivity
      nlinarith
    exact lt_of_mul_lt_mul_right h1 (sq_nonneg m)
  subst a1 a2
  constructor
  · have e : ((C * C' + S * S') * (S * d) - (S * C' - C * S') * (C * d)) ^ 2 = (d * S') ^ 2 := by
      have : (C * C' + S * S') * (S * d) - (S * C' - C * S') * (C * d) =
        (C ^ 2 + S ^ 2) * (d * S') := by ring
      rw [this, hcs, one_mul]
    rw [e]; exact key
  · have e : ((C * C' - S * S') * (S * d) - (S * C' + C * S') * (C * d)) ^ 2 = (d * S') ^ 2 := by
      have : (C * C' - S * S') * (S * d) - (S * C' + C * S') * (C * d) =
        -((C ^ 2 + S ^ 2) * (d * S')) := by ring
      rw [this, hcs, one_mul, neg_sq]
    rw [e]; exact key

example : ∃ (p : Vec ℝ 2) (c : Sphere ℝ 2), 0 < c.radius ∧ c.radius ^ 2 < dist2 p c.center :=
  ⟨![2, 0], ⟨![0, 0], 1⟩, by norm_num, by simp [dist2, Fin.sum_univ_two]⟩

/-- C65. For a point on the circle (of positive radius) the angle is right, and for a point inside
nothing is reported (missing: points outside, where the angles are wrong). -/
theorem tangentAngles_partial (p : Vec ℝ 2) (c : Sphere ℝ 2) (hr : 0 < c.radius) (out : Output ℝ) :
    (dist2 p c.center < c.radius ^ 2 → tangentAngles Real.sqrt atan2 p c out = out) ∧
      (OnSphere p c → ∃ φ, Wrote out (tangentAngles Real.sqrt atan2 p c out) [φ] ∧
        lineOffset2 p c φ = c.radius ^ 2) := by
  obtain ⟨w1, w2, _⟩ := withinSphere_correct isSqrt_real p c hr.le
  constructor
  · intro h
    unfold tangentAngles
    rw [w1.2 h]
  · intro h
    unfold tangentAngles
    rw [w2.2 h]
    refine ⟨_, wrote_one _ _, ?_⟩
    have hd2 : (c.center 0 - p 0) ^ 2 + (c.center 1 - p 1) ^ 2 = c.radius ^ 2 := by
      rw [← show dist2 p c.center = _ from h]
      simp only [dist2, Fin.sum_univ_two]; ring
    simp only [lineOffset2, perpendicular, Pi.sub_apply, Matrix.cons_val_zero, Matrix.cons_val_one,
      Matrix.cons_val_fin_one]
    generalize c.center 0 - p 0 = x at *
    generalize c.center 1 - p 1 = y at *
    have hs : (-y) ^ 2 + x ^ 2 = c.radius ^ 2 := by linarith
    obtain ⟨a1, a2⟩ := cos_atan2 (x := -y) (y := x) (by rw [hs]; positivity)
    rw [hs, Real.sqrt_sq hr.le] at a1 a2
    have hcs := Real.cos_sq_add_sin_sq (atan2 x (-y))
    generalize cos (atan2 x (-y)) = C at *
    generalize sin (atan2 x (-y)) = S at *
    have hy : y = -(C * c.radius) := by linarith
    rw [hy, ← a2]
    have : C * -(C * c.radius) - S * (S * c.radius) = -((C ^ 2 + S ^ 2) * c.radius) := by ring
    rw [this, hcs, one_mul, neg_sq]

end Actl.Geo
