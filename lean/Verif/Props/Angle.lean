import Verif.Model.Angle
import Verif.Spec.Angle
import Verif.Props.Distance
import Mathlib.Analysis.SpecialFunctions.Complex.Arg

/-!
# C84: angles, bisectors and inversion
-/

namespace Actl.Geo

open Real

/-! ### Auxiliary facts -/

theorem isAtan2_arg : IsAtan2 fun y x => Complex.arg ⟨x, y⟩ := by
  have hn : ∀ y x : ℝ, √(x ^ 2 + y ^ 2) = ‖(⟨x, y⟩ : ℂ)‖ := by
    intro y x
    rw [Complex.norm_def, Complex.normSq_mk, sq, sq]
  refine ⟨fun y x => Complex.neg_pi_lt_arg _, fun y x => Complex.arg_le_pi _, fun y x => ?_,
    fun y x => ?_, ?_⟩
  · rw [hn, Complex.norm_mul_cos_arg]
  · rw [hn, Complex.norm_mul_sin_arg]
  · have : (⟨0, 0⟩ : ℂ) = 0 := rfl
    rw [this, Complex.arg_zero]

/-- Two angles in `(-π, π]` with the same sine and cosine are equal. -/
theorem angle_ext {a b : ℝ} (ha : -π < a) (ha' : a ≤ π) (hb : -π < b) (hb' : b ≤ π)
    (hc : Real.cos a = Real.cos b) (hs : Real.sin a = Real.sin b) : a = b := by
  have h1 := Complex.arg_cos_add_sin_mul_I (θ := a) ⟨ha, ha'⟩
  have h2 := Complex.arg_cos_add_sin_mul_I (θ := b) ⟨hb, hb'⟩
  rw [← h1, ← h2]
  congr 1
  rw [← Complex.ofReal_cos, ← Complex.ofReal_sin, ← Complex.ofReal_cos, ← Complex.ofReal_sin, hc, hs]

/-- `atan2` finds the angle of any positive multiple of a direction. -/
theorem IsAtan2.unique {atan2 : ℝ → ℝ → ℝ} (h : IsAtan2 atan2) {t θ : ℝ} (ht : 0 < t) (h1 : -π < θ)
    (h2 : θ ≤ π) : atan2 (t * Real.sin θ) (t * Real.cos θ) = θ := by
  have hr : √((t * Real.cos θ) ^ 2 + (t * Real.sin θ) ^ 2) = t := by
    rw [show (t * Real.cos θ) ^ 2 + (t * Real.sin θ) ^ 2 = t ^ 2 from by
      have := Real.sin_sq_add_cos_sq θ
      nlinarith, Real.sqrt_sq ht.le]
  have hc := h.cos (t * Real.sin θ) (t * Real.cos θ)
  have hs := h.sin (t * Real.sin θ) (t * Real.cos θ)
  rw [hr] at hc hs
  exact angle_ext (h.gt _ _) (h.le _ _) h1 h2 (mul_left_cancel₀ ht.ne' hc) (mul_left_cancel₀ ht.ne' hs)

theorem len_eq {n : Nat} (p : Vec ℝ n) : len p = √(inner p p) := by
  unfold len inner
  simp only [sq]

theorem norm_len {sqrt : ℝ → ℝ} (hs : IsSqrt sqrt) {n : Nat} (p : Vec ℝ n) : norm sqrt p = len p := by
  rw [len_eq, ← norm_sq hs, Real.sqrt_sq (norm_nonneg' hs p)]

theorem len_nonneg {n : Nat} (p : Vec ℝ n) : 0 ≤ len p := Real.sqrt_nonneg _

theorem len_sq {n : Nat} (p : Vec ℝ n) : len p ^ 2 = inner p p := by
  rw [len_eq, Real.sq_sqrt (inner_self_nonneg p)]

theorem len_pos {n : Nat} {p : Vec ℝ n} (h : p ≠ 0) : 0 < len p := by
  rw [len_eq]
  exact Real.sqrt_pos.mpr (inner_self_pos h)

theorem len_eq_zero {n : Nat} {p : Vec ℝ n} : len p = 0 ↔ p = 0 := by
  rw [← inner_self_eq_zero, ← len_sq, sq_eq_zero_iff]

/-! ### Angles -/

/-- The polar angle of a point of the plane. -/
theorem polarAngle_spec {atan2 : ℝ → ℝ → ℝ} (ha : IsAtan2 atan2) (p : Vec ℝ 2) :
    -π < polarAngle atan2 p ∧ polarAngle atan2 p ≤ π ∧
      p = len p • ![Real.cos (polarAngle atan2 p), Real.sin (polarAngle atan2 p)] := by
  have hl : len p = √(p 0 ^ 2 + p 1 ^ 2) := by rw [len, Fin.sum_univ_two]
  refine ⟨ha.gt _ _, ha.le _ _, vec2_ext ?_ ?_⟩
  · rw [hl]
    exact (ha.cos _ _).symm
  · rw [hl]
    exact (ha.sin _ _).symm

/-- The angle of two vectors in any dimension: what `atan2` says of the two products. -/
theorem angle_products {sqrt : ℝ → ℝ} {atan2 : ℝ → ℝ → ℝ} (hs : IsSqrt sqrt) (ha : IsAtan2 atan2)
    {n : Nat} (l r : Vec ℝ n) :
    len l * len r * Real.cos (angle sqrt atan2 l r) = inner l r ∧
      len l * len r * Real.sin (angle sqrt atan2 l r) = areaN sqrt l r := by
  have hr : √(inner l r ^ 2 + areaN sqrt l r ^ 2) = len l * len r := by
    rw [areaN_sq hs, show inner l r ^ 2 + (inner l l * inner r r - inner l r ^ 2) =
      (len l * len r) ^ 2 from by rw [mul_pow, len_sq, len_sq]; ring]
    exact Real.sqrt_sq (mul_nonneg (len_nonneg _) (len_nonneg _))
  have hc := ha.cos (areaN sqrt l r) (dot l r)
  have hn := ha.sin (areaN sqrt l r) (dot l r)
  rw [dot_eq, hr] at hc hn
  rw [angle, dot_eq]
  exact ⟨hc, hn⟩

/-- In the plane: the angle is in `(-π, π]`, and the first vector turned by it has the direction of the
second. -/
theorem angle_plane {sqrt : ℝ → ℝ} {atan2 : ℝ → ℝ → ℝ} (hs : IsSqrt sqrt) (ha : IsAtan2 atan2)
    (l r : Vec ℝ 2) :
    -π < angle sqrt atan2 l r ∧ angle sqrt atan2 l r ≤ π ∧
      len r • turn l (angle sqrt atan2 l r) = len l • r := by
  refine ⟨ha.gt _ _, ha.le _ _, ?_⟩
  obtain ⟨h1, h2⟩ := angle_products hs ha l r
  by_cases hl : l = 0
  · subst hl
    have : len (0 : Vec ℝ 2) = 0 := len_eq_zero.mpr rfl
    rw [this]
    refine vec2_ext ?_ ?_ <;> simp [turn]
  have hl2 := len_pos hl
  have hsq : len l ^ 2 = l 0 * l 0 + l 1 * l 1 := by rw [len_sq, inner, Fin.sum_univ_two]
  have h1' : len l * len r * Real.cos (angle sqrt atan2 l r) = l 0 * r 0 + l 1 * r 1 := by
    rw [h1, inner, Fin.sum_univ_two]
  have h2' : len l * len r * Real.sin (angle sqrt atan2 l r) = l 0 * r 1 - l 1 * r 0 := h2
  refine vec2_ext ?_ ?_
  · apply mul_left_cancel₀ hl2.ne'
    show len l * (len r * (Real.cos _ * l 0 - Real.sin _ * l 1)) = len l * (len l * r 0)
    linear_combination l 0 * h1' - l 1 * h2' - r 0 * hsq
  · apply mul_left_cancel₀ hl2.ne'
    show len l * (len r * (Real.sin _ * l 0 + Real.cos _ * l 1)) = len l * (len l * r 1)
    linear_combination l 1 * h1' + l 0 * h2' - r 1 * hsq

/-- In the plane: the angle from a vector to a positive multiple of the vector turned by an angle in
`(-π, π]` is that angle. -/
theorem angle_turn {sqrt : ℝ → ℝ} {atan2 : ℝ → ℝ → ℝ} (ha : IsAtan2 atan2) {l : Vec ℝ 2} (hl : l ≠ 0)
    {t θ : ℝ} (ht : 0 < t) (h1 : -π < θ) (h2 : θ ≤ π) : angle sqrt atan2 l (t • turn l θ) = θ := by
  have hsq : len l ^ 2 = l 0 * l 0 + l 1 * l 1 := by rw [len_sq, inner, Fin.sum_univ_two]
  have hp := len_pos hl
  have hd : dot l (t • turn l θ) = (t * len l ^ 2) * Real.cos θ := by
    rw [dot_eq, inner, Fin.sum_univ_two, hsq]
    show l 0 * (t * (Real.cos θ * l 0 - Real.sin θ * l 1)) +
      l 1 * (t * (Real.sin θ * l 0 + Real.cos θ * l 1)) = _
    ring
  have hn : areaN sqrt l (t • turn l θ) = (t * len l ^ 2) * Real.sin θ := by
    show l 0 * (t * (Real.sin θ * l 0 + Real.cos θ * l 1)) -
      l 1 * (t * (Real.cos θ * l 0 - Real.sin θ * l 1)) = _
    rw [hsq]
    ring
  rw [angle, hd, hn]
  exact ha.unique (by positivity) h1 h2

/-- The same about another point. -/
theorem angleAt_turn {sqrt : ℝ → ℝ} {atan2 : ℝ → ℝ → ℝ} (ha : IsAtan2 atan2) {l o : Vec ℝ 2}
    (hl : l ≠ o) {t θ : ℝ} (ht : 0 < t) (h1 : -π < θ) (h2 : θ ≤ π) :
    angleAt sqrt atan2 l (o + t • turn (l - o) θ) o = θ := by
  rw [angleAt, add_sub_cancel_left]
  exact angle_turn ha (sub_ne_zero.mpr hl) ht h1 h2

/-- In the plane angles of non-zero vectors add up, up to whole turns. -/
theorem angle_add {sqrt : ℝ → ℝ} {atan2 : ℝ → ℝ → ℝ} (hs : IsSqrt sqrt) (ha : IsAtan2 atan2)
    {l m r : Vec ℝ 2} (hl : l ≠ 0) (hm : m ≠ 0) (hr : r ≠ 0) :
    ∃ k : ℤ, angle sqrt atan2 l m + angle sqrt atan2 m r = angle sqrt atan2 l r + k * (2 * π) := by
  obtain ⟨-, -, p1⟩ := angle_plane hs ha l m
  obtain ⟨-, -, p2⟩ := angle_plane hs ha m r
  obtain ⟨-, -, p3⟩ := angle_plane hs ha l r
  set a := angle sqrt atan2 l m
  set b := angle sqrt atan2 m r
  set c := angle sqrt atan2 l r
  have l0 := len_pos hl
  have m0 := len_pos hm
  have r0 := len_pos hr
  have hsq : len l ^ 2 = l 0 * l 0 + l 1 * l 1 := by rw [len_sq, inner, Fin.sum_univ_two]
  have q1 : len m * (Real.cos a * l 0 - Real.sin a * l 1) = len l * m 0 := congrFun p1 0
  have q2 : len m * (Real.sin a * l 0 + Real.cos a * l 1) = len l * m 1 := congrFun p1 1
  have q3 : len r * (Real.cos b * m 0 - Real.sin b * m 1) = len m * r 0 := congrFun p2 0
  have q4 : len r * (Real.sin b * m 0 + Real.cos b * m 1) = len m * r 1 := congrFun p2 1
  have q5 : len r * (Real.cos c * l 0 - Real.sin c * l 1) = len l * r 0 := congrFun p3 0
  have q6 : len r * (Real.sin c * l 0 + Real.cos c * l 1) = len l * r 1 := congrFun p3 1
  have e1 : len m * len r * (Real.cos (a + b) * l 0 - Real.sin (a + b) * l 1) =
      len m * len r * (Real.cos c * l 0 - Real.sin c * l 1) := by
    rw [Real.cos_add, Real.sin_add]
    linear_combination len r * Real.cos b * q1 - len r * Real.sin b * q2 + len l * q3 - len m * q5
  have e2 : len m * len r * (Real.sin (a + b) * l 0 + Real.cos (a + b) * l 1) =
      len m * len r * (Real.sin c * l 0 + Real.cos c * l 1) := by
    rw [Real.cos_add, Real.sin_add]
    linear_combination len r * Real.sin b * q1 + len r * Real.cos b * q2 + len l * q4 - len m * q6
  have hmr : len m * len r ≠ 0 := (mul_pos m0 r0).ne'
  have f1 := mul_left_cancel₀ hmr e1
  have f2 := mul_left_cancel₀ hmr e2
  have hl2 : len l ^ 2 ≠ 0 := (pow_pos l0 2).ne'
  have hc : Real.cos (a + b) = Real.cos c := by
    apply mul_left_cancel₀ hl2
    rw [hsq]
    linear_combination l 0 * f1 + l 1 * f2
  have hn : Real.sin (a + b) = Real.sin c := by
    apply mul_left_cancel₀ hl2
    rw [hsq]
    linear_combination l 0 * f2 - l 1 * f1
  have h1 : Real.cos (a + b - c) = 1 := by
    rw [Real.cos_sub, hc, hn]
    have := Real.sin_sq_add_cos_sq c
    linear_combination this
  obtain ⟨k, hk⟩ := (Real.cos_eq_one_iff _).mp h1
  exact ⟨k, by linarith⟩

/-- In other dimensions: the angle is in `[0, π]`, has the cosine it should, and does not depend on the
order of the vectors. -/
theorem angle_space {sqrt : ℝ → ℝ} {atan2 : ℝ → ℝ → ℝ} (hs : IsSqrt sqrt) (ha : IsAtan2 atan2)
    {n : Nat} (hn : n ≠ 2) {l r : Vec ℝ n} (hl : l ≠ 0) (hr : r ≠ 0) :
    0 ≤ angle sqrt atan2 l r ∧ angle sqrt atan2 l r ≤ π ∧
      angle sqrt atan2 l r = Real.arccos (inner l r / (len l * len r)) ∧
      angle sqrt atan2 r l = angle sqrt atan2 l r := by
  have key : ∀ l r : Vec ℝ n, l ≠ 0 → r ≠ 0 → 0 ≤ angle sqrt atan2 l r ∧ angle sqrt atan2 l r ≤ π ∧
      angle sqrt atan2 l r = Real.arccos (inner l r / (len l * len r)) := by
    intro l r hl hr
    obtain ⟨h1, h2⟩ := angle_products hs ha l r
    have hp : 0 < len l * len r := mul_pos (len_pos hl) (len_pos hr)
    have hpos : 0 ≤ areaN sqrt l r := by
      unfold areaN
      split
      · exact absurd rfl hn
      · exact (hs _ (by rw [dotSelf, dot_eq]; exact inner_self_nonneg _)).1
      · refine (hs _ ?_).1
        simp only [dotSelf, dot_eq]
        have := cauchy l r
        rw [sq] at this
        linarith
    have hsin : 0 ≤ Real.sin (angle sqrt atan2 l r) := by
      rw [← h2] at hpos
      exact nonneg_of_mul_nonneg_right hpos hp
    have h0 : 0 ≤ angle sqrt atan2 l r := by
      by_contra hneg
      exact absurd hsin (not_le.mpr (Real.sin_neg_of_neg_of_neg_pi_lt (not_le.mp hneg) (ha.gt _ _)))
    have hle : angle sqrt atan2 l r ≤ π := ha.le _ _
    refine ⟨h0, hle, ?_⟩
    rw [← h1, mul_div_cancel_left₀ _ hp.ne', Real.arccos_cos h0 hle]
  obtain ⟨h1, h2, h3⟩ := key l r hl hr
  refine ⟨h1, h2, h3, ?_⟩
  rw [(key r l hr hl).2.2, h3, inner_comm r l, mul_comm (len r)]

/-! ### Bisector -/

theorem bisector_eq {F : Type*} [Field F] (sqrt : F → F) {n : Nat} (l r : Vec F n) :
    bisector sqrt l r = norm sqrt r • l + norm sqrt l • r := by
  funext i
  simp only [bisector, Pi.add_apply, Pi.smul_apply, smul_eq_mul]
  ring

/-- The bisector is a combination of the vectors with non-negative coefficients, has equal products
with the unit vectors of both, and is null only if the vectors are opposite (or null). -/
theorem bisector_spec {F : Type*} [Field F] [LinearOrder F] [IsStrictOrderedRing F] {sqrt : F → F}
    (hs : IsSqrt sqrt) {n : Nat} (l r : Vec F n) :
    (∃ s t : F, 0 ≤ s ∧ 0 ≤ t ∧ bisector sqrt l r = s • l + t • r) ∧
      inner (bisector sqrt l r) l * norm sqrt r = inner (bisector sqrt l r) r * norm sqrt l ∧
      (bisector sqrt l r = 0 ↔ norm sqrt r • l = -(norm sqrt l • r)) ∧
      bisector sqrt r l = bisector sqrt l r := by
  have hl := norm_sq hs l
  have hr := norm_sq hs r
  refine ⟨⟨_, _, norm_nonneg' hs r, norm_nonneg' hs l, bisector_eq sqrt l r⟩, ?_, ?_, ?_⟩
  · rw [bisector_eq, inner_add_left, inner_add_left]
    simp only [inner_smul_left]
    rw [← hl, ← hr, inner_comm r l]
    ring
  · rw [bisector_eq]
    exact add_eq_zero_iff_eq_neg
  · rw [bisector_eq, bisector_eq, add_comm]

/-- In any dimension: the bisector of two vectors, if not null, makes half of their angle with the
first. -/
theorem angle_bisector {sqrt : ℝ → ℝ} {atan2 : ℝ → ℝ → ℝ} (hs : IsSqrt sqrt) (ha : IsAtan2 atan2)
    {n : Nat} {l r : Vec ℝ n} (hl : l ≠ 0) (hr : r ≠ 0) (hb : bisector sqrt l r ≠ 0) :
    angle sqrt atan2 l (bisector sqrt l r) = angle sqrt atan2 l r / 2 := by
  have l0 := len_pos hl
  have r0 := len_pos hr
  have b0 := len_pos hb
  obtain ⟨h1, -⟩ := angle_products hs ha l r
  set θ := angle sqrt atan2 l r with hθ
  have hgt : -π < θ := ha.gt _ _
  have hle : θ ≤ π := ha.le _ _
  have hbe : bisector sqrt l r = len r • l + len l • r := by
    rw [bisector_eq, norm_len hs, norm_len hs]
  have hbb : inner (bisector sqrt l r) (bisector sqrt l r) =
      2 * (len l * len r) ^ 2 * (1 + Real.cos θ) := by
    rw [hbe, inner_add_left, inner_add_right, inner_add_right]
    simp only [inner_smul_left, inner_smul_right]
    rw [← len_sq, ← len_sq, inner_comm r l, ← h1]
    ring
  have hlb : inner l (bisector sqrt l r) = len l * (len l * len r) * (1 + Real.cos θ) := by
    rw [hbe, inner_add_right]
    simp only [inner_smul_right]
    rw [← len_sq, ← h1]
    ring
  have hhalf : 1 + Real.cos θ = 2 * Real.cos (θ / 2) ^ 2 := by
    have := Real.cos_two_mul (θ / 2)
    rw [show 2 * (θ / 2) = θ by ring] at this
    rw [this]
    ring
  have hc0 : 0 < Real.cos (θ / 2) := by
    have hnn : 0 ≤ Real.cos (θ / 2) :=
      Real.cos_nonneg_of_neg_pi_div_two_le_of_le (by linarith) (by linarith)
    rcases hnn.lt_or_eq with h | h
    · exact h
    · exfalso
      rw [← h] at hhalf
      rw [hhalf] at hbb
      have := inner_self_pos hb
      rw [hbb] at this
      simp at this
  have hlen : len (bisector sqrt l r) = 2 * (len l * len r) * Real.cos (θ / 2) := by
    rw [len_eq, hbb, hhalf, show 2 * (len l * len r) ^ 2 * (2 * Real.cos (θ / 2) ^ 2) =
      (2 * (len l * len r) * Real.cos (θ / 2)) ^ 2 by ring, Real.sqrt_sq (by positivity)]
  by_cases hn : n = 2
  · subst hn
    obtain ⟨-, -, p3⟩ := angle_plane hs ha l r
    have e : bisector sqrt l r = (len r * (2 * Real.cos (θ / 2))) • turn l (θ / 2) := by
      rw [hbe, ← p3]
      have hs2 := Real.sin_two_mul (θ / 2)
      rw [show 2 * (θ / 2) = θ by ring] at hs2
      have hc2 : Real.cos θ = 2 * Real.cos (θ / 2) ^ 2 - 1 := by linarith
      refine vec2_ext ?_ ?_
      · show len r * l 0 + len r * (Real.cos θ * l 0 - Real.sin θ * l 1) =
          len r * (2 * Real.cos (θ / 2)) * (Real.cos (θ / 2) * l 0 - Real.sin (θ / 2) * l 1)
        rw [hc2, hs2]
        ring
      · show len r * l 1 + len r * (Real.sin θ * l 0 + Real.cos θ * l 1) =
          len r * (2 * Real.cos (θ / 2)) * (Real.sin (θ / 2) * l 0 + Real.cos (θ / 2) * l 1)
        rw [hc2, hs2]
        ring
    rw [e]
    exact angle_turn ha hl (by positivity) (by linarith) (by linarith)
  · obtain ⟨a0, a1, -, -⟩ := angle_space hs ha hn hl hr
    obtain ⟨-, -, a4, -⟩ := angle_space hs ha hn hl hb
    rw [a4, hlb, hlen, hhalf, show len l * (len l * len r) * (2 * Real.cos (θ / 2) ^ 2) /
      (len l * (2 * (len l * len r) * Real.cos (θ / 2))) = Real.cos (θ / 2) from by
        field_simp, Real.arccos_cos (by linarith) (by linarith)]

/-! ### Inversion -/

section Inversion

variable {F : Type*} [Field F] [LinearOrder F] [IsStrictOrderedRing F] {n : Nat}

theorem invert_eq {p : Vec F n} (hp : p ≠ 0) (R : F) : invert p R = some ((R ^ 2 / inner p p) • p) := by
  have hd : degenerate p = false := by
    rw [← Bool.not_eq_true, degenerate_iff]
    exact hp
  simp only [invert, hd, Bool.false_eq_true, if_false, dotSelf, dot_eq]
  congr 1
  funext i
  simp only [Pi.smul_apply, smul_eq_mul]
  ring

/-- Inversion: undefined for the centre; otherwise the result lies on the ray to the point, the product
of the distances is the square of the radius, and inverting again gives the point back. -/
theorem invert_spec (p : Vec F n) {R : F} (hR : R ≠ 0) :
    (p = 0 → invert p R = none) ∧
      (p ≠ 0 → ∃ q, invert p R = some q ∧ (∃ t : F, 0 < t ∧ q = t • p) ∧ inner p q = R ^ 2 ∧
        inner p p * inner q q = R ^ 4 ∧ invert q R = some p) := by
  constructor
  · rintro rfl
    have : degenerate (0 : Vec F n) = true := (degenerate_iff _).mpr rfl
    simp [invert, this]
  · intro hp
    have h0 := inner_self_pos hp
    have ht : 0 < R ^ 2 / inner p p := div_pos (by positivity) h0
    refine ⟨_, invert_eq hp R, ⟨_, ht, rfl⟩, ?_, ?_, ?_⟩
    · rw [inner_smul_right]
      field_simp
    · rw [inner_smul_left, inner_smul_right]
      field_simp
    · have hq : (R ^ 2 / inner p p) • p ≠ 0 := smul_ne_zero ht.ne' hp
      rw [invert_eq hq, inner_smul_left, inner_smul_right, smul_smul]
      congr 1
      rw [show R ^ 2 / (R ^ 2 / inner p p * (R ^ 2 / inner p p * inner p p)) * (R ^ 2 / inner p p) = 1
        from by field_simp, one_smul]

/-- The same in a sphere: the result lies on the ray from the centre, the product of the distances is
the square of the radius, inverting again gives the point back, points of the sphere stay, and inside
and outside are exchanged. -/
theorem invertSphere_spec (p : Vec F n) (s : Sphere F n) (hR : s.radius ≠ 0) :
    (p = s.center → invertSphere p s = none) ∧
      (p ≠ s.center → ∃ q, invertSphere p s = some q ∧
        (∃ t : F, 0 < t ∧ q - s.center = t • (p - s.center)) ∧
        dist2 p s.center * dist2 q s.center = s.radius ^ 4 ∧ invertSphere q s = some p ∧
        (q = p ↔ OnSphere p s) ∧
        (dist2 q s.center < s.radius ^ 2 ↔ s.radius ^ 2 < dist2 p s.center)) := by
  obtain ⟨h1, h2⟩ := invert_spec (p - s.center) hR
  constructor
  · intro hp
    rw [invertSphere, h1 (sub_eq_zero.mpr hp)]
    rfl
  · intro hp
    obtain ⟨q, e1, ⟨t, ht, e2⟩, e3, e4, e5⟩ := h2 (sub_ne_zero.mpr hp)
    have hps : 0 < inner (p - s.center) (p - s.center) := inner_self_pos (sub_ne_zero.mpr hp)
    have hq : s.center + q - s.center = q := add_sub_cancel_left _ _
    have hd : dist2 (s.center + q) s.center = inner q q := by rw [dist2_eq, hq]
    have hd' : dist2 p s.center = inner (p - s.center) (p - s.center) := dist2_eq _ _
    have hR2 : 0 < s.radius ^ 2 := by positivity
    refine ⟨s.center + q, by rw [invertSphere, e1]; rfl, ⟨t, ht, by rw [hq, e2]⟩, ?_, ?_, ?_, ?_⟩
    · rw [hd, hd', e4]
    · rw [invertSphere, hq, e5]
      simp
    · have htp : t * inner (p - s.center) (p - s.center) = s.radius ^ 2 := by
        rw [← e3, e2, inner_smul_right]
      unfold OnSphere
      rw [hd']
      constructor
      · intro h
        have hqp : q = p - s.center := by rw [← h, hq]
        rw [← hqp] at e3
        rw [← e3, ← hqp]
      · intro h
        rw [h] at htp
        have : t = 1 := by
          have := mul_right_cancel₀ hR2.ne' (htp.trans (one_mul _).symm)
          exact this
        rw [e2, this, one_smul]
        exact add_sub_cancel _ _
    · rw [hd, hd']
      have e4' : inner (p - s.center) (p - s.center) * inner q q = s.radius ^ 2 * s.radius ^ 2 := by
        rw [e4]; ring
      constructor
      · intro h
        by_contra hc
        have := mul_lt_mul' (not_lt.mp hc) h (inner_self_nonneg q) hR2
        rw [e4'] at this
        exact lt_irrefl _ this
      · intro h
        by_contra hc
        have := mul_lt_mul h (not_lt.mp hc) hR2 hps.le
        rw [e4'] at this
        exact lt_irrefl _ this

/-- Distances after inversion. -/
theorem invert_dist {p q p' q' : Vec F n} {R : F} (hp : invert p R = some p')
    (hq : invert q R = some q') :
    dist2 p' q' * (inner p p * inner q q) = R ^ 4 * dist2 p q := by
  have nz : ∀ {a b : Vec F n}, invert a R = some b → a ≠ 0 := by
    rintro a b h rfl
    have : degenerate (0 : Vec F n) = true := (degenerate_iff _).mpr rfl
    simp [invert, this] at h
  have hp0 := nz hp
  have hq0 := nz hq
  rw [invert_eq hp0] at hp
  rw [invert_eq hq0] at hq
  cases hp
  cases hq
  have a0 := (inner_self_pos hp0).ne'
  have b0 := (inner_self_pos hq0).ne'
  rw [dist2_eq, dist2_eq, inner_sub_left, inner_sub_right, inner_sub_right, inner_sub_left,
    inner_sub_right, inner_sub_right]
  simp only [inner_smul_left, inner_smul_right]
  rw [inner_comm q p]
  field_simp
  ring

end Inversion

/-! ### Examples -/

/-- The angle from (1, 0) to (0, 2) is a right one; back it is its negation. -/
example : angle Real.sqrt (fun y x => Complex.arg ⟨x, y⟩) (![1, 0] : Vec ℝ 2) ![0, 2] = π / 2 := by
  have h := angle_turn (sqrt := Real.sqrt) isAtan2_arg (l := ![1, 0])
    (fun h => by simpa using congrFun h 0) (t := 2) (θ := π / 2) two_pos
    (by linarith [Real.pi_pos]) (by linarith [Real.pi_pos])
  rw [← h]
  congr 1
  refine vec2_ext ?_ ?_ <;> simp [turn]

example : invert (![3, 4] : Vec ℚ 2) 5 = some ![3, 4] := by decide +kernel
example : invertSphere (![3, 0] : Vec ℚ 2) ⟨![1, 0], 4⟩ = some ![9, 0] := by decide +kernel
example : invert (![0, 0] : Vec ℚ 2) 5 = none := by decide +kernel

end Actl.Geo
