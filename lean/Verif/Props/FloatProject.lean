import Verif.Lemmas.FloatProject
import Verif.Props.Distance
import Verif.Props.Project
import Verif.Props.FloatLines

/-!
# C132: projections, nearest points and distances in floating point
-/

namespace Actl.Geo

variable {F : Type*} [Field F] [LinearOrder F] [IsStrictOrderedRing F]
variable {fl : F → F} {u : F} {n : Nat}

/-! ### Lines -/

theorem foot_orthogonal (p : Vec F n) (l : Line F n) (hv : l.vector ≠ 0) :
    inner (p - (l.start + (inner (p - l.start) l.vector / inner l.vector l.vector) • l.vector)) l.vector = 0 := by
  have hN := (inner_self_pos hv).ne'
  rw [← sub_sub, inner_sub_left, inner_smul_left, div_mul_cancel₀ _ hN, sub_self]

/-- C132. The projection on a line: the computed parameter and every coordinate are as near to those of the foot of the perpendicular
as the bounds say, and so is the point reflected. -/
theorem projectLine_rounded (h : SignedRounding fl u) (p : Vec F n) (l : Line F n) (hv : l.vector ≠ 0) (hn : grow u (n + 1) < 1) :
    ∃ (t : F) (q : Vec F n), q = l.start + t • l.vector ∧ inner (p - q) l.vector = 0 ∧
      |projectScalarR fl p l - t| ≤ footError u (p - l.start) l.vector t ∧
      ∀ i, |projectLineR fl p l i - q i| ≤ pointError u (l.start i) (l.vector i) t (footError u (p - l.start) l.vector t) ∧
        |reflectByR fl (fun x => projectLineR fl x l) p i - (2 * q i - p i)| ≤ sumError u (2 * q i - p i)
          (sumError u (2 * q i) (2 * pointError u (l.start i) (l.vector i) t (footError u (p - l.start) l.vector t))) := by
  have e := foot_error h p l hv hn
  refine ⟨inner (p - l.start) l.vector / inner l.vector l.vector, _, rfl, foot_orthogonal p l hv, e, fun i => ?_⟩
  have e1 : |projectLineR fl p l i - _| ≤ _ := at_error (s := l.start i) (v := l.vector i) h e
  exact ⟨e1, reflect_error h e1⟩

/-- C132. Whatever the point and the line, the point with the computed parameter is within a fixed relative error of the foot of the
perpendicular: the squares of the distances are compared. -/
theorem projectLine_near (h : SignedRounding fl u) (p : Vec F n) (l : Line F n) (hv : l.vector ≠ 0) (hn : grow u (n + 1) < 1) :
    ∃ q : Vec F n, (∃ t : F, q = l.start + t • l.vector) ∧ inner (p - q) l.vector = 0 ∧
      dist2 (l.start + projectScalarR fl p l • l.vector) q ≤ projectBound u n ^ 2 * dist2 p l.start := by
  have hu := h.nonneg
  have hN := inner_self_pos hv
  refine ⟨_, ⟨inner (p - l.start) l.vector / inner l.vector l.vector, rfl⟩, foot_orthogonal p l hv, ?_⟩
  have e := foot_error h p l hv hn
  set t := inner (p - l.start) l.vector / inner l.vector l.vector with ht
  set N := inner l.vector l.vector with hNd
  set A := absInner (p - l.start) l.vector with hA
  have hA0 : 0 ≤ A := absInner_nonneg _ _
  have htA : |t| ≤ A / N := by
    rw [ht, abs_div, abs_of_pos hN]
    exact div_le_div_of_nonneg_right (abs_inner_le _ _) hN.le
  have hC : (A / N) ^ 2 * N ≤ dist2 p l.start := by
    have := cauchy_abs (p - l.start) l.vector
    rw [← hA, ← hNd, ← dist2_eq] at this
    rw [div_pow, sq N, div_mul_eq_mul_div, mul_comm (A ^ 2) N, mul_div_mul_left _ _ hN.ne', div_le_iff₀ hN]
    exact this
  have hc1 := grow_nonneg hu (n + 1)
  have hc2 := grow_nonneg hu (n + 2)
  have hd : 0 < 1 - grow u (n + 1) := sub_pos.2 hn
  have hx : 0 ≤ A / N := div_nonneg hA0 hN.le
  have e1 : |projectScalarR fl p l - t| ≤ projectBound u n * (A / N) := by
    refine e.trans ?_
    unfold footError quotientError projectBound
    rw [abs_of_pos hN]
    have e2 : (grow u (n + 2) * A + |t| * (grow u (n + 1) * N)) / (N - grow u (n + 1) * N) ≤
        (grow u (n + 2) + grow u (n + 1)) / (1 - grow u (n + 1)) * (A / N) := by
      rw [show N - grow u (n + 1) * N = (1 - grow u (n + 1)) * N by ring, div_mul_div_comm]
      refine div_le_div_of_nonneg_right ?_ (mul_pos hd hN).le
      have e3 := mul_le_mul_of_nonneg_right htA (mul_nonneg hc1 hN.le)
      have e4 : A / N * (grow u (n + 1) * N) = grow u (n + 1) * A := by field_simp
      linarith
    have e5 := mul_le_mul_of_nonneg_left htA hu
    have e6 := mul_le_mul_of_nonneg_left e2 hu
    simp only
    nlinarith
  have e7 : dist2 (l.start + projectScalarR fl p l • l.vector) (l.start + t • l.vector) = (projectScalarR fl p l - t) ^ 2 * N := by
    rw [dist2_eq, add_sub_add_left_eq_sub, ← sub_smul, inner_smul_left, inner_smul_right]
    ring
  rw [e7]
  have e8 : (projectScalarR fl p l - t) ^ 2 ≤ (projectBound u n * (A / N)) ^ 2 := by
    rw [← sq_abs]
    exact pow_le_pow_left₀ (abs_nonneg _) e1 2
  have e9 := mul_le_mul_of_nonneg_right e8 hN.le
  have e10 := mul_le_mul_of_nonneg_left hC (sq_nonneg (projectBound u n))
  rw [mul_pow] at e9
  linarith

/-- C132. The nearest point of a line, ray or segment: there is an answer, and every coordinate of it is as near as the bound says to that of
the nearest point, also where the rounded products choose a wrong case. -/
theorem nearestLine_rounded (h : SignedRounding fl u) (p : Vec F n) (l : Line F n) (hv : l.vector ≠ 0) (hn : grow u (n + 1) < 1) :
    ∃ (q x : Vec F n) (s : F), nearestLineR fl p l = some q ∧ Nearest (fun x => Touches x l) p x ∧ x = l.start + s • l.vector ∧
      ∀ i, |q i - x i| ≤ pointError u (l.start i) (l.vector i) s (nearestError u p l) := by
  have hN := inner_self_pos hv
  have ef := foot_error h p l hv hn
  have a0 := dot_sub_error h p l.start l.vector
  have a1 := end_error h p l
  obtain ⟨s, x2, hcase⟩ := nearest_cases p l hv rfl
  have hend : inner (p - (l.start + l.vector)) l.vector = inner (p - l.start) l.vector - inner l.vector l.vector := inner_stop p l
  have htN : inner (p - l.start) l.vector = inner (p - l.start) l.vector / inner l.vector l.vector * inner l.vector l.vector :=
    (div_mul_cancel₀ _ hN.ne').symm
  rw [hend] at a1
  rw [htN] at a0 a1
  obtain ⟨k0, k0', k1, k1'⟩ := side_cases hN a0 a1
  obtain ⟨w0, w1, w2⟩ := wrong_case (div_nonneg ((abs_nonneg _).trans a0) hN.le) (div_nonneg ((abs_nonneg _).trans a1) hN.le) ef hcase
  have hdot : dotR fl l.vector l.vector ≠ 0 := by
    intro hz
    have := dot_self_error h l.vector
    rw [hz, zero_sub, abs_neg, abs_of_pos hN] at this
    exact absurd (mul_lt_of_lt_one_left hN hn) (not_lt.2 this)
  rw [nearestError, add_div]
  unfold nearestLineR
  by_cases d0 : l.kind.first ≠ .free ∧ ¬ 0 < dotR fl (subV fl p l.start) l.vector
  · rw [if_pos d0]
    exact ⟨_, _, s, rfl, x2, rfl, fun i => start_error h.nonneg (w0 d0.1 (k0 (not_lt.1 d0.2)))⟩
  · rw [if_neg d0]
    have hk0 : l.kind.first ≠ .free → _ := fun hk => k0' (le_of_lt (not_not.1 fun hc => d0 ⟨hk, hc⟩))
    by_cases d1 : l.kind.last ≠ .free ∧ ¬ dotR fl (subV fl p (stopV fl l)) l.vector < 0
    · rw [if_pos d1]
      exact ⟨_, _, s, rfl, x2, rfl, fun i => stop_error h (w1 d1.1 (k1 (not_lt.1 d1.2)))⟩
    · rw [if_neg d1, if_neg hdot]
      have hk1 : l.kind.last ≠ .free → _ := fun hk => k1' (le_of_lt (not_not.1 fun hc => d1 ⟨hk, hc⟩))
      exact ⟨_, _, s, rfl, x2, rfl, fun i => at_error (s := l.start i) (v := l.vector i) h (w2 hk0 hk1)⟩

/-- C132. The distance from a line, ray or segment in the plane: there is an answer, and it is as near to the distance as the bound says. -/
theorem distanceLine_rounded (h : SignedRounding fl u) {sqrt : F → F} (hs : IsSqrt sqrt) (p : Vec F 2) (l : Line F 2)
    (hv : l.vector ≠ 0) (hn : grow u 4 < 1) :
    ∃ d d' : F, distanceLineR fl sqrt p l = some d' ∧ IsDistance (fun x => Touches x l) p d ∧ |d' - d| ≤ distanceError u sqrt p l := by
  have hu := h.nonneg
  have hN := inner_self_pos hv
  have hL := sqrt_pos' hs hv
  have hLL := (hs _ hN.le).2
  have a0 := dot_sub_error h p l.start l.vector
  have a1 := end_error h p l
  obtain ⟨s, x2, hcase⟩ := nearest_cases p l hv rfl
  have hend : inner (p - (l.start + l.vector)) l.vector = inner (p - l.start) l.vector - inner l.vector l.vector := inner_stop p l
  have htN : inner (p - l.start) l.vector = inner (p - l.start) l.vector / inner l.vector l.vector * inner l.vector l.vector :=
    (div_mul_cancel₀ _ hN.ne').symm
  rw [hend] at a1
  rw [htN] at a0 a1
  have hE0 := (abs_nonneg _).trans a0
  have hE1 := (abs_nonneg _).trans a1
  obtain ⟨k0, k0', k1, k1'⟩ := side_cases hN a0 a1
  set t := inner (p - l.start) l.vector / inner l.vector l.vector with ht
  obtain ⟨w0, w1, w2⟩ := wrong_case (t' := t) (f := 0) (div_nonneg hE0 hN.le) (div_nonneg hE1 hN.le)
    (by rw [sub_self, abs_zero]) hcase
  -- the distances from two points of the line differ by no more than the distance between them
  have lip : ∀ r : F, |r - s| ≤ 0 + (grow u (2 + 2) * absInner (p - l.start) l.vector / inner l.vector l.vector +
      endError u p l / inner l.vector l.vector) →
      |sqrt (dist2 p (l.start + r • l.vector)) - sqrt (dist2 p (l.start + s • l.vector))| ≤
        (grow u 4 * absInner (p - l.start) l.vector + endError u p l) / sqrt (inner l.vector l.vector) := by
    intro r hr
    have e1 := norm_diff hs (p - (l.start + r • l.vector)) (p - (l.start + s • l.vector))
    rw [← dist2_eq, ← dist2_eq] at e1
    have e2 : sqrt (inner (p - (l.start + r • l.vector) - (p - (l.start + s • l.vector)))
        (p - (l.start + r • l.vector) - (p - (l.start + s • l.vector)))) = |r - s| * sqrt (inner l.vector l.vector) := by
      refine sqrt_of_sq hs (mul_nonneg (abs_nonneg _) hL.le) (inner_self_nonneg _) ?_
      rw [sub_sub_sub_cancel_left, add_sub_add_left_eq_sub, ← sub_smul, inner_smul_left, inner_smul_right, mul_pow, sq_abs,
        sq (sqrt _), hLL]
      ring
    rw [e2] at e1
    refine e1.trans ?_
    have e3 := mul_le_mul_of_nonneg_right hr hL.le
    refine e3.trans (le_of_eq ?_)
    rw [zero_add, ← add_div]
    rw [div_mul_eq_mul_div, div_eq_div_iff hN.ne' hL.ne', mul_assoc, hLL]
  have hd : IsDistance (fun x => Touches x l) p (sqrt (dist2 p (l.start + s • l.vector))) := by
    have h0 : 0 ≤ dist2 p (l.start + s • l.vector) := by
      rw [dist2_eq]
      exact inner_self_nonneg _
    obtain ⟨q0, q1⟩ := hs _ h0
    refine ⟨q0, ⟨_, x2.1, by rw [sq, q1]⟩, fun x hx => ?_⟩
    rw [sq, q1]
    exact (x2.2 x hx).1
  refine ⟨sqrt (dist2 p (l.start + s • l.vector)), ?_⟩
  -- the three distances
  have f0 := norm_sub_error h hs p l.start l.start (e := 0) (by rw [sub_self, abs_zero])
  rw [add_zero, add_zero] at f0
  have f1 := norm_sub_error h hs p (l.start + l.vector) (stopV fl l)
    (e := u * sqrt (inner (l.start + l.vector) (l.start + l.vector))) (norm_near hs hu fun i => by
      change |p i - fl (l.start i + l.vector i) - (p i - (l.start i + l.vector i))| ≤ u * |l.start i + l.vector i|
      rw [sub_sub_sub_cancel_left, abs_sub_comm]
      exact h.near _)
  have hnorm := normR_error h hs l.vector
  have h1 : grow u 4 * sqrt (inner l.vector l.vector) < |sqrt (inner l.vector l.vector)| := by
    rw [abs_of_pos hL]
    exact mul_lt_of_lt_one_left hL hn
  have e0 : |absValue (areaR fl (subR fl p l.start) l.vector) - abs (wedge (p - l.start) l.vector)| ≤
      wedgeError u 3 (p - l.start) l.vector := by
    rw [absValue_eq]
    exact (abs_abs_sub_abs_le_abs_sub _ _).trans (areaR_sub_error h p l.start l.vector)
  have f2 := quotient_error h e0 hnorm h1
  have hheight : sqrt (dist2 p (l.start + t • l.vector)) = |wedge (p - l.start) l.vector| / sqrt (inner l.vector l.vector) := by
    refine sqrt_of_sq hs (div_nonneg (abs_nonneg _) hL.le) (by rw [dist2_eq]; exact inner_self_nonneg _) ?_
    rw [div_pow, sq_abs, sq (sqrt _), hLL, dist2_line, ht]
    field_simp
    simp only [wedge, inner, Fin.sum_univ_two]
    ring
  have hz : normR fl sqrt l.vector ≠ 0 := by
    intro hz
    rw [hz, zero_sub, abs_neg, abs_of_pos hL] at hnorm
    exact absurd (mul_lt_of_lt_one_left hL hn) (not_lt.2 hnorm)
  have n0 : 0 ≤ grow u 5 * sqrt (dist2 p l.start) := (abs_nonneg _).trans f0
  have n1 := (abs_nonneg _).trans f1
  have n2 := (abs_nonneg _).trans f2
  unfold distanceLineR
  unfold distanceError quotientError
  simp only
  by_cases d0 : l.kind.first ≠ .free ∧ dotR fl (subV fl p l.start) l.vector < 0
  · rw [if_pos d0]
    refine ⟨_, rfl, hd, ?_⟩
    have g := lip 0 (w0 d0.1 (k0 d0.2.le))
    rw [zero_smul, add_zero] at g
    have := (abs_sub_le _ _ _).trans (add_le_add f0 g)
    linarith
  · rw [if_neg d0]
    have hk0 : l.kind.first ≠ .free → _ := fun hk => k0' (not_lt.1 fun hc => d0 ⟨hk, hc⟩)
    by_cases d1 : l.kind.last ≠ .free ∧ 0 < dotR fl (subV fl p (stopV fl l)) l.vector
    · rw [if_pos d1]
      refine ⟨_, rfl, hd, ?_⟩
      have g := lip 1 (w1 d1.1 (k1 d1.2.le))
      rw [one_smul] at g
      have := (abs_sub_le _ _ _).trans (add_le_add f1 g)
      linarith
    · rw [if_neg d1, if_neg hz]
      refine ⟨_, rfl, hd, ?_⟩
      have hk1 : l.kind.last ≠ .free → _ := fun hk => k1' (not_lt.1 fun hc => d1 ⟨hk, hc⟩)
      have g := lip t (w2 hk0 hk1)
      rw [hheight] at g
      have := (abs_sub_le _ _ _).trans (add_le_add f2 g)
      linarith

/-! ### Planes -/

/-- C132. The projection on a plane: every coordinate is as near as the bound says to that of the foot of the perpendicular. -/
theorem projectPlane_rounded (h : SignedRounding fl u) (p : Vec F n) (pl : Plane F n) (hv : pl.normal ≠ 0) (hn : grow u (n + 1) < 1) :
    ∃ (t : F) (q : Vec F n), q = p - t • pl.normal ∧ InPlane q pl ∧
      ∀ i, |projectPlaneR fl p pl i - q i| ≤ pointError u (p i) (pl.normal i) (-t) (planeError u pl p t) ∧
        |reflectByR fl (fun x => projectPlaneR fl x pl) p i - (2 * q i - p i)| ≤ sumError u (2 * q i - p i)
          (sumError u (2 * q i) (2 * pointError u (p i) (pl.normal i) (-t) (planeError u pl p t))) := by
  have hN := inner_self_pos hv
  have h1 : grow u (n + 1) * inner pl.normal pl.normal < |inner pl.normal pl.normal| := by
    rw [abs_of_pos hN]
    exact mul_lt_of_lt_one_left hN hn
  have e := quotient_error h (eval_error h pl p) (dot_self_error h pl.normal) h1
  refine ⟨(inner pl.normal p - pl.d) / inner pl.normal pl.normal, _, rfl, ?_, fun i => ?_⟩
  · unfold InPlane
    rw [inner_sub_right, inner_smul_right, div_mul_cancel₀ _ hN.ne']
    ring
  · have e1 : |projectPlaneR fl p pl i - (p - ((inner pl.normal p - pl.d) / inner pl.normal pl.normal) • pl.normal) i| ≤
        pointError u (p i) (pl.normal i) (-((inner pl.normal p - pl.d) / inner pl.normal pl.normal))
          (planeError u pl p ((inner pl.normal p - pl.d) / inner pl.normal pl.normal)) := minus_error h e
    exact ⟨e1, reflect_error h e1⟩

/-- C132. The distance from a plane. -/
theorem distancePlane_rounded (h : SignedRounding fl u) {sqrt : F → F} (hs : IsSqrt sqrt) (p : Vec F n) (pl : Plane F n)
    (hv : pl.normal ≠ 0) (hn : grow u (n + 2) < 1) :
    ∃ d d' : F, distancePlaneR fl sqrt p pl = some d' ∧ IsDistance (fun x => InPlane x pl) p d ∧
      |d' - d| ≤ quotientError u d (sumError u (inner pl.normal p - pl.d) (grow u (n + 1) * absInner pl.normal p))
        (sqrt (inner pl.normal pl.normal)) (grow u (n + 2) * sqrt (inner pl.normal pl.normal)) := by
  have hN := inner_self_pos hv
  obtain ⟨s0, s1⟩ := hs _ hN.le
  have hpos : 0 < sqrt (inner pl.normal pl.normal) := by
    rcases s0.eq_or_lt with h0 | h0
    · rw [← h0, mul_zero] at s1
      exact absurd s1 hN.ne
    · exact h0
  obtain ⟨d, d1, d2⟩ := distancePlane_correct hs p pl hv
  have hdeg : ¬ degenerate pl.normal = true := by
    intro hc
    rw [distancePlane, if_pos hc] at d1
    cases d1
  rw [distancePlane, if_neg hdeg] at d1
  have d3 := Option.some.inj d1
  have d4 : d = |inner pl.normal p - pl.d| / sqrt (inner pl.normal pl.normal) := by
    rw [← d3, absValue_eq, Plane.eval, dot_eq, norm, dotSelf, dot_eq]
  refine ⟨d, _, by rw [distancePlaneR, if_neg hdeg], d2, ?_⟩
  have h1 : grow u (n + 2) * sqrt (inner pl.normal pl.normal) < |sqrt (inner pl.normal pl.normal)| := by
    rw [abs_of_pos hpos]
    exact mul_lt_of_lt_one_left hpos hn
  have e0 : |absValue (evalR fl pl p) - abs (inner pl.normal p - pl.d)| ≤
      sumError u (inner pl.normal p - pl.d) (grow u (n + 1) * absInner pl.normal p) := by
    rw [absValue_eq]
    exact (abs_abs_sub_abs_le_abs_sub _ _).trans (eval_error h pl p)
  have e := quotient_error h e0 (normR_error h hs pl.normal) h1
  rw [← d4] at e
  exact e

/-! ### Examples -/

/-- Rounding to 53 binary digits meets the hypotheses in the plane and in space. -/
example : SignedRounding (roundSigned 53) ((2 : ℚ) ^ 53)⁻¹ ∧ grow ((2 : ℚ) ^ 53)⁻¹ 5 < 1 := by
  refine ⟨roundSigned_signed (by norm_num), ?_⟩
  unfold grow
  norm_num

/-- The projection of `(1, 0)` on the line through the origin with the vector `(49, 0)`: the point lies on the line and is not its own
projection with `double`, nor is it its own reflection. -/
theorem projectLine_rounded_fails :
    let p : Vec ℚ 2 := ![1, 0]
    let l : Line ℚ 2 := ⟨0, ![49, 0], .free⟩
    projectLine p l = p ∧ projectLineR (roundSigned 53) p l 0 ≠ 1 ∧
      reflectByR (roundSigned 53) (fun x => projectLineR (roundSigned 53) x l) p 0 ≠ 1 := by
  refine ⟨?_, ?_, ?_⟩
  · decide +kernel
  · decide +kernel
  · decide +kernel

/-- The relative error of a projection in the plane with `double` is below `10⁻¹⁴` of the distance from the start of the line. -/
example : projectBound (1 / 2 ^ 53 : ℚ) 2 < 1 / 10 ^ 14 := by
  unfold projectBound grow
  norm_num

/-- The distance from a segment, with the square root of the real numbers and an arithmetic which gives every result too large by an
eighth. -/
example : ∃ d d' : ℝ, distanceLineR (fun x => 9 / 8 * x) Real.sqrt ![3, 4] ⟨![0, 0], ![1, 1], .closedSegment⟩ = some d' ∧
    IsDistance (fun x => Touches x ⟨![0, 0], ![1, 1], .closedSegment⟩) ![3, 4] d ∧
    |d' - d| ≤ distanceError (1 / 8) Real.sqrt ![3, 4] ⟨![0, 0], ![1, 1], .closedSegment⟩ := by
  have h : SignedRounding (fun x : ℝ => 9 / 8 * x) (1 / 8) := by
    refine ⟨by norm_num, by norm_num, fun y => ?_⟩
    rw [show 9 / 8 * y - y = 1 / 8 * y by ring, abs_mul]
    norm_num
  refine distanceLine_rounded h isSqrt_real ![3, 4] ⟨![0, 0], ![1, 1], .closedSegment⟩ ?_ ?_
  · intro hz
    have := congrFun hz 0
    norm_num at this
  · unfold grow
    norm_num

end Actl.Geo
