import Verif.Props.Project
import Verif.Spec.Distance
import Mathlib.Analysis.Real.Sqrt

/-!
# C64: distances and nearest points

The nearest point of a line, ray, segment or plane is right, also for degenerate segments.  The
distance is right for non-degenerate lines; for a degenerate one the code divides zero by zero.
-/

namespace Actl.Geo

variable {F : Type*} [Field F] [LinearOrder F] [IsStrictOrderedRing F] {n : Nat}

theorem isSqrt_real : IsSqrt Real.sqrt := fun _ h => ⟨Real.sqrt_nonneg _, Real.mul_self_sqrt h⟩

theorem absValue_eq (x : F) : absValue x = |x| := by
  unfold absValue
  split_ifs with h
  · rw [abs_of_neg h]
  · rw [abs_of_nonneg (not_lt.1 h)]

theorem norm_nonneg' {sqrt : F → F} (hs : IsSqrt sqrt) (v : Vec F n) : 0 ≤ norm sqrt v := by
  rw [norm, dotSelf, dot_eq]; exact (hs _ (inner_self_nonneg v)).1

theorem norm_sq {sqrt : F → F} (hs : IsSqrt sqrt) (v : Vec F n) :
    norm sqrt v ^ 2 = inner v v := by
  rw [norm, dotSelf, dot_eq, sq]; exact (hs _ (inner_self_nonneg v)).2

theorem norm_eq_zero' {sqrt : F → F} (hs : IsSqrt sqrt) (v : Vec F n) :
    norm sqrt v = 0 ↔ v = 0 := by
  rw [← inner_self_eq_zero, ← norm_sq hs, sq_eq_zero_iff]

theorem cauchy (u v : Vec F n) : inner u v ^ 2 ≤ inner u u * inner v v := by
  rcases eq_or_ne v 0 with rfl | hv
  · simp [inner]
  have h := inner_self_nonneg (inner v v • u - inner u v • v)
  have e : inner (inner v v • u - inner u v • v) (inner v v • u - inner u v • v) =
      inner v v * (inner u u * inner v v - inner u v ^ 2) := by
    rw [inner_sub_left, inner_sub_right, inner_sub_right]
    simp only [inner_smul_left, inner_smul_right]
    rw [inner_comm v u]
    ring
  rw [e] at h
  have := (mul_nonneg_iff_of_pos_left (inner_self_pos hv)).1 h
  linarith

theorem areaN_sq {sqrt : F → F} (hs : IsSqrt sqrt) (u v : Vec F n) :
    areaN sqrt u v ^ 2 = inner u u * inner v v - inner u v ^ 2 := by
  unfold areaN
  split
  · simp [area, inner, Fin.sum_univ_two]; ring
  · rw [sq, dotSelf, dot_eq, (hs _ (inner_self_nonneg _)).2]
    simp [cross, inner, Fin.sum_univ_three]; ring
  · rw [sq]
    simp only [dotSelf, dot_eq]
    have h : 0 ≤ inner u u * inner v v - inner u v * inner u v := by
      have := cauchy u v; rw [sq] at this; linarith
    rw [(hs _ h).2]; ring

theorem reach_iff (k : LineKind) (t : F) :
    Reach k t ↔ (k.first ≠ .free → 0 ≤ t) ∧ (k.last ≠ .free → t ≤ 1) := by
  cases k <;>
    simp [Reach, LineKind.first, LineKind.last, LineKind.val, combine, Endpoint.val, Endpoint.ofVal]

/-- The ends belong to lines, closed rays and closed segments: there touching is lying on. -/
theorem touches_iff_on (p : Vec F n) (l : Line F n)
    (hk : l.kind = .free ∨ l.kind = .closedRay ∨ l.kind = .closedSegment) :
    Touches p l ↔ On p l := by
  unfold Touches On
  rcases hk with h | h | h <;> rw [h] <;> rfl

theorem On.touches {p : Vec F n} {l : Line F n} (h : On p l) : Touches p l := by
  obtain ⟨t, ht, e⟩ := h
  refine ⟨t, ?_, e⟩
  cases hk : l.kind <;> rw [hk] at ht <;> simp only [Allowed, Reach] at ht ⊢
  · exact ht
  · exact ht.le
  · exact ht
  · exact ⟨ht.1.le, ht.2⟩
  · exact ⟨ht.1.le, ht.2.le⟩

theorem dist2_line (p : Vec F n) (l : Line F n) (t : F) :
    dist2 p (l.start + t • l.vector) = inner (p - l.start) (p - l.start) -
      2 * t * inner (p - l.start) l.vector + t ^ 2 * inner l.vector l.vector := by
  have e : p - (l.start + t • l.vector) = (p - l.start) - t • l.vector := by
    funext i; simp; ring
  rw [dist2_eq, e]
  generalize p - l.start = u
  rw [inner_sub_left, inner_sub_right, inner_sub_right]
  simp only [inner_smul_left, inner_smul_right]
  rw [inner_comm l.vector u]
  ring

theorem inner_stop (p : Vec F n) (l : Line F n) :
    inner (p - l.stop) l.vector = inner (p - l.start) l.vector - inner l.vector l.vector := by
  rw [Line.stop, ← sub_sub, inner_sub_left]

/-- C64. The nearest point reported for a line, ray or segment is the point of it (ends included)
nearest to the argument, and it is the only one.  Degenerate rays and segments are no exception;
only for a degenerate free line is nothing defined. -/
theorem nearestLine_correct (p : Vec F n) (l : Line F n)
    (hv : l.vector ≠ 0 ∨ l.kind ≠ .free) :
    ∃ q, nearestLine p l = some q ∧ Nearest (fun x => Touches x l) p q := by
  unfold nearestLine
  simp only [dot_eq, dotSelf, inner_stop]
  have hD := inner_self_nonneg l.vector
  split_ifs with h1 h2 h3
  · refine ⟨_, rfl, ⟨0, (reach_iff _ _).2 ⟨fun _ => le_refl _, fun _ => zero_le_one⟩, by simp⟩, ?_⟩
    rintro x ⟨t, ht, rfl⟩
    have ht := ((reach_iff _ _).1 ht).1 h1.1
    have e0 := dist2_line p l 0
    rw [zero_smul, add_zero] at e0
    have h1' := not_lt.1 h1.2
    have hm : t * inner (p - l.start) l.vector ≤ 0 := mul_nonpos_of_nonneg_of_nonpos ht h1'
    have hq : 0 ≤ t ^ 2 * inner l.vector l.vector := mul_nonneg (sq_nonneg _) hD
    rw [dist2_line, e0]
    refine ⟨by linarith, fun h => ?_⟩
    have : t ^ 2 * inner l.vector l.vector = 0 := by linarith
    rcases mul_eq_zero.1 this with h | h
    · rw [pow_eq_zero_iff (by norm_num)] at h; rw [h, zero_smul, add_zero]
    · rw [(inner_self_eq_zero _).1 h, smul_zero, add_zero]
  · refine ⟨_, rfl, ⟨1, (reach_iff _ _).2 ⟨fun _ => zero_le_one, fun _ => le_refl _⟩,
      by simp [Line.stop]⟩, ?_⟩
    rintro x ⟨t, ht, rfl⟩
    have ht := ((reach_iff _ _).1 ht).2 h2.1
    have e0 := dist2_line p l 1
    rw [one_smul] at e0
    change dist2 p l.stop = _ at e0
    have h2' := not_lt.1 h2.2
    have hm := mul_nonneg (sub_nonneg.2 ht) h2'
    have hq : 0 ≤ (1 - t) ^ 2 * inner l.vector l.vector := mul_nonneg (sq_nonneg _) hD
    rw [dist2_line, e0]
    refine ⟨by nlinarith, fun h => ?_⟩
    have : (1 - t) ^ 2 * inner l.vector l.vector = 0 := by nlinarith
    rcases mul_eq_zero.1 this with h | h
    · rw [pow_eq_zero_iff (by norm_num), sub_eq_zero] at h; rw [← h, one_smul, Line.stop]
    · rw [Line.stop, (inner_self_eq_zero _).1 h, smul_zero]
  · exfalso
    have h0 := (inner_self_eq_zero _).1 h3
    rcases hv with hv | hv
    · exact hv h0
    · refine h1 ⟨?_, ?_⟩
      · revert hv
        cases l.kind <;> simp [LineKind.first, LineKind.val, combine, Endpoint.val, Endpoint.ofVal]
      · rw [h0]; simp [inner]
  · have hv0 : l.vector ≠ 0 := fun h => h3 ((inner_self_eq_zero _).2 h)
    have hDp := inner_self_pos hv0
    have hsc := projectScalar_mul p l hv0
    refine ⟨_, rfl, ⟨projectScalar p l, (reach_iff _ _).2 ⟨fun hf => ?_, fun hl => ?_⟩, rfl⟩, ?_⟩
    · by_contra hc
      refine h1 ⟨hf, fun h => ?_⟩
      rw [← hsc] at h
      have := (pos_iff_pos_of_mul_pos h).2 hDp
      exact hc this.le
    · by_contra hc
      refine h2 ⟨hl, fun h => ?_⟩
      rw [← hsc] at h
      have := mul_lt_mul_of_pos_right (not_le.1 hc) hDp
      linarith
    · rintro x ⟨t, _, rfl⟩
      rw [projectLine_nearest p l hv0 t]
      have hn : 0 ≤ dist2 (projectLine p l) (l.start + t • l.vector) := by
        rw [dist2_eq]; exact inner_self_nonneg _
      refine ⟨by linarith, fun h => ?_⟩
      have h0 : dist2 (projectLine p l) (l.start + t • l.vector) = 0 := by linarith
      rw [dist2_eq, inner_self_eq_zero, sub_eq_zero] at h0
      exact h0.symm

/-- C64. The nearest point of a degenerate free line is not defined: zero is divided by zero. -/
theorem nearestLine_none_iff (p : Vec F n) (l : Line F n) :
    nearestLine p l = none ↔ l.vector = 0 ∧ l.kind = .free := by
  constructor
  · intro h
    by_contra hc
    obtain ⟨q, hq, _⟩ := nearestLine_correct p l (by tauto)
    rw [hq] at h; cases h
  · rintro ⟨h0, hk⟩
    simp [nearestLine, h0, hk, dotSelf, dot_eq, inner, LineKind.first, LineKind.last, LineKind.val,
      combine, Endpoint.val, Endpoint.ofVal]

/-- C64. The distance to a non-degenerate line, ray or segment, in every dimension, is the distance
to its nearest point (ends included). -/
theorem distanceLine_correct {sqrt : F → F} (hs : IsSqrt sqrt) (p : Vec F n) (l : Line F n)
    (hv : l.vector ≠ 0) :
    ∃ d, distanceLine sqrt p l = some d ∧ IsDistance (fun x => Touches x l) p d := by
  obtain ⟨q, hq, hn⟩ := nearestLine_correct p l (Or.inl hv)
  have hDp := inner_self_pos hv
  suffices h : ∃ d, distanceLine sqrt p l = some d ∧ 0 ≤ d ∧ dist2 p q = d ^ 2 by
    obtain ⟨d, h1, h2, h3⟩ := h
    exact ⟨d, h1, h2, ⟨q, hn.1, h3⟩, fun x hx => h3 ▸ (hn.2 x hx).1⟩
  unfold distanceLine
  unfold nearestLine at hq
  simp only [dot_eq, dotSelf, inner_stop] at hq ⊢
  split_ifs with h1 h2 h3
  · rw [if_pos ⟨h1.1, not_lt.2 h1.2.le⟩] at hq
    cases hq
    exact ⟨_, rfl, norm_nonneg' hs _, by rw [norm_sq hs, dist2_eq]⟩
  · have hf : ¬ (l.kind.first ≠ .free ∧ ¬ 0 < inner (p - l.start) l.vector) := by
      rintro ⟨_, h⟩; apply h; linarith [h2.2]
    rw [if_neg hf, if_pos ⟨h2.1, not_lt.2 h2.2.le⟩] at hq
    cases hq
    exact ⟨_, rfl, norm_nonneg' hs _, by rw [norm_sq hs, dist2_eq]⟩
  · exact absurd ((norm_eq_zero' hs _).1 h3) hv
  · refine ⟨_, rfl, div_nonneg (by rw [absValue_eq]; exact abs_nonneg _) (norm_nonneg' hs _), ?_⟩
    rw [absValue_eq, div_pow, sq_abs, areaN_sq hs, norm_sq hs]
    have hval : ∀ t, t * inner l.vector l.vector = inner (p - l.start) l.vector →
        dist2 p (l.start + t • l.vector) =
          (inner (p - l.start) (p - l.start) * inner l.vector l.vector -
            inner (p - l.start) l.vector ^ 2) / inner l.vector l.vector := by
      intro t ht
      rw [dist2_line, eq_div_iff hDp.ne', ← ht]; ring
    split_ifs at hq with g1 g2 g3
    · cases hq
      have h0 : inner (p - l.start) l.vector = 0 :=
        le_antisymm (not_lt.1 g1.2) (not_lt.1 fun h => h1 ⟨g1.1, h⟩)
      have := hval 0 (by rw [h0, zero_mul])
      rwa [zero_smul, add_zero] at this
    · cases hq
      have h0 : inner (p - l.start) l.vector - inner l.vector l.vector = 0 :=
        le_antisymm (not_lt.1 fun h => h2 ⟨g2.1, h⟩) (not_lt.1 g2.2)
      have := hval 1 (by rw [one_mul]; linarith)
      rwa [one_smul] at this
    · cases hq
      exact hval _ (projectScalar_mul p l hv)

/-- The point `(5, 4)` is at distance 5 from the segment from the origin to `(2, 0)` (its end is the
nearest point) and at distance 4 from the line. -/
example : distanceLine Real.sqrt ![5, 4] (⟨![0, 0], ![2, 0], .closedSegment⟩ : Line ℝ 2) = some 5 ∧
    distanceLine Real.sqrt ![5, 4] (⟨![0, 0], ![2, 0], .free⟩ : Line ℝ 2) = some 4 ∧
    nearestLine ![5, 4] (⟨![0, 0], ![2, 0], .closedSegment⟩ : Line ℚ 2) = some ![2, 0] := by
  have s25 : Real.sqrt 25 = 5 := by
    rw [show (25 : ℝ) = 5 ^ 2 by norm_num, Real.sqrt_sq (by norm_num)]
  have s4 : Real.sqrt 4 = 2 := by
    rw [show (4 : ℝ) = 2 ^ 2 by norm_num, Real.sqrt_sq (by norm_num)]
  refine ⟨?_, ?_, by decide +kernel⟩
  · simp [distanceLine, dot_eq, inner, Fin.sum_univ_two, Line.stop, norm, dotSelf, LineKind.first,
      LineKind.last, LineKind.val, combine, Endpoint.val, Endpoint.ofVal]
    norm_num [s25]
  · simp [distanceLine, dot_eq, inner, Fin.sum_univ_two, Line.stop, norm, dotSelf, LineKind.first,
      LineKind.last, LineKind.val, combine, Endpoint.val, Endpoint.ofVal, areaN, area, absValue]

/-- C64. The distance to the points of the line, ray or segment itself (an open end excluded) comes
as close to the reported one as wanted, and never below. -/
theorem distanceLine_infimum {sqrt : F → F} (hs : IsSqrt sqrt) (p : Vec F n) (l : Line F n)
    (hv : l.vector ≠ 0) :
    ∃ d, distanceLine sqrt p l = some d ∧ (∀ x, On x l → d ^ 2 ≤ dist2 p x) ∧
      ∀ ε > 0, ∃ x, On x l ∧ dist2 p x < d ^ 2 + ε := by
  obtain ⟨d, h1, h2, ⟨q, ⟨t₀, ht₀, rfl⟩, hq⟩, h4⟩ := distanceLine_correct hs p l hv
  refine ⟨d, h1, fun x hx => h4 x hx.touches, fun ε hε => ?_⟩
  obtain ⟨t₁, ht₁⟩ : ∃ t : F, Allowed l.kind t := allowed_exists l.kind
  have hle := h4 _ (On.touches ⟨t₁, ht₁, rfl⟩)
  obtain ⟨c, hc0, hc1, hc⟩ : ∃ c : F, 0 < c ∧ c ≤ 1 ∧
      c * (dist2 p (l.start + t₁ • l.vector) - d ^ 2) < ε := by
    have hg : 0 ≤ dist2 p (l.start + t₁ • l.vector) - d ^ 2 := by linarith
    refine ⟨min 1 (ε / (dist2 p (l.start + t₁ • l.vector) - d ^ 2 + 1)), ?_, min_le_left _ _, ?_⟩
    · exact lt_min one_pos (div_pos hε (by linarith))
    · calc _ ≤ ε / (dist2 p (l.start + t₁ • l.vector) - d ^ 2 + 1) *
            (dist2 p (l.start + t₁ • l.vector) - d ^ 2) :=
          mul_le_mul_of_nonneg_right (min_le_right _ _) hg
        _ < ε := by
          rw [div_mul_eq_mul_div, div_lt_iff₀ (by linarith)]
          nlinarith
  refine ⟨l.start + (t₀ + c * (t₁ - t₀)) • l.vector, ⟨_, ?_, rfl⟩, ?_⟩
  · have e : t₀ + c * (t₁ - t₀) = (1 - c) * t₀ + c * t₁ := by ring
    rw [e]
    cases hk : l.kind <;> rw [hk] at ht₀ ht₁ <;> simp only [Allowed, Reach] at ht₀ ht₁ ⊢
    · have := mul_nonneg (sub_nonneg.2 hc1) ht₀
      have := mul_nonneg hc0.le ht₁
      linarith
    · have := mul_nonneg (sub_nonneg.2 hc1) ht₀
      have := mul_pos hc0 ht₁
      linarith
    · have := mul_nonneg (sub_nonneg.2 hc1) ht₀.1
      have := mul_nonneg hc0.le ht₁.1
      have := mul_nonneg (sub_nonneg.2 hc1) (sub_nonneg.2 ht₀.2)
      have := mul_nonneg hc0.le (sub_nonneg.2 ht₁.2)
      exact ⟨by linarith, by linarith⟩
    · have := mul_nonneg (sub_nonneg.2 hc1) ht₀.1
      have := mul_pos hc0 ht₁.1
      have := mul_nonneg (sub_nonneg.2 hc1) (sub_nonneg.2 ht₀.2)
      have := mul_nonneg hc0.le (sub_nonneg.2 ht₁.2)
      exact ⟨by linarith, by linarith⟩
    · have := mul_nonneg (sub_nonneg.2 hc1) ht₀.1
      have := mul_pos hc0 ht₁.1
      have := mul_nonneg (sub_nonneg.2 hc1) (sub_nonneg.2 ht₀.2)
      have := mul_pos hc0 (sub_pos.2 ht₁.2)
      exact ⟨by linarith, by linarith⟩
  · have hconv : dist2 p (l.start + (t₀ + c * (t₁ - t₀)) • l.vector) ≤
        dist2 p (l.start + t₀ • l.vector) +
          c * (dist2 p (l.start + t₁ • l.vector) - dist2 p (l.start + t₀ • l.vector)) := by
      simp only [dist2_line]
      have := mul_nonneg (mul_nonneg (mul_nonneg hc0.le (sub_nonneg.2 hc1)) (sq_nonneg (t₁ - t₀)))
        (inner_self_nonneg l.vector)
      nlinarith
    rw [hq] at hconv
    linarith

/-- C64. The distance to a degenerate line, ray or segment divides zero by zero, wherever the point
is (although `nearest` handles degenerate rays and segments). -/
theorem distanceLine_degenerate_fails {sqrt : F → F} (hs : IsSqrt sqrt) (p : Vec F n) (l : Line F n)
    (hv : l.vector = 0) : distanceLine sqrt p l = none := by
  have h : ∀ u : Vec F n, inner u (0 : Vec F n) = 0 := fun u => by simp [inner]
  simp [distanceLine, hv, dot_eq, h, (norm_eq_zero' hs (0 : Vec F n)).2 rfl]

/-- C64. The nearest point of a non-degenerate plane. -/
theorem nearestPlane_correct (p : Vec F n) (pl : Plane F n) (hn : pl.normal ≠ 0) :
    ∃ q, nearestPlane p pl = some q ∧ Nearest (fun x => InPlane x pl) p q := by
  refine ⟨projectPlane p pl, ?_, (projectPlane_correct p pl hn).1, fun x hx => ?_⟩
  · rw [nearestPlane, if_neg]
    rw [dotSelf, dot_eq, inner_self_eq_zero]; exact hn
  · have ho := projectPlane_orthogonal p (projectPlane p pl) x pl hn
      (projectPlane_correct p pl hn).1 hx
    have e : p - x = (p - projectPlane p pl) + (projectPlane p pl - x) := by funext i; simp
    have hd : dist2 p x = dist2 p (projectPlane p pl) + dist2 (projectPlane p pl) x := by
      rw [dist2_eq p x, e, inner_add_left, inner_add_right, inner_add_right, ho,
        inner_comm (projectPlane p pl - x) (p - projectPlane p pl), ho, dist2_eq, dist2_eq]
      ring
    have h0 : 0 ≤ dist2 (projectPlane p pl) x := by rw [dist2_eq]; exact inner_self_nonneg _
    refine ⟨by linarith, fun h => ?_⟩
    have h0 : dist2 (projectPlane p pl) x = 0 := by linarith
    rw [dist2_eq, inner_self_eq_zero, sub_eq_zero] at h0
    exact h0.symm

theorem dist2_projectPlane (p : Vec F n) (pl : Plane F n) (hn : pl.normal ≠ 0) :
    dist2 p (projectPlane p pl) = pl.eval p ^ 2 / inner pl.normal pl.normal := by
  have hD := (inner_self_pos hn).ne'
  rw [dist2_eq, projectPlane, sub_sub_cancel, inner_smul_left, inner_smul_right, dotSelf, dot_eq]
  field_simp

/-- C64. The distance to a non-degenerate plane. -/
theorem distancePlane_correct {sqrt : F → F} (hs : IsSqrt sqrt) (p : Vec F n) (pl : Plane F n)
    (hn : pl.normal ≠ 0) :
    ∃ d, distancePlane sqrt p pl = some d ∧ IsDistance (fun x => InPlane x pl) p d := by
  obtain ⟨q, hq, h⟩ := nearestPlane_correct p pl hn
  have hq' : projectPlane p pl = q := by
    rw [nearestPlane, if_neg] at hq
    · exact Option.some.inj hq
    · rw [dotSelf, dot_eq, inner_self_eq_zero]; exact hn
  have hd : dist2 p q = (absValue (pl.eval p) / norm sqrt pl.normal) ^ 2 := by
    rw [← hq', dist2_projectPlane p pl hn, absValue_eq, div_pow, sq_abs, norm_sq hs]
  refine ⟨_, ?_, div_nonneg (by rw [absValue_eq]; exact abs_nonneg _) (norm_nonneg' hs _),
    ⟨q, h.1, hd⟩, fun x hx => hd ▸ (h.2 x hx).1⟩
  rw [distancePlane, if_neg]
  rw [degenerate_iff]
  intro h0
  exact hn (by simpa using h0)

/-- C64. The distance of two points is the non-negative root of the sum of squares; it is symmetric
and satisfies the triangle inequality. -/
theorem distancePoint_correct {sqrt : F → F} (hs : IsSqrt sqrt) (p q : Vec F n) :
    0 ≤ distancePoint sqrt p q ∧ distancePoint sqrt p q ^ 2 = dist2 p q ∧
      distancePoint sqrt q p = distancePoint sqrt p q ∧
      (distancePoint sqrt p q = 0 ↔ p = q) ∧
      ∀ r, distancePoint sqrt p r ≤ distancePoint sqrt p q + distancePoint sqrt q r := by
  refine ⟨norm_nonneg' hs _, by rw [distancePoint, norm_sq hs, dist2_eq], ?_, ?_, fun r => ?_⟩
  · rw [distancePoint, distancePoint, norm, norm]
    congr 1
    rw [dotSelf, dotSelf, dot_eq, dot_eq]
    exact Finset.sum_congr rfl fun i _ => by simp; ring
  · rw [distancePoint, norm_eq_zero' hs, sub_eq_zero]
  · simp only [distancePoint]
    have e : p - r = (p - q) + (q - r) := by funext i; simp
    have a0 := norm_nonneg' hs (p - q)
    have b0 := norm_nonneg' hs (q - r)
    refine abs_le_of_sq_le_sq' ?_ (add_nonneg a0 b0) |>.2
    have hc := cauchy (p - q) (q - r)
    rw [← norm_sq hs (p - q), ← norm_sq hs (q - r), ← mul_pow] at hc
    have hc' := (abs_le_of_sq_le_sq' hc (mul_nonneg a0 b0)).2
    rw [norm_sq hs, e, inner_add_left, inner_add_right, inner_add_right,
      inner_comm (q - r) (p - q), add_sq, norm_sq hs, norm_sq hs]
    linarith

end Actl.Geo
