import Verif.Props.Area

/-!
# C53: the point-in-triangle test

Exact for every point and every triangle of non-zero area, whatever the order of its vertices.
-/

namespace Actl.Geo

variable {F : Type*} [Field F] [LinearOrder F] [IsStrictOrderedRing F]

/-- Every point is a combination of the vertices of a non-degenerate triangle in exactly one way. -/
theorem combination_unique (p a b c : Vec F 2) (h : polyArea [a, b, c] ≠ 0) :
    ∃! w : F × F × F, Combination p a b c w.1 w.2.1 w.2.2 := by
  rw [polyArea_triangle] at h
  have hd : (b 0 - a 0) * (c 1 - a 1) - (b 1 - a 1) * (c 0 - a 0) ≠ 0 := by
    simpa [area] using h
  set D := (b 0 - a 0) * (c 1 - a 1) - (b 1 - a 1) * (c 0 - a 0) with hD
  refine ⟨(area (c - b) (p - b) / D, area (a - c) (p - c) / D, area (b - a) (p - a) / D),
    ⟨?_, vec2_ext ?_ ?_⟩, ?_⟩
  · simp only [area, Pi.sub_apply]
    rw [← add_div, ← add_div, div_eq_one_iff_eq hd, hD]; ring
  · simp only [area, Pi.sub_apply, Pi.add_apply, Pi.smul_apply, smul_eq_mul]
    field_simp
    rw [hD]; ring
  · simp only [area, Pi.sub_apply, Pi.add_apply, Pi.smul_apply, smul_eq_mul]
    field_simp
    rw [hD]; ring
  · rintro ⟨x, y, z⟩ ⟨h1, h2⟩
    have e0 : p 0 = x * a 0 + y * b 0 + z * c 0 := by simpa using congrFun h2 0
    have e1 : p 1 = x * a 1 + y * b 1 + z * c 1 := by simpa using congrFun h2 1
    have hx : x = 1 - y - z := by simp only at h1; linear_combination h1
    simp only [Prod.mk.injEq, area, Pi.sub_apply]
    refine ⟨?_, ?_, ?_⟩ <;>
      (rw [eq_div_iff hd, e0, e1, hx, hD]; ring)

theorem ofSign_mul_pos (x d : F) (hd : 0 < d) : Turn.ofSign (x * d) = Turn.ofSign x := by
  simp only [Turn.ofSign, mul_pos_iff_of_pos_right hd]
  have : x * d < 0 ↔ x < 0 := by
    constructor
    · intro h; by_contra hx; exact absurd h (not_lt.2 (mul_nonneg (not_lt.1 hx) hd.le))
    · intro h; exact mul_neg_of_neg_of_pos h hd
  simp only [this]

/-- The verdict from three signs. -/
theorem signs_verdict (x y z : F) (p a b c : Vec F 2) (d : F) (hd : d ≠ 0)
    (h0 : area (b - a) (p - a) = z * d) (h1 : area (c - b) (p - b) = x * d)
    (h2 : area (a - c) (p - c) = y * d) (hs : x + y + z = 1) :
    withinTriangle p a b c = if 0 < x ∧ 0 < y ∧ 0 < z then .inside
      else if 0 ≤ x ∧ 0 ≤ y ∧ 0 ≤ z then .border else .outside := by
  simp only [withinTriangle, orientation3, orientation, h0, h1, h2]
  rcases lt_or_gt_of_ne hd with hd | hd
  · have e : ∀ x : F, Turn.ofSign (x * d) = (Turn.ofSign x).neg := by
      intro x
      rw [← ofSign_neg, ← ofSign_mul_pos (-x) (-d) (neg_pos.2 hd), neg_mul_neg]
    simp only [e]
    rcases lt_trichotomy x 0 with hx | hx | hx <;> rcases lt_trichotomy y 0 with hy | hy | hy <;>
      rcases lt_trichotomy z 0 with hz | hz | hz <;>
      first
      | (exfalso; linarith)
      | simp [Turn.ofSign, Turn.neg, hx, hy, hz, hx.le, hy.le, hz.le, not_lt.2, not_le.2]
  · simp only [ofSign_mul_pos _ d hd]
    rcases lt_trichotomy x 0 with hx | hx | hx <;> rcases lt_trichotomy y 0 with hy | hy | hy <;>
      rcases lt_trichotomy z 0 with hz | hz | hz <;>
      first
      | (exfalso; linarith)
      | simp [Turn.ofSign, Turn.neg, hx, hy, hz, hx.le, hy.le, hz.le, not_lt.2, not_le.2]

/-- C53. For a triangle of non-zero area (either vertex order), with the point written as the
combination `x • a + y • b + z • c` of the vertices: the answer is `inside` exactly when the three
coefficients are positive, `border` exactly when none is negative and one is zero, and `outside`
exactly when one is negative. -/
theorem withinTriangle_correct (p a b c : Vec F 2) (x y z : F) (h : polyArea [a, b, c] ≠ 0)
    (hw : Combination p a b c x y z) :
    (withinTriangle p a b c = .inside ↔ 0 < x ∧ 0 < y ∧ 0 < z) ∧
      (withinTriangle p a b c = .border ↔
        (0 ≤ x ∧ 0 ≤ y ∧ 0 ≤ z) ∧ (x = 0 ∨ y = 0 ∨ z = 0)) ∧
      (withinTriangle p a b c = .outside ↔ x < 0 ∨ y < 0 ∨ z < 0) := by
  obtain ⟨hs, hp⟩ := hw
  rw [polyArea_triangle] at h
  have e0 : p 0 = x * a 0 + y * b 0 + z * c 0 := by simpa using congrFun hp 0
  have e1 : p 1 = x * a 1 + y * b 1 + z * c 1 := by simpa using congrFun hp 1
  have hx : x = 1 - y - z := by linear_combination hs
  rw [signs_verdict x y z p a b c (area (b - a) (c - a)) h
    (by simp only [area, Pi.sub_apply, e0, e1, hx]; ring)
    (by simp only [area, Pi.sub_apply, e0, e1, hx]; ring)
    (by simp only [area, Pi.sub_apply, e0, e1, hx]; ring) hs]
  clear hx e0 e1 hp
  split
  · next hpos =>
    obtain ⟨h1, h2, h3⟩ := hpos
    simp [h1, h2, h3, h1.ne', h2.ne', h3.ne', not_lt.2 h1.le, not_lt.2 h2.le, not_lt.2 h3.le]
  · next hpos =>
    split
    · next hnn =>
      obtain ⟨h1, h2, h3⟩ := hnn
      have hz : x = 0 ∨ y = 0 ∨ z = 0 := by
        by_contra hc
        push Not at hc
        exact hpos ⟨lt_of_le_of_ne h1 hc.1.symm, lt_of_le_of_ne h2 hc.2.1.symm,
          lt_of_le_of_ne h3 hc.2.2.symm⟩
      refine ⟨⟨fun e => by simp at e, fun e => absurd e hpos⟩,
        ⟨fun _ => ⟨⟨h1, h2, h3⟩, hz⟩, fun _ => rfl⟩, ⟨fun e => by simp at e, fun e => ?_⟩⟩
      rcases e with e | e | e
      · exact absurd h1 (not_le.2 e)
      · exact absurd h2 (not_le.2 e)
      · exact absurd h3 (not_le.2 e)
    · next hnn =>
      refine ⟨⟨fun e => by simp at e, fun e => absurd e hpos⟩,
        ⟨fun e => by simp at e, fun e => absurd e.1 hnn⟩, ⟨fun _ => ?_, fun _ => rfl⟩⟩
      by_contra hc
      push Not at hc
      exact hnn hc

example : polyArea ([![0, 0], ![0, 4], ![4, 0]] : List (Vec Int 2)) ≠ 0 ∧
    withinTriangle (![1, 1] : Vec Int 2) ![0, 0] ![0, 4] ![4, 0] = .inside ∧
    withinTriangle (![2, 2] : Vec Int 2) ![0, 0] ![0, 4] ![4, 0] = .border ∧
    withinTriangle (![0, 4] : Vec Int 2) ![0, 0] ![0, 4] ![4, 0] = .border ∧
    withinTriangle (![0, 5] : Vec Int 2) ![0, 0] ![0, 4] ![4, 0] = .outside := by decide +kernel

/-- C53, the hypothesis on the area is needed: for three vertices on one line every point of that
line is reported inside. -/
theorem withinTriangle_degenerate (a v : Vec F 2) (s t u : F) :
    withinTriangle (a + u • v) a (a + s • v) (a + t • v) = .inside := by
  have h : ∀ x y z : F, orientation3 (a + x • v) (a + y • v) (a + z • v) = .collinear := by
    intro x y z
    have : area (a + y • v - (a + z • v)) (a + x • v - (a + z • v)) = 0 := by
      simp only [area, Pi.sub_apply, Pi.add_apply, Pi.smul_apply, smul_eq_mul]; ring
    rw [orientation3, orientation, this]; simp [Turn.ofSign]
  have h0 := h u s 0
  have h1 := h u t s
  have h2 := h u 0 t
  rw [zero_smul, add_zero] at h0 h2
  simp [withinTriangle, h0, h1, h2]

end Actl.Geo
