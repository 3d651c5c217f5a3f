import Verif.Props.Area

/-!
# C54: the point-on-line test

In the plane `within(point, line)` is exact for lines, rays and segments of every kind, degenerate
ones included.  In every other dimension the overload of `orientation` for vectors of more (or
fewer) than two coordinates calls the zero vector "not collinear" with every other vector, so the
first point of a line is reported outside of it; for all other points the answer is right.
-/

namespace Actl.Geo

variable {F : Type*} [Field F] [LinearOrder F] [IsStrictOrderedRing F]

theorem area_eq_zero_iff {u v : Vec F 2} (hv : v ≠ 0) : area v u = 0 ↔ ∃ t : F, u = t • v := by
  constructor
  · intro h
    have h' : v 0 * u 1 = v 1 * u 0 := by simpa [area, sub_eq_zero] using h
    by_cases h0 : v 0 = 0
    · have h1 : v 1 ≠ 0 := fun h1 => hv (vec2_ext h0 h1)
      have hu : u 0 = 0 := by
        rw [h0, zero_mul] at h'
        exact (mul_eq_zero.1 h'.symm).resolve_left h1
      exact ⟨u 1 / v 1, vec2_ext (by simp [h0, hu]) (by simp [div_mul_cancel₀ _ h1])⟩
    · refine ⟨u 0 / v 0, vec2_ext (by simp [div_mul_cancel₀ _ h0]) ?_⟩
      simp only [Pi.smul_apply, smul_eq_mul]
      rw [div_mul_eq_mul_div, eq_div_iff h0]; linear_combination h'
  · rintro ⟨t, rfl⟩
    simp only [area, Pi.smul_apply, smul_eq_mul]; ring

theorem ofSign_collinear (x : F) : Turn.ofSign x = .collinear ↔ x = 0 := by
  unfold Turn.ofSign
  rcases lt_trichotomy x 0 with h | h | h
  · simp [h, h.ne]
  · subst h; simp
  · simp [h, h.ne', not_lt.2 h.le]

theorem collinear_two (l r : Vec F 2) : collinear l r = true ↔ area r l = 0 := by
  rw [collinear, decide_eq_true_eq, orientation, ofSign_collinear]

theorem minorsZero_iff {a b : F} (ha : a ≠ 0) (rest : Coords F) :
    minorsZero a b rest = true ↔ ∀ c ∈ rest, c.2 = b / a * c.1 := by
  simp only [minorsZero, List.all_eq_true, decide_eq_true_eq, orientation, ofSign_collinear]
  refine forall_congr' fun c => forall_congr' fun _ => ?_
  simp only [area, Matrix.cons_val_zero, Matrix.cons_val_one]
  rw [div_mul_eq_mul_div, eq_div_iff ha, sub_eq_zero]
  constructor <;> intro h <;> linear_combination -h

theorem collinearLoop_zero (cs : Coords F) (h : ∀ c ∈ cs, c.1 = 0) :
    collinearLoop cs = true ↔ ∀ c ∈ cs, c.2 = 0 := by
  induction cs with
  | nil => simp [collinearLoop]
  | cons c cs ih =>
    obtain ⟨a, b⟩ := c
    have ha : a = 0 := h (a, b) (List.mem_cons_self)
    simp only [collinearLoop, ha, if_true, List.forall_mem_cons]
    have ih' := ih fun c hc => h c (List.mem_cons_of_mem _ hc)
    by_cases hb : b = 0
    · simp [hb, ih']
    · simp [hb]

theorem collinearLoop_iff (cs : Coords F) (h : ∃ c ∈ cs, c.1 ≠ 0) :
    collinearLoop cs = true ↔ ∃ t : F, ∀ c ∈ cs, c.2 = t * c.1 := by
  induction cs with
  | nil => simp at h
  | cons c cs ih =>
    obtain ⟨a, b⟩ := c
    by_cases ha : a = 0
    · have h' : ∃ c ∈ cs, c.1 ≠ 0 := by
        obtain ⟨c, hc, hne⟩ := h
        rcases List.mem_cons.1 hc with rfl | hc
        · exact absurd ha hne
        · exact ⟨c, hc, hne⟩
      by_cases hb : b = 0
      · simp [collinearLoop, ha, hb, ih h']
      · simp [collinearLoop, ha, hb]
    · rw [collinearLoop, if_neg ha, minorsZero_iff ha]
      constructor
      · intro hm
        refine ⟨b / a, fun c hc => ?_⟩
        rcases List.mem_cons.1 hc with rfl | hc
        · exact (div_mul_cancel₀ b ha).symm
        · exact hm c hc
      · rintro ⟨t, ht⟩ c hc
        have h0 : b = t * a := ht (a, b) List.mem_cons_self
        rw [h0, mul_div_cancel_right₀ _ ha]
        exact ht c (List.mem_cons_of_mem _ hc)

theorem mem_zip_ofFn {n : Nat} {l r : Vec F n} {c : F × F} :
    c ∈ (List.ofFn l).zip (List.ofFn r) ↔ ∃ i, c = (l i, r i) := by
  rw [List.mem_iff_getElem]
  constructor
  · rintro ⟨i, hi, rfl⟩
    have : i < n := by simpa using hi
    exact ⟨⟨i, this⟩, by simp⟩
  · rintro ⟨i, rfl⟩
    exact ⟨i, by simp, by simp⟩

theorem collinear_other {n : Nat} (hn : n ≠ 2) (l r : Vec F n) :
    collinear l r = collinearLoop ((List.ofFn l).zip (List.ofFn r)) := by
  unfold collinear
  split
  · exact absurd rfl hn
  · rfl

/-- In a dimension other than two: a non-zero first vector is tested correctly. -/
theorem collinear_other_iff {n : Nat} (hn : n ≠ 2) {l r : Vec F n} (hl : l ≠ 0) :
    collinear l r = true ↔ ∃ t : F, r = t • l := by
  rw [collinear_other hn, collinearLoop_iff]
  · refine exists_congr fun t => ?_
    constructor
    · intro h; funext i; exact h (l i, r i) (mem_zip_ofFn.2 ⟨i, rfl⟩)
    · rintro rfl c hc
      obtain ⟨i, rfl⟩ := mem_zip_ofFn.1 hc
      rfl
  · by_contra hc
    push Not at hc
    exact hl (funext fun i => hc (l i, r i) (mem_zip_ofFn.2 ⟨i, rfl⟩))

/-- In a dimension other than two: the zero vector counts as collinear only with itself. -/
theorem collinear_other_zero {n : Nat} (hn : n ≠ 2) (r : Vec F n) :
    collinear 0 r = true ↔ r = 0 := by
  rw [collinear_other hn, collinearLoop_zero]
  · constructor
    · intro h; funext i; exact h (0, r i) (mem_zip_ofFn.2 ⟨i, rfl⟩)
    · rintro rfl c hc
      obtain ⟨i, rfl⟩ := mem_zip_ofFn.1 hc
      rfl
  · intro c hc
    obtain ⟨i, rfl⟩ := mem_zip_ofFn.1 hc
    rfl

theorem smul_vec_eq_zero {n : Nat} {t : F} {v : Vec F n} : t • v = 0 ↔ t = 0 ∨ v = 0 := by
  constructor
  · intro h
    by_cases ht : t = 0
    · exact Or.inl ht
    · right; funext i
      have : t * v i = 0 := congrFun h i
      exact (mul_eq_zero.1 this).resolve_left ht
  · rintro (rfl | rfl) <;> simp

/-- On the carrier of the line the endpoint test decides the parameter. -/
theorem betweenEndpoints_iff {n : Nat} (l : Line F n) (hv : l.vector ≠ 0) (t : F) :
    betweenEndpoints (l.start + t • l.vector) l = true ↔ Allowed l.kind t := by
  have hD := inner_self_pos hv
  set D := inner l.vector l.vector
  have e1 : dot (l.start + t • l.vector - l.start) l.vector = t * D := by
    rw [dot_eq, add_sub_cancel_left, inner_smul_left]
  have e2 : dot (l.start - (l.start + t • l.vector)) (l.start + t • l.vector - l.stop) =
      t * (1 - t) * D := by
    rw [dot_eq, Line.stop]
    have a1 : l.start - (l.start + t • l.vector) = (-t) • l.vector := by
      funext i; simp
    have a2 : l.start + t • l.vector - (l.start + l.vector) = (t - 1) • l.vector := by
      funext i; simp; ring
    rw [a1, a2, inner_smul_left, inner_smul_right]
    show _ = t * (1 - t) * inner l.vector l.vector
    ring
  have e3 : isEqual (l.start + t • l.vector) l.start = true ↔ t = 0 := by
    rw [isEqual_iff, add_eq_left, smul_vec_eq_zero]
    exact or_iff_left hv
  have neg1 : ∀ x : F, x * D < 0 ↔ x < 0 := fun x => by
    constructor
    · intro h; by_contra hx; exact absurd h (not_lt.2 (mul_nonneg (not_lt.1 hx) hD.le))
    · intro h; exact mul_neg_of_neg_of_pos h hD
  have pos1 : ∀ x : F, 0 < x * D ↔ 0 < x := fun x => mul_pos_iff_of_pos_right hD
  have seg : ¬ t * (1 - t) < 0 ↔ 0 ≤ t ∧ t ≤ 1 := by
    constructor
    · intro h
      constructor <;> by_contra hc <;> exact h (by nlinarith)
    · rintro ⟨h0, h1⟩; exact not_lt.2 (mul_nonneg h0 (sub_nonneg.2 h1))
  have segO : 0 < t * (1 - t) ↔ 0 < t ∧ t < 1 := by
    constructor
    · intro h
      constructor <;> by_contra hc <;> nlinarith
    · rintro ⟨h0, h1⟩; exact mul_pos h0 (sub_pos.2 h1)
  unfold betweenEndpoints
  cases hk : l.kind
  · simp [LineKind.last, LineKind.first, LineKind.val, combine, Endpoint.val, Endpoint.ofVal,
      endpointTest, Allowed]
  · simp [LineKind.last, LineKind.first, LineKind.val, combine, Endpoint.val, Endpoint.ofVal,
      endpointTest, Allowed, e1, neg1, -add_sub_cancel_left]
  · simp [LineKind.last, LineKind.first, LineKind.val, combine, Endpoint.val, Endpoint.ofVal,
      endpointTest, Allowed, e1, pos1, -add_sub_cancel_left]
  · simp only [LineKind.last, LineKind.val, combine, Endpoint.val, Endpoint.ofVal,
      endpointTest, Allowed, e2]
    simp [neg1, seg, -not_lt, Endpoint.ofVal]
  · simp only [LineKind.last, LineKind.val, combine, Endpoint.val, Endpoint.ofVal,
      endpointTest, Allowed, e2, e3]
    by_cases h0 : t = 0
    · simp [h0, Endpoint.ofVal]
    · simp only [Endpoint.ofVal, neg1]
      simp [h0, seg, -not_lt]
      exact fun _ => ⟨fun h => lt_of_le_of_ne h (Ne.symm h0), fun h => h.le⟩
  · simp only [LineKind.last, LineKind.val, combine, Endpoint.val, Endpoint.ofVal,
      endpointTest, Allowed, e2]
    simp [pos1, segO, Endpoint.ofVal]

theorem allowed_exists (k : LineKind) : ∃ t : F, Allowed k t := by
  cases k
  · exact ⟨0, trivial⟩
  · exact ⟨0, le_refl _⟩
  · exact ⟨1, one_pos⟩
  · exact ⟨0, le_refl _, zero_le_one⟩
  · exact ⟨1, one_pos, le_refl _⟩
  · exact ⟨1 / 2, by norm_num, by norm_num⟩

theorem on_degenerate {n : Nat} (p : Vec F n) (l : Line F n) (hv : l.vector = 0) :
    On p l ↔ p = l.start := by
  unfold On
  rw [hv]
  simp only [smul_zero, add_zero]
  constructor
  · rintro ⟨_, _, h⟩; exact h
  · intro h; obtain ⟨t, ht⟩ := allowed_exists (F := F) l.kind; exact ⟨t, ht, h⟩

theorem on_carrier {n : Nat} (l : Line F n) (hv : l.vector ≠ 0) (t : F) :
    On (l.start + t • l.vector) l ↔ Allowed l.kind t := by
  constructor
  · rintro ⟨s, hs, h⟩
    have h' : t • l.vector = s • l.vector := add_left_cancel h
    have : (t - s) • l.vector = 0 := by rw [sub_smul, h', sub_self]
    rcases smul_vec_eq_zero.1 this with h0 | h0
    · rw [sub_eq_zero.1 h0]; exact hs
    · exact absurd h0 hv
  · intro h; exact ⟨t, h, rfl⟩

theorem withinLine_of_collinear {n : Nat} (p : Vec F n) (l : Line F n) (hv : l.vector ≠ 0)
    (hc : collinear (p - l.start) l.vector = true ↔ ∃ t : F, p - l.start = t • l.vector) :
    withinLine p l = .border ↔ On p l := by
  have hd : ¬ degenerate l.vector = true := fun h => hv ((degenerate_iff _).1 h)
  unfold withinLine
  rw [if_neg hd]
  by_cases h : collinear (p - l.start) l.vector = true
  · obtain ⟨t, ht⟩ := hc.1 h
    have hp : p = l.start + t • l.vector := by rw [← ht]; simp
    simp only [h, Bool.not_true, Bool.false_eq_true, if_false]
    rw [hp, on_carrier l hv t, ← betweenEndpoints_iff l hv t]
    by_cases hb : betweenEndpoints (l.start + t • l.vector) l = true <;> simp [hb]
  · have hn : ¬ On p l := by
      rintro ⟨t, _, rfl⟩
      exact h (hc.2 ⟨t, by simp⟩)
    simp [h, hn]

theorem withinLine_degenerate {n : Nat} (p : Vec F n) (l : Line F n) (hv : l.vector = 0) :
    withinLine p l = .border ↔ On p l := by
  rw [on_degenerate p l hv, withinLine, if_pos ((degenerate_iff _).2 hv), ← isEqual_iff]
  by_cases h : isEqual p l.start = true <;> simp [h]

/-- C54, in the plane. For every point and every line, ray or segment with any endpoints,
degenerate ones included: the answer is `border` when the point lies on it and `outside`
otherwise. -/
theorem withinLine_plane (p : Vec F 2) (l : Line F 2) :
    (withinLine p l = .border ↔ On p l) ∧ (withinLine p l = .outside ↔ ¬ On p l) := by
  have hb : withinLine p l = .border ↔ On p l := by
    by_cases hv : l.vector = 0
    · exact withinLine_degenerate p l hv
    · exact withinLine_of_collinear p l hv (by rw [collinear_two, area_eq_zero_iff hv])
  have hor : withinLine p l = .border ∨ withinLine p l = .outside := by
    unfold withinLine; split <;> split <;> simp
  refine ⟨hb, ?_⟩
  rw [← hb]
  rcases hor with h | h <;> simp [h]

example :
    let seg : Line Int 2 := ⟨![0, 0], ![4, 2], .halfOpenSegment⟩
    withinLine ![2, 1] seg = .border ∧ withinLine ![4, 2] seg = .border ∧
      withinLine ![0, 0] seg = .outside ∧ withinLine ![6, 3] seg = .outside ∧
      withinLine ![2, 2] seg = .outside := by decide +kernel

/-- C54, outside the plane. In every dimension other than two, `within(point, line)` is exact
except at one point: the first point of a line that is not degenerate.  (Missing for the full claim:
that point, on which the code is wrong, see `withinLine_start_fails`.) -/
theorem withinLine_space_partial {n : Nat} (hn : n ≠ 2) (p : Vec F n) (l : Line F n)
    (h : l.vector = 0 ∨ p ≠ l.start) : withinLine p l = .border ↔ On p l := by
  by_cases hv : l.vector = 0
  · exact withinLine_degenerate p l hv
  · have hp : p - l.start ≠ 0 := sub_ne_zero.2 (h.resolve_left hv)
    refine withinLine_of_collinear p l hv ?_
    rw [collinear_other_iff hn hp]
    constructor
    · rintro ⟨t, ht⟩
      have ht0 : t ≠ 0 := by rintro rfl; rw [zero_smul] at ht; exact hv ht
      exact ⟨t⁻¹, by rw [ht, smul_smul, inv_mul_cancel₀ ht0, one_smul]⟩
    · rintro ⟨t, ht⟩
      have ht0 : t ≠ 0 := by rintro rfl; rw [zero_smul] at ht; exact hp ht
      exact ⟨t⁻¹, by rw [ht, smul_smul, inv_mul_cancel₀ ht0, one_smul]⟩

/-- C54 is false outside the plane: in every dimension other than two the first point of every
non-degenerate line is reported outside, although it lies on every full line, closed ray and closed
segment. -/
theorem withinLine_start_fails {n : Nat} (hn : n ≠ 2) (l : Line F n) (hv : l.vector ≠ 0) :
    withinLine l.start l = .outside ∧
      (l.kind = .free ∨ l.kind = .closedRay ∨ l.kind = .closedSegment → On l.start l) := by
  constructor
  · have hd : ¬ degenerate l.vector = true := fun h => hv ((degenerate_iff _).1 h)
    have hc : ¬ collinear (l.start - l.start) l.vector = true := by
      rw [sub_self, collinear_other_zero hn]; exact hv
    simp [withinLine, hd, hc, -sub_self]
  · intro hk
    refine ⟨0, ?_, by simp⟩
    rcases hk with hk | hk | hk <;> simp [hk, Allowed]

example : withinLine (![1, 2, 3] : Vec Int 3) ⟨![1, 2, 3], ![1, 0, 0], .closedSegment⟩ = .outside ∧
    withinLine (![2, 2, 3] : Vec Int 3) ⟨![1, 2, 3], ![1, 0, 0], .closedSegment⟩ = .border := by
  decide +kernel

/-- Point on a plane (or planar line given by its equation), every dimension: `border` exactly when
the equation holds. -/
theorem withinPlane_correct {n : Nat} (p : Vec F n) (pl : Plane F n) :
    (withinPlane p pl = .border ↔ InPlane p pl) ∧ (withinPlane p pl = .outside ↔ ¬ InPlane p pl) := by
  unfold withinPlane InPlane
  have e : pl.eval p = 0 ↔ inner pl.normal p = pl.d := by rw [Plane.eval, dot_eq, sub_eq_zero]
  by_cases h : inner pl.normal p = pl.d <;> simp [h, e]

/-- The plane made from two points (of the plane) or three points (of space) contains them. -/
theorem makePlane_contains (a b : Vec F 2) (x y z : Vec F 3) :
    InPlane a (makePlane2d a b) ∧ InPlane b (makePlane2d a b) ∧
      InPlane x (makePlane3d x y z) ∧ InPlane y (makePlane3d x y z) ∧
      InPlane z (makePlane3d x y z) := by
  refine ⟨?_, ?_, ?_, ?_, ?_⟩
  all_goals
    simp only [InPlane, makePlane2d, makePlane3d, Plane.throughPoint, dot_eq, inner,
      Fin.sum_univ_two, Fin.sum_univ_three, perpendicular, cross, Pi.sub_apply,
      Matrix.cons_val_zero, Matrix.cons_val_one, Matrix.cons_val]
    try ring

end Actl.Geo
