import Verif.Props.Distance

/-!
# C64: points and spheres, crossing spheres and planes

`crosses(plane, sphere)` is inverted: it is true for the planes that miss the sphere.
-/

namespace Actl.Geo

variable {F : Type*} [Field F] [LinearOrder F] [IsStrictOrderedRing F] {n : Nat}

/-- C64. A point is inside, on, or outside a sphere as its squared distance from the centre is less
than, equal to, or greater than the square of the radius. -/
theorem withinSphere_correct {sqrt : F → F} (hs : IsSqrt sqrt) (p : Vec F n) (s : Sphere F n)
    (hr : 0 ≤ s.radius) :
    (withinSphere sqrt p s = .inside ↔ dist2 p s.center < s.radius ^ 2) ∧
      (withinSphere sqrt p s = .border ↔ dist2 p s.center = s.radius ^ 2) ∧
      (withinSphere sqrt p s = .outside ↔ s.radius ^ 2 < dist2 p s.center) ∧
      (crossesPointSphere sqrt p s = true ↔ OnSphere p s) := by
  obtain ⟨h0, h1, _⟩ := distancePoint_correct hs p s.center
  have e1 := pow_lt_pow_iff_left₀ h0 hr (n := 2) (by norm_num)
  have e2 := pow_lt_pow_iff_left₀ hr h0 (n := 2) (by norm_num)
  rw [h1] at e1 e2
  have hb : withinSphere sqrt p s = .border ↔ dist2 p s.center = s.radius ^ 2 := by
    rw [withinSphere, Within.ofCompare]
    split_ifs with a b
    · simp [(e1.2 a).ne]
    · simp [(e2.2 b).ne']
    · simp only [true_iff]
      exact le_antisymm (not_lt.1 fun h => b (e2.1 h)) (not_lt.1 fun h => a (e1.1 h))
  refine ⟨?_, hb, ?_, ?_⟩
  · rw [e1, withinSphere, Within.ofCompare]
    split_ifs with a b <;> simp [a]
  · rw [e2, withinSphere, Within.ofCompare]
    split_ifs with a b
    · simp [a.le]
    · simp [b]
    · simp only [reduceCtorEq, false_iff]; exact b
  · rw [crossesPointSphere, decide_eq_true_eq, hb]; rfl

/-- C64. A point crosses a plane when it lies in it. -/
theorem crossesPointPlane_correct (p : Vec F n) (pl : Plane F n) :
    crossesPointPlane p pl = true ↔ InPlane p pl := by
  rw [crossesPointPlane, decide_eq_true_eq]
  unfold withinPlane InPlane
  rw [Plane.eval, dot_eq]
  split_ifs with h
  · simp [sub_eq_zero.1 h]
  · simp only [reduceCtorEq, false_iff]; intro h'; exact h (by rw [h', sub_self])

/-- A vector perpendicular to a given one, in two dimensions and more. -/
theorem exists_perpendicular (hn : 2 ≤ n) (v : Vec F n) : ∃ w : Vec F n, w ≠ 0 ∧ inner v w = 0 := by
  rcases eq_or_ne v 0 with rfl | hv
  · refine ⟨fun i => if i = ⟨0, by omega⟩ then 1 else 0, ?_, by simp [inner]⟩
    intro h
    have := congrFun h ⟨0, by omega⟩
    simp at this
  · obtain ⟨i, hi⟩ : ∃ i, v i ≠ 0 := by
      by_contra hc; push Not at hc; exact hv (funext hc)
    obtain ⟨j, hj⟩ : ∃ j : Fin n, j ≠ i := by
      by_cases h : i = ⟨0, by omega⟩
      · exact ⟨⟨1, by omega⟩, by rw [h]; simp⟩
      · exact ⟨⟨0, by omega⟩, fun e => h e.symm⟩
    refine ⟨fun k => if k = j then v i else if k = i then -v j else 0, ?_, ?_⟩
    · intro h
      have := congrFun h j
      simp at this
      exact hi this
    · rw [inner]
      have : ∀ k, v k * (if k = j then v i else if k = i then -v j else 0) =
          (if k = j then v j * v i else 0) + (if k = i then -(v i * v j) else 0) := by
        intro k
        by_cases h1 : k = j
        · subst h1; simp [hj]
        · by_cases h2 : k = i
          · subst h2; simp [h1]
          · simp [h1, h2]
      simp only [this, Finset.sum_add_distrib, Finset.sum_ite_eq', Finset.mem_univ, if_true]
      ring

/-- In two dimensions and more, a hyperplane meets a sphere when the squared distance of the centre
is at most the square of the radius. -/
theorem exists_at_distance {sqrt : F → F} (hs : IsSqrt sqrt) (hn : 2 ≤ n) (v : Vec F n) {x : F}
    (hx : 0 ≤ x) : ∃ w : Vec F n, inner v w = 0 ∧ inner w w = x := by
  obtain ⟨w, hw, hvw⟩ := exists_perpendicular hn v
  have hN := (inner_self_pos hw)
  refine ⟨(sqrt x / norm sqrt w) • w, by rw [inner_smul_right, hvw, mul_zero], ?_⟩
  rw [inner_smul_left, inner_smul_right, ← mul_assoc, ← sq, div_pow, norm_sq hs, sq,
    (hs x hx).2, div_mul_cancel₀ _ hN.ne']

/-- C64. Two spheres (of radius at least zero, in two dimensions or more) are reported to cross
exactly when their surfaces have a common point. -/
theorem crossesSpheres_correct {sqrt : F → F} (hs : IsSqrt sqrt) (hn : 2 ≤ n) (l r : Sphere F n)
    (hl : 0 ≤ l.radius) (hr : 0 ≤ r.radius) :
    crossesSpheres sqrt l r = true ↔ ∃ x, OnSphere x l ∧ OnSphere x r := by
  obtain ⟨h0, h1, _, h2, _⟩ := distancePoint_correct hs l.center r.center
  unfold crossesSpheres
  simp only [absValue_eq, Bool.and_eq_true, Bool.not_eq_true', decide_eq_false_iff_not, not_lt]
  constructor
  · rintro ⟨ha, hb⟩
    have hsq1 := mul_self_le_mul_self (abs_nonneg _) ha
    have hsq2 := mul_self_le_mul_self h0 hb
    rw [abs_mul_abs_self, ← sq (distancePoint _ _ _), h1] at hsq1
    rw [← sq (distancePoint _ _ _), h1] at hsq2
    rcases eq_or_ne l.center r.center with hc | hc
    · rw [h2.2 hc] at ha
      have he : l.radius = r.radius := sub_eq_zero.1 (abs_eq_zero.1 (le_antisymm ha (abs_nonneg _)))
      obtain ⟨w, _, hw⟩ := exists_at_distance hs hn (0 : Vec F n) (sq_nonneg l.radius)
      refine ⟨l.center + w, ?_, ?_⟩
      · rw [OnSphere, dist2_eq, add_sub_cancel_left, hw]
      · rw [OnSphere, dist2_eq, ← hc, add_sub_cancel_left, hw, he]
    · have hv : r.center - l.center ≠ 0 := sub_ne_zero.2 hc.symm
      have hD := inner_self_pos hv
      have hd : dist2 l.center r.center = inner (r.center - l.center) (r.center - l.center) := by
        rw [dist2_eq]; exact Finset.sum_congr rfl fun i _ => by simp; ring
      rw [hd] at hsq1 hsq2
      obtain ⟨v, hvdef⟩ : ∃ v, v = r.center - l.center := ⟨_, rfl⟩
      rw [← hvdef] at hD hsq1 hsq2
      obtain ⟨D, hDdef⟩ : ∃ D, D = inner v v := ⟨_, rfl⟩
      rw [← hDdef] at hD hsq1 hsq2
      obtain ⟨a, hadef⟩ : ∃ a, a * (2 * D) = D + l.radius ^ 2 - r.radius ^ 2 :=
        ⟨(D + l.radius ^ 2 - r.radius ^ 2) / (2 * D), div_mul_cancel₀ _ (by positivity)⟩
      have hx : 0 ≤ l.radius ^ 2 - a ^ 2 * D := by
        have e : 4 * D * (l.radius ^ 2 - a ^ 2 * D) =
            ((l.radius + r.radius) * (l.radius + r.radius) - D) *
              (D - (l.radius - r.radius) * (l.radius - r.radius)) := by
          linear_combination (-(a * (2 * D)) - (D + l.radius ^ 2 - r.radius ^ 2)) * hadef
        have := mul_nonneg (sub_nonneg.2 hsq2) (sub_nonneg.2 hsq1)
        rw [← e] at this
        exact (mul_nonneg_iff_of_pos_left (by positivity)).1 this
      obtain ⟨w, hw0, hw⟩ := exists_at_distance hs hn v hx
      have hw0' : inner w v = 0 := by rw [inner_comm]; exact hw0
      refine ⟨l.center + (a • v + w), ?_, ?_⟩
      · rw [OnSphere, dist2_eq, add_sub_cancel_left, inner_add_left, inner_add_right,
          inner_add_right, hw, inner_smul_left, inner_smul_left, inner_smul_right,
          inner_smul_right, hw0, hw0', ← hDdef]
        ring
      · have e : l.center + (a • v + w) - r.center = (a - 1) • v + w := by
          rw [hvdef]; funext i; simp; ring
        rw [OnSphere, dist2_eq, e, inner_add_left, inner_add_right,
          inner_add_right, hw, inner_smul_left, inner_smul_left, inner_smul_right,
          inner_smul_right, hw0, hw0', ← hDdef]
        linear_combination -hadef
  · rintro ⟨x, hxl, hxr⟩
    rw [OnSphere, dist2_eq] at hxl hxr
    have hc := cauchy (x - l.center) (x - r.center)
    rw [hxl, hxr, ← mul_pow] at hc
    obtain ⟨c1, c2⟩ := abs_le_of_sq_le_sq' hc (mul_nonneg hl hr)
    have e : l.center - r.center = (x - r.center) - (x - l.center) := by funext i; simp
    have hd : dist2 l.center r.center = l.radius ^ 2 + r.radius ^ 2 -
        2 * inner (x - l.center) (x - r.center) := by
      rw [dist2_eq, e]
      generalize x - r.center = b at *
      generalize x - l.center = a at *
      rw [inner_sub_left, inner_sub_right, inner_sub_right, hxl, hxr, inner_comm b a]
      ring
    rw [hd] at h1
    constructor
    · refine abs_le_of_sq_le_sq ?_ h0
      rw [h1]; nlinarith
    · refine (abs_le_of_sq_le_sq' ?_ (add_nonneg hl hr)).2
      rw [h1]; nlinarith

/-- C64. On a line (one dimension) the same test is wrong for every two "spheres" that overlap
properly: they have no common point although they are reported to cross. -/
theorem crossesSpheres_line_fails {sqrt : F → F} (hs : IsSqrt sqrt) (l r : Sphere F 1)
    (h1 : |l.radius - r.radius| < distancePoint sqrt l.center r.center)
    (h2 : distancePoint sqrt l.center r.center < l.radius + r.radius) :
    crossesSpheres sqrt l r = true ∧ ¬ ∃ x, OnSphere x l ∧ OnSphere x r := by
  refine ⟨?_, ?_⟩
  · simp only [crossesSpheres, absValue_eq, Bool.and_eq_true, Bool.not_eq_true',
      decide_eq_false_iff_not, not_lt]
    exact ⟨h1.le, h2.le⟩
  · rintro ⟨x, hl, hr⟩
    obtain ⟨h0, hd, _⟩ := distancePoint_correct hs l.center r.center
    have hs1 : |l.radius - r.radius| ^ 2 < dist2 l.center r.center := by
      rw [← hd]; exact pow_lt_pow_left₀ h1 (abs_nonneg _) (by norm_num)
    have hs2 : dist2 l.center r.center < (l.radius + r.radius) ^ 2 := by
      rw [← hd]; exact pow_lt_pow_left₀ h2 h0 (by norm_num)
    rw [sq_abs] at hs1
    simp only [OnSphere, dist2, Finset.univ_unique, Fin.default_eq_zero, Finset.sum_singleton]
      at hl hr hs1 hs2
    have e : l.center 0 - r.center 0 = (x 0 - r.center 0) - (x 0 - l.center 0) := by ring
    rw [e] at hs1 hs2
    generalize x 0 - r.center 0 = b at *
    generalize x 0 - l.center 0 = a at *
    rcases sq_eq_sq_iff_eq_or_eq_neg.1 hl with h | h <;>
      rcases sq_eq_sq_iff_eq_or_eq_neg.1 hr with h' | h' <;> subst h <;> rw [h'] at hs1 hs2 <;>
        nlinarith

example : crossesSpheres Real.sqrt (⟨![0, 0], 3⟩ : Sphere ℝ 2) ⟨![0, 4], 2⟩ = true := by
  rw [crossesSpheres_correct isSqrt_real (le_refl 2) _ _ (by norm_num) (by norm_num)]
  refine ⟨![Real.sqrt (9 - (21 / 8) ^ 2), 21 / 8], ?_, ?_⟩ <;>
    simp only [OnSphere, dist2, Fin.sum_univ_two, Matrix.cons_val_zero, Matrix.cons_val_one,
      sub_zero] <;>
    rw [Real.sq_sqrt (by norm_num)] <;> norm_num

/-- C64. What the right answer for a plane and a sphere is, in two dimensions or more. -/
theorem plane_meets_sphere {sqrt : F → F} (hs : IsSqrt sqrt) (hn : 2 ≤ n) (pl : Plane F n)
    (s : Sphere F n) (hp : pl.normal ≠ 0) (hr : 0 ≤ s.radius) :
    (∃ x, InPlane x pl ∧ OnSphere x s) ↔
      |pl.eval s.center| ≤ s.radius * norm sqrt pl.normal := by
  have hD := inner_self_pos hp
  have hm : 0 ≤ s.radius * norm sqrt pl.normal := mul_nonneg hr (norm_nonneg' hs _)
  have hkey : |pl.eval s.center| ≤ s.radius * norm sqrt pl.normal ↔
      dist2 s.center (projectPlane s.center pl) ≤ s.radius ^ 2 := by
    rw [dist2_projectPlane _ _ hp, div_le_iff₀ hD, ← norm_sq hs, ← mul_pow, ← sq_abs (pl.eval _)]
    exact (pow_le_pow_iff_left₀ (abs_nonneg _) hm (by norm_num)).symm
  rw [hkey]
  constructor
  · rintro ⟨x, hx, hxs⟩
    obtain ⟨q, hq, h⟩ := nearestPlane_correct s.center pl hp
    rw [nearestPlane, if_neg] at hq
    · cases hq
      refine ((h.2 x hx).1).trans ?_
      rw [← hxs]
      apply le_of_eq
      exact Finset.sum_congr rfl fun i _ => by ring
    · rw [dotSelf, dot_eq, inner_self_eq_zero]; exact hp
  · intro h
    obtain ⟨w, hw0, hw⟩ := exists_at_distance hs hn pl.normal (sub_nonneg.2 h)
    obtain ⟨hin, ⟨t, ht⟩, _⟩ := projectPlane_correct s.center pl hp
    refine ⟨projectPlane s.center pl + w, ?_, ?_⟩
    · rw [InPlane, inner_add_right, hw0, add_zero]; exact hin
    · have e : projectPlane s.center pl + w - s.center = w - t • pl.normal := by
        rw [← ht]; funext i; simp; ring
      rw [dist2_eq, ht] at hw
      rw [OnSphere, dist2_eq, e, inner_sub_left, inner_sub_right, inner_sub_right, hw]
      simp only [inner_smul_left, inner_smul_right]
      rw [inner_comm w pl.normal, hw0]
      ring

/-- C64. `crosses(plane, sphere)` answers wrongly for every plane that is not tangent: it is true
exactly when the plane and the sphere have no common point. -/
theorem crossesPlaneSphere_fails {sqrt : F → F} (hs : IsSqrt sqrt) (hn : 2 ≤ n) (pl : Plane F n)
    (s : Sphere F n) (hp : pl.normal ≠ 0) (hr : 0 ≤ s.radius)
    (ht : |pl.eval s.center| ≠ s.radius * norm sqrt pl.normal) :
    crossesPlaneSphere sqrt pl s = true ↔ ¬ ∃ x, InPlane x pl ∧ OnSphere x s := by
  rw [plane_meets_sphere hs hn pl s hp hr, crossesPlaneSphere, absValue_eq]
  simp only [Bool.not_eq_true', decide_eq_false_iff_not, not_lt, not_le]
  exact ⟨fun h => lt_of_le_of_ne h ht.symm, fun h => h.le⟩

/-- The plane `y = 1` cuts the circle of radius 2 about the origin and the answer is false. -/
example : (∃ x, InPlane x (⟨![0, 1], 1⟩ : Plane ℝ 2) ∧ OnSphere x (⟨![0, 0], 2⟩ : Sphere ℝ 2)) ∧
    crossesPlaneSphere Real.sqrt (⟨![0, 1], 1⟩ : Plane ℝ 2) ⟨![0, 0], 2⟩ = false := by
  have h0 : (⟨![0, 1], 1⟩ : Plane ℝ 2).normal ≠ 0 := fun h => by simpa using congrFun h 1
  have hm : (∃ x, InPlane x (⟨![0, 1], 1⟩ : Plane ℝ 2) ∧
      OnSphere x (⟨![0, 0], 2⟩ : Sphere ℝ 2)) := by
    rw [plane_meets_sphere isSqrt_real (le_refl 2) _ _ h0 (by norm_num)]
    simp [Plane.eval, dot_eq, inner, norm, dotSelf, Fin.sum_univ_two]
  refine ⟨hm, ?_⟩
  rw [← Bool.not_eq_true, crossesPlaneSphere_fails isSqrt_real (le_refl 2) _ _ h0 (by norm_num)]
  · exact fun h => h hm
  · simp [Plane.eval, dot_eq, inner, norm, dotSelf, Fin.sum_univ_two]

/-- C64. For tangent planes the answer is right. -/
theorem crossesPlaneSphere_partial {sqrt : F → F} (hs : IsSqrt sqrt) (hn : 2 ≤ n) (pl : Plane F n)
    (s : Sphere F n) (hp : pl.normal ≠ 0) (hr : 0 ≤ s.radius)
    (ht : |pl.eval s.center| = s.radius * norm sqrt pl.normal) :
    crossesPlaneSphere sqrt pl s = true ∧ ∃ x, InPlane x pl ∧ OnSphere x s := by
  rw [plane_meets_sphere hs hn pl s hp hr, crossesPlaneSphere, absValue_eq, ht]
  simp

theorem collinear_iff {l r : Vec F n} (hl : l ≠ 0) :
    collinear l r = true ↔ ∃ t : F, r = t • l := by
  by_cases hn : n = 2
  · subst hn
    rw [collinear_two, ← area_eq_zero_iff hl]
    simp only [area]
    constructor <;> intro h <;> linear_combination -h
  · exact collinear_other_iff hn hl

theorem gram_pos {u v : Vec F n} (hu : u ≠ 0) (h : ¬ ∃ t : F, v = t • u) :
    0 < inner u u * inner v v - inner u v ^ 2 := by
  have hD := inner_self_pos hu
  have hne : inner u u • v - inner u v • u ≠ 0 := by
    intro h0
    apply h
    refine ⟨inner u v / inner u u, ?_⟩
    funext i
    have := congrFun h0 i
    simp only [Pi.sub_apply, Pi.smul_apply, smul_eq_mul, Pi.zero_apply] at this ⊢
    rw [div_mul_eq_mul_div, eq_div_iff hD.ne']; linear_combination this
  have hp := inner_self_pos hne
  have e : inner (inner u u • v - inner u v • u) (inner u u • v - inner u v • u) =
      inner u u * (inner u u * inner v v - inner u v ^ 2) := by
    rw [inner_sub_left, inner_sub_right, inner_sub_right]
    simp only [inner_smul_left, inner_smul_right]
    rw [inner_comm v u]
    ring
  rw [e] at hp
  exact (mul_pos_iff_of_pos_left hD).1 hp

theorem firstNonZero_spec {v : Vec F n} (hv : v ≠ 0) :
    ∃ i, firstNonZero v = some i ∧ v i ≠ 0 := by
  unfold firstNonZero
  cases h : (List.finRange n).find? fun i => decide (v i ≠ 0) with
  | none =>
    exfalso
    apply hv
    funext i
    have := List.find?_eq_none.1 h i (List.mem_finRange i)
    simpa using this
  | some i =>
    refine ⟨i, rfl, ?_⟩
    simpa using List.find?_some h

/-- C64. Two non-degenerate planes are reported to cross exactly when they have a common point. -/
theorem crossesPlanes_correct (l r : Plane F n) (hl : l.normal ≠ 0) (hr : r.normal ≠ 0) :
    ∃ b, crossesPlanes l r = some b ∧ (b = true ↔ ∃ x, InPlane x l ∧ InPlane x r) := by
  have d1 : degenerate l.normal = false := by
    rw [← Bool.not_eq_true, degenerate_iff]
    intro h; exact hl (by simpa using h)
  have d2 : degenerate r.normal = false := by
    rw [← Bool.not_eq_true, degenerate_iff]
    intro h; exact hr (by simpa using h)
  obtain ⟨i, hi, hvi⟩ := firstNonZero_spec hl
  by_cases hc : collinear l.normal r.normal = true
  · obtain ⟨t, ht⟩ := (collinear_iff hl).1 hc
    have ht0 : t ≠ 0 := fun h => hr (by rw [ht, h, zero_smul])
    refine ⟨collinear ![l.normal i, l.d] ![r.normal i, r.d], ?_, ?_⟩
    · simp [crossesPlanes, d1, d2, hc, hi]
    · rw [collinear_two]
      simp only [area, Matrix.cons_val_zero, Matrix.cons_val_one]
      have hri : r.normal i = t * l.normal i := by rw [ht]; rfl
      rw [hri]
      constructor
      · intro h
        have hd : r.d = t * l.d := by
          have : l.normal i * (t * l.d - r.d) = 0 := by linear_combination h
          exact (sub_eq_zero.1 ((mul_eq_zero.1 this).resolve_left hvi)).symm
        have hin := (projectPlane_correct (0 : Vec F n) l hl).1
        refine ⟨_, hin, ?_⟩
        rw [InPlane, ht, inner_smul_left, hd]
        rw [InPlane] at hin; rw [hin]
      · rintro ⟨x, hxl, hxr⟩
        rw [InPlane] at hxl hxr
        rw [ht, inner_smul_left, hxl] at hxr
        rw [← hxr]; ring
  · refine ⟨true, by simp [crossesPlanes, d1, d2, hc], ?_⟩
    simp only [true_iff]
    rw [collinear_iff hl] at hc
    have hG := (gram_pos hl hc).ne'
    set a := inner l.normal l.normal
    set b := inner l.normal r.normal with hb
    set c := inner r.normal r.normal
    refine ⟨((c * l.d - b * r.d) / (a * c - b ^ 2)) • l.normal +
      ((a * r.d - b * l.d) / (a * c - b ^ 2)) • r.normal, ?_, ?_⟩
    · rw [InPlane, inner_add_right, inner_smul_right, inner_smul_right]
      change _ * a + _ * b = _
      rw [div_mul_eq_mul_div, div_mul_eq_mul_div, ← add_div, div_eq_iff hG]; ring
    · rw [InPlane, inner_add_right, inner_smul_right, inner_smul_right, inner_comm r.normal l.normal]
      change _ * b + _ * c = _
      rw [div_mul_eq_mul_div, div_mul_eq_mul_div, ← add_div, div_eq_iff hG]; ring

/-- Parallel planes: `2x = 4` is `x = 2`, but not `x = 3`. -/
example : crossesPlanes (⟨![0, 1, 0], 2⟩ : Plane ℚ 3) ⟨![0, 2, 0], 4⟩ = some true ∧
    crossesPlanes (⟨![0, 1, 0], 3⟩ : Plane ℚ 3) ⟨![0, 2, 0], 4⟩ = some false := by
  decide +kernel

end Actl.Geo
