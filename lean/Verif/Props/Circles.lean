import Verif.Props.Crosses
import Verif.Spec.Circles

/-!
# C65: intersections with circles and spheres, tangents

The values are right except for identical circles (division by zero) and for the tangent angles.
The output iterator is not: `scalar_to_point_adaptor` never advances, and `tangents` returns the
iterator it was given.
-/

namespace Actl.Geo

variable {F : Type*} [Field F] [LinearOrder F] [IsStrictOrderedRing F] {n : Nat}

theorem wrote_nil {P : Type*} (o : Output P) : Wrote o o [] := ⟨by simp, by simp⟩

theorem wrote_one {P : Type*} (o : Output P) (x : P) : Wrote o (o.put x) [x] := by
  constructor <;> simp [Output.put, List.range'_succ]

theorem wrote_two {P : Type*} (o : Output P) (x y : P) :
    Wrote o ((o.put x).put y) [x, y] := by
  constructor <;> simp [Output.put, List.range'_succ]

theorem compare3_neg {x y : F} : compare3 x y < 0 ↔ x < y := by
  unfold compare3; split_ifs with h1 h2 <;> simp [h1]

theorem compare3_zero {x y : F} : compare3 x y = 0 ↔ x = y := by
  unfold compare3
  split_ifs with h1 h2
  · simp [h1.ne]
  · simp [h2.ne']
  · simp [le_antisymm (not_lt.1 h2) (not_lt.1 h1)]

/-- In coordinates along `v` and its perpendicular. -/
theorem decompose {v : Vec F 2} (hv : v ≠ 0) (x : Vec F 2) :
    ∃ α β : F, x = α • v + β • perpendicular v := by
  have hD := (inner_self_pos hv).ne'
  simp only [inner, Fin.sum_univ_two] at hD
  refine ⟨(x 0 * v 0 + x 1 * v 1) / (v 0 * v 0 + v 1 * v 1),
    (x 1 * v 0 - x 0 * v 1) / (v 0 * v 0 + v 1 * v 1), vec2_ext ?_ ?_⟩
  · simp only [perpendicular, Pi.add_apply, Pi.smul_apply, smul_eq_mul, Matrix.cons_val_zero,
      div_eq_mul_inv]
    linear_combination (-x 0) * mul_inv_cancel₀ hD
  · simp only [perpendicular, Pi.add_apply, Pi.smul_apply, smul_eq_mul, Matrix.cons_val_one,
      Matrix.cons_val_fin_one, div_eq_mul_inv]
    linear_combination (-x 1) * mul_inv_cancel₀ hD

theorem onCircles_iff (l r : Sphere F 2) (α β : F)
    (hD : inner (r.center - l.center) (r.center - l.center) ≠ 0) :
    (OnSphere (l.center + (α • (r.center - l.center) + β • perpendicular (r.center - l.center))) l ∧
      OnSphere (l.center + (α • (r.center - l.center) + β • perpendicular (r.center - l.center))) r) ↔
    (2 * α - 1) * inner (r.center - l.center) (r.center - l.center) =
        l.radius ^ 2 - r.radius ^ 2 ∧
      β ^ 2 * inner (r.center - l.center) (r.center - l.center) =
        l.radius ^ 2 - α ^ 2 * inner (r.center - l.center) (r.center - l.center) := by
  obtain ⟨v, hv⟩ : ∃ v, v = r.center - l.center := ⟨_, rfl⟩
  have hr : r.center = l.center + v := by rw [hv]; funext i; simp
  rw [OnSphere, OnSphere, hr, add_sub_cancel_left]
  have e1 : dist2 (l.center + (α • v + β • perpendicular v)) l.center =
      (α ^ 2 + β ^ 2) * inner v v := by
    simp [dist2, inner, perpendicular, Fin.sum_univ_two]; ring
  have e2 : dist2 (l.center + (α • v + β • perpendicular v)) (l.center + v) =
      ((α - 1) ^ 2 + β ^ 2) * inner v v := by
    simp [dist2, inner, perpendicular, Fin.sum_univ_two]; ring
  rw [e1, e2]
  constructor
  · rintro ⟨h1, h2⟩
    exact ⟨by linear_combination h1 - h2, by linear_combination h1⟩
  · rintro ⟨h1, h2⟩
    exact ⟨by linear_combination h2, by linear_combination h2 - h1⟩

/-- C65. The common points of two different circles (radii at least zero) are written one after the
other, without repetition, and nothing else; the iterator is left after the last. -/
theorem intersectCircles_correct {sqrt : F → F} (hs : IsSqrt sqrt) (l r : Sphere F 2)
    (out : Output (Vec F 2)) (hl : 0 ≤ l.radius) (hr : 0 ≤ r.radius)
    (hne : ¬ (l.center = r.center ∧ l.radius = r.radius)) :
    ∃ xs o, intersectCircles sqrt l r out = some o ∧ Wrote out o xs ∧ xs.Nodup ∧
      ∀ x, x ∈ xs ↔ OnSphere x l ∧ OnSphere x r := by
  have hc := crossesSpheres_correct hs (le_refl 2) l r hl hr
  obtain ⟨h0, h1, _⟩ := distancePoint_correct hs l.center r.center
  have hdc : dist2 l.center r.center = inner (r.center - l.center) (r.center - l.center) := by
    rw [dist2_eq]; exact Finset.sum_congr rfl fun i _ => by simp; ring
  have hx1 : distancePoint sqrt l.center r.center < |l.radius - r.radius| ↔
      inner (r.center - l.center) (r.center - l.center) <
        (l.radius - r.radius) * (l.radius - r.radius) := by
    rw [← hdc, ← h1, ← sq, ← sq_abs (l.radius - r.radius)]
    exact (pow_lt_pow_iff_left₀ h0 (abs_nonneg _) (by norm_num)).symm
  have hx2 : l.radius + r.radius < distancePoint sqrt l.center r.center ↔
      (l.radius + r.radius) * (l.radius + r.radius) <
        inner (r.center - l.center) (r.center - l.center) := by
    rw [← hdc, ← h1, ← sq]
    exact (pow_lt_pow_iff_left₀ (add_nonneg hl hr) h0 (by norm_num)).symm
  have hcr : crossesSpheres sqrt l r = true ↔
      ¬ (inner (r.center - l.center) (r.center - l.center) <
        (l.radius - r.radius) * (l.radius - r.radius) ∨
      (l.radius + r.radius) * (l.radius + r.radius) <
        inner (r.center - l.center) (r.center - l.center)) := by
    rw [← hx1, ← hx2, crossesSpheres, absValue_eq]
    simp only [Bool.and_eq_true, Bool.not_eq_true', decide_eq_false_iff_not, not_or]
  rw [hcr] at hc
  unfold intersectCircles
  simp only [dotSelf, dot_eq, compare3_neg, compare3_zero]
  split_ifs with g1 g2 g3
  · refine ⟨[], _, rfl, wrote_nil _, List.nodup_nil, fun x => ?_⟩
    simp only [List.not_mem_nil, false_iff]
    intro h
    exact hc.2 ⟨x, h⟩ g1
  · exfalso
    have hv := (inner_self_eq_zero _).1 g2
    push Not at g1
    rw [g2] at g1
    have := g1.1
    have hz : (l.radius - r.radius) * (l.radius - r.radius) = 0 :=
      le_antisymm this (mul_self_nonneg _)
    exact hne ⟨(sub_eq_zero.1 hv).symm, sub_eq_zero.1 (mul_self_eq_zero.1 hz)⟩
  · refine ⟨_, _, rfl, wrote_one _ _, List.nodup_singleton _, fun x => ?_⟩
    have hv : r.center - l.center ≠ 0 := fun h => g2 ((inner_self_eq_zero _).2 h)
    obtain ⟨α, β, hx⟩ := decompose hv (x - l.center)
    have hx : x = l.center + (α • (r.center - l.center) + β • perpendicular (r.center - l.center)) := by
      rw [← hx]; funext i; simp
    rw [hx, onCircles_iff l r α β g2, List.mem_singleton]
    generalize hD : inner (r.center - l.center) (r.center - l.center) = D at *
    have hzero : ∀ α : F, (2 * α - 1) * D = l.radius ^ 2 - r.radius ^ 2 →
        l.radius ^ 2 - α ^ 2 * D = 0 := by
      intro α ha
      have e : 4 * D * (l.radius ^ 2 - α ^ 2 * D) =
          ((l.radius + r.radius) * (l.radius + r.radius) - D) *
            (D - (l.radius - r.radius) * (l.radius - r.radius)) := by
        linear_combination (-(2 * α - 1) * D - (l.radius ^ 2 - r.radius ^ 2) - 2 * D) * ha
      have : 4 * D * (l.radius ^ 2 - α ^ 2 * D) = 0 := by
        rw [e]; rcases g3 with h | h <;> rw [h] <;> ring
      exact (mul_eq_zero.1 this).resolve_left (mul_ne_zero (by norm_num) g2)
    constructor
    · intro h
      have h := add_left_cancel h
      have h0 := congrFun h 0
      have h1 := congrFun h 1
      have hDx : (r.center - l.center) 0 * (r.center - l.center) 0 +
          (r.center - l.center) 1 * (r.center - l.center) 1 = D := by
        rw [← hD]; simp [inner, Fin.sum_univ_two]
      simp only [perpendicular, Pi.add_apply, Pi.smul_apply, smul_eq_mul, Matrix.cons_val_zero,
        Matrix.cons_val_one] at h0 h1
      generalize (r.center - l.center) 0 = a at *
      generalize (r.center - l.center) 1 = b at *
      have hα : α = ((l.radius * l.radius - r.radius * r.radius) / D + 1) / (1 + 1) := by
        generalize ((l.radius * l.radius - r.radius * r.radius) / D + 1) / (1 + 1) = κ at h0 h1 ⊢
        have : (α - κ) * D = 0 := by
          rw [← hDx]; linear_combination a * h0 + b * h1
        exact sub_eq_zero.1 ((mul_eq_zero.1 this).resolve_right g2)
      have hβ : β = 0 := by
        have : β * D = 0 := by
          rw [← hDx]
          rw [← hα] at h0 h1
          linear_combination a * h1 - b * h0
        exact (mul_eq_zero.1 this).resolve_right g2
      have hA : (2 * α - 1) * D = l.radius ^ 2 - r.radius ^ 2 := by
        rw [hα]; field_simp; ring
      exact ⟨hA, by rw [hzero α hA, hβ]; ring⟩
    · rintro ⟨hA, hB⟩
      rw [hzero α hA] at hB
      have hβ : β = 0 := by
        have := (mul_eq_zero.1 hB).resolve_right g2
        exact (pow_eq_zero_iff (by norm_num)).1 this
      have hα : ((l.radius * l.radius - r.radius * r.radius) / D + 1) / (1 + 1) = α := by
        have : l.radius * l.radius - r.radius * r.radius = (2 * α - 1) * D := by
          rw [hA]; ring
        rw [this, mul_div_cancel_right₀ _ g2]; ring
      rw [hβ, hα, zero_smul, add_zero]
  · have hv : r.center - l.center ≠ 0 := fun h => g2 ((inner_self_eq_zero _).2 h)
    push Not at g1 g3
    have hp : perpendicular (r.center - l.center) ≠ 0 := by
      intro h
      apply hv
      have h0 := congrFun h 0
      have h1 := congrFun h 1
      simp only [perpendicular, Matrix.cons_val_zero, Matrix.cons_val_one, Pi.zero_apply] at h0 h1
      exact vec2_ext h1 (neg_eq_zero.1 h0)
    have hDpos := inner_self_pos hv
    generalize hD : inner (r.center - l.center) (r.center - l.center) = D at *
    obtain ⟨a, ha⟩ : ∃ a, a = (l.radius * l.radius - r.radius * r.radius) / D := ⟨_, rfl⟩
    obtain ⟨b, hb⟩ : ∃ b, b = (l.radius * l.radius + r.radius * r.radius) / D := ⟨_, rfl⟩
    rw [← ha, ← hb]
    have ha' : a * D = l.radius * l.radius - r.radius * r.radius := by
      rw [ha, div_mul_cancel₀ _ g2]
    have hb' : b * D = l.radius * l.radius + r.radius * r.radius := by
      rw [hb, div_mul_cancel₀ _ g2]
    have hpos : 0 < (1 + 1) * b - a * a - 1 := by
      have e : D * D * ((1 + 1) * b - a * a - 1) =
          ((l.radius + r.radius) * (l.radius + r.radius) - D) *
            (D - (l.radius - r.radius) * (l.radius - r.radius)) := by
        linear_combination 2 * D * hb' - (a * D + (l.radius * l.radius - r.radius * r.radius)) * ha'
      have : 0 < D * D * ((1 + 1) * b - a * a - 1) := by
        rw [e]
        exact mul_pos (sub_pos.2 (lt_of_le_of_ne g1.2 (Ne.symm g3.2)))
          (sub_pos.2 (lt_of_le_of_ne g1.1 (Ne.symm g3.1)))
      exact (mul_pos_iff_of_pos_left (by positivity)).1 this
    obtain ⟨q0, q1⟩ := hs _ hpos.le
    generalize sqrt ((1 + 1) * b - a * a - 1) = q at *
    have hq : 0 < q := lt_of_le_of_ne q0 (by rintro rfl; rw [mul_zero] at q1; linarith)
    have hmem : ∀ β : F, OnSphere (l.center + ((a + 1) / (1 + 1)) • (r.center - l.center) +
          β • perpendicular (r.center - l.center)) l ∧
        OnSphere (l.center + ((a + 1) / (1 + 1)) • (r.center - l.center) +
          β • perpendicular (r.center - l.center)) r ↔ β = -(q / (1 + 1)) ∨ β = q / (1 + 1) := by
      intro β
      rw [add_assoc, onCircles_iff l r _ β (by rw [hD]; exact g2), hD]
      have e : 4 * (l.radius ^ 2 - ((a + 1) / (1 + 1)) ^ 2 * D) = q * q * D := by
        rw [q1]; linear_combination -2 * ha' - 2 * hb'
      constructor
      · rintro ⟨_, h⟩
        have : (2 * β) ^ 2 * D = q ^ 2 * D := by linear_combination 4 * h + e
        have := mul_right_cancel₀ g2 this
        rcases sq_eq_sq_iff_eq_or_eq_neg.1 this with h | h
        · right; rw [← h]; ring
        · left
          have : q = -(2 * β) := by linear_combination h
          rw [this]; ring
      · intro h
        refine ⟨?_, ?_⟩
        · have : 2 * ((a + 1) / (1 + 1)) - 1 = a := by ring
          rw [this, ha']; ring
        · have hb2 : β ^ 2 = (q / (1 + 1)) ^ 2 := by rcases h with h | h <;> rw [h]; ring
          rw [hb2]; linear_combination -e / 4
    refine ⟨_, _, rfl, wrote_two _ _ _, ?_, fun x => ?_⟩
    · rw [List.nodup_cons]
      refine ⟨?_, List.nodup_singleton _⟩
      rw [List.mem_singleton]
      intro h
      have : q • perpendicular (r.center - l.center) = 0 := by
        funext i
        have := congrFun h i
        simp only [Pi.sub_apply, Pi.add_apply, Pi.smul_apply, smul_eq_mul, Pi.zero_apply] at this ⊢
        linear_combination -this
      rcases smul_vec_eq_zero.1 this with h | h
      · exact hq.ne' h
      · exact hp h
    · obtain ⟨α, β, hx⟩ := decompose hv (x - l.center)
      have hx : x = l.center + (α • (r.center - l.center) +
          β • perpendicular (r.center - l.center)) := by
        rw [← hx]; funext i; simp
      constructor
      · intro h
        simp only [List.mem_cons, List.not_mem_nil, or_false] at h
        rcases h with h | h
        · have := (hmem _).2 (Or.inl rfl)
          rw [neg_smul, ← sub_eq_add_neg, ← h] at this
          exact this
        · have := (hmem _).2 (Or.inr rfl)
          rw [← h] at this
          exact this
      · intro h
        have h' := h
        rw [hx, onCircles_iff l r α β (by rw [hD]; exact g2), hD] at h'
        have hα : α = (a + 1) / (1 + 1) := by
          have : 2 * α - 1 = a := mul_right_cancel₀ g2 (by rw [h'.1, ha']; ring)
          rw [← this]; ring
        rw [hα, ← add_assoc] at hx
        rw [hx] at h
        rw [hx]
        rcases (hmem β).1 h with h | h
        · rw [h, neg_smul, ← sub_eq_add_neg]; exact List.mem_cons_self
        · rw [h]; exact List.mem_cons_of_mem _ (List.mem_cons_self)

/-- C65. For identical circles the code divides by zero (also for circles of radius zero, whose only
common point exists). -/
theorem intersectCircles_identical_fails (sqrt : F → F) (c : Sphere F 2) (out : Output (Vec F 2)) :
    intersectCircles sqrt c c out = none := by
  have h0 : inner (0 : Vec F 2) 0 = 0 := by simp [inner]
  unfold intersectCircles
  simp only [dotSelf, dot_eq, compare3_neg, compare3_zero, sub_self, h0, mul_zero, lt_irrefl,
    false_or]
  rw [if_neg (not_lt.2 (mul_self_nonneg _))]
  simp

/-- The circles about `(0, 0)` and `(8, 0)` with radius 5 meet in `(4, -3)` and `(4, 3)`. -/
example : ∃ o, intersectCircles Real.sqrt (⟨![0, 0], 5⟩ : Sphere ℝ 2) ⟨![8, 0], 5⟩ ⟨[], 0⟩ = some o ∧
    o.writes.length = 2 := by
  obtain ⟨xs, o, h1, h2, h3, h4⟩ := intersectCircles_correct isSqrt_real
    (⟨![0, 0], 5⟩ : Sphere ℝ 2) ⟨![8, 0], 5⟩ ⟨[], 0⟩ (by norm_num) (by norm_num) (by
      rintro ⟨h, _⟩; simpa using congrFun h 0)
  refine ⟨o, h1, ?_⟩
  have e : ∀ x, x ∈ xs ↔ x = ![4, -3] ∨ x = ![4, 3] := by
    intro x
    rw [h4]
    simp only [OnSphere, dist2, Fin.sum_univ_two, Matrix.cons_val_zero, Matrix.cons_val_one]
    constructor
    · rintro ⟨a, b⟩
      have h0 : x 0 = 4 := by linarith
      rw [h0] at a
      have : (x 1 - 3) * (x 1 + 3) = 0 := by linarith
      rcases mul_eq_zero.1 this with h | h
      · right; exact vec2_ext (by simp [h0]) (by simp; linarith)
      · left; exact vec2_ext (by simp [h0]) (by simp; linarith)
    · rintro (rfl | rfl) <;> constructor <;> simp <;> norm_num
  have hp : xs.Perm [![4, -3], ![4, 3]] := by
    refine (List.perm_ext_iff_of_nodup h3 ?_).2 fun x => by rw [e]; simp
    rw [List.nodup_cons]
    refine ⟨?_, List.nodup_singleton _⟩
    rw [List.mem_singleton]
    intro h
    have := congrFun h 1
    simp at this
    norm_num at this
  rw [h2.1]
  simp [hp.length_eq]

/-! ## Line and sphere -/

theorem lineSphereTest_iff (k : LineKind) {v x : F} (hv : 0 < v) :
    lineTest k x v = true ↔ Allowed k (x / v) := by
  have h1 : 0 ≤ x / v ↔ 0 ≤ x := by rw [le_div_iff₀ hv, zero_mul]
  have h2 : 0 < x / v ↔ 0 < x := by rw [lt_div_iff₀ hv, zero_mul]
  have h3 : x / v ≤ 1 ↔ x ≤ v := div_le_one hv
  have h4 : x / v < 1 ↔ x < v := div_lt_one hv
  cases k <;>
    simp [lineTest, Allowed, endpointTest, LineKind.first, LineKind.last, LineKind.val, combine,
      Endpoint.val, Endpoint.ofVal, h1, h2, h3, h4]

theorem checkRoot_eq {S : Type*} (put : S → F → S) (k : LineKind) {v : F} (x : F) (hv : 0 < v)
    (out : S) : checkRoot put k v x out =
      some (if lineTest k x v then put out (x / v) else out) := by
  unfold checkRoot
  split_ifs with h1 h2
  · exact absurd h2 hv.ne'
  · rfl
  · rfl

/-- The parameters that are reported, in order. -/
theorem lineSphereWith_eq {S : Type*} {sqrt : F → F} (hs : IsSqrt sqrt) (put : S → F → S)
    (l : Line F n) (s : Sphere F n) (hv : l.vector ≠ 0) :
    ∃ ts : List F, (∀ out, lineSphereWith sqrt put l s out = some (ts.foldl put out)) ∧
      ts.Pairwise (· < ·) ∧
      ∀ t, t ∈ ts ↔ Allowed l.kind t ∧ OnSphere (l.start + t • l.vector) s := by
  have hDp := inner_self_pos hv
  have hroot : ∀ t, OnSphere (l.start + t • l.vector) s ↔
      (t * inner l.vector l.vector - inner (s.center - l.start) l.vector) ^ 2 =
        inner l.vector l.vector * (s.radius * s.radius) -
          areaN sqrt (s.center - l.start) l.vector * areaN sqrt (s.center - l.start) l.vector := by
    intro t
    rw [← sq (areaN _ _ _), areaN_sq hs, OnSphere]
    have e : dist2 (l.start + t • l.vector) s.center = dist2 s.center (l.start + t • l.vector) :=
      Finset.sum_congr rfl fun i _ => by ring
    rw [e, dist2_line]
    constructor
    · intro h; linear_combination inner l.vector l.vector * h
    · intro h
      exact mul_left_cancel₀ hDp.ne' (by linear_combination h)
  unfold lineSphereWith
  simp only [dotSelf, dot_eq]
  generalize inner l.vector l.vector * (s.radius * s.radius) -
    areaN sqrt (s.center - l.start) l.vector * areaN sqrt (s.center - l.start) l.vector = δ at *
  generalize hD : inner l.vector l.vector = D at *
  generalize inner (s.center - l.start) l.vector = w at *
  rcases lt_trichotomy δ 0 with h | h | h
  · refine ⟨[], fun out => by rw [if_pos h]; rfl, List.Pairwise.nil, fun t => ?_⟩
    simp only [List.not_mem_nil, false_iff, not_and]
    intro _ h'
    rw [hroot] at h'
    have := sq_nonneg (t * D - w)
    linarith
  · refine ⟨if lineTest l.kind w D then [w / D] else [], fun out => ?_, ?_, fun t => ?_⟩
    · rw [if_neg (by rw [h]; exact lt_irrefl _), if_pos h, checkRoot_eq _ _ _ hDp]
      split_ifs <;> rfl
    · split_ifs <;> simp
    · rw [hroot, h, sq_eq_zero_iff, sub_eq_zero, ← eq_div_iff hDp.ne']
      by_cases hk : lineTest l.kind w D = true
      · rw [if_pos hk, List.mem_singleton]
        rw [lineSphereTest_iff _ hDp] at hk
        exact ⟨fun e => ⟨e ▸ hk, e⟩, fun e => e.2⟩
      · rw [if_neg hk]
        rw [lineSphereTest_iff _ hDp] at hk
        simp only [List.not_mem_nil, false_iff, not_and]
        intro ha e
        exact hk (e ▸ ha)
  · obtain ⟨q0, q1⟩ := hs _ h.le
    generalize sqrt δ = q at *
    have hq : 0 < q := lt_of_le_of_ne q0 (by rintro rfl; rw [mul_zero] at q1; linarith)
    have hlt : (w - q) / D < (w + q) / D := div_lt_div_of_pos_right (by linarith) hDp
    have hr : ∀ t, OnSphere (l.start + t • l.vector) s ↔ t = (w - q) / D ∨ t = (w + q) / D := by
      intro t
      rw [hroot, ← q1, ← sq, sq_eq_sq_iff_eq_or_eq_neg, eq_div_iff hDp.ne', eq_div_iff hDp.ne']
      constructor
      · rintro (h | h)
        · right; linear_combination h
        · left; linear_combination h
      · rintro (h | h)
        · right; linear_combination h
        · left; linear_combination h
    refine ⟨(if lineTest l.kind (w - q) D then [(w - q) / D] else []) ++
      (if lineTest l.kind (w + q) D then [(w + q) / D] else []), fun out => ?_, ?_, fun t => ?_⟩
    · rw [if_neg (not_lt.2 h.le), if_neg h.ne', checkRoot_eq _ _ _ hDp, Option.bind_some,
        checkRoot_eq _ _ _ hDp]
      split_ifs <;> rfl
    · split_ifs <;> simp [hlt]
    · have k1 := lineSphereTest_iff l.kind (x := w - q) hDp
      have k2 := lineSphereTest_iff l.kind (x := w + q) hDp
      rw [hr]
      by_cases h1 : lineTest l.kind (w - q) D = true <;>
        by_cases h2 : lineTest l.kind (w + q) D = true <;>
        rw [List.mem_append] <;> simp only [h1, h2, if_true, Bool.false_eq_true, if_false,
          List.mem_singleton, List.not_mem_nil, false_or, or_false] <;>
        rw [k1] at h1 <;> rw [k2] at h2
      · exact ⟨fun e => ⟨by rcases e with e | e <;> rw [e] <;> assumption, e⟩, fun e => e.2⟩
      · refine ⟨fun e => ⟨e ▸ h1, Or.inl e⟩, fun e => e.2.resolve_right fun e' => h2 (e' ▸ e.1)⟩
      · refine ⟨fun e => ⟨e ▸ h2, Or.inr e⟩, fun e => e.2.resolve_left fun e' => h1 (e' ▸ e.1)⟩
      · simp only [false_iff]
        rintro ⟨ha, e | e⟩
        · exact h1 (e ▸ ha)
        · exact h2 (e ▸ ha)

theorem foldl_put {P : Type*} (xs : List P) : ∀ out : Output P,
    Wrote out (xs.foldl Output.put out) xs := by
  induction xs with
  | nil => exact wrote_nil
  | cons x xs ih =>
    intro out
    obtain ⟨h1, h2⟩ := ih (out.put x)
    refine ⟨?_, ?_⟩
    · rw [List.foldl_cons, h1, List.length_cons, List.range'_succ]
      simp [Output.put]
    · rw [List.foldl_cons, h2, List.length_cons]
      simp only [Output.put]; omega

/-- C65. The parameters of the common points of a non-degenerate line, ray or segment and a sphere
are written in increasing order, all of them and nothing else. -/
theorem lineSphereScalar_correct {sqrt : F → F} (hs : IsSqrt sqrt) (l : Line F n) (s : Sphere F n)
    (hv : l.vector ≠ 0) (out : Output F) :
    ∃ ts o, lineSphereScalar sqrt l s out = some o ∧ Wrote out o ts ∧ ts.Pairwise (· < ·) ∧
      ∀ t, t ∈ ts ↔ Allowed l.kind t ∧ OnSphere (l.start + t • l.vector) s := by
  obtain ⟨ts, h1, h2, h3⟩ := lineSphereWith_eq hs Output.put l s hv
  exact ⟨ts, _, h1 out, foldl_put ts out, h2, h3⟩

theorem foldl_putAdapted (l : Line F n) (ts : List F) : ∀ out : Output (Vec F n),
    ts.foldl (Output.putAdapted l) out =
      { writes := out.writes ++ ts.map fun t => (out.pos, l.at t), pos := out.pos } := by
  induction ts with
  | nil => intro out; simp
  | cons t ts ih => intro out; simp [ih, Output.putAdapted]

/-- C65. The points that are assigned through the output iterator are the common points of the line
and the sphere, each once (missing: where they are written). -/
theorem lineSpherePoints_partial {sqrt : F → F} (hs : IsSqrt sqrt) (l : Line F n) (s : Sphere F n)
    (hv : l.vector ≠ 0) (out : Output (Vec F n)) :
    ∃ xs o, lineSpherePoints sqrt l s out = some o ∧
      o.writes.map Prod.snd = out.writes.map Prod.snd ++ xs ∧ xs.Nodup ∧
      ∀ x, x ∈ xs ↔ On x l ∧ OnSphere x s := by
  obtain ⟨ts, h1, h2, h3⟩ := lineSphereWith_eq hs (Output.putAdapted l) l s hv
  refine ⟨ts.map l.at, _, h1 out, ?_, ?_, fun x => ?_⟩
  · rw [foldl_putAdapted]; simp [Function.comp_def]
  · refine List.Nodup.map_on ?_ (h2.imp fun h => h.ne)
    intro a _ b _ hab
    by_contra hne
    have : (a - b) • l.vector = 0 := by
      have := add_left_cancel (hab : l.start + a • l.vector = l.start + b • l.vector)
      rw [sub_smul, this, sub_self]
    rcases smul_vec_eq_zero.1 this with h | h
    · exact hne (sub_eq_zero.1 h)
    · exact hv h
  · rw [List.mem_map]
    constructor
    · rintro ⟨t, ht, rfl⟩
      obtain ⟨ha, hsph⟩ := (h3 t).1 ht
      exact ⟨⟨t, ha, rfl⟩, hsph⟩
    · rintro ⟨⟨t, ha, rfl⟩, hsph⟩
      exact ⟨t, (h3 t).2 ⟨ha, hsph⟩, rfl⟩

/-- C65. The adaptor never advances the output iterator: every common point is written to the first
position and the returned iterator is the one passed in, so with a pointer only the last point
survives, and the caller is told that nothing was written. -/
theorem lineSpherePoints_position_fails {sqrt : F → F} (hs : IsSqrt sqrt) (l : Line F n)
    (s : Sphere F n) (hv : l.vector ≠ 0) (out o : Output (Vec F n))
    (h : lineSpherePoints sqrt l s out = some o) :
    o.pos = out.pos ∧ (∃ ws, o.writes = out.writes ++ ws ∧ ∀ w ∈ ws, w.1 = out.pos) ∧
      ((∃ x, On x l ∧ OnSphere x s) → ∀ xs, ¬ (Wrote out o xs ∧ ∀ x, On x l → OnSphere x s → x ∈ xs)) := by
  obtain ⟨ts, h1, _, h3⟩ := lineSphereWith_eq hs (Output.putAdapted l) l s hv
  have e : o = ts.foldl (Output.putAdapted l) out := by
    have := h1 out
    rw [lineSpherePoints] at h
    rw [this] at h
    exact (Option.some.inj h).symm
  rw [foldl_putAdapted] at e
  have hp : o.pos = out.pos := by rw [e]
  refine ⟨hp, ⟨_, by rw [e], ?_⟩, ?_⟩
  · intro w hw
    obtain ⟨t, _, rfl⟩ := List.mem_map.1 hw
    rfl
  · rintro ⟨x, hx, hxs⟩ xs ⟨⟨_, hw⟩, hall⟩
    have hm := hall x hx hxs
    rw [hp] at hw
    have : xs.length = 0 := by omega
    rw [List.length_eq_zero_iff.1 this] at hm
    cases hm

/-! ## Tangents -/

/-- C65. The points where tangents from a point touch a circle (radius at least zero): the values
assigned through the output iterator are exactly these points, each once (missing: the returned
iterator). -/
theorem tangents_partial {sqrt : F → F} (hs : IsSqrt sqrt) (p : Vec F 2) (c : Sphere F 2)
    (hr : 0 ≤ c.radius) (out : Output (Vec F 2)) :
    ∃ xs o, tangents sqrt p c out = some o ∧
      o.writes = out.writes ++ (List.range' out.pos xs.length).zip xs ∧ xs.Nodup ∧
      ∀ x, x ∈ xs ↔ TangentAt p c x := by
  obtain ⟨w1, w2, w3, _⟩ := withinSphere_correct hs p c hr
  have hpyth : ∀ x, inner (x - p) (x - c.center) = 0 ↔
      dist2 p c.center = dist2 x p + dist2 x c.center := by
    intro x
    simp only [dist2, inner, Fin.sum_univ_two, Pi.sub_apply]
    constructor
    · intro h; linear_combination (-2 : F) * h
    · intro h; linear_combination (-1 / 2 : F) * h
  unfold tangents
  cases hw : withinSphere sqrt p c with
  | inside =>
    refine ⟨[], _, rfl, by simp, List.nodup_nil, fun x => ?_⟩
    simp only [List.not_mem_nil, false_iff]
    rintro ⟨h1, h2⟩
    rw [hpyth, show dist2 x c.center = _ from h1] at h2
    have := w1.1 hw
    have h0 : 0 ≤ dist2 x p := by rw [dist2_eq]; exact inner_self_nonneg _
    linarith
  | border =>
    refine ⟨[p], _, rfl, (wrote_one _ _).1, List.nodup_singleton _, fun x => ?_⟩
    rw [List.mem_singleton]
    constructor
    · rintro rfl
      exact ⟨w2.1 hw, by rw [sub_self]; simp [inner]⟩
    · rintro ⟨h1, h2⟩
      rw [hpyth, show dist2 x c.center = _ from h1, w2.1 hw] at h2
      have h0 : dist2 x p = 0 := by linarith
      rw [dist2_eq, inner_self_eq_zero] at h0
      exact sub_eq_zero.1 h0
  | outside =>
    have hout := w3.1 hw
    have hd : norm sqrt (c.center - p) * norm sqrt (c.center - p) = dist2 p c.center := by
      rw [← sq, norm_sq hs, dist2_eq]; exact Finset.sum_congr rfl fun i _ => by simp; ring
    have hpos : 0 ≤ dist2 p c.center - c.radius * c.radius := by rw [← sq]; linarith
    obtain ⟨q0, q1⟩ := hs _ hpos
    simp only [hd]
    generalize sqrt (dist2 p c.center - c.radius * c.radius) = q at *
    obtain ⟨xs, o, h1, h2, h3, h4⟩ := intersectCircles_correct hs ⟨p, q⟩ c out q0 hr (by
      rintro ⟨h, _⟩
      have h : p = c.center := h
      rw [h] at hout
      have : dist2 c.center c.center = 0 := by simp [dist2]
      have := sq_nonneg c.radius
      linarith)
    refine ⟨xs, { o with pos := out.pos }, by rw [h1]; rfl, h2.1, h3, fun x => ?_⟩
    rw [h4, TangentAt, hpyth, and_comm]
    refine and_congr_right fun hx => ?_
    rw [show dist2 x c.center = _ from hx, OnSphere, sq q, q1]
    constructor <;> intro h <;> linear_combination -h

/-- There are tangents from every point outside. -/
theorem tangentAt_exists {sqrt : F → F} (hs : IsSqrt sqrt) (p : Vec F 2) (c : Sphere F 2)
    (hout : c.radius ^ 2 < dist2 p c.center) : ∃ x, TangentAt p c x := by
  obtain ⟨q0, q1⟩ := hs _ (sub_nonneg.2 hout.le)
  generalize sqrt (dist2 p c.center - c.radius ^ 2) = q at *
  have hD : 0 < dist2 p c.center := lt_of_le_of_lt (sq_nonneg _) hout
  obtain ⟨i, hi⟩ : ∃ i, i * dist2 p c.center = 1 := ⟨_, inv_mul_cancel₀ hD.ne'⟩
  have e : dist2 p c.center =
      (p - c.center) 0 * (p - c.center) 0 + (p - c.center) 1 * (p - c.center) 1 := by
    rw [dist2_eq]; simp [inner, Fin.sum_univ_two]
  have hp : p = c.center + (p - c.center) := by funext k; simp
  rw [e] at q1 hi
  rw [hp]
  generalize p - c.center = v at *
  refine ⟨c.center + ((c.radius ^ 2 * i) • v + (c.radius * q * i) • perpendicular v), ?_, ?_⟩
  · simp only [OnSphere, dist2, Fin.sum_univ_two, perpendicular, Pi.add_apply, Pi.smul_apply,
      smul_eq_mul, Matrix.cons_val_zero, Matrix.cons_val_one, Matrix.cons_val_fin_one]
    generalize v 0 = a at *
    generalize v 1 = b at *
    linear_combination c.radius ^ 2 * i ^ 2 * (a * a + b * b) * q1 +
      c.radius ^ 2 * (i * (a * a + b * b) + 1) * hi
  · simp only [inner, Fin.sum_univ_two, perpendicular, Pi.add_apply, Pi.sub_apply, Pi.smul_apply,
      smul_eq_mul, Matrix.cons_val_zero, Matrix.cons_val_one, Matrix.cons_val_fin_one]
    generalize v 0 = a at *
    generalize v 1 = b at *
    linear_combination c.radius ^ 2 * i ^ 2 * (a * a + b * b) * q1 +
      c.radius ^ 2 * (i * (a * a + b * b)) * hi

/-- C65. From a point outside there is a tangent, and the iterator returned is the one passed in:
the caller is told that nothing was written. -/
theorem tangents_position_fails {sqrt : F → F} (hs : IsSqrt sqrt) (p : Vec F 2) (c : Sphere F 2)
    (hr : 0 ≤ c.radius) (hout : c.radius ^ 2 < dist2 p c.center) (out o : Output (Vec F 2))
    (h : tangents sqrt p c out = some o) :
    (∃ x, TangentAt p c x) ∧ o.pos = out.pos ∧
      ∀ xs, ¬ (Wrote out o xs ∧ ∀ x, TangentAt p c x → x ∈ xs) := by
  have hp : o.pos = out.pos := by
    have hw := (withinSphere_correct hs p c hr).2.2.1.2 hout
    unfold tangents at h
    rw [hw] at h
    simp only [Option.map_eq_some_iff] at h
    obtain ⟨o', _, rfl⟩ := h
    rfl
  refine ⟨tangentAt_exists hs p c hout, hp, ?_⟩
  rintro xs ⟨⟨_, hw⟩, hall⟩
  obtain ⟨x, hx⟩ := tangentAt_exists hs p c hout
  have hm := hall x hx
  rw [hp] at hw
  have : xs.length = 0 := by omega
  rw [List.length_eq_zero_iff.1 this] at hm
  cases hm

end Actl.Geo
