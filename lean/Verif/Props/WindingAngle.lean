import Verif.Props.Winding
import Mathlib.Analysis.SpecialFunctions.Complex.Arg

/-!
# C62: the winding number as the total angle

Over the real numbers, for a point not on an edge, `winding_number` times `2π` is the sum of the signed
angles under which the edges are seen from the point: the definition of the winding number of a closed
curve.
-/

namespace Actl.Geo

open Real

/-- A vector as a complex number. -/
def toComplex (v : Vec ℝ 2) : ℂ := ⟨v 0, v 1⟩

/-- The signed angle, in `(-π, π]`, under which the segment from `a` to `b` is seen from `p`. -/
noncomputable def viewAngle (p a b : Vec ℝ 2) : ℝ := (toComplex (b - p) / toComplex (a - p)).arg

/-- The angle of a direction, in `[0, 2π)`. -/
noncomputable def fullArg (v : Vec ℝ 2) : ℝ :=
  if 0 ≤ v 1 then (toComplex v).arg else (toComplex v).arg + 2 * π

theorem toComplex_ne {v : Vec ℝ 2} (h : v ≠ 0) : toComplex v ≠ 0 := by
  intro h0
  apply h
  apply vec2_ext
  · simpa [toComplex] using congrArg Complex.re h0
  · simpa [toComplex] using congrArg Complex.im h0

theorem area_sin (u w : Vec ℝ 2) :
    area u w = ‖toComplex u‖ * ‖toComplex w‖ * sin ((toComplex w).arg - (toComplex u).arg) := by
  rw [sin_sub]
  have h1 := Complex.norm_mul_sin_arg (toComplex w)
  have h2 := Complex.norm_mul_cos_arg (toComplex w)
  have h3 := Complex.norm_mul_sin_arg (toComplex u)
  have h4 := Complex.norm_mul_cos_arg (toComplex u)
  have e1 : (toComplex w).im = w 1 := rfl
  have e2 : (toComplex w).re = w 0 := rfl
  have e3 : (toComplex u).im = u 1 := rfl
  have e4 : (toComplex u).re = u 0 := rfl
  rw [e1] at h1; rw [e2] at h2; rw [e3] at h3; rw [e4] at h4
  simp only [area]
  rw [← h1, ← h2, ← h3, ← h4]; ring

/-- The angle of a quotient, once it is known which representative is in the range. -/
theorem arg_div_of_range {u w : Vec ℝ 2} (hu : u ≠ 0) (hw : w ≠ 0) (k : ℤ) {x : ℝ}
    (hx : x = (toComplex w).arg - (toComplex u).arg + k * (2 * π)) (h1 : -π < x) (h2 : x ≤ π) :
    (toComplex w / toComplex u).arg = x := by
  have h := Complex.arg_div_coe_angle (toComplex_ne hw) (toComplex_ne hu)
  have e : (((toComplex w / toComplex u).arg : ℝ) : Real.Angle) = (x : Real.Angle) := by
    rw [h, ← Real.Angle.coe_sub, Real.Angle.angle_eq_iff_two_pi_dvd_sub]
    exact ⟨-k, by rw [hx]; push_cast; ring⟩
  rw [← Complex.arg_coe_angle_toReal_eq_arg, e]
  exact Real.Angle.toReal_coe_eq_self_iff.2 ⟨h1, h2⟩

/-- The contribution of an edge accounts for the jump of the angle. -/
theorem viewAngle_eq {u w : Vec ℝ 2} (hu : u ≠ 0) (hw : w ≠ 0) (h : ¬ Stops u w) :
    (toComplex w / toComplex u).arg = fullArg w - fullArg u + 2 * π * crossing u w := by
  have hpi := Real.pi_pos
  have bu := Complex.neg_pi_lt_arg (toComplex u)
  have bu' := Complex.arg_le_pi (toComplex u)
  have bw := Complex.neg_pi_lt_arg (toComplex w)
  have bw' := Complex.arg_le_pi (toComplex w)
  have nu : 0 < ‖toComplex u‖ := norm_pos_iff.2 (toComplex_ne hu)
  have nw : 0 < ‖toComplex w‖ := norm_pos_iff.2 (toComplex_ne hw)
  have su : 0 ≤ (toComplex u).arg ↔ 0 ≤ u 1 := Complex.arg_nonneg_iff
  have sw : 0 ≤ (toComplex w).arg ↔ 0 ≤ w 1 := Complex.arg_nonneg_iff
  have hsin := area_sin u w
  have hn : 0 < ‖toComplex u‖ * ‖toComplex w‖ := mul_pos nu nw
  have pos_iff : 0 < area u w ↔ 0 < sin ((toComplex w).arg - (toComplex u).arg) := by
    rw [hsin, mul_pos_iff_of_pos_left hn]
  have zero_iff : area u w = 0 ↔ sin ((toComplex w).arg - (toComplex u).arg) = 0 := by
    rw [hsin]; simp [hn.ne']
  generalize hau : (toComplex u).arg = α at *
  generalize haw : (toComplex w).arg = β at *
  by_cases h1 : 0 ≤ u 1 <;> by_cases h2 : 0 ≤ w 1
  · -- both above
    have c0 : crossing u w = 0 := by simp [crossing, not_lt.2 h1, not_lt.2 h2]
    have a0 := su.2 h1
    have b0 := sw.2 h2
    rw [c0, fullArg, fullArg, if_pos h1, if_pos h2, hau, haw]
    apply arg_div_of_range hu hw 0
    · rw [hau, haw]; push_cast; ring
    · -- not exactly opposite
      push_cast
      by_contra hc
      have ha : α = π := by linarith
      have hb : β = 0 := by linarith
      subst hb
      rw [ha] at hau
      obtain ⟨x1, x2⟩ := Complex.arg_eq_pi_iff.1 hau
      obtain ⟨y1, y2⟩ := Complex.arg_eq_zero_iff.1 haw
      exact h (.inr (.inl ⟨x2, y2, .inl ⟨le_of_lt x1, y1⟩⟩))
    · push_cast; linarith
  · -- from above to below
    have a0 := su.2 h1
    have b0 := not_le.1 (fun x => h2 (sw.1 x))
    rw [fullArg, fullArg, if_pos h1, if_neg h2, hau, haw]
    rcases lt_trichotomy (area u w) 0 with ha | ha | ha
    · have c0 : crossing u w = -1 := by simp [crossing, not_lt.2 h1, h1, not_le.1 h2, ha]
      rw [c0]
      have hs : ¬ 0 ≤ sin (β - α) := by
        intro hs
        rcases hs.lt_or_eq with hs | hs
        · exact absurd (pos_iff.2 hs) (not_lt.2 ha.le)
        · exact ha.ne (zero_iff.2 hs.symm)
      apply arg_div_of_range hu hw 0
      · rw [hau, haw]; push_cast; ring
      · push_cast
        by_contra hc
        apply hs
        rw [← Real.sin_add_two_pi]
        exact Real.sin_nonneg_of_nonneg_of_le_pi (by linarith) (by linarith)
      · push_cast; linarith
    · exact absurd (.inr (.inr ⟨.inr ⟨h1, not_le.1 h2⟩, ha⟩)) h
    · have c0 : crossing u w = 0 := by simp [crossing, not_lt.2 h1, not_lt.2 ha.le]
      rw [c0]
      have hs := pos_iff.1 ha
      apply arg_div_of_range hu hw 1
      · rw [hau, haw]; push_cast; ring
      · push_cast; linarith
      · push_cast
        by_contra hc
        apply absurd hs (not_lt.2 _)
        exact Real.sin_nonpos_of_nonpos_of_neg_pi_le (by linarith) (by linarith)
  · -- from below to above
    have a0 := not_le.1 (fun x => h1 (su.1 x))
    have b0 := sw.2 h2
    rw [fullArg, fullArg, if_neg h1, if_pos h2, hau, haw]
    rcases lt_trichotomy (area u w) 0 with ha | ha | ha
    · have c0 : crossing u w = 0 := by simp [crossing, not_lt.2 ha.le, h1]
      rw [c0]
      have hs : ¬ 0 ≤ sin (β - α) := by
        intro hs
        rcases hs.lt_or_eq with hs | hs
        · exact absurd (pos_iff.2 hs) (not_lt.2 ha.le)
        · exact ha.ne (zero_iff.2 hs.symm)
      apply arg_div_of_range hu hw (-1)
      · rw [hau, haw]; push_cast; ring
      · push_cast
        by_contra hc
        apply hs
        exact Real.sin_nonneg_of_nonneg_of_le_pi (by linarith) (by linarith)
      · push_cast; linarith
    · exact absurd (.inr (.inr ⟨.inl ⟨not_le.1 h1, h2⟩, ha⟩)) h
    · have c0 : crossing u w = 1 := by simp [crossing, not_le.1 h1, h2, ha]
      rw [c0]
      have hs := pos_iff.1 ha
      apply arg_div_of_range hu hw 0
      · rw [hau, haw]; push_cast; ring
      · push_cast; linarith
      · push_cast
        by_contra hc
        apply absurd hs (not_lt.2 _)
        rw [← Real.sin_sub_two_pi]
        exact Real.sin_nonpos_of_nonpos_of_neg_pi_le (by linarith) (by linarith)
  · -- both below
    have c0 : crossing u w = 0 := by simp [crossing, h1, h2]
    have a0 := not_le.1 (fun x => h1 (su.1 x))
    have b0 := not_le.1 (fun x => h2 (sw.1 x))
    rw [c0, fullArg, fullArg, if_neg h1, if_neg h2, hau, haw]
    apply arg_div_of_range hu hw 0
    · rw [hau, haw]; push_cast; ring
    · push_cast; linarith
    · push_cast; linarith

theorem sum_pairs_telescope_real {α : Type*} (g : α → ℝ) : ∀ (l : List α) (a z : α),
    ((pairs (a :: l ++ [z])).map fun e => g e.2 - g e.1).sum = g z - g a
  | [], a, z => by simp [pairs]
  | b :: l, a, z => by
    have := sum_pairs_telescope_real g l b z
    simp only [List.cons_append, pairs, List.map_cons, List.sum_cons] at this ⊢
    rw [this]; ring

theorem sum_add_crossings (p : Vec ℝ 2) (f : Vec ℝ 2 × Vec ℝ 2 → ℝ) :
    ∀ l : List (Vec ℝ 2 × Vec ℝ 2),
      (l.map fun e => f e + 2 * π * (crossing (e.1 - p) (e.2 - p) : ℝ)).sum =
        (l.map f).sum + 2 * π * (crossings p l : ℝ)
  | [] => by simp [crossings]
  | e :: l => by
    have h : crossings p (e :: l) = crossing (e.1 - p) (e.2 - p) + crossings p l := by
      simp [crossings]
    rw [List.map_cons, List.sum_cons, sum_add_crossings p f l, List.map_cons, List.sum_cons, h]
    push_cast; ring

/-- C62. The winding number is the total angle under which the edges are seen, in full turns. -/
theorem winding_angle (p : Vec ℝ 2) (poly : List (Vec ℝ 2)) (h : ¬ OnBorder p poly) :
    2 * π * (windingNumber p poly : ℝ) = ((edges poly).map fun e => viewAngle p e.1 e.2).sum := by
  rw [(windingNumber_eq p poly).2 h]
  have hv : ∀ v ∈ poly, v - p ≠ 0 := by
    intro v hv h0
    obtain ⟨w, hw⟩ := exists_edge_from hv
    exact h ⟨(v, w), hw, 0, le_rfl, zero_le_one, by simp [sub_eq_zero.1 h0]⟩
  have hm : ((edges poly).map fun e => viewAngle p e.1 e.2) = (edges poly).map fun e =>
      (fullArg (e.2 - p) - fullArg (e.1 - p)) + 2 * π * (crossing (e.1 - p) (e.2 - p) : ℝ) := by
    apply List.map_congr_left
    intro e he
    obtain ⟨h1, h2⟩ := mem_of_mem_edges he
    exact viewAngle_eq (hv _ h1) (hv _ h2) fun hs => h ⟨e, he, hs.onSegment⟩
  rw [hm, sum_add_crossings p fun e => fullArg (e.2 - p) - fullArg (e.1 - p)]
  cases poly with
  | nil => simp [edges, pairs]
  | cons a rest =>
    rw [edges_cons, sum_pairs_telescope_real fun v => fullArg (v - p)]
    simp

/-- The hypothesis holds for a square and its centre; the four edges are seen under right angles. -/
example : ¬ OnBorder (F := ℝ) ![0, 0] [![1, 1], ![-1, 1], ![-1, -1], ![1, -1]] := by
  refine (winding_left ![0, 0] [![1, 1], ![-1, 1], ![-1, -1], ![1, -1]] (by simp) ?_).1
  intro e he
  simp only [edges, pairs, List.take, List.cons_append, List.nil_append, List.mem_cons,
    List.not_mem_nil, or_false] at he
  rcases he with rfl | rfl | rfl | rfl <;> unfold StrictLeft <;> norm_num

end Actl.Geo
