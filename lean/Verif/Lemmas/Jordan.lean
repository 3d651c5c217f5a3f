import Verif.Props.Winding
import Verif.Spec.SimplePolygon

/-!
Lemmas on the winding number of two points: how it changes along the segment between them.
-/

namespace Actl.Geo

variable {F : Type*} [Field F] [LinearOrder F] [IsStrictOrderedRing F]

/-! ### One edge -/

/-- The vertex is swept by the rays to the right from the points of the segment from `0` to `d`. -/
def shadow (d v : Vec F 2) : Int :=
  if 0 ≤ v 1 ∧ v 1 < d 1 ∧ area d v < 0 then 1
  else if d 1 ≤ v 1 ∧ v 1 < 0 ∧ 0 < area d v then -1
  else 0

/-- The edge from `u` to `w` crosses the segment from `0` to `d`: 1 if `0` is on the left of the edge. -/
def hit (d u w : Vec F 2) : Int :=
  if 0 < area u w ∧ area (u - d) (w - d) < 0 ∧ area d u < 0 ∧ 0 < area d w then 1
  else if area u w < 0 ∧ 0 < area (u - d) (w - d) ∧ 0 < area d u ∧ area d w < 0 then -1
  else 0

theorem hit_swap (d u w : Vec F 2) : hit d w u = -hit d u w := by
  have h1 : area w u = -area u w := by simp only [area]; ring
  have h2 : area (w - d) (u - d) = -area (u - d) (w - d) := by simp only [area]; ring
  unfold hit
  rw [h1, h2]
  simp only [neg_pos, neg_lt_zero]
  by_cases a : 0 < area u w ∧ area (u - d) (w - d) < 0 ∧ area d u < 0 ∧ 0 < area d w
  · have b : ¬ (area u w < 0 ∧ 0 < area (u - d) (w - d) ∧ area d w < 0 ∧ 0 < area d u) :=
      fun b => absurd a.1 (not_lt.2 b.1.le)
    rw [if_pos a, if_neg b, if_pos ⟨a.1, a.2.1, a.2.2.2, a.2.2.1⟩]
  · by_cases b : area u w < 0 ∧ 0 < area (u - d) (w - d) ∧ 0 < area d u ∧ area d w < 0
    · rw [if_pos ⟨b.1, b.2.1, b.2.2.2, b.2.2.1⟩, if_neg a, if_pos b]; rfl
    · rw [if_neg fun c => b ⟨c.1, c.2.1, c.2.2.2, c.2.2.1⟩,
        if_neg fun c => a ⟨c.1, c.2.1, c.2.2.2, c.2.2.1⟩, if_neg a, if_neg b]; rfl

theorem hit_neg (d u w : Vec F 2) : hit (-d) (u - d) (w - d) = -hit d u w := by
  have h1 : area (-d) (u - d) = -area d u := by simp [area]; ring
  have h2 : area (-d) (w - d) = -area d w := by simp [area]; ring
  have h3 : u - d - -d = u := by simp
  have h4 : w - d - -d = w := by simp
  unfold hit
  rw [h1, h2, h3, h4]
  simp only [neg_pos, neg_lt_zero]
  by_cases a : 0 < area u w ∧ area (u - d) (w - d) < 0 ∧ area d u < 0 ∧ 0 < area d w
  · have b : ¬ (0 < area (u - d) (w - d) ∧ area u w < 0 ∧ 0 < area d u ∧ area d w < 0) :=
      fun b => absurd a.1 (not_lt.2 b.2.1.le)
    rw [if_pos a, if_neg b, if_pos ⟨a.2.1, a.1, a.2.2⟩]
  · by_cases b : area u w < 0 ∧ 0 < area (u - d) (w - d) ∧ 0 < area d u ∧ area d w < 0
    · rw [if_pos ⟨b.2.1, b.1, b.2.2⟩, if_neg a, if_pos b]; rfl
    · rw [if_neg fun c => b ⟨c.2.1, c.1, c.2.2⟩, if_neg fun c => a ⟨c.2.1, c.1, c.2.2⟩, if_neg a,
        if_neg b]; rfl

theorem shadow_neg (d v : Vec F 2) : shadow (-d) (v - d) = -shadow d v := by
  have h1 : area (-d) (v - d) = -area d v := by simp [area]; ring
  unfold shadow
  rw [h1]
  simp only [neg_pos, neg_lt_zero, Pi.neg_apply, Pi.sub_apply]
  by_cases a : 0 ≤ v 1 ∧ v 1 < d 1 ∧ area d v < 0
  · have b : ¬ (0 ≤ v 1 - d 1 ∧ v 1 - d 1 < -d 1 ∧ 0 < area d v) := fun b => absurd a.2.2 (not_lt.2 b.2.2.le)
    rw [if_pos a, if_neg b, if_pos ⟨by linarith [a.1], by linarith [a.2.1], a.2.2⟩]
  · by_cases b : d 1 ≤ v 1 ∧ v 1 < 0 ∧ 0 < area d v
    · rw [if_pos ⟨by linarith [b.1], by linarith [b.2.1], b.2.2⟩, if_neg a, if_pos b]; rfl
    · rw [if_neg fun c => b ⟨by linarith [c.1], by linarith [c.2.1], c.2.2⟩,
        if_neg fun c => a ⟨by linarith [c.1], by linarith [c.2.1], c.2.2⟩, if_neg a, if_neg b]; rfl

/-- The point is on the segment from `0` to `d`. -/
def Along (d v : Vec F 2) : Prop := ∃ t : F, 0 ≤ t ∧ t ≤ 1 ∧ v = t • d

theorem along_of_mid {d v : Vec F 2} (hd : 0 < d 1) (h0 : 0 ≤ v 1) (h1 : v 1 ≤ d 1) (ha : area d v = 0) :
    Along d v := by
  refine ⟨v 1 / d 1, div_nonneg h0 hd.le, (div_le_one hd).2 h1, ?_⟩
  simp only [area] at ha
  apply vec2_ext
  · simp only [Pi.smul_apply, smul_eq_mul]
    field_simp
    linarith
  · simp only [Pi.smul_apply, smul_eq_mul]
    field_simp

theorem stops_of_area {u w : Vec F 2} (h : u 1 < 0 ∧ 0 ≤ w 1 ∨ 0 ≤ u 1 ∧ w 1 < 0) (ha : area u w = 0) :
    Stops u w := .inr (.inr ⟨h, ha⟩)

theorem area_key (d u w : Vec F 2) : d 1 * area u w = u 1 * area d w - w 1 * area d u := by
  simp only [area]; ring

theorem area_key' (d u w : Vec F 2) :
    d 1 * area (u - d) (w - d) = (u 1 - d 1) * area d w - (w 1 - d 1) * area d u := by
  simp only [area, Pi.sub_apply]; ring

theorem crossing_up {u w : Vec F 2} (h1 : u 1 < 0) (h2 : 0 ≤ w 1) :
    crossing u w = if 0 < area u w then 1 else 0 := by
  unfold crossing
  have : ¬ (0 ≤ u 1 ∧ w 1 < 0 ∧ area u w < 0) := fun h => absurd h.1 (not_le.2 h1)
  rw [if_neg this]
  by_cases h : 0 < area u w
  · rw [if_pos ⟨h1, h2, h⟩, if_pos h]
  · rw [if_neg fun c => h c.2.2, if_neg h]

theorem crossing_same {u w : Vec F 2} (h : u 1 < 0 ↔ w 1 < 0) : crossing u w = 0 := by
  unfold crossing
  rw [if_neg fun c => absurd (h.1 c.1) (not_lt.2 c.2.1), if_neg fun c => absurd (h.2 c.2.1) (not_lt.2 c.1)]

theorem hit_zero {d u w : Vec F 2} (h1 : ¬ (0 < area u w ∧ area (u - d) (w - d) < 0 ∧ area d u < 0 ∧ 0 < area d w))
    (h2 : ¬ (area u w < 0 ∧ 0 < area (u - d) (w - d) ∧ 0 < area d u ∧ area d w < 0)) : hit d u w = 0 := by
  unfold hit; rw [if_neg h1, if_neg h2]

set_option maxHeartbeats 1000000 in
/-- The upward case with `u` not higher than `w`, by the three zones of heights. -/
theorem crossing_move_up {d u w : Vec F 2} (hd : 0 < d 1) (hp : ¬ Stops u w) (hq : ¬ Stops (u - d) (w - d))
    (hu : ¬ Along d u) (hw : ¬ Along d w) (h01 : 0 ≤ u 1 → 0 ≤ w 1) (h12 : d 1 ≤ u 1 → d 1 ≤ w 1) :
    crossing u w - crossing (u - d) (w - d) = shadow d w - shadow d u + hit d u w := by
  have k := area_key d u w
  have k' := area_key' d u w
  have hs : ∀ v : Vec F 2, shadow d v = if 0 ≤ v 1 ∧ v 1 < d 1 ∧ area d v < 0 then 1 else 0 := by
    intro v
    unfold shadow
    have : ¬ (d 1 ≤ v 1 ∧ v 1 < 0 ∧ 0 < area d v) := fun h => by linarith [h.1, h.2.1]
    rw [if_neg this]
  have s0 : ∀ v : Vec F 2, d 1 ≤ v 1 ∨ v 1 < 0 ∨ 0 < area d v → shadow d v = 0 := by
    intro v h
    rw [hs, if_neg]
    rintro ⟨a, b, c⟩
    rcases h with h | h | h <;> linarith
  have s1 : ∀ v : Vec F 2, 0 ≤ v 1 → v 1 < d 1 → area d v < 0 → shadow d v = 1 := by
    intro v a b c
    rw [hs, if_pos ⟨a, b, c⟩]
  have sub1 : ∀ v : Vec F 2, (v - d) 1 = v 1 - d 1 := fun v => rfl
  by_cases u0 : 0 ≤ u 1
  · have w0 := h01 u0
    rw [crossing_same (u := u) (w := w) (by constructor <;> intro h <;> linarith)]
    by_cases u1 : d 1 ≤ u 1
    · have w1 := h12 u1
      rw [crossing_same (u := u - d) (w := w - d) (by rw [sub1, sub1]; constructor <;> intro h <;> linarith),
        s0 u (.inl u1), s0 w (.inl w1), hit_zero]
      · rfl
      · rintro ⟨-, b, c, e⟩
        nlinarith [mul_nonneg (sub_nonneg.2 u1) e.le, mul_nonneg (sub_nonneg.2 w1) (neg_nonneg.2 c.le), mul_neg_of_pos_of_neg hd b]
      · rintro ⟨a, b, c, e⟩
        nlinarith [mul_nonneg (sub_nonneg.2 u1) (neg_nonneg.2 e.le), mul_nonneg (sub_nonneg.2 w1) c.le, mul_pos hd b]
    · have u1 := not_le.1 u1
      have du : area d u ≠ 0 := fun h => hu (along_of_mid hd u0 u1.le h)
      by_cases w1 : d 1 ≤ w 1
      · -- mid, high
        rw [crossing_up (u := u - d) (w := w - d) (by rw [sub1]; linarith) (by rw [sub1]; linarith),
          s0 w (.inl w1)]
        have ha : area (u - d) (w - d) ≠ 0 := fun h => hq (stops_of_area (.inl ⟨by rw [sub1]; linarith, by rw [sub1]; linarith⟩) h)
        rcases lt_or_gt_of_ne du with du | du
        · rw [s1 u u0 u1 du]
          by_cases hb : 0 < area (u - d) (w - d)
          · rw [if_pos hb, hit_zero]
            · rfl
            · rintro ⟨-, b, -⟩; linarith
            · rintro ⟨-, -, c, -⟩; linarith
          · have hb' := lt_of_le_of_ne (not_lt.1 hb) ha
            rw [if_neg hb, hit, if_pos]
            · rfl
            · have dw : 0 < area d w := by
                by_contra h
                nlinarith [mul_nonneg (sub_nonneg.2 u1.le) (neg_nonneg.2 (not_lt.1 h)),
                  mul_nonneg (sub_nonneg.2 w1) (neg_nonneg.2 du.le), mul_neg_of_pos_of_neg hd hb']
              refine ⟨?_, hb', du, dw⟩
              by_contra h
              nlinarith [mul_nonneg u0 dw.le, mul_pos (lt_of_lt_of_le hd w1) (neg_pos.2 du), mul_nonneg hd.le (neg_nonneg.2 (not_lt.1 h))]
        · rw [s0 u (.inr (.inr du))]
          by_cases hb : 0 < area (u - d) (w - d)
          · have dw : area d w < 0 := by
              by_contra h
              nlinarith [mul_nonneg (sub_nonneg.2 u1.le) (not_lt.1 h),
                mul_nonneg (sub_nonneg.2 w1) du.le, mul_pos hd hb]
            have ha' : area u w < 0 := by
              by_contra h
              nlinarith [mul_nonneg u0 (neg_nonneg.2 dw.le), mul_pos (lt_of_lt_of_le hd w1) du, mul_nonneg hd.le (not_lt.1 h)]
            rw [if_pos hb, hit, if_neg (fun h => by linarith [h.1]), if_pos ⟨ha', hb, du, dw⟩]; rfl
          · rw [if_neg hb, hit_zero]
            · rfl
            · rintro ⟨-, -, c, -⟩; linarith
            · rintro ⟨-, b, -⟩; exact hb b
      · -- mid, mid
        have w1 := not_le.1 w1
        have dw : area d w ≠ 0 := fun h => hw (along_of_mid hd w0 w1.le h)
        rw [crossing_same (u := u - d) (w := w - d) (by rw [sub1, sub1]; constructor <;> intro h <;> linarith)]
        have ne : ∀ {x y : F}, 0 ≤ u 1 → 0 ≤ w 1 → 0 < x → 0 < y → u 1 * x + w 1 * y = 0 → u 1 = 0 ∧ w 1 = 0 := by
          intro x y a b c e h
          have h1 := mul_nonneg a c.le
          have h2 := mul_nonneg b e.le
          have h3 : u 1 * x = 0 := by linarith
          have h4 : w 1 * y = 0 := by linarith
          exact ⟨(mul_eq_zero.1 h3).resolve_right c.ne', (mul_eq_zero.1 h4).resolve_right e.ne'⟩
        rcases lt_or_gt_of_ne du with du | du <;> rcases lt_or_gt_of_ne dw with dw | dw
        · rw [s1 w w0 w1 dw, s1 u u0 u1 du, hit_zero]
          · rfl
          · rintro ⟨-, -, -, e⟩; linarith
          · rintro ⟨-, -, c, -⟩; linarith
        · rw [s0 w (.inr (.inr dw)), s1 u u0 u1 du, hit, if_pos]
          · rfl
          · refine ⟨?_, ?_, du, dw⟩
            · have h1 := mul_nonneg u0 dw.le
              have h2 := mul_nonneg w0 (neg_nonneg.2 du.le)
              rcases (show 0 ≤ d 1 * area u w by linarith).lt_or_eq with h | h
              · exact (pos_iff_pos_of_mul_pos h).1 hd
              · exfalso
                obtain ⟨x, y⟩ := ne u0 w0 dw (neg_pos.2 du) (by linarith)
                refine hp (.inr (.inl ⟨x, y, ?_⟩))
                simp only [area, x, y, mul_zero, zero_sub] at du dw
                right
                exact ⟨by nlinarith, by nlinarith⟩
            · by_contra h
              nlinarith [mul_pos (sub_pos.2 u1) dw, mul_pos (sub_pos.2 w1) (neg_pos.2 du), mul_nonneg hd.le (not_lt.1 h)]
        · rw [s1 w w0 w1 dw, s0 u (.inr (.inr du)), hit,
            if_neg (fun h => by linarith [h.2.2.1]), if_pos]
          · rfl
          · refine ⟨?_, ?_, du, dw⟩
            · have h1 := mul_nonneg u0 (neg_nonneg.2 dw.le)
              have h2 := mul_nonneg w0 du.le
              rcases (show 0 ≤ d 1 * -area u w by linarith).lt_or_eq with h | h
              · linarith [(pos_iff_pos_of_mul_pos h).1 hd]
              · exfalso
                obtain ⟨x, y⟩ := ne u0 w0 (neg_pos.2 dw) du (by linarith)
                refine hp (.inr (.inl ⟨x, y, ?_⟩))
                simp only [area, x, y, mul_zero, zero_sub] at du dw
                left
                exact ⟨by nlinarith, by nlinarith⟩
            · by_contra h
              nlinarith [mul_pos (sub_pos.2 u1) (neg_pos.2 dw), mul_pos (sub_pos.2 w1) du, mul_nonneg hd.le (neg_nonneg.2 (not_lt.1 h))]
        · rw [s0 w (.inr (.inr dw)), s0 u (.inr (.inr du)), hit_zero]
          · rfl
          · rintro ⟨-, -, c, -⟩; linarith
          · rintro ⟨-, -, -, e⟩; linarith
  · have u0 := not_le.1 u0
    rw [s0 u (.inr (.inl u0))]
    by_cases w0 : 0 ≤ w 1
    · have ha : area u w ≠ 0 := fun h => hp (stops_of_area (.inl ⟨u0, w0⟩) h)
      rw [crossing_up u0 w0]
      by_cases w1 : d 1 ≤ w 1
      · -- low, high
        have hb : area (u - d) (w - d) ≠ 0 := fun h => hq (stops_of_area (.inl ⟨by rw [sub1]; linarith, by rw [sub1]; linarith⟩) h)
        have wp : 0 < w 1 := by linarith
        rw [crossing_up (u := u - d) (w := w - d) (by rw [sub1]; linarith) (by rw [sub1]; linarith),
          s0 w (.inl w1)]
        rcases lt_or_gt_of_ne ha with ha | ha <;> rcases lt_or_gt_of_ne hb with hb | hb
        · rw [if_neg (not_lt.2 ha.le), if_neg (not_lt.2 hb.le), hit_zero]
          · rfl
          · rintro ⟨a, -⟩; linarith
          · rintro ⟨-, b, -⟩; linarith
        · have du : 0 < area d u := by
            by_contra h
            have h := not_lt.1 h
            have h2 : area d w < 0 := by
              by_contra h2
              nlinarith [mul_nonneg (show 0 ≤ d 1 - u 1 by linarith) (not_lt.1 h2), mul_nonneg (sub_nonneg.2 w1) (neg_nonneg.2 h), mul_pos hd hb,
                (show area u w - area (u - d) (w - d) = area d w - area d u by simp only [area, Pi.sub_apply]; ring)]
            nlinarith [mul_nonneg (neg_nonneg.2 u0.le) (neg_nonneg.2 h2.le), mul_nonneg wp.le (neg_nonneg.2 h), mul_neg_of_pos_of_neg hd ha]
          have dw : area d w < 0 := by
            by_contra h
            nlinarith [mul_nonneg (show 0 ≤ d 1 - u 1 by linarith) (not_lt.1 h), mul_nonneg (sub_nonneg.2 w1) du.le, mul_pos hd hb]
          rw [if_neg (not_lt.2 ha.le), if_pos hb, hit, if_neg (fun h => by linarith [h.1]), if_pos ⟨ha, hb, du, dw⟩]; rfl
        · have du : area d u < 0 := by
            by_contra h
            have h := not_lt.1 h
            have h2 : 0 < area d w := by
              by_contra h2
              nlinarith [(show area u w - area (u - d) (w - d) = area d w - area d u by simp only [area, Pi.sub_apply]; ring)]
            nlinarith [mul_nonneg (neg_nonneg.2 u0.le) h2.le, mul_nonneg wp.le h, mul_pos hd ha]
          have dw : 0 < area d w := by
            by_contra h
            nlinarith [mul_nonneg (show 0 ≤ d 1 - u 1 by linarith) (neg_nonneg.2 (not_lt.1 h)), mul_nonneg (sub_nonneg.2 w1) (neg_nonneg.2 du.le), mul_neg_of_pos_of_neg hd hb]
          rw [if_pos ha, if_neg (not_lt.2 hb.le), hit, if_pos ⟨ha, hb, du, dw⟩]; rfl
        · rw [if_pos ha, if_pos hb, hit_zero]
          · rfl
          · rintro ⟨-, b, -⟩; linarith
          · rintro ⟨a, -⟩; linarith
      · -- low, mid
        have w1 := not_le.1 w1
        have dw : area d w ≠ 0 := fun h => hw (along_of_mid hd w0 w1.le h)
        rw [crossing_same (u := u - d) (w := w - d) (by rw [sub1, sub1]; constructor <;> intro h <;> linarith)]
        rcases lt_or_gt_of_ne dw with dw | dw
        · rw [s1 w w0 w1 dw]
          rcases lt_or_gt_of_ne ha with ha | ha
          · have du : 0 < area d u := by
              by_contra h
              nlinarith [mul_nonneg (neg_nonneg.2 u0.le) (neg_nonneg.2 dw.le), mul_nonneg w0 (neg_nonneg.2 (not_lt.1 h)), mul_neg_of_pos_of_neg hd ha]
            have hb : 0 < area (u - d) (w - d) := by
              by_contra h
              nlinarith [mul_pos (show 0 < d 1 - u 1 by linarith) (neg_pos.2 dw), mul_pos (sub_pos.2 w1) du, mul_nonneg hd.le (neg_nonneg.2 (not_lt.1 h))]
            rw [if_neg (not_lt.2 ha.le), hit, if_neg (fun h => by linarith [h.1]), if_pos ⟨ha, hb, du, dw⟩]; rfl
          · rw [if_pos ha, hit_zero]
            · rfl
            · rintro ⟨-, -, -, e⟩; linarith
            · rintro ⟨a, -⟩; linarith
        · rw [s0 w (.inr (.inr dw))]
          rcases lt_or_gt_of_ne ha with ha | ha
          · rw [if_neg (not_lt.2 ha.le), hit_zero]
            · rfl
            · rintro ⟨a, -⟩; linarith
            · rintro ⟨-, -, -, e⟩; linarith
          · have du : area d u < 0 := by
              by_contra h
              nlinarith [mul_nonneg (neg_nonneg.2 u0.le) dw.le, mul_nonneg w0 (not_lt.1 h), mul_pos hd ha]
            have hb : area (u - d) (w - d) < 0 := by
              by_contra h
              nlinarith [mul_pos (show 0 < d 1 - u 1 by linarith) dw, mul_pos (sub_pos.2 w1) (neg_pos.2 du), mul_nonneg hd.le (not_lt.1 h)]
            rw [if_pos ha, hit, if_pos ⟨ha, hb, du, dw⟩]; rfl
    · have w0 := not_le.1 w0
      rw [crossing_same (u := u) (w := w) (by constructor <;> intro h <;> linarith),
        crossing_same (u := u - d) (w := w - d) (by rw [sub1, sub1]; constructor <;> intro h <;> linarith),
        s0 w (.inr (.inl w0)), hit_zero]
      · rfl
      · rintro ⟨a, -, c, e⟩
        nlinarith [mul_pos (neg_pos.2 u0) e, mul_pos (neg_pos.2 w0) (neg_pos.2 c), mul_pos hd a]
      · rintro ⟨a, -, c, e⟩
        nlinarith [mul_pos (neg_pos.2 u0) (neg_pos.2 e), mul_pos (neg_pos.2 w0) c, mul_pos hd (neg_pos.2 a)]

theorem crossing_move_level {d u w : Vec F 2} (hd : d 1 = 0) (hp : ¬ Stops u w) (hq : ¬ Stops (u - d) (w - d))
    (hw : ¬ Along d w) (u0 : u 1 < 0) (w0 : 0 ≤ w 1) :
    crossing u w - crossing (u - d) (w - d) = hit d u w := by
  have sub1 : ∀ v : Vec F 2, (v - d) 1 = v 1 := fun v => by simp [hd]
  have ha : area u w ≠ 0 := fun h => hp (stops_of_area (.inl ⟨u0, w0⟩) h)
  have hb : area (u - d) (w - d) ≠ 0 := fun h => hq (stops_of_area (.inl ⟨by rwa [sub1], by rwa [sub1]⟩) h)
  have au : area d u = d 0 * u 1 := by simp [area, hd]
  have aw : area d w = d 0 * w 1 := by simp [area, hd]
  have hdiff : area u w - area (u - d) (w - d) = d 0 * (w 1 - u 1) := by
    simp only [area, Pi.sub_apply, hd]; ring
  rw [crossing_up u0 w0, crossing_up (u := u - d) (w := w - d) (by rwa [sub1]) (by rwa [sub1])]
  have wn : 0 < d 0 ∧ 0 < area u w ∧ area (u - d) (w - d) < 0 ∨ d 0 < 0 ∧ area u w < 0 ∧ 0 < area (u - d) (w - d) → 0 < w 1 := by
    intro h
    rcases w0.lt_or_eq with h0 | h0
    · exact h0
    · exfalso
      refine hw ⟨w 0 / d 0, ?_⟩
      have e1 : area u w = -(u 1 * w 0) := by simp only [area, ← h0]; ring
      have e2 : area (u - d) (w - d) = -(u 1 * (w 0 - d 0)) := by simp only [area, Pi.sub_apply, ← h0, hd]; ring
      have hv : d 0 ≠ 0 → w = (w 0 / d 0) • d := by
        intro hne
        apply vec2_ext
        · simp [hne]
        · simp [hd, ← h0]
      rcases h with ⟨a, b, c⟩ | ⟨a, b, c⟩
      · have g1 : 0 < w 0 := by nlinarith
        have g2 : w 0 < d 0 := by nlinarith
        exact ⟨by positivity, (div_le_one a).2 g2.le, hv a.ne'⟩
      · have g1 : w 0 < 0 := by nlinarith
        have g2 : d 0 < w 0 := by nlinarith
        exact ⟨div_nonneg_of_nonpos g1.le a.le, (div_le_one_of_neg a).2 g2.le, hv a.ne⟩
  rcases lt_or_gt_of_ne ha with ha | ha <;> rcases lt_or_gt_of_ne hb with hb | hb
  · rw [if_neg (not_lt.2 ha.le), if_neg (not_lt.2 hb.le), hit_zero]
    · rfl
    · rintro ⟨a, -⟩; linarith
    · rintro ⟨-, b, -⟩; linarith
  · have d0 : d 0 < 0 := by nlinarith
    have w1 := wn (.inr ⟨d0, ha, hb⟩)
    rw [if_neg (not_lt.2 ha.le), if_pos hb, hit, if_neg (fun h => by linarith [h.1]), if_pos]
    · rfl
    · exact ⟨ha, hb, by rw [au]; nlinarith, by rw [aw]; nlinarith⟩
  · have d0 : 0 < d 0 := by nlinarith
    have w1 := wn (.inl ⟨d0, ha, hb⟩)
    rw [if_pos ha, if_neg (not_lt.2 hb.le), hit, if_pos]
    · rfl
    · exact ⟨ha, hb, by rw [au]; nlinarith, by rw [aw]; nlinarith⟩
  · rw [if_pos ha, if_pos hb, hit_zero]
    · rfl
    · rintro ⟨-, b, -⟩; linarith
    · rintro ⟨a, -⟩; linarith

/-- How the contribution of an edge changes from one point to another. -/
theorem crossing_move {d u w : Vec F 2} (hp : ¬ Stops u w) (hp' : ¬ Stops w u) (hq : ¬ Stops (u - d) (w - d))
    (hq' : ¬ Stops (w - d) (u - d)) (hu : ¬ Along d u) (hw : ¬ Along d w) :
    crossing u w - crossing (u - d) (w - d) = shadow d w - shadow d u + hit d u w := by
  -- the upward case, `u` and `w` in any order
  have up : ∀ {d u w : Vec F 2}, 0 < d 1 → ¬ Stops u w → ¬ Stops w u → ¬ Stops (u - d) (w - d) →
      ¬ Stops (w - d) (u - d) → ¬ Along d u → ¬ Along d w →
      crossing u w - crossing (u - d) (w - d) = shadow d w - shadow d u + hit d u w := by
    intro d u w hd hp hp' hq hq' hu hw
    by_cases h : (0 ≤ u 1 → 0 ≤ w 1) ∧ (d 1 ≤ u 1 → d 1 ≤ w 1)
    · exact crossing_move_up hd hp hq hu hw h.1 h.2
    · have g : (0 ≤ w 1 → 0 ≤ u 1) ∧ (d 1 ≤ w 1 → d 1 ≤ u 1) := by
        constructor
        · intro a; by_contra b; exact h ⟨fun c => absurd c b, fun c => by linarith⟩
        · intro a; by_contra b; exact h ⟨fun c => by linarith, fun c => absurd c b⟩
      have := crossing_move_up hd hp' hq' hw hu g.1 g.2
      rw [crossing_swap, crossing_swap (u - d), hit_swap] at this
      linarith
  rcases lt_trichotomy (d 1) 0 with hd | hd | hd
  · have n1 : ∀ v : Vec F 2, v - d - -d = v := fun v => by simp
    have n2 : ∀ v : Vec F 2, ¬ Along d v → ¬ Along (-d) (v - d) := by
      rintro v hv ⟨t, h0, h1, e⟩
      refine hv ⟨1 - t, by linarith, by linarith, ?_⟩
      have e0 := congrFun e 0
      have e1 := congrFun e 1
      simp only [Pi.sub_apply, Pi.smul_apply, Pi.neg_apply, smul_eq_mul] at e0 e1
      apply vec2_ext <;> simp only [Pi.smul_apply, smul_eq_mul] <;> linarith
    have := up (d := -d) (u := u - d) (w := w - d) (by simpa using hd) hq hq' (by rwa [n1, n1]) (by rwa [n1, n1])
      (n2 u hu) (n2 w hw)
    rw [n1, n1, shadow_neg, shadow_neg, hit_neg] at this
    linarith
  · have hs : ∀ v : Vec F 2, shadow d v = 0 := by
      intro v
      unfold shadow
      rw [if_neg (fun h => by linarith [h.1, h.2.1]), if_neg (fun h => by linarith [h.1, h.2.1])]
    rw [hs, hs, sub_self, zero_add]
    have sub1 : ∀ v : Vec F 2, (v - d) 1 = v 1 := fun v => by simp [hd]
    by_cases u0 : u 1 < 0
    · by_cases w0 : w 1 < 0
      · rw [crossing_same (u := u) (w := w) (by tauto), crossing_same (by rw [sub1, sub1]; tauto), hit_zero]
        · rfl
        · rintro ⟨-, -, c, e⟩
          simp only [area, hd, zero_mul, sub_zero] at c e
          nlinarith
        · rintro ⟨-, -, c, e⟩
          simp only [area, hd, zero_mul, sub_zero] at c e
          nlinarith
      · exact crossing_move_level hd hp hq hw u0 (not_lt.1 w0)
    · by_cases w0 : w 1 < 0
      · have := crossing_move_level hd hp' hq' hu w0 (not_lt.1 u0)
        rw [crossing_swap, crossing_swap (u - d), hit_swap] at this
        linarith
      · rw [crossing_same (u := u) (w := w) (by tauto), crossing_same (by rw [sub1, sub1]; tauto), hit_zero]
        · rfl
        · rintro ⟨-, -, c, e⟩
          simp only [area, hd, zero_mul, sub_zero] at c e
          have a := not_lt.1 u0
          have b := not_lt.1 w0
          rcases le_total 0 (d 0) with h | h <;>
            first | nlinarith [mul_nonneg h a, mul_nonneg h b] | nlinarith [mul_nonneg (neg_nonneg.2 h) a, mul_nonneg (neg_nonneg.2 h) b]
        · rintro ⟨-, -, c, e⟩
          simp only [area, hd, zero_mul, sub_zero] at c e
          have a := not_lt.1 u0
          have b := not_lt.1 w0
          rcases le_total 0 (d 0) with h | h <;>
            first | nlinarith [mul_nonneg h a, mul_nonneg h b] | nlinarith [mul_nonneg (neg_nonneg.2 h) a, mul_nonneg (neg_nonneg.2 h) b]
  · exact up hd hp hp' hq hq' hu hw

/-! ### Polygons -/

theorem onSegment_of_along {p q a : Vec F 2} (h : Along (q - p) (a - p)) : OnSegment a p q := by
  obtain ⟨t, h0, h1, e⟩ := h
  exact ⟨t, h0, h1, by rw [← e]; simp⟩

/-- An edge that crosses a segment has a common point with it. -/
theorem hit_common {d u w : Vec F 2} (h : hit d u w ≠ 0) :
    ∃ t s : F, 0 < t ∧ t < 1 ∧ 0 < s ∧ s < 1 ∧ t • d = u + s • (w - u) := by
  have hdiff : area u w - area (u - d) (w - d) = area d w - area d u := by
    simp only [area, Pi.sub_apply]; ring
  have key : ∀ {k : F}, k = area u w - area (u - d) (w - d) → k ≠ 0 →
      (area u w / k) • d = u + (-area d u / k) • (w - u) := by
    intro k hk hk0
    apply vec2_ext <;> simp only [Pi.smul_apply, Pi.add_apply, Pi.sub_apply, smul_eq_mul] <;> field_simp <;>
      rw [hk] <;> simp only [area, Pi.sub_apply] <;> ring
  unfold hit at h
  by_cases a : 0 < area u w ∧ area (u - d) (w - d) < 0 ∧ area d u < 0 ∧ 0 < area d w
  · obtain ⟨h1, h2, h3, h4⟩ := a
    have hk : 0 < area u w - area (u - d) (w - d) := by linarith
    refine ⟨_, _, div_pos h1 hk, (div_lt_one hk).2 (by linarith), div_pos (by linarith) hk,
      (div_lt_one hk).2 (by linarith), key rfl hk.ne'⟩
  · rw [if_neg a] at h
    by_cases b : area u w < 0 ∧ 0 < area (u - d) (w - d) ∧ 0 < area d u ∧ area d w < 0
    · obtain ⟨h1, h2, h3, h4⟩ := b
      have hk : area u w - area (u - d) (w - d) < 0 := by linarith
      refine ⟨_, _, div_pos_of_neg_of_neg h1 hk, (div_lt_one_of_neg hk).2 (by linarith),
        div_pos_of_neg_of_neg (by linarith) hk, (div_lt_one_of_neg hk).2 (by linarith), key rfl hk.ne⟩
    · rw [if_neg b] at h; exact absurd rfl h

theorem onSegment_left (a b : Vec F 2) : OnSegment a a b := ⟨0, le_rfl, zero_le_one, by simp⟩

theorem onSegment_right (a b : Vec F 2) : OnSegment b a b := ⟨1, zero_le_one, le_rfl, by simp⟩

/-- The numbers of two points differ by the signed number of edges crossed on the way. -/
theorem winding_diff {p q : Vec F 2} {poly : List (Vec F 2)} (hp : ¬ OnBorder p poly) (hq : ¬ OnBorder q poly)
    (hv : ∀ v ∈ poly, ¬ OnSegment v p q) :
    windingNumber p poly - windingNumber q poly =
      ((edges poly).map fun e => hit (q - p) (e.1 - p) (e.2 - p)).sum := by
  rw [(windingNumber_eq p poly).2 hp, (windingNumber_eq q poly).2 hq]
  have he : ∀ e ∈ edges poly, crossing (e.1 - p) (e.2 - p) - crossing (e.1 - q) (e.2 - q) =
      (shadow (q - p) (e.2 - p) - shadow (q - p) (e.1 - p)) + hit (q - p) (e.1 - p) (e.2 - p) := by
    intro e he
    obtain ⟨h1, h2⟩ := mem_of_mem_edges he
    have c : ∀ v : Vec F 2, v - p - (q - p) = v - q := fun v => by simp
    have := crossing_move (d := q - p) (u := e.1 - p) (w := e.2 - p)
      (fun h => hp ⟨e, he, h.onSegment⟩) (fun h => hp ⟨e, he, onSegment_symm h.onSegment⟩)
      (by rw [c, c]; exact fun h => hq ⟨e, he, h.onSegment⟩)
      (by rw [c, c]; exact fun h => hq ⟨e, he, onSegment_symm h.onSegment⟩)
      (fun h => hv _ h1 (onSegment_of_along h)) (fun h => hv _ h2 (onSegment_of_along h))
    rwa [c, c] at this
  have hsum : ∀ (l : List (Vec F 2 × Vec F 2)) (f g h k : Vec F 2 × Vec F 2 → Int),
      (∀ e ∈ l, f e - g e = h e + k e) → (l.map f).sum - (l.map g).sum = (l.map h).sum + (l.map k).sum := by
    intro l f g h k
    induction l with
    | nil => intro _; simp
    | cons x l ih =>
      intro hh
      have h1 := ih fun e he => hh e (by simp [he])
      have h2 := hh x (by simp)
      simp only [List.map_cons, List.sum_cons]
      linarith
  unfold crossings
  rw [hsum _ _ _ _ _ he]
  have : ((edges poly).map fun e => shadow (q - p) (e.2 - p) - shadow (q - p) (e.1 - p)).sum = 0 := by
    cases poly with
    | nil => simp [edges, pairs]
    | cons x rest =>
      rw [edges_cons, sum_pairs_telescope (fun v : Vec F 2 => shadow (q - p) (v - p)), sub_self]
  rw [this, zero_add]

/-- The number does not change along a segment that does not meet the border. -/
theorem winding_clear {p q : Vec F 2} {poly : List (Vec F 2)} (h : ∀ x, OnSegment x p q → ¬ OnBorder x poly) :
    windingNumber p poly = windingNumber q poly := by
  have hv : ∀ v ∈ poly, ¬ OnSegment v p q := by
    intro v hv hs
    obtain ⟨b, hb⟩ := exists_edge_from hv
    exact h v hs ⟨_, hb, onSegment_left _ _⟩
  have := winding_diff (h p (onSegment_left p q)) (h q (onSegment_right p q)) hv
  have h0 : ((edges poly).map fun e => hit (q - p) (e.1 - p) (e.2 - p)).sum = 0 := by
    apply List.sum_eq_zero
    intro x hx
    obtain ⟨e, he, rfl⟩ := List.mem_map.1 hx
    by_contra hne
    obtain ⟨t, s, t0, t1, s0, s1, e1⟩ := hit_common hne
    refine h (p + t • (q - p)) ⟨t, t0.le, t1.le, rfl⟩ ⟨e, he, s, s0.le, s1.le, ?_⟩
    rw [e1]
    apply vec2_ext <;> simp <;> ring
  rw [h0] at this
  linarith

end Actl.Geo
