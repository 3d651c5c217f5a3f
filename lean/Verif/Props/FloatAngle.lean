import Verif.Model.FloatAngle
import Verif.Spec.FloatAngle
import Verif.Props.FloatGeometry
import Verif.Props.SortAngle

/-!
# Sorting points by angle with floating point coordinates

C126.
-/

namespace Actl.Geo

section
variable {F : Type*} [Field F] [LinearOrder F] [IsStrictOrderedRing F]
variable {fl : F → F} {u : F} {E : Type*}

theorem orientationR_eq (h : SignedRounding fl u) (l r : Vec F 2) :
    orientationR fl l r = Turn.ofSign (fl (r 0 * l 1) - fl (r 1 * l 0)) := by
  rw [orientationR, areaR, ofSign_fl h]

theorem angleLessR_iff (h : SignedRounding fl u) (toPoint : E → Vec F 2) (l r : E) :
    angleLessR fl toPoint l r = true ↔ fl (toPoint r 0 * toPoint l 1) < fl (toPoint r 1 * toPoint l 0) := by
  rw [angleLessR, decide_eq_true_eq, orientationR_eq h, Turn.ofSign]
  split_ifs with h1 h2
  · simpa [sub_neg] using h1
  · simp only [reduceCtorEq, false_iff, not_lt]; linarith
  · simp only [reduceCtorEq, false_iff, not_lt]; linarith

/-- With a rounding that keeps the order of numbers, the comparison may take different directions for equal, but never the larger
angle for the smaller one. -/
theorem angle_rounded_sound (h : SignedRounding fl u) (hm : Monotone fl) (toPoint : E → Vec F 2) (l r : E)
    (hl : angleLessR fl toPoint l r = true) : 0 < toPoint l 0 * toPoint r 1 - toPoint l 1 * toPoint r 0 := by
  rw [angleLessR_iff h] at hl
  have := hm.reflect_lt hl
  linarith

/-- Directions that are the same or opposite are taken for equal. -/
theorem angle_rounded_parallel (h : SignedRounding fl u) (toPoint : E → Vec F 2) (l r : E)
    (he : toPoint l 0 * toPoint r 1 - toPoint l 1 * toPoint r 0 = 0) : angleLessR fl toPoint l r = false := by
  rw [← Bool.not_eq_true, angleLessR_iff h, show toPoint r 0 * toPoint l 1 = toPoint r 1 * toPoint l 0 by linarith]
  exact lt_irrefl _

/-- The comparison is exact for directions that are apart. -/
theorem angle_rounded (h : SignedRounding fl u) {toPoint : E → Vec F 2} {points : List E} (ha : DirectionsApart u toPoint points)
    {l r : E} (hl : l ∈ points) (hr : r ∈ points) :
    angleLessR fl toPoint l r = true ↔ 0 < toPoint l 0 * toPoint r 1 - toPoint l 1 * toPoint r 0 := by
  rcases ha l hl r hr with he | he
  · rw [angle_rounded_parallel h toPoint l r he, he]
    simp
  · rw [angleLessR_iff h]
    have h1 := abs_le.1 (h.near (toPoint r 0 * toPoint l 1))
    have h2 := abs_le.1 (h.near (toPoint r 1 * toPoint l 0))
    rw [mul_comm (toPoint l 1) (toPoint r 0), mul_comm (toPoint l 0) (toPoint r 1), mul_add] at he
    rw [mul_comm (toPoint l 1) (toPoint r 0), mul_comm (toPoint l 0) (toPoint r 1)]
    constructor
    · intro hlt
      by_contra hn
      rw [abs_of_nonpos (not_lt.1 hn)] at he
      linarith [h1.1, h2.2]
    · intro hlt
      rw [abs_of_pos hlt] at he
      linarith [h1.2, h2.1]

theorem yCompare_upper (v : Vec F 2) : yCompare 0 v = true ↔ Upper v := by
  simp only [yCompare, Pi.zero_apply, Bool.or_eq_true, decide_eq_true_eq, Bool.and_eq_true, Upper]
  rw [eq_comm (a := (0 : F))]

omit [LinearOrder F] [IsStrictOrderedRing F] in
theorem cross_identity (a b c : Vec F 2) : (a 0 * c 1 - a 1 * c 0) * b 1 =
    (a 0 * b 1 - a 1 * b 0) * c 1 + (b 0 * c 1 - b 1 * c 0) * a 1 := by ring

/-- In the upper half the order by angle is transitive. -/
theorem upper_trans {a b c : Vec F 2} (ha : Upper a) (hb : Upper b) (hc : Upper c) (h1 : 0 < a 0 * b 1 - a 1 * b 0)
    (h2 : 0 < b 0 * c 1 - b 1 * c 0) : 0 < a 0 * c 1 - a 1 * c 0 := by
  have ha1 : 0 ≤ a 1 := by rcases ha with h | h <;> linarith
  have hb1 : 0 < b 1 := by
    rcases hb with h | ⟨h, h'⟩
    · exact h
    · rw [h] at h1
      nlinarith
  have hc1 : 0 < c 1 := by
    rcases hc with h | ⟨h, h'⟩
    · exact h
    · rw [h] at h2
      nlinarith
  have := cross_identity a b c
  have h3 := mul_pos h1 hc1
  have h4 := mul_nonneg h2.le ha1
  by_contra hn
  nlinarith

theorem upper_trans_not {a b c : Vec F 2} (ha : Upper a) (hb : Upper b) (hc : Upper c) (h1 : a 0 * b 1 - a 1 * b 0 ≤ 0)
    (h2 : b 0 * c 1 - b 1 * c 0 ≤ 0) : a 0 * c 1 - a 1 * c 0 ≤ 0 := by
  have ha1 : 0 ≤ a 1 := by rcases ha with h | h <;> linarith
  have hc1 : 0 ≤ c 1 := by rcases hc with h | h <;> linarith
  rcases hb with hb | ⟨hb, hb'⟩
  · have := cross_identity a b c
    have h3 := mul_nonneg (neg_nonneg.2 h1) hc1
    have h4 := mul_nonneg (neg_nonneg.2 h2) ha1
    by_contra hn
    have := mul_pos (not_le.1 hn) hb
    linarith
  · rw [hb, zero_mul, sub_zero] at h2
    have hz : c 1 = 0 := by
      by_contra hne
      have : 0 < b 0 * c 1 := mul_pos hb' (lt_of_le_of_ne hc1 (Ne.symm hne))
      linarith
    have hc0 : 0 < c 0 := by
      rcases hc with h | h
      · linarith
      · exact h.2
    rw [hz, mul_zero, zero_sub]
    exact neg_nonpos.2 (mul_nonneg ha1 hc0.le)

theorem lower_neg {v : Vec F 2} (h0 : v ≠ 0) (h : ¬ Upper v) : Upper (-v) := by
  unfold Upper at *
  push Not at h
  simp only [Pi.neg_apply]
  rcases h.1.lt_or_eq with h1 | h1
  · exact .inl (by linarith)
  · refine .inr ⟨by linarith, ?_⟩
    rcases (h.2 h1).lt_or_eq with h2 | h2
    · linarith
    · exact absurd (vec2_ext h2 h1) h0

/-- In one half the comparison is a strict weak order, so `std::sort` sorts. -/
theorem sort_half_rounded (h : SignedRounding fl u) (alg : StdAlgorithms E) (hg : alg.Correct) {toPoint : E → Vec F 2} {l : List E}
    (ha : DirectionsApart u toPoint l) (h0 : ∀ x ∈ l, toPoint x ≠ 0)
    (hh : (∀ x ∈ l, Upper (toPoint x)) ∨ ∀ x ∈ l, ¬ Upper (toPoint x)) :
    StrictWeak (angleLessR fl toPoint) l ∧ (alg.sort (angleLessR fl toPoint) l).Perm l ∧
      (alg.sort (angleLessR fl toPoint) l).Pairwise fun a b =>
        0 ≤ toPoint a 0 * toPoint b 1 - toPoint a 1 * toPoint b 0 := by
  have key : ∀ a ∈ l, ∀ b ∈ l, (angleLessR fl toPoint a b = true ↔
      0 < toPoint a 0 * toPoint b 1 - toPoint a 1 * toPoint b 0) := fun a hal b hbl => angle_rounded h ha hal hbl
  have key' : ∀ a ∈ l, ∀ b ∈ l, (angleLessR fl toPoint a b = false ↔
      toPoint a 0 * toPoint b 1 - toPoint a 1 * toPoint b 0 ≤ 0) := fun a hal b hbl => by
    rw [← Bool.not_eq_true, key a hal b hbl, not_lt]
  have hn : ∀ a b : Vec F 2, (-a) 0 * (-b) 1 - (-a) 1 * (-b) 0 = a 0 * b 1 - a 1 * b 0 := fun a b => by
    simp only [Pi.neg_apply]; ring
  have hsw : StrictWeak (angleLessR fl toPoint) l := by
    refine ⟨fun a hal => (key' a hal a hal).2 (by rw [mul_comm, sub_self]), ?_, ?_⟩
    · intro a hal b hbl c hcl h1 h2
      rw [key _ hal _ hbl] at h1
      rw [key _ hbl _ hcl] at h2
      rw [key _ hal _ hcl]
      rcases hh with hh | hh
      · exact upper_trans (hh a hal) (hh b hbl) (hh c hcl) h1 h2
      · rw [← hn] at h1 h2 ⊢
        exact upper_trans (lower_neg (h0 a hal) (hh a hal)) (lower_neg (h0 b hbl) (hh b hbl)) (lower_neg (h0 c hcl) (hh c hcl)) h1 h2
    · intro a hal b hbl c hcl h1 h2
      rw [key' _ hal _ hbl] at h1
      rw [key' _ hbl _ hcl] at h2
      rw [key' _ hal _ hcl]
      rcases hh with hh | hh
      · exact upper_trans_not (hh a hal) (hh b hbl) (hh c hcl) h1 h2
      · rw [← hn] at h1 h2 ⊢
        exact upper_trans_not (lower_neg (h0 a hal) (hh a hal)) (lower_neg (h0 b hbl) (hh b hbl))
          (lower_neg (h0 c hcl) (hh c hcl)) h1 h2
  obtain ⟨hp, hs⟩ := hg.2 _ l hsw
  refine ⟨hsw, hp, hs.imp_of_mem ?_⟩
  intro a b hal hbl hab
  have := (key' b (hp.subset hbl) a (hp.subset hal)).1 hab
  linarith

/-- C126. With directions that are apart, `sort_by_angle` of floating point coordinates sorts by the exact angles. -/
theorem sort_by_angle_rounded (h : SignedRounding fl u) (alg : StdAlgorithms E) (hg : alg.Correct) {toPoint : E → Vec F 2}
    {points : List E} (ha : DirectionsApart u toPoint points) :
    (sortByAngleR fl alg toPoint points).Perm points ∧
      (sortByAngleR fl alg toPoint points).Pairwise fun a b => NotAfter (toPoint a) (toPoint b) := by
  unfold sortByAngleR
  obtain ⟨p1, p2, p3⟩ := hg.1 (fun x => degenerate (toPoint x)) points
  generalize alg.partition (fun x => degenerate (toPoint x)) points = parts at *
  obtain ⟨q1, q2, q3⟩ := hg.1 (fun x => yCompare 0 (toPoint x)) parts.2
  simp only
  generalize alg.partition (fun x => yCompare 0 (toPoint x)) parts.2 = halves at *
  have hz : ∀ x ∈ parts.1, toPoint x = 0 := by
    intro x hx
    have := (degenerate_iff _).1 (p2 x hx)
    simpa using this
  have hn : ∀ x ∈ parts.2, toPoint x ≠ 0 := by
    intro x hx h0
    have := p3 x hx
    rw [(degenerate_iff _).2 (by rw [h0])] at this
    cases this
  have hn1 : ∀ x ∈ halves.1, toPoint x ≠ 0 := fun x hx => hn x (q1.subset (List.mem_append_left _ hx))
  have hn2 : ∀ x ∈ halves.2, toPoint x ≠ 0 := fun x hx => hn x (q1.subset (List.mem_append_right _ hx))
  have m2 : ∀ x ∈ parts.2, x ∈ points := fun x hx => p1.subset (List.mem_append_right _ hx)
  have m21 : ∀ x ∈ halves.1, x ∈ points := fun x hx => m2 x (q1.subset (List.mem_append_left _ hx))
  have m22 : ∀ x ∈ halves.2, x ∈ points := fun x hx => m2 x (q1.subset (List.mem_append_right _ hx))
  have hu : ∀ x ∈ halves.1, Upper (toPoint x) := fun x hx => (yCompare_upper _).1 (q2 x hx)
  have hl : ∀ x ∈ halves.2, ¬ Upper (toPoint x) := fun x hx hc => by
    have := q3 x hx
    rw [(yCompare_upper _).2 hc] at this
    cases this
  obtain ⟨-, s1, s2⟩ := sort_half_rounded h alg hg (fun a hal b hbl => ha a (m21 a hal) b (m21 b hbl)) hn1 (.inl hu)
  obtain ⟨-, t1, t2⟩ := sort_half_rounded h alg hg (fun a hal b hbl => ha a (m22 a hal) b (m22 b hbl)) hn2 (.inr hl)
  generalize alg.sort (angleLessR fl toPoint) halves.1 = us at *
  generalize alg.sort (angleLessR fl toPoint) halves.2 = ls at *
  refine ⟨(List.Perm.append_left _ ((s1.append t1).trans q1)).trans p1, ?_⟩
  rw [List.pairwise_append, List.pairwise_append]
  refine ⟨?_, ⟨?_, ?_, ?_⟩, ?_⟩
  · exact List.pairwise_of_forall_mem_list fun a ha b _ => Or.inl (hz a ha)
  · exact s2.imp_of_mem fun ha hb h => Or.inr ⟨hn1 _ (s1.subset ha), hn1 _ (s1.subset hb),
      .inr ⟨⟨fun _ => hu _ (s1.subset hb), fun _ => hu _ (s1.subset ha)⟩, h⟩⟩
  · exact t2.imp_of_mem fun ha hb h => Or.inr ⟨hn2 _ (t1.subset ha), hn2 _ (t1.subset hb),
      .inr ⟨⟨fun hc => absurd hc (hl _ (t1.subset ha)), fun hc => absurd hc (hl _ (t1.subset hb))⟩, h⟩⟩
  · intro a ha b hb
    exact Or.inr ⟨hn1 _ (s1.subset ha), hn2 _ (t1.subset hb), .inl ⟨hu _ (s1.subset ha), hl _ (t1.subset hb)⟩⟩
  · intro a ha b _
    exact Or.inl (hz a ha)

/-- Points on a grid: the directions are apart as soon as the grid has few points for the precision. -/
theorem directions_grid {g : F} {M : Int} {toPoint : E → Vec F 2} {points : List E} (hu : 0 ≤ u) (hM : u * (2 * (M * M)) < 1)
    (hg : ∀ x ∈ points, OnGrid g M (toPoint x)) : DirectionsApart u toPoint points := by
  intro a ha b hb
  obtain ⟨a0, ha0, ea0⟩ := hg a ha 0
  obtain ⟨a1, ha1, ea1⟩ := hg a ha 1
  obtain ⟨b0, hb0, eb0⟩ := hg b hb 0
  obtain ⟨b1, hb1, eb1⟩ := hg b hb 1
  have e : toPoint a 0 * toPoint b 1 - toPoint a 1 * toPoint b 0 = ((a0 * b1 - a1 * b0 : Int) : F) * g ^ 2 := by
    rw [ea0, ea1, eb0, eb1]; push_cast; ring
  by_cases hz : toPoint a 0 * toPoint b 1 - toPoint a 1 * toPoint b 0 = 0
  · exact .inl hz
  · right
    rw [e] at hz ⊢
    have hk : (1 : F) ≤ |((a0 * b1 - a1 * b0 : Int) : F)| := by
      rw [← Int.cast_abs]
      have : a0 * b1 - a1 * b0 ≠ 0 := fun h => hz (by rw [h]; simp)
      exact_mod_cast Int.one_le_abs this
    have hg2 : 0 < g ^ 2 := by
      have : g ≠ 0 := fun h => hz (by rw [h]; simp)
      positivity
    have hp : ∀ c d : Int, |c| ≤ M → |d| ≤ M → |(c : F) * g * (d * g)| ≤ M * M * g ^ 2 := by
      intro c d hc hd
      rw [show (c : F) * g * (d * g) = c * d * g ^ 2 by ring, abs_mul, abs_mul, abs_of_pos hg2]
      refine mul_le_mul_of_nonneg_right ?_ hg2.le
      have h1 : |(c : F)| ≤ M := by exact_mod_cast hc
      have h2 : |(d : F)| ≤ M := by exact_mod_cast hd
      exact mul_le_mul h1 h2 (abs_nonneg _) ((abs_nonneg _).trans h1)
    rw [ea0, ea1, eb0, eb1, abs_mul _ (g ^ 2), abs_of_pos hg2]
    have h1 := hp a0 b1 ha0 hb1
    have h2 := hp a1 b0 ha1 hb0
    calc _ ≤ u * (M * M * g ^ 2 + M * M * g ^ 2) := mul_le_mul_of_nonneg_left (add_le_add h1 h2) hu
      _ = u * (2 * (M * M)) * g ^ 2 := by ring
      _ < 1 * g ^ 2 := mul_lt_mul_of_pos_right hM hg2
      _ ≤ _ := mul_le_mul_of_nonneg_right hk hg2.le

end

/-! ### Angles -/

/-- Over the real numbers: the result is sorted by the angle in `[0, 2π)`. -/
theorem sort_by_angle_rounded_arg {fl : ℝ → ℝ} {u : ℝ} {E : Type*} (h : SignedRounding fl u) (alg : StdAlgorithms E) (hg : alg.Correct)
    {toPoint : E → Vec ℝ 2} {points : List E} (ha : DirectionsApart u toPoint points) :
    (sortByAngleR fl alg toPoint points).Perm points ∧
      (sortByAngleR fl alg toPoint points).Pairwise fun a b =>
        toPoint a = 0 ∨ (toPoint b ≠ 0 ∧ fullArg (toPoint a) ≤ fullArg (toPoint b)) := by
  obtain ⟨h1, h2⟩ := sort_by_angle_rounded h alg hg ha
  refine ⟨h1, h2.imp fun {a b} hab => ?_⟩
  rcases hab with hab | ⟨na, nb, hab⟩
  · exact .inl hab
  · refine .inr ⟨nb, ?_⟩
    rcases hab with ⟨ua, ub⟩ | ⟨hiff, hs⟩
    · have := fullArg_upper ((yCompare_upper _).2 ua)
      have := fullArg_lower nb (by rw [← Bool.not_eq_true, yCompare_upper]; exact ub)
      linarith
    · have harea : area (toPoint b) (toPoint a) ≤ 0 := by
        simp only [area]
        linarith
      by_cases ua : Upper (toPoint a)
      · have b1 := fullArg_upper ((yCompare_upper _).2 ua)
        have b2 := fullArg_upper ((yCompare_upper _).2 (hiff.1 ua))
        by_contra hc
        have := (area_pos_iff_angle nb na (by linarith) (by linarith)).2 (not_le.1 hc)
        linarith
      · have b1 := fullArg_lower na (by rw [← Bool.not_eq_true, yCompare_upper]; exact ua)
        have b2 := fullArg_lower nb (by rw [← Bool.not_eq_true, yCompare_upper]; exact fun hb => ua (hiff.2 hb))
        by_contra hc
        have := (area_pos_iff_angle nb na (by linarith) (by linarith)).2 (not_le.1 hc)
        linarith

/-! ### Binary rounding -/

theorem roundQ_mono {x y : ℚ} (h : x ≤ y) : round x ≤ round y := by
  rw [round_eq, round_eq]
  exact Int.floor_mono (by linarith)

theorem roundBinary_nonneg (prec : Nat) {x : ℚ} (hx : 0 ≤ x) : 0 ≤ IntText.roundBinary prec x := by
  unfold IntText.roundBinary
  simp only
  have hu := IntText.roundBinary_unit prec x
  refine mul_nonneg ?_ hu.le
  have : (0 : Int) ≤ round (x / 2 ^ (Int.log 2 x + 1 - (prec : Int))) := by
    have := roundQ_mono (div_nonneg hx hu.le)
    simpa using this
  exact_mod_cast this

theorem roundBinary_mono {prec : Nat} (hp : 0 < prec) {x y : ℚ} (hx : 0 ≤ x) (hxy : x ≤ y) :
    IntText.roundBinary prec x ≤ IntText.roundBinary prec y := by
  rcases hx.eq_or_lt with rfl | hx
  · have : IntText.roundBinary prec 0 = 0 := by simp [IntText.roundBinary]
    rw [this]
    exact roundBinary_nonneg prec hxy
  · have hy : 0 < y := hx.trans_le hxy
    have hlog : Int.log 2 x ≤ Int.log 2 y := Int.log_mono_right hx hxy
    rcases hlog.eq_or_lt with he | hlt
    · unfold IntText.roundBinary
      simp only
      have hu := IntText.roundBinary_unit prec y
      rw [he]
      refine mul_le_mul_of_nonneg_right ?_ hu.le
      have := roundQ_mono (div_le_div_of_nonneg_right hxy hu.le)
      exact_mod_cast this
    · -- the power of two in between is not moved
      have key : ∀ z : ℚ, IntText.roundBinary prec z = (round (z / 2 ^ (Int.log 2 z + 1 - (prec : Int))) : ℚ) *
          2 ^ (Int.log 2 z + 1 - (prec : Int)) := fun z => rfl
      have h1 : IntText.roundBinary prec x ≤ 2 ^ (Int.log 2 x + 1) := by
        have hu := IntText.roundBinary_unit prec x
        have hlt' : x < 2 ^ (Int.log 2 x + 1) := by exact_mod_cast Int.lt_zpow_succ_log_self (b := 2) (by norm_num) x
        have hd : x / 2 ^ (Int.log 2 x + 1 - (prec : Int)) ≤ ((2 ^ prec : Int) : ℚ) := by
          rw [div_le_iff₀ hu]
          push_cast
          rw [← zpow_natCast, ← zpow_add₀ (by norm_num)]
          rw [show (prec : Int) + (Int.log 2 x + 1 - prec) = Int.log 2 x + 1 by ring]
          exact hlt'.le
        have hr : round (x / 2 ^ (Int.log 2 x + 1 - (prec : Int))) ≤ 2 ^ prec := by
          have := roundQ_mono hd
          rwa [round_intCast] at this
        have hr' : (round (x / 2 ^ (Int.log 2 x + 1 - (prec : Int))) : ℚ) ≤ 2 ^ prec := by exact_mod_cast hr
        rw [key x]
        calc _ ≤ (2 : ℚ) ^ prec * 2 ^ (Int.log 2 x + 1 - (prec : Int)) := mul_le_mul_of_nonneg_right hr' hu.le
          _ = 2 ^ (Int.log 2 x + 1) := by
            rw [← zpow_natCast, ← zpow_add₀ (by norm_num)]
            congr 1
            ring
      have h2 : (2 : ℚ) ^ Int.log 2 y ≤ IntText.roundBinary prec y := by
        have hu := IntText.roundBinary_unit prec y
        have hle : (2 : ℚ) ^ Int.log 2 y ≤ y := by exact_mod_cast Int.zpow_log_le_self (b := 2) (by norm_num) hy
        have hd : ((2 ^ (prec - 1) : Int) : ℚ) ≤ y / 2 ^ (Int.log 2 y + 1 - (prec : Int)) := by
          rw [le_div_iff₀ hu]
          push_cast
          rw [← zpow_natCast, ← zpow_add₀ (by norm_num)]
          rw [show ((prec - 1 : Nat) : Int) + (Int.log 2 y + 1 - prec) = Int.log 2 y by omega]
          exact hle
        have hr : 2 ^ (prec - 1) ≤ round (y / 2 ^ (Int.log 2 y + 1 - (prec : Int))) := by
          have := roundQ_mono hd
          rwa [round_intCast] at this
        have hr' : (2 : ℚ) ^ (prec - 1) ≤ (round (y / 2 ^ (Int.log 2 y + 1 - (prec : Int))) : ℚ) := by exact_mod_cast hr
        rw [key y]
        calc (2 : ℚ) ^ Int.log 2 y = 2 ^ (prec - 1) * 2 ^ (Int.log 2 y + 1 - (prec : Int)) := by
              rw [← zpow_natCast, ← zpow_add₀ (by norm_num)]
              congr 1
              omega
          _ ≤ _ := mul_le_mul_of_nonneg_right hr' hu.le
      have h3 : (2 : ℚ) ^ (Int.log 2 x + 1) ≤ 2 ^ Int.log 2 y := zpow_le_zpow_right₀ (by norm_num) (by omega)
      linarith

/-- Rounding to binary digits keeps the order. -/
theorem roundSigned_mono {prec : Nat} (hp : 0 < prec) : Monotone (roundSigned prec) := by
  intro x y hxy
  unfold roundSigned
  split_ifs with h1 h2 h2
  · have := roundBinary_mono hp (x := -y) (y := -x) (by linarith) (by linarith)
    linarith
  · have := roundBinary_nonneg prec (x := -x) (by linarith)
    have := roundBinary_nonneg prec (x := y) (by linarith)
    linarith
  · linarith
  · exact roundBinary_mono hp (by linarith) hxy

/-! ### Where the directions are not apart -/

/-- Three directions in `double` for which the comparison passed to `std::sort` is not a strict weak order: the first two and the last
two are taken for equal, the first and the last not. -/
theorem sort_by_angle_rounded_fails :
    ¬ StrictWeak (angleLessR (roundSigned 53) id) [![(134217728 : ℚ), 134217729], ![134217729, 134217730], ![134217730, 134217731]] := by
  intro h
  have := h.2.2 ![(134217730 : ℚ), 134217731] (by simp) ![134217729, 134217730] (by simp) ![134217728, 134217729] (by simp)
    (by decide +kernel) (by decide +kernel)
  revert this
  decide +kernel

/-! ### Concrete cases -/

theorem directions_tenths : DirectionsApart ((2 : ℚ) ^ 53)⁻¹ id (![0, 0] :: ![0, -3] :: ![1 / 10, 1 / 5] :: tenths) := by
  have h : ∀ a ∈ (![0, 0] :: ![0, -3] :: ![1 / 10, 1 / 5] :: tenths), ∀ b ∈ (![0, 0] :: ![0, -3] :: ![1 / 10, 1 / 5] :: tenths),
      (a : Vec ℚ 2) 0 * b 1 - a 1 * b 0 = 0 ∨
        ((2 : ℚ) ^ 53)⁻¹ * (|a 0 * b 1| + |a 1 * b 0|) < |a 0 * b 1 - a 1 * b 0| := by decide +kernel
  exact h

example (alg : StdAlgorithms (Vec ℚ 2)) (hg : alg.Correct) :
    (sortByAngleR (roundSigned 53) alg id (![0, 0] :: ![0, -3] :: ![1 / 10, 1 / 5] :: tenths)).Pairwise NotAfter :=
  (sort_by_angle_rounded (roundSigned_signed (by norm_num)) alg hg directions_tenths).2

example : angleLessR (roundSigned 53) id ![(134217730 : ℚ), 134217731] ![134217728, 134217729] = true := by decide +kernel

/-- Coordinates up to 67 million with halves are apart in `double`. -/
example {E : Type*} {toPoint : E → Vec ℚ 2} {points : List E} (hg : ∀ x ∈ points, OnGrid (2⁻¹) (2 ^ 25) (toPoint x)) :
    DirectionsApart ((2 : ℚ) ^ 53)⁻¹ toPoint points :=
  directions_grid (by norm_num) (by norm_num) hg

end Actl.Geo
