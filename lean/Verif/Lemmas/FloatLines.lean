import Verif.Model.FloatLines
import Verif.Spec.FloatLines
import Verif.Lemmas.FloatGeometry
import Verif.Props.Intersect
import Verif.Props.Distance

/-! Lemmas for C128. -/

namespace Actl.Geo

variable {F : Type*} [Field F] [LinearOrder F] [IsStrictOrderedRing F]
variable {fl : F → F} {u : F}

/-! ### Errors of areas -/

theorem difference_error {x y q1 q2 c : F} (h1 : |q1 - 1| ≤ c) (h2 : |q2 - 1| ≤ c) :
    |(x * q1 - y * q2) - (x - y)| ≤ c * (|x| + |y|) := by
  rw [show (x * q1 - y * q2) - (x - y) = x * (q1 - 1) - y * (q2 - 1) by ring]
  refine (abs_sub _ _).trans ?_
  rw [abs_mul, abs_mul, mul_add]
  have a1 := mul_le_mul_of_nonneg_left h1 (abs_nonneg x)
  have a2 := mul_le_mul_of_nonneg_left h2 (abs_nonneg y)
  linarith

theorem areaR_error (h : SignedRounding fl u) (p q : Vec F 2) : |areaR fl p q - wedge p q| ≤ wedgeError u 2 p q := by
  obtain ⟨q1, e1, h1⟩ := h.factor (p 0 * q 1)
  obtain ⟨q2, e2, h2⟩ := h.factor (p 1 * q 0)
  obtain ⟨q3, e3, h3⟩ := h.factor (fl (p 0 * q 1) - fl (p 1 * q 0))
  rw [areaR, e3, e1, e2, wedge, wedgeError,
    show (p 0 * q 1 * q1 - p 1 * q 0 * q2) * q3 = p 0 * q 1 * (q1 * q3) - p 1 * q 0 * (q2 * q3) by ring]
  exact difference_error (factor_mul h.nonneg h1 h3) (factor_mul h.nonneg h2 h3)

theorem areaR_sub_error (h : SignedRounding fl u) (a b q : Vec F 2) :
    |areaR fl (subR fl a b) q - wedge (a - b) q| ≤ wedgeError u 3 (a - b) q := by
  obtain ⟨r0, f0, g0⟩ := h.factor (a 0 - b 0)
  obtain ⟨r1, f1, g1⟩ := h.factor (a 1 - b 1)
  obtain ⟨q1, e1, h1⟩ := h.factor (fl (a 0 - b 0) * q 1)
  obtain ⟨q2, e2, h2⟩ := h.factor (fl (a 1 - b 1) * q 0)
  obtain ⟨q3, e3, h3⟩ := h.factor (fl (fl (a 0 - b 0) * q 1) - fl (fl (a 1 - b 1) * q 0))
  have e : areaR fl (subR fl a b) q = fl (fl (fl (a 0 - b 0) * q 1) - fl (fl (a 1 - b 1) * q 0)) := rfl
  rw [e, e3, e1, e2, f0, f1, wedge, wedgeError, Pi.sub_apply, Pi.sub_apply,
    show ((a 0 - b 0) * r0 * q 1 * q1 - (a 1 - b 1) * r1 * q 0 * q2) * q3 =
      (a 0 - b 0) * q 1 * (r0 * q1 * q3) - (a 1 - b 1) * q 0 * (r1 * q2 * q3) by ring]
  exact difference_error (factor_mul h.nonneg (factor_mul h.nonneg g0 h1) h3)
    (factor_mul h.nonneg (factor_mul h.nonneg g1 h2) h3)

/-- A number whose error is smaller than it has the right sign. -/
theorem clear_sign {a b e : F} (h : |a - b| ≤ e) (he : e < |b|) : (a < 0 ↔ b < 0) ∧ (0 < a ↔ 0 < b) ∧ a ≠ 0 ∧ b ≠ 0 := by
  have h1 := abs_le.1 h
  rcases lt_trichotomy b 0 with hb | hb | hb
  · rw [abs_of_neg hb] at he
    have ha : a < 0 := by linarith [h1.2]
    exact ⟨⟨fun _ => hb, fun _ => ha⟩, ⟨fun x => absurd x ha.not_gt, fun x => absurd x hb.not_gt⟩, ha.ne, hb.ne⟩
  · rw [hb, abs_zero] at he
    exact absurd he (((abs_nonneg _).trans h).not_gt)
  · rw [abs_of_pos hb] at he
    have ha : 0 < a := by linarith [h1.1]
    exact ⟨⟨fun x => absurd x ha.not_gt, fun x => absurd x hb.not_gt⟩, ⟨fun _ => hb, fun _ => ha⟩, ha.ne', hb.ne'⟩

theorem lineTest_clear {k : LineKind} {n d n' d' : F} (h1 : HasFirst k → (n < 0 ↔ n' < 0) ∧ (0 < n ↔ 0 < n'))
    (h2 : HasSecond k → (d < n ↔ d' < n') ∧ (n < d ↔ n' < d')) : lineTest k n d = lineTest k n' d' := by
  cases k <;>
    simp [lineTest, endpointTest, LineKind.first, LineKind.last, LineKind.val, combine, Endpoint.val, Endpoint.ofVal,
      HasFirst, HasSecond] at h1 h2 ⊢ <;> simp [h1, h2]

theorem crossTest_clear {l r : Line F 2} {t a b t' a' b' et ea eb : F} (ht : |t - t'| ≤ et) (ha : |a - a'| ≤ ea)
    (hb : |b - b'| ≤ eb) (h0 : et < |t'|) (h1 : HasFirst l.kind → ea < |a'|) (h2 : HasFirst r.kind → eb < |b'|)
    (h3 : HasSecond l.kind → et + ea < |t' - a'|) (h4 : HasSecond r.kind → et + eb < |t' - b'|) :
    crossTest l r t a b = crossTest l r t' a' b' := by
  obtain ⟨s1, -⟩ := clear_sign ht h0
  have sub : ∀ {x x' ex : F}, |x - x'| ≤ ex → |(t - x) - (t' - x')| ≤ et + ex := by
    intro x x' ex hx
    rw [show (t - x) - (t' - x') = (t - t') - (x - x') by ring]
    exact (abs_sub _ _).trans (add_le_add ht hx)
  have neg : ∀ {k : LineKind} {x x' ex : F}, |x - x'| ≤ ex → (HasFirst k → ex < |x'|) → (HasSecond k → et + ex < |t' - x'|) →
      lineTest k (-x) (-t) = lineTest k (-x') (-t') ∧ lineTest k x t = lineTest k x' t' := by
    intro k x x' ex hx g1 g2
    constructor
    · refine lineTest_clear (fun hk => ?_) (fun hk => ?_)
      · obtain ⟨c1, c2, -⟩ := clear_sign hx (g1 hk)
        simpa using ⟨c2, c1⟩
      · obtain ⟨c1, c2, -⟩ := clear_sign (sub hx) (g2 hk)
        rw [sub_neg, sub_neg] at c1
        rw [sub_pos, sub_pos] at c2
        simpa only [neg_lt_neg_iff] using ⟨c2, c1⟩
    · refine lineTest_clear (fun hk => ?_) (fun hk => ?_)
      · obtain ⟨c1, c2, -⟩ := clear_sign hx (g1 hk)
        exact ⟨c1, c2⟩
      · obtain ⟨c1, c2, -⟩ := clear_sign (sub hx) (g2 hk)
        rw [sub_neg, sub_neg] at c1
        rw [sub_pos, sub_pos] at c2
        exact ⟨c1, c2⟩
  unfold crossTest
  rw [(neg ha h1 h3).1, (neg hb h2 h4).1, (neg ha h1 h3).2, (neg hb h2 h4).2]
  by_cases hc : t' < 0
  · rw [if_pos hc, if_pos (s1.2 hc)]
  · rw [if_neg hc, if_neg (fun x => hc (s1.1 x))]

/-! ### The parameter and the point -/

theorem quotient_error (h : SignedRounding fl u) {a a' t t' ea et : F} (ha : |a - a'| ≤ ea) (ht : |t - t'| ≤ et)
    (h0 : et < |t'|) : |fl (a / t) - a' / t'| ≤ (ea + |a' / t'| * et) / (|t'| - et) +
      u * (|a' / t'| + (ea + |a' / t'| * et) / (|t'| - et)) := by
  obtain ⟨-, -, n1, n2⟩ := clear_sign ht h0
  set D := (ea + |a' / t'| * et) / (|t'| - et) with hD
  have hpos : 0 < |t'| - et := sub_pos.2 h0
  have hle : |t'| - et ≤ |t| := by
    have := abs_sub_abs_le_abs_sub t' t
    rw [abs_sub_comm] at ht
    linarith
  have hnum : 0 ≤ ea + |a' / t'| * et :=
    add_nonneg ((abs_nonneg _).trans ha) (mul_nonneg (abs_nonneg _) ((abs_nonneg _).trans ht))
  have hq : |a / t - a' / t'| ≤ D := by
    have e : a / t - a' / t' = ((a - a') - a' / t' * (t - t')) / t := by
      field_simp
      ring
    rw [e, abs_div]
    have h1 : |a - a' - a' / t' * (t - t')| ≤ ea + |a' / t'| * et := by
      refine (abs_sub _ _).trans (add_le_add ha ?_)
      rw [abs_mul]
      exact mul_le_mul_of_nonneg_left ht (abs_nonneg _)
    exact div_le_div₀ hnum h1 hpos hle
  have h1 := h.near (a / t)
  have h2 : |a / t| ≤ |a' / t'| + D := by
    have := abs_sub_abs_le_abs_sub (a / t) (a' / t')
    linarith
  have h3 : |fl (a / t) - a' / t'| ≤ |fl (a / t) - a / t| + |a / t - a' / t'| := by
    rw [show fl (a / t) - a' / t' = (fl (a / t) - a / t) + (a / t - a' / t') by ring]
    exact abs_add_le _ _
  have h4 := mul_le_mul_of_nonneg_left h2 h.nonneg
  linarith

theorem at_error (h : SignedRounding fl u) {s v t t' e : F} (ht : |t' - t| ≤ e) :
    |fl (s + fl (t' * v)) - (s + t * v)| ≤ pointError u s v t e := by
  unfold pointError
  set d := e * |v| + u * ((|t| + e) * |v|) with hd
  have h1 : |t'| ≤ |t| + e := by
    have := abs_sub_abs_le_abs_sub t' t
    linarith
  have h2 : |fl (t' * v) - t * v| ≤ d := by
    have a1 := h.near (t' * v)
    rw [abs_mul] at a1
    have a2 : |t' * v - t * v| ≤ e * |v| := by
      rw [← sub_mul, abs_mul]
      exact mul_le_mul_of_nonneg_right ht (abs_nonneg _)
    have a3 := mul_le_mul_of_nonneg_left (mul_le_mul_of_nonneg_right h1 (abs_nonneg v)) h.nonneg
    have a4 : |fl (t' * v) - t * v| ≤ |fl (t' * v) - t' * v| + |t' * v - t * v| := by
      rw [show fl (t' * v) - t * v = (fl (t' * v) - t' * v) + (t' * v - t * v) by ring]
      exact abs_add_le _ _
    linarith
  have h3 := h.near (s + fl (t' * v))
  have h4 : |s + fl (t' * v)| ≤ |s + t * v| + d := by
    have := abs_sub_abs_le_abs_sub (s + fl (t' * v)) (s + t * v)
    rw [add_sub_add_left_eq_sub] at this
    linarith
  have h5 := mul_le_mul_of_nonneg_left h4 h.nonneg
  have h6 : |fl (s + fl (t' * v)) - (s + t * v)| ≤
      |fl (s + fl (t' * v)) - (s + fl (t' * v))| + |fl (t' * v) - t * v| := by
    rw [show fl (s + fl (t' * v)) - (s + t * v) = (fl (s + fl (t' * v)) - (s + fl (t' * v))) + (fl (t' * v) - t * v) by ring]
    exact abs_add_le _ _
  linarith

/-! ### On the grid -/

theorem grid_diff {g : F} {M : Int} {p q : Vec F 2} (hp : OnGrid g M p) (hq : OnGrid g M q) : OnGrid g (2 * M) (p - q) :=
  fun i => grid_sub hp hq i

theorem subR_grid {g : F} {M : Int} (he : Exact fl g M) {p q : Vec F 2} (hp : OnGrid g M p) (hq : OnGrid g M q) :
    subR fl p q = p - q := by
  have : ∀ i, fl (p i - q i) = p i - q i := by
    intro i
    obtain ⟨k, hk, e⟩ := grid_sub hp hq i
    rw [e, he.unit k hk]
  exact vec2_ext (this 0) (this 1)

theorem product_grid {g : F} {M : Int} (he : Exact fl g M) {p q : Vec F 2} (hp : OnGrid g (2 * M) p) (hq : OnGrid g (2 * M) q)
    (i j : Fin 2) : ∃ k : Int, |k| ≤ 4 * (M * M) ∧ p i * q j = k * g ^ 2 ∧ fl (p i * q j) = k * g ^ 2 := by
  obtain ⟨a, ha, ea⟩ := hp i
  obtain ⟨b, hb, eb⟩ := hq j
  have hab : |a * b| ≤ 4 * (M * M) := by
    rw [abs_mul]
    exact (mul_le_mul ha hb (abs_nonneg _) ((abs_nonneg _).trans ha)).trans (by nlinarith)
  have e : p i * q j = ((a * b : Int) : F) * g ^ 2 := by
    rw [ea, eb]
    push_cast
    ring
  have h0 := (abs_nonneg _).trans hab
  exact ⟨a * b, hab, e, by rw [e, he.square _ (by linarith)]⟩

theorem areaR_grid {g : F} {M : Int} (he : Exact fl g M) {p q : Vec F 2} (hp : OnGrid g (2 * M) p) (hq : OnGrid g (2 * M) q) :
    areaR fl p q = area p q := by
  obtain ⟨a, ha, e1, f1⟩ := product_grid he hp hq 0 1
  obtain ⟨b, hb, e2, f2⟩ := product_grid he hp hq 1 0
  have ha' := abs_le.1 ha
  have hb' := abs_le.1 hb
  rw [areaR, area, f1, f2, e1, e2, ← sub_mul, ← Int.cast_sub, he.square _ (abs_le.2 ⟨by linarith, by linarith⟩)]

theorem dotR_grid {g : F} {M : Int} (he : Exact fl g M) {p q : Vec F 2} (hp : OnGrid g (2 * M) p) (hq : OnGrid g (2 * M) q) :
    dotR fl p q = dot p q := by
  obtain ⟨a, ha, e1, f1⟩ := product_grid he hp hq 0 0
  obtain ⟨b, hb, e2, f2⟩ := product_grid he hp hq 1 1
  have ha' := abs_le.1 ha
  have hb' := abs_le.1 hb
  have h0 := (abs_nonneg _).trans ha
  have ex : dotR fl p q = fl (fl (0 + fl (p 0 * q 0)) + fl (p 1 * q 1)) := rfl
  have ey : dot p q = 0 + p 0 * q 0 + p 1 * q 1 := rfl
  rw [ex, ey, f1, f2, e1, e2, zero_add, he.square a (by linarith), ← add_mul, ← Int.cast_add,
    he.square _ (abs_le.2 ⟨by linarith, by linarith⟩)]

theorem throughR_grid {g : F} {M : Int} (he : Exact fl g M) {a b : Vec F 2} (ha : OnGrid g M a) (hb : OnGrid g M b)
    (k : LineKind) : throughR fl a b k = Line.through a b k := by
  rw [throughR, subR_grid he hb ha]
  rfl

omit [LinearOrder F] [IsStrictOrderedRing F] in
theorem stop_through (a b : Vec F 2) (k : LineKind) : (Line.through a b k).stop = b := by
  simp [Line.through, Line.stop]

theorem stopR_grid {g : F} {M : Int} (he : Exact fl g M) {a b : Vec F 2} (hb : OnGrid g M b)
    (k : LineKind) : stopR fl (Line.through a b k) = b := by
  funext i
  obtain ⟨x, hx, e⟩ := hb i
  have h0 := (abs_nonneg _).trans hx
  simp only [stopR, Line.through, Pi.sub_apply, add_sub_cancel]
  rw [e, he.unit x (by linarith)]

theorem maxEndpoint_cases (l r : End F) (s : Bool) : maxEndpoint l r s = l ∨ maxEndpoint l r s = r := by
  unfold maxEndpoint
  repeat' split
  all_goals simp

theorem makeAnyLineR_grid {g : F} {M : Int} (he : Exact fl g M) {a b : Vec F 2} (ha : OnGrid g M a) (hb : OnGrid g M b)
    (ka kb : Endpoint) : makeAnyLineR fl a ka b kb = makeAnyLine a ka b kb := by
  have e1 : throughR fl a b = Line.through a b := funext (throughR_grid he ha hb)
  have e2 : throughR fl b a = Line.through b a := funext (throughR_grid he hb ha)
  rw [makeAnyLineR, makeAnyLine, e1, e2]

theorem commonLineR_grid {g : F} {M : Int} (he : Exact fl g M) {a b c d : Vec F 2} (ha : OnGrid g M a) (hb : OnGrid g M b)
    (hc : OnGrid g M c) (hd : OnGrid g M d) (k m : LineKind) :
    commonLineR fl (Line.through a b k) (Line.through c d m) = commonLine (Line.through a b k) (Line.through c d m) := by
  have gp : ∀ {x y : Vec F 2} (_ : OnGrid g M x) (_ : OnGrid g M y) (k : LineKind) (s : Bool),
      getPointR fl (Line.through x y k) s = getPoint (Line.through x y k) s ∧
        OnGrid g M (getPoint (Line.through x y k) s).1 := by
    intro x y hx hy k s
    unfold getPointR getPoint
    rw [stopR_grid he hy, stop_through]
    refine ⟨rfl, ?_⟩
    split
    · exact hx
    · exact hy
  have on : ∀ s, OnGrid g M (maxEndpoint (getPoint (Line.through a b k) s) (getPoint (Line.through c d m) s) s).1 := by
    intro s
    rcases maxEndpoint_cases (getPoint (Line.through a b k) s) (getPoint (Line.through c d m) s) s with e | e
    · rw [e]; exact (gp ha hb k s).2
    · rw [e]; exact (gp hc hd m s).2
  unfold commonLineR commonLine
  rw [(gp ha hb k true).1, (gp ha hb k false).1, (gp hc hd m true).1, (gp hc hd m false).1]
  simp only [makeAnyLineR_grid he (on true) (on false)]

omit [IsStrictOrderedRing F] in
theorem intersectR_exact {l r : Line F 2} (hT : areaR fl r.vector l.vector = area r.vector l.vector)
    (hL : areaR fl (subR fl l.start r.start) r.vector = area (l.start - r.start) r.vector)
    (hR : areaR fl (subR fl l.start r.start) l.vector = area (l.start - r.start) l.vector)
    (hC : commonLineR fl l r = commonLine l r) :
    (area r.vector l.vector = 0 → intersectR fl l r = intersect l r) ∧ crossesLinesR fl l r = crossesLines l r := by
  simp only [crossesLinesR, crossesLines, intersectR, intersect, hT, hL, hR, hC]
  by_cases hp : area r.vector l.vector = 0
  · simp only [if_pos hp]
    exact ⟨fun _ => trivial, trivial⟩
  · simp only [if_neg hp]
    exact ⟨fun h => absurd h hp, by split <;> rfl⟩

/-! ### Distances -/

theorem fold_error (h : SignedRounding fl u) {ι : Type*} (a : ι → F) (ha : ∀ i, 0 ≤ a i) : ∀ (l : List ι) (acc : F), 0 ≤ acc →
    (1 - u) ^ l.length * (acc + (1 - u) * (l.map a).sum) ≤ l.foldl (fun res i => fl (res + fl (a i))) acc ∧
      l.foldl (fun res i => fl (res + fl (a i))) acc ≤ (1 + u) ^ l.length * (acc + (1 + u) * (l.map a).sum)
  | [], acc, _ => by simp
  | i :: l, acc, hacc => by
    have hu := h.nonneg
    have hs := h.small
    have near : ∀ x : F, 0 ≤ x → (1 - u) * x ≤ fl x ∧ fl x ≤ (1 + u) * x := by
      intro x hx
      have := abs_le.1 (h.near x)
      rw [abs_of_nonneg hx] at this
      constructor <;> linarith [this.1, this.2]
    have n1 := near (a i) (ha i)
    have f0 : 0 ≤ fl (a i) := le_trans (mul_nonneg (by linarith) (ha i)) n1.1
    have n2 := near (acc + fl (a i)) (add_nonneg hacc f0)
    have f1 : 0 ≤ fl (acc + fl (a i)) := le_trans (mul_nonneg (by linarith) (add_nonneg hacc f0)) n2.1
    have ih := fold_error h a ha l (fl (acc + fl (a i))) f1
    have hsum : 0 ≤ (l.map a).sum := List.sum_nonneg (by
      intro x hx
      obtain ⟨j, -, rfl⟩ := List.mem_map.1 hx
      exact ha j)
    rw [List.foldl_cons, List.length_cons, List.map_cons, List.sum_cons, pow_succ, pow_succ, mul_assoc, mul_assoc]
    have hu1 : 0 ≤ 1 - u := by linarith
    have m1 := mul_le_mul_of_nonneg_left n1.1 hu1
    have m2 := mul_le_mul_of_nonneg_left n1.2 (by linarith : 0 ≤ 1 + u)
    have s1 := mul_nonneg (mul_nonneg hu1 hu) hsum
    have s2 := mul_nonneg (mul_nonneg (by linarith : 0 ≤ 1 + u) hu) hsum
    constructor
    · refine le_trans (mul_le_mul_of_nonneg_left ?_ (pow_nonneg hu1 _)) ih.1
      nlinarith [n2.1]
    · refine le_trans ih.2 (mul_le_mul_of_nonneg_left ?_ (pow_nonneg (by linarith) _))
      nlinarith [n2.2]

end Actl.Geo
