import Verif.Lemmas.FloatGeometry
import Verif.Props.Winding
import Verif.Props.WithinTriangle

/-!
# Geometry on points with floating point coordinates

C125.
-/

namespace Actl.Geo

variable {F : Type*} [Field F] [LinearOrder F] [IsStrictOrderedRing F]
variable {fl : F → F} {u : F}

/-! ### The orientation test -/

theorem orientation3_signs (l r o : Vec F 2) :
    (orientation3 l r o = .left ↔ 0 < (l 0 - o 0) * (r 1 - o 1) - (l 1 - o 1) * (r 0 - o 0)) ∧
    (orientation3 l r o = .right ↔ (l 0 - o 0) * (r 1 - o 1) - (l 1 - o 1) * (r 0 - o 0) < 0) ∧
    (orientation3 l r o = .collinear ↔ (l 0 - o 0) * (r 1 - o 1) - (l 1 - o 1) * (r 0 - o 0) = 0) := by
  rw [orientation3_eq, show (r 0 - o 0) * (l 1 - o 1) - (r 1 - o 1) * (l 0 - o 0) =
    -((l 0 - o 0) * (r 1 - o 1) - (l 1 - o 1) * (r 0 - o 0)) by ring]
  generalize (l 0 - o 0) * (r 1 - o 1) - (l 1 - o 1) * (r 0 - o 0) = d
  unfold Turn.ofSign
  rcases lt_trichotomy d 0 with h | h | h
  · simp [h, h.le.not_gt, h.ne]
  · simp [h]
  · simp [h, h.le.not_gt, h.ne']

/-- When twice the area of the triangle is larger than `(1 + u)³ - 1` times the two products it is the difference of, the test
computed with roundings is left or right exactly when the points are, and never collinear. -/
theorem orientation_rounded (h : SignedRounding fl u) {l r o : Vec F 2} (hc : WellApart u l r o) :
    (orientation3R fl l r o = .left ↔ 0 < (l 0 - o 0) * (r 1 - o 1) - (l 1 - o 1) * (r 0 - o 0)) ∧
    (orientation3R fl l r o = .right ↔ (l 0 - o 0) * (r 1 - o 1) - (l 1 - o 1) * (r 0 - o 0) < 0) ∧
    orientation3R fl l r o ≠ .collinear := by
  rw [orientation3R_clear h hc]
  obtain ⟨h1, h2, h3⟩ := orientation3_signs l r o
  refine ⟨h1, h2, fun he => ?_⟩
  rw [h3] at he
  rw [WellApart, show (r 0 - o 0) * (l 1 - o 1) - (r 1 - o 1) * (l 0 - o 0) =
    -((l 0 - o 0) * (r 1 - o 1) - (l 1 - o 1) * (r 0 - o 0)) by ring, he, neg_zero, abs_zero] at hc
  have h3 : (1 : F) ≤ (1 + u) ^ 3 := one_le_pow₀ (by linarith [h.nonneg])
  have h4 := mul_nonneg (sub_nonneg.2 h3) (add_nonneg (abs_nonneg ((r 0 - o 0) * (l 1 - o 1))) (abs_nonneg ((r 1 - o 1) * (l 0 - o 0))))
  linarith

/-- Two equal points are collinear with any third one, whatever the roundings. -/
theorem orientation_rounded_equal (h : SignedRounding fl u) (p q : Vec F 2) : orientation3R fl p p q = .collinear ∧
    orientation3R fl p q p = .collinear ∧ orientation3R fl q p p = .collinear :=
  ⟨(orientation3R_repeated h (.inl rfl)).1, (orientation3R_repeated h (.inr (.inr rfl))).1,
    (orientation3R_repeated h (.inr (.inl rfl))).1⟩

/-- On a grid whose multiples the type has, the test is exact for all points. -/
theorem orientation_grid {g : F} {M : Int} (he : Exact fl g M) {l r o : Vec F 2} (hl : OnGrid g M l)
    (hr : OnGrid g M r) (ho : OnGrid g M o) :
    (orientation3R fl l r o = .left ↔ 0 < (l 0 - o 0) * (r 1 - o 1) - (l 1 - o 1) * (r 0 - o 0)) ∧
    (orientation3R fl l r o = .right ↔ (l 0 - o 0) * (r 1 - o 1) - (l 1 - o 1) * (r 0 - o 0) < 0) ∧
    (orientation3R fl l r o = .collinear ↔ (l 0 - o 0) * (r 1 - o 1) - (l 1 - o 1) * (r 0 - o 0) = 0) := by
  rw [orientation3R_grid he hl hr ho]
  exact orientation3_signs l r o

/-- A binary type with `prec` digits: coordinates are multiples of any power of two by at most `M`, and `8 M² ≤ 2 ^ prec`. -/
theorem orientation_binary {prec : Nat} (hp : 0 < prec) {M : Int} (hM : 8 * (M * M) ≤ 2 ^ prec) (hM' : 2 * M ≤ 2 ^ prec) (e : Int)
    {l r o : Vec ℚ 2} (hl : OnGrid (2 ^ e) M l) (hr : OnGrid (2 ^ e) M r) (ho : OnGrid (2 ^ e) M o) :
    (orientation3R (roundSigned prec) l r o = .left ↔ 0 < (l 0 - o 0) * (r 1 - o 1) - (l 1 - o 1) * (r 0 - o 0)) ∧
    (orientation3R (roundSigned prec) l r o = .right ↔ (l 0 - o 0) * (r 1 - o 1) - (l 1 - o 1) * (r 0 - o 0) < 0) ∧
    (orientation3R (roundSigned prec) l r o = .collinear ↔ (l 0 - o 0) * (r 1 - o 1) - (l 1 - o 1) * (r 0 - o 0) = 0) :=
  orientation_grid (roundSigned_exact hp hM hM' e) hl hr ho

/-! ### The convex hull -/

/-- Whatever the points, the computation stays within the array and meets its assertion, and returns points of the array, the
smallest first, each of which, and the first after the last, is judged to be a turn after the two before it. -/
theorem hull_rounded_safe (h : SignedRounding fl u) (points : List (Vec F 2)) :
    ∃ hull, convexHullR fl points = some hull ∧ (∀ p ∈ hull, p ∈ points) ∧ hull.length ≤ points.length ∧
      (points ≠ [] → ∃ a, hull.head? = some a ∧ ∀ p ∈ points, a 0 < p 0 ∨ a 0 = p 0 ∧ a 1 ≤ p 1) ∧
      (∀ j o q p, hull[j]? = some o → hull[j + 1]? = some q → (hull ++ hull.take 1)[j + 2]? = some p →
        orientation3R fl p q o = .right) :=
  convexHullT_safe (fun p q => by rw [(orientation_rounded_equal h p q).2.1]; decide)
    (fun p q => by rw [(orientation_rounded_equal h q p).1]; decide) points

theorem hull_rounded_exact {points : List (Vec F 2)}
    (ht : ∀ l ∈ points, ∀ r ∈ points, ∀ o ∈ points, orientation3R fl l r o = orientation3 l r o)
    (hnc : ¬ AllCollinear points) :
    ∃ hull, convexHullR fl points = some hull ∧ (∀ p ∈ hull, p ∈ points) ∧ StrictlyConvex hull ∧ TurnsLeft hull ∧
      ∀ p ∈ points, InPolygon p hull ∧ InHull hull p :=
  ⟨_, convexHullT_exact ht, convexHull_partial hnc⟩

/-- When any three different points make a triangle with an area larger than the error, the hull is exactly the convex hull. -/
theorem hull_rounded (h : SignedRounding fl u) {points : List (Vec F 2)} (hc : AllWellApart u points) {a b c : Vec F 2} (ha : a ∈ points)
    (hb : b ∈ points) (hc' : c ∈ points) (hab : a ≠ b) (hbc : b ≠ c) (hac : a ≠ c) :
    ∃ hull, convexHullR fl points = some hull ∧ (∀ p ∈ hull, p ∈ points) ∧ StrictlyConvex hull ∧ TurnsLeft hull ∧
      ∀ p ∈ points, InPolygon p hull ∧ InHull hull p := by
  refine hull_rounded_exact (fun l hl r hr o ho => orientation3R_all h hc hl hr ho) fun hall => ?_
  have h1 := orientation_rounded h (hc a ha b hb c hc' hab hbc hac)
  refine h1.2.2 ?_
  rw [orientation3R_clear h (hc a ha b hb c hc' hab hbc hac), (orientation3_signs a b c).2.2]
  have := hall c hc' a ha b hb
  linarith

/-- The same on a grid, for any points that are not all on one line. -/
theorem hull_grid {g : F} {M : Int} (he : Exact fl g M) {points : List (Vec F 2)} (hg : ∀ p ∈ points, OnGrid g M p)
    (hnc : ¬ AllCollinear points) :
    ∃ hull, convexHullR fl points = some hull ∧ (∀ p ∈ hull, p ∈ points) ∧ StrictlyConvex hull ∧ TurnsLeft hull ∧
      ∀ p ∈ points, InPolygon p hull ∧ InHull hull p :=
  hull_rounded_exact (fun l hl r hr o ho => orientation3R_grid he (hg l hl) (hg r hr) (hg o ho)) hnc

/-! ### Points in triangles and polygons -/

/-- The verdict on a point and a triangle, by the weights that make the point from the corners. -/
theorem triangle_rounded (h : SignedRounding fl u) {p a b c : Vec F 2} {x y z : F} (hc : AllWellApart u [p, a, b, c])
    (hne : polyArea [a, b, c] ≠ 0) (hw : Combination p a b c x y z) :
    (withinTriangleR fl p a b c = .inside ↔ 0 < x ∧ 0 < y ∧ 0 < z) ∧
      (withinTriangleR fl p a b c = .border ↔ (0 ≤ x ∧ 0 ≤ y ∧ 0 ≤ z) ∧ (x = 0 ∨ y = 0 ∨ z = 0)) ∧
      (withinTriangleR fl p a b c = .outside ↔ x < 0 ∨ y < 0 ∨ z < 0) := by
  rw [withinTriangleR, withinTriangleT_exact fun l hl r hr o ho => orientation3R_all h hc hl hr ho]
  exact withinTriangle_correct p a b c x y z hne hw

/-- The same on a grid. -/
theorem triangle_grid {g : F} {M : Int} (he : Exact fl g M) {p a b c : Vec F 2} {x y z : F}
    (hg : ∀ v ∈ [p, a, b, c], OnGrid g M v) (hne : polyArea [a, b, c] ≠ 0) (hw : Combination p a b c x y z) :
    (withinTriangleR fl p a b c = .inside ↔ 0 < x ∧ 0 < y ∧ 0 < z) ∧
      (withinTriangleR fl p a b c = .border ↔ (0 ≤ x ∧ 0 ≤ y ∧ 0 ≤ z) ∧ (x = 0 ∨ y = 0 ∨ z = 0)) ∧
      (withinTriangleR fl p a b c = .outside ↔ x < 0 ∨ y < 0 ∨ z < 0) := by
  rw [withinTriangleR, withinTriangleT_exact fun l hl r hr o ho => orientation3R_grid he (hg l hl) (hg r hr) (hg o ho)]
  exact withinTriangle_correct p a b c x y z hne hw

/-- The winding number is the exact one, and so is the verdict on a point and a polygon. -/
theorem polygon_rounded (h : SignedRounding fl u) {p : Vec F 2} {poly : List (Vec F 2)} (hc : AllWellApart u (p :: poly)) :
    windingNumberT (orientation3R fl) p poly = windingNumber p poly ∧ withinSimpleR fl p poly = withinSimple p poly := by
  have hw : windingNumberT (orientation3R fl) p poly = windingNumber p poly := windingNumberT_exact fun r hr o ho =>
    orientation3R_all h hc (by simp) (List.mem_cons_of_mem _ hr) (List.mem_cons_of_mem _ ho)
  refine ⟨hw, ?_⟩
  rw [withinSimpleR, withinSimple, hw]

/-- The same on a grid. -/
theorem polygon_grid {g : F} {M : Int} (he : Exact fl g M) {p : Vec F 2} {poly : List (Vec F 2)} (hp : OnGrid g M p)
    (hg : ∀ v ∈ poly, OnGrid g M v) :
    windingNumberT (orientation3R fl) p poly = windingNumber p poly ∧ withinSimpleR fl p poly = withinSimple p poly := by
  have hw : windingNumberT (orientation3R fl) p poly = windingNumber p poly := windingNumberT_exact fun r hr o ho =>
    orientation3R_grid he hp (hg r hr) (hg o ho)
  refine ⟨hw, ?_⟩
  rw [withinSimpleR, withinSimple, hw]

/-- On a grid, the verdict on a point and a strictly convex polygon is the exact one: inside, on an edge, or right of an edge. -/
theorem polygon_grid_convex {g : F} {M : Int} (he : Exact fl g M) {p : Vec F 2} {poly : List (Vec F 2)} (hp : OnGrid g M p)
    (hg : ∀ v ∈ poly, OnGrid g M v) (hc : StrictlyConvex poly) (hn : (poly.length : Int) < boundary) :
    (withinSimpleR fl p poly = .inside ↔ StrictlyIn p poly) ∧ (withinSimpleR fl p poly = .border ↔ OnBorder p poly) ∧
      (withinSimpleR fl p poly = .outside ↔ ∃ e ∈ edges poly,
        (e.2 0 - e.1 0) * (p 1 - e.1 1) - (e.2 1 - e.1 1) * (p 0 - e.1 0) < 0) := by
  rw [(polygon_grid he hp hg).2]
  exact withinSimple_convex p poly hc hn

/-! ### The area of a polygon -/

/-- The area of a polygon with `n` corners has an error of at most `(1 + u)^(n + 2) - 1` times the sum of the absolute values of its
terms. -/
theorem area_rounded (h : SignedRounding fl u) (poly : List (Vec F 2)) :
    |polyAreaR fl poly - shoelace poly| ≤ ((1 + u) ^ (poly.length + 2) - 1) * areaSize poly := by
  have := polyAreaLoopR_error h poly poly.length 0 2 0 0 0 (by omega) le_rfl (by simp) le_rfl (by simp)
  rw [Nat.zero_mod] at this
  simp only [zero_add] at this
  rw [← polyArea_eq_shoelace, polyArea_eq_sum, add_comm poly.length 2]
  exact this

/-- An area larger than the error has the right sign. -/
theorem area_rounded_sign (h : SignedRounding fl u) {poly : List (Vec F 2)}
    (hb : ((1 + u) ^ (poly.length + 2) - 1) * areaSize poly < |shoelace poly|) :
    (0 < polyAreaR fl poly ↔ 0 < shoelace poly) ∧ (polyAreaR fl poly < 0 ↔ shoelace poly < 0) := by
  have h1 := abs_le.1 (area_rounded h poly)
  rcases lt_trichotomy (shoelace poly) 0 with hs | hs | hs
  · rw [abs_of_neg hs] at hb
    have : polyAreaR fl poly < 0 := by linarith [h1.2]
    exact ⟨⟨fun h => absurd h this.le.not_gt, fun h => absurd h hs.le.not_gt⟩, ⟨fun _ => hs, fun _ => this⟩⟩
  · rw [hs, abs_zero] at hb
    linarith [h1.1, h1.2]
  · rw [abs_of_pos hs] at hb
    have : 0 < polyAreaR fl poly := by linarith [h1.1]
    exact ⟨⟨fun _ => hs, fun _ => this⟩, ⟨fun h => absurd h this.le.not_gt, fun h => absurd h hs.le.not_gt⟩⟩

/-- On a grid whose multiples the type has, up to the sizes of the sums, the area is exact. -/
theorem area_grid {g : F} {M : Int} {poly : List (Vec F 2)} (hg : ∀ v ∈ poly, OnGrid g M v)
    (h1 : ∀ k : Int, |k| ≤ 2 * M → fl (k * g) = k * g)
    (h2 : ∀ k : Int, |k| ≤ 2 * poly.length * (M * M) → fl (k * g ^ 2) = k * g ^ 2) : polyAreaR fl poly = shoelace poly := by
  rw [← polyArea_eq_shoelace, polyAreaR, polyArea]
  by_cases hn : poly.length = 0
  · rw [hn]
    rfl
  · have := polyAreaLoopR_grid poly hg h1 h2 poly.length 0 0 le_rfl (by omega) (by simp)
    simpa using this

/-! ### Where the bound is not met -/

/-- Without the bound the test may say collinear, or even the opposite: here in the 53 binary digits of `double`. -/
theorem orientation_rounded_fails :
    (orientation3 ![24, 24] ![12, 12] ![(1 / 2 : ℚ), 1 / 2 + 1 / 2 ^ 53] = .right ∧
      orientation3R (roundSigned 53) ![24, 24] ![12, 12] ![1 / 2, 1 / 2 + 1 / 2 ^ 53] = .collinear) ∧
    (orientation3 ![24, 24] ![12, 12] ![(1 / 2 + 49 / 2 ^ 53 : ℚ), 1 / 2 + 41 / 2 ^ 53] = .left ∧
      orientation3R (roundSigned 53) ![24, 24] ![12, 12] ![1 / 2 + 49 / 2 ^ 53, 1 / 2 + 41 / 2 ^ 53] = .right) := by
  decide +kernel

omit [IsStrictOrderedRing F] in
theorem convexHullT_sorted {turn : Vec F 2 → Vec F 2 → Vec F 2 → Turn} {x y : Vec F 2} {rest low upp : List (Vec F 2)}
    (hl : ((x :: y :: rest).filter fun p => !decide (turn p (maxPoint x (y :: rest)) (minPoint x (y :: rest)) = .right)) = low)
    (hu : ((x :: y :: rest).filter fun p => decide (turn p (maxPoint x (y :: rest)) (minPoint x (y :: rest)) = .right)) = upp)
    (hs : low.Pairwise fun p q => (!less q p) = true) : convexHullT turn (x :: y :: rest) =
      if 2 ≤ low.length then
        (hullLoopT turn low.length rest.length 2 (low ++ upp) 1).bind fun r => closeT turn r.1 r.2
      else none := by
  rw [convexHullT, hl, hu, sortPoints, List.mergeSort_of_pairwise hs]
  rfl

/-- A triangle of three points, far apart, whose hull is a single point; and a hull with a reflex corner. -/
theorem hull_rounded_fails :
    (¬ AllCollinear [![(1 / 2 : ℚ), 1 / 2 + 1 / 2 ^ 53], ![12, 12], ![24, 24]] ∧
      convexHullR (roundSigned 53) [![(1 / 2 : ℚ), 1 / 2 + 1 / 2 ^ 53], ![12, 12], ![24, 24]] =
        some [![1 / 2, 1 / 2 + 1 / 2 ^ 53]]) ∧
    (convexHullR (roundSigned 53) [![0, 24], ![(1 / 2 + 49 / 2 ^ 53 : ℚ), 1 / 2 + 41 / 2 ^ 53], ![12, 12], ![24, 24]] =
        some [![0, 24], ![1 / 2 + 49 / 2 ^ 53, 1 / 2 + 41 / 2 ^ 53], ![12, 12], ![24, 24]] ∧
      ¬ StrictlyConvex [![0, 24], ![(1 / 2 + 49 / 2 ^ 53 : ℚ), 1 / 2 + 41 / 2 ^ 53], ![12, 12], ![24, 24]]) := by
  refine ⟨⟨fun h => ?_, ?_⟩, ?_, fun h => ?_⟩
  · have := h ![(1 / 2 : ℚ), 1 / 2 + 1 / 2 ^ 53] (by simp) ![12, 12] (by simp) ![24, 24] (by simp)
    revert this
    decide +kernel
  · exact (convexHullT_sorted (low := [![(1 / 2 : ℚ), 1 / 2 + 1 / 2 ^ 53], ![12, 12], ![24, 24]]) (upp := []) (by decide +kernel)
      (by decide +kernel) (by decide +kernel)).trans (by decide +kernel)
  · exact (convexHullT_sorted (low := [![0, 24], ![(1 / 2 + 49 / 2 ^ 53 : ℚ), 1 / 2 + 41 / 2 ^ 53], ![12, 12], ![24, 24]]) (upp := [])
      (by decide +kernel) (by decide +kernel) (by decide +kernel)).trans (by decide +kernel)
  · have := h.2 ![(1 / 2 + 49 / 2 ^ 53 : ℚ), 1 / 2 + 41 / 2 ^ 53] ![12, 12] [![24, 24], ![0, 24]] ⟨1, rfl⟩ ![24, 24] (by simp)
    revert this
    unfold StrictLeft
    decide +kernel

/-! ### Concrete cases -/

/-- Coordinates of a tenth of a square are not numbers of the type; the points are the nearest ones. -/
def tenths : List (Vec ℚ 2) :=
  [![roundSigned 53 (1 / 10), roundSigned 53 (2 / 10)], ![roundSigned 53 (7 / 10), roundSigned 53 (-3 / 10)],
    ![roundSigned 53 (5 / 10), roundSigned 53 (11 / 10)], ![roundSigned 53 (4 / 10), roundSigned 53 (1 / 3)]]

theorem tenths_clear : AllWellApart ((2 : ℚ) ^ 53)⁻¹ tenths := by
  have h : ∀ l ∈ tenths, ∀ r ∈ tenths, ∀ o ∈ tenths, l ≠ r → r ≠ o → l ≠ o →
      ((1 + ((2 : ℚ) ^ 53)⁻¹) ^ 3 - 1) * (|(r 0 - o 0) * (l 1 - o 1)| + |(r 1 - o 1) * (l 0 - o 0)|) <
        |(r 0 - o 0) * (l 1 - o 1) - (r 1 - o 1) * (l 0 - o 0)| := by decide +kernel
  exact h

example : ∃ hull, convexHullR (roundSigned 53) tenths = some hull ∧ (∀ p ∈ hull, p ∈ tenths) ∧ StrictlyConvex hull ∧
    TurnsLeft hull ∧ ∀ p ∈ tenths, InPolygon p hull ∧ InHull hull p :=
  hull_rounded (roundSigned_signed (by norm_num)) tenths_clear (a := ![roundSigned 53 (1 / 10), roundSigned 53 (2 / 10)])
    (b := ![roundSigned 53 (7 / 10), roundSigned 53 (-3 / 10)]) (c := ![roundSigned 53 (5 / 10), roundSigned 53 (11 / 10)])
    (by simp [tenths]) (by simp [tenths]) (by simp [tenths]) (by decide +kernel) (by decide +kernel) (by decide +kernel)

/-- The point is not on the line through the others, by about `2 ^ -40`; still the test is right. -/
example : WellApart ((2 : ℚ) ^ 53)⁻¹ ![3, 1 + 1 / 2 ^ 40] ![(6 : ℚ), 2] ![0, 0] ∧
    orientation3R (roundSigned 53) ![3, 1 + 1 / 2 ^ 40] ![(6 : ℚ), 2] ![0, 0] = .right := by
  have h : WellApart ((2 : ℚ) ^ 53)⁻¹ ![3, 1 + 1 / 2 ^ 40] ![(6 : ℚ), 2] ![0, 0] := by
    unfold WellApart
    decide +kernel
  exact ⟨h, (orientation_rounded (roundSigned_signed (by norm_num)) h).2.1.2 (by decide +kernel)⟩

/-- Coordinates with six binary digits after the point, up to a million, are exact in `double`. -/
theorem grid_double : Exact (roundSigned 53) ((2 : ℚ) ^ (-6 : Int)) (2 ^ 25) :=
  roundSigned_exact (by norm_num) (by norm_num) (by norm_num) _

theorem onGrid_double {x y : ℚ} {a b : Int} (ha : |a| ≤ 2 ^ 25) (hb : |b| ≤ 2 ^ 25) (hx : x = a * 2 ^ (-6 : Int))
    (hy : y = b * 2 ^ (-6 : Int)) : OnGrid ((2 : ℚ) ^ (-6 : Int)) (2 ^ 25) ![x, y] := by
  intro i
  match i with
  | 0 => exact ⟨a, ha, hx⟩
  | 1 => exact ⟨b, hb, hy⟩

example : (withinTriangleR (roundSigned 53) ![(1 / 2 : ℚ), 1 / 2] ![0, 0] ![1, 0] ![0, 1] = .border) := by
  refine (triangle_grid grid_double (x := 0) (y := 1 / 2) (z := 1 / 2) (fun v hv => ?_) (by decide +kernel) ⟨by norm_num, ?_⟩).2.1.2
    ⟨⟨le_rfl, by norm_num, by norm_num⟩, .inl rfl⟩
  · simp only [List.mem_cons, List.not_mem_nil, or_false] at hv
    rcases hv with rfl | rfl | rfl | rfl
    · exact onGrid_double (a := 32) (b := 32) (by norm_num) (by norm_num) (by norm_num) (by norm_num)
    · exact onGrid_double (a := 0) (b := 0) (by norm_num) (by norm_num) (by norm_num) (by norm_num)
    · exact onGrid_double (a := 64) (b := 0) (by norm_num) (by norm_num) (by norm_num) (by norm_num)
    · exact onGrid_double (a := 0) (b := 64) (by norm_num) (by norm_num) (by norm_num) (by norm_num)
  · funext i
    match i with
    | 0 => norm_num
    | 1 => norm_num

example : withinSimpleR (roundSigned 53) ![roundSigned 53 (4 / 10), roundSigned 53 (1 / 3)]
    [![roundSigned 53 (1 / 10), roundSigned 53 (2 / 10)], ![roundSigned 53 (7 / 10), roundSigned 53 (-3 / 10)],
      ![roundSigned 53 (5 / 10), roundSigned 53 (11 / 10)]] = .inside := by
  rw [(polygon_rounded (roundSigned_signed (by norm_num)) fun l hl r hr o ho =>
    tenths_clear l (by revert hl; simp only [tenths, List.mem_cons]; tauto) r (by revert hr; simp only [tenths, List.mem_cons]; tauto) o
      (by revert ho; simp only [tenths, List.mem_cons]; tauto)).2]
  decide +kernel

example : |polyAreaR (roundSigned 53) tenths - shoelace tenths| ≤ ((1 + ((2 : ℚ) ^ 53)⁻¹) ^ 6 - 1) * areaSize tenths ∧
    polyAreaR (roundSigned 53) tenths ≠ shoelace tenths :=
  ⟨area_rounded (roundSigned_signed (by norm_num)) tenths, by decide +kernel⟩

example : 0 < polyAreaR (roundSigned 53) tenths :=
  (area_rounded_sign (roundSigned_signed (by norm_num)) (by decide +kernel)).1.2 (by decide +kernel)

example : polyAreaR (roundSigned 53) [![(1 / 2 : ℚ), 1 / 2], ![3, 0], ![0, -1]] = shoelace [![(1 / 2 : ℚ), 1 / 2], ![3, 0], ![0, -1]] :=
  area_grid (g := 2 ^ (-6 : Int)) (M := 2 ^ 25) (fun v hv => by
    simp only [List.mem_cons, List.not_mem_nil, or_false] at hv
    rcases hv with rfl | rfl | rfl
    · exact onGrid_double (a := 32) (b := 32) (by norm_num) (by norm_num) (by norm_num) (by norm_num)
    · exact onGrid_double (a := 192) (b := 0) (by norm_num) (by norm_num) (by norm_num) (by norm_num)
    · exact onGrid_double (a := 0) (b := -64) (by norm_num) (by norm_num) (by norm_num) (by norm_num))
    grid_double.unit (fun k hk => grid_double.square k (hk.trans (by norm_num)))

end Actl.Geo
