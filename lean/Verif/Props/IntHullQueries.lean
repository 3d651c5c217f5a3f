import Verif.Props.HullQueries
import Verif.Props.IntPolygon
import Verif.Props.IntClosest
import Verif.Props.IntLinePolygon

/-!
# C136: the convex hull of points with integer coordinates, and questions answered through it

All points in a box of side `D`, coordinates of `w` bits, products of `W` bits.
-/

namespace Actl.Geo

variable {w W : Nat} {o : Vec Int 2} {D : Int} {points : List (Vec Int 2)}

theorem minIndex_exact {F : Type*} [Field F] [LinearOrder F] [IsStrictOrderedRing F] : ∀ (ys : List (Vec Int 2)) (best : Vec Int 2)
    (pos i : Nat), minIndex (exact best : Vec F 2) pos i (ys.map exact) = minIndex best pos i ys
  | [], _, _, _ => rfl
  | y :: ys, best, pos, i => by
    rw [List.map_cons, minIndex, minIndex, less_exact, minIndex_exact ys, minIndex_exact ys]

theorem maxIndex_exact {F : Type*} [Field F] [LinearOrder F] [IsStrictOrderedRing F] : ∀ (ys : List (Vec Int 2)) (best : Vec Int 2)
    (pos i : Nat), maxIndex (exact best : Vec F 2) pos i (ys.map exact) = maxIndex best pos i ys
  | [], _, _, _ => rfl
  | y :: ys, best, pos, i => by
    rw [List.map_cons, maxIndex, maxIndex, less_exact, maxIndex_exact ys, maxIndex_exact ys]

theorem toMonotone_exact {F : Type*} [Field F] [LinearOrder F] [IsStrictOrderedRing F] (poly : List (Vec Int 2)) :
    toMonotone (poly.map (exact : Vec Int 2 → Vec F 2)) = ((toMonotone poly).1.map exact, (toMonotone poly).2) := by
  cases poly with
  | nil => rfl
  | cons x xs =>
    rw [List.map_cons, toMonotone]
    simp only [minIndex_exact, maxIndex_exact]
    rw [toMonotone, List.map_rotate]
    simp

/-- The hull of points in a box: it consists of some of them and is the exact one. -/
theorem hull_int (hw : D < 2 ^ (w - 1)) (hW : D * D < 2 ^ (W - 1)) (hb : ∀ p ∈ points, InBox o D p)
    (hnc : ¬ AllCollinear (points.map (exact : Vec Int 2 → Vec ℚ 2))) :
    ∃ hull, convexHullI w W points = some hull ∧ hull.map (exact : Vec Int 2 → Vec ℚ 2) = convexHull (points.map exact) ∧
      (∀ v ∈ hull, v ∈ points) ∧ StrictlyConvex (hull.map (exact : Vec Int 2 → Vec ℚ 2)) := by
  obtain ⟨hull, e, he⟩ := convexHull_box (F := ℚ) hw hW hb
  obtain ⟨h1, h2, -, -⟩ := convexHull_partial hnc
  refine ⟨hull, e, he, fun v hv => ?_, he ▸ h2⟩
  have := h1 (exact v) (he ▸ List.mem_map_of_mem hv)
  obtain ⟨u, hu, hvu⟩ := List.mem_map.1 this
  rw [← exact_injective hvu]; exact hu

/-- C136. The hull of integer points depends on the set of points only, and the hull of the hull is the hull. -/
theorem convexHull_int_set (hw : D < 2 ^ (w - 1)) (hW : D * D < 2 ^ (W - 1)) {points' : List (Vec Int 2)}
    (h : ∀ p, p ∈ points ↔ p ∈ points') (hb : ∀ p ∈ points, InBox o D p) :
    ∃ hull, convexHullI w W points = some hull ∧ convexHullI w W points' = some hull ∧
      convexHullI w W hull = some hull := by
  obtain ⟨hull, e, he⟩ := convexHull_box (F := ℚ) hw hW hb
  obtain ⟨hull', e', he'⟩ := convexHull_box (F := ℚ) (points := points') hw hW fun p hp => hb p ((h p).2 hp)
  have hs : convexHull (points.map (exact : Vec Int 2 → Vec ℚ 2)) = convexHull (points'.map exact) :=
    convexHull_set fun p => by simp only [List.mem_map, h]
  have hinj := List.map_injective_iff.2 (exact_injective (F := ℚ))
  have : hull = hull' := hinj (he.trans (hs.trans he'.symm))
  refine ⟨hull, e, this ▸ e', ?_⟩
  have hbh : ∀ p ∈ hull, InBox o D p := fun p hp => by
    obtain ⟨u, hu, hvu⟩ := List.mem_map.1 (convexHull_subset _ (exact p) (he ▸ List.mem_map_of_mem hp))
    rw [← exact_injective hvu]; exact hb u hu
  obtain ⟨hull2, e2, he2⟩ := convexHull_box (F := ℚ) hw hW hbh
  rw [he, convexHull_idem, ← he] at he2
  rw [e2, hinj he2]

/-- C136. `within` of the hull of integer points. -/
theorem within_hull_int (hw : D < 2 ^ (w - 1)) (hW : D * D < 2 ^ (W - 1)) (hb : ∀ p ∈ points, InBox o D p)
    (hnc : ¬ AllCollinear (points.map (exact : Vec Int 2 → Vec ℚ 2))) (hn : points.length < 2 ^ 31 - 1) {p : Vec Int 2}
    (hp : InBox o D p) :
    ∃ hull r, convexHullI w W points = some hull ∧
      withinConvexMonotoneI w W p (toMonotone hull).1 (toMonotone hull).2 = some r ∧
      withinMonotoneI w W p (toMonotone hull).1 (toMonotone hull).2 = some r ∧
      (r = .inside ↔ Surrounded (points.map exact) (exact p : Vec ℚ 2)) ∧ (r = .border ↔ OnRim (points.map exact) (exact p : Vec ℚ 2)) ∧
      (r = .outside ↔ ¬ InHull (points.map exact) (exact p : Vec ℚ 2)) := by
  obtain ⟨hull, e, he, hsub, -⟩ := hull_int hw hW hb hnc
  obtain ⟨r, e1, e2, -, hr⟩ := within_hull hnc (by rw [List.length_map]; exact hn) (exact p)
  rw [← he, toMonotone_exact] at e1 e2
  have hbm : ∀ v ∈ (toMonotone hull).1, InBox o D v := by
    intro v hv
    cases hh : hull with
    | nil => rw [hh] at hv; simp [toMonotone] at hv
    | cons x xs =>
      rw [hh, toMonotone] at hv
      exact hb v (hsub v (by rw [hh]; exact List.mem_rotate.1 hv))
  refine ⟨hull, r, e, ?_, ?_, hr⟩
  · rw [withinConvexMonotone_box (F := ℚ) hw hW hp hbm]; exact e1
  · rw [withinMonotone_box (F := ℚ) hw hW hp hbm]; exact e2

/-- C136. `max_distance` of the hull of integer points: the root of the greatest squared distance. -/
theorem maxDistance_hull_int {F : Type*} [Zero F] [LinearOrder F] {root conv : Int → F} (hr : RootOf root conv D) (hz : 0 ≤ root 0)
    (hw : D < 2 ^ (w - 1)) (hW : 2 * (D * D) < 2 ^ (W - 1)) (hb : ∀ p ∈ points, InBox o D p)
    (hnc : ¬ AllCollinear (points.map (exact : Vec Int 2 → Vec ℚ 2))) :
    ∃ hull, convexHullI w W points = some hull ∧ ∃ p ∈ points, ∃ q ∈ points,
      maxDistanceI root w W hull = some (root (dist2 p q)) ∧ ∀ v ∈ points, ∀ u ∈ points, dist2 v u ≤ dist2 p q := by
  obtain ⟨hull, e, he, hsub, hc⟩ := hull_int hw (by nlinarith [mul_self_nonneg D]) hb hnc
  obtain ⟨p, hp, q, hq, hm, hmax⟩ := maxDistance_int_box hr hz hw hW (fun v hv => hb v (hsub v hv)) hc
  refine ⟨hull, e, p, hsub p hp, q, hsub q hq, hm, fun v hv u hu => ?_⟩
  obtain ⟨-, -, -, h4⟩ := convexHull_partial hnc
  have hin : ∀ x ∈ points, InHull (hull.map exact) (exact x : Vec ℚ 2) := fun x hx => by
    rw [he]; exact (h4 _ (List.mem_map_of_mem hx)).2
  have comm : ∀ x y : Vec ℚ 2, dist2 x y = dist2 y x := fun x y => by
    simp only [dist2, Fin.sum_univ_two]; ring
  have : dist2 (exact v : Vec ℚ 2) (exact u) ≤ (dist2 p q : Int) := by
    refine (hin v hv).dist2_le fun x hx => ?_
    obtain ⟨x', hx', rfl⟩ := List.mem_map.1 hx
    rw [comm]
    refine (hin u hu).dist2_le fun y hy => ?_
    obtain ⟨y', hy', rfl⟩ := List.mem_map.1 hy
    rw [dist2_exact]
    exact_mod_cast hmax y' hy' x' hx'
  rw [dist2_exact] at this
  exact_mod_cast this

/-- C136. `tangent_vertices` of the hull of integer points. -/
theorem tangentVertices_hull_int (hw : D < 2 ^ (w - 1)) (hW : D * D < 2 ^ (W - 1)) (hb : ∀ p ∈ points, InBox o D p)
    (hnc : ¬ AllCollinear (points.map (exact : Vec Int 2 → Vec ℚ 2))) {p : Vec Int 2} (hp : InBox o D p)
    (hout : ¬ InHull (points.map exact) (exact p : Vec ℚ 2)) (output : Output Nat) :
    ∃ hull i j u v output', convexHullI w W points = some hull ∧ tangentVerticesI w W p hull output = some output' ∧
      Wrote output output' [i, j] ∧ hull[i]? = some u ∧ hull[j]? = some v ∧ u ∈ points ∧ v ∈ points ∧
      (∀ q ∈ points, LeftOrOn (exact p : Vec ℚ 2) (exact u) (exact q)) ∧ ∀ q ∈ points, LeftOrOn (exact v : Vec ℚ 2) (exact p) (exact q) := by
  obtain ⟨hull, e, he, hsub, hc⟩ := hull_int hw hW hb hnc
  obtain ⟨i, j, u, v, out, e1, hwr, hu, hv, -, -, hl1, hl2⟩ := tangentVertices_hull hnc hout output
  rw [← he] at e1 hu hv
  rw [List.getElem?_map, Option.map_eq_some_iff] at hu hv
  obtain ⟨u', hu', rfl⟩ := hu
  obtain ⟨v', hv', rfl⟩ := hv
  refine ⟨hull, i, j, u', v', out, e, ?_, hwr, hu', hv', hsub _ (List.mem_of_getElem? hu'), hsub _ (List.mem_of_getElem? hv'),
    fun q hq => hl1 _ (List.mem_map_of_mem hq), fun q hq => hl2 _ (List.mem_map_of_mem hq)⟩
  rw [tangentVertices_box (F := ℚ) hw hW hp fun x hx => hb x (hsub x hx)]
  exact e1

open Classical in
/-- C136. `intersect` of a line through two integer points and the hull of integer points. -/
theorem intersectConvex_hull_int {ratio : Int → Int → ℚ} {ε : ℚ} (hr : ∀ x y : Int, y ≠ 0 → |ratio x y - x / y| ≤ ε * |(x : ℚ) / y|)
    (hw : D < 2 ^ (w - 1)) (hW : 2 * (D * D) < 2 ^ (W - 1)) (hb : ∀ p ∈ points, InBox o D p)
    (hnc : ¬ AllCollinear (points.map (exact : Vec Int 2 → Vec ℚ 2))) {a b : Vec Int 2} (ha : InBox o D a) (hb' : InBox o D b)
    (hab : a ≠ b) (k : LineKind) :
    ∃ hull l, convexHullI w W points = some hull ∧ throughI w a b k = some l ∧
      (((∀ t, ¬ InHull (points.map exact) ((Line.through (exact a) (exact b) k : Line ℚ 2).at t)) ∧
          intersectConvexI ratio w W l hull = some []) ∨
        ∃ t₁ t₂ r₁ r₂, t₁ ≤ t₂ ∧
          (∀ t, InHull (points.map exact) ((Line.through (exact a) (exact b) k : Line ℚ 2).at t) ↔ t₁ ≤ t ∧ t ≤ t₂) ∧
          intersectConvexI ratio w W l hull = some ((if Allowed k t₁ then [r₁] else []) ++ (if Allowed k t₂ then [r₂] else [])) ∧
          |r₁ - t₁| ≤ ε * |t₁| ∧ |r₂ - t₂| ≤ ε * |t₂|) := by
  obtain ⟨hull, e, he, hsub, hc⟩ := hull_int hw (by nlinarith [mul_self_nonneg D]) hb hnc
  obtain ⟨l, el, h⟩ := convexParams_box hr hw hW ha hb' (fun v hv => hb v (hsub v hv)) hab hc k
  refine ⟨hull, l, e, el, ?_⟩
  simp only [he, (convexHull_contains hnc _).1] at h
  exact h

/-! ### Examples -/

/-- Points of the examples in a box of side 4. -/
def fivePointsI : List (Vec Int 2) := [![2, 1], ![4, 0], ![0, 0], ![2, 3], ![2, 0]]

theorem fivePointsI_box : ∀ p ∈ fivePointsI, InBox ![0, 0] 4 p := by
  intro p hp
  simp only [fivePointsI, List.mem_cons, List.not_mem_nil, or_false] at hp
  rcases hp with rfl | rfl | rfl | rfl | rfl <;> simp [InBox]

theorem fivePointsI_not_collinear : ¬ AllCollinear (fivePointsI.map (exact : Vec Int 2 → Vec ℚ 2)) := by
  intro h
  have := h (exact ![0, 0]) (List.mem_map_of_mem (by simp [fivePointsI])) (exact ![4, 0])
    (List.mem_map_of_mem (by simp [fivePointsI])) (exact ![2, 3]) (List.mem_map_of_mem (by simp [fivePointsI]))
  norm_num [exact] at this

example {p : Vec Int 2} (hp : InBox ![0, 0] 4 p) :
    ∃ hull r, convexHullI 32 32 fivePointsI = some hull ∧
      withinConvexMonotoneI 32 32 p (toMonotone hull).1 (toMonotone hull).2 = some r ∧
      (r = .outside ↔ ¬ InHull (fivePointsI.map exact) (exact p : Vec ℚ 2)) := by
  obtain ⟨hull, r, e, e1, -, -, -, h⟩ := within_hull_int (w := 32) (W := 32) (by norm_num) (by norm_num) fivePointsI_box
    fivePointsI_not_collinear (by simp [fivePointsI]) hp
  exact ⟨hull, r, e, e1, h⟩

example {root conv : Int → ℚ} (hr : RootOf root conv 4) (hz : 0 ≤ root 0) :
    ∃ hull, convexHullI 32 32 fivePointsI = some hull ∧ ∃ p ∈ fivePointsI, ∃ q ∈ fivePointsI,
      maxDistanceI root 32 32 hull = some (root (dist2 p q)) ∧ ∀ v ∈ fivePointsI, ∀ u ∈ fivePointsI, dist2 v u ≤ dist2 p q :=
  maxDistance_hull_int hr hz (by norm_num) (by norm_num) fivePointsI_box fivePointsI_not_collinear

example : ∃ hull, convexHullI 32 32 fivePointsI = some hull ∧ convexHullI 32 32 (fivePointsI.reverse ++ fivePointsI) = some hull := by
  obtain ⟨hull, e, e', -⟩ := convexHull_int_set (w := 32) (W := 32) (points := fivePointsI)
    (points' := fivePointsI.reverse ++ fivePointsI) (by norm_num) (by norm_num) (by simp) fivePointsI_box
  exact ⟨hull, e, e'⟩

end Actl.Geo
