import Verif.Lemmas.Geometry

/-!
# C52: signed area and orientation obey the determinant laws

Over every commutative ring (areas) and every linearly ordered field (orientations), for all points
and all polygons.
-/

namespace Actl.Geo

variable {F : Type*}

section Ring

variable [CommRing F]

/-- C52. The signed area of two vectors is linear in the first one. -/
theorem area_linear_left (s t : F) (u v w : Vec F 2) :
    area (s • u + t • v) w = s * area u w + t * area v w := by
  simp only [area, Pi.add_apply, Pi.smul_apply, smul_eq_mul]; ring

/-- C52. The signed area of two vectors is linear in the second one. -/
theorem area_linear_right (s t : F) (u v w : Vec F 2) :
    area w (s • u + t • v) = s * area w u + t * area w v := by
  simp only [area, Pi.add_apply, Pi.smul_apply, smul_eq_mul]; ring

/-- C52. Swapping the vectors negates the signed area, and a vector has no area with itself; the
unit square has area one (which, with linearity, determines the function). -/
theorem area_antisymm (u v : Vec F 2) :
    area u v = -area v u ∧ area u u = 0 ∧ area (![1, 0] : Vec F 2) ![0, 1] = 1 := by
  refine ⟨?_, ?_, ?_⟩
  · simp only [area]; ring
  · simp only [area]; ring
  · simp [area]

/-- C52. The area of a polygon is the shoelace sum over its closed chain of vertices. -/
theorem polyArea_shoelace (poly : List (Vec F 2)) : polyArea poly = shoelace poly :=
  polyArea_eq_shoelace poly

example : polyArea ([![0, 0], ![4, 0], ![4, 3], ![1, 5]] : List (Vec Int 2)) = 29 := by
  decide +kernel

theorem chainSum_append (l : List (Vec F 2)) (b : Vec F 2) (r : List (Vec F 2)) :
    chainSum (l ++ b :: r) = chainSum (l ++ [b]) + chainSum (b :: r) := by
  induction l with
  | nil => simp [chainSum]
  | cons a l ih =>
    cases l with
    | nil => simp [chainSum]
    | cons c l => simp only [List.cons_append, chainSum] at ih ⊢; rw [ih]; ring

/-- C52. Rotating the list of vertices does not change the area. -/
theorem polyArea_rotate (poly : List (Vec F 2)) (k : Nat) :
    polyArea (poly.rotate k) = polyArea poly := by
  induction k with
  | zero => simp
  | succ k ih =>
    rw [← ih, ← List.rotate_rotate]
    rw [polyArea_shoelace, polyArea_shoelace]
    generalize poly.rotate k = q
    cases q with
    | nil => rfl
    | cons a rest =>
      rw [List.rotate_cons_succ, List.rotate_zero]
      cases rest with
      | nil => rfl
      | cons b rest =>
        show chainSum (b :: (rest ++ [a]) ++ [b]) = chainSum (a :: b :: rest ++ [a])
        rw [show b :: (rest ++ [a]) ++ [b] = (b :: rest) ++ a :: [b] by simp, chainSum_append,
          show a :: b :: rest ++ [a] = a :: b :: (rest ++ [a]) by simp, chainSum]
        simp only [chainSum, add_zero, List.cons_append]
        ring

/-- C52. Cutting a polygon by the diagonal between two of its vertices: the areas of the two parts
add up.  (With `polyArea_rotate` this covers every diagonal.) -/
theorem polyArea_cut (a b : Vec F 2) (l r : List (Vec F 2)) :
    polyArea (a :: l ++ b :: r) = polyArea (a :: l ++ [b]) + polyArea (a :: b :: r) := by
  rw [polyArea_shoelace, polyArea_shoelace, polyArea_shoelace]
  show chainSum (a :: (l ++ b :: r) ++ [a]) = chainSum (a :: (l ++ [b]) ++ [a]) +
    chainSum (a :: b :: r ++ [a])
  have e1 : a :: (l ++ b :: r) ++ [a] = (a :: l) ++ b :: (r ++ [a]) := by simp
  have e2 : a :: (l ++ [b]) ++ [a] = (a :: l) ++ b :: [a] := by simp
  have e3 : a :: b :: r ++ [a] = a :: b :: (r ++ [a]) := by simp
  rw [e1, e2, e3, chainSum_append, chainSum_append (a :: l) b [a]]
  simp only [chainSum, add_zero]
  ring

example : polyArea ([![0, 0], ![4, 0], ![4, 3], ![1, 5]] : List (Vec Int 2)) =
    polyArea ([![0, 0], ![4, 0], ![4, 3]] : List (Vec Int 2)) +
      polyArea ([![0, 0], ![4, 3], ![1, 5]] : List (Vec Int 2)) := by decide +kernel

/-- C52. The area of a triangle is the signed area of its two edge vectors. -/
theorem polyArea_triangle (a b c : Vec F 2) : polyArea [a, b, c] = area (b - a) (c - a) := by
  rw [polyArea_shoelace]
  simp only [shoelace, chainSum, List.cons_append, List.nil_append, area, Pi.sub_apply]
  ring

theorem chainSum_map_add (v : Vec F 2) : ∀ (l : List (Vec F 2)) (a z : Vec F 2),
    chainSum ((a :: l ++ [z]).map (· + v)) =
      chainSum (a :: l ++ [z]) + area (a - z) v := by
  intro l
  induction l with
  | nil =>
    intro a z
    simp only [List.cons_append, List.nil_append, List.map_cons, List.map_nil, chainSum,
      Pi.add_apply, area, Pi.sub_apply]
    ring
  | cons b l ih =>
    intro a z
    have := ih b z
    simp only [List.cons_append, List.map_cons, chainSum] at this ⊢
    rw [this]
    simp only [Pi.add_apply, area, Pi.sub_apply]
    ring

/-- C52. Moving all vertices by one vector does not change the area. -/
theorem polyArea_translate (poly : List (Vec F 2)) (v : Vec F 2) :
    polyArea (poly.map (· + v)) = polyArea poly := by
  rw [polyArea_shoelace, polyArea_shoelace]
  cases poly with
  | nil => rfl
  | cons a rest =>
    have := chainSum_map_add v rest a a
    rw [show a :: rest ++ [a] = a :: (rest ++ [a]) from rfl, List.map_cons, List.map_append] at this
    simp only [List.map_cons, List.map_nil] at this
    show chainSum ((a + v) :: rest.map (· + v) ++ [a + v]) = chainSum (a :: rest ++ [a])
    rw [List.cons_append, this]
    simp [area]

theorem chainSum_reverse (l : List (Vec F 2)) : chainSum l.reverse = -chainSum l := by
  induction l with
  | nil => simp [chainSum]
  | cons a l ih =>
    cases l with
    | nil => simp [chainSum]
    | cons b l =>
      rw [List.reverse_cons, List.reverse_cons, List.append_assoc]
      rw [List.reverse_cons] at ih
      show chainSum (l.reverse ++ b :: [a]) = _
      rw [chainSum_append, ih]
      simp only [chainSum, add_zero]
      ring

/-- C52. Listing the vertices in the opposite order negates the area. -/
theorem polyArea_reverse (poly : List (Vec F 2)) : polyArea poly.reverse = -polyArea poly := by
  cases poly with
  | nil => simp [polyArea, polyAreaLoop]
  | cons a rest =>
    have h : (a :: rest).reverse = (a :: rest.reverse).rotate 1 := by
      rw [List.rotate_cons_succ, List.rotate_zero, List.reverse_cons]
    rw [h, polyArea_rotate, polyArea_shoelace, polyArea_shoelace]
    show chainSum (a :: rest.reverse ++ [a]) = -chainSum (a :: rest ++ [a])
    rw [← chainSum_reverse]
    simp

end Ring

section Order

variable [Field F] [LinearOrder F] [IsStrictOrderedRing F]

theorem ofSign_neg (x : F) : Turn.ofSign (-x) = (Turn.ofSign x).neg := by
  unfold Turn.ofSign
  rcases lt_trichotomy x 0 with h | h | h
  · simp [h, not_lt.2 h.le, neg_pos.2 h, Turn.neg]
  · subst h; simp [Turn.neg]
  · simp [h, not_lt.2 h.le, Turn.neg]

/-- C52. Swapping any two of the three points flips the orientation. -/
theorem orientation3_swap (l r o : Vec F 2) :
    orientation3 r l o = (orientation3 l r o).neg ∧
      orientation3 o r l = (orientation3 l r o).neg ∧
      orientation3 l o r = (orientation3 l r o).neg := by
  have e : ∀ a b c d e f : Vec F 2, area (b - c) (a - c) = -area (e - f) (d - f) →
      orientation3 a b c = (orientation3 d e f).neg := by
    intro a b c d e f h
    rw [orientation3, orientation, orientation3, orientation, h, ofSign_neg]
  refine ⟨e _ _ _ _ _ _ ?_, e _ _ _ _ _ _ ?_, e _ _ _ _ _ _ ?_⟩ <;>
    simp only [area, Pi.sub_apply] <;> ring

/-- C52. Rotating the three points keeps the orientation. -/
theorem orientation3_cyclic (l r o : Vec F 2) :
    orientation3 r o l = orientation3 l r o ∧ orientation3 o l r = orientation3 l r o := by
  constructor <;> (unfold orientation3 orientation; congr 1; simp only [area, Pi.sub_apply]; ring)

/-- C52. Moving the three points by one vector keeps the orientation. -/
theorem orientation3_translate (l r o v : Vec F 2) :
    orientation3 (l + v) (r + v) (o + v) = orientation3 l r o := by
  unfold orientation3; rw [add_sub_add_right_eq_sub, add_sub_add_right_eq_sub]

/-- C52. The orientation of three points is the sign of the area of their triangle: `left`
(counter-clockwise) exactly when the polygon `l, r, origin` has positive area, `right` when it is
negative, `collinear` when it is zero. -/
theorem orientation3_eq_area (l r o : Vec F 2) :
    (orientation3 l r o = .left ↔ 0 < polyArea [l, r, o]) ∧
      (orientation3 l r o = .right ↔ polyArea [l, r, o] < 0) ∧
      (orientation3 l r o = .collinear ↔ polyArea [l, r, o] = 0) := by
  have h : area (r - o) (l - o) = -polyArea [l, r, o] := by
    rw [polyArea_triangle]; simp only [area, Pi.sub_apply]; ring
  rw [orientation3, orientation, h, Turn.ofSign]
  generalize polyArea [l, r, o] = x
  rcases lt_trichotomy x 0 with hx | hx | hx
  · simp [hx, hx.ne, hx.le, not_lt.2 hx.le]
  · subst hx; simp
  · simp [hx, hx.ne', not_lt.2 hx.le]

example : orientation3 (![0, 1] : Vec Int 2) ![1, 0] ![0, 0] = .right ∧
    orientation3 (![1, 0] : Vec Int 2) ![0, 1] ![0, 0] = .left ∧
    orientation3 (![2, 2] : Vec Int 2) ![1, 1] ![0, 0] = .collinear := by decide +kernel

end Order

/-- The kind of a line, a byte, holds its two endpoints: every combination that `make_any_line` can
form (the first endpoint not smaller than the second) is one of the six kinds, is valid, and is read
back as the same two endpoints; the other combinations are not valid. -/
theorem kind_roundtrip (b e : Endpoint) :
    (isValidKind (combine b e) = true ↔ e.val ≤ b.val) ∧
      (e.val ≤ b.val → ∃ k, LineKind.ofVal (combine b e) = some k ∧ k.first = b ∧ k.last = e) := by
  cases b <;> cases e <;> decide

/-- Adding to a cyclic iterator by less than a whole cycle moves modulo the number of elements, and
so do stepping forward, stepping back and the distance. -/
theorem cyclic_moves {cycle i j k : Int} (hi0 : 0 ≤ i) (hi : i < cycle) (hj0 : 0 ≤ j)
    (hj : j < cycle) (hk0 : -cycle < k) (hk : k < cycle) :
    cyclicAdd cycle i k = (i + k) % cycle ∧ cyclicNext cycle i = (i + 1) % cycle ∧
      cyclicPrev cycle i = (i - 1) % cycle ∧ cyclicDist cycle i j = (i - j) % cycle :=
  ⟨cyclicAdd_eq hi0 hi hk0 hk, cyclicNext_eq hi0 hi, cyclicPrev_eq hi0 hi,
    cyclicDist_eq hi0 hi hj0 hj⟩

example : cyclicAdd 5 3 4 = 2 ∧ cyclicAdd 5 1 (-3) = 3 ∧ cyclicNext 5 4 = 0 ∧
    cyclicDist 5 1 3 = 3 := by decide

end Actl.Geo
