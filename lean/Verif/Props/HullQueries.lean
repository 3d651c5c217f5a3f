import Verif.Lemmas.HullQueries
import Verif.Props.ToMonotone
import Verif.Props.Antipodal

/-!
# C136: the convex hull of a set of points, and questions about the set answered through it

The specification does not mention polygons: `InHull points p` (`p` lies between the points), `Surrounded` and `OnRim`
(`Spec/HullQueries.lean`).
-/

namespace Actl.Geo

variable {F : Type*} [Field F] [LinearOrder F] [IsStrictOrderedRing F] {points : List (Vec F 2)}

/-! ### The hull -/

/-- C136. The hull contains exactly what lies between the points. -/
theorem convexHull_contains (hnc : ¬ AllCollinear points) (p : Vec F 2) :
    (InPolygon p (convexHull points) ↔ InHull points p) ∧ (InHull (convexHull points) p ↔ InHull points p) := by
  obtain ⟨h1, h2, -, h4⟩ := convexHull_partial hnc
  have e : InHull (convexHull points) p ↔ InHull points p :=
    ⟨InHull.mono fun q hq => .vertex (h1 q hq), InHull.mono fun q hq => (h4 q hq).2⟩
  exact ⟨(inPolygon_iff_inHull h2 p).trans e, e⟩

/-- C136. A strictly convex polygon that contains exactly what lies between the points is the hull up to the vertex it starts with, and the
hull itself if it starts with the least point. -/
theorem convexHull_unique (hnc : ¬ AllCollinear points) {h : List (Vec F 2)} (hc : StrictlyConvex h)
    (hsame : ∀ p, InPolygon p h ↔ InHull points p) :
    convexHull points ~r h ∧ ((∀ a, h.head? = some a → ∀ p ∈ points, key a ≤ key p) → convexHull points = h) := by
  obtain ⟨h1, h2, -, -⟩ := convexHull_partial hnc
  have e : ∀ p, InHull (convexHull points) p ↔ InHull h p := fun p =>
    (convexHull_contains hnc p).2.trans ((hsame p).symm.trans (inPolygon_iff_inHull hc p))
  refine ⟨h2.rotated_of_same hc e, fun hl => h2.eq_of_head hc e ?_⟩
  obtain ⟨a, ha, hmin, eh⟩ := convexHull_head (points := points) fun e => hnc (by rw [e]; intro a ha; simp at ha)
  cases hh : h with
  | nil => have := hc.1; rw [hh] at this; simp at this
  | cons b bs =>
    have hb : b ∈ convexHull points := hc.vertex_mem (fun p => (e p).symm) (by rw [hh]; simp)
    have := hl b (by rw [hh]; rfl) a ha
    rw [eh, key_inj.1 (le_antisymm (hmin b (h1 b hb)) this)]
    rfl

/-- The vertices are some of the points, also if they are collinear. -/
theorem convexHull_subset (points : List (Vec F 2)) : ∀ v ∈ convexHull points, v ∈ points := by
  by_cases hc : AllCollinear points
  · by_cases h2 : 2 ≤ points.length
    · obtain ⟨z, hz, -, ez⟩ := convexHull_collinear h2 hc
      rw [ez]
      intro v hv
      rw [List.mem_singleton.1 hv]; exact hz
    · rw [convexHull_small (by omega)]
      exact fun v hv => hv
  · exact (convexHull_partial hc).1

/-- C136. The hull depends on the set of points only: not on their order and not on how often each of them is given. -/
theorem convexHull_set {points' : List (Vec F 2)} (h : ∀ p, p ∈ points ↔ p ∈ points') : convexHull points = convexHull points' := by
  have hcol : AllCollinear points ↔ AllCollinear points' := by
    simp only [AllCollinear, h]
  have hin : ∀ p, InHull points p ↔ InHull points' p := fun p =>
    ⟨InHull.mono fun q hq => .vertex ((h q).1 hq), InHull.mono fun q hq => .vertex ((h q).2 hq)⟩
  by_cases hnil : points = []
  · subst hnil
    have : points' = [] := List.eq_nil_iff_forall_not_mem.2 fun p hp => by simpa using (h p).2 hp
    rw [this]
  have hnil' : points' ≠ [] := by
    rintro rfl
    exact hnil (List.eq_nil_iff_forall_not_mem.2 fun p hp => by simpa using (h p).1 hp)
  obtain ⟨a, ha, hmin, eh⟩ := convexHull_head hnil
  obtain ⟨a', ha', hmin', eh'⟩ := convexHull_head hnil'
  have haa : a = a' := key_inj.1 (le_antisymm (hmin a' ((h a').2 ha')) (hmin' a ((h a).1 ha)))
  by_cases hc : AllCollinear points
  · have one : ∀ l : List (Vec F 2), l ≠ [] → AllCollinear l → (convexHull l).length = 1 := by
      intro l hl hcl
      by_cases h2 : 2 ≤ l.length
      · obtain ⟨z, -, -, ez⟩ := convexHull_collinear h2 hcl
        rw [ez]; rfl
      · rw [convexHull_small (by omega)]
        have := List.length_pos_iff.2 hl
        omega
    obtain ⟨x, ex⟩ := List.length_eq_one_iff.1 (one _ hnil hc)
    obtain ⟨y, ey⟩ := List.length_eq_one_iff.1 (one _ hnil' (hcol.1 hc))
    rw [ex] at eh ⊢
    rw [ey] at eh' ⊢
    simp only [List.head?_cons, Option.some.injEq] at eh eh'
    rw [eh, eh', haa]
  · obtain ⟨-, h2, -, -⟩ := convexHull_partial hc
    obtain ⟨-, h2', -, -⟩ := convexHull_partial (mt hcol.2 hc)
    refine h2.eq_of_head h2' (fun p => ?_) (by rw [eh, eh', haa])
    exact (convexHull_contains hc p).2.trans ((hin p).trans (convexHull_contains (mt hcol.2 hc) p).2.symm)

/-- C136. The hull of a hull is the hull. -/
theorem convexHull_idem (points : List (Vec F 2)) : convexHull (convexHull points) = convexHull points := by
  by_cases hc : AllCollinear points
  · by_cases h2 : 2 ≤ points.length
    · obtain ⟨z, -, -, ez⟩ := convexHull_collinear h2 hc
      rw [ez]; rfl
    · rw [convexHull_small (points := points) (by omega), convexHull_small (by omega)]
  · obtain ⟨h1, h2, -, -⟩ := convexHull_partial hc
    refine (convexHull_unique h2.not_collinear h2 fun p => inPolygon_iff_inHull h2 p).2 fun a ha p hp => ?_
    obtain ⟨b, -, hmin, eb⟩ := convexHull_head (points := points) fun e => hc (by rw [e]; intro a ha; simp at ha)
    rw [eb] at ha
    rw [← Option.some.inj ha]
    exact hmin p (h1 p hp)

/-! ### Questions about the set -/

/-- The hull has no more vertices than there are points. -/
theorem convexHull_length_le (hnc : ¬ AllCollinear points) : (convexHull points).length ≤ points.length := by
  obtain ⟨h1, h2, -, -⟩ := convexHull_partial hnc
  exact (List.subperm_of_subset h2.nodup h1).length_le

/-- C136. `within` of the hull, as a simple polygon, as a monotone one and as a convex monotone one: `inside` exactly for the points that
the set surrounds, `border` for those on its rim, `outside` for those that do not lie between the points. -/
theorem within_hull (hnc : ¬ AllCollinear points) (hn : points.length < 2 ^ 31 - 1) (p : Vec F 2) :
    ∃ w, withinConvexMonotone p (toMonotone (convexHull points)).1 (toMonotone (convexHull points)).2 = some w ∧
      withinMonotone p (toMonotone (convexHull points)).1 (toMonotone (convexHull points)).2 = some w ∧
      withinSimple p (convexHull points) = w ∧
      (w = .inside ↔ Surrounded points p) ∧ (w = .border ↔ OnRim points p) ∧ (w = .outside ↔ ¬ InHull points p) := by
  obtain ⟨h1, h2, -, h4⟩ := convexHull_partial hnc
  have hlen := convexHull_length_le hnc
  have hb : ((convexHull points).length : Int) < boundary := by unfold boundary; omega
  obtain ⟨w, e1, e2, hi, hbd, ho⟩ := within_toMonotone p (convexHull points) h2 hb
  obtain ⟨si, sb, so⟩ := withinSimple_convex p (convexHull points) h2 hb
  have hi' : w = .inside ↔ Surrounded points p :=
    hi.trans (strictlyIn_iff_surrounded h2 h1 (fun q hq => (h4 q hq).1) p)
  have ho' : w = .outside ↔ ¬ InHull points p := by
    rw [ho, ← (convexHull_contains hnc p).1, inPolygon_edges]
    simp only [StrictRight, LeftOrOn, not_forall, not_le, exists_prop]
  refine ⟨w, e1, e2, ?_, hi', ?_, ho'⟩
  · cases w with
    | inside => exact si.2 (hi.1 rfl)
    | border => exact sb.2 (hbd.1 rfl)
    | outside => exact so.2 (ho.1 rfl)
  · have hs : OnRim points p ↔ InHull points p ∧ ¬ Surrounded points p := by
      simp only [OnRim, Surrounded]
      push Not
      rfl
    have ho2 : InHull points p ↔ w ≠ .outside := by rw [ne_eq, ho', not_not]
    rw [hs, ← hi', ho2]
    cases w <;> simp

/-- A distance that all vertices keep from a point is kept by all that lies between them. -/
theorem InHull.dist2_le {l : List (Vec F 2)} {p q : Vec F 2} {B : F} (h : InHull l p) (hl : ∀ v ∈ l, dist2 v q ≤ B) :
    dist2 p q ≤ B := by
  induction h with
  | vertex hp => exact hl _ hp
  | @segment x y t _ _ h0 h1 ih1 ih2 =>
    simp only [dist2, Fin.sum_univ_two] at ih1 ih2 ⊢
    have e : (x 0 + t * (y 0 - x 0) - q 0) ^ 2 + (x 1 + t * (y 1 - x 1) - q 1) ^ 2 =
      (1 - t) * ((x 0 - q 0) ^ 2 + (x 1 - q 1) ^ 2) + t * ((y 0 - q 0) ^ 2 + (y 1 - q 1) ^ 2) -
        t * (1 - t) * ((y 0 - x 0) ^ 2 + (y 1 - x 1) ^ 2) := by ring
    rw [e]
    have a1 := mul_le_mul_of_nonneg_left ih1 (sub_nonneg.2 h1)
    have a2 := mul_le_mul_of_nonneg_left ih2 h0
    have a3 : 0 ≤ t * (1 - t) * ((y 0 - x 0) ^ 2 + (y 1 - x 1) ^ 2) :=
      mul_nonneg (mul_nonneg h0 (sub_nonneg.2 h1)) (by positivity)
    nlinarith

/-- C136. `max_distance` of the hull is the greatest distance of two of the points. -/
theorem maxDistance_hull {sqrt : F → F} (hs : IsSqrt sqrt) (hnc : ¬ AllCollinear points) :
    ∃ r, maxDistance sqrt (convexHull points) = some r ∧ 0 ≤ r ∧ (∃ p ∈ points, ∃ q ∈ points, r ^ 2 = dist2 p q) ∧
      ∀ p ∈ points, ∀ q ∈ points, dist2 p q ≤ r ^ 2 := by
  obtain ⟨h1, h2, -, h4⟩ := convexHull_partial hnc
  obtain ⟨r, e, h0, ⟨p, hp, q, hq, hr⟩, hmax⟩ := maxDistance_partial hs (.inl h2)
  refine ⟨r, e, h0, ⟨p, h1 p hp, q, h1 q hq, hr⟩, fun p hp q hq => ?_⟩
  have comm : ∀ x y : Vec F 2, dist2 x y = dist2 y x := fun x y => by
    simp only [dist2, Fin.sum_univ_two]; ring
  refine (h4 p hp).2.dist2_le fun v hv => ?_
  rw [comm]
  exact (h4 q hq).2.dist2_le fun u hu => hmax u hu v hv

/-- C136. `extreme_vertex` of the hull in a direction is one of the points, and no point is on the right of the line through it in that
direction. -/
theorem extremeVertex_hull (hnc : ¬ AllCollinear points) {d : Vec F 2} (hd : d ≠ 0) :
    ∃ i v, extremeVertex (convexHull points) (fun _ => d) = some i ∧ (convexHull points)[i]? = some v ∧ v ∈ points ∧
      ∀ q ∈ points, LeftOrOn v (v + d) q := by
  obtain ⟨h1, h2, -, h4⟩ := convexHull_partial hnc
  obtain ⟨i, e, hi, hm, hl, -⟩ := extremeVertex_correct h2 hd
  refine ⟨i, _, e, ?_, h1 _ hm, fun q hq => (h4 q hq).2.leftOrOn hl⟩
  rw [List.getElem?_eq_getElem hi, vert_getElem hi]

/-- C136. The two `tangent_vertices` of the hull from a point that does not lie between the points are two of the points; no point is on
the right of the first tangent, none on the left of the second. -/
theorem tangentVertices_hull (hnc : ¬ AllCollinear points) {p : Vec F 2} (hp : ¬ InHull points p) (output : Output Nat) :
    ∃ i j u v output', tangentVertices p (convexHull points) output = some output' ∧ Wrote output output' [i, j] ∧
      (convexHull points)[i]? = some u ∧ (convexHull points)[j]? = some v ∧ u ∈ points ∧ v ∈ points ∧
      (∀ q ∈ points, LeftOrOn p u q) ∧ ∀ q ∈ points, LeftOrOn v p q := by
  obtain ⟨h1, h2, -, h4⟩ := convexHull_partial hnc
  have ho : OutsideConvex p (convexHull points) := by
    rw [← (convexHull_contains hnc p).1, inPolygon_edges] at hp
    simpa only [OutsideConvex, StrictRight, LeftOrOn, not_forall, not_le, exists_prop] using hp
  obtain ⟨i, j, out, e, hw, hi, hj, ⟨mi, li, -⟩, ⟨mj, lj, -⟩⟩ := tangentVertices_correct h2 ho output
  refine ⟨i, j, _, _, out, e, hw, ?_, ?_, h1 _ mi, h1 _ mj, fun q hq => (h4 q hq).2.leftOrOn li,
    fun q hq => (h4 q hq).2.leftOrOn lj⟩
  · rw [List.getElem?_eq_getElem hi, vert_getElem hi]
  · rw [List.getElem?_eq_getElem hj, vert_getElem hj]

open Classical in
/-- C136. `intersect` of a line and the hull: the parameters written are the first and the last of the line for which it lies between the
points, of these the ones that its kind allows. -/
theorem intersectConvex_hull (hnc : ¬ AllCollinear points) {l : Line F 2} (hv : l.vector ≠ 0) :
    ((∀ t, ¬ InHull points (l.at t)) ∧ intersectConvex l (convexHull points) = some []) ∨
    ∃ t₁ t₂, t₁ ≤ t₂ ∧ (∀ t, InHull points (l.at t) ↔ t₁ ≤ t ∧ t ≤ t₂) ∧
      intersectConvex l (convexHull points) = some ((if Allowed l.kind t₁ then [t₁] else []) ++
        (if Allowed l.kind t₂ then [t₂] else [])) := by
  obtain ⟨-, h2, -, -⟩ := convexHull_partial hnc
  simp only [← (convexHull_contains hnc _).1]
  exact intersectConvex_correct h2 hv

/-! ### Points on one line -/

/-- C136. For collinear points the answers are wrong: one of any two different points is not in the hull, so that `within`
says `outside`, and `max_distance` is 0. -/
theorem within_hull_fails (hc : AllCollinear points) (sqrt : F → F) {p q : Vec F 2} (hp : p ∈ points) (hq : q ∈ points) (hpq : p ≠ q) :
    ∃ x ∈ points, withinSimple x (convexHull points) = .outside ∧
      withinConvexMonotone x (toMonotone (convexHull points)).1 (toMonotone (convexHull points)).2 = some .outside ∧
      maxDistance sqrt (convexHull points) = some 0 := by
  obtain ⟨a, ha, e, hne⟩ := convexHull_collinear_fails hc hp hq hpq
  obtain ⟨x, hx, hxa⟩ : ∃ x ∈ points, x ≠ a := by
    rcases hne with h | h
    · exact ⟨p, hp, h⟩
    · exact ⟨q, hq, h⟩
  have hq : isEqual x a = false := by
    rw [Bool.eq_false_iff]
    exact fun h => hxa ((isEqual_iff _ _).1 h)
  refine ⟨x, hx, ?_, ?_, ?_⟩
  · rw [e]
    simp [withinSimple, windingNumber, hq]
  · rw [e]
    simp [toMonotone, minIndex, withinConvexMonotone, hq]
  · rw [e]
    rfl

/-! ### Examples -/

/-- Six points, one of them twice and two of them not vertices of the hull. -/
def sixPoints : List (Vec ℚ 2) := [![2, 1], ![4, 0], ![0, 0], ![2, 3], ![2, 0], ![4, 0]]

theorem sixPoints_not_collinear : ¬ AllCollinear sixPoints := by
  intro h
  have := h ![0, 0] (by simp [sixPoints]) ![4, 0] (by simp [sixPoints]) ![2, 3] (by simp [sixPoints])
  norm_num at this

/-- The order and the repetition do not matter. -/
example : convexHull sixPoints = convexHull [![0, 0], ![2, 0], ![2, 1], ![2, 3], ![4, 0]] :=
  convexHull_set fun p => by simp only [sixPoints, List.mem_cons, List.not_mem_nil, or_false]; tauto

example : convexHull (convexHull sixPoints) = convexHull sixPoints := convexHull_idem _

/-- The point (2, 0) is one of the points but not a vertex: it is on the rim. -/
example : ∃ w, withinConvexMonotone ![2, 0] (toMonotone (convexHull sixPoints)).1 (toMonotone (convexHull sixPoints)).2 = some w ∧
    w = .border := by
  obtain ⟨w, e, -, -, -, hb, -⟩ := within_hull sixPoints_not_collinear (by simp [sixPoints]) ![2, 0]
  refine ⟨w, e, hb.2 ⟨.vertex (by simp [sixPoints]), ![0, -1], fun h => by simpa using congrFun h 1, ?_⟩⟩
  intro q hq
  simp only [sixPoints, List.mem_cons, List.not_mem_nil, or_false] at hq
  rcases hq with rfl | rfl | rfl | rfl | rfl | rfl <;> norm_num [inner2]

example {sqrt : ℚ → ℚ} (hs : IsSqrt sqrt) : ∃ r, maxDistance sqrt (convexHull sixPoints) = some r ∧ 16 ≤ r ^ 2 := by
  obtain ⟨r, e, -, -, h⟩ := maxDistance_hull hs sixPoints_not_collinear
  refine ⟨r, e, ?_⟩
  have := h ![0, 0] (by simp [sixPoints]) ![4, 0] (by simp [sixPoints])
  norm_num [dist2, Fin.sum_univ_two] at this
  linarith

/-- Above all points. -/
theorem above_sixPoints : ¬ InHull sixPoints ![2, 4] := by
  intro h
  have := h.affine_nonneg ![0, -1] 3 fun q hq => by
    simp only [sixPoints, List.mem_cons, List.not_mem_nil, or_false] at hq
    rcases hq with rfl | rfl | rfl | rfl | rfl | rfl <;> norm_num [inner2]
  norm_num [inner2] at this

example (output : Output Nat) : ∃ output', tangentVertices ![2, 4] (convexHull sixPoints) output = some output' := by
  obtain ⟨-, -, -, -, out, e, -⟩ := tangentVertices_hull sixPoints_not_collinear above_sixPoints output
  exact ⟨out, e⟩

example : ∃ i v, extremeVertex (convexHull sixPoints) (fun _ => ![1, 1]) = some i ∧ (convexHull sixPoints)[i]? = some v ∧
    v ∈ sixPoints ∧ ∀ q ∈ sixPoints, LeftOrOn v (v + ![1, 1]) q :=
  extremeVertex_hull sixPoints_not_collinear fun h => by simpa using congrFun h 0

/-- A line above all the points. -/
example : intersectConvex (Line.through ![0, 4] ![1, 4] .free) (convexHull sixPoints) = some [] := by
  have hv : (Line.through ![0, 4] ![1, 4] .free : Line ℚ 2).vector ≠ 0 := fun h => by
    have := congrFun h 0
    norm_num [Line.through] at this
  rcases intersectConvex_hull sixPoints_not_collinear hv with ⟨-, e⟩ | ⟨t, t', h, ht, -⟩
  · exact e
  · exfalso
    have hin := (ht t).2 ⟨le_rfl, h⟩
    have := hin.affine_nonneg ![0, -1] 3 fun q hq => by
      simp only [sixPoints, List.mem_cons, List.not_mem_nil, or_false] at hq
      rcases hq with rfl | rfl | rfl | rfl | rfl | rfl <;> norm_num [inner2]
    norm_num [inner2, Line.at, Line.through] at this

/-- Two points only. -/
example : ∃ x ∈ [![0, 0], ![1, 1]], withinSimple x (convexHull [![0, 0], ![1, 1]] : List (Vec ℚ 2)) = .outside := by
  obtain ⟨x, hx, h, -⟩ := within_hull_fails (points := ([![0, 0], ![1, 1]] : List (Vec ℚ 2))) (by
    intro a ha b hb c hc
    simp only [List.mem_cons, List.not_mem_nil, or_false] at ha hb hc
    rcases ha with rfl | rfl <;> rcases hb with rfl | rfl <;> rcases hc with rfl | rfl <;> norm_num) id
    (p := ![0, 0]) (q := ![1, 1]) (by simp) (by simp) (fun h => by simpa using congrFun h 0)
  exact ⟨x, hx, h⟩

end Actl.Geo
