import Verif.Lemmas.FloatPolygon

/-!
# Searches in polygons with floating point coordinates

C130.
-/

namespace Actl.Geo

variable {F : Type*} [Field F] [LinearOrder F] [IsStrictOrderedRing F]
variable {fl : F → F} {u : F}

/-! ### Point in a monotone polygon -/

/-- C130. Whatever the rounding, the search in a monotone polygon reads no vertex out of range, and so does the one in a convex
polygon. -/
theorem within_monotone_safe (fl : F → F) (p : Vec F 2) {poly : List (Vec F 2)} {right : Nat} (h : Monotone poly right) :
    (∃ w, withinMonotoneR fl p poly right = some w) ∧ ∃ w, withinConvexMonotoneR fl p poly right = some w :=
  withinT_safe _ p (monotone_right h).1 (monotone_right h).2

/-- C130. Coordinates that are multiples of a number the arithmetic is exact for: every point is classified exactly in a strictly convex
polygon. -/
theorem within_convex_grid {g : F} {M : Int} (he : Exact fl g M) {p : Vec F 2} (hp : OnGrid g M p) {poly : List (Vec F 2)}
    (hg : ∀ v ∈ poly, OnGrid g M v) (hc : StrictlyConvex poly) (hn : (poly.length : Int) < boundary) :
    ∃ w, withinConvexMonotoneR fl p (toMonotone poly).1 (toMonotone poly).2 = some w ∧
      withinMonotoneR fl p (toMonotone poly).1 (toMonotone poly).2 = some w ∧
      (w = .inside ↔ StrictlyIn p poly) ∧ (w = .border ↔ OnBorder p poly) ∧
      (w = .outside ↔ ∃ e ∈ edges poly, StrictRight e.1 e.2 p) := by
  have ht : ∀ r ∈ (toMonotone poly).1, ∀ o ∈ (toMonotone poly).1, orientation3R fl p r o = orientation3 p r o :=
    fun r hr o ho => orientation3R_grid he hp (hg r (toMonotone_mem hc r hr)) (hg o (toMonotone_mem hc o ho))
  rw [withinConvexMonotoneR, withinMonotoneR, withinConvexMonotoneT_exact ht, withinMonotoneT_exact ht]
  exact within_toMonotone p poly hc hn

/-- C130. For every rounding: a point that is well apart from all lines through two vertices is classified exactly. -/
theorem within_convex_rounded (h : SignedRounding fl u) {p : Vec F 2} {poly : List (Vec F 2)}
    (ha : ∀ r ∈ poly, ∀ o ∈ poly, r ≠ o → WellApart u p r o) (hc : StrictlyConvex poly) (hn : (poly.length : Int) < boundary) :
    ∃ w, withinConvexMonotoneR fl p (toMonotone poly).1 (toMonotone poly).2 = some w ∧
      withinMonotoneR fl p (toMonotone poly).1 (toMonotone poly).2 = some w ∧
      (w = .inside ↔ StrictlyIn p poly) ∧ (w = .border ↔ OnBorder p poly) ∧
      (w = .outside ↔ ∃ e ∈ edges poly, StrictRight e.1 e.2 p) := by
  have ht : ∀ r ∈ (toMonotone poly).1, ∀ o ∈ (toMonotone poly).1, orientation3R fl p r o = orientation3 p r o :=
    fun r hr o ho => orientation3R_from h ha r (toMonotone_mem hc r hr) o (toMonotone_mem hc o ho)
  rw [withinConvexMonotoneR, withinMonotoneR, withinConvexMonotoneT_exact ht, withinMonotoneT_exact ht]
  exact within_toMonotone p poly hc hn

/-- C130. In a simple monotone polygon that turns left at its first vertex, on the grid or with the point well apart from all lines
through two vertices, the search gives the classification by the winding number. -/
theorem within_monotone_rounded (h : SignedRounding fl u) {p : Vec F 2} {poly : List (Vec F 2)} {right : Nat}
    (ha : (∃ g M, Exact fl g M ∧ OnGrid g M p ∧ ∀ v ∈ poly, OnGrid g M v) ∨
      ∀ r ∈ poly, ∀ o ∈ poly, r ≠ o → WellApart u p r o)
    (hs : Simple poly) (hm : Monotone poly right) (hl : LeftTurnAtFirst poly) :
    withinMonotoneR fl p poly right = some (withinSimple p poly) := by
  have ht : ∀ r ∈ poly, ∀ o ∈ poly, orientation3R fl p r o = orientation3 p r o := by
    rcases ha with ⟨g, M, he, hp, hg⟩ | ha
    · exact fun r hr o ho => orientation3R_grid he hp (hg r hr) (hg o ho)
    · exact orientation3R_from h ha
  rw [withinMonotoneR, withinMonotoneT_exact ht]
  exact withinMonotone_simple p poly right hs hm hl

/-! ### Extreme vertices and tangents -/

/-- C130. Whatever the rounding and the direction, the search of an extreme vertex ends with one of the vertices, if there are two. -/
theorem extreme_safe (fl : F → F) (poly : List (Vec F 2)) (direction : Vec F 2 → Vec F 2) :
    (2 ≤ poly.length → ∃ i, extremeVertexR fl poly direction = some i ∧ i < poly.length) ∧
    (poly.length < 2 → extremeVertexR fl poly direction = none) := by
  rw [extremeVertexR]
  constructor
  · intro h
    rw [if_neg (by omega)]
    refine ⟨_, rfl, ?_⟩
    split_ifs
    · omega
    · exact extremeLoop_lt _ _ _ _ _ _ (by omega) le_rfl
  · intro h
    rw [if_pos (by omega)]

/-- C130. On the grid the vertex found in a direction is the extreme one. -/
theorem extreme_grid {g : F} {M : Int} (he : Exact fl g M) {poly : List (Vec F 2)} (hg : ∀ v ∈ poly, OnGrid g M v)
    (hc : StrictlyConvex poly) {d : Vec F 2} (hd : d ≠ 0) (hdg : OnGrid g (2 * M) d) :
    ∃ i v, extremeVertexR fl poly (fun _ => d) = some i ∧ poly[i]? = some v ∧ TouchesLeft v (v + d) v poly := by
  have h3 := hc.1
  obtain ⟨i, h1, h2, h4⟩ := extremeVertex_correct hc hd
  refine ⟨i, vert poly i, ?_, ?_, h4⟩
  · rw [← h1]
    exact extremeVertexR_exact fun i j hi hj => vertexCmpR_grid he hg (fun v _ => ⟨rfl, hdg⟩) hi hj
  · rw [← polyAt_eq h2, polyAt, List.getElem?_eq_getElem h2, Option.getD_some]

/-- C130. On the grid the tangents from a point outside are exact: two vertices are written to consecutive positions; the line from the
point through the first vertex has the polygon on its left, the line through the second vertex has it on its right. -/
theorem tangents_grid {g : F} {M : Int} (he : Exact fl g M) {p : Vec F 2} (hp : OnGrid g M p) {poly : List (Vec F 2)}
    (hg : ∀ v ∈ poly, OnGrid g M v) (hc : StrictlyConvex poly) (ho : OutsideConvex p poly) (output : Output Nat) :
    ∃ i j v w output', tangentVerticesR fl p poly output = some output' ∧ Wrote output output' [i, j] ∧
      poly[i]? = some v ∧ poly[j]? = some w ∧ TouchesLeft p v v poly ∧ TouchesLeft w p w poly := by
  obtain ⟨i, j, output', h1, h2, h3, h4, h5, h6⟩ := tangentVertices_correct hc ho output
  have get : ∀ {k}, k < poly.length → poly[k]? = some (vert poly k) := by
    intro k hk
    rw [← polyAt_eq hk, polyAt, List.getElem?_eq_getElem hk, Option.getD_some]
  refine ⟨i, j, _, _, output', ?_, h2, get h3, get h4, h5, h6⟩
  rw [← h1, tangentVerticesR, tangentVertices,
    extremeVertexR_exact fun i j hi hj => vertexCmpR_grid he hg
      (fun v hv => ⟨subR_grid he (hg v hv) hp, grid_diff (hg v hv) hp⟩) hi hj,
    extremeVertexR_exact fun i j hi hj => vertexCmpR_grid he hg
      (fun v hv => ⟨subR_grid he hp (hg v hv), grid_diff hp (hg v hv)⟩) hi hj]

/-! ### Without the conditions -/

/-- C130 does not hold without the conditions: for a strictly convex triangle of `double` the search of antipodal vertices, and so
`max_distance`, reads past the end. -/
theorem antipodal_rounded_ub :
    StrictlyConvex [![12, 12], ![24, 24], (![1 / 2, 1 / 2 + 1 / 2 ^ 53] : Vec ℚ 2)] ∧
    (∀ v ∈ [![12, 12], ![24, 24], (![1 / 2, 1 / 2 + 1 / 2 ^ 53] : Vec ℚ 2)], ∀ i, roundSigned 53 (v i) = v i) ∧
    antipodalVerticesR (roundSigned 53) [![12, 12], ![24, 24], (![1 / 2, 1 / 2 + 1 / 2 ^ 53] : Vec ℚ 2)] = none ∧
    ∀ sqrt, maxDistanceR (roundSigned 53) sqrt [![12, 12], ![24, 24], (![1 / 2, 1 / 2 + 1 / 2 ^ 53] : Vec ℚ 2)] = none := by
  have h : antipodalVerticesR (roundSigned 53) [![12, 12], ![24, 24], (![1 / 2, 1 / 2 + 1 / 2 ^ 53] : Vec ℚ 2)] = none := by
    decide +kernel
  refine ⟨strictlyConvex_triangle (by norm_num [StrictLeft]), by decide +kernel, h, fun sqrt => ?_⟩
  rw [maxDistanceR, h]
  rfl

/-- C130 does not hold without the conditions: a point strictly outside of a triangle of `double` is classified as on its border, by
both searches. -/
theorem within_convex_rounded_fails :
    StrictlyConvex [![1 / 2, 1 / 2 + 1 / 2 ^ 53], ![24, 24], (![1 / 2, 30] : Vec ℚ 2)] ∧
    StrictRight ![1 / 2, 1 / 2 + 1 / 2 ^ 53] ![24, 24] (![12, 12] : Vec ℚ 2) ∧
    withinConvexMonotoneR (roundSigned 53) ![12, 12] [![(1 / 2 : ℚ), 1 / 2 + 1 / 2 ^ 53], ![24, 24], ![1 / 2, 30]] 1 =
      some .border ∧
    withinMonotoneR (roundSigned 53) ![12, 12] [![(1 / 2 : ℚ), 1 / 2 + 1 / 2 ^ 53], ![24, 24], ![1 / 2, 30]] 1 = some .border := by
  refine ⟨strictlyConvex_triangle (by norm_num [StrictLeft]), by norm_num [StrictRight], by decide +kernel, by decide +kernel⟩

/-! ### Examples -/

/-- A triangle in sixty-fourths and a point on its border. -/
theorem grid_triangle : ∀ v ∈ [![0, 0], ![4, 0], (![2, 3] : Vec ℚ 2)], OnGrid ((2 : ℚ) ^ (-6 : Int)) (2 ^ 25) v := by
  intro v hv
  simp only [List.mem_cons, List.not_mem_nil, or_false] at hv
  rcases hv with rfl | rfl | rfl
  · exact onGrid_double (a := 0) (b := 0) (by norm_num) (by norm_num) (by norm_num) (by norm_num)
  · exact onGrid_double (a := 256) (b := 0) (by norm_num) (by norm_num) (by norm_num) (by norm_num)
  · exact onGrid_double (a := 128) (b := 192) (by norm_num) (by norm_num) (by norm_num) (by norm_num)

example : withinConvexMonotoneR (roundSigned 53) ![(1 : ℚ), 3 / 2] (toMonotone [![0, 0], ![4, 0], ![2, 3]]).1
    (toMonotone [![0, 0], ![4, 0], ![2, 3]]).2 = some .border := by
  obtain ⟨w, h1, -, -, h2, -⟩ := within_convex_grid grid_double (p := ![(1 : ℚ), 3 / 2])
    (onGrid_double (a := 64) (b := 96) (by norm_num) (by norm_num) (by norm_num) (by norm_num)) grid_triangle
    (strictlyConvex_triangle (by norm_num [StrictLeft])) (by decide +kernel)
  exact h1.trans (congrArg some (h2.2 ⟨(![2, 3], ![0, 0]), by decide +kernel, 1 / 2, by norm_num, by norm_num,
    vec2_ext (by norm_num) (by norm_num)⟩))

/-- Coordinates in tenths, which `double` has not. -/
example : withinConvexMonotoneR (roundSigned 53) ![roundSigned 53 (2 / 10), roundSigned 53 (1 / 10)]
    (toMonotone [![0, 0], ![roundSigned 53 (7 / 10), 0], ![roundSigned 53 (3 / 10), roundSigned 53 (11 / 10)]]).1
    (toMonotone [![0, 0], ![roundSigned 53 (7 / 10), 0], ![roundSigned 53 (3 / 10), roundSigned 53 (11 / 10)]]).2 =
      some .inside := by
  obtain ⟨w, h1, -, h2, -⟩ := within_convex_rounded (roundSigned_signed (prec := 53) (by norm_num))
    (p := ![roundSigned 53 (2 / 10), roundSigned 53 (1 / 10)])
    (poly := [![0, 0], ![roundSigned 53 (7 / 10), 0], ![roundSigned 53 (3 / 10), roundSigned 53 (11 / 10)]])
    (by unfold WellApart; decide +kernel) (strictlyConvex_triangle (by unfold StrictLeft; decide +kernel)) (by decide +kernel)
  rw [h1, h2.2 (by unfold StrictlyIn StrictLeft; decide +kernel)]

example (output : Output Nat) : ∃ i j v w output',
    tangentVerticesR (roundSigned 53) ![(1 : ℚ), -5] [![0, 0], ![4, 0], ![2, 3]] output = some output' ∧
      Wrote output output' [i, j] ∧ [![0, 0], ![4, 0], (![2, 3] : Vec ℚ 2)][i]? = some v ∧
      [![0, 0], ![4, 0], (![2, 3] : Vec ℚ 2)][j]? = some w ∧
      TouchesLeft ![(1 : ℚ), -5] v v [![0, 0], ![4, 0], ![2, 3]] ∧ TouchesLeft w ![(1 : ℚ), -5] w [![0, 0], ![4, 0], ![2, 3]] :=
  tangents_grid grid_double (onGrid_double (a := 64) (b := -320) (by norm_num) (by norm_num) (by norm_num) (by norm_num))
    grid_triangle (strictlyConvex_triangle (by norm_num [StrictLeft]))
    ⟨(![0, 0], ![4, 0]), by decide +kernel, by norm_num [StrictRight]⟩ output

example : ∃ i v, extremeVertexR (roundSigned 53) [![0, 0], ![4, 0], ![2, 3]] (fun _ => ![(1 : ℚ), 0]) = some i ∧
    [![0, 0], ![4, 0], (![2, 3] : Vec ℚ 2)][i]? = some v ∧ TouchesLeft v (v + ![1, 0]) v [![0, 0], ![4, 0], ![2, 3]] :=
  extreme_grid grid_double grid_triangle (strictlyConvex_triangle (by norm_num [StrictLeft]))
    (by intro h; simpa using congrFun h 0)
    (fun i => match i with
      | 0 => ⟨64, by norm_num, by norm_num⟩
      | 1 => ⟨0, by norm_num, by norm_num⟩)

/-- The dart of C63 on the grid. -/
example : withinMonotoneR (roundSigned 53) ![2, 1 / 2] dart 2 = some (withinSimple ![2, 1 / 2] dart) := by
  refine within_monotone_rounded (roundSigned_signed (prec := 53) (by norm_num))
    (Or.inl ⟨_, _, grid_double, onGrid_double (a := 128) (b := 32) (by norm_num) (by norm_num) (by norm_num) (by norm_num), ?_⟩)
    dart_simple ⟨![0, 0], [![2, 1]], ![4, 0], [![2, 3]], rfl, rfl, by norm_num [LexLess], by norm_num [LexLess]⟩
    ⟨![0, 0], ![2, 1], ![2, 3], rfl, rfl, rfl, by norm_num [StrictLeft]⟩
  intro v hv
  simp only [dart, List.mem_cons, List.not_mem_nil, or_false] at hv
  rcases hv with rfl | rfl | rfl | rfl
  · exact onGrid_double (a := 0) (b := 0) (by norm_num) (by norm_num) (by norm_num) (by norm_num)
  · exact onGrid_double (a := 128) (b := 64) (by norm_num) (by norm_num) (by norm_num) (by norm_num)
  · exact onGrid_double (a := 256) (b := 0) (by norm_num) (by norm_num) (by norm_num) (by norm_num)
  · exact onGrid_double (a := 128) (b := 192) (by norm_num) (by norm_num) (by norm_num) (by norm_num)

end Actl.Geo
