import Verif.Lemmas.FloatLinePolygon
import Verif.Spec.FloatLinePolygon
import Verif.Props.FloatPolygon

/-!
# C133: intersections of lines with polygons in floating point, and as points

* `convexParams_grid`, `simpleParams_grid`: coordinates for which areas are exact: the parameters written are those of exact arithmetic,
  each rounded once.
* `convexPoints_grid`, `simplePoints_grid`: the points are near the exact ones.
* `convexPoints_exact`, `simplePoints_exact`: exact arithmetic.
* `convex_ends`, `convex_rounded_loops`: when the loops end.
-/

namespace Actl.Geo

variable {F : Type*} [Field F] [LinearOrder F] [IsStrictOrderedRing F]
variable {fl : F → F} {u g : F} {M : Int} {a b : Vec F 2} {poly : List (Vec F 2)}

/-! ### Parameters -/

open Classical in
/-- C133. Coordinates that are multiples of a number small enough: the parameters where the line enters and leaves a convex polygon are
written, each rounded once, and which of them belong to the ray or segment is decided exactly. -/
theorem convexParams_grid (he : Exact fl g M) (ha : OnGrid g M a) (hb : OnGrid g M b) (hg : ∀ v ∈ poly, OnGrid g M v)
    (hc : StrictlyConvex poly) (hab : a ≠ b) (k : LineKind) :
    ((∀ t, ¬ InPolygon ((Line.through a b k).at t) poly) ∧ intersectConvexR fl (throughR fl a b k) poly = some []) ∨
    ∃ t₁ t₂, t₁ ≤ t₂ ∧ (∀ t, InPolygon ((Line.through a b k).at t) poly ↔ t₁ ≤ t ∧ t ≤ t₂) ∧
      intersectConvexR fl (throughR fl a b k) poly =
        some ((if Allowed k t₁ then [fl t₁] else []) ++ (if Allowed k t₂ then [fl t₂] else [])) := by
  rw [intersectConvexR_exact (exactOn_grid he) ha hb hg hc hab]
  rcases intersectConvex_correct hc (l := Line.through a b k) (sub_ne_zero.2 hab.symm) with ⟨h1, h2⟩ | ⟨t₁, t₂, h1, h2, h3⟩
  · exact Or.inl ⟨h1, by rw [h2]; rfl⟩
  · refine Or.inr ⟨t₁, t₂, h1, h2, ?_⟩
    rw [h3]
    simp only [Option.map_some, List.map_append, apply_ite (List.map fl), List.map_cons, List.map_nil]
    rfl

open Classical in
/-- C133. The same of a simple polygon: what is written are the parameters of exact arithmetic, those where the line enters and leaves
the polygon, each rounded once. -/
theorem simpleParams_grid (he : Exact fl g M) (ha : OnGrid g M a) (hb : OnGrid g M b) (hg : ∀ v ∈ poly, OnGrid g M v)
    (hs : Simple poly) (h3 : 3 ≤ poly.length) (hc : CounterClockwise poly) (hab : a ≠ b) (k : LineKind) :
    ∃ ts : List F, intersectSimpleR fl (throughR fl a b k) poly = some ((ts.filter fun t => decide (Allowed k t)).map fl) ∧
      (∀ t ∈ ts, OnBorder ((Line.through a b k).at t) poly) ∧
      ∀ t, Odd (ts.countP fun s => decide (s < t)) ↔
        InsideLeft (Line.through a b k) t poly ∨ InsideRight (Line.through a b k) t poly := by
  obtain ⟨ts, h1, h2, h4⟩ := intersectSimple_simple (l := Line.through a b k) (sub_ne_zero.2 hab.symm) hs h3 hc
  refine ⟨ts, ?_, h2, h4⟩
  rw [intersectSimpleR_exact (exactOn_grid he) ha hb hg, h1]
  rfl

/-! ### Points -/

theorem nearPoint_at (h : SignedRounding fl u) (a b : Vec F 2) (k : LineKind) (t : F) :
    NearPoint u a ((Line.through a b k).at t) (atR fl (Line.through a b k) (fl t)) := by
  intro i
  have e1 := at_error h (s := (Line.through a b k).start i) (v := (Line.through a b k).vector i) (h.near t)
  refine e1.trans (le_of_eq ?_)
  have e2 : (Line.through a b k).at t i = (Line.through a b k).start i + t * (Line.through a b k).vector i := rfl
  have e3 : (Line.through a b k).at t i - a i = t * (Line.through a b k).vector i := by
    rw [e2]
    exact add_sub_cancel_left _ _
  rw [pointError, e3, e2, abs_mul t]
  ring

open Classical in
/-- C133. The points written for a convex polygon are near those where the line enters and leaves it; all are assigned to one position. -/
theorem convexPoints_grid (h : SignedRounding fl u) (he : Exact fl g M) (ha : OnGrid g M a) (hb : OnGrid g M b)
    (hg : ∀ v ∈ poly, OnGrid g M v) (hc : StrictlyConvex poly) (hab : a ≠ b) (k : LineKind) (output : Output (Vec F 2)) :
    ((∀ t, ¬ InPolygon ((Line.through a b k).at t) poly) ∧ convexPointsR fl (throughR fl a b k) poly output = some output) ∨
    ∃ t₁ t₂ p₁ p₂ output', t₁ ≤ t₂ ∧ (∀ t, InPolygon ((Line.through a b k).at t) poly ↔ t₁ ≤ t ∧ t ≤ t₂) ∧
      convexPointsR fl (throughR fl a b k) poly output = some output' ∧
      WroteInPlace output output' ((if Allowed k t₁ then [p₁] else []) ++ (if Allowed k t₂ then [p₂] else [])) ∧
      NearPoint u a ((Line.through a b k).at t₁) p₁ ∧ NearPoint u a ((Line.through a b k).at t₂) p₂ := by
  rcases convexParams_grid he ha hb hg hc hab k with ⟨h1, h2⟩ | ⟨t₁, t₂, h1, h2, h3⟩
  · exact Or.inl ⟨h1, by rw [convexPointsR, h2]; rfl⟩
  · refine Or.inr ⟨t₁, t₂, _, _, _, h1, h2, by rw [convexPointsR, h3]; rfl, ?_, nearPoint_at h a b k t₁, nearPoint_at h a b k t₂⟩
    rw [throughR_grid he ha hb]
    simp only [foldl_putAdaptedR]
    refine ⟨?_, rfl⟩
    simp only [List.map_append, apply_ite (List.map _), List.map_cons, List.map_nil]

open Classical in
/-- C133. The points written for a simple polygon are near those where the line enters and leaves it. -/
theorem simplePoints_grid (h : SignedRounding fl u) (he : Exact fl g M) (ha : OnGrid g M a) (hb : OnGrid g M b)
    (hg : ∀ v ∈ poly, OnGrid g M v) (hs : Simple poly) (h3 : 3 ≤ poly.length) (hc : CounterClockwise poly) (hab : a ≠ b)
    (k : LineKind) (output : Output (Vec F 2)) :
    ∃ (ts : List F) (ps : List (Vec F 2)) (output' : Output (Vec F 2)),
      simplePointsR fl (throughR fl a b k) poly output = some output' ∧ WroteInPlace output output' ps ∧
      List.Forall₂ (fun t p => NearPoint u a ((Line.through a b k).at t) p) (ts.filter fun t => decide (Allowed k t)) ps ∧
      (∀ t ∈ ts, OnBorder ((Line.through a b k).at t) poly) ∧
      ∀ t, Odd (ts.countP fun s => decide (s < t)) ↔
        InsideLeft (Line.through a b k) t poly ∨ InsideRight (Line.through a b k) t poly := by
  obtain ⟨ts, h1, h2, h4⟩ := simpleParams_grid he ha hb hg hs h3 hc hab k
  refine ⟨ts, (ts.filter fun t => decide (Allowed k t)).map fun t => atR fl (Line.through a b k) (fl t), _,
    by rw [simplePointsR, h1]; rfl, ?_, ?_, h2, h4⟩
  · rw [throughR_grid he ha hb]
    simp only [foldl_putAdaptedR]
    exact ⟨by simp, rfl⟩
  · rw [List.forall₂_map_right_iff]
    exact List.forall₂_same.2 fun t _ => nearPoint_at h a b k t

open Classical in
/-- C133. With exact arithmetic the points written for a convex polygon are those where the line enters and leaves it. -/
theorem convexPoints_exact {l : Line F 2} (hc : StrictlyConvex poly) (hv : l.vector ≠ 0) (output : Output (Vec F 2)) :
    ((∀ t, ¬ InPolygon (l.at t) poly) ∧ convexPointsR id l poly output = some output) ∨
    ∃ t₁ t₂ output', t₁ ≤ t₂ ∧ (∀ t, InPolygon (l.at t) poly ↔ t₁ ≤ t ∧ t ≤ t₂) ∧ convexPointsR id l poly output = some output' ∧
      WroteInPlace output output' ((if Allowed l.kind t₁ then [l.at t₁] else []) ++ (if Allowed l.kind t₂ then [l.at t₂] else [])) := by
  have e : intersectConvexR id l poly = intersectConvex l poly := by
    have := intersectConvexR_exact (a := l.start) (b := l.start + l.vector) exactOn_id trivial trivial (fun _ _ => trivial) hc
      (fun h => hv (by simpa using h)) l.kind
    rw [exactOn_id.through trivial trivial, ← line_through] at this
    simpa using this
  rcases intersectConvex_correct hc hv with ⟨h1, h2⟩ | ⟨t₁, t₂, h1, h2, h3⟩
  · exact Or.inl ⟨h1, by rw [convexPointsR, e, h2]; rfl⟩
  · refine Or.inr ⟨t₁, t₂, _, h1, h2, by rw [convexPointsR, e, h3]; rfl, ?_⟩
    simp only [foldl_putAdaptedR]
    refine ⟨?_, rfl⟩
    simp only [List.map_append, apply_ite (List.map _), List.map_cons, List.map_nil]
    rfl

open Classical in
/-- C133. The same of a simple polygon. -/
theorem simplePoints_exact {l : Line F 2} (hv : l.vector ≠ 0) (hs : Simple poly) (h3 : 3 ≤ poly.length) (hc : CounterClockwise poly)
    (output : Output (Vec F 2)) :
    ∃ (ts : List F) (output' : Output (Vec F 2)), simplePointsR id l poly output = some output' ∧
      WroteInPlace output output' ((ts.filter fun t => decide (Allowed l.kind t)).map l.at) ∧
      (∀ t ∈ ts, OnBorder (l.at t) poly) ∧
      ∀ t, Odd (ts.countP fun s => decide (s < t)) ↔ InsideLeft l t poly ∨ InsideRight l t poly := by
  have e : intersectSimpleR id l poly = intersectSimple l poly := by
    have := intersectSimpleR_exact (poly := poly) (a := l.start) (b := l.start + l.vector) exactOn_id trivial trivial
      (fun _ _ => trivial) l.kind
    rw [exactOn_id.through trivial trivial, ← line_through] at this
    simpa using this
  obtain ⟨ts, h1, h2, h4⟩ := intersectSimple_simple hv hs h3 hc
  refine ⟨ts, _, by rw [simplePointsR, e, h1]; rfl, ?_, h2, h4⟩
  simp only [foldl_putAdaptedR]
  exact ⟨by rw [List.map_map]; rfl, rfl⟩

/-! ### Termination -/

/-- C133. Whatever the rounding, the calls return, if the line has a direction and there are two vertices, unless the vertices found
furthest to the two sides of the line are one vertex. -/
theorem convex_ends (fl : F → F) (l : Line F 2) (poly : List (Vec F 2)) (hv : l.vector ≠ 0) (h2 : 2 ≤ poly.length) :
    (∃ ts, intersectSimpleR fl l poly = some ts) ∧
    (extremeVertexR fl poly (fun _ => l.vector) ≠ extremeVertexR fl poly (fun _ => -l.vector) →
      ∃ ts, intersectConvexR fl l poly = some ts) := by
  have hdeg : ¬ degenerate l.vector = true := by rw [degenerate_iff]; exact hv
  constructor
  · rw [intersectSimpleR, if_neg hdeg, if_neg (by omega)]
    exact ⟨_, rfl⟩
  · intro hne
    obtain ⟨m, em, hm⟩ := (extreme_safe fl poly fun _ => l.vector).1 h2
    obtain ⟨M, eM, hM⟩ := (extreme_safe fl poly fun _ => -l.vector).1 h2
    rw [em, eM] at hne
    have hne' : m ≠ M := fun h => hne (by rw [h])
    rw [intersectConvexR, if_neg hdeg, em, eM]
    simp only [Option.bind_some]
    split_ifs
    · exact ⟨_, rfl⟩
    · obtain ⟨i, -, e1, -⟩ := chainLoopT_ends (vertexOrientR fl l poly) _ poly.length (vertexOrientR fl l poly M) (fun _ _ => rfl) hM hm
        hne'.symm
      obtain ⟨j, -, e2, -⟩ := chainLoopT_ends (vertexOrientR fl l poly) _ poly.length (vertexOrientR fl l poly m) (fun _ _ => rfl) hm hM
        hne'
      rw [intersectChainR, intersectChainR, e1, e2]
      exact ⟨_, rfl⟩

/-- C133 does not hold without the condition on the coordinates: for a strictly convex triangle of `double` and a line along one of its
edges the vertices found on the two sides are one vertex, and the loop that starts there never ends. -/
theorem convex_rounded_loops :
    let poly : List (Vec ℚ 2) := [![12, 12], ![24, 24], ![1 / 2, 1 / 2 + 1 / 2 ^ 53]]
    let l : Line ℚ 2 := Line.through ![0, 0] ![1, 1] .free
    StrictlyConvex poly ∧ (∀ v ∈ poly, ∀ i, roundSigned 53 (v i) = v i) ∧
    extremeVertexR (roundSigned 53) poly (fun _ => l.vector) = some 0 ∧
    extremeVertexR (roundSigned 53) poly (fun _ => -l.vector) = some 0 ∧
    intersectConvexR (roundSigned 53) l poly = none ∧
    ∀ k, chainLoopT (vertexOrientR (roundSigned 53) l poly) poly.length (vertexOrientR (roundSigned 53) l poly 0) k 0 0 = none := by
  intro poly l
  refine ⟨antipodal_rounded_ub.1, antipodal_rounded_ub.2.1, by decide +kernel, by decide +kernel, by decide +kernel, ?_⟩
  exact chainLoopT_stuck _ (by decide) (by decide)

/-! ### Examples -/

/-- A horizontal segment that starts inside of a triangle: only the parameter where it leaves is written, and rounded. -/
example : intersectConvexR (roundSigned 53) (throughR (roundSigned 53) ![1, 1] ![4, 1] .closedSegment) [![0, 0], ![4, 0], ![2, 3]] =
    some [roundSigned 53 ((10 / 3 - 1) / 3)] := by decide +kernel

example (output : Output (Vec ℚ 2)) :
    ∃ p output', convexPointsR (roundSigned 53) (throughR (roundSigned 53) ![1, 1] ![4, 1] .closedSegment)
        [![0, 0], ![4, 0], ![2, 3]] output = some output' ∧ WroteInPlace output output' [p] ∧
      NearPoint (1 / 2 ^ 53) ![1, 1] ![10 / 3, 1] p := by
  classical
  have hu : ((1 : ℚ) / 2 ^ 53) = ((2 : ℚ) ^ 53)⁻¹ := by norm_num
  have hin : ∀ t : ℚ, InPolygon ((Line.through ![1, 1] ![(4 : ℚ), 1] .closedSegment).at t) [![0, 0], ![4, 0], ![2, 3]] ↔
      -1 / 9 ≤ t ∧ t ≤ 7 / 9 := by
    intro t
    simp [InPolygon, LeftOfChain, LeftOrOn, Line.at, Line.through]
    constructor
    · rintro ⟨h1, h2⟩
      constructor <;> linarith
    · rintro ⟨h1, h2⟩
      constructor <;> linarith
  rcases convexPoints_grid (poly := [![0, 0], ![4, 0], (![2, 3] : Vec ℚ 2)]) (roundSigned_signed (prec := 53) (by norm_num)) grid_double
    (onGrid_double (x := 1) (y := 1) (a := 64) (b := 64) (by norm_num) (by norm_num) (by norm_num) (by norm_num))
    (onGrid_double (x := 4) (y := 1) (a := 256) (b := 64) (by norm_num) (by norm_num) (by norm_num) (by norm_num)) grid_triangle
    (strictlyConvex_triangle (by norm_num [StrictLeft])) (fun h => by simpa using congrFun h 0) .closedSegment output with
    ⟨h1, -⟩ | ⟨t₁, t₂, p₁, p₂, output', h0, h1, h2, h3, h4, h5⟩
  · exact absurd ((hin 0).2 ⟨by norm_num, by norm_num⟩) (h1 0)
  · have e1 : t₁ = -1 / 9 := le_antisymm (((h1 _).1 ((hin (-1 / 9)).2 ⟨le_rfl, by norm_num⟩)).1)
      (((hin _).1 ((h1 t₁).2 ⟨le_rfl, h0⟩)).1)
    have e2 : t₂ = 7 / 9 := le_antisymm (((hin _).1 ((h1 t₂).2 ⟨h0, le_rfl⟩)).2)
      (((h1 _).1 ((hin (7 / 9)).2 ⟨by norm_num, le_rfl⟩)).2)
    subst e1 e2
    refine ⟨p₂, output', h2, ?_, ?_⟩
    · rw [if_neg (by norm_num [Allowed]), if_pos (by norm_num [Allowed])] at h3
      exact h3
    · have e : (Line.through ![1, 1] ![(4 : ℚ), 1] .closedSegment).at (7 / 9) = ![10 / 3, 1] :=
        vec2_ext (by norm_num [Line.at, Line.through]) (by norm_num [Line.at, Line.through])
      rw [e] at h5
      rw [hu]
      exact h5

theorem dart_counterClockwise : CounterClockwise dart := by
  refine ⟨![2, 3], ![0, 0], ![2, 1], by decide +kernel, by decide +kernel, ?_, by norm_num [StrictLeft]⟩
  intro v hv hne
  simp only [dart, List.mem_cons, List.not_mem_nil, or_false] at hv
  rcases hv with rfl | rfl | rfl | rfl
  · exact absurd rfl hne
  all_goals norm_num [LexLess]

theorem grid_dart : ∀ v ∈ dart, OnGrid ((2 : ℚ) ^ (-6 : Int)) (2 ^ 25) v := by
  intro v hv
  simp only [dart, List.mem_cons, List.not_mem_nil, or_false] at hv
  rcases hv with rfl | rfl | rfl | rfl
  · exact onGrid_double (a := 0) (b := 0) (by norm_num) (by norm_num) (by norm_num) (by norm_num)
  · exact onGrid_double (a := 128) (b := 64) (by norm_num) (by norm_num) (by norm_num) (by norm_num)
  · exact onGrid_double (a := 256) (b := 0) (by norm_num) (by norm_num) (by norm_num) (by norm_num)
  · exact onGrid_double (a := 128) (b := 192) (by norm_num) (by norm_num) (by norm_num) (by norm_num)

/-- The dart, which is not convex, along a line through its notch: the roundings of 1/3 and 11/3 are written. -/
example : intersectSimpleR (roundSigned 53) (throughR (roundSigned 53) ![0, 1 / 2] ![1, 1 / 2] .openRay) dart =
    some [1, 3, roundSigned 53 (11 / 3), roundSigned 53 (1 / 3)] := by decide +kernel

example : ∃ ts : List ℚ, (∀ t ∈ ts, OnBorder ((Line.through ![0, 1 / 2] ![1, 1 / 2] .openRay).at t) dart) ∧
    [1, 3, roundSigned 53 (11 / 3), roundSigned 53 (1 / 3)] = (ts.filter fun t => decide (0 < t)).map (roundSigned 53) := by
  classical
  obtain ⟨ts, h1, h2, -⟩ := simpleParams_grid (poly := dart) grid_double
    (onGrid_double (x := 0) (y := 1 / 2) (a := 0) (b := 32) (by norm_num) (by norm_num) (by norm_num) (by norm_num))
    (onGrid_double (x := 1) (y := 1 / 2) (a := 64) (b := 32) (by norm_num) (by norm_num) (by norm_num) (by norm_num)) grid_dart
    dart_simple (by decide) dart_counterClockwise (fun h => by simpa using congrFun h 0) .openRay
  refine ⟨ts, h2, ?_⟩
  have e : intersectSimpleR (roundSigned 53) (throughR (roundSigned 53) ![0, 1 / 2] ![1, 1 / 2] .openRay) dart =
    some [1, 3, roundSigned 53 (11 / 3), roundSigned 53 (1 / 3)] := by decide +kernel
  rw [e] at h1
  rw [Option.some.inj h1]
  congr 1
  exact List.filter_congr fun t _ => decide_eq_decide.2 (by simp [Allowed])

end Actl.Geo
