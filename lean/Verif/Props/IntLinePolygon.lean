import Verif.Lemmas.IntLinePolygon
import Verif.Spec.FloatLinePolygon
import Verif.Props.FloatLinePolygon

/-!
# C134: intersections of lines with polygons, with integer coordinates

`2 * (D * D)` in the type of products suffices for points in a square of side `D`, and is needed.
-/

namespace Actl.Geo

variable {F : Type*} [Field F] [LinearOrder F] [IsStrictOrderedRing F]
variable {w W : Nat} {D : Int} {o a b : Vec Int 2} {poly : List (Vec Int 2)}
variable {ratio : Int → Int → F} {fl : F → F} {u e : F}

open Classical in
/-- C134. A line, ray or segment through two integer points and a convex polygon of integer points: no overflow, every loop ends, and the
parameters where the line enters and leaves the polygon are written with the error of one quotient.  Which of them belong to the ray or
segment is decided exactly. -/
theorem convexParams_box (hr : ∀ x y : Int, y ≠ 0 → |ratio x y - x / y| ≤ e * |(x : F) / y|) (hw : D < 2 ^ (w - 1))
    (hW : 2 * (D * D) < 2 ^ (W - 1)) (ha : InBox o D a) (hb : InBox o D b) (hp : ∀ v ∈ poly, InBox o D v) (hab : a ≠ b)
    (hc : StrictlyConvex (poly.map (exact : Vec Int 2 → Vec F 2))) (k : LineKind) :
    ∃ l, throughI w a b k = some l ∧
      (((∀ t, ¬ InPolygon ((Line.through (exact a) (exact b) k : Line F 2).at t) (poly.map exact)) ∧
          intersectConvexI ratio w W l poly = some []) ∨
        ∃ t₁ t₂ r₁ r₂, t₁ ≤ t₂ ∧
          (∀ t, InPolygon ((Line.through (exact a) (exact b) k : Line F 2).at t) (poly.map exact) ↔ t₁ ≤ t ∧ t ≤ t₂) ∧
          intersectConvexI ratio w W l poly = some ((if Allowed k t₁ then [r₁] else []) ++ (if Allowed k t₂ then [r₂] else [])) ∧
          |r₁ - t₁| ≤ e * |t₁| ∧ |r₂ - t₂| ≤ e * |t₂|) := by
  refine ⟨_, throughI_box hw ha hb k, ?_⟩
  have he : 0 ≤ e := by
    have := (abs_nonneg _).trans (hr 1 1 one_ne_zero)
    simpa using this
  obtain ⟨ts, out, h1, h2, h3⟩ := convexI_box (R := fun t r => |r - t| ≤ e * |t|) hr hw hW ha hb hp hab hc k
  have hab' : (exact a : Vec F 2) ≠ exact b := fun h => hab (exact_injective h)
  rcases intersectConvex_correct hc (l := Line.through (exact a) (exact b) k) (sub_ne_zero.2 hab'.symm) with
    ⟨g1, g2⟩ | ⟨t₁, t₂, g1, g2, g3⟩
  · left
    rw [h1, Option.some_inj] at g2
    rw [g2, List.forall₂_nil_left_iff] at h3
    exact ⟨g1, by rw [h2, h3]⟩
  · right
    rw [h1, Option.some_inj] at g3
    have g3' : ts = (if Allowed k t₁ then [t₁] else []) ++ (if Allowed k t₂ then [t₂] else []) := g3
    have z : ∀ t : F, |t - t| ≤ e * |t| := fun t => by rw [sub_self, abs_zero]; positivity
    rw [g3'] at h3
    rw [h2]
    by_cases p1 : Allowed k t₁ <;> by_cases p2 : Allowed k t₂
    · rw [if_pos p1, if_pos p2] at h3
      obtain ⟨r₁, u₁, q1, q2, rfl⟩ := List.forall₂_cons_left_iff.1 h3
      obtain ⟨r₂, u₂, q3, q4, rfl⟩ := List.forall₂_cons_left_iff.1 q2
      rw [List.forall₂_nil_left_iff.1 q4]
      exact ⟨t₁, t₂, r₁, r₂, g1, g2, by rw [if_pos p1, if_pos p2]; rfl, q1, q3⟩
    · rw [if_pos p1, if_neg p2] at h3
      obtain ⟨r₁, u₁, q1, q2, rfl⟩ := List.forall₂_cons_left_iff.1 h3
      rw [List.forall₂_nil_left_iff.1 q2]
      exact ⟨t₁, t₂, r₁, t₂, g1, g2, by rw [if_pos p1, if_neg p2]; rfl, q1, z t₂⟩
    · rw [if_neg p1, if_pos p2] at h3
      obtain ⟨r₂, u₂, q3, q4, rfl⟩ := List.forall₂_cons_left_iff.1 h3
      rw [List.forall₂_nil_left_iff.1 q4]
      exact ⟨t₁, t₂, t₁, r₂, g1, g2, by rw [if_neg p1, if_pos p2]; rfl, z t₁, q3⟩
    · rw [if_neg p1, if_neg p2] at h3
      rw [List.forall₂_nil_left_iff.1 h3]
      exact ⟨t₁, t₂, t₁, t₂, g1, g2, by rw [if_neg p1, if_neg p2]; rfl, z t₁, z t₂⟩

open Classical in
/-- C134. The same of a simple polygon. -/
theorem simpleParams_box (hr : ∀ x y : Int, y ≠ 0 → |ratio x y - x / y| ≤ e * |(x : F) / y|) (hw : D < 2 ^ (w - 1))
    (hW : 2 * (D * D) < 2 ^ (W - 1)) (ha : InBox o D a) (hb : InBox o D b) (hp : ∀ v ∈ poly, InBox o D v) (hab : a ≠ b)
    (fb : FitsType w b) (hs : Simple (poly.map (exact : Vec Int 2 → Vec F 2))) (h3 : 3 ≤ poly.length)
    (hc : CounterClockwise (poly.map (exact : Vec Int 2 → Vec F 2))) (k : LineKind) :
    ∃ (l : Line Int 2) (ts rs : List F), throughI w a b k = some l ∧ intersectSimpleI ratio w W l poly = some rs ∧
      List.Forall₂ (fun t r => |r - t| ≤ e * |t|) (ts.filter fun t => decide (Allowed k t)) rs ∧
      (∀ t ∈ ts, OnBorder ((Line.through (exact a) (exact b) k : Line F 2).at t) (poly.map exact)) ∧
      ∀ t, Odd (ts.countP fun s => decide (s < t)) ↔
        InsideLeft (Line.through (exact a) (exact b) k : Line F 2) t (poly.map exact) ∨
        InsideRight (Line.through (exact a) (exact b) k : Line F 2) t (poly.map exact) := by
  obtain ⟨ts', out, h1, h2, h4⟩ := simpleI_box (R := fun t r => |r - t| ≤ e * |t|) hr hw hW ha hb hp hab fb (by omega) k
  have hab' : (exact a : Vec F 2) ≠ exact b := fun h => hab (exact_injective h)
  obtain ⟨ts, g1, g2, g3⟩ := intersectSimple_simple (l := Line.through (exact a) (exact b) k) (sub_ne_zero.2 hab'.symm) hs
    (by rwa [List.length_map]) hc
  rw [h1, Option.some_inj] at g1
  rw [g1] at h4
  exact ⟨_, ts, out, throughI_box hw ha hb k, h2, h4, g2, g3⟩

/-! ### Points -/

theorem foldl_putAdaptedI (l : Line Int 2) : ∀ (ts : List F) (out : Output (Vec F 2)),
    ts.foldl (putAdaptedI fl l) out = { writes := out.writes ++ ts.map fun t => (out.pos, atI fl l t), pos := out.pos }
  | [], out => by simp
  | t :: ts, out => by
    rw [List.foldl_cons, foldl_putAdaptedI l ts]
    simp [putAdaptedI]

theorem atI_near (h : SignedRounding fl u) {t r : F} (hr : |r - t| ≤ e * |t|) (ca : ∀ i, fl (a i) = a i)
    (cb : ∀ i, fl ((b i - a i : Int) : F) = (b i - a i : Int)) (k : LineKind) (i : Fin 2) :
    |atI fl (Line.through a b k) r i - (Line.through (exact a) (exact b) k : Line F 2).at t i| ≤
      u * |(Line.through (exact a) (exact b) k : Line F 2).at t i| +
        (1 + u) * ((1 + u) * (1 + e) - 1) * |(Line.through (exact a) (exact b) k : Line F 2).at t i - a i| := by
  have cb' : fl (((b - a) i : Int) : F) = ((b - a) i : Int) := cb i
  have e2 := at_error h (s := (a i : F)) (v := (((b - a) i : Int) : F)) hr
  have s1 : (Line.through a b k).start = a := rfl
  have s2 : (Line.through a b k).vector = b - a := rfl
  have e3 : atI fl (Line.through a b k) r i = fl ((a i : F) + fl (r * (((b - a) i : Int) : F))) := by
    simp only [atI, s1, s2, ca, cb']
  have e4 : (Line.through (exact a) (exact b) k : Line F 2).at t i = (a i : F) + t * (((b - a) i : Int) : F) := by
    have s5 : (Line.through (exact a) (exact b) k : Line F 2).start = exact a := rfl
    have s6 : (Line.through (exact a) (exact b) k : Line F 2).vector = exact (b - a) := (exact_sub b a).symm
    rw [Line.at, s5, s6]
    rfl
  rw [e3, e4]
  refine e2.trans (le_of_eq ?_)
  rw [pointError, add_sub_cancel_left, abs_mul t]
  ring

open Classical in
/-- C134. The points assigned to the output, all to one position, are within the errors of one quotient and three operations of those
where the line enters and leaves a convex polygon. -/
theorem convexPoints_box (h : SignedRounding fl u) (hr : ∀ x y : Int, y ≠ 0 → |ratio x y - x / y| ≤ e * |(x : F) / y|)
    (hw : D < 2 ^ (w - 1)) (hW : 2 * (D * D) < 2 ^ (W - 1)) (ha : InBox o D a) (hb : InBox o D b) (hp : ∀ v ∈ poly, InBox o D v)
    (hab : a ≠ b) (ca : ∀ i, fl (a i) = a i) (cb : ∀ i, fl ((b i - a i : Int) : F) = (b i - a i : Int))
    (hc : StrictlyConvex (poly.map (exact : Vec Int 2 → Vec F 2))) (k : LineKind) (output : Output (Vec F 2)) :
    ∃ l, throughI w a b k = some l ∧
      (((∀ t, ¬ InPolygon ((Line.through (exact a) (exact b) k : Line F 2).at t) (poly.map exact)) ∧
          convexPointsI ratio fl w W l poly output = some output) ∨
        ∃ (t₁ t₂ : F) (q₁ q₂ p₁ p₂ : Vec F 2) (output' : Output (Vec F 2)), t₁ ≤ t₂ ∧
          (∀ t, InPolygon ((Line.through (exact a) (exact b) k : Line F 2).at t) (poly.map exact) ↔ t₁ ≤ t ∧ t ≤ t₂) ∧
          convexPointsI ratio fl w W l poly output = some output' ∧
          WroteInPlace output output' ((if Allowed k t₁ then [p₁] else []) ++ (if Allowed k t₂ then [p₂] else [])) ∧
          q₁ = (Line.through (exact a) (exact b) k : Line F 2).at t₁ ∧ q₂ = (Line.through (exact a) (exact b) k : Line F 2).at t₂ ∧
          ∀ i, |p₁ i - q₁ i| ≤ u * |q₁ i| + (1 + u) * ((1 + u) * (1 + e) - 1) * |q₁ i - a i| ∧
            |p₂ i - q₂ i| ≤ u * |q₂ i| + (1 + u) * ((1 + u) * (1 + e) - 1) * |q₂ i - a i|) := by
  obtain ⟨l, h1, h2⟩ := convexParams_box hr hw hW ha hb hp hab hc k
  obtain rfl : l = Line.through a b k := Option.some.inj (h1.symm.trans (throughI_box hw ha hb k))
  refine ⟨_, h1, ?_⟩
  rcases h2 with ⟨g1, g2⟩ | ⟨t₁, t₂, r₁, r₂, g1, g2, g3, g4, g5⟩
  · exact Or.inl ⟨g1, by rw [convexPointsI, g2]; rfl⟩
  · refine Or.inr ⟨t₁, t₂, _, _, _, _, _, g1, g2, by rw [convexPointsI, g3]; rfl, ?_, rfl, rfl,
      fun i => ⟨atI_near h g4 ca cb k i, atI_near h g5 ca cb k i⟩⟩
    simp only [foldl_putAdaptedI]
    refine ⟨?_, rfl⟩
    simp only [List.map_append, apply_ite (List.map _), List.map_cons, List.map_nil]

open Classical in
/-- C134. The same of a simple polygon. -/
theorem simplePoints_box (h : SignedRounding fl u) (hr : ∀ x y : Int, y ≠ 0 → |ratio x y - x / y| ≤ e * |(x : F) / y|)
    (hw : D < 2 ^ (w - 1)) (hW : 2 * (D * D) < 2 ^ (W - 1)) (ha : InBox o D a) (hb : InBox o D b) (hp : ∀ v ∈ poly, InBox o D v)
    (hab : a ≠ b) (ca : ∀ i, fl (a i) = a i) (cb : ∀ i, fl ((b i - a i : Int) : F) = (b i - a i : Int))
    (fb : FitsType w b) (hs : Simple (poly.map (exact : Vec Int 2 → Vec F 2))) (h3 : 3 ≤ poly.length)
    (hc : CounterClockwise (poly.map (exact : Vec Int 2 → Vec F 2))) (k : LineKind) (output : Output (Vec F 2)) :
    ∃ (l : Line Int 2) (ts : List F) (ps : List (Vec F 2)) (output' : Output (Vec F 2)), throughI w a b k = some l ∧
      simplePointsI ratio fl w W l poly output = some output' ∧ WroteInPlace output output' ps ∧
      List.Forall₂ (fun (q p : Vec F 2) => ∀ i, |p i - q i| ≤ u * |q i| + (1 + u) * ((1 + u) * (1 + e) - 1) * |q i - a i|)
        ((ts.filter fun t => decide (Allowed k t)).map (Line.through (exact a) (exact b) k : Line F 2).at) ps ∧
      (∀ t ∈ ts, OnBorder ((Line.through (exact a) (exact b) k : Line F 2).at t) (poly.map exact)) ∧
      ∀ t, Odd (ts.countP fun s => decide (s < t)) ↔
        InsideLeft (Line.through (exact a) (exact b) k : Line F 2) t (poly.map exact) ∨
        InsideRight (Line.through (exact a) (exact b) k : Line F 2) t (poly.map exact) := by
  obtain ⟨l, ts, rs, h1, h2, h4, h5, h6⟩ := simpleParams_box hr hw hW ha hb hp hab fb hs h3 hc k
  obtain rfl : l = Line.through a b k := Option.some.inj (h1.symm.trans (throughI_box hw ha hb k))
  refine ⟨_, ts, rs.map (atI fl (Line.through a b k)), _, h1, by rw [simplePointsI, h2]; rfl, ?_, ?_, h5, h6⟩
  · simp only [foldl_putAdaptedI]
    exact ⟨by rw [List.map_map]; rfl, rfl⟩
  · rw [List.forall₂_map_left_iff, List.forall₂_map_right_iff]
    exact h4.imp fun t r htr i => atI_near h htr ca cb k i

/-! ### The bound is exact -/

/-- C134. In every square whose side does not meet the bound (but fits the coordinates), half of the square cut off by a diagonal and the
other diagonal make both overflow, whatever the kind of the line. -/
theorem linePolygon_overflow (ratio : Int → Int → F) (o : Vec Int 2) (h0 : 0 < D) (hw : D < 2 ^ (w - 1)) (h1 : D * D < 2 ^ (W - 1))
    (hW : 2 ^ (W - 1) ≤ 2 * (D * D)) (k : LineKind) :
    ∃ l, throughI w o ![o 0 + D, o 1 + D] k = some l ∧
      intersectConvexI ratio w W l [![o 0 + D, o 1], ![o 0, o 1 + D], o] = none ∧
      intersectSimpleI ratio w W l [![o 0 + D, o 1], ![o 0, o 1 + D], o] = none := by
  have ha : InBox o D o := ⟨le_rfl, by linarith, le_rfl, by linarith⟩
  have hb : InBox o D ![o 0 + D, o 1 + D] := ⟨by simp [h0.le], by simp, by simp [h0.le], by simp⟩
  have hc : InBox o D ![o 0 + D, o 1] := ⟨by simp [h0.le], by simp, by simp, by simp [h0.le]⟩
  have hd : InBox o D ![o 0, o 1 + D] := ⟨by simp, by simp [h0.le], by simp [h0.le], by simp⟩
  refine ⟨_, throughI_box hw ha hb k, ?_⟩
  have v1 : (Line.through o ![o 0 + D, o 1 + D] k).vector = ![D, D] :=
    vec2_ext (add_sub_cancel_left (o 0) D) (add_sub_cancel_left (o 1) D)
  have v0 : (Line.through o ![o 0 + D, o 1 + D] k).start = o := rfl
  have hP : (0 : Int) < 2 ^ (W - 1) := by positivity
  have hDD : 0 ≤ D * D := mul_self_nonneg D
  have hD : D ≠ 0 := h0.ne'
  have dg : degenerate ![D, D] = false := by simp [degenerate, hD]
  have f0 : fitInt W 0 = some 0 := fitInt_some (by linarith) hP
  have f1 : fitInt W (D * D) = some (D * D) := fitInt_some (by linarith) h1
  have f2 : fitInt W (-(D * D)) = some (-(D * D)) := fitInt_some (by linarith) (by linarith)
  have n1 : ∀ x : Int, 2 ^ (W - 1) ≤ x → fitInt W x = none := fun x hx => fitInt_none (Or.inr hx)
  have n2 : D * D + D * D = 2 * (D * D) := by ring
  have s1 : subI w ![o 0 + D, o 1] ![o 0, o 1 + D] = some ![D, -D] := by
    rw [sub_box hc hd hw]
    exact congrArg some (vec2_ext (by simp) (by simp))
  have s2 : subI w ![o 0, o 1 + D] ![o 0 + D, o 1] = some ![-D, D] := by
    rw [sub_box hd hc hw]
    exact congrArg some (vec2_ext (by simp) (by simp))
  have s3 : subI w o o = some ![0, 0] := by
    rw [sub_box ha ha hw]
    exact congrArg some (vec2_ext (by simp) (by simp))
  have s4 : subI w ![o 0 + D, o 1] o = some ![D, 0] := by
    rw [sub_box hc ha hw]
    exact congrArg some (vec2_ext (by simp) (by simp))
  have s5 : subI w ![o 0, o 1 + D] o = some ![0, D] := by
    rw [sub_box hd ha hw]
    exact congrArg some (vec2_ext (by simp) (by simp))
  have p0 : ([![o 0 + D, o 1], ![o 0, o 1 + D], o] : List (Vec Int 2)).length = 3 := rfl
  have q0 : ([![o 0 + D, o 1], ![o 0, o 1 + D], o] : List (Vec Int 2))[0]? = some ![o 0 + D, o 1] := rfl
  have q1 : ([![o 0 + D, o 1], ![o 0, o 1 + D], o] : List (Vec Int 2))[1]? = some ![o 0, o 1 + D] := rfl
  have q2 : ([![o 0 + D, o 1], ![o 0, o 1 + D], o] : List (Vec Int 2))[2]? = some o := rfl
  have t0 : nextAt 3 0 = 1 := rfl
  have t1 : prevAt 3 0 = 2 := rfl
  constructor
  · have c1 : orientationI W ![D, D] ![D, -D] = none := by
      simp only [orientationI, areaI, Matrix.cons_val_zero, Matrix.cons_val_one, neg_mul, f1, f2, Option.bind_some, sub_neg_eq_add, n2,
        n1 _ hW, Option.map_none]
    have c2 : extremeVertexI w W [![o 0 + D, o 1], ![o 0, o 1 + D], o] (fun _ => some ![D, D]) = none := by
      simp only [extremeVertexI, isExtremeI, vertexCmpI, p0, t0, q0, q1, Option.bind_some, s1, c1, Option.bind_none]
      rfl
    rw [intersectConvexI, v1, dg, c2]
    rfl
  · have c0 : orientationI W ![0, 0] ![D, D] = some .collinear := by
      simp [orientationI, areaI, f0, Turn.ofSign]
    have c1 : orientationI W ![D, 0] ![D, D] = some .left := by
      simp [orientationI, areaI, f0, f1, f2, Turn.ofSign, hD]
    have c2 : orientationI W ![0, D] ![D, D] = some .right := by
      have : ¬ D * D < 0 := by linarith
      simp [orientationI, areaI, f0, f1, Turn.ofSign, hD, this]
    have e0 : throughI w ![o 0 + D, o 1] ![o 0, o 1 + D] .free = some { start := ![o 0 + D, o 1], vector := ![-D, D], kind := .free } := by
      rw [throughI, s2]
      rfl
    have s6 : subI w o ![o 0 + D, o 1] = some ![-D, 0] := by
      rw [sub_box ha hc hw]
      exact congrArg some (vec2_ext (by simp) (by simp))
    have c3 : intersectScalarI ratio w W (Line.through o ![o 0 + D, o 1 + D] k)
        { start := ![o 0 + D, o 1], vector := ![-D, D], kind := .free } = none := by
      have a1 : areaI W ![-D, D] ![D, D] = fitInt W (-(2 * (D * D))) := by
        simp only [areaI, Matrix.cons_val_zero, Matrix.cons_val_one, neg_mul, f1, f2, Option.bind_some]
        congr 1
        ring
      have a2 : areaI W ![-D, 0] ![-D, D] = some (-(D * D)) := by
        simp [areaI, f0, f2]
      have a3 : areaI W ![-D, 0] ![D, D] = some (-(D * D)) := by
        simp [areaI, f0, f2]
      rw [intersectScalarI, v0, v1]
      simp only [a1]
      cases hf : fitInt W (-(2 * (D * D))) with
      | none => rfl
      | some x =>
        obtain rfl := fitInt_eq hf
        have hx : ¬ -(2 * (D * D)) = 0 := by
          have : 0 < D * D := by positivity
          linarith
        have hx' : -(2 * (D * D)) < 0 := by
          have : 0 < D * D := by positivity
          linarith
        simp only [Option.bind_some, if_neg hx, s6, a2, a3, crossTestI, if_pos hx', neg_neg, n1 _ hW, Option.bind_none, Option.map_none]
    have c4 : ∀ s, simpleStepI ratio w W (Line.through o ![o 0 + D, o 1 + D] k) [![o 0 + D, o 1], ![o 0, o 1 + D], o] 0 s .left .right =
        none := by
      intro s
      simp only [simpleStepI, p0, t0, reduceCtorEq, if_false, Turn.neg, if_true, intersectEdgeI, q0, q1, Option.bind_some, e0, c3]
    have g0 : vertexOrientI w W (Line.through o ![o 0 + D, o 1 + D] k) [![o 0 + D, o 1], ![o 0, o 1 + D], o] 0 = some .left := by
      simp only [vertexOrientI, q0, Option.bind_some, orientationLineI, v0, v1, s4, c1]
    have g1 : vertexOrientI w W (Line.through o ![o 0 + D, o 1 + D] k) [![o 0 + D, o 1], ![o 0, o 1 + D], o] 1 = some .right := by
      simp only [vertexOrientI, q1, Option.bind_some, orientationLineI, v0, v1, s5, c2]
    have g2 : vertexOrientI w W (Line.through o ![o 0 + D, o 1 + D] k) [![o 0 + D, o 1], ![o 0, o 1 + D], o] 2 = some .collinear := by
      simp only [vertexOrientI, q2, Option.bind_some, orientationLineI, v0, v1, s3, c0]
    rw [intersectSimpleI, v1, dg, p0, t1, g2, g0]
    simp only [Option.bind_some, simpleLoopI, p0, t0, g1, c4, Option.bind_none]
    rfl

/-! ### Examples -/

theorem exact_triangle : (([![0, 0], ![4, 0], ![2, 3]] : List (Vec Int 2)).map exact : List (Vec ℚ 2)) = [![0, 0], ![4, 0], ![2, 3]] := by
  simp only [List.map_cons, List.map_nil]
  refine congrArg₂ List.cons ?_ (congrArg₂ List.cons ?_ (congrArg₂ List.cons ?_ rfl)) <;>
    exact vec2_ext (by norm_num [exact]) (by norm_num [exact])

/-- A horizontal segment that starts inside of a triangle: only the parameter where it leaves is written. -/
example : (throughI 32 ![1, 1] ![4, 1] .closedSegment).bind
    (fun l => intersectConvexI (fun x y => roundSigned 53 ((x : ℚ) / y)) 32 32 l [![0, 0], ![4, 0], ![2, 3]]) =
    some [roundSigned 53 (7 / 9)] := by decide +kernel

/-- The hypotheses hold of it: coordinates and products of 32 bits, parameters and points of `double`. -/
example (output : Output (Vec ℚ 2)) :=
  convexPoints_box (w := 32) (W := 32) (D := 4) (o := ![0, 0]) (a := ![1, 1]) (b := ![4, 1]) (poly := [![0, 0], ![4, 0], ![2, 3]])
    (ratio := fun x y => roundSigned 53 ((x : ℚ) / y)) (roundSigned_signed (prec := 53) (by decide))
    (fun x y _ => (roundSigned_signed (prec := 53) (by decide)).near _) (by decide) (by decide) (by unfold InBox; decide)
    (by unfold InBox; decide) (by unfold InBox; decide) (by decide) (by decide +kernel) (by decide +kernel)
    (by rw [exact_triangle]; exact strictlyConvex_triangle (by norm_num [StrictLeft])) .closedSegment output

theorem exact_dart : (([![0, 0], ![2, 1], ![4, 0], ![2, 3]] : List (Vec Int 2)).map exact : List (Vec ℚ 2)) = dart := by
  simp only [List.map_cons, List.map_nil, dart]
  refine congrArg₂ List.cons ?_ (congrArg₂ List.cons ?_ (congrArg₂ List.cons ?_ (congrArg₂ List.cons ?_ rfl))) <;>
    exact vec2_ext (by norm_num [exact]) (by norm_num [exact])

/-- The dart, which is not convex, through its notch and the vertex above, and along a line that touches the notch. -/
example : (throughI 32 ![2, 0] ![2, 1] .closedRay).bind
      (fun l => intersectSimpleI (fun x y => (x : ℚ) / y) 32 32 l [![0, 0], ![2, 1], ![4, 0], ![2, 3]]) = some [1, 3] ∧
    (throughI 32 ![0, 1] ![3, 1] .free).bind
      (fun l => intersectSimpleI (fun x y => (x : ℚ) / y) 32 32 l [![0, 0], ![2, 1], ![4, 0], ![2, 3]]) = some [10 / 9, 2 / 9] := by
  decide +kernel

example (output : Output (Vec ℚ 2)) :=
  simplePoints_box (w := 32) (W := 32) (D := 4) (o := ![0, 0]) (a := ![0, 1]) (b := ![3, 1]) (poly := [![0, 0], ![2, 1], ![4, 0], ![2, 3]])
    (ratio := fun x y => roundSigned 53 ((x : ℚ) / y)) (roundSigned_signed (prec := 53) (by decide))
    (fun x y _ => (roundSigned_signed (prec := 53) (by decide)).near _) (by decide) (by decide) (by unfold InBox; decide)
    (by unfold InBox; decide) (by unfold InBox; decide) (by decide) (by decide +kernel) (by decide +kernel) (by unfold FitsType; decide)
    (by rw [exact_dart]; exact dart_simple) (by decide) (by rw [exact_dart]; exact dart_counterClockwise) .free output

/-- Products of 32 bits: a line and a triangle in a square of side 40000. -/
example : ∃ l, throughI 32 ![5, 5] ![5 + 40000, 5 + 40000] .free = some l ∧
    intersectConvexI (fun x y => (x : ℚ) / y) 32 32 l [![5 + 40000, 5], ![5, 5 + 40000], ![5, 5]] = none ∧
    intersectSimpleI (fun x y => (x : ℚ) / y) 32 32 l [![5 + 40000, 5], ![5, 5 + 40000], ![5, 5]] = none :=
  linePolygon_overflow (D := 40000) (fun x y => (x : ℚ) / y) ![5, 5] (by decide) (by decide) (by decide) (by decide) .free

end Actl.Geo
