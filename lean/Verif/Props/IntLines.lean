import Verif.Lemmas.IntLines

/-!
# C131: lines with integer coordinates
-/

namespace Actl.Geo

variable {F : Type*} [Field F] [LinearOrder F] [IsStrictOrderedRing F]
variable {w W : Nat} {D : Int} {o a b c d p : Vec Int 2}

/-- C131. On which side of a line through two points a point is, and the area: no overflow, and the exact results. -/
theorem orientationLine_box (hw : D < 2 ^ (w - 1)) (hW : D * D < 2 ^ (W - 1)) (ha : InBox o D a) (hb : InBox o D b)
    (hp : InBox o D p) (k : LineKind) :
    ∃ l, throughI w a b k = some l ∧
      areaLineI w W p l = some ((p 0 - a 0) * (b 1 - a 1) - (p 1 - a 1) * (b 0 - a 0)) ∧
      orientationLineI w W p l = some (orientation3 (exact p : Vec F 2) (exact b) (exact a)) := by
  refine ⟨_, throughI_box hw ha hb k, ?_, ?_⟩
  · rw [areaLineI, Line.through, sub_box hp ha hw]
    exact area_box hb hp ha hW
  · rw [orientationLineI, Line.through, sub_box hp ha hw, orientation3_exact]
    simp only [Option.bind_some]
    rw [orientationI, area_box hp hb ha hW]
    rfl

/-- A point on the left of a line far from the origin, coordinates of 32 bits and products of 32 bits as well. -/
example : ∃ l, throughI 32 ![2000000000, 7] ![2000040000, 8] .free = some l ∧
    areaLineI 32 32 ![2000000001, 40000] l = some (1 * 1 - 39993 * 40000) ∧
    orientationLineI 32 32 ![2000000001, 40000] l =
      some (orientation3 (exact ![2000000001, 40000] : Vec ℚ 2) (exact ![2000040000, 8]) (exact ![2000000000, 7])) :=
  orientationLine_box (D := 40000) (o := ![2000000000, 0]) (by decide) (by decide) (by unfold InBox; decide) (by unfold InBox; decide)
    (by unfold InBox; decide) .free

/-- C131. Whether a point is on a line, a ray or a segment of any kind through two points: no overflow, and always right. -/
theorem withinLine_box (hw : D < 2 ^ (w - 1)) (hW : 2 * (D * D) < 2 ^ (W - 1)) (ha : InBox o D a) (hb : InBox o D b)
    (hp : InBox o D p) (fb : FitsType w b) (k : LineKind) :
    ∃ l, throughI w a b k = some l ∧
      (withinLineI w W p l = some .border ↔ On (exact p : Vec F 2) (Line.through (exact a) (exact b) k)) ∧
      (withinLineI w W p l = some .outside ↔ ¬ On (exact p : Vec F 2) (Line.through (exact a) (exact b) k)) := by
  refine ⟨_, throughI_box hw ha hb k, ?_⟩
  have h0 : 0 ≤ D * D := mul_self_nonneg D
  have hW' : D * D < 2 ^ (W - 1) := by linarith
  have hv : (exact (b - a) : Vec F 2) = exact b - exact a := exact_sub b a
  have hd : (exact (p - a) : Vec F 2) = exact p - exact a := exact_sub p a
  have key : withinLineI w W p (Line.through a b k) =
      some (withinLine (exact p : Vec F 2) (Line.through (exact a) (exact b) k)) := by
    have deg : degenerate (exact b - exact a : Vec F 2) = degenerate (b - a) := by
      rw [← hv]
      have z : ∀ x : Int, ((x : F) = 0) = (x = 0) := fun x => propext Int.cast_eq_zero
      simp only [degenerate, exact, z]
    have ori : collinear (exact p - exact a : Vec F 2) (exact b - exact a) = decide (Turn.ofSign (area (b - a) (p - a)) = .collinear) := by
      rw [← hv, ← hd, ← ofSign_cast (F := F), ← area_exact]
      rfl
    have btw : betweenEndpointsI w W p (Line.through a b k) =
        some (betweenEndpoints (exact p : Vec F 2) (Line.through (exact a) (exact b) k)) := by
      have hstop := stopI_through (a := a) fb k
      unfold betweenEndpointsI betweenEndpoints
      rw [hstop, stop_through]
      simp only [Line.through]
      rw [sub_box hp ha hw, sub_box ha hp hw]
      simp only [Option.bind_some, isEqual_exact]
      rw [sub_box hp hb hw, ← hv, ← hd]
      simp only [Option.bind_some]
      rw [dotI_bounded (bounded_diff hp ha) (bounded_diff hb ha) hW, dotI_bounded (bounded_diff ha hp) (bounded_diff hp hb) hW,
        ← exact_sub, ← exact_sub, dot_exact, dot_exact, endpointTest_exact_zero, endpointTest_exact_zero]
      simp only [Option.map_some]
      split
      · rfl
      · split <;> rfl
    have s1 : (Line.through a b k).start = a := rfl
    have s2 : (Line.through a b k).vector = b - a := rfl
    have s3 : (Line.through (exact a) (exact b) k : Line F 2).start = exact a := rfl
    have s4 : (Line.through (exact a) (exact b) k : Line F 2).vector = exact b - exact a := rfl
    have s5 : orientationI W (p - a) (b - a) = some (Turn.ofSign (area (b - a) (p - a))) := by
      rw [orientationI, area_box hp hb ha hW']
      rfl
    simp only [withinLineI, withinLine, btw, s1, s2, s3, s4, deg, ori, isEqual_exact, sub_box hp ha hw, s5, Option.bind_some,
      Option.map_some]
    cases degenerate (b - a)
    · by_cases ht : Turn.ofSign (area (b - a) (p - a)) = .collinear <;> simp [ht]
    · simp
  have hx := withinLine_plane (exact p : Vec F 2) (Line.through (exact a) (exact b) k)
  rw [key, Option.some_inj, Option.some_inj]
  exact hx

/-- An end of a half-open segment of integers. -/
example : ∃ l, throughI 32 ![0, 0] ![6, 9] .halfOpenSegment = some l ∧
    (withinLineI 32 32 ![4, 6] l = some .border ↔ On (exact ![4, 6] : Vec ℚ 2) (Line.through (exact ![0, 0]) (exact ![6, 9]) .halfOpenSegment)) ∧
    (withinLineI 32 32 ![4, 6] l = some .outside ↔
      ¬ On (exact ![4, 6] : Vec ℚ 2) (Line.through (exact ![0, 0]) (exact ![6, 9]) .halfOpenSegment)) :=
  withinLine_box (D := 9) (o := ![0, 0]) (by decide) (by decide) (by unfold InBox; decide) (by unfold InBox; decide)
    (by unfold InBox; decide) (by unfold FitsType; decide) .halfOpenSegment

example : withinLineI 32 32 ![4, 6] { start := ![0, 0], vector := ![6, 9], kind := .halfOpenSegment } = some .border ∧
    withinLineI 32 32 ![0, 0] { start := ![0, 0], vector := ![6, 9], kind := .halfOpenSegment } = some .outside := by decide +kernel

/-- C131. Two lines, rays or segments of any kinds, each through two points: no overflow. Parallel ones give exactly the common part,
with integer coordinates. Others give a point exactly when they have a common point; if the ratio of two areas has the relative error
`e` and the coordinates are converted exactly, the error of a coordinate is the one stated. -/
theorem intersect_box {ratio : Int → Int → F} {fl : F → F} {u e : F} (h : SignedRounding fl u)
    (hr : ∀ x y : Int, y ≠ 0 → |ratio x y - x / y| ≤ e * |(x : F) / y|)
    (hw : D < 2 ^ (w - 1)) (hW : 2 * (D * D) < 2 ^ (W - 1)) (ha : InBox o D a) (hb : InBox o D b) (hc : InBox o D c)
    (hd : InBox o D d) (fb : FitsType w b) (fd : FitsType w d)
    (ca : ∀ i, fl (a i) = a i) (cb : ∀ i, fl ((b i - a i : Int) : F) = (b i - a i : Int)) (k m : LineKind) :
    ∃ l r, throughI w a b k = some l ∧ throughI w c d m = some r ∧
      ((d 0 - c 0) * (b 1 - a 1) = (d 1 - c 1) * (b 0 - a 0) → ∃ out : List (Line Int 2), intersectI ratio fl w W l r = some (out.map .line) ∧
        intersectGeneralI ratio fl w W l r = some [] ∧
        out.map exactLine = intersect (Line.through (exact a) (exact b) k : Line F 2) (Line.through (exact c) (exact d) m)) ∧
      ((d 0 - c 0) * (b 1 - a 1) ≠ (d 1 - c 1) * (b 0 - a 0) →
        (intersectI ratio fl w W l r = some [] ∧ intersectGeneralI ratio fl w W l r = some [] ∧
          ∀ x : Vec F 2, ¬ (On x (Line.through (exact a) (exact b) k) ∧ On x (Line.through (exact c) (exact d) m))) ∨
        ∃ q z, intersectI ratio fl w W l r = some [.point z] ∧ intersectGeneralI ratio fl w W l r = some [z] ∧
          (∀ x : Vec F 2, On x (Line.through (exact a) (exact b) k) ∧ On x (Line.through (exact c) (exact d) m) ↔ x = q) ∧
          ∀ i, |z i - q i| ≤ u * |q i| + (1 + u) * ((1 + u) * (1 + e) - 1) * |q i - a i|) := by
  refine ⟨_, _, throughI_box hw ha hb k, throughI_box hw hc hd m, ?_⟩
  obtain ⟨gT, bT⟩ := areaI_bounded (bounded_diff hd hc) (bounded_diff hb ha) hW
  obtain ⟨gL, bL⟩ := areaI_bounded (bounded_diff ha hc) (bounded_diff hd hc) hW
  obtain ⟨gR, bR⟩ := areaI_bounded (bounded_diff ha hc) (bounded_diff hb ha) hW
  have gC := commonLineI_box (F := F) hw ha hb hc hd fb fd k m
  have s1 : (Line.through a b k).start = a := rfl
  have s2 : (Line.through a b k).vector = b - a := rfl
  have s3 : (Line.through c d m).start = c := rfl
  have s4 : (Line.through c d m).vector = d - c := rfl
  have s5 : (Line.through (exact a) (exact b) k : Line F 2).start = exact a := rfl
  have s6 : (Line.through (exact a) (exact b) k : Line F 2).vector = exact (b - a) := (exact_sub b a).symm
  have s7 : (Line.through (exact c) (exact d) m : Line F 2).start = exact c := rfl
  have s8 : (Line.through (exact c) (exact d) m : Line F 2).vector = exact (d - c) := (exact_sub d c).symm
  have hpar : area (d - c) (b - a) = 0 ↔ (d 0 - c 0) * (b 1 - a 1) = (d 1 - c 1) * (b 0 - a 0) := by
    rw [area, sub_eq_zero]
    rfl
  have hX : crossTestI W k m (area (d - c) (b - a)) (area (a - c) (d - c)) (area (a - c) (b - a)) =
      some (crossTest (Line.through (exact a) (exact b) k : Line F 2) (Line.through (exact c) (exact d) m)
        ((area (d - c) (b - a) : Int) : F) ((area (a - c) (d - c) : Int) : F) ((area (a - c) (b - a) : Int) : F)) :=
    crossTestI_exact (W := W) hW bT bL bR (Line.through (exact a) (exact b) k : Line F 2) (Line.through (exact c) (exact d) m)
  have k1 : (Line.through a b k).kind = k := rfl
  have k2 : (Line.through c d m).kind = m := rfl
  constructor
  · intro hp
    have hp' := hpar.2 hp
    obtain ⟨out, o1, o2⟩ := gC
    have hG : intersectGeneralI ratio fl w W (Line.through a b k) (Line.through c d m) = some [] := by
      simp only [intersectGeneralI, intersectScalarI, s2, s4, gT, Option.bind_some, if_pos hp', Option.map_some, List.map_nil]
    by_cases hl : area (a - c) (d - c) = 0
    · refine ⟨out, ?_, hG, ?_⟩
      · simp only [intersectI, s1, s2, s3, s4, gT, sub_box ha hc hw, gL, Option.bind_some, if_pos hp', hl, ne_eq, not_true_eq_false,
          if_false, o1, Option.map_some]
      · rw [o2]
        simp only [intersect, s5, s6, s7, s8, ← exact_sub, area_exact, hp', hl, Int.cast_zero, if_true, ne_eq, not_true_eq_false, if_false]
    · refine ⟨[], ?_, hG, ?_⟩
      · simp only [intersectI, s1, s2, s3, s4, gT, sub_box ha hc hw, gL, Option.bind_some, if_pos hp', ne_eq, hl, not_false_eq_true,
          if_true, List.map_nil]
      · have hl' : ((area (a - c) (d - c) : Int) : F) ≠ 0 := Int.cast_ne_zero.2 hl
        simp only [intersect, s5, s6, s7, s8, ← exact_sub, area_exact, hp', Int.cast_zero, if_true, if_pos hl', List.map_nil]
  · intro hp
    have hp' : area (d - c) (b - a) ≠ 0 := fun x => hp (hpar.1 x)
    have hpF : ((area (d - c) (b - a) : Int) : F) ≠ 0 := Int.cast_ne_zero.2 hp'
    have eS : intersectScalarI ratio w W (Line.through a b k) (Line.through c d m) =
        some (if crossTest (Line.through (exact a) (exact b) k : Line F 2) (Line.through (exact c) (exact d) m)
          ((area (d - c) (b - a) : Int) : F) ((area (a - c) (d - c) : Int) : F) ((area (a - c) (b - a) : Int) : F) then
            [ratio (area (a - c) (d - c)) (area (d - c) (b - a))] else []) := by
      simp only [intersectScalarI, s1, s2, s3, s4, k1, k2, gT, gL, gR, sub_box ha hc hw, Option.bind_some, if_neg hp', hX, Option.map_some]
      cases crossTest (Line.through (exact a) (exact b) k : Line F 2) (Line.through (exact c) (exact d) m)
          ((area (d - c) (b - a) : Int) : F) ((area (a - c) (d - c) : Int) : F) ((area (a - c) (b - a) : Int) : F) <;> rfl
    have eI : intersectI ratio fl w W (Line.through a b k) (Line.through c d m) =
        (intersectGeneralI ratio fl w W (Line.through a b k) (Line.through c d m)).map fun zs => zs.map .point := by
      rw [intersectGeneralI, eS]
      simp only [intersectI, s1, s2, s3, s4, k1, k2, gT, gL, gR, sub_box ha hc hw, Option.bind_some, if_neg hp', hX, Option.map_some]
      cases crossTest (Line.through (exact a) (exact b) k : Line F 2) (Line.through (exact c) (exact d) m)
          ((area (d - c) (b - a) : Int) : F) ((area (a - c) (d - c) : Int) : F) ((area (a - c) (b - a) : Int) : F) <;> rfl
    have eX : intersectScalar (Line.through (exact a) (exact b) k : Line F 2) (Line.through (exact c) (exact d) m) =
        if crossTest (Line.through (exact a) (exact b) k : Line F 2) (Line.through (exact c) (exact d) m)
          ((area (d - c) (b - a) : Int) : F) ((area (a - c) (d - c) : Int) : F) ((area (a - c) (b - a) : Int) : F) then
            [((area (a - c) (d - c) : Int) : F) / ((area (d - c) (b - a) : Int) : F)] else [] := by
      simp only [intersectScalar, s5, s6, s7, s8, ← exact_sub, area_exact, if_neg hpF]
      cases crossTest (Line.through (exact a) (exact b) k : Line F 2) (Line.through (exact c) (exact d) m)
          ((area (d - c) (b - a) : Int) : F) ((area (a - c) (d - c) : Int) : F) ((area (a - c) (b - a) : Int) : F) <;> rfl
    have hpE : area (Line.through (exact c) (exact d) m : Line F 2).vector (Line.through (exact a) (exact b) k : Line F 2).vector ≠ 0 := by
      rw [s6, s8, area_exact]
      exact hpF
    rcases intersectScalar_correct _ _ hpE with ⟨h1, h2⟩ | ⟨t, h1, h2⟩
    · left
      rw [eX] at h1
      split at h1
      · simp at h1
      · next hn =>
        rw [if_neg hn] at eS
        rw [eI, intersectGeneralI, eS]
        exact ⟨rfl, rfl, h2⟩
    · right
      rw [eX] at h1
      split at h1
      · next hn =>
        rw [if_pos hn] at eS
        have ht : t = ((area (a - c) (d - c) : Int) : F) / ((area (d - c) (b - a) : Int) : F) := (List.cons.inj h1).1.symm
        refine ⟨_, atI fl (Line.through a b k) (ratio (area (a - c) (d - c)) (area (d - c) (b - a))), ?_, ?_, h2, ?_⟩
        · rw [eI, intersectGeneralI, eS]
          rfl
        · rw [intersectGeneralI, eS]
          rfl
        · intro i
          have e1 := hr (area (a - c) (d - c)) (area (d - c) (b - a)) hp'
          rw [← ht] at e1
          have cb' : fl (((b - a) i : Int) : F) = ((b - a) i : Int) := cb i
          have e2 := at_error h (s := (a i : F)) (v := (((b - a) i : Int) : F)) e1
          have e3 : atI fl (Line.through a b k) (ratio (area (a - c) (d - c)) (area (d - c) (b - a))) i =
              fl ((a i : F) + fl (ratio (area (a - c) (d - c)) (area (d - c) (b - a)) * (((b - a) i : Int) : F))) := by
            simp only [atI, s1, s2, ca, cb']
          have e4 : (Line.through (exact a) (exact b) k : Line F 2).at t i = (a i : F) + t * (((b - a) i : Int) : F) := by
            rw [Line.at, s5, s6]
            rfl
          rw [e3, e4]
          refine e2.trans (le_of_eq ?_)
          rw [pointError, add_sub_cancel_left, abs_mul t]
          ring
      · simp at h1

/-- Coordinates of 32 bits, products of 64: any four points whose differences fit.  The numbers are doubles, whose ratio has the error
of one rounding. -/
example (a b c d : Vec Int 2) (ha : InBox ![-2 ^ 30, -2 ^ 30] (2 ^ 31 - 1) a) (hb : InBox ![-2 ^ 30, -2 ^ 30] (2 ^ 31 - 1) b)
    (hc : InBox ![-2 ^ 30, -2 ^ 30] (2 ^ 31 - 1) c) (hd : InBox ![-2 ^ 30, -2 ^ 30] (2 ^ 31 - 1) d)
    (ca : ∀ i, roundSigned 53 (a i) = a i) (cb : ∀ i, roundSigned 53 ((b i - a i : Int) : ℚ) = (b i - a i : Int)) (k m : LineKind) :=
  intersect_box (w := 32) (W := 64) (ratio := fun x y => roundSigned 53 ((x : ℚ) / y)) (roundSigned_signed (prec := 53) (by decide))
    (fun x y _ => (roundSigned_signed (prec := 53) (by decide)).near _) (by decide) (by decide) ha hb hc hd
    (by
      obtain ⟨h1, h2, h3, h4⟩ := hb
      simp only [Matrix.cons_val_zero, Matrix.cons_val_one] at h1 h2 h3 h4
      intro i
      match i with
      | 0 => exact ⟨by norm_num; linarith, by norm_num; linarith⟩
      | 1 => exact ⟨by norm_num; linarith, by norm_num; linarith⟩)
    (by
      obtain ⟨h1, h2, h3, h4⟩ := hd
      simp only [Matrix.cons_val_zero, Matrix.cons_val_one] at h1 h2 h3 h4
      intro i
      match i with
      | 0 => exact ⟨by norm_num; linarith, by norm_num; linarith⟩
      | 1 => exact ⟨by norm_num; linarith, by norm_num; linarith⟩) ca cb k m

example : (intersectGeneralI (fun x y => (x : ℚ) / y) id 32 64 { start := ![0, 0], vector := ![5, 3], kind := .closedSegment }
    { start := ![1, 1], vector := ![0, -1], kind := .free }) = some [![1, 3 / 5]] := by decide +kernel

/-- C131. Whether two lines, rays or segments cross: no overflow, the exact decision, and that there is a common point if they are not
parallel. -/
theorem crosses_box {ratio : Int → Int → F} {fl : F → F} (hw : D < 2 ^ (w - 1)) (hW : 2 * (D * D) < 2 ^ (W - 1)) (ha : InBox o D a)
    (hb : InBox o D b) (hc : InBox o D c) (hd : InBox o D d) (fb : FitsType w b) (fd : FitsType w d) (k m : LineKind) :
    ∃ l r, throughI w a b k = some l ∧ throughI w c d m = some r ∧
      crossesLinesI ratio fl w W l r =
        some (crossesLines (Line.through (exact a) (exact b) k : Line F 2) (Line.through (exact c) (exact d) m)) ∧
      ((d 0 - c 0) * (b 1 - a 1) ≠ (d 1 - c 1) * (b 0 - a 0) → (crossesLinesI ratio fl w W l r = some true ↔
        ∃ x : Vec F 2, On x (Line.through (exact a) (exact b) k) ∧ On x (Line.through (exact c) (exact d) m))) := by
  have hind : ∀ l r, crossesLinesI ratio fl w W l r = crossesLinesI (fun x y => (x : F) / y) id w W l r := by
    intro l r
    unfold crossesLinesI intersectI
    cases areaI W r.vector l.vector with
    | none => rfl
    | some t =>
    cases subI w l.start r.start with
    | none => rfl
    | some v =>
    simp only [Option.bind_some]
    cases areaI W v r.vector with
    | none => rfl
    | some x =>
    simp only [Option.bind_some]
    by_cases ht : t = 0
    · simp only [if_pos ht]
    · simp only [if_neg ht]
      cases areaI W v l.vector with
      | none => rfl
      | some y =>
      simp only [Option.bind_some]
      cases crossTestI W l.kind r.kind t x y with
      | none => rfl
      | some z => cases z <;> rfl
  have hid : SignedRounding (id : F → F) 0 := ⟨le_rfl, zero_lt_one, fun y => by simp⟩
  obtain ⟨l, r, hl, hr, h1, h2⟩ := intersect_box (ratio := fun x y => (x : F) / y) (e := 0) hid (fun x y _ => by simp) hw hW ha hb hc hd
    fb fd (fun _ => rfl) (fun _ => rfl) k m
  refine ⟨l, r, hl, hr, ?_⟩
  rw [hind]
  have hpar : area (Line.through (exact c) (exact d) m : Line F 2).vector (Line.through (exact a) (exact b) k : Line F 2).vector =
      (((d 0 - c 0) * (b 1 - a 1) - (d 1 - c 1) * (b 0 - a 0) : Int) : F) := by
    rw [show (Line.through (exact a) (exact b) k : Line F 2).vector = exact (b - a) from (exact_sub b a).symm,
      show (Line.through (exact c) (exact d) m : Line F 2).vector = exact (d - c) from (exact_sub d c).symm, area_exact]
    rfl
  by_cases hp : (d 0 - c 0) * (b 1 - a 1) = (d 1 - c 1) * (b 0 - a 0)
  · obtain ⟨out, e1, -, e2⟩ := h1 hp
    refine ⟨?_, fun x => absurd hp x⟩
    rw [crossesLinesI, e1, crossesLines, ← e2]
    cases out <;> rfl
  · have hpE : area (Line.through (exact c) (exact d) m : Line F 2).vector (Line.through (exact a) (exact b) k : Line F 2).vector ≠ 0 := by
      rw [hpar, Int.cast_ne_zero, sub_ne_zero]
      exact hp
    have hcc := crossesLines_correct _ _ hpE
    have hgoal : crossesLinesI (fun x y => (x : F) / y) id w W l r =
        some (crossesLines (Line.through (exact a) (exact b) k : Line F 2) (Line.through (exact c) (exact d) m)) := by
      rcases h2 hp with ⟨e1, -, e2⟩ | ⟨q, z, e1, -, e2, -⟩
      · have hf : crossesLines (Line.through (exact a) (exact b) k : Line F 2) (Line.through (exact c) (exact d) m) = false := by
          rw [← Bool.not_eq_true, hcc]
          exact fun ⟨x, hx⟩ => e2 x hx
        rw [crossesLinesI, e1, hf]
        rfl
      · rw [crossesLinesI, e1, hcc.2 ⟨q, (e2 q).2 rfl⟩]
        rfl
    refine ⟨hgoal, fun _ => ?_⟩
    rw [hgoal, Option.some_inj]
    exact hcc

/-- Two segments that cross and two that do not. -/
example : crossesLinesI (fun x y => (x : ℚ) / y) id 32 64 { start := ![0, 0], vector := ![5, 3], kind := .closedSegment }
      { start := ![1, 1], vector := ![0, -1], kind := .closedSegment } = some true ∧
    crossesLinesI (fun x y => (x : ℚ) / y) id 32 64 { start := ![0, 0], vector := ![5, 3], kind := .closedSegment }
      { start := ![1, 1], vector := ![0, 1], kind := .closedSegment } = some false := by decide +kernel

example : ∃ l r, throughI 32 ![0, 0] ![5, 3] .closedSegment = some l ∧ throughI 32 ![1, 1] ![1, 0] .closedSegment = some r ∧
    crossesLinesI (fun x y => (x : ℚ) / y) id 32 64 l r = some (crossesLines (Line.through (exact ![0, 0]) (exact ![5, 3]) .closedSegment : Line ℚ 2)
      (Line.through (exact ![1, 1]) (exact ![1, 0]) .closedSegment)) := by
  obtain ⟨l, r, h1, h2, h3, -⟩ := crosses_box (F := ℚ) (w := 32) (W := 64) (D := 5) (o := ![0, 0]) (a := ![0, 0]) (b := ![5, 3])
    (c := ![1, 1]) (d := ![1, 0]) (ratio := fun x y => (x : ℚ) / y) (fl := id) (by decide) (by decide) (by unfold InBox; decide)
    (by unfold InBox; decide) (by unfold InBox; decide) (by unfold InBox; decide) (by unfold FitsType; decide)
    (by unfold FitsType; decide) .closedSegment .closedSegment
  exact ⟨l, r, h1, h2, h3⟩

/-- C131. The bound is exact: in every square whose side does not meet it (but fits the coordinates) the two diagonals make `intersect`
overflow in either order, whatever their kinds. -/
theorem intersect_overflow (ratio : Int → Int → F) (fl : F → F) (o : Vec Int 2) (h0 : 0 ≤ D) (hw : D < 2 ^ (w - 1))
    (hW : 2 ^ (W - 1) ≤ 2 * (D * D)) (k m : LineKind) :
    ∃ l r, throughI w o ![o 0 + D, o 1 + D] k = some l ∧ throughI w ![o 0 + D, o 1] ![o 0, o 1 + D] m = some r ∧
      intersectI ratio fl w W l r = none ∧ intersectI ratio fl w W r l = none ∧
      crossesLinesI ratio fl w W l r = none ∧ crossesLinesI ratio fl w W r l = none := by
  have ha : InBox o D o := ⟨le_rfl, by linarith, le_rfl, by linarith⟩
  have hb : InBox o D ![o 0 + D, o 1 + D] := ⟨by simp [h0], by simp, by simp [h0], by simp⟩
  have hc : InBox o D ![o 0 + D, o 1] := ⟨by simp [h0], by simp, by simp, by simp [h0]⟩
  have hd : InBox o D ![o 0, o 1 + D] := ⟨by simp, by simp [h0], by simp [h0], by simp⟩
  refine ⟨_, _, throughI_box hw ha hb k, throughI_box hw hc hd m, ?_⟩
  have v1 : (Line.through o ![o 0 + D, o 1 + D] k).vector = ![D, D] :=
    vec2_ext (add_sub_cancel_left (o 0) D) (add_sub_cancel_left (o 1) D)
  have v2 : (Line.through ![o 0 + D, o 1] ![o 0, o 1 + D] m).vector = ![-D, D] :=
    vec2_ext (by simp [Line.through]) (by simp [Line.through])
  have hP : (0 : Int) < 2 ^ (W - 1) := by positivity
  have n2 : areaI W ![D, D] ![-D, D] = none := by
    unfold areaI
    simp only [Matrix.cons_val_zero, Matrix.cons_val_one]
    cases e1 : fitInt W (D * D) with
    | none => rfl
    | some x =>
    cases e2 : fitInt W (D * -D) with
    | none => rfl
    | some y =>
    rw [fitInt_eq e1, fitInt_eq e2]
    exact fitInt_none (Or.inr (by linarith))
  have n1 : ∀ t, areaI W ![-D, D] ![D, D] = some t → t < 0 ∧ fitInt W (-t) = none := by
    intro t ht
    unfold areaI at ht
    simp only [Matrix.cons_val_zero, Matrix.cons_val_one] at ht
    cases e1 : fitInt W (-D * D) with
    | none => rw [e1] at ht; cases ht
    | some x =>
    cases e2 : fitInt W (D * D) with
    | none => rw [e1, e2] at ht; cases ht
    | some y =>
    rw [e1, e2, Option.bind_some, Option.bind_some, fitInt_eq e1, fitInt_eq e2] at ht
    rw [fitInt_eq ht]
    exact ⟨by linarith, fitInt_none (Or.inr (by linarith))⟩
  have r1 : intersectI ratio fl w W (Line.through o ![o 0 + D, o 1 + D] k) (Line.through ![o 0 + D, o 1] ![o 0, o 1 + D] m) = none := by
    simp only [intersectI, v1, v2]
    cases e1 : areaI W ![-D, D] ![D, D] with
    | none => rfl
    | some t =>
    obtain ⟨t1, t2⟩ := n1 t e1
    simp only [Option.bind_some, if_neg t1.ne, crossTestI, if_pos t1, t2, Option.bind_none, Option.map_none, Option.bind_fun_none]
  have r2 : intersectI ratio fl w W (Line.through ![o 0 + D, o 1] ![o 0, o 1 + D] m) (Line.through o ![o 0 + D, o 1 + D] k) = none := by
    simp only [intersectI, v1, v2, n2, Option.bind_none]
  refine ⟨r1, r2, ?_, ?_⟩
  · rw [crossesLinesI, r1]; rfl
  · rw [crossesLinesI, r2]; rfl

/-- Products of 32 bits: segments in a square of side 32768. -/
example : ∃ l r, throughI 32 ![5, 5] ![32773, 32773] .closedSegment = some l ∧
    throughI 32 ![32773, 5] ![5, 32773] .closedSegment = some r ∧ crossesLinesI (fun x y => (x : ℚ) / y) id 32 32 l r = none := by
  obtain ⟨l, r, h1, h2, -, -, h3, -⟩ := intersect_overflow (w := 32) (W := 32) (D := 32768) (fun x y => (x : ℚ) / y) id ![5, 5]
    (by decide) (by decide) (by decide) .closedSegment .closedSegment
  exact ⟨l, r, h1, h2, h3⟩

/-- C131. And a ray along a diagonal makes `within` of its second point overflow. -/
theorem withinLine_overflow (o : Vec Int 2) (h0 : 0 ≤ D) (hw : D < 2 ^ (w - 1)) (h1 : D * D < 2 ^ (W - 1))
    (hW : 2 ^ (W - 1) ≤ 2 * (D * D)) (k : LineKind) (hk : k.last = .free) :
    ∃ l, throughI w o ![o 0 + D, o 1 + D] k = some l ∧ withinLineI w W ![o 0 + D, o 1 + D] l = none := by
  have ha : InBox o D o := ⟨le_rfl, by linarith, le_rfl, by linarith⟩
  have hb : InBox o D ![o 0 + D, o 1 + D] := ⟨by simp [h0], by simp, by simp [h0], by simp⟩
  refine ⟨_, throughI_box hw ha hb k, ?_⟩
  have v1 : (Line.through o ![o 0 + D, o 1 + D] k).vector = ![D, D] :=
    vec2_ext (add_sub_cancel_left (o 0) D) (add_sub_cancel_left (o 1) D)
  have v2 : subI w ![o 0 + D, o 1 + D] o = some ![D, D] := by
    rw [sub_box hb ha hw]
    exact congrArg some (vec2_ext (by simp) (by simp))
  have hP : (0 : Int) < 2 ^ (W - 1) := by positivity
  have hD : D ≠ 0 := by
    rintro rfl
    linarith
  have dg : degenerate ![D, D] = false := by
    simp [degenerate, hD]
  have f1 : fitInt W (D * D) = some (D * D) := fitInt_some (by linarith [mul_self_nonneg D]) h1
  have ar : areaI W ![D, D] ![D, D] = some 0 := by
    unfold areaI
    simp only [Matrix.cons_val_zero, Matrix.cons_val_one, f1, Option.bind_some, sub_self]
    exact fitInt_some (by linarith) hP
  have dt : dotI W ![D, D] ![D, D] = none := by
    unfold dotI
    simp only [Matrix.cons_val_zero, Matrix.cons_val_one, f1, Option.bind_some]
    exact fitInt_none (Or.inr (by linarith))
  have s1 : (Line.through o ![o 0 + D, o 1 + D] k).start = o := rfl
  have s2 : (Line.through o ![o 0 + D, o 1 + D] k).kind = k := rfl
  have tr : Turn.ofSign (0 : Int) = .collinear := by simp [Turn.ofSign]
  simp only [withinLineI, v1, dg, s1, v2, orientationI, ar, betweenEndpointsI, s2, if_pos hk, dt, Option.bind_some, Option.map_some,
    Option.map_none, tr, ne_eq, not_true_eq_false, if_false, Bool.false_eq_true]



example : ∃ l, throughI 32 ![0, 0] ![0 + 40000, 0 + 40000] .closedRay = some l ∧ withinLineI 32 32 ![0 + 40000, 0 + 40000] l = none :=
  withinLine_overflow (D := 40000) ![0, 0] (by decide) (by decide) (by decide) (by decide) .closedRay (by decide)

end Actl.Geo
