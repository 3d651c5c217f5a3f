import Verif.Spec.Extreme
import Verif.Spec.Circles
import Verif.Lemmas.Extreme
import Verif.Lemmas.Convex
import Verif.Lemmas.Winding
import Verif.Props.Antipodal
import Verif.Props.Circles

/-!
# Extreme vertices of a convex polygon, tangents from a point

C69.
-/

namespace Actl.Geo

variable {F : Type*} [Field F] [LinearOrder F] [IsStrictOrderedRing F] {poly : List (Vec F 2)}

theorem orientation_right_iff (P Q : Vec F 2) : orientation P Q = .right ↔ area P Q < 0 := by
  have h1 := area_swap P Q
  rw [orientation, Turn.ofSign, h1]
  split_ifs with h2 h3
  · simp; linarith
  · simp; linarith
  · simp; linarith

/-- The direction orthogonal to a vector. -/
def perp (d : Vec F 2) : Vec F 2 := ![-d 1, d 0]

omit [LinearOrder F] [IsStrictOrderedRing F] in
theorem inner_perp (d v : Vec F 2) : inner v (perp d) = area d v := by
  rw [inner2, perp, area]
  simp only [Matrix.cons_val_zero, Matrix.cons_val_one, Matrix.cons_val_fin_one]; ring

omit [LinearOrder F] [IsStrictOrderedRing F] in
theorem perp_ne {d : Vec F 2} (hd : d ≠ 0) : perp d ≠ 0 := by
  intro h
  apply hd
  have h0 := congrFun h 0
  have h1 := congrFun h 1
  simp only [perp, Matrix.cons_val_zero, Matrix.cons_val_one, Matrix.cons_val_fin_one,
    Pi.zero_apply, neg_eq_zero] at h0 h1
  exact vec2_ext h1 h0

omit [LinearOrder F] [IsStrictOrderedRing F] in
theorem inner_neg_right (v d : Vec F 2) : inner v (-d) = -inner v d := by
  simp only [inner2, Pi.neg_apply]; ring

omit [LinearOrder F] [IsStrictOrderedRing F] in
theorem eq_zero_of_inner {P R d : Vec F 2} (h : area P R ≠ 0) (h0 : inner P d = 0)
    (h1 : inner R d = 0) : d = 0 := by
  rw [inner2] at h0 h1
  rw [area] at h
  apply vec2_ext
  · have : (P 0 * R 1 - P 1 * R 0) * d 0 = 0 := by linear_combination R 1 * h0 - P 1 * h1
    exact (mul_eq_zero.1 this).resolve_left h
  · have : (P 0 * R 1 - P 1 * R 0) * d 1 = 0 := by linear_combination P 0 * h1 - R 0 * h0
    exact (mul_eq_zero.1 this).resolve_left h

/-- The three properties of a linear function that make the search work. -/
theorem StrictlyConvex.linear_local (hc : StrictlyConvex poly) {D : Vec F 2} (hD : D ≠ 0) (k : Nat) :
    (∀ j, inner (vert poly k) D ≤ inner (vert poly (k + 1)) D →
      inner (vert poly (k + 2)) D ≤ inner (vert poly (k + 1)) D → k + 2 < j → j < k + poly.length →
      inner (vert poly j) D < inner (vert poly (k + 1)) D) ∧
    (∀ j, inner (vert poly (k + 1)) D ≤ inner (vert poly k) D →
      inner (vert poly (k + 1)) D ≤ inner (vert poly (k + 2)) D → k + 2 < j → j < k + poly.length →
      inner (vert poly (k + 1)) D < inner (vert poly j) D) ∧
    (inner (vert poly k) D = inner (vert poly (k + 1)) D →
      inner (vert poly (k + 1)) D = inner (vert poly (k + 2)) D → False) := by
  refine ⟨fun j h0 h1 h2 h3 => ?_, fun j h0 h1 h2 h3 => ?_, fun h0 h1 => ?_⟩
  · refine hc.linear_max_strict hD ?_ ?_ (hc.vert_ne' (by omega) h3) (hc.vert_ne' (by omega) (by omega))
      (hc.vert_ne' h2 (by omega))
    · rw [inner_edgeAt]; linarith
    · rw [inner_edgeAt]; linarith
  · have := hc.linear_max_strict (neg_ne_zero.2 hD) (k := k) ?_ ?_ (hc.vert_ne' (a := k) (b := j) (by omega) h3)
      (hc.vert_ne' (by omega) (by omega)) (hc.vert_ne' h2 (by omega))
    · rw [inner_neg_right, inner_neg_right] at this; linarith
    · rw [inner_neg_right, inner_edgeAt]; linarith
    · rw [inner_neg_right, inner_edgeAt]; linarith
  · refine hD (eq_zero_of_inner (hc.turn k).ne' ?_ ?_)
    · rw [inner_edgeAt]; linarith
    · rw [inner_edgeAt]; linarith

omit [IsStrictOrderedRing F] in
theorem mem_edges_vert {e : Vec F 2 × Vec F 2} (he : e ∈ edges poly) :
    ∃ k < poly.length, e = (vert poly k, vert poly (k + 1)) := by
  rw [edges_eq_map, List.mem_map] at he
  obtain ⟨k, hk, rfl⟩ := he
  exact ⟨k, List.mem_range.1 hk, rfl⟩

theorem StrictlyConvex.before (hc : StrictlyConvex poly) {i : Nat} {w : Vec F 2}
    (h : (w, vert poly i) ∈ edges poly) : w = vert poly (i + poly.length - 1) := by
  have h3 := hc.1
  obtain ⟨k, hk, e⟩ := mem_edges_vert h
  have e1 : w = vert poly k := congrArg Prod.fst e
  have e2 : vert poly i = vert poly (k + 1) := congrArg Prod.snd e
  subst e1
  by_contra hne
  have hmod : i % poly.length = (k + 1) % poly.length := by
    by_contra hn; exact hc.vert_ne hn e2
  apply hne
  have h1 := congrArg (fun x => (x + (poly.length - 1)) % poly.length) hmod
  simp only [Nat.mod_add_mod] at h1
  rw [← vert_mod (i + poly.length - 1), show i + poly.length - 1 = i + (poly.length - 1) by omega, h1,
    vert_mod, show k + 1 + (poly.length - 1) = k + poly.length by omega, vert_period]

/-- The search returns the extreme vertex for every function that compares like a sequence with one
ascent and one descent. -/
theorem extremeVertex_eq (hc : StrictlyConvex poly) {K : Type*} [LinearOrder K] {h : Nat → K}
    {direction : Vec F 2 → Vec F 2} (hper : ∀ k, h (k + poly.length) = h k)
    (hcmp : Compares (vertexCmp direction poly) h poly.length)
    (hmax : ∀ k j, h k ≤ h (k + 1) → h (k + 2) ≤ h (k + 1) → k + 2 < j → j < k + poly.length →
      h j < h (k + 1))
    (hmin : ∀ k j, h (k + 1) ≤ h k → h (k + 1) ≤ h (k + 2) → k + 2 < j → j < k + poly.length →
      h (k + 1) < h j)
    (heq : ∀ k, h k = h (k + 1) → h (k + 1) = h (k + 2) → False) :
    ∃ m < poly.length, extremeVertex poly direction = some m ∧ (∀ k, h m ≤ h k) ∧
      h m < h (m + poly.length - 1) := by
  obtain ⟨m, M, hm, u, hall⟩ := exists_unimodal hc.1 hper hmax hmin heq
  refine ⟨m, hm, ?_, hall, by rw [← hper m]; exact u.last⟩
  have h3 := hc.1
  rw [extremeVertex, if_neg (by omega)]
  simp only
  rw [extremeSearch_eq hper hcmp u hm]

/-- C69. The extreme vertex in a direction: the line through it in this direction has the polygon on
its left. -/
theorem extremeVertex_correct (hc : StrictlyConvex poly) {d : Vec F 2} (hd : d ≠ 0) :
    ∃ i, extremeVertex poly (fun _ => d) = some i ∧ i < poly.length ∧
      TouchesLeft (vert poly i) (vert poly i + d) (vert poly i) poly := by
  have hD := perp_ne hd
  have hl := fun k => hc.linear_local hD k
  have hcmp : Compares (vertexCmp (fun _ => d) poly) (fun k => inner (vert poly k) (perp d))
      poly.length := by
    constructor
    all_goals
      intro i j hi hj
      rw [vertexCmp, polyAt_eq hi, polyAt_eq hj]
      try rw [orientation_left_iff]
      try rw [orientation_right_iff]
      simp only [inner_perp, area, Pi.sub_apply]
      constructor <;> intro h <;> linarith
  obtain ⟨m, hm, e, h1, h2⟩ := extremeVertex_eq hc (fun k => by simp only [vert_period]) hcmp
    (fun k => (hl k).1) (fun k => (hl k).2.1) (fun k => (hl k).2.2)
  refine ⟨m, e, hm, vert_mem (by omega) m, fun q hq => ?_, fun w hw => ?_⟩
  · obtain ⟨k, -, rfl⟩ := exists_vert hq
    have := h1 k
    simp only [inner_perp, area] at this
    simp only [LeftOrOn, Pi.add_apply]
    linarith
  · rw [hc.before hw]
    simp only [inner_perp, area] at h2
    simp only [StrictLeft, Pi.add_apply]
    linarith

/-- A triangle and the direction to the right: the first of the two lowest vertices. -/
example : extremeVertex [![(2 : ℚ), 3], ![0, 0], ![4, 0]] (fun _ => ![1, 0]) = some 1 := by
  decide +kernel

/-- A triangle meets the hypotheses. -/
example : ∃ i, extremeVertex [![(2 : ℚ), 3], ![0, 0], ![4, 0]] (fun _ => ![1, 0]) = some i ∧ i < 3 ∧
    TouchesLeft (vert [![(2 : ℚ), 3], ![0, 0], ![4, 0]] i)
      (vert [![(2 : ℚ), 3], ![0, 0], ![4, 0]] i + ![1, 0])
      (vert [![(2 : ℚ), 3], ![0, 0], ![4, 0]] i) [![2, 3], ![0, 0], ![4, 0]] :=
  extremeVertex_correct (strictlyConvex_triangle (by simp [StrictLeft]; norm_num))
    (by intro h; simpa using congrFun h 0)

/-- C69. The assertion of the cyclic iterator fails for fewer than two vertices. -/
theorem extremeVertex_none (direction : Vec F 2 → Vec F 2) :
    extremeVertex poly direction = none ↔ poly.length < 2 := by
  rw [extremeVertex]
  split_ifs with h
  · simp only [true_iff]; omega
  · simp only [reduceCtorEq, false_iff]; omega

/-- A point outside is separated from the polygon by a line. -/
theorem OutsideConvex.separated (hc : StrictlyConvex poly) {p : Vec F 2} (hp : OutsideConvex p poly) :
    ∃ u : Vec F 2, ∀ k, 0 < inner (vert poly k - p) u := by
  obtain ⟨e, he, hr⟩ := hp
  obtain ⟨k, -, rfl⟩ := mem_edges_vert he
  refine ⟨perp (edgeAt poly k), fun m => ?_⟩
  have := hc.leftOrOn' k m
  rw [inner_perp]
  simp only [StrictRight, area, edgeAt, Pi.sub_apply] at *
  linarith

/-- The angle under which a vertex is seen, as a slope. -/
def slope (u p v : Vec F 2) : F := area u (v - p) / inner (v - p) u

theorem slope_lt {u p v w : Vec F 2} (hv : 0 < inner (v - p) u) (hw : 0 < inner (w - p) u) :
    slope u p v < slope u p w ↔ 0 < area (v - p) (w - p) := by
  rw [slope, slope, div_lt_div_iff₀ hv hw, ← sub_pos]
  have hu : 0 < inner u u := by
    refine inner_self_pos ?_
    rintro rfl
    simp [inner] at hv
  have e : area u (w - p) * inner (v - p) u - area u (v - p) * inner (w - p) u =
      area (v - p) (w - p) * inner u u := by
    generalize v - p = A at *
    generalize w - p = B at *
    simp only [area, inner2]; ring
  rw [e]
  exact mul_pos_iff_of_pos_right hu

/-- The angle under which the vertices are seen from outside ascends and descends once. -/
theorem StrictlyConvex.slope_local (hc : StrictlyConvex poly) {u p : Vec F 2}
    (hu : ∀ k, 0 < inner (vert poly k - p) u) (k : Nat) :
    (∀ j, slope u p (vert poly k) ≤ slope u p (vert poly (k + 1)) →
      slope u p (vert poly (k + 2)) ≤ slope u p (vert poly (k + 1)) → k + 2 < j →
      j < k + poly.length → slope u p (vert poly j) < slope u p (vert poly (k + 1))) ∧
    (∀ j, slope u p (vert poly (k + 1)) ≤ slope u p (vert poly k) →
      slope u p (vert poly (k + 1)) ≤ slope u p (vert poly (k + 2)) → k + 2 < j →
      j < k + poly.length → slope u p (vert poly (k + 1)) < slope u p (vert poly j)) ∧
    (slope u p (vert poly k) = slope u p (vert poly (k + 1)) →
      slope u p (vert poly (k + 1)) = slope u p (vert poly (k + 2)) → False) := by
  set D := perp (vert poly (k + 1) - p) with hD
  have hne : D ≠ 0 := by
    refine perp_ne fun h => ?_
    have := hu (k + 1)
    rw [h] at this
    simp [inner] at this
  have tr1 : ∀ j, slope u p (vert poly (k + 1)) < slope u p (vert poly j) ↔
      inner (vert poly (k + 1)) D < inner (vert poly j) D := by
    intro j
    rw [slope_lt (hu _) (hu _), hD, inner_perp, inner_perp]
    simp only [area, Pi.sub_apply]
    constructor <;> intro h <;> linarith
  have tr2 : ∀ j, slope u p (vert poly j) < slope u p (vert poly (k + 1)) ↔
      inner (vert poly j) D < inner (vert poly (k + 1)) D := by
    intro j
    rw [slope_lt (hu _) (hu _), hD, inner_perp, inner_perp]
    simp only [area, Pi.sub_apply]
    constructor <;> intro h <;> linarith
  have le1 : ∀ j, slope u p (vert poly j) ≤ slope u p (vert poly (k + 1)) ↔
      inner (vert poly j) D ≤ inner (vert poly (k + 1)) D := fun j => by
    rw [← not_lt, ← not_lt, tr1]
  have le2 : ∀ j, slope u p (vert poly (k + 1)) ≤ slope u p (vert poly j) ↔
      inner (vert poly (k + 1)) D ≤ inner (vert poly j) D := fun j => by
    rw [← not_lt, ← not_lt, tr2]
  obtain ⟨l1, l2, l3⟩ := hc.linear_local hne k
  refine ⟨fun j h0 h1 => ?_, fun j h0 h1 => ?_, fun h0 h1 => ?_⟩
  · rw [tr2]; exact l1 j ((le1 k).1 h0) ((le1 _).1 h1)
  · rw [tr1]; exact l2 j ((le2 k).1 h0) ((le2 _).1 h1)
  · exact l3 (le_antisymm ((le1 _).1 h0.le) ((le2 _).1 h0.ge))
      (le_antisymm ((le2 _).1 h1.le) ((le1 _).1 h1.ge))

/-- C69. The tangents from a point outside: two vertices are written to consecutive positions; the
line from the point through the first vertex has the polygon on its left, the line through the second
vertex has it on its right. -/
theorem tangentVertices_correct (hc : StrictlyConvex poly) {p : Vec F 2} (hp : OutsideConvex p poly)
    (output : Output Nat) :
    ∃ i j output', tangentVertices p poly output = some output' ∧ Wrote output output' [i, j] ∧
      i < poly.length ∧ j < poly.length ∧ TouchesLeft p (vert poly i) (vert poly i) poly ∧
      TouchesLeft (vert poly j) p (vert poly j) poly := by
  obtain ⟨u, hu⟩ := hp.separated hc
  have hl := fun k => hc.slope_local hu k
  have hcmp : Compares (vertexCmp (fun x => x - p) poly) (fun k => slope u p (vert poly k))
      poly.length := by
    constructor
    all_goals
      intro i j hi hj
      rw [vertexCmp, polyAt_eq hi, polyAt_eq hj]
      try rw [orientation_left_iff]
      try rw [orientation_right_iff]
      rw [slope_lt (hu _) (hu _)]
      simp only [area, Pi.sub_apply]
      constructor <;> intro h <;> linarith
  have hcmp' : Compares (vertexCmp (fun x => p - x) poly) (fun k => -slope u p (vert poly k))
      poly.length := by
    constructor
    all_goals
      intro i j hi hj
      rw [vertexCmp, polyAt_eq hi, polyAt_eq hj]
      try rw [orientation_left_iff]
      try rw [orientation_right_iff]
      rw [neg_lt_neg_iff, slope_lt (hu _) (hu _)]
      simp only [area, Pi.sub_apply]
      constructor <;> intro h <;> linarith
  obtain ⟨i, hi, e1, h1, h2⟩ := extremeVertex_eq hc (fun k => by simp only [vert_period]) hcmp
    (fun k => (hl k).1) (fun k => (hl k).2.1) (fun k => (hl k).2.2)
  obtain ⟨j, hj, e2, h3, h4⟩ := extremeVertex_eq hc (fun k => by simp only [vert_period]) hcmp'
    (fun k j a b c d => neg_lt_neg ((hl k).2.1 j (neg_le_neg_iff.1 a) (neg_le_neg_iff.1 b) c d))
    (fun k j a b c d => neg_lt_neg ((hl k).1 j (neg_le_neg_iff.1 a) (neg_le_neg_iff.1 b) c d))
    (fun k a b => (hl k).2.2 (neg_inj.1 a) (neg_inj.1 b))
  refine ⟨i, j, _, by rw [tangentVertices, e1, e2]; rfl, wrote_two _ _ _, hi, hj,
    ⟨vert_mem (by omega) i, fun q hq => ?_, fun w hw => ?_⟩,
    ⟨vert_mem (by omega) j, fun q hq => ?_, fun w hw => ?_⟩⟩
  · obtain ⟨k, -, rfl⟩ := exists_vert hq
    have := not_lt.2 (h1 k)
    rw [slope_lt (hu _) (hu _), not_lt] at this
    simp only [LeftOrOn, area, Pi.sub_apply] at *
    linarith
  · rw [hc.before hw]
    rw [slope_lt (hu _) (hu _)] at h2
    simp only [StrictLeft, area, Pi.sub_apply] at *
    linarith
  · obtain ⟨k, -, rfl⟩ := exists_vert hq
    have := not_lt.2 (neg_le_neg_iff.1 (h3 k))
    rw [slope_lt (hu _) (hu _), not_lt] at this
    simp only [LeftOrOn, area, Pi.sub_apply] at *
    linarith
  · rw [hc.before hw]
    have := neg_lt_neg_iff.1 h4
    rw [slope_lt (hu _) (hu _)] at this
    simp only [StrictLeft, area, Pi.sub_apply] at *
    linarith

/-- A pentagon seen from below. -/
example : (tangentVertices ![(1 : ℚ), -5] [![0, 0], ![2, 0], ![3, 2], ![1, 4], ![-1, 2]]
    ⟨[], 5⟩) = some ⟨[(5, 2), (6, 4)], 7⟩ := by
  decide +kernel

/-- A triangle and a point outside meet the hypotheses. -/
example (output : Output Nat) :
    ∃ i j output', tangentVertices ![(1 : ℚ), -5] [![0, 0], ![4, 0], ![2, 3]] output = some output' ∧
      Wrote output output' [i, j] ∧ i < 3 ∧ j < 3 ∧
      TouchesLeft ![(1 : ℚ), -5] (vert [![(0 : ℚ), 0], ![4, 0], ![2, 3]] i)
        (vert [![(0 : ℚ), 0], ![4, 0], ![2, 3]] i) [![0, 0], ![4, 0], ![2, 3]] ∧
      TouchesLeft (vert [![(0 : ℚ), 0], ![4, 0], ![2, 3]] j) ![(1 : ℚ), -5]
        (vert [![(0 : ℚ), 0], ![4, 0], ![2, 3]] j) [![0, 0], ![4, 0], ![2, 3]] :=
  tangentVertices_correct (strictlyConvex_triangle (by simp [StrictLeft]))
    ⟨(![0, 0], ![4, 0]), by decide +kernel, by simp [StrictRight]⟩ output

end Actl.Geo
