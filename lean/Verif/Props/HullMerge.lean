import Verif.Props.HullQueries

/-!
# C156: convex hulls of parts, of additional points and of moved points
-/

namespace Actl.Geo

variable {F : Type*} [Field F] [LinearOrder F] [IsStrictOrderedRing F] {points : List (Vec F 2)}

theorem AllCollinear.of_subset {l l' : List (Vec F 2)} (h : ∀ p ∈ l, p ∈ l') (hc : AllCollinear l') : AllCollinear l :=
  fun a ha b hb c hc' => hc a (h a ha) b (h b hb) c (h c hc')

/-- C156. Sets of points that span the same region have the same hull, starting with the same vertex. -/
theorem convexHull_same {points' : List (Vec F 2)} (hnc : ¬ AllCollinear points) (hnc' : ¬ AllCollinear points')
    (h : ∀ p ∈ points, InHull points' p) (h' : ∀ p ∈ points', InHull points p) : convexHull points = convexHull points' := by
  obtain ⟨h1, h2, -, -⟩ := convexHull_partial hnc
  obtain ⟨h1', h2', -, -⟩ := convexHull_partial hnc'
  have e : ∀ p, InHull (convexHull points) p ↔ InHull (convexHull points') p := fun p =>
    (convexHull_contains hnc p).2.trans (Iff.trans ⟨InHull.mono h, InHull.mono h'⟩ (convexHull_contains hnc' p).2.symm)
  have ne : ∀ l : List (Vec F 2), ¬ AllCollinear l → l ≠ [] := by
    rintro l hl rfl
    exact hl fun a ha => by simp at ha
  obtain ⟨a, ha, hmin, eh⟩ := convexHull_head (ne _ hnc)
  obtain ⟨a', ha', hmin', eh'⟩ := convexHull_head (ne _ hnc')
  refine h2.eq_of_head h2' e ?_
  have m : a ∈ convexHull points' := h2.vertex_mem e (List.mem_of_mem_head? eh)
  have m' : a' ∈ convexHull points := h2'.vertex_mem (fun p => (e p).symm) (List.mem_of_mem_head? eh')
  rw [eh, eh', key_inj.1 (le_antisymm (hmin a' (h1 a' m')) (hmin' a (h1' a m)))]

/-- C156. Hulls of parts: the hull of all points can be got from the hulls of the parts. -/
theorem convexHull_append {A B : List (Vec F 2)} (hA : ¬ AllCollinear A) (hB : ¬ AllCollinear B) :
    convexHull (convexHull A ++ convexHull B) = convexHull (A ++ B) := by
  obtain ⟨a1, a2, -, a4⟩ := convexHull_partial hA
  obtain ⟨b1, b2, -, b4⟩ := convexHull_partial hB
  refine convexHull_same (fun h => a2.not_collinear (h.of_subset fun p hp => List.mem_append_left _ hp))
    (fun h => hA (h.of_subset fun p hp => List.mem_append_left _ hp)) (fun p hp => ?_) (fun p hp => ?_)
  · rcases List.mem_append.1 hp with hp | hp
    · exact .vertex (List.mem_append_left _ (a1 p hp))
    · exact .vertex (List.mem_append_right _ (b1 p hp))
  · rcases List.mem_append.1 hp with hp | hp
    · exact (a4 p hp).2.mono fun q hq => .vertex (List.mem_append_left _ hq)
    · exact (b4 p hp).2.mono fun q hq => .vertex (List.mem_append_right _ hq)

/-- C156. Additional points: instead of the points before them their hull will do. -/
theorem convexHull_extend (hnc : ¬ AllCollinear points) (more : List (Vec F 2)) :
    convexHull (convexHull points ++ more) = convexHull (points ++ more) := by
  obtain ⟨a1, a2, -, a4⟩ := convexHull_partial hnc
  refine convexHull_same (fun h => a2.not_collinear (h.of_subset fun p hp => List.mem_append_left _ hp))
    (fun h => hnc (h.of_subset fun p hp => List.mem_append_left _ hp)) (fun p hp => ?_) (fun p hp => ?_)
  · rcases List.mem_append.1 hp with hp | hp
    · exact .vertex (List.mem_append_left _ (a1 p hp))
    · exact .vertex (List.mem_append_right _ hp)
  · rcases List.mem_append.1 hp with hp | hp
    · exact (a4 p hp).2.mono fun q hq => .vertex (List.mem_append_left _ hq)
    · exact .vertex (List.mem_append_right _ hp)

/-- C156. One more point: if it lies between the points the hull stays the same, and only then; otherwise the point is a
vertex of the new hull. -/
theorem convexHull_insert (hnc : ¬ AllCollinear points) (p : Vec F 2) :
    (InHull points p ↔ convexHull (p :: points) = convexHull points) ∧
    (¬ InHull points p → p ∈ convexHull (p :: points)) := by
  have hnc' : ¬ AllCollinear (p :: points) := fun h => hnc (h.of_subset fun q hq => List.mem_cons_of_mem p hq)
  obtain ⟨h1, -, -, h4⟩ := convexHull_partial hnc'
  refine ⟨⟨fun hp => convexHull_same hnc' hnc (fun q hq => ?_) fun q hq => .vertex (List.mem_cons_of_mem p hq), fun he => ?_⟩,
    fun hp => ?_⟩
  · rcases List.mem_cons.1 hq with rfl | hq
    · exact hp
    · exact .vertex hq
  · have := (h4 p List.mem_cons_self).2
    rw [he] at this
    exact (convexHull_contains hnc p).2.1 this
  · by_contra hv
    refine hp ((h4 p List.mem_cons_self).2.mono fun q hq => ?_)
    rcases List.mem_cons.1 (h1 q hq) with rfl | hq'
    · exact absurd hq hv
    · exact .vertex hq'

/-! ### Moved points -/

/-- Scaled by `c` and then moved by `v`. -/
def moved (c : F) (v p : Vec F 2) : Vec F 2 := fun i => c * p i + v i

theorem InHull.moved (c : F) (v : Vec F 2) {l : List (Vec F 2)} {p : Vec F 2} (h : InHull l p) :
    InHull (l.map (moved c v)) (Geo.moved c v p) := by
  induction h with
  | vertex hp => exact .vertex (List.mem_map_of_mem hp)
  | @segment p q t _ _ h0 h1 ih1 ih2 =>
    have := InHull.segment ih1 ih2 h0 h1
    convert this using 1
    funext i
    simp only [Geo.moved]
    ring

theorem InHull.of_moved {c : F} {v : Vec F 2} {l : List (Vec F 2)} {p : Vec F 2} (h : InHull (l.map (Geo.moved c v)) p) :
    ∃ q, InHull l q ∧ Geo.moved c v q = p := by
  induction h with
  | vertex hp =>
    obtain ⟨q, hq, rfl⟩ := List.mem_map.1 hp
    exact ⟨q, .vertex hq, rfl⟩
  | @segment p q t _ _ h0 h1 ih1 ih2 =>
    obtain ⟨x, hx, rfl⟩ := ih1
    obtain ⟨y, hy, rfl⟩ := ih2
    refine ⟨_, .segment hx hy h0 h1, ?_⟩
    funext i
    simp only [Geo.moved]
    ring

theorem StrictlyConvex.moved {c : F} (hc : 0 < c) (v : Vec F 2) {h : List (Vec F 2)} (hh : StrictlyConvex h) :
    StrictlyConvex (h.map (Geo.moved c v)) := by
  refine ⟨by simpa using hh.1, fun a b rest hr p hp => ?_⟩
  obtain ⟨n, hn⟩ := hr
  rw [← List.map_rotate] at hn
  obtain ⟨a', t, e1, rfl, e2⟩ := List.map_eq_cons_iff.1 hn
  obtain ⟨b', rest', rfl, rfl, rfl⟩ := List.map_eq_cons_iff.1 e2
  obtain ⟨q, hq, rfl⟩ := List.mem_map.1 hp
  have := hh.2 a' b' rest' ⟨n, e1⟩ q hq
  unfold StrictLeft at this ⊢
  simp only [Geo.moved]
  have e : (c * b' 0 + v 0 - (c * a' 0 + v 0)) * (c * q 1 + v 1 - (c * a' 1 + v 1)) -
      (c * b' 1 + v 1 - (c * a' 1 + v 1)) * (c * q 0 + v 0 - (c * a' 0 + v 0)) =
      c * c * ((b' 0 - a' 0) * (q 1 - a' 1) - (b' 1 - a' 1) * (q 0 - a' 0)) := by ring
  rw [e]
  exact mul_pos (mul_pos hc hc) this

theorem key_moved {c : F} (hc : 0 < c) (v : Vec F 2) {p q : Vec F 2} (h : key p ≤ key q) :
    key (moved c v p) ≤ key (moved c v q) := by
  rcases h.lt_or_eq with h | h
  · refine le_of_lt (key_lt.2 ?_)
    simp only [moved]
    rcases key_lt.1 h with h | ⟨h, h'⟩
    · exact .inl (by have := mul_lt_mul_of_pos_left h hc; linarith)
    · exact .inr ⟨by rw [h], by have := mul_lt_mul_of_pos_left h' hc; linarith⟩
  · rw [key_inj.1 h]

/-- C156. Scaling and moving the points scales and moves the hull: the same vertices in the same order. -/
theorem convexHull_moved (hnc : ¬ AllCollinear points) {c : F} (hc : 0 < c) (v : Vec F 2) :
    convexHull (points.map (moved c v)) = (convexHull points).map (moved c v) := by
  obtain ⟨h1, h2, -, -⟩ := convexHull_partial hnc
  have h3 := h2.moved hc v
  have hnc' : ¬ AllCollinear (points.map (moved c v)) := fun h => h3.not_collinear (h.of_subset fun p hp => by
    obtain ⟨q, hq, rfl⟩ := List.mem_map.1 hp
    exact List.mem_map_of_mem (h1 q hq))
  refine (convexHull_unique hnc' h3 fun p => ?_).2 fun a ha p hp => ?_
  · rw [inPolygon_iff_inHull h3]
    constructor
    · intro h
      obtain ⟨q, hq, rfl⟩ := h.of_moved
      exact ((convexHull_contains hnc q).2.1 hq).moved c v
    · intro h
      obtain ⟨q, hq, rfl⟩ := h.of_moved
      exact ((convexHull_contains hnc q).2.2 hq).moved c v
  · obtain ⟨b, -, hmin, eb⟩ := convexHull_head (points := points) fun e => hnc (by rw [e]; intro a ha; simp at ha)
    rw [List.head?_map, eb] at ha
    obtain ⟨q, hq, rfl⟩ := List.mem_map.1 hp
    rw [← Option.some.inj ha]
    exact key_moved hc v (hmin q hq)

/-- A linear map with the given matrix, then moved by `v`. -/
def affine (a b c d : F) (v p : Vec F 2) : Vec F 2 := ![a * p 0 + b * p 1 + v 0, c * p 0 + d * p 1 + v 1]

theorem InHull.affine (a b c d : F) (v : Vec F 2) {l : List (Vec F 2)} {p : Vec F 2} (h : InHull l p) :
    InHull (l.map (Geo.affine a b c d v)) (Geo.affine a b c d v p) := by
  induction h with
  | vertex hp => exact .vertex (List.mem_map_of_mem hp)
  | @segment p q t _ _ h0 h1 ih1 ih2 =>
    have := InHull.segment ih1 ih2 h0 h1
    convert this using 1
    funext i
    fin_cases i <;> simp [Geo.affine] <;> ring

theorem InHull.of_affine {a b c d : F} {v : Vec F 2} {l : List (Vec F 2)} {p : Vec F 2}
    (h : InHull (l.map (Geo.affine a b c d v)) p) : ∃ q, InHull l q ∧ Geo.affine a b c d v q = p := by
  induction h with
  | vertex hp =>
    obtain ⟨q, hq, rfl⟩ := List.mem_map.1 hp
    exact ⟨q, .vertex hq, rfl⟩
  | @segment p q t _ _ h0 h1 ih1 ih2 =>
    obtain ⟨x, hx, rfl⟩ := ih1
    obtain ⟨y, hy, rfl⟩ := ih2
    refine ⟨_, .segment hx hy h0 h1, ?_⟩
    funext i
    fin_cases i <;> simp [Geo.affine] <;> ring

theorem StrictlyConvex.affine {a b c d : F} (hd : 0 < a * d - b * c) (v : Vec F 2) {h : List (Vec F 2)} (hh : StrictlyConvex h) :
    StrictlyConvex (h.map (Geo.affine a b c d v)) := by
  refine ⟨by simpa using hh.1, fun x y rest hr p hp => ?_⟩
  obtain ⟨n, hn⟩ := hr
  rw [← List.map_rotate] at hn
  obtain ⟨x', t, e1, rfl, e2⟩ := List.map_eq_cons_iff.1 hn
  obtain ⟨y', rest', rfl, rfl, rfl⟩ := List.map_eq_cons_iff.1 e2
  obtain ⟨q, hq, rfl⟩ := List.mem_map.1 hp
  have := hh.2 x' y' rest' ⟨n, e1⟩ q hq
  unfold StrictLeft at this ⊢
  have e := mul_pos hd this
  simp only [Geo.affine, Matrix.cons_val_zero, Matrix.cons_val_one]
  refine lt_of_lt_of_eq e ?_
  simp
  ring

/-- C156. A turn, a shear or any other affine map that keeps the orientation takes the hull to the hull, up to the vertex it
starts with. -/
theorem convexHull_affine (hnc : ¬ AllCollinear points) {a b c d : F} (hd : 0 < a * d - b * c) (v : Vec F 2) :
    convexHull (points.map (affine a b c d v)) ~r (convexHull points).map (affine a b c d v) := by
  obtain ⟨h1, h2, -, -⟩ := convexHull_partial hnc
  have h3 := h2.affine hd v
  have hnc' : ¬ AllCollinear (points.map (affine a b c d v)) := fun h => h3.not_collinear (h.of_subset fun p hp => by
    obtain ⟨q, hq, rfl⟩ := List.mem_map.1 hp
    exact List.mem_map_of_mem (h1 q hq))
  refine (convexHull_unique hnc' h3 fun p => ?_).1
  rw [inPolygon_iff_inHull h3]
  constructor
  · intro h
    obtain ⟨q, hq, rfl⟩ := h.of_affine
    exact ((convexHull_contains hnc q).2.1 hq).affine a b c d v
  · intro h
    obtain ⟨q, hq, rfl⟩ := h.of_affine
    exact ((convexHull_contains hnc q).2.2 hq).affine a b c d v

/-- A quarter turn of six points. -/
example : convexHull (sixPoints.map (affine 0 (-1) 1 0 0)) ~r (convexHull sixPoints).map (affine 0 (-1) 1 0 0) :=
  convexHull_affine sixPoints_not_collinear (by norm_num) 0

/-- The hull of points on a line is at most one point. -/
theorem convexHull_line (hc : AllCollinear points) : (convexHull points).length ≤ 1 := by
  by_cases h2 : 2 ≤ points.length
  · obtain ⟨z, -, -, ez⟩ := convexHull_collinear h2 hc
    rw [ez]; rfl
  · rw [convexHull_small (by omega)]
    omega

/-- C156. The parts must not lie on lines: the hulls of such parts have one point each, and from these the hull of all points
cannot be got. -/
theorem convexHull_append_fails {A B : List (Vec F 2)} (hA : AllCollinear A) (hB : AllCollinear B)
    (hnc : ¬ AllCollinear (A ++ B)) : convexHull (convexHull A ++ convexHull B) ≠ convexHull (A ++ B) := by
  intro h
  have ha := convexHull_line hA
  have hb := convexHull_line hB
  have h3 := (convexHull_partial hnc).2.1.1
  rw [← h] at h3
  have hl : (convexHull A ++ convexHull B).length ≤ 2 := by rw [List.length_append]; omega
  generalize convexHull A ++ convexHull B = l at hl h3
  have hc : AllCollinear l := by
    match l, hl with
    | [], _ => intro a ha; simp at ha
    | [x], _ =>
      intro a ha b hb c hc
      rw [List.mem_singleton.1 ha, List.mem_singleton.1 hb]
      ring
    | [x, y], _ =>
      intro a ha b hb c hc
      simp only [List.mem_cons, List.not_mem_nil, or_false] at ha hb hc
      rcases ha with rfl | rfl <;> rcases hb with rfl | rfl <;> rcases hc with rfl | rfl <;> ring
  have := convexHull_line hc
  omega

/-- The hypotheses hold of six points, twice, with the second set scaled and moved. -/
example : convexHull (convexHull sixPoints ++ convexHull (sixPoints.map (moved 2 ![1, 1]))) =
    convexHull (sixPoints ++ sixPoints.map (moved 2 ![1, 1])) ∧
    convexHull (sixPoints.map (moved 2 ![1, 1])) = (convexHull sixPoints).map (moved 2 ![1, 1]) ∧
    convexHull (![2, 2] :: sixPoints) = convexHull sixPoints := by
  refine ⟨convexHull_append sixPoints_not_collinear fun h => ?_,
    convexHull_moved sixPoints_not_collinear (by norm_num) _, (convexHull_insert sixPoints_not_collinear _).1.1 ?_⟩
  · have := h (moved 2 ![1, 1] ![0, 0]) (List.mem_map_of_mem (by simp [sixPoints])) (moved 2 ![1, 1] ![4, 0])
      (List.mem_map_of_mem (by simp [sixPoints])) (moved 2 ![1, 1] ![2, 3]) (List.mem_map_of_mem (by simp [sixPoints]))
    norm_num [moved] at this
  · have := InHull.segment (h := sixPoints) (p := ![2, 1]) (q := ![2, 3]) (t := 1 / 2) (.vertex (by simp [sixPoints]))
      (.vertex (by simp [sixPoints])) (by norm_num) (by norm_num)
    convert this using 1
    funext i
    fin_cases i <;> norm_num

/-- The two sides of a square. -/
example : convexHull (convexHull [![0, 0], ![1, 0]] ++ convexHull [![0, 1], ![1, 1]]) ≠
    convexHull ([![0, 0], ![1, 0]] ++ [![0, 1], (![1, 1] : Vec ℚ 2)]) := by
  refine convexHull_append_fails (fun a ha b hb c hc => ?_) (fun a ha b hb c hc => ?_) fun h => ?_
  · simp only [List.mem_cons, List.not_mem_nil, or_false] at ha hb hc
    rcases ha with rfl | rfl <;> rcases hb with rfl | rfl <;> rcases hc with rfl | rfl <;> norm_num
  · simp only [List.mem_cons, List.not_mem_nil, or_false] at ha hb hc
    rcases ha with rfl | rfl <;> rcases hb with rfl | rfl <;> rcases hc with rfl | rfl <;> norm_num
  · have := h ![0, 0] (by simp) ![1, 0] (by simp) ![0, 1] (by simp)
    norm_num at this

end Actl.Geo
