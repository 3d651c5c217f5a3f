import Verif.Model.IntLinePolygon
import Verif.Lemmas.FloatLinePolygon
import Verif.Props.IntLines

/-! Lemmas for C134. -/

namespace Actl.Geo

variable {F : Type*} [Field F] [LinearOrder F] [IsStrictOrderedRing F]
variable {w W : Nat} {D : Int} {o a b c d p : Vec Int 2} {poly : List (Vec Int 2)}
variable {ratio : Int → Int → F} {R : F → F → Prop}

theorem degenerate_exact (v : Vec Int 2) : degenerate (exact v : Vec F 2) = degenerate v := by
  have z : ∀ x : Int, ((x : F) = 0) = (x = 0) := fun x => propext Int.cast_eq_zero
  simp only [degenerate, exact, z]

theorem negI_bounded {v : Vec Int 2} (hv : Bounded D v) (hw : D < 2 ^ (w - 1)) : negI w v = some (-v) := by
  obtain ⟨a1, a2⟩ := hv 0
  obtain ⟨b1, b2⟩ := hv 1
  rw [negI, fitInt_some (by linarith) (by linarith), fitInt_some (by linarith) (by linarith)]
  exact congrArg some (vec2_ext rfl rfl)

theorem orientationI_bounded {v x : Vec Int 2} (hv : Bounded D v) (hx : Bounded D x) (hW : 2 * (D * D) < 2 ^ (W - 1)) :
    orientationI W v x = some (orientation v x) := by
  rw [orientationI, (areaI_bounded hx hv hW).1]
  rfl

theorem orient_box (hw : D < 2 ^ (w - 1)) (hW : 2 * (D * D) < 2 ^ (W - 1)) (ha : InBox o D a) (hb : InBox o D b)
    (hp : ∀ v ∈ poly, InBox o D v) (k : LineKind) {i : Nat} (hi : i < poly.length) :
    vertexOrientI w W (Line.through a b k) poly i =
      some (vertexOrient (Line.through (exact a) (exact b) k : Line F 2) (poly.map exact) i) := by
  obtain ⟨v, hv⟩ : ∃ v, poly[i]? = some v := ⟨_, List.getElem?_eq_getElem hi⟩
  have hV := hp _ (List.mem_of_getElem? hv)
  have e1 : subI w v (Line.through a b k).start = some (v - a) := sub_box hV ha hw
  have e2 : orientationI W (v - a) (Line.through a b k).vector = some (orientation (v - a) (b - a)) :=
    orientationI_bounded (bounded_diff hV ha) (bounded_diff hb ha) hW
  have e3 : vertexOrient (Line.through (exact a) (exact b) k : Line F 2) (poly.map exact) i = orientation (v - a) (b - a) := by
    rw [← orientation_exact (F := F), vertexOrient, vert_exact hv, exact_sub, exact_sub]
    rfl
  rw [vertexOrientI, hv, Option.bind_some, orientationLineI, e1, Option.bind_some, e2, e3]

theorem extremeI_box (hw : D < 2 ^ (w - 1)) (hW : 2 * (D * D) < 2 ^ (W - 1)) (ha : InBox o D a) (hb : InBox o D b)
    (hp : ∀ v ∈ poly, InBox o D v) :
    extremeVertexI w W poly (fun _ => some (b - a)) = extremeVertex (poly.map exact) (fun _ => (exact b - exact a : Vec F 2)) := by
  refine extremeVertex_exact fun i j hi hj => ?_
  obtain ⟨v, hv⟩ : ∃ v, poly[i]? = some v := ⟨_, List.getElem?_eq_getElem hi⟩
  obtain ⟨x, hx⟩ : ∃ v, poly[j]? = some v := ⟨_, List.getElem?_eq_getElem hj⟩
  have hV := hp _ (List.mem_of_getElem? hv)
  have hX := hp _ (List.mem_of_getElem? hx)
  rw [vertexCmpI, hv, hx]
  simp only [Option.bind_some]
  rw [sub_box hX hV hw, Option.bind_some, vertexCmp, vert_exact hv, vert_exact hx, ← exact_sub, ← exact_sub, orientation_exact]
  exact orientationI_bounded (bounded_diff hb ha) (bounded_diff hX hV) hW

theorem scalarI_box (hR : ∀ x y : Int, y ≠ 0 → R (x / y) (ratio x y)) (hw : D < 2 ^ (w - 1)) (hW : 2 * (D * D) < 2 ^ (W - 1))
    (ha : InBox o D a) (hb : InBox o D b) (hc : InBox o D c) (hd : InBox o D d) (k m : LineKind) :
    ∃ out, intersectScalarI ratio w W (Line.through a b k) (Line.through c d m) = some out ∧
      List.Forall₂ R (intersectScalar (Line.through (exact a) (exact b) k : Line F 2) (Line.through (exact c) (exact d) m)) out := by
  obtain ⟨gT, bT⟩ := areaI_bounded (bounded_diff hd hc) (bounded_diff hb ha) hW
  obtain ⟨gL, bL⟩ := areaI_bounded (bounded_diff ha hc) (bounded_diff hd hc) hW
  obtain ⟨gR, bR⟩ := areaI_bounded (bounded_diff ha hc) (bounded_diff hb ha) hW
  have s1 : (Line.through a b k).start = a := rfl
  have s2 : (Line.through a b k).vector = b - a := rfl
  have s3 : (Line.through c d m).start = c := rfl
  have s4 : (Line.through c d m).vector = d - c := rfl
  have s5 : (Line.through (exact a) (exact b) k : Line F 2).start = exact a := rfl
  have s6 : (Line.through (exact a) (exact b) k : Line F 2).vector = exact (b - a) := (exact_sub b a).symm
  have s7 : (Line.through (exact c) (exact d) m : Line F 2).start = exact c := rfl
  have s8 : (Line.through (exact c) (exact d) m : Line F 2).vector = exact (d - c) := (exact_sub d c).symm
  have k1 : (Line.through a b k).kind = k := rfl
  have k2 : (Line.through c d m).kind = m := rfl
  have hX : crossTestI W k m (area (d - c) (b - a)) (area (a - c) (d - c)) (area (a - c) (b - a)) =
      some (crossTest (Line.through (exact a) (exact b) k : Line F 2) (Line.through (exact c) (exact d) m)
        ((area (d - c) (b - a) : Int) : F) ((area (a - c) (d - c) : Int) : F) ((area (a - c) (b - a) : Int) : F)) :=
    crossTestI_exact (W := W) hW bT bL bR (Line.through (exact a) (exact b) k : Line F 2) (Line.through (exact c) (exact d) m)
  by_cases hp : area (d - c) (b - a) = 0
  · refine ⟨[], ?_, ?_⟩
    · simp only [intersectScalarI, s2, s4, gT, Option.bind_some, if_pos hp]
    · have hpF : ((area (d - c) (b - a) : Int) : F) = 0 := Int.cast_eq_zero.2 hp
      simp only [intersectScalar, s6, s8, area_exact, if_pos hpF, List.Forall₂.nil]
  · have hpF : ¬ ((area (d - c) (b - a) : Int) : F) = 0 := Int.cast_ne_zero.2 hp
    simp only [intersectScalarI, intersectScalar, s1, s2, s3, s4, s5, s6, s7, s8, k1, k2, gT, gL, gR, sub_box ha hc hw, Option.bind_some,
      if_neg hp, hX, Option.map_some, ← exact_sub, area_exact, if_neg hpF]
    cases crossTest (Line.through (exact a) (exact b) k : Line F 2) (Line.through (exact c) (exact d) m)
          ((area (d - c) (b - a) : Int) : F) ((area (a - c) (d - c) : Int) : F) ((area (a - c) (b - a) : Int) : F)
    · exact ⟨[], rfl, List.Forall₂.nil⟩
    · exact ⟨_, rfl, List.Forall₂.cons (hR _ _ hp) List.Forall₂.nil⟩

theorem edgeI_box (hR : ∀ x y : Int, y ≠ 0 → R (x / y) (ratio x y)) (hw : D < 2 ^ (w - 1)) (hW : 2 * (D * D) < 2 ^ (W - 1))
    (ha : InBox o D a) (hb : InBox o D b) (hp : ∀ v ∈ poly, InBox o D v) (k : LineKind) {i j : Nat} (hi : i < poly.length)
    (hj : j < poly.length) :
    ∃ out, intersectEdgeI ratio w W (Line.through a b k) poly i j = some out ∧
      List.Forall₂ R (intersectScalar (Line.through (exact a) (exact b) k : Line F 2)
        (Line.through (polyAt (poly.map exact) i) (polyAt (poly.map exact) j) .free)) out := by
  obtain ⟨v, hv⟩ : ∃ v, poly[i]? = some v := ⟨_, List.getElem?_eq_getElem hi⟩
  obtain ⟨x, hx⟩ : ∃ v, poly[j]? = some v := ⟨_, List.getElem?_eq_getElem hj⟩
  have hV := hp _ (List.mem_of_getElem? hv)
  have hX := hp _ (List.mem_of_getElem? hx)
  rw [intersectEdgeI, hv, hx, vert_exact hv, vert_exact hx]
  simp only [Option.bind_some]
  rw [throughI_box hw hV hX]
  exact scalarI_box hR hw hW ha hb hV hX k .free

theorem between_box (hw : D < 2 ^ (w - 1)) (hW : 2 * (D * D) < 2 ^ (W - 1)) (ha : InBox o D a) (hb : InBox o D b)
    (hp : InBox o D p) (fb : FitsType w b) (k : LineKind) :
    betweenEndpointsI w W p (Line.through a b k) =
        some (betweenEndpoints (exact p : Vec F 2) (Line.through (exact a) (exact b) k)) := by
  have hv : (exact (b - a) : Vec F 2) = exact b - exact a := exact_sub b a
  have hd : (exact (p - a) : Vec F 2) = exact p - exact a := exact_sub p a
  have hstop := stopI_through (a := a) fb k
  unfold betweenEndpointsI betweenEndpoints
  rw [hstop, stop_through]
  simp only [Line.through]
  rw [sub_box hp ha hw, sub_box ha hp hw]
  simp only [Option.bind_some, isEqual_exact]
  rw [sub_box hp hb hw, ← hv, ← hd]
  simp only [Option.bind_some]
  rw [dotI_bounded (bounded_diff hp ha) (bounded_diff hb ha) hW, dotI_bounded (bounded_diff ha hp) (bounded_diff hp hb) hW,
    ← exact_sub, ← exact_sub, dot_exact, dot_exact, endpointTest_exact_zero, endpointTest_exact_zero]
  simp only [Option.map_some]
  split
  · rfl
  · split <;> rfl

theorem projectI_box (hR : ∀ x y : Int, y ≠ 0 → R (x / y) (ratio x y)) (hw : D < 2 ^ (w - 1)) (hW : 2 * (D * D) < 2 ^ (W - 1))
    (ha : InBox o D a) (hb : InBox o D b) (hp : InBox o D p) (hab : a ≠ b) (k : LineKind) :
    ∃ t, projectScalarI ratio w W p (Line.through a b k) = some t ∧
      R (projectScalar (exact p : Vec F 2) (Line.through (exact a) (exact b) k)) t := by
  have e1 : subI w p (Line.through a b k).start = some (p - a) := sub_box hp ha hw
  have e2 : dotI W (p - a) (Line.through a b k).vector = some _ := dotI_bounded (bounded_diff hp ha) (bounded_diff hb ha) hW
  have e3 : dotI W (Line.through a b k).vector (Line.through a b k).vector = some _ :=
    dotI_bounded (bounded_diff hb ha) (bounded_diff hb ha) hW
  rw [projectScalarI, e1, Option.bind_some, e2, Option.bind_some, e3]
  refine ⟨_, rfl, ?_⟩
  have e4 : projectScalar (exact p : Vec F 2) (Line.through (exact a) (exact b) k) =
      (((p - a) 0 * (b - a) 0 + (p - a) 1 * (b - a) 1 : Int) : F) / (((b - a) 0 * (b - a) 0 + (b - a) 1 * (b - a) 1 : Int) : F) := by
    rw [← dot_exact, ← dot_exact, exact_sub, exact_sub]
    rfl
  rw [e4]
  refine hR _ _ fun h => hab ?_
  have h0 := mul_self_nonneg ((b - a) 0)
  have h1 := mul_self_nonneg ((b - a) 1)
  have z0 : (b - a) 0 = 0 := mul_self_eq_zero.1 (by linarith)
  have z1 : (b - a) 1 = 0 := mul_self_eq_zero.1 (by linarith)
  exact vec2_ext (sub_eq_zero.1 z0).symm (sub_eq_zero.1 z1).symm

/-! ### The chains -/

theorem chainLoopI_some (orient : Nat → Option Turn) (orient' : Nat → Turn) (n : Nat) (hn : 0 < n) (t : Turn)
    (ho : ∀ i < n, orient i = some (orient' i)) : ∀ (k first last : Nat),
      chainLoopI orient n t k first last = chainLoopT orient' n t k first last
  | 0, _, _ => rfl
  | k + 1, first, last => by
    rw [chainLoopI, chainLoopT]
    split_ifs with h
    · rfl
    · simp only
      rw [ho _ (Nat.mod_lt _ hn), Option.bind_some, chainLoopI_some orient orient' n hn t ho k,
        chainLoopI_some orient orient' n hn t ho k]

theorem convexI_box (hR : ∀ x y : Int, y ≠ 0 → R (x / y) (ratio x y)) (hw : D < 2 ^ (w - 1)) (hW : 2 * (D * D) < 2 ^ (W - 1))
    (ha : InBox o D a) (hb : InBox o D b) (hp : ∀ v ∈ poly, InBox o D v) (hab : a ≠ b)
    (hc : StrictlyConvex (poly.map (exact : Vec Int 2 → Vec F 2))) (k : LineKind) :
    ∃ ts out, intersectConvex (Line.through (exact a) (exact b) k : Line F 2) (poly.map exact) = some ts ∧
      intersectConvexI ratio w W (Line.through a b k) poly = some out ∧ List.Forall₂ R ts out := by
  have hab' : (exact a : Vec F 2) ≠ exact b := fun h => hab (exact_injective h)
  have hv : (Line.through (exact a) (exact b) k : Line F 2).vector ≠ 0 := sub_ne_zero.2 hab'.symm
  have hdeg : ¬ degenerate (Line.through (exact a) (exact b) k : Line F 2).vector = true := by rw [degenerate_iff]; exact hv
  have hdeg' : ¬ degenerate (Line.through a b k).vector = true := by
    rw [← degenerate_exact (F := F)]
    rwa [show (exact (Line.through a b k).vector : Vec F 2) = (Line.through (exact a) (exact b) k : Line F 2).vector from exact_sub b a]
  have e1 : extremeVertexI w W poly (fun _ => some (Line.through a b k).vector) =
      extremeVertex (poly.map exact) (fun _ => (Line.through (exact a) (exact b) k : Line F 2).vector) := extremeI_box hw hW ha hb hp
  have e2 : extremeVertexI w W poly (fun _ => negI w (Line.through a b k).vector) =
      extremeVertex (poly.map exact) (fun _ => -(Line.through (exact a) (exact b) k : Line F 2).vector) := by
    have h1 : negI w (Line.through a b k).vector = some (a - b) := by
      have := negI_bounded (w := w) (bounded_diff hb ha) hw
      rwa [neg_sub] at this
    have h2 : -(Line.through (exact a) (exact b) k : Line F 2).vector = exact a - exact b := neg_sub _ _
    rw [h1, h2]
    exact extremeI_box hw hW hb ha hp
  have ho := fun i hi => orient_box (F := F) hw hW ha hb hp k (i := i) hi
  obtain ⟨m, em, -⟩ := extremeVertex_correct hc hv
  obtain ⟨M, eM, -⟩ := extremeVertex_correct hc (neg_ne_zero.2 hv)
  obtain ⟨hm, hM, hne⟩ := extreme_ne hc hv em eM
  rw [List.length_map] at hm hM
  have chain : ∀ {first last : Nat} (t : Turn), first < poly.length → last < poly.length → first ≠ last →
      ∃ r out, chainLoopI (vertexOrientI w W (Line.through a b k) poly) poly.length t poly.length first last = some r ∧
        intersectEdgeI ratio w W (Line.through a b k) poly r.1 r.2 = some out ∧
        List.Forall₂ R (intersectChain (Line.through (exact a) (exact b) k : Line F 2) (poly.map exact) first last t) out := by
    intro first last t hf hl hfl
    obtain ⟨i, hi, c1, c2⟩ := chainLoopT_ends _ (vertexOrient (Line.through (exact a) (exact b) k : Line F 2) (poly.map exact))
      poly.length t (fun _ _ => rfl) hf hl hfl
    obtain ⟨out, o1, o2⟩ := edgeI_box hR hw hW ha hb hp k hi (Nat.mod_lt (i + 1) (by omega : 0 < poly.length))
    refine ⟨_, out, by rw [chainLoopI_some _ _ _ (by omega) t ho, c1], o1, ?_⟩
    rw [intersectChain, List.length_map, c2]
    exact o2
  unfold intersectConvexI intersectConvex
  rw [if_neg hdeg, if_neg hdeg', e1, e2, em, eM]
  simp only [Option.bind_some]
  rw [ho m hm, ho M hM]
  simp only [Option.bind_some]
  split_ifs with hout
  · exact ⟨_, _, rfl, rfl, List.Forall₂.nil⟩
  · obtain ⟨r, out, c1, c2, c3⟩ := chain (vertexOrient (Line.through (exact a) (exact b) k : Line F 2) (poly.map exact) M) hM hm hne
    obtain ⟨r', out', d1, d2, d3⟩ := chain (vertexOrient (Line.through (exact a) (exact b) k : Line F 2) (poly.map exact) m) hm hM
      hne.symm
    refine ⟨_, out ++ out', rfl, ?_, List.rel_append c3 d3⟩
    rw [c1, d1]
    simp only [Option.bind_some]
    rw [c2, d2]
    rfl

/-! ### Simple polygons -/

theorem edgeSgnI_box (hw : D < 2 ^ (w - 1)) (hW : 2 * (D * D) < 2 ^ (W - 1)) (ha : InBox o D a) (hb : InBox o D b)
    (hp : ∀ v ∈ poly, InBox o D v) (k : LineKind) {i j : Nat} (hi : i < poly.length) (hj : j < poly.length) :
    edgeSgnI w W (Line.through a b k) poly i j = some (Turn.ofSign (dot
      (polyAt (poly.map exact) i - polyAt (poly.map exact) j) (Line.through (exact a) (exact b) k : Line F 2).vector)) := by
  obtain ⟨v, hv⟩ : ∃ v, poly[i]? = some v := ⟨_, List.getElem?_eq_getElem hi⟩
  obtain ⟨x, hx⟩ : ∃ v, poly[j]? = some v := ⟨_, List.getElem?_eq_getElem hj⟩
  have hV := hp _ (List.mem_of_getElem? hv)
  have hX := hp _ (List.mem_of_getElem? hx)
  have e2 : dotI W (v - x) (Line.through a b k).vector = some _ := dotI_bounded (bounded_diff hV hX) (bounded_diff hb ha) hW
  rw [edgeSgnI, hv, hx]
  simp only [Option.bind_some]
  rw [sub_box hV hX hw, Option.bind_some, e2, vert_exact hv, vert_exact hx,
    show (Line.through (exact a) (exact b) k : Line F 2).vector = exact (b - a) from (exact_sub b a).symm, ← exact_sub, dot_exact, ofSign_cast]
  rfl

theorem simpleStepI_box (hR : ∀ x y : Int, y ≠ 0 → R (x / y) (ratio x y)) (hw : D < 2 ^ (w - 1)) (hW : 2 * (D * D) < 2 ^ (W - 1))
    (ha : InBox o D a) (hb : InBox o D b) (hp : ∀ v ∈ poly, InBox o D v) (hab : a ≠ b) (fb : FitsType w b) (k : LineKind) {i : Nat}
    (hi : i < poly.length) (s0 s1 s2 : Turn) :
    ∃ out, simpleStepI ratio w W (Line.through a b k) poly i s0 s1 s2 = some out ∧
      List.Forall₂ R (simpleStep (Line.through (exact a) (exact b) k : Line F 2) (poly.map exact) i s0 s1 s2) out := by
  obtain ⟨v, hv⟩ : ∃ v, poly[i]? = some v := ⟨_, List.getElem?_eq_getElem hi⟩
  have hV := hp _ (List.mem_of_getElem? hv)
  unfold simpleStepI simpleStep
  rw [List.length_map, edgeSgnI_box (F := F) hw hW ha hb hp k hi (prevAt_lt hi), edgeSgnI_box (F := F) hw hW ha hb hp k (nextAt_lt hi) hi,
    vert_exact hv, hv]
  simp only [Option.map_some, Option.bind_some, ← apply_ite (some : Bool → Option Bool)]
  rw [between_box (F := F) hw hW ha hb hV fb k]
  simp only [Option.bind_some]
  obtain ⟨t, t1, t2⟩ := projectI_box hR hw hW ha hb hV hab k
  obtain ⟨out, o1, o2⟩ := edgeI_box hR hw hW ha hb hp k hi (nextAt_lt hi)
  rw [vert_exact hv] at o2
  rw [t1, o1]
  simp only [Option.map_some]
  split
  · generalize (if s0 = Turn.collinear then _ else _ : Bool) = ok
    cases ok
    · exact ⟨[], rfl, List.Forall₂.nil⟩
    · cases betweenEndpoints (exact v : Vec F 2) (Line.through (exact a) (exact b) k)
      · exact ⟨[], rfl, List.Forall₂.nil⟩
      · exact ⟨[t], rfl, List.Forall₂.cons t2 List.Forall₂.nil⟩
  · split
    · exact ⟨out, rfl, o2⟩
    · exact ⟨[], rfl, List.Forall₂.nil⟩

theorem simpleLoopI_box (hR : ∀ x y : Int, y ≠ 0 → R (x / y) (ratio x y)) (hw : D < 2 ^ (w - 1)) (hW : 2 * (D * D) < 2 ^ (W - 1))
    (ha : InBox o D a) (hb : InBox o D b) (hp : ∀ v ∈ poly, InBox o D v) (hab : a ≠ b) (fb : FitsType w b) (k : LineKind) :
    ∀ (n i : Nat) (s0 s1 : Turn), i < poly.length →
      ∃ out, simpleLoopI ratio w W (Line.through a b k) poly n i s0 s1 = some out ∧
        List.Forall₂ R (simpleLoop (Line.through (exact a) (exact b) k : Line F 2) (poly.map exact) n i s0 s1) out
  | 0, _, _, _, _ => ⟨[], rfl, List.Forall₂.nil⟩
  | n + 1, i, s0, s1, hi => by
    rw [simpleLoopI, simpleLoop, List.length_map, orient_box (F := F) hw hW ha hb hp k (nextAt_lt hi)]
    simp only [Option.bind_some]
    obtain ⟨out, o1, o2⟩ := simpleStepI_box hR hw hW ha hb hp hab fb k hi s0 s1
      (vertexOrient (Line.through (exact a) (exact b) k : Line F 2) (poly.map exact) (nextAt poly.length i))
    obtain ⟨out', p1, p2⟩ := simpleLoopI_box hR hw hW ha hb hp hab fb k n (nextAt poly.length i) s1
      (vertexOrient (Line.through (exact a) (exact b) k : Line F 2) (poly.map exact) (nextAt poly.length i)) (nextAt_lt hi)
    rw [o1, Option.bind_some, p1]
    exact ⟨_, rfl, List.rel_append o2 p2⟩

theorem simpleI_box (hR : ∀ x y : Int, y ≠ 0 → R (x / y) (ratio x y)) (hw : D < 2 ^ (w - 1)) (hW : 2 * (D * D) < 2 ^ (W - 1))
    (ha : InBox o D a) (hb : InBox o D b) (hp : ∀ v ∈ poly, InBox o D v) (hab : a ≠ b) (fb : FitsType w b) (h2 : 2 ≤ poly.length)
    (k : LineKind) :
    ∃ ts out, intersectSimple (Line.through (exact a) (exact b) k : Line F 2) (poly.map exact) = some ts ∧
      intersectSimpleI ratio w W (Line.through a b k) poly = some out ∧ List.Forall₂ R ts out := by
  have hab' : (exact a : Vec F 2) ≠ exact b := fun h => hab (exact_injective h)
  have hv : (Line.through (exact a) (exact b) k : Line F 2).vector ≠ 0 := sub_ne_zero.2 hab'.symm
  have hdeg : ¬ degenerate (Line.through (exact a) (exact b) k : Line F 2).vector = true := by rw [degenerate_iff]; exact hv
  have hdeg' : ¬ degenerate (Line.through a b k).vector = true := by
    rw [← degenerate_exact (F := F)]
    rwa [show (exact (Line.through a b k).vector : Vec F 2) = (Line.through (exact a) (exact b) k : Line F 2).vector from exact_sub b a]
  have h0 : 0 < poly.length := by omega
  unfold intersectSimpleI intersectSimple
  rw [List.length_map, if_neg hdeg, if_neg hdeg', if_neg (by omega), if_neg (by omega),
    orient_box (F := F) hw hW ha hb hp k (prevAt_lt h0), Option.bind_some, orient_box (F := F) hw hW ha hb hp k h0, Option.bind_some]
  obtain ⟨out, o1, o2⟩ := simpleLoopI_box hR hw hW ha hb hp hab fb k poly.length 0
    (vertexOrient (Line.through (exact a) (exact b) k : Line F 2) (poly.map exact) (prevAt poly.length 0))
    (vertexOrient (Line.through (exact a) (exact b) k : Line F 2) (poly.map exact) 0) h0
  exact ⟨_, out, rfl, o1, o2⟩

end Actl.Geo
