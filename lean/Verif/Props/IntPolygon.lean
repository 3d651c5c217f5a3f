import Verif.Model.IntPolygon
import Verif.Props.IntGeometry
import Verif.Props.MonotoneSimple
import Verif.Props.ToMonotone
import Verif.Props.Antipodal
import Verif.Props.Extreme
import Verif.Props.SortAngle

/-!
# C115: searches in polygons with integer coordinates

Polygon and point in a box of side `D`, `D` in the type of the coordinates and `D * D` in the type of the
products: the searches in monotone polygons, the tangents from a point and the antipodal vertices overflow
nowhere and give what exact arithmetic gives.  The bound is exact for each of them.  Sorting by angle needs
`2 * M * M` for coordinates up to `M`.
-/

namespace Actl.Geo

variable {F : Type*} [Field F] [LinearOrder F] [IsStrictOrderedRing F]

theorem exact_sub (p q : Vec Int 2) : (exact (p - q) : Vec F 2) = exact p - exact q := by
  funext i; simp [exact]

theorem orientation_exact (l r : Vec Int 2) :
    orientation (exact l : Vec F 2) (exact r) = orientation l r := by
  unfold orientation
  rw [← ofSign_cast (F := F)]
  congr 1
  simp only [area, exact]
  push_cast
  ring

theorem area_exact (l r : Vec Int 2) : area (exact l : Vec F 2) (exact r) = (area l r : Int) := by
  simp only [area, exact]
  push_cast
  ring

/-! ### Monotone polygons -/

theorem lowerBound_exact (l : List (Vec Int 2)) (p : Vec Int 2) :
    lowerBound (l.map (exact : Vec Int 2 → Vec F 2)) (exact p) = lowerBound l p := by
  unfold lowerBound
  rw [List.takeWhile_map, List.length_map]
  congr 2
  funext v
  exact less_exact v p

theorem lowerEdge_exact (poly : List (Vec Int 2)) (right : Nat) (p : Vec Int 2) :
    lowerEdge (poly.map (exact : Vec Int 2 → Vec F 2)) right (exact p) =
      (lowerEdge poly right p).map fun e => (exact e.1, exact e.2) := by
  unfold lowerEdge
  by_cases h : right = 0
  · rw [if_pos h, if_pos h]; rfl
  rw [if_neg h, if_neg h, ← List.map_drop, ← List.map_take, lowerBound_exact]
  simp only [List.getElem?_map]
  generalize poly[1 + lowerBound (List.take (right - 1) (List.drop 1 poly)) p - 1]? = u
  generalize poly[1 + lowerBound (List.take (right - 1) (List.drop 1 poly)) p]? = v
  cases u <;> cases v <;> rfl

theorem upperEdge_exact (poly : List (Vec Int 2)) (right : Nat) (p : Vec Int 2) :
    upperEdge (poly.map (exact : Vec Int 2 → Vec F 2)) right (exact p) =
      (upperEdge poly right p).map fun e => (exact e.1, exact e.2) := by
  unfold upperEdge
  rw [← List.map_reverse, ← List.map_take, lowerBound_exact, List.length_map]
  simp only [List.getElem?_map]
  generalize lowerBound (List.take (poly.length - right - 1) poly.reverse) p = k
  generalize poly.reverse[k]? = u
  by_cases h : k = 0
  · simp only [h, if_true]
    generalize poly[0]? = v
    cases u <;> cases v <;> rfl
  · simp only [h, if_false]
    generalize poly.reverse[k - 1]? = v
    cases u <;> cases v <;> rfl

theorem lowerEdge_mem {poly : List (Vec Int 2)} {right : Nat} {p : Vec Int 2} {e : Vec Int 2 × Vec Int 2}
    (h : lowerEdge poly right p = some e) : e.1 ∈ poly ∧ e.2 ∈ poly := by
  unfold lowerEdge at h
  split at h
  · cases h
  · simp only at h
    split at h
    · rename_i h1 h2
      cases h
      exact ⟨List.mem_of_getElem? h1, List.mem_of_getElem? h2⟩
    · cases h

theorem upperEdge_mem {poly : List (Vec Int 2)} {right : Nat} {p : Vec Int 2} {e : Vec Int 2 × Vec Int 2}
    (h : upperEdge poly right p = some e) : e.1 ∈ poly ∧ e.2 ∈ poly := by
  unfold upperEdge at h
  simp only at h
  split at h
  · rename_i h1 h2
    cases h
    refine ⟨List.mem_reverse.1 (List.mem_of_getElem? h1), ?_⟩
    split at h2
    · exact List.mem_of_getElem? h2
    · exact List.mem_reverse.1 (List.mem_of_getElem? h2)
  · cases h

section box

variable {w W : Nat} {c : Vec Int 2} {D : Int}

/-- C115. Point and polygon in a box of side `D`: the search in a monotone polygon overflows nowhere and
gives the exact result. -/
theorem withinMonotone_box (hw : D < 2 ^ (w - 1)) (hW : D * D < 2 ^ (W - 1)) {p : Vec Int 2}
    {poly : List (Vec Int 2)} (hp : InBox c D p) (h : ∀ v ∈ poly, InBox c D v) (right : Nat) :
    withinMonotoneI w W p poly right = withinMonotone (exact p : Vec F 2) (poly.map exact) right := by
  match poly, h with
  | [], _ => rfl
  | [v], _ => simp only [withinMonotoneI, List.map_cons, List.map_nil, withinMonotone, isEqual_exact]
  | v :: v' :: vs, h =>
    have e : ∀ l : List (Vec F 2), l = (v :: v' :: vs).map exact →
        withinMonotone (exact p : Vec F 2) l right = match l[0]?, l[right]? with
        | some a, some m =>
          if less (exact p) a || less m (exact p) then some .outside
          else
            match lowerEdge l right (exact p) with
            | none => none
            | some (x, y) =>
              if orientation3 (exact p) y x = .right then
                match upperEdge l right (exact p) with
                | none => none
                | some (x', y') => some (toInclusion (orientation3 (exact p) y' x'))
              else some (toInclusion (orientation3 (exact p) y x))
        | _, _ => none := by
      rintro l rfl; rfl
    rw [e _ rfl, withinMonotoneI, List.getElem?_map, List.getElem?_map, lowerEdge_exact, upperEdge_exact]
    · cases (v :: v' :: vs)[right]? with
      | none => simp
      | some m =>
        simp only [List.getElem?_cons_zero, Option.bind_some, Option.map_some, less_exact]
        split
        · rfl
        cases hl : lowerEdge (v :: v' :: vs) right p with
        | none => rfl
        | some e =>
          obtain ⟨m1, m2⟩ := lowerEdge_mem hl
          simp only [Option.bind_some, Option.map_some]
          rw [orientation_box (F := F) hp (h _ m2) (h _ m1) hw hW, Option.bind_some]
          split
          · cases hu : upperEdge (v :: v' :: vs) right p with
            | none => rfl
            | some e' =>
              obtain ⟨m1, m2⟩ := upperEdge_mem hu
              simp only [Option.bind_some, Option.map_some]
              rw [orientation_box (F := F) hp (h _ m2) (h _ m1) hw hW, Option.map_some]
          · rfl
    · intro h; cases h
    · intro _ h; cases h

/-- C115. The same of the search in a convex polygon. -/
theorem withinConvexMonotone_box (hw : D < 2 ^ (w - 1)) (hW : D * D < 2 ^ (W - 1)) {p : Vec Int 2}
    {poly : List (Vec Int 2)} (hp : InBox c D p) (h : ∀ v ∈ poly, InBox c D v) (right : Nat) :
    withinConvexMonotoneI w W p poly right =
      withinConvexMonotone (exact p : Vec F 2) (poly.map exact) right := by
  match poly, h with
  | [], _ => rfl
  | [v], _ => simp only [withinConvexMonotoneI, List.map_cons, List.map_nil, withinConvexMonotone,
      isEqual_exact]
  | v :: v' :: vs, h =>
    have e : ∀ l : List (Vec F 2), l = (v :: v' :: vs).map exact →
        withinConvexMonotone (exact p : Vec F 2) l right = match l[0]?, l[right]? with
        | some a, some m =>
          if less (exact p) a || less m (exact p) then some .outside
          else
            match orientation3 (exact p) m a with
            | .collinear =>
              if isEqual (exact p) a || isEqual (exact p) m then some .border
              else if right = 1 ∨ right + 1 = l.length then some .border else some .inside
            | .left =>
              match lowerEdge l right (exact p) with
              | none => none
              | some (x, y) => some (toInclusion (orientation3 (exact p) y x))
            | .right =>
              match upperEdge l right (exact p) with
              | none => none
              | some (x', y') => some (toInclusion (orientation3 (exact p) y' x'))
        | _, _ => none := by
      rintro l rfl; rfl
    rw [e _ rfl, withinConvexMonotoneI, List.getElem?_map, List.getElem?_map, lowerEdge_exact,
      upperEdge_exact, List.length_map]
    · cases hm : (v :: v' :: vs)[right]? with
      | none => simp
      | some m =>
        simp only [List.getElem?_cons_zero, Option.bind_some, Option.map_some, less_exact]
        split
        · rfl
        rw [orientation_box (F := F) hp (h _ (List.mem_of_getElem? hm)) (h _ List.mem_cons_self) hw hW,
          Option.bind_some]
        cases orientation3 (exact p : Vec F 2) (exact m) (exact v) with
        | collinear => simp only [isEqual_exact]
        | left =>
          cases hl : lowerEdge (v :: v' :: vs) right p with
          | none => rfl
          | some e =>
            obtain ⟨m1, m2⟩ := lowerEdge_mem hl
            simp only [Option.bind_some, Option.map_some]
            rw [orientation_box (F := F) hp (h _ m2) (h _ m1) hw hW, Option.map_some]
        | right =>
          cases hl : upperEdge (v :: v' :: vs) right p with
          | none => rfl
          | some e =>
            obtain ⟨m1, m2⟩ := upperEdge_mem hl
            simp only [Option.bind_some, Option.map_some]
            rw [orientation_box (F := F) hp (h _ m2) (h _ m1) hw hW, Option.map_some]
    · intro h; cases h
    · intro _ h; cases h

/-- C115. In a simple monotone polygon in the box the search on integers gives the classification by the
winding number. -/
theorem withinMonotone_int (hw : D < 2 ^ (w - 1)) (hW : D * D < 2 ^ (W - 1)) {p : Vec Int 2}
    {poly : List (Vec Int 2)} (hp : InBox c D p) (h : ∀ v ∈ poly, InBox c D v) (right : Nat)
    (hs : Simple (poly.map (exact : Vec Int 2 → Vec ℚ 2)))
    (hm : Monotone (poly.map (exact : Vec Int 2 → Vec ℚ 2)) right)
    (ht : LeftTurnAtFirst (poly.map (exact : Vec Int 2 → Vec ℚ 2))) :
    withinMonotoneI w W p poly right = some (withinSimple (exact p : Vec ℚ 2) (poly.map exact)) := by
  rw [withinMonotone_box (F := ℚ) hw hW hp h, withinMonotone_simple _ _ _ hs hm ht]

/-! ### Antipodal vertices -/

theorem orientationI_some {l r : Vec Int 2} {B : Int} (hB : B < 2 ^ (W - 1))
    (h1 : -B ≤ r 0 * l 1 ∧ r 0 * l 1 ≤ B) (h2 : -B ≤ r 1 * l 0 ∧ r 1 * l 0 ≤ B)
    (h3 : -B ≤ area r l ∧ area r l ≤ B) : orientationI W l r = some (orientation l r) := by
  unfold orientationI areaI orientation
  unfold area at h3 ⊢
  rw [fitInt_some (by linarith) (by linarith), fitInt_some (by linarith) (by linarith), Option.bind_some,
    Option.bind_some, fitInt_some (by linarith) (by linarith)]
  rfl

theorem box_mul {x y : Int} (h1 : -D ≤ x) (h2 : x ≤ D) (h3 : -D ≤ y) (h4 : y ≤ D) :
    -(D * D) ≤ x * y ∧ x * y ≤ D * D := by
  constructor <;> nlinarith

/-- Doubled areas of triangles in the box. -/
theorem triangle_box {l r o : Vec Int 2} (hl : InBox c D l) (hr : InBox c D r) (ho : InBox c D o) :
    area (r - o) (l - o) ≤ D * D := by
  obtain ⟨l1, l2, l3, l4⟩ := hl
  obtain ⟨r1, r2, r3, r4⟩ := hr
  obtain ⟨o1, o2, o3, o4⟩ := ho
  have u := square_sum_le (D := D) (a := l 0 - c 0) (b := l 1 - c 1) (c := r 0 - c 0)
    (d := r 1 - c 1) (e := o 0 - c 0) (f := o 1 - c 1) (by omega) (by omega) (by omega) (by omega)
    (by omega) (by omega)
  simp only [sub_sub_sub_cancel_right] at u
  exact u

/-- Two edges of a convex polygon in the box: their vector product is a difference of two doubled areas. -/
theorem edges_box (hW : D * D < 2 ^ (W - 1)) {a b p q : Vec Int 2} (ha : InBox c D a) (hb : InBox c D b)
    (hp : InBox c D p) (hq : InBox c D q) (h1 : 0 ≤ area (b - a) (p - a)) (h2 : 0 ≤ area (b - a) (q - a)) :
    orientationI W (b - a) (q - p) = some (orientation (b - a) (q - p)) := by
  have t1 := triangle_box hp hb ha
  have t2 := triangle_box hq hb ha
  have e : area (q - p) (b - a) = area (b - a) (p - a) - area (b - a) (q - a) := by
    simp only [area, Pi.sub_apply]; ring
  obtain ⟨a1, a2, a3, a4⟩ := ha
  obtain ⟨b1, b2, b3, b4⟩ := hb
  obtain ⟨p1, p2, p3, p4⟩ := hp
  obtain ⟨q1, q2, q3, q4⟩ := hq
  refine orientationI_some hW ?_ ?_ ⟨by rw [e]; linarith, by rw [e]; linarith⟩
  · simp only [Pi.sub_apply]
    exact box_mul (by linarith) (by linarith) (by linarith) (by linarith)
  · simp only [Pi.sub_apply]
    exact box_mul (by linarith) (by linarith) (by linarith) (by linarith)

theorem vert_exact {poly : List (Vec Int 2)} {i : Nat} {v : Vec Int 2} (h : poly[i]? = some v) :
    polyAt (poly.map (exact : Vec Int 2 → Vec F 2)) i = exact v := by
  simp [polyAt, h]

theorem convex_area_int {poly : List (Vec Int 2)}
    (hc : StrictlyConvex (poly.map (exact : Vec Int 2 → Vec F 2))) {i m : Nat} {a b v : Vec Int 2}
    (ha : poly[i]? = some a) (hb : poly[i + 1]? = some b) (hv : poly[m]? = some v) :
    0 ≤ area (b - a) (v - a) := by
  have hi : i + 1 < (poly.map (exact : Vec Int 2 → Vec F 2)).length := by
    rw [List.length_map]; exact (List.getElem?_eq_some_iff.1 hb).1
  have hm : m < (poly.map (exact : Vec Int 2 → Vec F 2)).length := by
    rw [List.length_map]; exact (List.getElem?_eq_some_iff.1 hv).1
  have := hc.leftOrOn' i m
  rw [edgeAt, ← polyAt_eq hi, ← polyAt_eq (by omega : i < _), ← polyAt_eq hm, vert_exact ha,
    vert_exact hb, vert_exact hv, ← exact_sub, ← exact_sub, area_exact] at this
  exact_mod_cast this

theorem antipodalInner_exact (hw : D < 2 ^ (w - 1)) (hW : D * D < 2 ^ (W - 1))
    {poly : List (Vec Int 2)} (h : ∀ v ∈ poly, InBox c D v)
    (hc : StrictlyConvex (poly.map (exact : Vec Int 2 → Vec F 2))) (i : Nat) :
    ∀ (k j : Nat) (out : List (Nat × Nat)), j + k = poly.length →
      antipodalInnerI w W poly i k j out =
        antipodalInner (poly.map (exact : Vec Int 2 → Vec F 2)) i k j out
  | 0, j, out, _ => rfl
  | k + 1, j, out, hk => by
    obtain ⟨q, hq⟩ : ∃ q, poly[if j + 1 ≠ poly.length then j + 1 else 0]? = some q :=
      ⟨_, List.getElem?_eq_getElem (by split <;> omega)⟩
    obtain ⟨p, hp⟩ : ∃ p, poly[j]? = some p := ⟨_, List.getElem?_eq_getElem (by omega)⟩
    rw [antipodalInnerI, antipodalInner, edgeFromI, hq, hp, Option.bind_some, Option.bind_some,
      sub_box (h _ (List.mem_of_getElem? hq)) (h _ (List.mem_of_getElem? hp)) hw, Option.bind_some,
      List.length_map]
    by_cases hi : i + 1 < poly.length
    · obtain ⟨b, hb⟩ : ∃ b, poly[i + 1]? = some b := ⟨_, List.getElem?_eq_getElem hi⟩
      obtain ⟨a, ha⟩ : ∃ a, poly[i]? = some a := ⟨_, List.getElem?_eq_getElem (by omega)⟩
      have e : edgeFrom (poly.map (exact : Vec Int 2 → Vec F 2)) j = exact (q - p) := by
        rw [edgeFrom, List.length_map, vert_exact hq, vert_exact hp, exact_sub]
      rw [if_pos hi, hb, ha, Option.bind_some, Option.bind_some,
        sub_box (h _ (List.mem_of_getElem? hb)) (h _ (List.mem_of_getElem? ha)) hw, Option.bind_some,
        edges_box hW (h _ (List.mem_of_getElem? ha)) (h _ (List.mem_of_getElem? hb))
          (h _ (List.mem_of_getElem? hp)) (h _ (List.mem_of_getElem? hq)) (convex_area_int hc ha hb hp)
          (convex_area_int hc ha hb hq), Option.bind_some, vert_exact ha, vert_exact hb, e, ← exact_sub,
        orientation_exact, antipodalInner_exact hw hW h hc i k (j + 1) _ (by omega)]
    · rw [if_neg hi, List.getElem?_eq_none (by omega)]
      rfl

theorem antipodalInner_range {poly : List (Vec F 2)} {i : Nat} : ∀ (k j : Nat) (out : List (Nat × Nat))
    {r : Nat × List (Nat × Nat)}, j + k = poly.length → antipodalInner poly i k j out = some r →
      r.1 ≤ poly.length
  | 0, j, out, r, hk, h => by rw [antipodalInner] at h; cases h; exact hk.le
  | k + 1, j, out, r, hk, h => by
    rw [antipodalInner] at h
    split at h
    · split at h
      · exact antipodalInner_range k (j + 1) _ (by omega) h
      · cases h; simp only; omega
    · cases h

theorem antipodalOuter_exact (hw : D < 2 ^ (w - 1)) (hW : D * D < 2 ^ (W - 1))
    {poly : List (Vec Int 2)} (h : ∀ v ∈ poly, InBox c D v)
    (hc : StrictlyConvex (poly.map (exact : Vec Int 2 → Vec F 2))) :
    ∀ (k i j : Nat) (out : List (Nat × Nat)), j ≤ poly.length →
      antipodalOuterI w W poly k i j out =
        antipodalOuter (poly.map (exact : Vec Int 2 → Vec F 2)) k i j out
  | 0, _, _, _, _ => rfl
  | k + 1, i, j, out, hj => by
    rw [antipodalOuterI, antipodalOuter, List.length_map]
    split
    · rfl
    rw [antipodalInner_exact (F := F) hw hW h hc i _ j out (by omega)]
    cases hr : antipodalInner (poly.map (exact : Vec Int 2 → Vec F 2)) i (poly.length - j) j out with
    | none => rfl
    | some r =>
      simp only [Option.bind_some]
      have := antipodalInner_range _ _ _ (by rw [List.length_map]; omega) hr
      rw [List.length_map] at this
      exact antipodalOuter_exact hw hW h hc k (i + 1) r.1 r.2 this

/-- C115. A strictly convex polygon in a box of side `D`: the search of antipodal vertices overflows nowhere
and writes the same pairs. -/
theorem antipodalVertices_box (hw : D < 2 ^ (w - 1)) (hW : D * D < 2 ^ (W - 1))
    {poly : List (Vec Int 2)} (h : ∀ v ∈ poly, InBox c D v)
    (hc : StrictlyConvex (poly.map (exact : Vec Int 2 → Vec F 2))) :
    antipodalVerticesI w W poly = antipodalVertices (poly.map (exact : Vec Int 2 → Vec F 2)) := by
  have := hc.1
  rw [List.length_map] at this
  rw [antipodalVerticesI, antipodalVertices, List.length_map, if_neg (by omega), if_neg (by omega)]
  exact antipodalOuter_exact hw hW h hc _ _ _ _ (by omega)

/-! ### Extreme vertices and tangents -/

theorem isExtreme_exact {cmpI : Nat → Nat → Option Turn} {cmp : Nat → Nat → Turn} {n : Nat}
    (hcmp : ∀ i j, i < n → j < n → cmpI i j = some (cmp i j)) {i : Nat} (hi : i < n) :
    isExtremeI cmpI n i = some (isExtreme cmp n i) := by
  rw [isExtremeI, isExtreme, hcmp _ _ (nextAt_lt hi) hi, Option.bind_some]
  by_cases hv : cmp (nextAt n i) i = .left
  · simp [hv]
  · rw [if_pos hv, hcmp _ _ hi (prevAt_lt hi)]
    simp [hv]

theorem extremeLoop_exact {cmpI : Nat → Nat → Option Turn} {cmp : Nat → Nat → Turn} {n : Nat}
    (hcmp : ∀ i j, i < n → j < n → cmpI i j = some (cmp i j)) :
    ∀ (k first last : Nat) (s : Turn), first < last → last ≤ n →
      extremeLoopI cmpI n k first last s = some (extremeLoop cmp n k first last s)
  | 0, _, _, _, _, _ => rfl
  | k + 1, first, last, s, h1, h2 => by
    rw [extremeLoopI, extremeLoop]
    by_cases he : first + 1 = last
    · rw [if_pos he, if_pos he]
    rw [if_neg he, if_neg he]
    have hm : first < first + (last - first) / 2 ∧ first + (last - first) / 2 < last := by omega
    rw [isExtreme_exact hcmp (by omega), Option.bind_some,
      hcmp _ _ (by omega : first < n) (by omega : first + (last - first) / 2 < n), Option.map_some]
    simp only
    generalize isExtreme cmp n (first + (last - first) / 2) = m
    by_cases hb : m.1 = true
    · rw [if_pos hb, if_pos hb]
    rw [if_neg hb, if_neg hb]
    have r1 := extremeLoop_exact hcmp k first _ s hm.1 (by omega)
    have r2 := extremeLoop_exact hcmp k _ last m.2 hm.2 h2
    by_cases hs : s ≠ m.2
    · rw [if_pos hs, Option.bind_some, r1, r2]
      by_cases hv : s.value < m.2.value <;> simp [hs, hv]
    · rw [if_neg hs, Option.bind_some, r1, r2]
      by_cases hv : s = cmp first (first + (last - first) / 2)
      · simp only [hs, if_false, hv.symm, decide_true, if_true]
      · simp only [hs, if_false, hv, decide_false, Bool.false_eq_true]

theorem extremeVertex_exact {poly : List (Vec Int 2)} {dirI : Vec Int 2 → Option (Vec Int 2)}
    {dir : Vec F 2 → Vec F 2}
    (hcmp : ∀ i j, i < poly.length → j < poly.length →
      vertexCmpI w W dirI poly i j = some (vertexCmp dir (poly.map exact) i j)) :
    extremeVertexI w W poly dirI = extremeVertex (poly.map exact) dir := by
  rw [extremeVertexI, extremeVertex, List.length_map]
  by_cases h : poly.length ≤ 1
  · rw [if_pos h, if_pos h]
  rw [if_neg h, if_neg h, isExtreme_exact hcmp (by omega), Option.bind_some]
  simp only
  split
  · rfl
  · exact extremeLoop_exact hcmp _ _ _ _ (by omega) le_rfl

/-- The comparison of two vertices seen from a point. -/
theorem vertexCmp_box (hw : D < 2 ^ (w - 1)) (hW : D * D < 2 ^ (W - 1)) {p : Vec Int 2}
    {poly : List (Vec Int 2)} (hp : InBox c D p) (h : ∀ v ∈ poly, InBox c D v) {i j : Nat}
    (hi : i < poly.length) (hj : j < poly.length) :
    vertexCmpI w W (fun x => subI w x p) poly i j =
        some (vertexCmp (fun x => x - exact p) (poly.map (exact : Vec Int 2 → Vec F 2)) i j) ∧
      vertexCmpI w W (fun x => subI w p x) poly i j =
        some (vertexCmp (fun x => exact p - x) (poly.map (exact : Vec Int 2 → Vec F 2)) i j) := by
  obtain ⟨a, ha⟩ : ∃ a, poly[i]? = some a := ⟨_, List.getElem?_eq_getElem hi⟩
  obtain ⟨b, hb⟩ : ∃ b, poly[j]? = some b := ⟨_, List.getElem?_eq_getElem hj⟩
  have hA := h _ (List.mem_of_getElem? ha)
  have hB := h _ (List.mem_of_getElem? hb)
  have t1 := triangle_box hp hA hB
  have t2 := triangle_box hA hp hB
  have e1 : area (b - a) (b - p) = area (a - b) (p - b) := by simp only [area, Pi.sub_apply]; ring
  have e2 : area (a - b) (p - b) = -area (p - b) (a - b) := by simp only [area, Pi.sub_apply]; ring
  have e3 : area (b - a) (p - b) = -area (a - b) (p - b) := by simp only [area, Pi.sub_apply]; ring
  have hs1 := sub_box hB hp hw
  have hs2 := sub_box hp hB hw
  have hs3 := sub_box hB hA hw
  obtain ⟨a1, a2, a3, a4⟩ := hA
  obtain ⟨b1, b2, b3, b4⟩ := hB
  obtain ⟨p1, p2, p3, p4⟩ := hp
  constructor
  · rw [vertexCmpI, ha, hb, Option.bind_some, Option.bind_some, hs1, Option.bind_some, hs3,
      Option.bind_some, vertexCmp, vert_exact ha, vert_exact hb, ← exact_sub, ← exact_sub,
      orientation_exact]
    refine orientationI_some hW ?_ ?_ ⟨by linarith, by linarith⟩
    · simp only [Pi.sub_apply]
      exact box_mul (by linarith) (by linarith) (by linarith) (by linarith)
    · simp only [Pi.sub_apply]
      exact box_mul (by linarith) (by linarith) (by linarith) (by linarith)
  · rw [vertexCmpI, ha, hb, Option.bind_some, Option.bind_some, hs2, Option.bind_some, hs3,
      Option.bind_some, vertexCmp, vert_exact ha, vert_exact hb, ← exact_sub, ← exact_sub,
      orientation_exact]
    refine orientationI_some hW ?_ ?_ ⟨by linarith, by linarith⟩
    · simp only [Pi.sub_apply]
      exact box_mul (by linarith) (by linarith) (by linarith) (by linarith)
    · simp only [Pi.sub_apply]
      exact box_mul (by linarith) (by linarith) (by linarith) (by linarith)

/-- C115. Point and polygon (any one) in a box of side `D`: the search of tangents overflows nowhere and
writes the same vertices. -/
theorem tangentVertices_box (hw : D < 2 ^ (w - 1)) (hW : D * D < 2 ^ (W - 1)) {p : Vec Int 2}
    {poly : List (Vec Int 2)} (hp : InBox c D p) (h : ∀ v ∈ poly, InBox c D v) (output : Output Nat) :
    tangentVerticesI w W p poly output =
      tangentVertices (exact p : Vec F 2) (poly.map exact) output := by
  rw [tangentVerticesI, tangentVertices,
    extremeVertex_exact (F := F) fun i j hi hj => (vertexCmp_box hw hW hp h hi hj).1,
    extremeVertex_exact (F := F) fun i j hi hj => (vertexCmp_box hw hW hp h hi hj).2]
  cases extremeVertex (poly.map (exact : Vec Int 2 → Vec F 2)) (fun x => x - exact p) with
  | none => rfl
  | some i =>
    cases extremeVertex (poly.map (exact : Vec Int 2 → Vec F 2)) (fun x => exact p - x) with
    | none => rfl
    | some j => rfl

end box

/-! ### The bounds are exact -/

/-- The vectors of a corner of the box. -/
theorem corner_sub {w : Nat} {D : Int} (hw : D < 2 ^ (w - 1)) (h0 : 0 ≤ D) (c : Vec Int 2) :
    subI w ![c 0 + D, c 1] c = some ![D, 0] ∧ subI w ![c 0, c 1 + D] c = some ![0, D] ∧
      subI w ![c 0, c 1 + D] ![c 0 + D, c 1] = some ![-D, D] ∧
      subI w c ![c 0 + D, c 1] = some ![-D, 0] ∧ subI w c ![c 0, c 1 + D] = some ![0, -D] := by
  have hz : (0 : Int) < 2 ^ (w - 1) := by positivity
  have f0 : fitInt w 0 = some 0 := fitInt_some (by linarith) hz
  have f1 : fitInt w D = some D := fitInt_some (by linarith) hw
  have f2 : fitInt w (-D) = some (-D) := fitInt_some (by linarith) (by linarith)
  refine ⟨?_, ?_, ?_, ?_, ?_⟩ <;> simp [subI, f0, f1, f2]

/-- C115. The bounds are exact: in every box whose side does not meet them (but fits the coordinates) a
triangle and its corner make the searches overflow. -/
theorem withinMonotone_overflow {w W : Nat} (c : Vec Int 2) {D : Int} (h0 : 0 < D)
    (hw : D < 2 ^ (w - 1)) (hW : 2 ^ (W - 1) ≤ D * D) :
    withinMonotoneI w W ![c 0, c 1 + D] [c, ![c 0 + D, c 1], ![c 0, c 1 + D]] 1 = none ∧
      antipodalVerticesI w W [c, ![c 0 + D, c 1], ![c 0, c 1 + D]] = none ∧
      ∀ output, tangentVerticesI w W ![c 0, c 1 + D] [c, ![c 0 + D, c 1], ![c 0 + D, c 1 + 1]] output
        = none := by
  obtain ⟨s1, s2, s3, s4, s5⟩ := corner_sub hw h0.le c
  have o1 : orientationI W ![0, D] ![D, 0] = none := by
    simp [orientationI, areaI, fitInt_none (.inr hW)]
  have o2 : orientationI W ![D, 0] ![-D, D] = none := by
    have hz : fitInt W 0 = some 0 := fitInt_some (by have : (0 : Int) < 2 ^ (W - 1) := by positivity
                                                     linarith) (by positivity)
    simp [orientationI, areaI, hz, fitInt_none (.inr hW)]
  have o3 : orientationI W ![0, -D] ![-D, 0] = none := by
    simp [orientationI, areaI, fitInt_none (.inr hW)]
  refine ⟨?_, ?_, fun output => ?_⟩
  · have l1 : less ![c 0, c 1 + D] c = false := by
      simp [less, lexLess, h0.le]
    have l2 : less ![c 0 + D, c 1] ![c 0, c 1 + D] = false := by
      simp [less, lexLess, h0, h0.le]
    simp only [withinMonotoneI, List.getElem?_cons_zero, Option.bind_some, List.getElem?_cons_succ, l1, l2]
    simp [lowerEdge, lowerBound, orientation3I, s1, s2, o1]
  · simp [antipodalVerticesI, antipodalOuterI, antipodalInnerI, edgeFromI, s1, s3, o2]
  · simp [tangentVerticesI, extremeVertexI, isExtremeI, nextAt, vertexCmpI, s4, s5, o3]

/-! ### Sorting by angle -/

/-- C115. Coordinates of absolute value up to `M`: no comparison that a sort of the points by angle can make
overflows, and all are exact. -/
theorem angleLess_box {W : Nat} {M : Int} (hW : 2 * (M * M) < 2 ^ (W - 1)) {p q : Vec Int 2}
    (hp : ∀ i, |p i| ≤ M) (hq : ∀ i, |q i| ≤ M) :
    angleLessI W p q = some (angleLess (exact : Vec Int 2 → Vec F 2) p q) := by
  have p0 := abs_le.1 (hp 0)
  have p1 := abs_le.1 (hp 1)
  have q0 := abs_le.1 (hq 0)
  have q1 := abs_le.1 (hq 1)
  obtain ⟨a1, a2⟩ := box_mul q0.1 q0.2 p1.1 p1.2
  obtain ⟨b1, b2⟩ := box_mul q1.1 q1.2 p0.1 p0.2
  have hM : 0 ≤ M * M := mul_self_nonneg M
  rw [angleLessI, orientationI_some hW ⟨by linarith, by linarith⟩ ⟨by linarith, by linarith⟩
    ⟨by unfold area; linarith, by unfold area; linarith⟩, Option.map_some, angleLess, orientation_exact]

/-- C115. The bound is exact: two points of the upper half-plane overflow if it is not met. -/
theorem angleLess_overflow {W : Nat} {M : Int} (h : 2 ^ (W - 1) ≤ 2 * (M * M)) :
    angleLessI W ![-M, M] ![M, M] = none := by
  unfold angleLessI orientationI areaI
  by_cases h1 : M * M < 2 ^ (W - 1)
  · have hM : 0 ≤ M * M := mul_self_nonneg M
    simp only [Matrix.cons_val_zero, Matrix.cons_val_one, mul_neg]
    rw [fitInt_some (by linarith) h1, fitInt_some (by linarith) (by linarith), Option.bind_some,
      Option.bind_some, fitInt_none (.inr (by linarith))]
    rfl
  · simp only [Matrix.cons_val_zero, Matrix.cons_val_one]
    rw [fitInt_none (.inr (not_lt.1 h1))]
    rfl

/-! ### Examples -/

/-- The dart of `Props/MonotoneSimple.lean`, scaled to the greatest box of 32-bit coordinates and 64-bit
products. -/
example : withinMonotoneI 32 64 ![1000000000, 1500000000]
      [![0, 0], ![1000000000, 1000000000], ![2147483647, 0], ![1000000000, 2147483647]] 2 = some .inside ∧
    withinMonotoneI 32 32 ![1000000000, 1500000000]
      [![0, 0], ![1000000000, 1000000000], ![2147483647, 0], ![1000000000, 2147483647]] 2 = none ∧
    tangentVerticesI 32 64 ![0, 2147483647] [![0, 0], ![2147483647, 0], ![2147483647, 5]] ⟨[], 0⟩
      = some ⟨[(0, 0), (1, 2)], 2⟩ ∧
    antipodalVerticesI 32 64 [![0, 0], ![2147483647, 0], ![2147483647, 2147483647], ![0, 2147483647]]
      = some [(0, 1), (0, 2), (1, 2), (1, 3), (2, 3)] := by
  decide +kernel

end Actl.Geo
