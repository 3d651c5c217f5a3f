import Verif.Model.FloatPolygon
import Verif.Lemmas.FloatClosest
import Verif.Props.ToMonotone
import Verif.Props.MonotoneSimple
import Verif.Props.Extreme

/-!
Lemmas about searches in polygons in floating point.
-/

namespace Actl.Geo

variable {F : Type*} [Field F] [LinearOrder F] [IsStrictOrderedRing F]
variable {fl : F → F} {u : F} {turn : Vec F 2 → Vec F 2 → Vec F 2 → Turn}

/-! ### Point in a monotone polygon -/

omit [IsStrictOrderedRing F] in
theorem lowerEdge_vertex {poly : List (Vec F 2)} {right : Nat} {p : Vec F 2} {e : Vec F 2 × Vec F 2}
    (h : lowerEdge poly right p = some e) : e.1 ∈ poly ∧ e.2 ∈ poly := by
  unfold lowerEdge at h
  split at h
  · cases h
  · simp only at h
    split at h
    · rename_i h1 h2
      cases h
      exact ⟨List.mem_of_getElem? h1, List.mem_of_getElem? h2⟩
    · cases h

omit [IsStrictOrderedRing F] in
theorem upperEdge_vertex {poly : List (Vec F 2)} {right : Nat} {p : Vec F 2} {e : Vec F 2 × Vec F 2}
    (h : upperEdge poly right p = some e) : e.1 ∈ poly ∧ e.2 ∈ poly := by
  unfold upperEdge at h
  simp only at h
  split at h
  · rename_i h1 h2
    cases h
    refine ⟨List.mem_reverse.1 (List.mem_of_getElem? h1), ?_⟩
    split at h2
    · exact List.mem_of_getElem? h2
    · exact List.mem_reverse.1 (List.mem_of_getElem? h2)
  · cases h

theorem lowerEdge_some {poly : List (Vec F 2)} {right : Nat} (p : Vec F 2) (h0 : 0 < right) (h1 : right < poly.length) :
    ∃ e, lowerEdge poly right p = some e := by
  have hb := lowerBound_le ((poly.drop 1).take (right - 1)) p
  rw [List.length_take, List.length_drop] at hb
  rw [lowerEdge, if_neg (by omega)]
  simp only
  rw [List.getElem?_eq_getElem (by omega), List.getElem?_eq_getElem (by omega)]
  exact ⟨_, rfl⟩

theorem upperEdge_some {poly : List (Vec F 2)} {right : Nat} (p : Vec F 2) (h1 : right < poly.length) :
    ∃ e, upperEdge poly right p = some e := by
  have hb := lowerBound_le (poly.reverse.take (poly.length - right - 1)) p
  rw [List.length_take, List.length_reverse] at hb
  rw [upperEdge]
  rw [List.getElem?_eq_getElem (by rw [List.length_reverse]; omega)]
  split_ifs
  · rw [List.getElem?_eq_getElem (by omega)]
    exact ⟨_, rfl⟩
  · rw [List.getElem?_eq_getElem (by rw [List.length_reverse]; omega)]
    exact ⟨_, rfl⟩

omit [IsStrictOrderedRing F] in
theorem withinMonotoneT_exact {p : Vec F 2} {poly : List (Vec F 2)} (ht : ∀ r ∈ poly, ∀ o ∈ poly, turn p r o = orientation3 p r o)
    (right : Nat) : withinMonotoneT turn p poly right = withinMonotone p poly right := by
  match poly, ht with
  | [], _ => rfl
  | [v], _ => rfl
  | v :: v' :: vs, ht =>
    rw [withinMonotoneT, withinMonotone]
    · rw [show (v :: v' :: vs)[0]? = some v from rfl, Option.bind_some]
      cases (v :: v' :: vs)[right]? with
      | none => rfl
      | some m =>
        rw [Option.bind_some]
        simp only
        split_ifs
        · rfl
        · cases hl : lowerEdge (v :: v' :: vs) right p with
          | none => rfl
          | some e =>
            obtain ⟨x, y⟩ := e
            have hm := lowerEdge_vertex hl
            rw [Option.bind_some]
            simp only at hm ⊢
            rw [ht y hm.2 x hm.1]
            cases hu : upperEdge (v :: v' :: vs) right p with
            | none => rfl
            | some e' =>
              obtain ⟨x', y'⟩ := e'
              have hm' := upperEdge_vertex hu
              simp only at hm'
              simp only [Option.map_some, ht y' hm'.2 x' hm'.1]
    · intro h; cases h
    · intro _ h; cases h
    · intro h; cases h
    · intro _ h; cases h

omit [IsStrictOrderedRing F] in
theorem withinConvexMonotoneT_exact {p : Vec F 2} {poly : List (Vec F 2)}
    (ht : ∀ r ∈ poly, ∀ o ∈ poly, turn p r o = orientation3 p r o)
    (right : Nat) : withinConvexMonotoneT turn p poly right = withinConvexMonotone p poly right := by
  match poly, ht with
  | [], _ => rfl
  | [v], _ => rfl
  | v :: v' :: vs, ht =>
    rw [withinConvexMonotoneT, withinConvexMonotone]
    · rw [show (v :: v' :: vs)[0]? = some v from rfl, Option.bind_some]
      cases hr : (v :: v' :: vs)[right]? with
      | none => rfl
      | some m =>
        rw [Option.bind_some, ht m (List.mem_of_getElem? hr) v (by simp)]
        simp only
        cases less p v || less m p
        swap
        · rfl
        · simp only [Bool.false_eq_true, if_false]
          cases orientation3 p m v with
          | collinear => rfl
          | left =>
            cases hl : lowerEdge (v :: v' :: vs) right p with
            | none => rfl
            | some e =>
              have hm := lowerEdge_vertex hl
              simp only [Option.map_some, ht _ hm.2 _ hm.1]
          | right =>
            cases hu : upperEdge (v :: v' :: vs) right p with
            | none => rfl
            | some e =>
              have hm := upperEdge_vertex hu
              simp only [Option.map_some, ht _ hm.2 _ hm.1]
    · intro h; cases h
    · intro _ h; cases h
    · intro h; cases h
    · intro _ h; cases h

omit [IsStrictOrderedRing F] in
theorem monotone_right {poly : List (Vec F 2)} {right : Nat} (h : Monotone poly right) :
    0 < right ∧ right < poly.length := by
  obtain ⟨a, lower, m, upper, rfl, rfl, -, -⟩ := h
  simp

theorem withinT_safe (turn : Vec F 2 → Vec F 2 → Vec F 2 → Turn) (p : Vec F 2) {poly : List (Vec F 2)} {right : Nat}
    (h0 : 0 < right) (h1 : right < poly.length) :
    (∃ w, withinMonotoneT turn p poly right = some w) ∧ ∃ w, withinConvexMonotoneT turn p poly right = some w := by
  match poly, h1 with
  | [v], h1 => simp at h1; omega
  | v :: v' :: vs, h1 =>
    obtain ⟨e, he⟩ := lowerEdge_some p h0 h1
    obtain ⟨e', he'⟩ := upperEdge_some p h1
    constructor
    · rw [withinMonotoneT]
      · rw [show (v :: v' :: vs)[0]? = some v from rfl, List.getElem?_eq_getElem h1, he, he']
        simp only [Option.bind_some, Option.map_some]
        split_ifs <;> exact ⟨_, rfl⟩
      · intro h; cases h
      · intro _ h; cases h
    · rw [withinConvexMonotoneT]
      · rw [show (v :: v' :: vs)[0]? = some v from rfl, List.getElem?_eq_getElem h1, he, he']
        simp only [Option.bind_some, Option.map_some]
        split_ifs
        · exact ⟨_, rfl⟩
        all_goals split <;> exact ⟨_, rfl⟩
      · intro h; cases h
      · intro _ h; cases h

theorem toMonotone_mem {poly : List (Vec F 2)} (hc : StrictlyConvex poly) : ∀ v ∈ (toMonotone poly).1, v ∈ poly :=
  fun _ hv => ((toMonotone_monotone poly hc).1.mem_iff).2 hv

theorem orientation3R_from (h : SignedRounding fl u) {p : Vec F 2} {poly : List (Vec F 2)}
    (ha : ∀ r ∈ poly, ∀ o ∈ poly, r ≠ o → WellApart u p r o) :
    ∀ r ∈ poly, ∀ o ∈ poly, orientation3R fl p r o = orientation3 p r o := by
  intro r hr o ho
  by_cases he : r = o
  · obtain ⟨h1, h2⟩ := orientation3R_repeated h (l := p) (r := r) (o := o) (Or.inr (Or.inl he))
    rw [h1, h2]
  · exact orientation3R_clear h (ha r hr o ho he)

/-! ### Extreme vertices -/

theorem isExtreme_congr {cmp cmp' : Nat → Nat → Turn} {n : Nat} (hcmp : ∀ i j, i < n → j < n → cmp i j = cmp' i j) {i : Nat}
    (hi : i < n) : isExtreme cmp n i = isExtreme cmp' n i := by
  rw [isExtreme, isExtreme, hcmp _ _ (nextAt_lt hi) hi, hcmp _ _ hi (prevAt_lt hi)]

theorem extremeLoop_congr {cmp cmp' : Nat → Nat → Turn} {n : Nat} (hcmp : ∀ i j, i < n → j < n → cmp i j = cmp' i j) :
    ∀ (k first last : Nat) (s : Turn), first < last → last ≤ n →
      extremeLoop cmp n k first last s = extremeLoop cmp' n k first last s
  | 0, _, _, _, _, _ => rfl
  | k + 1, first, last, s, h1, h2 => by
    rw [extremeLoop, extremeLoop]
    by_cases he : first + 1 = last
    · rw [if_pos he, if_pos he]
    rw [if_neg he, if_neg he]
    have hm : first < first + (last - first) / 2 ∧ first + (last - first) / 2 < last := by omega
    simp only
    rw [isExtreme_congr hcmp (by omega), hcmp _ _ (by omega : first < n) (by omega : first + (last - first) / 2 < n),
      extremeLoop_congr hcmp k first _ s hm.1 (by omega), extremeLoop_congr hcmp k _ last _ hm.2 h2]

theorem extremeLoop_lt (cmp : Nat → Nat → Turn) (n : Nat) : ∀ (k first last : Nat) (s : Turn), first < last → last ≤ n →
    extremeLoop cmp n k first last s < n
  | 0, first, last, _, h1, h2 => by rw [extremeLoop]; omega
  | k + 1, first, last, s, h1, h2 => by
    rw [extremeLoop]
    by_cases he : first + 1 = last
    · rw [if_pos he]; omega
    rw [if_neg he]
    have hm : first < first + (last - first) / 2 ∧ first + (last - first) / 2 < last := by omega
    simp only
    have i1 := extremeLoop_lt cmp n k first (first + (last - first) / 2) s hm.1 (by omega)
    have i2 := extremeLoop_lt cmp n k (first + (last - first) / 2) last (isExtreme cmp n (first + (last - first) / 2)).2 hm.2 h2
    split_ifs <;> first | assumption | omega

theorem extremeVertexR_exact {poly : List (Vec F 2)} {dir dir' : Vec F 2 → Vec F 2}
    (hcmp : ∀ i j, i < poly.length → j < poly.length → vertexCmpR fl dir poly i j = vertexCmp dir' poly i j) :
    extremeVertexR fl poly dir = extremeVertex poly dir' := by
  rw [extremeVertexR, extremeVertex]
  by_cases h : poly.length ≤ 1
  · rw [if_pos h, if_pos h]
  rw [if_neg h, if_neg h]
  simp only
  rw [isExtreme_congr hcmp (by omega), extremeLoop_congr hcmp _ _ _ _ (by omega) le_rfl]

theorem vertexCmpR_grid {g : F} {M : Int} (he : Exact fl g M) {poly : List (Vec F 2)} (hg : ∀ v ∈ poly, OnGrid g M v)
    {dir dir' : Vec F 2 → Vec F 2} (hd : ∀ v ∈ poly, dir v = dir' v ∧ OnGrid g (2 * M) (dir' v)) {i j : Nat}
    (hi : i < poly.length) (hj : j < poly.length) : vertexCmpR fl dir poly i j = vertexCmp dir' poly i j := by
  have g1 := hg _ (polyAt_mem hi)
  have g2 := hg _ (polyAt_mem hj)
  obtain ⟨d1, d2⟩ := hd _ (polyAt_mem hj)
  rw [vertexCmpR, vertexCmp, subR_grid he g2 g1, d1, areaR_grid he (grid_diff g2 g1) d2, orientation]

end Actl.Geo
