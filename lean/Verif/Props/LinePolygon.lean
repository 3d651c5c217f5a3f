import Verif.Model.LinePolygon
import Verif.Props.Extreme
import Verif.Props.Intersect
import Verif.Props.Hull

/-!
# Intersection of a line with a convex polygon

C72.
-/

namespace Actl.Geo

/-! ### The search on a chain -/

theorem cyclic_distance {n first d : Nat} (hf : first < n) (hd : d < n) :
    ((first + d) % n + n - first) % n = d := by
  by_cases h : first + d < n
  · rw [Nat.mod_eq_of_lt h, show first + d + n - first = d + n by omega, Nat.add_mod_right,
      Nat.mod_eq_of_lt hd]
  · have e : (first + d) % n = first + d - n := by
      rw [Nat.mod_eq_sub_mod (by omega), Nat.mod_eq_of_lt (by omega)]
    rw [e, show first + d - n + n - first = d by omega, Nat.mod_eq_of_lt hd]

theorem nextAt_eq {n i : Nat} (hi : i < n) : nextAt n i = (i + 1) % n := by
  rw [nextAt]
  split_ifs with h
  · rw [h, Nat.mod_self]
  · rw [Nat.mod_eq_of_lt (by omega)]

/-- The search ends at two neighbours; the first has the orientation of the start, the second has not
or is the end of the chain. -/
theorem chainLoop_spec {orient : Nat → Turn} {n : Nat} {o : Turn} {stop : Nat} :
    ∀ (k first d : Nat), first < n → 1 ≤ d → d < n → d ≤ k → orient first = o →
      (orient ((first + d) % n) ≠ o ∨ (first + d) % n = stop) →
      ∃ i < n, chainLoop orient n o k first ((first + d) % n) = (i, (i + 1) % n) ∧ orient i = o ∧
        (orient ((i + 1) % n) ≠ o ∨ (i + 1) % n = stop) := by
  intro k
  induction k with
  | zero => intro first d _ h1 _ h2; omega
  | succ k ih =>
    intro first d hf hd1 hdn hdk ho hl
    rw [chainLoop, nextAt_eq hf, cyclic_distance hf hdn]
    rcases Nat.eq_or_lt_of_le hd1 with rfl | hd2
    · rw [if_pos rfl]
      exact ⟨first, hf, rfl, ho, hl⟩
    · have hne : (first + 1) % n ≠ (first + d) % n := by
        intro h
        have h1 := cyclic_distance hf (show 1 < n by omega)
        rw [h, cyclic_distance hf hdn] at h1
        omega
      rw [if_neg hne]
      simp only
      by_cases hm : orient ((first + d / 2) % n) = o
      · rw [if_pos hm]
        have e : (first + d) % n = ((first + d / 2) % n + (d - d / 2)) % n := by
          rw [Nat.mod_add_mod]; congr 1; omega
        rw [e] at hl ⊢
        exact ih _ _ (Nat.mod_lt _ (by omega)) (by omega) (by omega) (by omega) hm hl
      · rw [if_neg hm]
        exact ih first (d / 2) hf (by omega) (by omega) (by omega) ho (Or.inl hm)

variable {F : Type*} [Field F] [LinearOrder F] [IsStrictOrderedRing F] {poly : List (Vec F 2)}

/-! ### Heights over the line -/

/-- On which side of the line a point is, and how far. -/
def height (l : Line F 2) (p : Vec F 2) : F := area l.vector (p - l.start)

theorem vertexOrient_left {l : Line F 2} {i : Nat} (hi : i < poly.length) :
    vertexOrient l poly i = .left ↔ height l (vert poly i) < 0 := by
  rw [vertexOrient, orientation_left_iff, polyAt_eq hi, height, area_swap]
  constructor <;> intro h <;> linarith

theorem vertexOrient_right {l : Line F 2} {i : Nat} (hi : i < poly.length) :
    vertexOrient l poly i = .right ↔ 0 < height l (vert poly i) := by
  rw [vertexOrient, orientation_right_iff, polyAt_eq hi, height, area_swap]
  constructor <;> intro h <;> linarith

theorem vertexOrient_collinear {l : Line F 2} {i : Nat} (hi : i < poly.length) :
    vertexOrient l poly i = .collinear ↔ height l (vert poly i) = 0 := by
  have h1 := vertexOrient_left (l := l) hi
  have h2 := vertexOrient_right (l := l) hi
  rcases turn_cases (vertexOrient l poly i) with h | h | h <;> rw [h] at h1 h2 ⊢
  · simp at h1 ⊢; exact h1.ne
  · simp at h1 h2 ⊢; exact le_antisymm h2 h1
  · simp at h2 ⊢; exact h2.ne'

omit [LinearOrder F] [IsStrictOrderedRing F] in
theorem height_sub (l : Line F 2) (p q : Vec F 2) : height l q - height l p = area l.vector (q - p) := by
  simp only [height, area, Pi.sub_apply]; ring

theorem inPolygon_iff (p : Vec F 2) :
    InPolygon p poly ↔ ∀ k < poly.length, 0 ≤ area (edgeAt poly k) (p - vert poly k) := by
  have key : ∀ l : List (Vec F 2), LeftOfChain p l ↔ ∀ e ∈ pairs l, LeftOrOn e.1 e.2 p := by
    intro l
    induction l with
    | nil => simp [LeftOfChain, pairs]
    | cons a l ih =>
      cases l with
      | nil => simp [LeftOfChain, pairs]
      | cons b l => rw [LeftOfChain, pairs, ih]; simp
  rw [InPolygon, key, ← edges, edges_eq_map]
  simp only [List.mem_map, List.mem_range, forall_exists_index, and_imp, forall_apply_eq_imp_iff₂,
    LeftOrOn, area, edgeAt, Pi.sub_apply]

/-- The least height on the polygon is that of a vertex. -/
theorem height_min (hc : StrictlyConvex poly) {l : Line F 2} {c : F}
    (hmin : ∀ k, c ≤ height l (vert poly k)) {p : Vec F 2} (hp : InPolygon p poly) : c ≤ height l p := by
  have hh := inHull_of_inPolygon hc hp
  clear hp
  induction hh with
  | vertex hp => obtain ⟨k, -, rfl⟩ := exists_vert hp; exact hmin k
  | @segment p q t _ _ h0 h1 hp hq =>
    have e : height l (fun i => p i + t * (q i - p i)) = (1 - t) * height l p + t * height l q := by
      simp only [height, area, Pi.sub_apply]; ring
    rw [e]
    have := mul_le_mul_of_nonneg_left hp (show 0 ≤ 1 - t by linarith)
    have := mul_le_mul_of_nonneg_left hq h0
    linarith

theorem height_max (hc : StrictlyConvex poly) {l : Line F 2} {c : F}
    (hmax : ∀ k, height l (vert poly k) ≤ c) {p : Vec F 2} (hp : InPolygon p poly) : height l p ≤ c := by
  have key : ∀ q, height { l with vector := -l.vector } q = -height l q := by
    intro q; simp only [height, area, Pi.sub_apply, Pi.neg_apply]; ring
  have := height_min hc (l := { l with vector := -l.vector }) (c := -c)
    (fun k => by rw [key]; linarith [hmax k]) hp
  rw [key] at this; linarith

open Classical in
theorem intersectScalar_free (l r : Line F 2) (hk : r.kind = .free) (ht : area r.vector l.vector ≠ 0) :
    intersectScalar l r =
      if Allowed l.kind (area (l.start - r.start) r.vector / area r.vector l.vector)
      then [area (l.start - r.start) r.vector / area r.vector l.vector] else [] := by
  have hcr := crossTest_iff l r (area r.vector l.vector)
    (area (l.start - r.start) r.vector) (area (l.start - r.start) l.vector) ht
  rw [hk] at hcr
  have hf : ∀ t : F, Allowed LineKind.free t := fun _ => trivial
  simp only [hf, and_true] at hcr
  unfold intersectScalar
  simp only [if_neg ht]
  by_cases ha : Allowed l.kind (area (l.start - r.start) r.vector / area r.vector l.vector)
  · rw [if_pos ha, hcr.2 ha]; rfl
  · have : crossTest l r (area r.vector l.vector)
        (area (l.start - r.start) r.vector) (area (l.start - r.start) l.vector) = false := by
      rw [← Bool.not_eq_true]; exact fun h => ha (hcr.1 h)
    rw [if_neg ha, this]; rfl

open Classical in
/-- What one chain writes, if the edge found has ends of different height: the parameter of the point
on the line through the edge. -/
theorem intersectScalar_edge (l : Line F 2) (p q : Vec F 2) (h : height l p ≠ height l q) :
    ∃ t, intersectScalar l (Line.through p q .free) = (if Allowed l.kind t then [t] else []) ∧
      ∀ s, area (q - p) (l.at s - p) = (s - t) * (height l p - height l q) := by
  have hh := height_sub l p q
  have ht : area (q - p) l.vector ≠ 0 := by
    intro h0
    rw [area_swap, h0] at hh
    exact h (by linarith)
  refine ⟨_, intersectScalar_free l (Line.through p q .free) rfl ht, fun s => ?_⟩
  simp only [Line.through]
  have e : area (q - p) (l.at s - p) =
      area (q - p) (l.start - p) + s * area (q - p) l.vector := by
    simp only [Line.at, area, Pi.sub_apply, Pi.add_apply, Pi.smul_apply, smul_eq_mul]; ring
  have hh' : height l p - height l q = area (q - p) l.vector := by
    rw [area_swap l.vector]; linarith
  rw [hh', e, sub_mul, div_mul_cancel₀ _ ht, area_swap (l.start - p)]; ring

/-- The point of the line at the height 0 of a segment with ends on both sides is on the segment. -/
theorem crossing_onSegment {l : Line F 2} {P Q : Vec F 2} {t : F} (hne : height l P ≠ height l Q)
    (h : height l P * height l Q ≤ 0)
    (ht : ∀ s, area (Q - P) (l.at s - P) = (s - t) * (height l P - height l Q)) :
    OnSegment (l.at t) P Q := by
  have hd : height l P - height l Q ≠ 0 := sub_ne_zero.2 hne
  set u := height l P / (height l P - height l Q) with hu
  have hpt : l.at t = P + u • (Q - P) := by
    have hw : area (Q - P) l.vector ≠ 0 := by
      have hh := height_sub l P Q
      rw [area_swap] at hh
      intro h0
      rw [h0] at hh
      exact hne (by linarith)
    have w1 : area (Q - P) (l.at t - P - u • (Q - P)) = 0 := by
      have e1 : area (Q - P) (l.at t - P - u • (Q - P)) = area (Q - P) (l.at t - P) := by
        simp only [area, Pi.sub_apply, Pi.smul_apply, smul_eq_mul]; ring
      rw [e1, ht t]; ring
    have w2 : area l.vector (l.at t - P - u • (Q - P)) = 0 := by
      have e1 : area l.vector (l.at t - P - u • (Q - P)) = -height l P + u * (height l P - height l Q) := by
        simp only [height, Line.at, area, Pi.sub_apply, Pi.add_apply, Pi.smul_apply, smul_eq_mul]; ring
      rw [e1, hu, div_mul_cancel₀ _ hd]; ring
    have dep : ∀ a b w : Vec F 2, ∀ j, area a b * w j = area a w * b j - area b w * a j := by
      intro a b w j
      fin_cases j
      · simp only [area, Fin.zero_eta, Fin.isValue]; ring
      · simp only [area, Fin.mk_one, Fin.isValue]; ring
    have hz : l.at t - P - u • (Q - P) = 0 := by
      funext j
      have := dep (Q - P) l.vector (l.at t - P - u • (Q - P)) j
      rw [w1, w2, zero_mul, zero_mul, sub_zero] at this
      exact (mul_eq_zero.1 this).resolve_left hw
    rw [sub_sub] at hz
    exact sub_eq_zero.1 hz
  have hu01 : 0 ≤ u ∧ u ≤ 1 := by
    rcases lt_or_gt_of_ne hd with hd | hd
    · have h4 : height l P ≤ 0 := by
        by_contra h5
        have := mul_pos (not_le.1 h5) (show 0 < height l Q by linarith)
        linarith
      have h5 : 0 ≤ height l Q := by
        by_contra h5
        have := mul_pos_of_neg_of_neg (show height l P < 0 by linarith) (not_le.1 h5)
        linarith
      exact ⟨div_nonneg_of_nonpos h4 hd.le, (div_le_one_of_neg hd).2 (by linarith)⟩
    · have h4 : 0 ≤ height l P := by
        by_contra h5
        have := mul_pos_of_neg_of_neg (not_le.1 h5) (show height l Q < 0 by linarith)
        linarith
      have h5 : height l Q ≤ 0 := by
        by_contra h5
        have := mul_pos (show 0 < height l P by linarith) (not_le.1 h5)
        linarith
      exact ⟨div_nonneg h4 hd.le, (div_le_one hd).2 (by linarith)⟩
  exact ⟨u, hu01.1, hu01.2, hpt⟩

/-- The point of the line at the height 0 of an edge of the polygon is in the polygon. -/
theorem crossing_inPolygon (hc : StrictlyConvex poly) {l : Line F 2} {i : Nat} {t : F}
    (hne : height l (vert poly i) ≠ height l (vert poly (i + 1)))
    (h : height l (vert poly i) * height l (vert poly (i + 1)) ≤ 0)
    (ht : ∀ s, area (vert poly (i + 1) - vert poly i) (l.at s - vert poly i) =
      (s - t) * (height l (vert poly i) - height l (vert poly (i + 1)))) :
    InPolygon (l.at t) poly := by
  rw [inPolygon_iff]
  intro k hk
  have h1 := hc.leftOrOn' k i
  have h2 := hc.leftOrOn' k (i + 1)
  obtain ⟨u, hu0, hu1, hpt⟩ := crossing_onSegment hne h ht
  set P := vert poly i
  set Q := vert poly (i + 1)
  have e : area (edgeAt poly k) (l.at t - vert poly k) =
      (1 - u) * area (edgeAt poly k) (P - vert poly k) + u * area (edgeAt poly k) (Q - vert poly k) := by
    rw [hpt]; simp only [area, Pi.sub_apply, Pi.add_apply, Pi.smul_apply, smul_eq_mul]; ring
  rw [e]
  have := mul_nonneg (show 0 ≤ 1 - u by linarith) h1
  have := mul_nonneg hu0 h2
  linarith

/-- The edge that is found on the chain from one vertex to another. -/
theorem chain_found (l : Line F 2) {first last : Nat} (hf : first < poly.length)
    (hl : last < poly.length) (hne : first ≠ last) :
    ∃ i < poly.length, intersectChain l poly first last (vertexOrient l poly first) =
        intersectScalar l (Line.through (vert poly i) (vert poly (i + 1)) .free) ∧
      vertexOrient l poly i = vertexOrient l poly first ∧
      (vertexOrient l poly ((i + 1) % poly.length) ≠ vertexOrient l poly first ∨
        (i + 1) % poly.length = last) := by
  obtain ⟨d, hd1, hd2, hd3⟩ : ∃ d, 1 ≤ d ∧ d < poly.length ∧ (first + d) % poly.length = last := by
    rcases Nat.lt_or_gt_of_ne hne with h | h
    · exact ⟨last - first, by omega, by omega, by
        rw [show first + (last - first) = last by omega, Nat.mod_eq_of_lt hl]⟩
    · exact ⟨last + poly.length - first, by omega, by omega, by
        rw [show first + (last + poly.length - first) = last + poly.length by omega,
          Nat.add_mod_right, Nat.mod_eq_of_lt hl]⟩
  obtain ⟨i, hi, e, h1, h2⟩ := chainLoop_spec (orient := vertexOrient l poly) (stop := last)
    poly.length first d hf hd1 hd2 hd2.le rfl (Or.inr hd3)
  refine ⟨i, hi, ?_, h1, h2⟩
  rw [hd3] at e
  rw [intersectChain, e]
  simp only
  rw [polyAt_eq hi, polyAt_eq (Nat.mod_lt _ (by omega)), vert_mod]

open Classical in
/-- **C72.** The intersection of a line, ray or segment with a convex polygon: nothing is written if the
line misses the polygon; otherwise the line is in the polygon from one parameter to another, and those
of the two that belong to the ray or segment are written. -/
theorem intersectConvex_correct (hc : StrictlyConvex poly) {l : Line F 2} (hv : l.vector ≠ 0) :
    ((∀ t, ¬ InPolygon (l.at t) poly) ∧ intersectConvex l poly = some []) ∨
    ∃ t₁ t₂, t₁ ≤ t₂ ∧ (∀ t, InPolygon (l.at t) poly ↔ t₁ ≤ t ∧ t ≤ t₂) ∧
      intersectConvex l poly = some ((if Allowed l.kind t₁ then [t₁] else []) ++
        (if Allowed l.kind t₂ then [t₂] else [])) := by
  have h3 := hc.1
  have hv' : -l.vector ≠ 0 := neg_ne_zero.2 hv
  have hdeg : ¬ degenerate l.vector = true := by rw [degenerate_iff]; exact hv
  obtain ⟨m, em, hm, -, hm1, hm2⟩ := extremeVertex_correct hc hv
  obtain ⟨M, eM, hM, -, hM1, hM2⟩ := extremeVertex_correct hc hv'
  have hmin : ∀ k, height l (vert poly m) ≤ height l (vert poly k) := by
    intro k
    have := hm1 _ (vert_mem (by omega) k)
    simp only [LeftOrOn, Pi.add_apply] at this
    simp only [height, area, Pi.sub_apply]; linarith
  have hmax : ∀ k, height l (vert poly k) ≤ height l (vert poly M) := by
    intro k
    have := hM1 _ (vert_mem (by omega) k)
    simp only [LeftOrOn, Pi.add_apply, Pi.neg_apply] at this
    simp only [height, area, Pi.sub_apply]; linarith
  have hlt : height l (vert poly m) < height l (vert poly M) := by
    by_contra hge
    have hall : ∀ k, height l (vert poly k) = height l (vert poly m) := fun k =>
      le_antisymm ((hmax k).trans (not_lt.1 hge)) (hmin k)
    have hin : ∀ k, inner (vert poly k) (perp l.vector) = inner (vert poly m) (perp l.vector) := by
      intro k
      have := hall k
      rw [inner_perp, inner_perp]
      simp only [height, area, Pi.sub_apply] at this ⊢
      linarith
    exact (hc.linear_local (perp_ne hv) 0).2.2 (by rw [hin, hin (0 + 1)]) (by rw [hin, hin (0 + 2)])
  have hmM : M ≠ m := by rintro rfl; exact lt_irrefl _ hlt
  have hat : ∀ t, height l (l.at t) = 0 := by
    intro t; simp only [height, Line.at, area, Pi.sub_apply, Pi.add_apply, Pi.smul_apply, smul_eq_mul]; ring
  unfold intersectConvex
  rw [if_neg hdeg, em, eM]
  simp only [Option.bind_some]
  by_cases hout : vertexOrient l poly M = .left ∨ vertexOrient l poly m = .right
  · left
    rw [if_pos hout]
    refine ⟨fun t ht => ?_, rfl⟩
    rw [vertexOrient_left hM, vertexOrient_right hm] at hout
    have h1 := height_min hc hmin ht
    have h2 := height_max hc hmax ht
    rw [hat] at h1 h2
    rcases hout with h | h <;> linarith
  · right
    rw [if_neg hout]
    rw [vertexOrient_left hM, vertexOrient_right hm, not_or, not_lt, not_lt] at hout
    obtain ⟨hM0, hm0⟩ := hout
    obtain ⟨i, hi, ei, oi, li⟩ := chain_found l hM hm hmM
    obtain ⟨j, hj, ej, oj, lj⟩ := chain_found l hm hM hmM.symm
    have hi' : (i + 1) % poly.length < poly.length := Nat.mod_lt _ (by omega)
    have hj' : (j + 1) % poly.length < poly.length := Nat.mod_lt _ (by omega)
    -- the edge found on the first chain goes down
    have hdown : 0 ≤ height l (vert poly i) ∧ height l (vert poly (i + 1)) ≤ 0 ∧
        height l (vert poly (i + 1)) < height l (vert poly i) := by
      rw [← vert_mod (i + 1)]
      rcases lt_or_eq_of_le hM0 with h | h
      · rw [(vertexOrient_right hM).2 h, vertexOrient_right hi] at oi
        have : height l (vert poly ((i + 1) % poly.length)) ≤ 0 := by
          rcases li with h5 | h5
          · rw [(vertexOrient_right hM).2 h, Ne, vertexOrient_right hi'] at h5; exact not_lt.1 h5
          · rw [h5]; exact hm0
        exact ⟨oi.le, this, by linarith⟩
      · rw [(vertexOrient_collinear hM).2 h.symm, vertexOrient_collinear hi] at oi
        have : height l (vert poly ((i + 1) % poly.length)) < 0 := by
          rcases li with h5 | h5
          · rw [(vertexOrient_collinear hM).2 h.symm, Ne, vertexOrient_collinear hi'] at h5
            have h6 := hmax ((i + 1) % poly.length)
            rw [← h] at h6
            exact lt_of_le_of_ne h6 h5
          · rw [h5, h]; exact hlt
        exact ⟨oi.ge, this.le, by linarith⟩
    -- the edge found on the second chain goes up
    have hup : height l (vert poly j) ≤ 0 ∧ 0 ≤ height l (vert poly (j + 1)) ∧
        height l (vert poly j) < height l (vert poly (j + 1)) := by
      rw [← vert_mod (j + 1)]
      rcases lt_or_eq_of_le hm0 with h | h
      · rw [(vertexOrient_left hm).2 h, vertexOrient_left hj] at oj
        have : 0 ≤ height l (vert poly ((j + 1) % poly.length)) := by
          rcases lj with h5 | h5
          · rw [(vertexOrient_left hm).2 h, Ne, vertexOrient_left hj'] at h5; exact not_lt.1 h5
          · rw [h5]; exact hM0
        exact ⟨oj.le, this, by linarith⟩
      · rw [(vertexOrient_collinear hm).2 h, vertexOrient_collinear hj] at oj
        have : 0 < height l (vert poly ((j + 1) % poly.length)) := by
          rcases lj with h5 | h5
          · rw [(vertexOrient_collinear hm).2 h, Ne, vertexOrient_collinear hj'] at h5
            have h6 := hmin ((j + 1) % poly.length)
            rw [h] at h6
            exact lt_of_le_of_ne h6 (Ne.symm h5)
          · rw [h5, ← h]; exact hlt
        exact ⟨oj.le, this.le, by linarith⟩
    obtain ⟨t₁, e1, a1⟩ := intersectScalar_edge l _ _ hdown.2.2.ne'
    obtain ⟨t₂, e2, a2⟩ := intersectScalar_edge l _ _ hup.2.2.ne
    have in1 : InPolygon (l.at t₁) poly := crossing_inPolygon hc hdown.2.2.ne'
      (mul_nonpos_of_nonneg_of_nonpos hdown.1 hdown.2.1) a1
    have in2 : InPolygon (l.at t₂) poly := crossing_inPolygon hc hup.2.2.ne
      (mul_nonpos_of_nonpos_of_nonneg hup.1 hup.2.1) a2
    have bounds : ∀ t, InPolygon (l.at t) poly → t₁ ≤ t ∧ t ≤ t₂ := by
      intro t ht
      have b1 := (inPolygon_iff _).1 ht i hi
      have b2 := (inPolygon_iff _).1 ht j hj
      rw [edgeAt, a1] at b1
      rw [edgeAt, a2] at b2
      constructor
      · by_contra h
        have := mul_neg_of_neg_of_pos (show t - t₁ < 0 by linarith [not_le.1 h])
          (show 0 < height l (vert poly i) - height l (vert poly (i + 1)) by linarith [hdown.2.2])
        linarith
      · by_contra h
        have := mul_neg_of_pos_of_neg (show 0 < t - t₂ by linarith [not_le.1 h])
          (show height l (vert poly j) - height l (vert poly (j + 1)) < 0 by linarith [hup.2.2])
        linarith
    refine ⟨t₁, t₂, (bounds t₁ in1).2, fun t => ⟨bounds t, fun ⟨h1, h2⟩ => ?_⟩, ?_⟩
    · rw [inPolygon_iff]
      intro k hk
      have c1 := (inPolygon_iff _).1 in1 k hk
      have c2 := (inPolygon_iff _).1 in2 k hk
      have aff : ∀ s, area (edgeAt poly k) (l.at s - vert poly k) =
          area (edgeAt poly k) (l.start - vert poly k) + s * area (edgeAt poly k) l.vector := by
        intro s
        simp only [Line.at, area, Pi.sub_apply, Pi.add_apply, Pi.smul_apply, smul_eq_mul]; ring
      rw [aff] at c1 c2 ⊢
      rcases le_total 0 (area (edgeAt poly k) l.vector) with hs | hs
      · have := mul_le_mul_of_nonneg_right h1 hs; linarith
      · have := mul_le_mul_of_nonpos_right h2 hs; linarith
    · rw [ei, ej, e1, e2]

/-- A line through a pentagon: both parameters are written, from right to left of the line first. -/
example : intersectConvex ⟨![(-2 : ℚ), 1], ![1, 0], .free⟩ [![0, 0], ![2, 0], ![3, 2], ![1, 4], ![-1, 2]] =
    some [3 / 2, 9 / 2] := by decide +kernel

/-- The segment from (0, 1) to (4, 1) leaves the pentagon once. -/
example : intersectConvex (Line.through ![(0 : ℚ), 1] ![4, 1] .closedSegment)
    [![0, 0], ![2, 0], ![3, 2], ![1, 4], ![-1, 2]] = some [5 / 8] := by decide +kernel

/-- A line that touches the polygon in one vertex: its parameter is written twice. -/
example : intersectConvex ⟨![(0 : ℚ), 4], ![1, 0], .free⟩ [![0, 0], ![2, 0], ![3, 2], ![1, 4], ![-1, 2]] =
    some [1, 1] := by decide +kernel

/-- A line that meets the polygon in an edge: the parameters of its ends. -/
example : intersectConvex ⟨![(0 : ℚ), 0], ![1, 0], .free⟩ [![0, 0], ![2, 0], ![3, 2], ![1, 4], ![-1, 2]] =
    some [0, 2] := by decide +kernel

/-- A line that misses the polygon. -/
example : intersectConvex ⟨![(0 : ℚ), 5], ![1, 0], .free⟩ [![0, 0], ![2, 0], ![3, 2], ![1, 4], ![-1, 2]] =
    some [] := by decide +kernel

open Classical in
/-- A triangle and a segment meet the hypotheses. -/
example : ((∀ t, ¬ InPolygon ((Line.through ![(0 : ℚ), 1] ![4, 1] .closedSegment).at t)
      [![0, 0], ![4, 0], ![2, 3]]) ∧ intersectConvex (Line.through ![(0 : ℚ), 1] ![4, 1] .closedSegment)
        [![0, 0], ![4, 0], ![2, 3]] = some []) ∨
    ∃ t₁ t₂, t₁ ≤ t₂ ∧ (∀ t, InPolygon ((Line.through ![(0 : ℚ), 1] ![4, 1] .closedSegment).at t)
        [![0, 0], ![4, 0], ![2, 3]] ↔ t₁ ≤ t ∧ t ≤ t₂) ∧
      intersectConvex (Line.through ![(0 : ℚ), 1] ![4, 1] .closedSegment) [![0, 0], ![4, 0], ![2, 3]] =
        some ((if Allowed .closedSegment t₁ then [t₁] else []) ++ (if Allowed .closedSegment t₂ then [t₂] else [])) :=
  intersectConvex_correct (l := Line.through ![(0 : ℚ), 1] ![4, 1] .closedSegment)
    (strictlyConvex_triangle (by simp [StrictLeft]))
    (by intro h; have := congrFun h 0; simp [Line.through] at this)

end Actl.Geo
