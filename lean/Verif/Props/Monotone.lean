import Verif.Lemmas.Monotone

/-!
# C63: point in a monotone polygon

* `withinMonotone_eq`: the search gives the same as the winding number, for every monotone polygon whose
  lower chain is not above its upper chain at the point.
* `withinConvexMonotone_eq`, `withinMonotone_convex`: both searches are right for every strictly convex
  polygon and every point.
-/

namespace Actl.Geo

variable {F : Type*} [Field F] [LinearOrder F] [IsStrictOrderedRing F]

/-! ### The edges found by the search -/

theorem lowerBound_le (l : List (Vec F 2)) (p : Vec F 2) : lowerBound l p ≤ l.length :=
  (List.takeWhile_sublist _).length_le

theorem lowerEdges_eq (a m : Vec F 2) (l u : List (Vec F 2)) :
    lowerEdges (a :: l ++ m :: u) (l.length + 1) = pairs (a :: l ++ [m]) ∧
      upperEdges (a :: l ++ m :: u) (l.length + 1) = pairs (m :: u ++ [a]) := by
  have h : edges (a :: l ++ m :: u) = pairs (a :: l ++ [m]) ++ pairs (m :: u ++ [a]) := by
    rw [show a :: l ++ m :: u = a :: (l ++ m :: u) from rfl, edges_cons,
      show a :: (l ++ m :: u) ++ [a] = (a :: l) ++ m :: (u ++ [a]) by simp, pairs_append]
    rfl
  have hl : (pairs (a :: l ++ [m])).length = l.length + 1 := by rw [pairs_length]; simp
  unfold lowerEdges upperEdges
  rw [h]
  exact ⟨by rw [← hl, List.take_left], by rw [← hl, List.drop_left]⟩

theorem lowerEdge_found {poly : List (Vec F 2)} {a m p : Vec F 2} {l u : List (Vec F 2)}
    (hpoly : poly = a :: l ++ m :: u) (hp : (a :: l ++ [m]).Pairwise LexLess)
    (ha : key a ≤ key p) (hm : key p ≤ key m) :
    ∃ x y, lowerEdge poly (l.length + 1) p = some (x, y) ∧ (x, y) ∈ lowerEdges poly (l.length + 1) ∧
      key x ≤ key p ∧ key p ≤ key y ∧
      (key a < key p → crossingsV p (lowerEdges poly (l.length + 1)) = crossingV (x - p) (y - p)) := by
  obtain ⟨x, y, h1, h2, h3, h4, h5, h6⟩ := locate p m l a hp ha hm
  have hle := lowerBound_le l p
  rw [hpoly, (lowerEdges_eq a m l u).1]
  refine ⟨x, y, ?_, h3, h4, h5, h6⟩
  unfold lowerEdge
  rw [if_neg (by omega)]
  have e1 : ((a :: l ++ m :: u).drop 1).take (l.length + 1 - 1) = l := by simp
  simp only [e1]
  have e2 : (a :: l ++ m :: u)[1 + lowerBound l p - 1]? = some x := by
    rw [show 1 + lowerBound l p - 1 = lowerBound l p by omega, List.getElem?_append_left (by simp; omega)]
    exact h1
  have e3 : (a :: l ++ m :: u)[1 + lowerBound l p]? = some y := by
    rw [add_comm, List.cons_append, List.getElem?_cons_succ,
      show l ++ m :: u = (l ++ [m]) ++ u by simp, List.getElem?_append_left (by simp; omega)]
    exact h2
  rw [e2, e3]

theorem upperEdge_found {poly : List (Vec F 2)} {a m p : Vec F 2} {l u : List (Vec F 2)}
    (hpoly : poly = a :: l ++ m :: u) (hp : (a :: u.reverse ++ [m]).Pairwise LexLess)
    (ha : key a ≤ key p) (hm : key p ≤ key m) :
    ∃ x y, upperEdge poly (l.length + 1) p = some (x, y) ∧ (x, y) ∈ upperEdges poly (l.length + 1) ∧
      key y ≤ key p ∧ key p ≤ key x ∧
      (key a < key p → crossingsV p (upperEdges poly (l.length + 1)) = crossingV (x - p) (y - p)) := by
  obtain ⟨x, y, h1, h2, h3, h4, h5, h6⟩ := locate p m u.reverse a hp ha hm
  have hle := lowerBound_le u.reverse p
  have hrev : pairs (m :: u ++ [a]) = ((pairs (a :: u.reverse ++ [m])).map Prod.swap).reverse := by
    rw [← pairs_reverse]; simp
  rw [hpoly, (lowerEdges_eq a m l u).2]
  refine ⟨y, x, ?_, ?_, h4, h5, fun ha' => ?_⟩
  · unfold upperEdge
    have hr : (a :: l ++ m :: u).reverse = u.reverse ++ m :: (l.reverse ++ [a]) := by simp
    have e1 : (a :: l ++ m :: u).reverse.take ((a :: l ++ m :: u).length - (l.length + 1) - 1) =
        u.reverse := by
      rw [hr, show (a :: l ++ m :: u).length - (l.length + 1) - 1 = u.reverse.length by simp,
        List.take_left]
    simp only [e1]
    have e2 : (a :: l ++ m :: u).reverse[lowerBound u.reverse p]? = some y := by
      rw [hr, show u.reverse ++ m :: (l.reverse ++ [a]) = (u.reverse ++ [m]) ++ (l.reverse ++ [a]) by simp,
        List.getElem?_append_left (by simp at hle ⊢; omega)]
      exact h2
    have e3 : (if lowerBound u.reverse p = 0 then (a :: l ++ m :: u)[0]?
        else (a :: l ++ m :: u).reverse[lowerBound u.reverse p - 1]?) = some x := by
      rw [← h1]
      split_ifs with h0
      · rw [h0]; rfl
      · obtain ⟨k, hk⟩ := Nat.exists_eq_succ_of_ne_zero h0
        rw [hk] at hle ⊢
        rw [hr, List.getElem?_cons_succ, List.getElem?_append_left (by simp at hle ⊢; omega)]
        rfl
    rw [e2, e3]
  · rw [hrev, List.mem_reverse]
    exact List.mem_map.2 ⟨(x, y), h3, rfl⟩
  · rw [hrev, crossingsV_swap, h6 ha', crossingV_swap, neg_neg]

/-! ### Points and edges in the order from left to right -/

theorem key_add_smul_le {p x y : Vec F 2} {t : F} (h0 : 0 ≤ t) (h1 : t ≤ 1) (e : p = x + t • (y - x))
    (h : key x ≤ key y) : key x ≤ key p ∧ key p ≤ key y := by
  rw [key_le_iff] at h
  rw [key_le_iff, key_le_iff]
  constructor
  · have : p - x = t • (y - x) := by rw [e]; simp
    rw [this]; exact h.smul h0
  · have : y - p = (1 - t) • (y - x) := by
      rw [e]; apply vec2_ext <;> simp <;> ring
    rw [this]; exact h.smul (by linarith)

theorem OnSegment.between {p x y : Vec F 2} (h : OnSegment p x y) :
    (key x ≤ key p ∧ key p ≤ key y) ∨ (key y ≤ key p ∧ key p ≤ key x) := by
  rcases le_total (key x) (key y) with hxy | hxy
  · obtain ⟨t, h0, h1, e⟩ := h
    exact .inl (key_add_smul_le h0 h1 e hxy)
  · obtain ⟨t, h0, h1, e⟩ := onSegment_symm h
    exact .inr (key_add_smul_le h0 h1 e hxy)

theorem OnSegment.area_zero {p x y : Vec F 2} (h : OnSegment p x y) : area (x - p) (y - p) = 0 := by
  obtain ⟨t, h0, h1, e⟩ := h
  have e0 : p 0 = x 0 + t * (y 0 - x 0) := by rw [e]; simp
  have e1 : p 1 = x 1 + t * (y 1 - x 1) := by rw [e]; simp
  simp only [area, Pi.sub_apply, e0, e1]
  ring

theorem onSegment_of_area {p x y : Vec F 2} (hx : key x ≤ key p) (hy : key p ≤ key y)
    (h : area (x - p) (y - p) = 0) : OnSegment p x y := by
  rw [key_le_iff] at hx hy
  unfold LexNonneg at hx hy
  simp only [area, Pi.sub_apply] at h hx hy
  -- enough: a convex combination
  have fin : ∀ c d : F, 0 ≤ c → 0 ≤ d → 0 < c + d → c * (x 0 - p 0) + d * (y 0 - p 0) = 0 →
      c * (x 1 - p 1) + d * (y 1 - p 1) = 0 → OnSegment p x y := by
    intro c d hc hd hcd h0 h1
    refine ⟨d / (c + d), div_nonneg hd hcd.le, (div_le_one hcd).2 (by linarith), vec2_ext ?_ ?_⟩
    · simp only [Pi.add_apply, Pi.smul_apply, Pi.sub_apply, smul_eq_mul]
      field_simp
      linear_combination -h0
    · simp only [Pi.add_apply, Pi.smul_apply, Pi.sub_apply, smul_eq_mul]
      field_simp
      linear_combination -h1
  have hx0 : 0 ≤ p 0 - x 0 := by rcases hx with hx | ⟨hx, -⟩ <;> linarith
  have hy0 : 0 ≤ y 0 - p 0 := by rcases hy with hy | ⟨hy, -⟩ <;> linarith
  rcases (add_nonneg hy0 hx0).lt_or_eq with hs | hs
  · exact fin (y 0 - p 0) (p 0 - x 0) hy0 hx0 hs (by ring) (by linear_combination -h)
  · have zx : p 0 - x 0 = 0 := by linarith
    have zy : y 0 - p 0 = 0 := by linarith
    have hx1 : 0 ≤ p 1 - x 1 := by rcases hx with hx | ⟨-, hx⟩ <;> linarith
    have hy1 : 0 ≤ y 1 - p 1 := by rcases hy with hy | ⟨-, hy⟩ <;> linarith
    rcases (add_nonneg hy1 hx1).lt_or_eq with hs | hs
    · refine fin (y 1 - p 1) (p 1 - x 1) hy1 hx1 hs ?_ (by ring)
      rw [zy, show x 0 - p 0 = 0 by linarith]; ring
    · exact fin 1 0 zero_le_one le_rfl (by simp) (by linarith) (by linarith)

/-- Two edges of an ascending chain at the same position are the same, or the position is a vertex. -/
theorem span_unique {p : Vec F 2} : ∀ (c : List (Vec F 2)), c.Pairwise LexLess →
    ∀ x y x' y' : Vec F 2, (x, y) ∈ pairs c → (x', y') ∈ pairs c → key x ≤ key p → key p ≤ key y →
      key x' ≤ key p → key p ≤ key y' → (x = x' ∧ y = y') ∨ p = y ∨ p = y'
  | [], _ => by intro x y x' y' h; simp [pairs] at h
  | [v], _ => by intro x y x' y' h; simp [pairs] at h
  | v :: w :: rest, hc => fun x y x' y' h h' hx hy hx' hy' => by
    have hw : ∀ z ∈ w :: rest, key w ≤ key z := by
      intro z hz
      rcases List.mem_cons.1 hz with rfl | hz
      · exact le_rfl
      · exact (lexLess_iff.1 ((List.pairwise_cons.1 (List.pairwise_cons.1 hc).2).1 z hz)).le
    have hmem : ∀ {z z' : Vec F 2}, (z, z') ∈ pairs (w :: rest) → z ∈ w :: rest := by
      intro z z' hz
      obtain ⟨l₁, l₂, e⟩ := mem_pairs.1 hz
      rw [e]; simp
    rw [pairs, List.mem_cons] at h h'
    rcases h with h | h <;> rcases h' with h' | h'
    · obtain ⟨rfl, rfl⟩ := Prod.mk.inj h
      obtain ⟨rfl, rfl⟩ := Prod.mk.inj h'
      exact .inl ⟨rfl, rfl⟩
    · obtain ⟨rfl, rfl⟩ := Prod.mk.inj h
      exact .inr (.inl (key_inj.1 (le_antisymm hy ((hw _ (hmem h')).trans hx'))))
    · obtain ⟨rfl, rfl⟩ := Prod.mk.inj h'
      exact .inr (.inr (key_inj.1 (le_antisymm hy' ((hw _ (hmem h)).trans hx))))
    · exact span_unique _ (List.pairwise_cons.1 hc).2 _ _ _ _ h h' hx hy hx' hy'

theorem area_self_right (p x : Vec F 2) : area (x - p) (p - p) = 0 := by simp [area]
theorem area_self_left (p x : Vec F 2) : area (p - p) (x - p) = 0 := by simp [area]

/-- An edge of an ascending chain that contains the point, and the edge found. -/
theorem area_zero_of_onSegment {p : Vec F 2} {c : List (Vec F 2)} (hc : c.Pairwise LexLess)
    {x y x' y' : Vec F 2} (h : (x, y) ∈ pairs c) (h' : (x', y') ∈ pairs c)
    (hx : key x ≤ key p) (hy : key p ≤ key y) (hs : OnSegment p x' y') :
    area (x - p) (y - p) = 0 := by
  have hlt : key x' < key y' := by
    obtain ⟨l₁, l₂, e⟩ := mem_pairs.1 h'
    rw [e] at hc
    have := (List.pairwise_append.1 hc).2.1
    exact lexLess_iff.1 ((List.pairwise_cons.1 this).1 y' (by simp))
  have hsp : key x' ≤ key p ∧ key p ≤ key y' := by
    rcases hs.between with h | ⟨h1, h2⟩
    · exact h
    · exact absurd (h1.trans h2) (not_le.2 hlt)
  rcases span_unique _ hc _ _ _ _ h h' hx hy hsp.1 hsp.2 with ⟨rfl, rfl⟩ | e | e
  · exact hs.area_zero
  · rw [← e]; exact area_self_right p x
  · -- the point is the end of the other edge, a vertex of the chain
    rw [← e] at h' hlt
    -- then it is an end of the edge found
    have hor : ∀ {c : List (Vec F 2)}, c.Pairwise LexLess → ∀ {x y z : Vec F 2}, (x, y) ∈ pairs c →
        z ∈ c → key x ≤ key z → key z ≤ key y → z = x ∨ z = y := by
      intro c hc x y z hxy hz h1 h2
      obtain ⟨l₁, l₂, e⟩ := mem_pairs.1 hxy
      rw [e] at hc hz
      obtain ⟨-, q2, q3⟩ := List.pairwise_append.1 hc
      rcases List.mem_append.1 hz with hz | hz
      · exact absurd h1 (not_le.2 (lexLess_iff.1 (q3 z hz x (by simp))))
      · rcases List.mem_cons.1 hz with rfl | hz
        · exact .inl rfl
        · rcases List.mem_cons.1 hz with rfl | hz
          · exact .inr rfl
          · exact absurd h2 (not_le.2 (lexLess_iff.1
              ((List.pairwise_cons.1 (List.pairwise_cons.1 q2).2).1 z hz)))
    have hpc : p ∈ c := by
      obtain ⟨l₁, l₂, e⟩ := mem_pairs.1 h'
      rw [e]; simp
    rcases hor hc h hpc hx hy with e' | e'
    · rw [← e']; exact area_self_left p y
    · rw [← e']; exact area_self_right p x

theorem orientation3_right {p x y : Vec F 2} : orientation3 p y x = .right ↔ 0 < area (x - p) (y - p) := by
  rw [orientation3_val, ofSign_right']

theorem strictLeft_area {p x y : Vec F 2} : StrictLeft x y p ↔ 0 < area (x - p) (y - p) := by
  unfold StrictLeft
  rw [show (y 0 - x 0) * (p 1 - x 1) - (y 1 - x 1) * (p 0 - x 0) = area (x - p) (y - p) by
    simp only [area, Pi.sub_apply]; ring]

theorem strictRight_area {p x y : Vec F 2} : StrictRight x y p ↔ area (x - p) (y - p) < 0 := by
  unfold StrictRight
  rw [show (y 0 - x 0) * (p 1 - x 1) - (y 1 - x 1) * (p 0 - x 0) = area (x - p) (y - p) by
    simp only [area, Pi.sub_apply]; ring]

theorem toInclusion_pos {p x y : Vec F 2} (h : 0 < area (x - p) (y - p)) :
    toInclusion (orientation3 p y x) = .inside := by
  rw [orientation3_right.2 h]; rfl

theorem toInclusion_neg {p x y : Vec F 2} (h : area (x - p) (y - p) < 0) :
    toInclusion (orientation3 p y x) = .outside := by
  rw [orientation3_val, Turn.ofSign, if_pos h]; rfl

theorem toInclusion_zero {p x y : Vec F 2} (h : area (x - p) (y - p) = 0) :
    toInclusion (orientation3 p y x) = .border := by
  rw [orientation3_val, h, Turn.ofSign, if_neg (lt_irrefl _), if_neg (lt_irrefl _)]; rfl

/-! ### Monotone polygons -/

/-- The branches of the search for a polygon with at least two vertices. -/
theorem withinMonotone_long (p a m : Vec F 2) (l u : List (Vec F 2)) :
    withinMonotone p (a :: l ++ m :: u) (l.length + 1) =
      if less p a || less m p then some .outside
      else
        match lowerEdge (a :: l ++ m :: u) (l.length + 1) p with
        | none => none
        | some (x, y) =>
          if orientation3 p y x = .right then
            match upperEdge (a :: l ++ m :: u) (l.length + 1) p with
            | none => none
            | some (x', y') => some (toInclusion (orientation3 p y' x'))
          else some (toInclusion (orientation3 p y x)) := by
  have h0 : (a :: l ++ m :: u)[0]? = some a := rfl
  have h1 : (a :: l ++ m :: u)[l.length + 1]? = some m := by simp
  unfold withinMonotone
  split
  · next h => simp at h
  · next h =>
    have := congrArg List.length h
    simp at this
  · rw [h0, h1]; rfl

theorem withinConvexMonotone_long (p a m : Vec F 2) (l u : List (Vec F 2)) :
    withinConvexMonotone p (a :: l ++ m :: u) (l.length + 1) =
      if less p a || less m p then some .outside
      else
        match orientation3 p m a with
        | .collinear =>
          if isEqual p a || isEqual p m then some .border
          else if l.length + 1 = 1 ∨ l.length + 1 + 1 = (a :: l ++ m :: u).length then some .border
          else some .inside
        | .left =>
          match lowerEdge (a :: l ++ m :: u) (l.length + 1) p with
          | none => none
          | some (x, y) => some (toInclusion (orientation3 p y x))
        | .right =>
          match upperEdge (a :: l ++ m :: u) (l.length + 1) p with
          | none => none
          | some (x', y') => some (toInclusion (orientation3 p y' x')) := by
  have h0 : (a :: l ++ m :: u)[0]? = some a := rfl
  have h1 : (a :: l ++ m :: u)[l.length + 1]? = some m := by simp
  unfold withinConvexMonotone
  split
  · next h => simp at h
  · next h =>
    have := congrArg List.length h
    simp at this
  · rw [h0, h1]; rfl

theorem withinSimple_of_winding {p : Vec F 2} {poly : List (Vec F 2)} :
    (windingNumber p poly = 0 → withinSimple p poly = .outside) ∧
      (windingNumber p poly = 1 → withinSimple p poly = .inside) ∧
      (OnBorder p poly → withinSimple p poly = .border) := by
  refine ⟨fun h => by simp [withinSimple, h], fun h => ?_, fun h => ?_⟩
  · simp [withinSimple, h, boundary]
  · rw [withinSimple, (windingNumber_eq p poly).1 h]; simp [boundary]

/-- All vertices are between the first and the `right` one. -/
theorem key_range {a m : Vec F 2} {l u : List (Vec F 2)} (h1 : (a :: l ++ [m]).Pairwise LexLess)
    (h2 : (a :: u.reverse ++ [m]).Pairwise LexLess) {v : Vec F 2} (hv : v ∈ a :: l ++ m :: u) :
    key a ≤ key v ∧ key v ≤ key m := by
  have ham : key a < key m := lexLess_iff.1 ((List.pairwise_cons.1 h1).1 m (by simp))
  have aux : ∀ c : List (Vec F 2), (a :: c ++ [m]).Pairwise LexLess → v ∈ c →
      key a ≤ key v ∧ key v ≤ key m := by
    intro c hc hvc
    exact ⟨(lexLess_iff.1 ((List.pairwise_cons.1 hc).1 v (by simp [hvc]))).le,
      (lexLess_iff.1 ((List.pairwise_append.1 (List.pairwise_cons.1 hc).2).2.2 v hvc m (by simp))).le⟩
  simp only [List.cons_append, List.mem_cons, List.mem_append] at hv
  rcases hv with rfl | hv | rfl | hv
  · exact ⟨le_rfl, ham.le⟩
  · exact aux l h1 hv
  · exact ⟨ham.le, le_rfl⟩
  · exact aux u.reverse h2 (by simpa using hv)

/-- A point before all vertices, or after all, has winding number zero. -/
theorem winding_apart {p : Vec F 2} {poly : List (Vec F 2)}
    (h : (∀ v ∈ poly, key p < key v) ∨ ∀ v ∈ poly, key v < key p) : windingNumber p poly = 0 := by
  have hb : ¬ OnBorder p poly := by
    rintro ⟨e, he, hs⟩
    obtain ⟨h1, h2⟩ := mem_of_mem_edges he
    rcases h with h | h
    · have k1 := h _ h1; have k2 := h _ h2
      rcases hs.between with ⟨q, -⟩ | ⟨q, -⟩
      · exact absurd q (not_le.2 k1)
      · exact absurd q (not_le.2 k2)
    · have k1 := h _ h1; have k2 := h _ h2
      rcases hs.between with ⟨-, q⟩ | ⟨-, q⟩
      · exact absurd q (not_le.2 k2)
      · exact absurd q (not_le.2 k1)
  rw [← crossingsV_edges hb]
  apply List.sum_eq_zero
  intro x hx
  obtain ⟨e, he, rfl⟩ := List.mem_map.1 hx
  obtain ⟨h1, h2⟩ := mem_of_mem_edges he
  rcases h with h | h
  · have k1 : ¬ Before (e.1 - p) := by rw [before_iff]; exact not_lt.2 (h _ h1).le
    have k2 : ¬ Before (e.2 - p) := by rw [before_iff]; exact not_lt.2 (h _ h2).le
    simp [crossingV, k1, k2]
  · have k1 : Before (e.1 - p) := before_iff.2 (h _ h1)
    have k2 : Before (e.2 - p) := before_iff.2 (h _ h2)
    simp [crossingV, k1, k2]

theorem edges_split (a m : Vec F 2) (l u : List (Vec F 2)) :
    edges (a :: l ++ m :: u) = lowerEdges (a :: l ++ m :: u) (l.length + 1) ++
      upperEdges (a :: l ++ m :: u) (l.length + 1) := (List.take_append_drop _ _).symm

/-- The number of a point off the border, from the two edges at its position. -/
theorem winding_two {p a m : Vec F 2} {l u : List (Vec F 2)} (h1 : (a :: l ++ [m]).Pairwise LexLess)
    (h2 : (a :: u.reverse ++ [m]).Pairwise LexLess) (hb : ¬ OnBorder p (a :: l ++ m :: u))
    (ha : key a < key p) (hm : key p < key m) :
    ∃ x y x' y', lowerEdge (a :: l ++ m :: u) (l.length + 1) p = some (x, y) ∧
      upperEdge (a :: l ++ m :: u) (l.length + 1) p = some (x', y') ∧
      (x, y) ∈ lowerEdges (a :: l ++ m :: u) (l.length + 1) ∧
      (x', y') ∈ upperEdges (a :: l ++ m :: u) (l.length + 1) ∧
      key x < key p ∧ key p < key y ∧ key y' < key p ∧ key p < key x' ∧
      area (x - p) (y - p) ≠ 0 ∧ area (x' - p) (y' - p) ≠ 0 ∧
      windingNumber p (a :: l ++ m :: u) =
        (if 0 < area (x - p) (y - p) then 1 else 0) - (if area (x' - p) (y' - p) < 0 then 1 else 0) := by
  obtain ⟨x, y, f1, f2, f3, f4, f5⟩ := lowerEdge_found rfl h1 ha.le hm.le (u := u)
  obtain ⟨x', y', g1, g2, g3, g4, g5⟩ := upperEdge_found rfl h2 ha.le hm.le (l := l)
  have hin1 : (x, y) ∈ edges (a :: l ++ m :: u) := by
    rw [edges_split]; exact List.mem_append_left _ f2
  have hin2 : (x', y') ∈ edges (a :: l ++ m :: u) := by
    rw [edges_split]; exact List.mem_append_right _ g2
  have hne : ∀ v ∈ a :: l ++ m :: u, key v ≠ key p := by
    intro v hv e
    obtain ⟨w, hw⟩ := exists_edge_from hv
    exact hb ⟨(v, w), hw, 0, le_rfl, zero_le_one, by simp [key_inj.1 e]⟩
  have k1 := lt_of_le_of_ne f3 (hne _ (mem_of_mem_edges hin1).1)
  have k2 := lt_of_le_of_ne f4 (hne _ (mem_of_mem_edges hin1).2).symm
  have k3 := lt_of_le_of_ne g3 (hne _ (mem_of_mem_edges hin2).2)
  have k4 := lt_of_le_of_ne g4 (hne _ (mem_of_mem_edges hin2).1).symm
  refine ⟨x, y, x', y', f1, g1, f2, g2, k1, k2, k3, k4, ?_, ?_, ?_⟩
  · intro h0
    exact hb ⟨(x, y), hin1, onSegment_of_area f3 f4 h0⟩
  · intro h0
    refine hb ⟨(x', y'), hin2, onSegment_symm (onSegment_of_area g3 g4 ?_)⟩
    simp only [area] at h0 ⊢
    linear_combination -h0
  · rw [← crossingsV_edges hb, edges_split, crossingsV_append, f5 ha, g5 ha]
    have b1 : Before (x - p) := before_iff.2 k1
    have b2 : ¬ Before (y - p) := by rw [before_iff]; exact not_lt.2 k2.le
    have b3 : Before (y' - p) := before_iff.2 k3
    have b4 : ¬ Before (x' - p) := by rw [before_iff]; exact not_lt.2 k4.le
    simp only [crossingV, b1, b2, b3, b4, not_true_eq_false, not_false_eq_true, true_and, false_and,
      if_false]
    split_ifs <;> rfl

/-- C63. In a monotone polygon whose lower chain is not above its upper chain at the position of the
point, the search by bisection gives the classification by the winding number. -/
theorem withinMonotone_eq (p : Vec F 2) (poly : List (Vec F 2)) (right : Nat)
    (hmono : Monotone poly right) (hinv : NotInverted poly right p) :
    withinMonotone p poly right = some (withinSimple p poly) := by
  obtain ⟨a, l, m, u, rfl, rfl, h1, h2⟩ := hmono
  rw [withinMonotone_long]
  by_cases hpa : less p a = true
  · have hpa' := (less_iff _ _).1 hpa
    rw [if_pos (by simp [hpa]), withinSimple_of_winding.1 (winding_apart (.inl fun v hv =>
      hpa'.trans_le (key_range h1 h2 hv).1))]
  by_cases hmp : less m p = true
  · have hmp' := (less_iff _ _).1 hmp
    rw [if_pos (by simp [hmp]), withinSimple_of_winding.1 (winding_apart (.inr fun v hv =>
      (key_range h1 h2 hv).2.trans_lt hmp'))]
  rw [if_neg (by simp [hpa, hmp])]
  have ha := (less_false p a).1 (by simpa using hpa)
  have hm := (less_false m p).1 (by simpa using hmp)
  by_cases hb : OnBorder p (a :: l ++ m :: u)
  · rw [withinSimple_of_winding.2.2 hb]
    obtain ⟨x, y, f1, f2, f3, f4, -⟩ := lowerEdge_found rfl h1 ha hm (u := u)
    obtain ⟨x', y', g1, g2, g3, g4, -⟩ := upperEdge_found rfl h2 ha hm (l := l)
    rw [f1, g1]
    simp only
    -- one of the two areas is zero
    have hz : area (x - p) (y - p) = 0 ∨ area (x' - p) (y' - p) = 0 := by
      obtain ⟨⟨e1, e2⟩, he, hs⟩ := hb
      rw [edges_split] at he
      rcases List.mem_append.1 he with he | he
      · left
        rw [(lowerEdges_eq a m l u).1] at he f2
        exact area_zero_of_onSegment h1 f2 he f3 f4 hs
      · right
        have hrev : pairs (m :: u ++ [a]) =
            ((pairs (a :: u.reverse ++ [m])).map Prod.swap).reverse := by
          rw [← pairs_reverse]; simp
        have hsw : ∀ {z w : Vec F 2}, (z, w) ∈ pairs (m :: u ++ [a]) →
            (w, z) ∈ pairs (a :: u.reverse ++ [m]) := by
          intro z w hzw
          rw [hrev, List.mem_reverse] at hzw
          obtain ⟨⟨w', z'⟩, hq, e⟩ := List.mem_map.1 hzw
          obtain ⟨rfl, rfl⟩ := Prod.mk.inj e
          exact hq
        rw [(lowerEdges_eq a m l u).2] at he g2
        have := area_zero_of_onSegment h2 (hsw g2) (hsw he) g3 g4 (onSegment_symm hs)
        simp only [area] at this ⊢
        linear_combination -this
    rcases lt_trichotomy (area (x - p) (y - p)) 0 with hA | hA | hA
    · exfalso
      have hl := hinv _ f2 _ g2 ⟨not_lexLess.2 f3, not_lexLess.2 f4⟩
        ⟨not_lexLess.2 g3, not_lexLess.2 g4⟩ (strictRight_area.2 hA)
      have := strictLeft_area.1 hl
      rcases hz with hz | hz
      · exact hA.ne hz
      · exact this.ne' hz
    · rw [if_neg (by rw [orientation3_right, hA]; exact lt_irrefl _), toInclusion_zero hA]
    · rw [if_pos (orientation3_right.2 hA)]
      rcases hz with hz | hz
      · exact absurd hz hA.ne'
      · rw [toInclusion_zero hz]
  · have hne : ∀ v ∈ a :: l ++ m :: u, key v ≠ key p := by
      intro v hv e
      obtain ⟨w, hw⟩ := exists_edge_from hv
      exact hb ⟨(v, w), hw, 0, le_rfl, zero_le_one, by simp [key_inj.1 e]⟩
    have ha' := lt_of_le_of_ne ha (hne a (by simp))
    have hm' := lt_of_le_of_ne hm (hne m (by simp)).symm
    obtain ⟨x, y, x', y', f1, g1, f2, g2, f3, f4, g3, g4, z1, z2, hw⟩ := winding_two h1 h2 hb ha' hm'
    rw [f1, g1]
    simp only
    rcases lt_or_gt_of_ne z1 with hA | hA
    · have hl := strictLeft_area.1 (hinv _ f2 _ g2 ⟨not_lexLess.2 f3.le, not_lexLess.2 f4.le⟩
        ⟨not_lexLess.2 g3.le, not_lexLess.2 g4.le⟩ (strictRight_area.2 hA))
      rw [if_neg (not_lt.2 hA.le), if_neg (not_lt.2 hl.le)] at hw
      rw [if_neg (by rw [orientation3_right]; exact not_lt.2 hA.le), toInclusion_neg hA,
        withinSimple_of_winding.1 hw]
    · rw [if_pos (orientation3_right.2 hA)]
      rw [if_pos hA] at hw
      rcases lt_or_gt_of_ne z2 with hB | hB
      · rw [if_pos hB] at hw
        rw [toInclusion_neg hB, withinSimple_of_winding.1 hw]
      · rw [if_neg (not_lt.2 hB.le)] at hw
        rw [toInclusion_pos hB, withinSimple_of_winding.2.1 hw]

/-! ### Strictly convex polygons -/

theorem StrictlyConvex.area_nonneg {poly : List (Vec F 2)} (hc : StrictlyConvex poly)
    {e : Vec F 2 × Vec F 2} (he : e ∈ edges poly) {v p : Vec F 2} (hv : v ∈ poly) :
    0 ≤ area (e.1 - p) (e.2 - p) + area (e.2 - p) (v - p) + area (v - p) (e.1 - p) := by
  have := hc.leftOrOn he hv
  unfold LeftOrOn at this
  simp only [area, Pi.sub_apply]
  linarith

/-- In a strictly convex polygon the lower chain is nowhere above the upper one. -/
theorem StrictlyConvex.notInverted {poly : List (Vec F 2)} {right : Nat} (hc : StrictlyConvex poly)
    (hmono : Monotone poly right) (p : Vec F 2) : NotInverted poly right p := by
  obtain ⟨a, l, m, u, rfl, rfl, h1, h2⟩ := hmono
  rintro ⟨e1, e2⟩ he ⟨e1', e2'⟩ he' ⟨s1, s2⟩ ⟨s3, s4⟩ hr
  rw [not_lexLess] at s1 s2 s3 s4
  simp only at s1 s2 s3 s4 hr
  have hin : (e1, e2) ∈ edges (a :: l ++ m :: u) := by
    rw [edges_split]; exact List.mem_append_left _ he
  have hin' : (e1', e2') ∈ edges (a :: l ++ m :: u) := by
    rw [edges_split]; exact List.mem_append_right _ he'
  have hw := winding_right_of_edge hc hin (p := p) hr
  have hb : ¬ OnBorder p (a :: l ++ m :: u) := by
    intro hb
    rw [(windingNumber_eq p _).1 hb] at hw
    simp [boundary] at hw
  have hne : ∀ v ∈ a :: l ++ m :: u, key v ≠ key p := by
    intro v hv e
    obtain ⟨w, hw⟩ := exists_edge_from hv
    exact hb ⟨(v, w), hw, 0, le_rfl, zero_le_one, by simp [key_inj.1 e]⟩
  have ha : key a < key p := lt_of_le_of_ne
    ((key_range h1 h2 (mem_of_mem_edges hin).1).1.trans s1) (hne a (by simp))
  have hm : key p < key m := lt_of_le_of_ne
    (s2.trans (key_range h1 h2 (mem_of_mem_edges hin).2).2) (hne m (by simp)).symm
  obtain ⟨x, y, x', y', f1, g1, f2, g2, f3, f4, g3, g4, z1, z2, hww⟩ := winding_two h1 h2 hb ha hm
  have hsw : ∀ {z w : Vec F 2}, (z, w) ∈ pairs (m :: u ++ [a]) →
      (w, z) ∈ pairs (a :: u.reverse ++ [m]) := by
    intro z w hzw
    have hrev : pairs (m :: u ++ [a]) =
        ((pairs (a :: u.reverse ++ [m])).map Prod.swap).reverse := by
      rw [← pairs_reverse]; simp
    rw [hrev, List.mem_reverse] at hzw
    obtain ⟨⟨w', z'⟩, hq, e⟩ := List.mem_map.1 hzw
    obtain ⟨rfl, rfl⟩ := Prod.mk.inj e
    exact hq
  rw [(lowerEdges_eq a m l u).1] at he f2
  rw [(lowerEdges_eq a m l u).2] at he' g2
  have q1 : e1 = x ∧ e2 = y := by
    rcases span_unique _ h1 _ _ _ _ he f2 s1 s2 f3.le f4.le with h | h | h
    · exact h
    · exact absurd (congrArg key h).symm (hne _ (mem_of_mem_edges hin).2)
    · exact absurd (congrArg key h) f4.ne
  have q2 : e2' = y' ∧ e1' = x' := by
    rcases span_unique _ h2 _ _ _ _ (hsw he') (hsw g2) s3 s4 g3.le g4.le with h | h | h
    · exact h
    · exact absurd (congrArg key h).symm (hne _ (mem_of_mem_edges hin').1)
    · exact absurd (congrArg key h) g4.ne
  obtain ⟨rfl, rfl⟩ := q1
  obtain ⟨rfl, rfl⟩ := q2
  rw [hw, if_neg (not_lt.2 (strictRight_area.1 hr).le)] at hww
  rw [strictLeft_area]
  rcases lt_or_gt_of_ne z2 with hB | hB
  · rw [if_pos hB] at hww; simp at hww
  · exact hB

/-- C63. For a strictly convex polygon the search in a monotone polygon is right for every point. -/
theorem withinMonotone_convex (p : Vec F 2) (poly : List (Vec F 2)) (right : Nat)
    (hc : StrictlyConvex poly) (hmono : Monotone poly right) :
    withinMonotone p poly right = some (withinSimple p poly) :=
  withinMonotone_eq p poly right hmono (hc.notInverted hmono p)

/-- A point below a chord (with its ends at or below the line of an edge from right to left) is below that
edge. -/
theorem below_chord {a m x y : Vec F 2} (ha : LexNonneg (-a)) (hm : LexNonneg m) (hx : LexNonneg (-x))
    (hy : LexNonneg y) (h : area a m < 0) (h1 : 0 ≤ area y x + area x a + area a y)
    (h2 : 0 ≤ area y x + area x m + area m y) (hxy : x ≠ y) : 0 < area y x := by
  unfold LexNonneg at ha hm hx hy
  simp only [area, Pi.neg_apply] at *
  have ha0 : a 0 ≤ 0 := by rcases ha with q | ⟨q, -⟩ <;> linarith
  have hm0 : 0 ≤ m 0 := by rcases hm with q | ⟨q, -⟩ <;> linarith
  have hx0 : x 0 ≤ 0 := by rcases hx with q | ⟨q, -⟩ <;> linarith
  have hy0 : 0 ≤ y 0 := by rcases hy with q | ⟨q, -⟩ <;> linarith
  have k1 := mul_nonneg hm0 h1
  have k2 := mul_nonneg (neg_nonneg.2 ha0) h2
  have key : (m 0 - a 0) * (y 0 * x 1 - y 1 * x 0) ≥ (y 0 - x 0) * -(a 0 * m 1 - a 1 * m 0) := by
    nlinarith
  have ham : 0 < m 0 - a 0 := by
    rcases (sub_nonneg.2 (ha0.trans hm0)).lt_or_eq with q | q
    · exact q
    · exfalso
      have a0 : a 0 = 0 := by linarith
      have m0 : m 0 = 0 := by linarith
      rw [a0, m0] at h; simp at h
  rcases (sub_nonneg.2 (hx0.trans hy0)).lt_or_eq with q | q
  · have : 0 < (m 0 - a 0) * (y 0 * x 1 - y 1 * x 0) := by
      have := mul_pos q (neg_pos.2 h)
      linarith
    exact (mul_pos_iff_of_pos_left ham).1 this
  · exfalso
    have x0 : x 0 = 0 := by linarith
    have y0 : y 0 = 0 := by linarith
    have hx1 : x 1 ≤ 0 := by rcases hx with q | ⟨-, q⟩ <;> linarith
    have hy1 : 0 ≤ y 1 := by rcases hy with q | ⟨-, q⟩ <;> linarith
    rw [x0, y0] at h1 h2
    have a1 : a 0 = 0 → False := by
      intro a0
      have : a 1 ≤ 0 := by rcases ha with q | ⟨-, q⟩ <;> linarith
      rw [a0] at h
      nlinarith
    have a0' : a 0 < 0 := lt_of_le_of_ne ha0 a1
    have hz : y 1 - x 1 ≤ 0 := by
      by_contra hz
      have := mul_neg_of_neg_of_pos a0' (not_le.1 hz)
      linarith
    exact hxy (vec2_ext (by rw [x0, y0]) (by linarith))

theorem LexNonneg.sub_of_key {p q : Vec F 2} (h : key p ≤ key q) : LexNonneg (q - p) := key_le_iff.1 h

/-- Below the diagonal from the first to the `right` vertex one is below the upper chain, above it above
the lower chain. -/
theorem diagonal_side {a m p : Vec F 2} {l u : List (Vec F 2)} (hc : StrictlyConvex (a :: l ++ m :: u))
    (ha : key a ≤ key p) (hm : key p ≤ key m) {x y : Vec F 2}
    (he : (x, y) ∈ edges (a :: l ++ m :: u)) (hxy : x ≠ y) :
    (area (a - p) (m - p) < 0 → key y ≤ key p → key p ≤ key x → 0 < area (x - p) (y - p)) ∧
      (0 < area (a - p) (m - p) → key x ≤ key p → key p ≤ key y → 0 < area (x - p) (y - p)) := by
  have k1 := hc.area_nonneg he (v := a) (p := p) (by simp)
  have k2 := hc.area_nonneg he (v := m) (p := p) (by simp)
  simp only at k1 k2
  have hne : x - p ≠ y - p := fun e => hxy (sub_left_injective e)
  constructor
  · intro h h1 h2
    refine below_chord (a := a - p) (m := m - p) (x := y - p) (y := x - p) ?_ ?_ ?_ ?_ h ?_ ?_ hne.symm
    · rw [neg_sub]; exact key_le_iff.1 ha
    · exact key_le_iff.1 hm
    · rw [neg_sub]; exact key_le_iff.1 h1
    · exact key_le_iff.1 h2
    · exact k1
    · exact k2
  · intro h h1 h2
    have hn : ∀ v w : Vec F 2, area (-v) (-w) = area v w := fun v w => by simp [area]
    have := below_chord (a := -(m - p)) (m := -(a - p)) (x := -(y - p)) (y := -(x - p))
      (by rw [neg_neg]; exact key_le_iff.1 hm) (by rw [neg_sub]; exact key_le_iff.1 ha)
      (by rw [neg_neg]; exact key_le_iff.1 h2) (by rw [neg_sub]; exact key_le_iff.1 h1)
      (by rw [hn]; simp only [area] at h ⊢; linarith)
      (by rw [hn, hn, hn]; exact k2) (by rw [hn, hn, hn]; exact k1)
      (fun e => hne (neg_injective e).symm)
    rwa [hn] at this

/-- The open diagonal between two vertices that are not neighbours is strictly inside. -/
theorem diagonal_inside {a m p : Vec F 2} {l u : List (Vec F 2)} (hc : StrictlyConvex (a :: l ++ m :: u))
    (ham : a ≠ m) (hl : l ≠ []) (hu : u ≠ []) {t : F} (h0 : 0 < t) (h1 : t < 1)
    (e : p = a + t • (m - a)) : StrictlyIn p (a :: l ++ m :: u) := by
  have e0 : p 0 = a 0 + t * (m 0 - a 0) := by rw [e]; simp
  have e1 : p 1 = a 1 + t * (m 1 - a 1) := by rw [e]; simp
  rintro ⟨x, y⟩ he
  obtain ⟨rest, hr⟩ := exists_rotation (by have := hc.1; omega) he
  have la := hc.leftOrOn he (v := a) (by simp)
  have lm := hc.leftOrOn he (v := m) (by simp)
  have key : (y 0 - x 0) * (p 1 - x 1) - (y 1 - x 1) * (p 0 - x 0) =
      (1 - t) * ((y 0 - x 0) * (a 1 - x 1) - (y 1 - x 1) * (a 0 - x 0)) +
        t * ((y 0 - x 0) * (m 1 - x 1) - (y 1 - x 1) * (m 0 - x 0)) := by
    rw [e0, e1]; ring
  unfold LeftOrOn at la lm
  simp only at la lm
  have fin : StrictLeft x y a ∨ StrictLeft x y m → StrictLeft x y p := by
    unfold StrictLeft
    rw [key]
    rintro (h | h)
    · have := mul_pos (sub_pos.2 h1) h
      have := mul_nonneg h0.le lm
      linarith
    · have := mul_pos h0 h
      have := mul_nonneg (sub_pos.2 h1).le la
      linarith
  apply fin
  by_contra hno
  push Not at hno
  have hav : a ∈ x :: y :: rest := hr.perm.mem_iff.1 (by simp)
  have hmv : m ∈ x :: y :: rest := hr.perm.mem_iff.1 (by simp)
  have ha' : a = x ∨ a = y := by
    simp only [List.mem_cons] at hav
    rcases hav with h | h | h
    · exact .inl h
    · exact .inr h
    · exact absurd (hc.2 x y rest hr a h) hno.1
  have hm' : m = x ∨ m = y := by
    simp only [List.mem_cons] at hmv
    rcases hmv with h | h | h
    · exact .inl h
    · exact .inr h
    · exact absurd (hc.2 x y rest hr m h) hno.2
  -- two edges from one vertex
  have two : ∀ {v b c : Vec F 2} {r r' : List (Vec F 2)}, (a :: l ++ m :: u) ~r (v :: b :: r) →
      (a :: l ++ m :: u) ~r (v :: c :: r') → c ∈ r → b ∈ r' → False := by
    intro v b c r r' q1 q2 h1 h2
    have s1 := hc.2 _ _ _ q1 c h1
    have s2 := hc.2 _ _ _ q2 b h2
    unfold StrictLeft at s1 s2
    linarith
  have neq : ∀ {v b : Vec F 2} {r : List (Vec F 2)}, (a :: l ++ m :: u) ~r (v :: b :: r) → v ≠ b := by
    intro v b r q e
    have hlen : 3 ≤ (v :: b :: r).length := q.perm.length_eq ▸ hc.1
    cases r with
    | nil => simp at hlen
    | cons c r =>
      have := hc.2 _ _ _ q c (by simp)
      unfold StrictLeft at this
      rw [e] at this; simp at this
  rcases ha' with rfl | rfl <;> rcases hm' with rfl | rfl
  · exact ham rfl
  · obtain ⟨b, l', rfl⟩ := List.exists_cons_of_ne_nil hl
    have q1 : (a :: (b :: l') ++ m :: u) ~r (a :: b :: (l' ++ m :: u)) := by
      simp only [List.cons_append]; exact List.IsRotated.refl _
    have hb : b ∈ a :: m :: rest := hr.perm.mem_iff.1 (by simp)
    simp only [List.mem_cons] at hb
    rcases hb with h | h | h
    · exact neq q1 h.symm
    · -- `b = m`: then `m` is twice on the line
      have := hc.2 _ _ _ q1 m (by simp)
      unfold StrictLeft at this
      rw [h] at this
      apply lt_irrefl (0 : F)
      linarith
    · exact two q1 hr (by simp) h
  · obtain ⟨c, u', rfl⟩ := List.exists_cons_of_ne_nil hu
    have q1 : (a :: l ++ m :: c :: u') ~r (m :: c :: (u' ++ a :: l)) :=
      ⟨(a :: l).length, by rw [List.rotate_append_length_eq]; simp⟩
    have hb : c ∈ m :: a :: rest := hr.perm.mem_iff.1 (by simp)
    simp only [List.mem_cons] at hb
    rcases hb with h | h | h
    · exact neq q1 h.symm
    · have := hc.2 _ _ _ q1 a (by simp)
      unfold StrictLeft at this
      rw [h] at this
      apply lt_irrefl (0 : F)
      linarith
    · exact two q1 hr (by simp) h
  · exact ham rfl

/-- C63. For a strictly convex polygon the search by the diagonal is right for every point. -/
theorem withinConvexMonotone_eq (p : Vec F 2) (poly : List (Vec F 2)) (right : Nat)
    (hc : StrictlyConvex poly) (hmono : Monotone poly right) :
    withinConvexMonotone p poly right = some (withinSimple p poly) := by
  have hM := withinMonotone_convex p poly right hc hmono
  obtain ⟨a, l, m, u, rfl, rfl, h1, h2⟩ := hmono
  rw [withinMonotone_long] at hM
  rw [withinConvexMonotone_long]
  by_cases hout : (less p a || less m p) = true
  · rw [if_pos hout] at hM ⊢
    exact hM
  rw [if_neg hout] at hM ⊢
  simp only [Bool.or_eq_true, not_or, Bool.not_eq_true] at hout
  have ha := (less_false p a).1 hout.1
  have hm := (less_false m p).1 hout.2
  have ham : key a < key m := lexLess_iff.1 ((List.pairwise_cons.1 h1).1 m (by simp))
  obtain ⟨x, y, f1, f2, f3, f4, -⟩ := lowerEdge_found rfl h1 ha hm (u := u)
  obtain ⟨x', y', g1, g2, g3, g4, -⟩ := upperEdge_found rfl h2 ha hm (l := l)
  have hin : (x, y) ∈ edges (a :: l ++ m :: u) := by
    rw [edges_split]; exact List.mem_append_left _ f2
  have hin' : (x', y') ∈ edges (a :: l ++ m :: u) := by
    rw [edges_split]; exact List.mem_append_right _ g2
  have hneq : ∀ {v w : Vec F 2}, (v, w) ∈ edges (a :: l ++ m :: u) → v ≠ w := by
    intro v w h e
    obtain ⟨rest, hr⟩ := exists_rotation (by have := hc.1; omega) h
    have hlen : 3 ≤ (v :: w :: rest).length := hr.perm.length_eq ▸ hc.1
    cases rest with
    | nil => simp at hlen
    | cons c r =>
      have := hc.2 _ _ _ hr c (by simp)
      unfold StrictLeft at this
      rw [e] at this; simp at this
  rw [f1] at hM ⊢
  rw [g1] at hM ⊢
  simp only at hM ⊢
  rcases lt_trichotomy (area (a - p) (m - p)) 0 with hA | hA | hA
  · -- below
    have ho : orientation3 p m a = .left := by
      rw [orientation3_val, Turn.ofSign, if_pos hA]
    rw [ho]
    simp only
    have := (diagonal_side hc ha hm hin' (hneq hin')).1 hA g3 g4
    by_cases hr : orientation3 p y x = .right
    · rw [if_pos hr, toInclusion_pos this] at hM
      rw [hr]
      exact hM
    · rw [if_neg hr] at hM
      exact hM
  · -- on the diagonal
    have ho : orientation3 p m a = .collinear := by
      rw [orientation3_val, ofSign_collinear, hA]
    rw [ho]
    simp only
    have hseg := onSegment_of_area ha hm hA
    have vert : ∀ v ∈ a :: l ++ m :: u, p = v → OnBorder p (a :: l ++ m :: u) := by
      intro v hv e
      obtain ⟨w, hw⟩ := exists_edge_from hv
      exact ⟨(v, w), hw, 0, le_rfl, zero_le_one, by simp [e]⟩
    by_cases hv : p = a ∨ p = m
    · rw [if_pos (by simp only [Bool.or_eq_true, isEqual_iff]; exact hv)]
      have : OnBorder p (a :: l ++ m :: u) := by
        rcases hv with h | h
        · exact vert a (by simp) h
        · exact vert m (by simp) h
      rw [withinSimple_of_winding.2.2 this]
    · rw [if_neg (by simp only [Bool.or_eq_true, isEqual_iff]; exact hv)]
      push Not at hv
      by_cases hl : l = []
      · subst hl
        rw [if_pos (.inl rfl), withinSimple_of_winding.2.2 ⟨(a, m), ?_, hseg⟩]
        simp [edges, pairs]
      by_cases hu : u = []
      · subst hu
        rw [if_pos (.inr (by simp)), withinSimple_of_winding.2.2 ⟨(m, a), ?_, onSegment_symm hseg⟩]
        rw [edges_split, (lowerEdges_eq a m l []).2]
        simp [pairs]
      rw [if_neg]
      · obtain ⟨t, t0, t1, e⟩ := hseg
        have t0' : 0 < t := by
          refine lt_of_le_of_ne t0 fun h => hv.1 ?_
          rw [e, ← h]; simp
        have t1' : t < 1 := by
          refine lt_of_le_of_ne t1 fun h => hv.2 ?_
          rw [e, h]; simp
        have hin := diagonal_inside hc (fun e => ham.ne (congrArg _ e)) hl hu t0' t1' e
        rw [withinSimple_of_winding.2.1 (winding_convex p _ hc hin)]
      · have h1 := List.length_pos_iff.2 hl
        have h2 := List.length_pos_iff.2 hu
        simp only [List.length_append, List.length_cons]
        omega
  · -- above
    have ho : orientation3 p m a = .right := orientation3_right.2 hA
    rw [ho]
    simp only
    have := (diagonal_side hc ha hm hin (hneq hin)).2 hA f3 f4
    rw [if_pos (orientation3_right.2 this)] at hM
    exact hM

end Actl.Geo
