import Verif.Lemmas.Winding

/-!
# C62: winding number and point in polygon

* `winding_border`: the special value is returned exactly for the points on the edges.
* `winding_rotate`, `winding_reverse`, `winding_cut`, `winding_separated`: the laws of a winding
  number.
* `withinSimple_border`, `withinSimple_convex`: the classification of points.

`Props/WindingAngle.lean` has the equality with the total turning angle over the real numbers.
-/

namespace Actl.Geo

variable {F : Type*} [Field F] [LinearOrder F] [IsStrictOrderedRing F]

/-- C62. The special value is returned exactly for the points on an edge. -/
theorem winding_border (p : Vec F 2) (poly : List (Vec F 2)) (hn : (poly.length : Int) < boundary) :
    windingNumber p poly = boundary ↔ OnBorder p poly := by
  refine ⟨fun h => ?_, (windingNumber_eq p poly).1⟩
  by_contra hb
  rw [(windingNumber_eq p poly).2 hb] at h
  have := (abs_le.1 (crossings_abs p (edges poly))).2
  rw [edges_length, h] at this
  omega

theorem crossings_perm (p : Vec F 2) {l l' : List (Vec F 2 × Vec F 2)} (h : l.Perm l') :
    crossings p l = crossings p l' := (h.map _).sum_eq

theorem onBorder_rotate (p : Vec F 2) (poly : List (Vec F 2)) (k : Nat) :
    OnBorder p (poly.rotate k) ↔ OnBorder p poly := by
  unfold OnBorder
  simp only [edges_rotate, List.mem_rotate]

/-- C62. The vertex the list starts with does not matter. -/
theorem winding_rotate (p : Vec F 2) (poly : List (Vec F 2)) (k : Nat) :
    windingNumber p (poly.rotate k) = windingNumber p poly := by
  by_cases h : OnBorder p poly
  · rw [(windingNumber_eq p poly).1 h,
      (windingNumber_eq p _).1 ((onBorder_rotate p poly k).2 h)]
  · rw [(windingNumber_eq p poly).2 h,
      (windingNumber_eq p _).2 fun h' => h ((onBorder_rotate p poly k).1 h'), edges_rotate]
    exact crossings_perm p (List.rotate_perm _ _)

theorem edges_reverse (poly : List (Vec F 2)) :
    (edges poly.reverse).Perm ((edges poly).map Prod.swap) := by
  cases poly with
  | nil => simp [edges, pairs]
  | cons a rest =>
    have h : (a :: rest).reverse = (a :: rest.reverse).rotate 1 := by
      rw [List.rotate_cons_succ, List.rotate_zero, List.reverse_cons]
    rw [h, edges_rotate]
    refine (List.rotate_perm _ _).trans ?_
    rw [edges_cons, show a :: rest.reverse ++ [a] = (a :: rest ++ [a]).reverse by simp,
      pairs_reverse, edges_cons]
    exact List.reverse_perm _

theorem onSegment_symm {p a b : Vec F 2} (h : OnSegment p a b) : OnSegment p b a := by
  obtain ⟨t, h0, h1, e⟩ := h
  refine ⟨1 - t, by linarith, by linarith, ?_⟩
  rw [e]
  apply vec2_ext <;> simp <;> ring

theorem onBorder_reverse (p : Vec F 2) (poly : List (Vec F 2)) :
    OnBorder p poly.reverse ↔ OnBorder p poly := by
  have h : ∀ q : List (Vec F 2), OnBorder p q.reverse → OnBorder p q := by
    rintro q ⟨e, he, hs⟩
    rw [(edges_reverse q).mem_iff] at he
    obtain ⟨e', he', rfl⟩ := List.mem_map.1 he
    exact ⟨e', he', onSegment_symm hs⟩
  refine ⟨h poly, fun hp => h _ ?_⟩
  rwa [List.reverse_reverse]

theorem crossings_swap (p : Vec F 2) (l : List (Vec F 2 × Vec F 2)) :
    crossings p (l.map Prod.swap) = -crossings p l := by
  induction l with
  | nil => simp [crossings]
  | cons e l ih =>
    have h : ∀ (x : Vec F 2 × Vec F 2) xs, crossings p (x :: xs) =
        crossing (x.1 - p) (x.2 - p) + crossings p xs := fun x xs => by simp [crossings]
    rw [List.map_cons, h, h, ih, Prod.fst_swap, Prod.snd_swap, crossing_swap]
    ring

/-- C62. Going around the other way negates the number. -/
theorem winding_reverse (p : Vec F 2) (poly : List (Vec F 2)) (h : ¬ OnBorder p poly) :
    windingNumber p poly.reverse = -windingNumber p poly := by
  rw [(windingNumber_eq p poly).2 h,
    (windingNumber_eq p _).2 fun h' => h ((onBorder_reverse p poly).1 h'),
    crossings_perm p (edges_reverse poly), crossings_swap]

theorem crossings_append (p : Vec F 2) (l l' : List (Vec F 2 × Vec F 2)) :
    crossings p (l ++ l') = crossings p l + crossings p l' := by
  simp [crossings]

/-- The edges of a polygon cut by a diagonal. -/
theorem edges_cut (a b : Vec F 2) (l r : List (Vec F 2)) :
    ∃ e₁ e₂, edges (a :: l ++ b :: r) = e₁ ++ e₂ ∧ edges (a :: l ++ [b]) = e₁ ++ [(b, a)] ∧
      edges (a :: b :: r) = (a, b) :: e₂ := by
  refine ⟨pairs (a :: l ++ [b]), pairs (b :: r ++ [a]), ?_, ?_, ?_⟩
  · rw [show a :: l ++ b :: r = a :: (l ++ b :: r) from rfl, edges_cons,
      show a :: (l ++ b :: r) ++ [a] = (a :: l) ++ b :: (r ++ [a]) by simp, pairs_append]
    rfl
  · rw [show a :: l ++ [b] = a :: (l ++ [b]) from rfl, edges_cons,
      show a :: (l ++ [b]) ++ [a] = (a :: l) ++ b :: [a] by simp, pairs_append]
    simp [pairs]
  · rw [edges_cons]; rfl

/-- C62. Cutting a polygon by the diagonal between two of its vertices: the numbers of the two parts
add up.  (With `winding_rotate` this covers every diagonal; with the numbers of triangles, which are
given by `winding_convex`, and `winding_reverse` it determines the number of a polygon cut into
triangles.) -/
theorem winding_cut (p a b : Vec F 2) (l r : List (Vec F 2))
    (h1 : ¬ OnBorder p (a :: l ++ [b])) (h2 : ¬ OnBorder p (a :: b :: r)) :
    windingNumber p (a :: l ++ b :: r) =
      windingNumber p (a :: l ++ [b]) + windingNumber p (a :: b :: r) := by
  obtain ⟨e₁, e₂, q, q1, q2⟩ := edges_cut a b l r
  have h : ¬ OnBorder p (a :: l ++ b :: r) := by
    rintro ⟨e, he, hs⟩
    rw [q, List.mem_append] at he
    rcases he with he | he
    · exact h1 ⟨e, by rw [q1]; simp [he], hs⟩
    · exact h2 ⟨e, by rw [q2]; simp [he], hs⟩
  rw [(windingNumber_eq p _).2 h, (windingNumber_eq p _).2 h1, (windingNumber_eq p _).2 h2, q, q1, q2,
    crossings_append, crossings_append]
  have hs := crossing_swap (a - p) (b - p)
  simp only [crossings, List.map_cons, List.map_nil, List.sum_cons, List.sum_nil]
  linarith

/-! ### Points apart from the polygon -/

/-- Within an open half plane around the point every contribution is a difference. -/
theorem crossing_half {n : Vec F 2} {u w : Vec F 2} (hu : 0 < n 0 * u 0 + n 1 * u 1)
    (hw : 0 < n 0 * w 0 + n 1 * w 1) :
    crossing u w = (if 0 < n 0 ∧ 0 ≤ w 1 then 1 else 0) - (if 0 < n 0 ∧ 0 ≤ u 1 then 1 else 0) := by
  -- `n 0 * area u w` is a combination of the heights
  have key : n 0 * area u w = w 1 * (n 0 * u 0 + n 1 * u 1) - u 1 * (n 0 * w 0 + n 1 * w 1) := by
    simp only [area]; ring
  unfold crossing
  by_cases h1 : u 1 < 0 <;> by_cases h2 : w 1 < 0
  · simp [h1, h2, not_le.2 h1, not_le.2 h2]
  · have h2' := not_lt.1 h2
    have hpos : 0 < n 0 * area u w := by
      rw [key]; nlinarith [mul_nonneg h2' hu.le, mul_pos (neg_pos.2 h1) hw]
    by_cases hn : 0 < n 0
    · have ha : 0 < area u w := (mul_pos_iff_of_pos_left hn).1 hpos
      simp [h1, h2', hn, ha, not_le.2 h1]
    · have ha : ¬ 0 < area u w := fun ha => hn ((mul_pos_iff_of_pos_right ha).1 hpos)
      simp [h2', hn, ha, not_le.2 h1]
  · have h1' := not_lt.1 h1
    have hneg : n 0 * area u w < 0 := by
      rw [key]; nlinarith [mul_nonneg h1' hw.le, mul_pos (neg_pos.2 h2) hu]
    by_cases hn : 0 < n 0
    · have ha : area u w < 0 := by
        by_contra ha
        exact absurd hneg (not_lt.2 (mul_nonneg hn.le (not_lt.1 ha)))
      simp [h1', h1, h2, hn, ha, not_le.2 h2]
    · have ha : ¬ area u w < 0 := by
        intro ha
        exact absurd hneg (not_lt.2 (mul_nonneg_of_nonpos_of_nonpos (not_lt.1 hn) ha.le))
      simp [h1, hn, ha, not_le.2 h2]
  · have h1' := not_lt.1 h1
    have h2' := not_lt.1 h2
    simp [h1, h2, h1', h2']

theorem sum_pairs_telescope {α : Type*} (g : α → Int) : ∀ (l : List α) (a z : α),
    ((pairs (a :: l ++ [z])).map fun e => g e.2 - g e.1).sum = g z - g a
  | [], a, z => by simp [pairs]
  | b :: l, a, z => by
    have := sum_pairs_telescope g l b z
    simp only [List.cons_append, pairs, List.map_cons, List.sum_cons] at this ⊢
    rw [this]; ring

/-- C62. A point separated by a line from all the vertices has winding number zero. -/
theorem winding_separated (p : Vec F 2) (poly : List (Vec F 2)) (n : Vec F 2)
    (h : ∀ v ∈ poly, 0 < n 0 * (v 0 - p 0) + n 1 * (v 1 - p 1)) : windingNumber p poly = 0 := by
  have hb : ¬ OnBorder p poly := by
    rintro ⟨⟨a, b⟩, he, t, h0, h1, e⟩
    obtain ⟨ha, hb⟩ := mem_of_mem_edges he
    have ha := h a ha
    have hb := h b hb
    have e0 : p 0 = a 0 + t * (b 0 - a 0) := by rw [e]; simp
    have e1 : p 1 = a 1 + t * (b 1 - a 1) := by rw [e]; simp
    have : (1 - t) * (n 0 * (a 0 - p 0) + n 1 * (a 1 - p 1)) +
        t * (n 0 * (b 0 - p 0) + n 1 * (b 1 - p 1)) = 0 := by
      linear_combination -n 0 * e0 - n 1 * e1
    rcases h0.lt_or_eq with h0 | rfl
    · nlinarith [mul_nonneg (sub_nonneg.2 h1) ha.le, mul_pos h0 hb]
    · simp at this; linarith
  rw [(windingNumber_eq p poly).2 hb]
  cases poly with
  | nil => rfl
  | cons x rest =>
    have hm : crossings p (edges (x :: rest)) = ((edges (x :: rest)).map fun e =>
        (if 0 < n 0 ∧ 0 ≤ (e.2 - p) 1 then (1 : Int) else 0) -
          (if 0 < n 0 ∧ 0 ≤ (e.1 - p) 1 then 1 else 0)).sum := by
      unfold crossings
      congr 1
      apply List.map_congr_left
      intro e he
      obtain ⟨ha, hb⟩ := mem_of_mem_edges he
      exact crossing_half (by simpa using h _ ha) (by simpa using h _ hb)
    rw [hm, edges_cons,
      sum_pairs_telescope (fun v : Vec F 2 => if 0 < n 0 ∧ 0 ≤ (v - p) 1 then (1 : Int) else 0)]
    simp

/-! ### Points strictly on the left of all edges -/

/-- C62. A point strictly on the left of all edges (and there is an edge) has a positive winding
number, whatever the shape of the polygon. -/
theorem winding_left (p : Vec F 2) (poly : List (Vec F 2)) (hne : poly ≠ [])
    (h : StrictlyIn p poly) : ¬ OnBorder p poly ∧ 0 < windingNumber p poly := by
  have hpos : ∀ e ∈ edges poly, 0 < area (e.1 - p) (e.2 - p) := by
    intro e he
    have := h e he
    unfold StrictLeft at this
    simp only [area, Pi.sub_apply]
    linarith
  have hb : ¬ OnBorder p poly := by
    rintro ⟨⟨a, b⟩, he, t, h0, h1, e⟩
    have := hpos _ he
    have e0 : p 0 = a 0 + t * (b 0 - a 0) := by rw [e]; simp
    have e1 : p 1 = a 1 + t * (b 1 - a 1) := by rw [e]; simp
    simp only [area, Pi.sub_apply, e0, e1] at this
    apply this.ne'
    ring
  refine ⟨hb, ?_⟩
  rw [(windingNumber_eq p poly).2 hb]
  have hnn : ∀ e ∈ edges poly, 0 ≤ crossing (e.1 - p) (e.2 - p) := by
    intro e he
    have := hpos e he
    unfold crossing
    rw [if_neg (c := 0 ≤ _ ∧ _ ∧ _) (fun hh => absurd hh.2.2 (not_lt.2 this.le))]
    split_ifs <;> simp
  have hsum : 0 ≤ crossings p (edges poly) := by
    apply List.sum_nonneg
    intro x hx
    obtain ⟨e, he, rfl⟩ := List.mem_map.1 hx
    exact hnn e he
  rcases hsum.lt_or_eq with hlt | heq
  · exact hlt
  exfalso
  -- no edge crosses: nothing goes up, so all the vertices are on one side
  have hzero : ∀ e ∈ edges poly, crossing (e.1 - p) (e.2 - p) = 0 := by
    have : ∀ l : List (Vec F 2 × Vec F 2), (∀ e ∈ l, 0 ≤ crossing (e.1 - p) (e.2 - p)) →
        crossings p l = 0 → ∀ e ∈ l, crossing (e.1 - p) (e.2 - p) = 0 := by
      intro l
      induction l with
      | nil => simp
      | cons e l ih =>
        intro hl hs
        have h1 := hl e (by simp)
        have h2 : 0 ≤ crossings p l := by
          apply List.sum_nonneg
          intro x hx
          obtain ⟨e, he, rfl⟩ := List.mem_map.1 hx
          exact hl e (List.mem_cons_of_mem _ he)
        have h3 : crossings p (e :: l) = crossing (e.1 - p) (e.2 - p) + crossings p l := by
          simp [crossings]
        rw [h3] at hs
        intro x hx
        rcases List.mem_cons.1 hx with rfl | hx
        · omega
        · exact ih (fun y hy => hl y (List.mem_cons_of_mem _ hy)) (by omega) x hx
    exact this _ hnn heq.symm
  have hup : ∀ e ∈ edges poly, (e.1 - p) 1 < 0 → (e.2 - p) 1 < 0 := by
    intro e he hu
    by_contra hw
    have := hzero e he
    unfold crossing at this
    rw [if_pos ⟨hu, not_lt.1 hw, hpos e he⟩] at this
    simp at this
  -- going around the sides are all the same
  have hchain : ∀ (l : List (Vec F 2)) (a z : Vec F 2),
      (∀ e ∈ pairs (a :: l ++ [z]), (e.1 - p) 1 < 0 → (e.2 - p) 1 < 0) → (a - p) 1 < 0 →
      (z - p) 1 < 0 ∧ ∀ v ∈ l, (v - p) 1 < 0 := by
    intro l
    induction l with
    | nil =>
      intro a z hl ha
      exact ⟨hl (a, z) (by simp [pairs]) ha, by simp⟩
    | cons b l ih =>
      intro a z hl ha
      have hb := hl (a, b) (by simp [pairs]) ha
      obtain ⟨h1, h2⟩ := ih b z (fun e he => hl e (by
        simp only [List.cons_append, pairs] at he ⊢; exact List.mem_cons_of_mem _ he)) hb
      refine ⟨h1, fun v hv => ?_⟩
      rcases List.mem_cons.1 hv with rfl | hv
      · exact hb
      · exact h2 v hv
  have hall : (∀ v ∈ poly, (v - p) 1 < 0) ∨ ∀ v ∈ poly, 0 ≤ (v - p) 1 := by
    by_cases hex : ∃ v ∈ poly, (v - p) 1 < 0
    · left
      obtain ⟨v, hv, hv0⟩ := hex
      obtain ⟨l₁, l₂, rfl⟩ := List.append_of_mem hv
      have hr : (l₁ ++ v :: l₂) ~r (v :: (l₂ ++ l₁)) :=
        ⟨l₁.length, by rw [List.rotate_append_length_eq]; simp⟩
      have := (hchain (l₂ ++ l₁) v v (fun e he => hup e (by
        rw [mem_edges_rotated hr, edges_cons]; exact he)) hv0).2
      intro x hx
      simp only [List.mem_append, List.mem_cons] at hx this
      rcases hx with hx | rfl | hx
      · exact this x (.inr hx)
      · exact hv0
      · exact this x (.inl hx)
    · right
      push Not at hex
      exact hex
  -- each edge turns left about the point, within a half plane: the slope decreases for ever
  -- the sum of `area / (product of heights)`-like terms: use the extreme vertex instead
  have hnext : ∀ v ∈ poly, ∃ w ∈ poly, 0 < area (v - p) (w - p) := by
    intro v hv
    obtain ⟨w, hw⟩ := exists_edge_from hv
    exact ⟨w, (mem_of_mem_edges hw).2, hpos _ hw⟩
  -- a finite set with a strict order has a maximal element
  have hmax : ∀ (l : List (Vec F 2)) (R : Vec F 2 → Vec F 2 → Prop),
      (∀ x ∈ l, ¬ R x x) → (∀ x ∈ l, ∀ y ∈ l, ∀ z ∈ l, R x y → R y z → R x z) → l ≠ [] →
      ∃ m ∈ l, ∀ y ∈ l, ¬ R m y := by
    intro l R
    induction l with
    | nil => intro _ _ h; exact absurd rfl h
    | cons x l ih =>
      intro hirr htr _
      by_cases hl : l = []
      · subst hl
        exact ⟨x, by simp, fun y hy => by
          rw [List.mem_singleton.1 hy]; exact hirr x (by simp)⟩
      · obtain ⟨m, hm, hmm⟩ := ih (fun y hy => hirr y (List.mem_cons_of_mem _ hy))
          (fun a ha b hb c hc => htr a (List.mem_cons_of_mem _ ha) b (List.mem_cons_of_mem _ hb) c
            (List.mem_cons_of_mem _ hc)) hl
        by_cases hmx : R m x
        · refine ⟨x, by simp, fun y hy hxy => ?_⟩
          rcases List.mem_cons.1 hy with rfl | hy
          · exact hirr y (by simp) hxy
          · exact hmm y hy (htr m (List.mem_cons_of_mem _ hm) x (by simp) y
              (List.mem_cons_of_mem _ hy) hmx hxy)
        · refine ⟨m, List.mem_cons_of_mem _ hm, fun y hy => ?_⟩
          rcases List.mem_cons.1 hy with rfl | hy
          · exact hmx
          · exact hmm y hy
  have hself : ∀ v : Vec F 2, area (v - p) (v - p) = 0 := fun v => by simp only [area]; ring
  have htrans : ∀ x ∈ poly, ∀ y ∈ poly, ∀ z ∈ poly, 0 < area (x - p) (y - p) →
      0 < area (y - p) (z - p) → 0 < area (x - p) (z - p) := by
    intro x hx y hy z hz hxy hyz
    have key : (y - p) 1 * area (x - p) (z - p) =
        (x - p) 1 * area (y - p) (z - p) + (z - p) 1 * area (x - p) (y - p) := by
      simp only [area]; ring
    rcases hall with hneg | hnn
    · have := hneg x hx; have hy1 := hneg y hy; have := hneg z hz
      have : (y - p) 1 * area (x - p) (z - p) < 0 := by
        rw [key]; nlinarith
      by_contra hc
      exact absurd this (not_lt.2 (mul_nonneg_of_nonpos_of_nonpos hy1.le (not_lt.1 hc)))
    · have hx1 := hnn x hx; have hy1 := hnn y hy; have hz1 := hnn z hz
      have hge : 0 ≤ (y - p) 1 * area (x - p) (z - p) := by
        rw [key]; nlinarith [mul_nonneg hx1 hyz.le, mul_nonneg hz1 hxy.le]
      rcases hy1.lt_or_eq with hy2 | hy2
      · have hge' : 0 ≤ area (x - p) (z - p) := by
          by_contra hc
          exact absurd hge (not_le.2 (mul_neg_of_pos_of_neg hy2 (not_le.1 hc)))
        rcases hge'.lt_or_eq with hlt | he
        · exact hlt
        · -- then both ends are on the axis, on the same line
          rw [← he, mul_zero] at key
          have k1 : (x - p) 1 * area (y - p) (z - p) = 0 := by
            nlinarith [mul_nonneg hx1 hyz.le, mul_nonneg hz1 hxy.le]
          have k2 : (z - p) 1 * area (x - p) (y - p) = 0 := by
            nlinarith [mul_nonneg hx1 hyz.le, mul_nonneg hz1 hxy.le]
          have x1 : (x - p) 1 = 0 := by
            rcases mul_eq_zero.1 k1 with h | h
            · exact h
            · exact absurd h hyz.ne'
          have z1 : (z - p) 1 = 0 := by
            rcases mul_eq_zero.1 k2 with h | h
            · exact h
            · exact absurd h hxy.ne'
          -- `x` is on the right of the point and `z` on the left; look at what follows `z`
          obtain ⟨v, hv, hvz⟩ := hnext z hz
          have hz0 : (z - p) 0 < 0 := by
            simp only [area] at hyz
            rw [z1] at hyz
            simp only [mul_zero, zero_sub, neg_pos] at hyz
            exact (pos_iff_neg_of_mul_neg hyz).1 hy2
          have hv1 := hnn v hv
          simp only [area] at hvz
          rw [z1] at hvz
          nlinarith
      · exfalso
        -- the middle one is on the axis: then one neighbour would be below
        simp only [area] at hxy hyz
        rw [← hy2] at hxy hyz
        simp only [mul_zero, zero_sub, zero_mul, sub_zero, neg_pos] at hxy hyz
        have hy0 : (y - p) 0 < 0 := by nlinarith
        nlinarith
  obtain ⟨m, hm, hmm⟩ := hmax poly (fun x y => 0 < area (x - p) (y - p))
    (fun x _ => by simp only [hself]; exact lt_irrefl _) htrans hne
  obtain ⟨w, hw, hmw⟩ := hnext m hm
  exact hmm w hw hmw

/-! ### Classification -/

/-- C62. `border` is returned exactly for the points on an edge. -/
theorem withinSimple_border (p : Vec F 2) (poly : List (Vec F 2))
    (hn : (poly.length : Int) < boundary) : withinSimple p poly = .border ↔ OnBorder p poly := by
  rw [← winding_border p poly hn]
  unfold withinSimple
  by_cases h0 : windingNumber p poly = 0
  · rw [if_pos h0, h0]; simp [boundary]
  · rw [if_neg h0]
    by_cases hb : windingNumber p poly = boundary <;> simp [hb]

/-- A point that is not strictly inside a strictly convex polygon and not on its border is strictly on
the right of some edge. -/
theorem right_of_edge {poly : List (Vec F 2)} (hc : StrictlyConvex poly) {p : Vec F 2}
    (h1 : ¬ StrictlyIn p poly) (h2 : ¬ OnBorder p poly) :
    ∃ e ∈ edges poly, (e.2 0 - e.1 0) * (p 1 - e.1 1) - (e.2 1 - e.1 1) * (p 0 - e.1 0) < 0 := by
  by_contra hno
  push Not at hno
  apply h1
  rintro ⟨a, b⟩ he
  unfold StrictLeft
  rcases (hno _ he).lt_or_eq with hlt | heq
  · exact hlt
  exfalso
  simp only at heq
  apply h2
  refine ⟨(a, b), he, ?_⟩
  obtain ⟨rest, hr⟩ := exists_rotation (by have := hc.1; omega) he
  have hlen : 3 ≤ (a :: b :: rest).length := hr.perm.length_eq ▸ hc.1
  cases rest with
  | nil => simp at hlen
  | cons c rest =>
    have habc := hc.2 a b (c :: rest) hr c (by simp)
    -- the vertex before `a`
    obtain ⟨z, l, hz⟩ : ∃ z l, c :: rest = l ++ [z] := by
      rcases List.eq_nil_or_concat (c :: rest) with h | ⟨l, z, h⟩
      · simp at h
      · exact ⟨z, l, by simpa using h⟩
    have hr2 : poly ~r (z :: a :: (b :: l)) := by
      refine hr.trans ?_
      rw [hz]
      refine ⟨(a :: b :: l).length, ?_⟩
      rw [show a :: b :: (l ++ [z]) = (a :: b :: l) ++ [z] by simp, List.rotate_append_length_eq]
      simp
    have hzab := hc.2 z a (b :: l) hr2 b (by simp)
    have hr3 : poly ~r (b :: c :: (rest ++ [a])) := by
      refine hr.trans ⟨1, ?_⟩
      simp
    have e1 := hno _ (mem_edges_of_rotation hr3)
    have e2 := hno _ (mem_edges_of_rotation hr2)
    unfold StrictLeft at habc hzab
    simp only at e1 e2
    -- the parameter on the line
    have hne : b - a ≠ 0 := by
      intro h0
      have h00 : b 0 - a 0 = 0 := by simpa using congrFun h0 0
      have h01 : b 1 - a 1 = 0 := by simpa using congrFun h0 1
      rw [h00, h01] at habc
      simp at habc
    obtain ⟨t, ht⟩ := (area_eq_zero_iff (u := p - a) hne).1 (by
      simp only [area, Pi.sub_apply]; exact heq.symm)
    have t0 : p 0 - a 0 = t * (b 0 - a 0) := by simpa using congrFun ht 0
    have t1 : p 1 - a 1 = t * (b 1 - a 1) := by simpa using congrFun ht 1
    refine ⟨t, ?_, ?_, ?_⟩
    · -- left of the edge before
      have : 0 ≤ t * ((a 0 - z 0) * (b 1 - z 1) - (a 1 - z 1) * (b 0 - z 0)) := by
        have : (a 0 - z 0) * (p 1 - z 1) - (a 1 - z 1) * (p 0 - z 0) =
            t * ((a 0 - z 0) * (b 1 - z 1) - (a 1 - z 1) * (b 0 - z 0)) := by
          linear_combination (a 0 - z 0) * t1 - (a 1 - z 1) * t0
        linarith
      by_contra hc'
      exact absurd this (not_le.2 (mul_neg_of_neg_of_pos (not_le.1 hc') hzab))
    · -- left of the edge after
      have : 0 ≤ (1 - t) * ((b 0 - a 0) * (c 1 - a 1) - (b 1 - a 1) * (c 0 - a 0)) := by
        have : (c 0 - b 0) * (p 1 - b 1) - (c 1 - b 1) * (p 0 - b 0) =
            (1 - t) * ((b 0 - a 0) * (c 1 - a 1) - (b 1 - a 1) * (c 0 - a 0)) := by
          linear_combination (c 0 - b 0) * t1 - (c 1 - b 1) * t0
        linarith
      by_contra hc'
      exact absurd this (not_le.2 (mul_neg_of_neg_of_pos (by linarith [not_le.1 hc']) habc))
    · apply vec2_ext
      · simp only [Pi.add_apply, Pi.smul_apply, Pi.sub_apply, smul_eq_mul]; linarith
      · simp only [Pi.add_apply, Pi.smul_apply, Pi.sub_apply, smul_eq_mul]; linarith

/-- All vertices of a strictly convex polygon are on the left of each edge or on it. -/
theorem StrictlyConvex.leftOrOn {poly : List (Vec F 2)} (hc : StrictlyConvex poly)
    {e : Vec F 2 × Vec F 2} (he : e ∈ edges poly) {v : Vec F 2} (hv : v ∈ poly) :
    LeftOrOn e.1 e.2 v := by
  obtain ⟨rest, hr⟩ := exists_rotation (by have := hc.1; omega) he
  rw [hr.perm.mem_iff] at hv
  simp only [List.mem_cons] at hv
  unfold LeftOrOn
  rcases hv with rfl | rfl | hv
  · simp
  · apply le_of_eq; ring
  · exact (hc.2 _ _ _ hr v hv).le

/-- A point strictly on the right of an edge of a convex polygon has winding number zero. -/
theorem winding_right_of_edge {poly : List (Vec F 2)} (hc : StrictlyConvex poly) {p : Vec F 2}
    {e : Vec F 2 × Vec F 2} (he : e ∈ edges poly)
    (h : (e.2 0 - e.1 0) * (p 1 - e.1 1) - (e.2 1 - e.1 1) * (p 0 - e.1 0) < 0) :
    windingNumber p poly = 0 := by
  apply winding_separated p poly ![-(e.2 1 - e.1 1), e.2 0 - e.1 0]
  intro v hv
  have := hc.leftOrOn he hv
  unfold LeftOrOn at this
  simp only [Matrix.cons_val_zero, Matrix.cons_val_one]
  linarith

/-- Once one edge crosses the ray upwards no other does. -/
theorem crossing_once {poly : List (Vec F 2)} (hc : StrictlyConvex poly) {p a b : Vec F 2}
    {rest : List (Vec F 2)} (hr : poly ~r (a :: b :: rest)) (h : StrictlyIn p poly)
    (hab : crossing (a - p) (b - p) = 1) {e : Vec F 2 × Vec F 2}
    (he : e ∈ pairs (b :: rest ++ [a])) : crossing (e.1 - p) (e.2 - p) = 0 := by
  obtain ⟨u, w⟩ := e
  have hab' : (a - p) 1 < 0 ∧ 0 ≤ (b - p) 1 := by
    unfold crossing at hab
    split_ifs at hab with h1
    · exact ⟨h1.1, h1.2.1⟩
    · simp at hab
  have hmem : (u, w) ∈ edges poly := by
    rw [mem_edges_rotated hr, edges_cons]
    exact List.mem_cons_of_mem _ he
  have huw : 0 < area (u - p) (w - p) := by
    have := h _ hmem
    unfold StrictLeft at this
    simp only [area, Pi.sub_apply]
    linarith
  have habp : 0 < area (a - p) (b - p) := by
    have := h _ (mem_edges_of_rotation hr)
    unfold StrictLeft at this
    simp only [area, Pi.sub_apply]
    linarith
  unfold crossing
  rw [if_neg (c := 0 ≤ _ ∧ _ ∧ _) (fun hh => absurd hh.2.2 (not_lt.2 huw.le))]
  rw [if_neg]
  rintro ⟨hu, hw, -⟩
  simp only at hu hw
  have hw' : w ∈ rest := by
    have h1 : w ∈ rest ++ [a] := by
      obtain ⟨l, r, hlr⟩ := mem_pairs.1 he
      cases l with
      | nil =>
        simp only [List.nil_append, List.cons_append, List.cons.injEq] at hlr
        rw [hlr.2]; simp
      | cons x l =>
        simp only [List.cons_append, List.cons.injEq] at hlr
        rw [hlr.2]; simp
    rcases List.mem_append.1 h1 with hm | hm
    · exact hm
    · rw [List.mem_singleton.1 hm] at hw
      exact absurd hab'.1 (not_lt.2 hw)
  have g1 := hc.2 a b rest hr w hw'
  have g2 := hc.leftOrOn (mem_edges_of_rotation hr) (mem_of_mem_edges hmem).1
  have g3 := hc.leftOrOn hmem (mem_of_mem_edges (mem_edges_of_rotation hr)).1
  have g4 := hc.leftOrOn hmem (mem_of_mem_edges (mem_edges_of_rotation hr)).2
  unfold StrictLeft at g1
  unfold LeftOrOn at g2 g3 g4
  simp only [Pi.sub_apply] at hu hw hab' g2 g3 g4
  have k1 := mul_pos (neg_pos.2 hu) g1
  have k2 := mul_nonneg hw g2
  have k3 := mul_nonneg hab'.2 g3
  have k4 := mul_nonneg (neg_nonneg.2 hab'.1.le) g4
  linarith

/-- C62. The winding number of a strictly convex polygon around a point strictly inside is one. -/
theorem winding_convex (p : Vec F 2) (poly : List (Vec F 2)) (hc : StrictlyConvex poly)
    (h : StrictlyIn p poly) : windingNumber p poly = 1 := by
  have hne : poly ≠ [] := by
    rintro rfl; have := hc.1; simp at this
  obtain ⟨hb, hpos⟩ := winding_left p poly hne h
  rw [(windingNumber_eq p poly).2 hb] at hpos ⊢
  -- some edge crosses
  obtain ⟨e, he, h1⟩ : ∃ e ∈ edges poly, crossing (e.1 - p) (e.2 - p) = 1 := by
    by_contra hno
    push Not at hno
    have hle : ∀ l : List (Vec F 2 × Vec F 2), (∀ e ∈ l, crossing (e.1 - p) (e.2 - p) ≠ 1) →
        crossings p l ≤ 0 := by
      intro l
      induction l with
      | nil => simp [crossings]
      | cons e l ih =>
        intro hl
        have h1 := hl e (by simp)
        have h2 := (abs_le.1 (crossing_abs (e.1 - p) (e.2 - p))).2
        have h3 := ih fun x hx => hl x (List.mem_cons_of_mem _ hx)
        have h4 : crossings p (e :: l) = crossing (e.1 - p) (e.2 - p) + crossings p l := by
          simp [crossings]
        omega
    have := hle _ hno
    omega
  obtain ⟨a, b⟩ := e
  obtain ⟨rest, hr⟩ := exists_rotation (by have := hc.1; omega) he
  have hperm : (edges poly).Perm ((a, b) :: pairs (b :: rest ++ [a])) := by
    obtain ⟨k, hk⟩ := hr
    have := edges_rotate poly k
    rw [hk, edges_cons] at this
    exact (List.rotate_perm _ k).symm.trans (by rw [← this]; exact List.Perm.refl _)
  rw [crossings_perm p hperm]
  have h0 : crossings p (pairs (b :: rest ++ [a])) = 0 := by
    apply List.sum_eq_zero
    intro x hx
    obtain ⟨e, he, rfl⟩ := List.mem_map.1 hx
    exact crossing_once hc hr h h1 he
  have h3 : crossings p ((a, b) :: pairs (b :: rest ++ [a])) =
      crossing (a - p) (b - p) + crossings p (pairs (b :: rest ++ [a])) := by simp [crossings]
  rw [h3, h0, h1]
  rfl

/-- C62. In a strictly convex polygon (listed counter-clockwise) `inside` are exactly the points strictly
on the left of all edges, `border` those on an edge, `outside` those strictly on the right of some
edge. -/
theorem withinSimple_convex (p : Vec F 2) (poly : List (Vec F 2)) (hc : StrictlyConvex poly)
    (hn : (poly.length : Int) < boundary) :
    (withinSimple p poly = .inside ↔ StrictlyIn p poly) ∧
      (withinSimple p poly = .border ↔ OnBorder p poly) ∧
      (withinSimple p poly = .outside ↔ ∃ e ∈ edges poly,
        (e.2 0 - e.1 0) * (p 1 - e.1 1) - (e.2 1 - e.1 1) * (p 0 - e.1 0) < 0) := by
  have hne : poly ≠ [] := by
    rintro rfl; have := hc.1; simp at this
  have hb := withinSimple_border p poly hn
  have hin : StrictlyIn p poly → withinSimple p poly = .inside := by
    intro h
    obtain ⟨h1, h2⟩ := winding_left p poly hne h
    have h3 : windingNumber p poly ≠ boundary := by rwa [Ne, winding_border p poly hn]
    unfold withinSimple
    rw [if_neg h2.ne', if_neg h3]
  have hout : (∃ e ∈ edges poly,
        (e.2 0 - e.1 0) * (p 1 - e.1 1) - (e.2 1 - e.1 1) * (p 0 - e.1 0) < 0) →
      withinSimple p poly = .outside := by
    rintro ⟨e, he, h⟩
    unfold withinSimple
    rw [if_pos (winding_right_of_edge hc he h)]
  refine ⟨⟨fun h => ?_, hin⟩, hb, ⟨fun h => ?_, hout⟩⟩
  · by_contra h1
    have h2 : ¬ OnBorder p poly := fun h2 => by rw [hb.2 h2] at h; simp at h
    rw [hout (right_of_edge hc h1 h2)] at h; simp at h
  · have h1 : ¬ StrictlyIn p poly := fun h1 => by rw [hin h1] at h; simp at h
    have h2 : ¬ OnBorder p poly := fun h2 => by rw [hb.2 h2] at h; simp at h
    exact right_of_edge hc h1 h2

/-! ### Examples -/

/-- A star that goes around its centre twice. -/
example : windingNumber (F := ℚ) ![0, 0]
    [![5, 0], ![-4, 3], ![1, -5], ![1, 5], ![-4, -3]] = 2 := by decide +kernel

/-- An arrow head, not convex: in the notch, inside, on an edge, at a vertex. -/
example : (withinSimple (F := ℚ) ![0, 1] [![0, 2], ![-3, 0], ![0, 6], ![3, 0]] = .outside) ∧
    withinSimple (F := ℚ) ![0, 3] [![0, 2], ![3, 0], ![0, 6], ![-3, 0]] = .inside ∧
    withinSimple (F := ℚ) ![1, 4] [![0, 2], ![3, 0], ![0, 6], ![-3, 0]] = .border ∧
    withinSimple (F := ℚ) ![0, 2] [![0, 2], ![3, 0], ![0, 6], ![-3, 0]] = .border := by decide +kernel

/-- The hypotheses of `winding_separated`. -/
example : ∀ v ∈ [![1, 0], ![4, 1], ![2, 5]], (0 : ℚ) < (![1, 1] : Vec ℚ 2) 0 * (v 0 - (![0, 0] : Vec ℚ 2) 0)
    + (![1, 1] : Vec ℚ 2) 1 * (v 1 - (![0, 0] : Vec ℚ 2) 1) := by decide +kernel

/-- The hypotheses of `winding_cut`: the square cut by a diagonal, and a point in one half. -/
example : windingNumber (F := ℚ) ![3, 1] (![0, 0] :: [![4, 0]] ++ ![4, 4] :: [![0, 4]]) = 1 ∧
    windingNumber (F := ℚ) ![3, 1] (![0, 0] :: [![4, 0]] ++ [![4, 4]]) = 1 ∧
    windingNumber (F := ℚ) ![3, 1] (![0, 0] :: ![4, 4] :: [![0, 4]]) = 0 := by decide +kernel

/-- The hypothesis of `winding_left`. -/
example : StrictlyIn (F := ℚ) ![1, 1] [![0, 0], ![4, 0], ![4, 4], ![0, 4]] := by
  unfold StrictlyIn StrictLeft; decide +kernel

end Actl.Geo
