import Verif.Props.Monotone

/-!
# C63: a convex polygon as a monotone polygon

`toMonotone_monotone`: converting a strictly convex polygon gives its rotation that starts at the
leftmost vertex, with the right index of the rightmost vertex, and this is a monotone polygon.
`within_toMonotone`: so the classification after the conversion is right for every point.
-/

namespace Actl.Geo

variable {F : Type*} [Field F] [LinearOrder F] [IsStrictOrderedRing F]

/-! ### First minimum, last maximum -/

theorem minIndex_spec : ∀ (ys : List (Vec F 2)) (best : Vec F 2) (pos i : Nat),
    (minIndex best pos i ys = pos ∧ ∀ y ∈ ys, key best ≤ key y) ∨
      ∃ j z, minIndex best pos i ys = i + j ∧ ys[j]? = some z ∧ key z ≤ key best ∧
        ∀ y ∈ ys, key z ≤ key y
  | [], best, pos, i => .inl ⟨rfl, by simp⟩
  | y :: ys, best, pos, i => by
    unfold minIndex
    by_cases h : less y best = true
    · rw [if_pos h]
      have h' := (less_iff _ _).1 h
      right
      rcases minIndex_spec ys y i (i + 1) with ⟨e, hl⟩ | ⟨j, z, e, hz, hzy, hl⟩
      · refine ⟨0, y, by simp [e], rfl, h'.le, fun v hv => ?_⟩
        rcases List.mem_cons.1 hv with rfl | hv
        · exact le_rfl
        · exact hl v hv
      · refine ⟨j + 1, z, by rw [e]; omega, by simpa using hz, hzy.trans h'.le, fun v hv => ?_⟩
        rcases List.mem_cons.1 hv with rfl | hv
        · exact hzy
        · exact hl v hv
    · rw [if_neg h]
      have h' := (less_false _ _).1 (by simpa using h)
      rcases minIndex_spec ys best pos (i + 1) with ⟨e, hl⟩ | ⟨j, z, e, hz, hzy, hl⟩
      · refine .inl ⟨e, fun v hv => ?_⟩
        rcases List.mem_cons.1 hv with rfl | hv
        · exact h'
        · exact hl v hv
      · refine .inr ⟨j + 1, z, by rw [e]; omega, by simpa using hz, hzy, fun v hv => ?_⟩
        rcases List.mem_cons.1 hv with rfl | hv
        · exact hzy.trans h'
        · exact hl v hv

theorem maxIndex_spec : ∀ (ys : List (Vec F 2)) (best : Vec F 2) (pos i : Nat),
    (maxIndex best pos i ys = pos ∧ ∀ y ∈ ys, key y ≤ key best) ∨
      ∃ j z, maxIndex best pos i ys = i + j ∧ ys[j]? = some z ∧ key best ≤ key z ∧
        ∀ y ∈ ys, key y ≤ key z
  | [], best, pos, i => .inl ⟨rfl, by simp⟩
  | y :: ys, best, pos, i => by
    unfold maxIndex
    by_cases h : less y best = true
    · rw [if_pos h]
      have h' := (less_iff _ _).1 h
      rcases maxIndex_spec ys best pos (i + 1) with ⟨e, hl⟩ | ⟨j, z, e, hz, hzy, hl⟩
      · refine .inl ⟨e, fun v hv => ?_⟩
        rcases List.mem_cons.1 hv with rfl | hv
        · exact h'.le
        · exact hl v hv
      · refine .inr ⟨j + 1, z, by rw [e]; omega, by simpa using hz, hzy, fun v hv => ?_⟩
        rcases List.mem_cons.1 hv with rfl | hv
        · exact h'.le.trans hzy
        · exact hl v hv
    · rw [if_neg h]
      have h' := (less_false _ _).1 (by simpa using h)
      right
      rcases maxIndex_spec ys y i (i + 1) with ⟨e, hl⟩ | ⟨j, z, e, hz, hzy, hl⟩
      · refine ⟨0, y, by simp [e], rfl, h', fun v hv => ?_⟩
        rcases List.mem_cons.1 hv with rfl | hv
        · exact le_rfl
        · exact hl v hv
      · refine ⟨j + 1, z, by rw [e]; omega, by simpa using hz, h'.trans hzy, fun v hv => ?_⟩
        rcases List.mem_cons.1 hv with rfl | hv
        · exact hzy
        · exact hl v hv

theorem minIndex_min (x : Vec F 2) (xs : List (Vec F 2)) :
    ∃ z, (x :: xs)[minIndex x 0 1 xs]? = some z ∧ ∀ v ∈ x :: xs, key z ≤ key v := by
  rcases minIndex_spec xs x 0 1 with ⟨e, hl⟩ | ⟨j, z, e, hz, hzy, hl⟩
  · refine ⟨x, by rw [e]; rfl, fun v hv => ?_⟩
    rcases List.mem_cons.1 hv with rfl | hv
    · exact le_rfl
    · exact hl v hv
  · refine ⟨z, by rw [e, add_comm]; simpa using hz, fun v hv => ?_⟩
    rcases List.mem_cons.1 hv with rfl | hv
    · exact hzy
    · exact hl v hv

theorem maxIndex_max (x : Vec F 2) (xs : List (Vec F 2)) :
    ∃ z, (x :: xs)[maxIndex x 0 1 xs]? = some z ∧ ∀ v ∈ x :: xs, key v ≤ key z := by
  rcases maxIndex_spec xs x 0 1 with ⟨e, hl⟩ | ⟨j, z, e, hz, hzy, hl⟩
  · refine ⟨x, by rw [e]; rfl, fun v hv => ?_⟩
    rcases List.mem_cons.1 hv with rfl | hv
    · exact le_rfl
    · exact hl v hv
  · refine ⟨z, by rw [e, add_comm]; simpa using hz, fun v hv => ?_⟩
    rcases List.mem_cons.1 hv with rfl | hv
    · exact hzy
    · exact hl v hv

/-! ### Strictly convex polygons have one local maximum -/

theorem StrictlyConvex.rotated {poly poly' : List (Vec F 2)} (hc : StrictlyConvex poly)
    (h : poly ~r poly') : StrictlyConvex poly' :=
  ⟨h.perm.length_eq ▸ hc.1, fun a b rest hr => hc.2 a b rest (h.trans hr)⟩

theorem StrictlyConvex.nodup {poly : List (Vec F 2)} (hc : StrictlyConvex poly) : poly.Nodup := by
  have hh : ∀ {x : Vec F 2} {rest : List (Vec F 2)}, poly ~r (x :: rest) → x ∉ rest := by
    intro x rest hr hx
    have hlen : 3 ≤ (x :: rest).length := hr.perm.length_eq ▸ hc.1
    obtain ⟨b, c, r, rfl⟩ : ∃ b c r, rest = b :: c :: r := by
      match rest, hlen with
      | b :: c :: r, _ => exact ⟨b, c, r, rfl⟩
    rcases List.mem_cons.1 hx with rfl | hx
    · have := hc.2 _ _ _ hr c (by simp)
      unfold StrictLeft at this
      simp at this
    · have := hc.2 _ _ _ hr x hx
      unfold StrictLeft at this
      simp at this
  have aux : ∀ l₂ l₁ : List (Vec F 2), poly = l₁ ++ l₂ → l₂.Nodup := by
    intro l₂
    induction l₂ with
    | nil => intro _ _; exact List.nodup_nil
    | cons x l₂ ih =>
      intro l₁ e
      refine List.nodup_cons.2 ⟨fun hx => ?_, ih (l₁ ++ [x]) (by rw [e]; simp)⟩
      have hr : poly ~r (x :: (l₂ ++ l₁)) :=
        ⟨l₁.length, by rw [e, List.rotate_append_length_eq]; simp⟩
      exact hh hr (by simp [hx])
  exact aux poly [] rfl

/-- A vertex above both its neighbours is above all. -/
theorem StrictlyConvex.local_max {poly : List (Vec F 2)} (hc : StrictlyConvex poly)
    {x y z : Vec F 2} {rest : List (Vec F 2)} (hr : poly ~r (x :: y :: z :: rest))
    (hx : key x < key y) (hz : key z < key y) : ∀ v ∈ poly, key v ≤ key y := by
  intro v hv
  rw [hr.perm.mem_iff] at hv
  simp only [List.mem_cons] at hv
  rcases hv with rfl | rfl | rfl | hv
  · exact hx.le
  · exact le_rfl
  · exact hz.le
  have hr2 : poly ~r (y :: z :: (rest ++ [x])) := hr.trans ⟨1, by simp⟩
  have s1 := hc.2 _ _ _ hr v (by simp [hv])
  have s2 := hc.2 _ _ _ hr2 v (by simp [hv])
  have s3 := hc.2 _ _ _ hr z (by simp)
  unfold StrictLeft at s1 s2 s3
  rw [key_lt_iff] at hx hz
  refine le_of_lt (key_lt_iff.2 ?_)
  have hp := (hx.smul s2).nonneg.add_pos (hz.smul s1)
  refine ?_
  have e : y - v = ((y 0 - x 0) * (z 1 - x 1) - (y 1 - x 1) * (z 0 - x 0))⁻¹ •
      (((z 0 - y 0) * (v 1 - y 1) - (z 1 - y 1) * (v 0 - y 0)) • (y - x) +
        ((y 0 - x 0) * (v 1 - x 1) - (y 1 - x 1) * (v 0 - x 0)) • (y - z)) := by
    have h3 := s3.ne'
    rw [eq_inv_smul_iff₀ h3]
    apply vec2_ext <;> simp <;> ring
  rw [e]
  exact hp.smul (inv_pos.2 s3)

/-- A vertex below both its neighbours is below all. -/
theorem StrictlyConvex.local_min {poly : List (Vec F 2)} (hc : StrictlyConvex poly)
    {x y z : Vec F 2} {rest : List (Vec F 2)} (hr : poly ~r (x :: y :: z :: rest))
    (hx : key y < key x) (hz : key y < key z) : ∀ v ∈ poly, key y ≤ key v := by
  intro v hv
  rw [hr.perm.mem_iff] at hv
  simp only [List.mem_cons] at hv
  rcases hv with rfl | rfl | rfl | hv
  · exact hx.le
  · exact le_rfl
  · exact hz.le
  have hr2 : poly ~r (y :: z :: (rest ++ [x])) := hr.trans ⟨1, by simp⟩
  have s1 := hc.2 _ _ _ hr v (by simp [hv])
  have s2 := hc.2 _ _ _ hr2 v (by simp [hv])
  have s3 := hc.2 _ _ _ hr z (by simp)
  unfold StrictLeft at s1 s2 s3
  rw [key_lt_iff] at hx hz
  refine le_of_lt (key_lt_iff.2 ?_)
  have hp := (hx.smul s2).nonneg.add_pos (hz.smul s1)
  have e : v - y = ((y 0 - x 0) * (z 1 - x 1) - (y 1 - x 1) * (z 0 - x 0))⁻¹ •
      (((z 0 - y 0) * (v 1 - y 1) - (z 1 - y 1) * (v 0 - y 0)) • (x - y) +
        ((y 0 - x 0) * (v 1 - x 1) - (y 1 - x 1) * (v 0 - x 0)) • (z - y)) := by
    have h3 := s3.ne'
    rw [eq_inv_smul_iff₀ h3]
    apply vec2_ext <;> simp <;> ring
  rw [e]
  exact hp.smul (inv_pos.2 s3)

theorem vert_rotation {poly : List (Vec F 2)} (h3 : 3 ≤ poly.length) (i : Nat) :
    ∃ rest, poly ~r (vert poly i :: vert poly (i + 1) :: vert poly (i + 2) :: rest) := by
  have hlen : (poly.rotate i).length = poly.length := List.length_rotate ..
  have hget : ∀ k, k < poly.length → (poly.rotate i)[k]? = some (vert poly (i + k)) := by
    intro k hk
    have hm : (i + k) % poly.length < poly.length := Nat.mod_lt _ (by omega)
    rw [List.getElem?_rotate hk, vert, add_comm k i, List.getElem?_eq_getElem hm]
    rfl
  match hl : poly.rotate i, hlen with
  | a :: b :: c :: r, _ =>
    have g0 := hget 0 (by omega)
    have g1 := hget 1 (by omega)
    have g2 := hget 2 (by omega)
    rw [hl] at g0 g1 g2
    simp only [List.getElem?_cons_zero, List.getElem?_cons_succ, Option.some.injEq, add_zero] at g0 g1 g2
    exact ⟨r, i, by rw [hl, g0, g1, g2]⟩
  | [], h => simp at h; omega
  | [_], h => simp at h; omega
  | [_, _], h => simp at h; omega

theorem vert_mem {poly : List (Vec F 2)} (h : 0 < poly.length) (i : Nat) : vert poly i ∈ poly := by
  have hm : i % poly.length < poly.length := Nat.mod_lt _ h
  rw [vert, List.getElem?_eq_getElem hm]
  exact List.getElem_mem hm

theorem StrictlyConvex.vert_ne {poly : List (Vec F 2)} (hc : StrictlyConvex poly) {i j : Nat}
    (h : i % poly.length ≠ j % poly.length) : vert poly i ≠ vert poly j := by
  have h0 : 0 < poly.length := by have := hc.1; omega
  have hi : i % poly.length < poly.length := Nat.mod_lt _ h0
  have hj : j % poly.length < poly.length := Nat.mod_lt _ h0
  rw [vert, vert, List.getElem?_eq_getElem hi, List.getElem?_eq_getElem hj]
  intro e
  exact h ((hc.nodup.getElem_inj_iff).1 e)

/-- From the least vertex the vertices ascend to the greatest and descend afterwards. -/
theorem StrictlyConvex.unimodal {poly : List (Vec F 2)} (hc : StrictlyConvex poly) {r : Nat}
    (hr : r < poly.length) (hmin : ∀ v ∈ poly, key (vert poly 0) ≤ key v)
    (hmax : ∀ v ∈ poly, key v ≤ key (vert poly r)) :
    0 < r ∧ (∀ i < r, key (vert poly i) < key (vert poly (i + 1))) ∧
      ∀ i < poly.length, r ≤ i → key (vert poly (i + 1)) < key (vert poly i) := by
  have h3 := hc.1
  have h0 : 0 < poly.length := by omega
  have lt_of : ∀ {i j : Nat}, i % poly.length ≠ j % poly.length → key (vert poly i) ≤ key (vert poly j) →
      key (vert poly i) < key (vert poly j) := fun hne hle =>
    lt_of_le_of_ne hle fun e => hc.vert_ne hne (key_inj.1 e)
  have succ_ne : ∀ i : Nat, i % poly.length ≠ (i + 1) % poly.length := by
    intro i e
    have h1 := Nat.mod_lt i h0
    rw [Nat.add_mod, Nat.mod_eq_of_lt (a := 1) (by omega)] at e
    rcases Nat.lt_or_ge (i % poly.length + 1) poly.length with h | h
    · rw [Nat.mod_eq_of_lt h] at e; omega
    · have h2 : i % poly.length + 1 = poly.length := by omega
      rw [h2, Nat.mod_self] at e; omega
  have hr0 : 0 < r := by
    by_contra hr0
    obtain rfl : r = 0 := by omega
    have := lt_of (i := 0) (j := 1) (by simpa using succ_ne 0) (hmin _ (vert_mem h0 1))
    exact absurd (hmax _ (vert_mem h0 1)) (not_le.2 this)
  refine ⟨hr0, ?_, ?_⟩
  · intro i
    induction i with
    | zero => intro _; exact lt_of (by simpa using succ_ne 0) (hmin _ (vert_mem h0 _))
    | succ i ih =>
      intro hi
      have h1 := ih (by omega)
      by_contra hle
      have h2 := lt_of (succ_ne (i + 1)).symm (not_lt.1 hle)
      obtain ⟨rest, hrot⟩ := vert_rotation h3 i
      have hm := hc.local_max hrot h1 h2
      have e := key_inj.1 (le_antisymm (hmax _ (vert_mem h0 (i + 1))) (hm _ (vert_mem h0 r)))
      refine hc.vert_ne ?_ e
      rw [Nat.mod_eq_of_lt (by omega), Nat.mod_eq_of_lt hr]; omega
  · intro i hi hri
    induction i with
    | zero => omega
    | succ i ih =>
      rcases Nat.lt_or_ge i r with hlt | hge
      · obtain rfl : i + 1 = r := by omega
        exact lt_of (succ_ne _).symm (hmax _ (vert_mem h0 _))
      · have h1 := ih (by omega) hge
        by_contra hle
        have h2 := lt_of (succ_ne (i + 1)) (not_lt.1 hle)
        obtain ⟨rest, hrot⟩ := vert_rotation h3 i
        have hm := hc.local_min hrot h1 h2
        have e := key_inj.1 (le_antisymm (hm _ (vert_mem h0 0)) (hmin _ (vert_mem h0 (i + 1))))
        refine hc.vert_ne ?_ e
        rw [Nat.mod_eq_of_lt hi, Nat.zero_mod]; omega

/-! ### The conversion -/

theorem pairwise_of_steps {c : List (Vec F 2)}
    (h : ∀ (i : Nat) (h : i + 1 < c.length), key c[i] < key c[i + 1]) : c.Pairwise LexLess := by
  have : c.IsChain (fun p q => key p < key q) := List.isChain_iff_getElem.2 h
  have ht : IsTrans (Vec F 2) (fun p q => key p < key q) := ⟨fun _ _ _ => lt_trans⟩
  exact (List.isChain_iff_pairwise.1 this).imp fun h => lexLess_iff.2 h

/-- A strictly convex polygon that starts at its least vertex is monotone. -/
theorem StrictlyConvex.monotone {poly : List (Vec F 2)} (hc : StrictlyConvex poly) {r : Nat}
    (hr : r < poly.length) (hmin : ∀ v ∈ poly, key (vert poly 0) ≤ key v)
    (hmax : ∀ v ∈ poly, key v ≤ key (vert poly r)) : Monotone poly r := by
  obtain ⟨hr0, hup, hdown⟩ := hc.unimodal hr hmin hmax
  have hv : ∀ {i : Nat} (h : i < poly.length), vert poly i = poly[i] := by
    intro i h
    rw [vert, Nat.mod_eq_of_lt h, List.getElem?_eq_getElem h]; rfl
  obtain ⟨a, rest, rfl⟩ : ∃ a rest, poly = a :: rest := by
    cases poly with
    | nil => simp at hr
    | cons a rest => exact ⟨a, rest, rfl⟩
  have hr' : r - 1 < rest.length := by simp at hr; omega
  have hrest : rest = rest.take (r - 1) ++ rest[r - 1] :: rest.drop r := by
    have := List.take_append_drop (r - 1) rest
    rw [List.drop_eq_getElem_cons hr', show r - 1 + 1 = r by omega] at this
    exact this.symm
  have hl : (rest.take (r - 1)).length = r - 1 := by rw [List.length_take]; omega
  refine ⟨a, rest.take (r - 1), rest[r - 1], rest.drop r, ?_, by omega, ?_, ?_⟩
  · rw [List.cons_append, ← hrest]
  · -- the first `r + 1` vertices
    have e : a :: rest.take (r - 1) ++ [rest[r - 1]] = (a :: rest).take (r + 1) := by
      rw [List.take_succ_cons, List.cons_append]
      congr 1
      conv_rhs => rw [show r = r - 1 + 1 by omega, List.take_succ, List.getElem?_eq_getElem hr']
      rfl
    rw [e]
    apply pairwise_of_steps
    intro i hi
    rw [List.length_take] at hi
    have h1 : i + 1 < (a :: rest).length := by omega
    have := hup i (by omega)
    rw [hv (by omega), hv h1] at this
    simpa only [List.getElem_take] using this
  · -- the rest backwards, and the first vertex at the end
    have e : a :: (rest.drop r).reverse ++ [rest[r - 1]] =
        ((a :: rest).drop r ++ [a]).reverse := by
      have : (a :: rest).drop r = rest[r - 1] :: rest.drop r := by
        conv_lhs => rw [show r = r - 1 + 1 by omega, List.drop_succ_cons,
          List.drop_eq_getElem_cons hr', show r - 1 + 1 = r by omega]
      rw [this]; simp
    rw [e, List.pairwise_reverse]
    have hchain : ((a :: rest).drop r ++ [a]).IsChain (fun p q => key q < key p) := by
      rw [List.isChain_iff_getElem]
      intro i hi
      simp only [List.length_append, List.length_drop, List.length_cons, List.length_nil] at hi
      have hri : r + i < (a :: rest).length := by simp only [List.length_cons]; omega
      have := hdown (r + i) hri (by omega)
      have g1 : ((a :: rest).drop r ++ [a])[i] = vert (a :: rest) (r + i) := by
        rw [List.getElem_append_left (by simp only [List.length_drop, List.length_cons]; omega),
          List.getElem_drop, hv hri]
      have g2 : ((a :: rest).drop r ++ [a])[i + 1] = vert (a :: rest) (r + i + 1) := by
        rcases Nat.lt_or_ge (r + i + 1) (a :: rest).length with h | h
        · rw [List.getElem_append_left (by
            simp only [List.length_drop, List.length_cons] at h ⊢; omega), List.getElem_drop, hv h]
          rfl
        · have h' : r + i + 1 = (a :: rest).length := by omega
          rw [List.getElem_append_right (by
            simp only [List.length_drop, List.length_cons] at h ⊢; omega)]
          rw [h', vert, Nat.mod_self]
          simp
      rw [g1, g2]
      exact this
    have ht : IsTrans (Vec F 2) (fun p q => key q < key p) := ⟨fun _ _ _ h h' => lt_trans h' h⟩
    exact (List.isChain_iff_pairwise.1 hchain).imp fun h => lexLess_iff.2 h

/-- C63. The conversion of a strictly convex polygon: the same polygon, from its least vertex on, and
monotone. -/
theorem toMonotone_monotone (poly : List (Vec F 2)) (hc : StrictlyConvex poly) :
    poly ~r (toMonotone poly).1 ∧ Monotone (toMonotone poly).1 (toMonotone poly).2 := by
  cases poly with
  | nil => have := hc.1; simp at this
  | cons x xs =>
    obtain ⟨a, ha, hamin⟩ := minIndex_min x xs
    obtain ⟨m, hm, hmmax⟩ := maxIndex_max x xs
    have hrot : (x :: xs) ~r (toMonotone (x :: xs)).1 := ⟨_, rfl⟩
    refine ⟨hrot, ?_⟩
    have hi : minIndex x 0 1 xs < (x :: xs).length := (List.getElem?_eq_some_iff.1 ha).1
    have hj : maxIndex x 0 1 xs < (x :: xs).length := (List.getElem?_eq_some_iff.1 hm).1
    have hlen : (toMonotone (x :: xs)).1.length = (x :: xs).length := List.length_rotate ..
    -- the index of the greatest vertex
    have hr : (toMonotone (x :: xs)).2 < (x :: xs).length ∧
        ((toMonotone (x :: xs)).2 + minIndex x 0 1 xs) % (x :: xs).length = maxIndex x 0 1 xs := by
      unfold toMonotone
      simp only
      split_ifs with h
      · constructor
        · omega
        · rw [show ((maxIndex x 0 1 xs : Int) - (minIndex x 0 1 xs : Int) + ((x :: xs).length : Int)).toNat
              + minIndex x 0 1 xs = maxIndex x 0 1 xs + (x :: xs).length by omega, Nat.add_mod_right,
            Nat.mod_eq_of_lt hj]
      · constructor
        · omega
        · rw [show ((maxIndex x 0 1 xs : Int) - (minIndex x 0 1 xs : Int)).toNat + minIndex x 0 1 xs =
            maxIndex x 0 1 xs by omega, Nat.mod_eq_of_lt hj]
    have hget : ∀ k, k < (x :: xs).length →
        vert (toMonotone (x :: xs)).1 k = vert (x :: xs) (k + minIndex x 0 1 xs) := by
      intro k hk
      have : (toMonotone (x :: xs)).1[k]? = (x :: xs)[(k + minIndex x 0 1 xs) % (x :: xs).length]? :=
        List.getElem?_rotate hk
      rw [vert, hlen, Nat.mod_eq_of_lt hk, this, vert]
    apply (hc.rotated hrot).monotone
    · rw [hlen]; exact hr.1
    · intro v hv
      rw [← hrot.perm.mem_iff] at hv
      rw [hget 0 (by simp), zero_add, vert, Nat.mod_eq_of_lt hi, ha]
      exact hamin v hv
    · intro v hv
      rw [← hrot.perm.mem_iff] at hv
      rw [hget _ hr.1, vert, hr.2, hm]
      exact hmmax v hv

/-- C63. Converted to a monotone polygon, a strictly convex polygon classifies every point like its
edges: inside are the points strictly on the left of all edges, on the border those on an edge, outside
those strictly on the right of some edge.  Both searches do. -/
theorem within_toMonotone (p : Vec F 2) (poly : List (Vec F 2)) (hc : StrictlyConvex poly)
    (hn : (poly.length : Int) < boundary) :
    ∃ w, withinConvexMonotone p (toMonotone poly).1 (toMonotone poly).2 = some w ∧
      withinMonotone p (toMonotone poly).1 (toMonotone poly).2 = some w ∧
      (w = .inside ↔ StrictlyIn p poly) ∧ (w = .border ↔ OnBorder p poly) ∧
      (w = .outside ↔ ∃ e ∈ edges poly, StrictRight e.1 e.2 p) := by
  obtain ⟨hrot, hmono⟩ := toMonotone_monotone poly hc
  have hc' := hc.rotated hrot
  refine ⟨withinSimple p (toMonotone poly).1, withinConvexMonotone_eq p _ _ hc' hmono,
    withinMonotone_convex p _ _ hc' hmono, ?_⟩
  have hw : withinSimple p (toMonotone poly).1 = withinSimple p poly := by
    obtain ⟨k, hk⟩ := hrot
    unfold withinSimple
    rw [← hk, winding_rotate]
  rw [hw]
  exact withinSimple_convex p poly hc hn

/-! ### Examples -/

/-- A hexagon (rotated), a point below it within its width, the conversion and the results. -/
example : toMonotone (F := ℚ) [![3, 0], ![4, 2], ![3, 4], ![1, 4], ![0, 2], ![1, 0]] =
    ([![0, 2], ![1, 0], ![3, 0], ![4, 2], ![3, 4], ![1, 4]], 3) := by decide +kernel

example : withinConvexMonotone (F := ℚ) ![2, 1] [![0, 2], ![1, 0], ![3, 0], ![4, 2], ![3, 4], ![1, 4]] 3
      = some .inside ∧
    withinConvexMonotone (F := ℚ) ![2, 2] [![0, 2], ![1, 0], ![3, 0], ![4, 2], ![3, 4], ![1, 4]] 3
      = some .inside ∧
    withinConvexMonotone (F := ℚ) ![2, 0] [![0, 2], ![1, 0], ![3, 0], ![4, 2], ![3, 4], ![1, 4]] 3
      = some .border ∧
    withinMonotone (F := ℚ) ![0, 3] [![0, 2], ![1, 0], ![3, 0], ![4, 2], ![3, 4], ![1, 4]] 3
      = some .outside := by decide +kernel

/-- A monotone polygon that is not convex: the hypotheses of `withinMonotone_eq`. -/
example : Monotone (F := ℚ) [![0, 0], ![2, 1], ![4, 0], ![3, 3], ![2, 2], ![1, 4]] 2 := by
  refine ⟨![0, 0], [![2, 1]], ![4, 0], [![3, 3], ![2, 2], ![1, 4]], rfl, rfl, ?_, ?_⟩ <;>
    (unfold LexLess; decide +kernel)

example : NotInverted (F := ℚ) [![0, 0], ![2, 1], ![4, 0], ![3, 3], ![2, 2], ![1, 4]] 2 ![2, 0] := by
  unfold NotInverted Spans LexLess StrictRight StrictLeft; decide +kernel

example : withinMonotone (F := ℚ) ![2, 0] [![0, 0], ![2, 1], ![4, 0], ![3, 3], ![2, 2], ![1, 4]] 2 =
    some .outside ∧
    withinMonotone (F := ℚ) ![2, 3/2] [![0, 0], ![2, 1], ![4, 0], ![3, 3], ![2, 2], ![1, 4]] 2 =
    some .inside := by decide +kernel

end Actl.Geo
