import Verif.Props.ToMonotone

/-!
# Linear functions on the vertices of a strictly convex polygon
-/

namespace Actl.Geo

variable {F : Type*} [Field F] [LinearOrder F] [IsStrictOrderedRing F] {poly : List (Vec F 2)}

/-- The edge that starts at a vertex, positions modulo the number of vertices. -/
def edgeAt (poly : List (Vec F 2)) (k : Nat) : Vec F 2 := vert poly (k + 1) - vert poly k

omit [LinearOrder F] [IsStrictOrderedRing F] in
theorem inner2 (u d : Vec F 2) : inner u d = u 0 * d 0 + u 1 * d 1 := by
  rw [inner, Fin.sum_univ_two]

omit [LinearOrder F] [IsStrictOrderedRing F] in
/-- Three vectors of the plane are dependent. -/
theorem area_dep (P Q R d : Vec F 2) :
    area P R * inner Q d = area Q R * inner P d + area P Q * inner R d := by
  simp only [inner2, area]; ring

omit [LinearOrder F] [IsStrictOrderedRing F] in
theorem area_swap (P Q : Vec F 2) : area Q P = -area P Q := by
  simp only [area]; ring

omit [LinearOrder F] [IsStrictOrderedRing F] in
theorem area_self' (P : Vec F 2) : area P P = 0 := by
  simp only [area]; ring

omit [LinearOrder F] [IsStrictOrderedRing F] in
theorem vert_mod (k : Nat) : vert poly (k % poly.length) = vert poly k := by
  rw [vert, vert, Nat.mod_mod]

omit [LinearOrder F] [IsStrictOrderedRing F] in
theorem vert_period (k : Nat) : vert poly (k + poly.length) = vert poly k := by
  rw [vert, vert, Nat.add_mod_right]

omit [LinearOrder F] [IsStrictOrderedRing F] in
theorem edgeAt_period (k : Nat) : edgeAt poly (k + poly.length) = edgeAt poly k := by
  rw [edgeAt, edgeAt, vert_period, show k + poly.length + 1 = k + 1 + poly.length by omega, vert_period]

omit [LinearOrder F] [IsStrictOrderedRing F] in
theorem inner_edgeAt (k : Nat) (d : Vec F 2) :
    inner (edgeAt poly k) d = inner (vert poly (k + 1)) d - inner (vert poly k) d := by
  rw [edgeAt, inner_sub_left]

omit [LinearOrder F] [IsStrictOrderedRing F] in
theorem exists_vert {p : Vec F 2} (hp : p ∈ poly) : ∃ k < poly.length, vert poly k = p := by
  obtain ⟨k, hk, rfl⟩ := List.getElem_of_mem hp
  exact ⟨k, hk, by rw [vert, Nat.mod_eq_of_lt hk, List.getElem?_eq_getElem hk]; rfl⟩

/-- The other vertices are on the left of the edge. -/
theorem StrictlyConvex.left (hc : StrictlyConvex poly) (k m : Nat)
    (h0 : vert poly m ≠ vert poly k) (h1 : vert poly m ≠ vert poly (k + 1)) :
    0 < area (edgeAt poly k) (vert poly m - vert poly k) := by
  have h3 := hc.1
  obtain ⟨rest, hr⟩ := vert_rotation h3 k
  have hm : vert poly m ∈ poly := vert_mem (by omega) m
  rw [hr.perm.mem_iff] at hm
  rcases List.mem_cons.1 hm with h | hm
  · exact absurd h h0
  rcases List.mem_cons.1 hm with h | hm
  · exact absurd h h1
  have := hc.2 _ _ _ hr _ hm
  simpa only [StrictLeft, area, edgeAt, Pi.sub_apply] using this

theorem StrictlyConvex.leftOrOn' (hc : StrictlyConvex poly) (k m : Nat) :
    0 ≤ area (edgeAt poly k) (vert poly m - vert poly k) := by
  by_cases h0 : vert poly m = vert poly k
  · rw [h0, sub_self]; simp [area]
  by_cases h1 : vert poly m = vert poly (k + 1)
  · rw [h1, ← edgeAt, area_self']
  exact (hc.left k m h0 h1).le

theorem StrictlyConvex.turn (hc : StrictlyConvex poly) (k : Nat) :
    0 < area (edgeAt poly k) (edgeAt poly (k + 1)) := by
  have h3 := hc.1
  have hlen : 0 < poly.length := by omega
  have e : ∀ a b : Nat, a < b → b < a + poly.length → b % poly.length ≠ a % poly.length := by
    intro a b hab hb he
    have := Nat.sub_mod_eq_zero_of_mod_eq he
    rw [Nat.mod_eq_of_lt (by omega)] at this
    omega
  have := hc.left k (k + 2) (hc.vert_ne (e _ _ (by omega) (by omega)))
    (hc.vert_ne (e _ _ (by omega) (by omega)))
  have e2 : area (edgeAt poly k) (edgeAt poly (k + 1)) =
      area (edgeAt poly k) (vert poly (k + 2) - vert poly k) := by
    simp only [area, edgeAt, Pi.sub_apply]; ring
  rw [e2]; exact this

theorem StrictlyConvex.vert_ne' (hc : StrictlyConvex poly) {a b : Nat} (hab : a < b)
    (hb : b < a + poly.length) : vert poly b ≠ vert poly a := by
  have h3 := hc.1
  refine hc.vert_ne fun he => ?_
  have := Nat.sub_mod_eq_zero_of_mod_eq he
  rw [Nat.mod_eq_of_lt (by omega)] at this
  omega

/-- A vertex from which a linear function does not increase in either direction is a maximum. -/
theorem StrictlyConvex.linear_max (hc : StrictlyConvex poly) {d : Vec F 2} {k : Nat}
    (h0 : 0 ≤ inner (edgeAt poly k) d) (h1 : inner (edgeAt poly (k + 1)) d ≤ 0) (m : Nat) :
    inner (vert poly m) d ≤ inner (vert poly (k + 1)) d := by
  have ht := hc.turn k
  have a1 := hc.leftOrOn' k m
  have a2 := hc.leftOrOn' (k + 1) m
  have e := area_dep (edgeAt poly k) (vert poly m - vert poly (k + 1)) (edgeAt poly (k + 1)) d
  have e1 : area (edgeAt poly k) (vert poly m - vert poly (k + 1)) =
      area (edgeAt poly k) (vert poly m - vert poly k) := by
    simp only [area, edgeAt, Pi.sub_apply]; ring
  rw [e1, area_swap (edgeAt poly (k + 1)) (vert poly m - vert poly (k + 1)), inner_sub_left] at e
  have : area (edgeAt poly k) (edgeAt poly (k + 1)) *
      (inner (vert poly m) d - inner (vert poly (k + 1)) d) ≤ 0 := by
    rw [e]
    have := mul_nonneg a2 h0
    have := mul_nonpos_of_nonneg_of_nonpos a1 h1
    linarith
  have := nonpos_of_mul_nonpos_right this ht
  linarith

/-- A maximum is taken at one vertex or at two neighbours. -/
theorem StrictlyConvex.linear_max_strict (hc : StrictlyConvex poly) {d : Vec F 2} (hd : d ≠ 0)
    {k : Nat} (h0 : 0 ≤ inner (edgeAt poly k) d) (h1 : inner (edgeAt poly (k + 1)) d ≤ 0) {m : Nat}
    (hk : vert poly m ≠ vert poly k) (hk1 : vert poly m ≠ vert poly (k + 1))
    (hk2 : vert poly m ≠ vert poly (k + 2)) :
    inner (vert poly m) d < inner (vert poly (k + 1)) d := by
  have ht := hc.turn k
  have a1 := hc.left k m hk hk1
  have a2 := hc.left (k + 1) m hk1 hk2
  have e := area_dep (edgeAt poly k) (vert poly m - vert poly (k + 1)) (edgeAt poly (k + 1)) d
  have e1 : area (edgeAt poly k) (vert poly m - vert poly (k + 1)) =
      area (edgeAt poly k) (vert poly m - vert poly k) := by
    simp only [area, edgeAt, Pi.sub_apply]; ring
  rw [e1, area_swap (edgeAt poly (k + 1)) (vert poly m - vert poly (k + 1)), inner_sub_left] at e
  have : area (edgeAt poly k) (edgeAt poly (k + 1)) *
      (inner (vert poly m) d - inner (vert poly (k + 1)) d) < 0 := by
    rw [e]
    rcases h0.lt_or_eq with h0 | h0
    · have := mul_pos a2 h0
      have := mul_nonpos_of_nonneg_of_nonpos a1.le h1
      linarith
    · rcases h1.lt_or_eq with h1 | h1
      · have := mul_nonneg a2.le (show (0 : F) ≤ inner (edgeAt poly k) d by rw [← h0])
        have := mul_neg_of_pos_of_neg a1 h1
        linarith
      · exfalso
        apply hd
        generalize edgeAt poly k = P at *
        generalize edgeAt poly (k + 1) = R at *
        rw [inner2] at h0 h1
        have hne := ht.ne'
        rw [area] at hne
        apply vec2_ext
        · have : (P 0 * R 1 - P 1 * R 0) * d 0 = 0 := by linear_combination -R 1 * h0 - P 1 * h1
          exact (mul_eq_zero.1 this).resolve_left hne
        · have : (P 0 * R 1 - P 1 * R 0) * d 1 = 0 := by linear_combination P 0 * h1 + R 0 * h0
          exact (mul_eq_zero.1 this).resolve_left hne
  have := neg_of_mul_neg_right this ht.le
  linarith

/-- Between a minimum and a maximum a linear function increases, strictly except at the ends. -/
theorem StrictlyConvex.linear_ascend (hc : StrictlyConvex poly) {d : Vec F 2} (hd : d ≠ 0) {a b : Nat}
    (hb : b < a + poly.length) (hmin : ∀ v ∈ poly, inner (vert poly a) d ≤ inner v d)
    (hmax : ∀ v ∈ poly, inner v d ≤ inner (vert poly b) d) (k : Nat) (hak : a < k) (hkb : k + 1 < b) :
    0 < inner (edgeAt poly k) d := by
  have hlen : 0 < poly.length := by have := hc.1; omega
  obtain ⟨j, rfl⟩ : ∃ j, k = a + 1 + j := ⟨k - (a + 1), by omega⟩
  induction j using Nat.strong_induction_on with
  | _ j ih =>
    by_contra hn
    rw [not_lt] at hn
    have h0 : 0 ≤ inner (edgeAt poly (a + j)) d := by
      rcases Nat.eq_zero_or_pos j with rfl | hj
      · rw [inner_edgeAt]
        have := hmin _ (vert_mem hlen (a + 0 + 1))
        simp only [add_zero] at *
        linarith
      · have := ih (j - 1) (by omega) (by omega) (by omega)
        rw [show a + 1 + (j - 1) = a + j by omega] at this
        exact this.le
    rw [show a + 1 + j = a + j + 1 by omega] at *
    have := hc.linear_max_strict hd h0 hn (m := b) (hc.vert_ne' (by omega) (by omega))
      (hc.vert_ne' (by omega) (by omega)) (hc.vert_ne' (by omega) (by omega))
    have := hmax _ (vert_mem hlen (a + j + 1))
    linarith

/-- From a minimum to a maximum the edges turn by less than a half turn, or by a half turn if the
first and the last one are both orthogonal to the direction. -/
theorem StrictlyConvex.turn_ascend (hc : StrictlyConvex poly) {d : Vec F 2} (hd : d ≠ 0) {a b : Nat}
    (hb : b < a + poly.length) (hmin : ∀ v ∈ poly, inner (vert poly a) d ≤ inner v d)
    (hmax : ∀ v ∈ poly, inner v d ≤ inner (vert poly b) d) (k : Nat) (hak : a < k) (hkb : k < b) :
    0 < area (edgeAt poly a) (edgeAt poly k) ∨
      k + 1 = b ∧ inner (edgeAt poly a) d = 0 ∧ inner (edgeAt poly k) d = 0 ∧
        area (edgeAt poly a) (edgeAt poly k) = 0 := by
  have hlen : 0 < poly.length := by have := hc.1; omega
  have hasc := hc.linear_ascend hd hb hmin hmax
  have ha0 : 0 ≤ inner (edgeAt poly a) d := by
    rw [inner_edgeAt]
    have := hmin _ (vert_mem hlen (a + 1))
    linarith
  have hb0 : ∀ k, k + 1 = b → 0 ≤ inner (edgeAt poly k) d := by
    rintro k rfl
    rw [inner_edgeAt]
    have := hmax _ (vert_mem hlen k)
    linarith
  obtain ⟨j, rfl⟩ : ∃ j, k = a + 1 + j := ⟨k - (a + 1), by omega⟩
  induction j with
  | zero => exact Or.inl (hc.turn a)
  | succ j ih =>
    have ih' : 0 < area (edgeAt poly a) (edgeAt poly (a + 1 + j)) := by
      rcases ih (by omega) (by omega) with h | ⟨h, -⟩
      · exact h
      · omega
    have hj := hasc (a + 1 + j) (by omega) (by omega)
    have hj1 : 0 ≤ inner (edgeAt poly (a + 1 + j + 1)) d := by
      by_cases h : a + 1 + j + 1 + 1 = b
      · exact hb0 _ h
      · exact (hasc _ (by omega) (by omega)).le
    have ht := hc.turn (a + 1 + j)
    have e := area_dep (edgeAt poly a) (edgeAt poly (a + 1 + j)) (edgeAt poly (a + 1 + j + 1)) d
    rw [← add_assoc] at *
    by_cases hz : inner (edgeAt poly a) d = 0 ∧ inner (edgeAt poly (a + 1 + j + 1)) d = 0
    · rw [hz.1, hz.2, mul_zero, mul_zero, add_zero] at e
      refine Or.inr ⟨?_, hz.1, hz.2, (mul_eq_zero.1 e).resolve_right hj.ne'⟩
      by_contra h
      exact absurd hz.2 (hasc _ (by omega) (by omega)).ne'
    · left
      have : 0 < area (edgeAt poly (a + 1 + j)) (edgeAt poly (a + 1 + j + 1)) *
          inner (edgeAt poly a) d + area (edgeAt poly a) (edgeAt poly (a + 1 + j)) *
          inner (edgeAt poly (a + 1 + j + 1)) d := by
        have h1 := mul_nonneg ht.le ha0
        have h2 := mul_nonneg ih'.le hj1
        rcases ha0.lt_or_eq with h | h
        · have := mul_pos ht h; linarith
        · rcases hj1.lt_or_eq with h' | h'
          · have := mul_pos ih' h'; linarith
          · exact absurd ⟨h.symm, h'.symm⟩ hz
      rw [← e] at this
      exact (mul_pos_iff_of_pos_right hj).1 this

end Actl.Geo
