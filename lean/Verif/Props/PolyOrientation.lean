import Verif.Lemmas.JordanArea
import Verif.Model.PolyOrientation
import Verif.Props.Intersect

/-!
# C120: orientation of a simple polygon
-/

namespace Actl.Geo

variable {F : Type*} [Field F] [LinearOrder F] [IsStrictOrderedRing F] {poly : List (Vec F 2)}

theorem minLoop_spec (poly : List (Vec F 2)) : ∀ n i best, i + n = poly.length → best < i →
    (∀ j < i, ¬ LexLess ((poly[j]?).getD 0) ((poly[best]?).getD 0)) →
    minLoop poly n i best < poly.length ∧
      ∀ j < poly.length, ¬ LexLess ((poly[j]?).getD 0) ((poly[minLoop poly n i best]?).getD 0)
  | 0, i, best, hi, hb, h => by
    rw [minLoop]
    exact ⟨by omega, fun j hj => h j (by omega)⟩
  | n + 1, i, best, hi, hb, h => by
    rw [minLoop]
    by_cases c : less ((poly[i]?).getD 0) ((poly[best]?).getD 0) = true
    · rw [if_pos c]
      refine minLoop_spec poly n (i + 1) i (by omega) (by omega) fun j hj => ?_
      rw [less_iff] at c
      by_cases e : j = i
      · rw [e, lexLess_iff]; exact lt_irrefl _
      · have := h j (by omega)
        rw [lexLess_iff, not_lt] at this ⊢
        exact c.le.trans this
    · rw [if_neg c]
      refine minLoop_spec poly n (i + 1) best (by omega) (by omega) fun j hj => ?_
      rw [less_iff] at c
      by_cases e : j = i
      · rw [e, lexLess_iff]; exact c
      · exact h j (by omega)

/-- Three neighbours around the least vertex. -/
theorem orientationSimple_corner (hs : Simple poly) (h3 : 3 ≤ poly.length) : ∃ a b c : Vec F 2,
    (a, b) ∈ edges poly ∧ (b, c) ∈ edges poly ∧ (∀ v ∈ poly, v ≠ b → LexLess b v) ∧
    orientationSimple poly = some (orientation3 a b c) := by
  obtain ⟨h1, h2⟩ := minLoop_spec poly (poly.length - 1) 1 0 (by omega) (by omega) (fun j hj => by
    rw [show j = 0 by omega, lexLess_iff]; exact lt_irrefl _)
  set i := minLoop poly (poly.length - 1) 1 0 with hi
  have hv : ∀ j < poly.length, (poly[j]?).getD 0 = vert poly j := by
    intro j hj; rw [vert, Nat.mod_eq_of_lt hj]
  refine ⟨vert poly (i + poly.length - 1), vert poly i, vert poly (i + 1), ?_, mem_edges_of_vert (by omega) i, ?_, ?_⟩
  · have := mem_edges_of_vert (poly := poly) (by omega) (i + poly.length - 1)
    rwa [show i + poly.length - 1 + 1 = i + poly.length by omega, vert_period] at this
  · intro v hm hne
    obtain ⟨j, hj, rfl⟩ := exists_vert hm
    have := h2 j hj
    rw [hv j hj, hv i h1, lexLess_iff, not_lt] at this
    rw [lexLess_iff]
    refine lt_of_le_of_ne this fun e => hne ?_
    have e0 : vert poly i 0 = vert poly j 0 := by simpa [key] using congrArg (fun k => (ofLex k).1) e
    have e1 : vert poly i 1 = vert poly j 1 := by simpa [key] using congrArg (fun k => (ofLex k).2) e
    exact vec2_ext e0.symm e1.symm
  · rw [orientationSimple, if_neg (by omega)]
    simp only [minElement, ← hi]
    rw [cyclicAt_zero poly h1, cyclicAt_one poly h1, cyclicAt_neg_one poly h1]

/-- The corner at the least vertex is not flat. -/
theorem Simple.corner_turn (hs : Simple poly) (h3 : 3 ≤ poly.length) {a b c : Vec F 2} (hab : (a, b) ∈ edges poly)
    (hbc : (b, c) ∈ edges poly) (hl : ∀ v ∈ poly, v ≠ b → LexLess b v) : area (c - b) (a - b) ≠ 0 := by
  intro k0
  obtain ⟨N, hN⟩ := hs.corners h3
  obtain ⟨n1, n2⟩ := hN a b c hab hbc
  have nab := edge_ne hs.1 (by omega) hab
  have nbc := edge_ne hs.1 (by omega) hbc
  have la := hl a (mem_of_mem_edges hab).1 nab
  have lc := hl c (mem_of_mem_edges hbc).2 nbc.symm
  obtain ⟨r, hr⟩ := exists_smul_of_area (e := a - b) (v := c - b) (sub_ne_zero.2 nab)
    (by rw [area_swap, k0, neg_zero])
  rw [hr, area_smul_left] at n2
  have r0 : r < 0 := by
    by_contra h
    nlinarith [mul_nonneg (not_lt.1 h) (neg_pos.2 n1).le]
  have e0 := congrFun hr 0
  have e1 := congrFun hr 1
  simp only [Pi.sub_apply, Pi.smul_apply, smul_eq_mul] at e0 e1
  rcases la with h | h <;> rcases lc with h' | h'
  · nlinarith
  · have : r * (a 0 - b 0) = 0 := by rw [← e0]; linarith [h'.1]
    rcases mul_eq_zero.1 this with h | h <;> linarith
  · rw [h.1, sub_self, mul_zero] at e0; linarith
  · nlinarith [h.2, h'.2]

/-- **C120.** The orientation of a simple polygon of at least three vertices is never collinear.  It is left exactly if the
polygon is counter-clockwise, and exactly if its area is positive; it is right exactly if its area is negative. -/
theorem orientationSimple_correct (hs : Simple poly) (h3 : 3 ≤ poly.length) :
    (orientationSimple poly = some .left ∧ CounterClockwise poly ∧ 0 < polyArea poly) ∨
    (orientationSimple poly = some .right ∧ ¬ CounterClockwise poly ∧ polyArea poly < 0) := by
  obtain ⟨a, b, c, hab, hbc, hl, ho⟩ := orientationSimple_corner hs h3
  have ht := hs.corner_turn h3 hab hbc hl
  have hsl : StrictLeft a b c ↔ 0 < area (c - b) (a - b) := by
    unfold StrictLeft; simp only [area, Pi.sub_apply]
    constructor <;> intro h <;> linarith
  have hcc : CounterClockwise poly ↔ 0 < area (c - b) (a - b) := by
    rw [← hsl]
    constructor
    · rintro ⟨a', b', c', hab', hbc', hl', h⟩
      have eb : b' = b := by
        by_contra hne
        have h1 := hl b' (mem_of_mem_edges hbc').1 hne
        have h2 := hl' b (mem_of_mem_edges hbc).1 (Ne.symm hne)
        rw [lexLess_iff] at h1 h2
        exact lt_asymm h1 h2
      subst eb
      rw [edge_to_unique hs.1 hab hab', edge_from_unique hs.1 hbc hbc']
      exact h
    · exact fun h => ⟨a, b, c, hab, hbc, hl, h⟩
  have hor : orientation3 a b c = Turn.ofSign (-area (c - b) (a - b)) := by
    unfold orientation3 orientation
    congr 1
    simp only [area, Pi.sub_apply]; ring
  -- two heights
  obtain ⟨x, hx, y, hy, hxy⟩ : ∃ x ∈ poly, ∃ y ∈ poly, x 1 < y 1 := by
    by_contra hn
    have heq : ∀ x ∈ poly, ∀ y ∈ poly, x 1 = y 1 := by
      intro x hx y hy
      rcases lt_trichotomy (x 1) (y 1) with h | h | h
      · exact absurd ⟨x, hx, y, hy, h⟩ hn
      · exact h
      · exact absurd ⟨y, hy, x, hx, h⟩ hn
    apply ht
    have h1 := heq _ (mem_of_mem_edges hab).1 _ (mem_of_mem_edges hab).2
    have h2 := heq _ (mem_of_mem_edges hbc).2 _ (mem_of_mem_edges hbc).1
    simp only at h1 h2
    simp [area, h1, h2]
  rw [ho, hor]
  rcases lt_or_gt_of_ne ht with h | h
  · right
    have hc : ¬ CounterClockwise poly := by rw [hcc]; exact not_lt.2 h.le
    refine ⟨by unfold Turn.ofSign; rw [if_neg (by linarith), if_pos (by linarith)], hc, ?_⟩
    have := hs.area_sign (σ := -1) (fun p hp => ?_) (by norm_num) hx hy hxy
    · linarith
    · rcases winding_simple hs h3 hp with k | ⟨k, -⟩ | ⟨-, k⟩
      · rw [k]; simp
      · exact absurd k hc
      · rw [k]; simp
  · left
    have hc : CounterClockwise poly := hcc.2 h
    refine ⟨by unfold Turn.ofSign; rw [if_pos (by linarith)], hc, ?_⟩
    have := hs.area_sign (σ := 1) (fun p hp => ?_) (by norm_num) hx hy hxy
    · linarith
    · rcases winding_simple hs h3 hp with k | ⟨-, k⟩ | ⟨k, -⟩
      · rw [k]; simp
      · rw [k]; simp
      · exact absurd hc k

/-- **C120.** The orientation says on which side of the edges the inside is: close to each point of an edge other than its
ends, the left side is inside if the orientation is left, and the right side if it is right. -/
theorem orientationSimple_sides (hs : Simple poly) (h3 : 3 ≤ poly.length) {a b d : Vec F 2} (hab : (a, b) ∈ edges poly)
    {t : F} (h0 : 0 < t) (h1 : t < 1) (hd : StrictLeft a b (a + d)) :
    ∃ δ : F, 0 < δ ∧ ∀ ε, 0 < ε → ε ≤ δ →
      (orientationSimple poly = some .left ↔ withinSimple (a + t • (b - a) + ε • d) poly = .inside) ∧
      (orientationSimple poly = some .right ↔ withinSimple (a + t • (b - a) - ε • d) poly = .inside) := by
  obtain ⟨δ, hδ, h⟩ := within_sides hs h3 hab h0 h1 hd
  refine ⟨δ, hδ, fun ε e0 e1 => ?_⟩
  obtain ⟨hl, hr⟩ := h ε e0 e1
  rcases orientationSimple_correct hs h3 with ⟨o, c, -⟩ | ⟨o, c, -⟩
  · obtain ⟨k1, k2⟩ := hl c
    rw [o, k1, k2]; simp
  · obtain ⟨k1, k2⟩ := hr c
    rw [o, k1, k2]; simp

/-- **C120.** On fewer than two vertices an assertion fails. -/
theorem orientationSimple_defined (poly : List (Vec F 2)) : orientationSimple poly = none ↔ poly.length < 2 := by
  unfold orientationSimple
  by_cases h : poly.length < 2
  · simp [h]
  · simp [h]

/-- The dart and its reverse. -/
example : Simple dart ∧ 3 ≤ dart.length ∧ orientationSimple dart = some .left ∧ polyArea dart = 8 ∧
    orientationSimple dart.reverse = some .right := by
  exact ⟨dart_simple, by decide, by decide +kernel, by decide +kernel, by decide +kernel⟩

end Actl.Geo
