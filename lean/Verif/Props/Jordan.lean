import Verif.Lemmas.JordanSides
import Verif.Props.MonotoneSimple

/-!
# C119: the inside and the outside of a simple polygon

* `winding_simple`: the winding number of a point off the border of a simple polygon is 0 or 1 if the polygon is
  counter-clockwise, 0 or -1 otherwise.
* `within_joined`: `within` tells two points off the border apart exactly if no chain of segments joins them without
  meeting the border.
* `within_outside`, `within_inside`: outside are the points that can go arbitrarily far, inside those that cannot.
* `within_sides`: on the two sides of each edge there are the inside and the outside.
-/

namespace Actl.Geo

variable {F : Type*} [Field F] [LinearOrder F] [IsStrictOrderedRing F] {poly : List (Vec F 2)}

/-- Near a point inside an edge: both sides are off the border, the number is larger by one on the left, and each
point off the border can be joined to one of the sides. -/
theorem Simple.two_sides (hs : Simple poly) (h3 : 3 ≤ poly.length) {a b h d : Vec F 2} (hab : (a, b) ∈ edges poly)
    {t : F} (h0 : 0 < t) (h1 : t < 1) (hh : h = a + t • (b - a)) (hd : 0 < area (b - a) d) :
    Small fun ε : F => ((¬ OnBorder (h + ε • d) poly ∧ ¬ OnBorder (h + ε • -d) poly) ∧
      windingNumber (h + ε • d) poly = windingNumber (h + ε • -d) poly + 1) ∧
      ∀ p, ¬ OnBorder p poly → Joined poly p (h + ε • d) ∨ Joined poly p (h + ε • -d) := by
  obtain ⟨N, hN⟩ := hs.corners h3
  obtain ⟨δ, δ0, hδ⟩ := hs.jump h3 hab h0 h1 hh hd
  refine ⟨δ, δ0, fun ε e0 e1 => ⟨hδ ε e0 e1, fun p hp => ?_⟩⟩
  have slide : ∀ σ : F, (σ = 1 ∨ σ = -1) → ∀ ε' : F, 0 < ε' → ε' ≤ δ →
      Clear poly (h + ε' • σ • d) (h + ε • σ • d) := by
    rintro σ hσ ε' e0' e1' z ⟨s, s0, s1, rfl⟩
    have e : h + ε' • σ • d + s • (h + ε • σ • d - (h + ε' • σ • d)) = h + ((1 - s) * ε' + s * ε) • σ • d := by
      apply vec2_ext <;> simp <;> ring
    rw [e]
    have p0 : 0 < (1 - s) * ε' + s * ε := by
      rcases eq_or_lt_of_le s0 with rfl | s0
      · linarith
      · nlinarith [mul_nonneg (sub_nonneg.2 s1) e0'.le, mul_pos s0 e0]
    have p1 : (1 - s) * ε' + s * ε ≤ δ := by nlinarith
    rcases hσ with rfl | rfl
    · rw [one_smul]; exact (hδ _ p0 p1).1.1
    · rw [neg_one_smul]; exact (hδ _ p0 p1).1.2
  obtain ⟨σ, hσ, hr⟩ := hs.reach h3 hN hp
  have hσ2 : σ * σ = 1 := by rcases hσ with rfl | rfl <;> norm_num
  have back := hs.walk_back h3 hN hab hσ2 h0 h1 hh (d := σ • d)
    (by rw [area_smul_right, ← mul_assoc, hσ2, one_mul]; exact hd)
  have around := hs.walk_around h3 hN hσ2 (mem_of_mem_edges hab).1
  obtain ⟨ε', e0', ⟨⟨g1, g2⟩, g3⟩, g4⟩ := (((hr.and back).and around).and (small_le δ0)).exists
  have hj : Joined poly p (h + ε • σ • d) :=
    ((g1.trans g3).trans g2.symm.joined).trans (slide σ hσ ε' e0' g4).joined
  rcases hσ with rfl | rfl
  · rw [one_smul] at hj; exact .inl hj
  · rw [neg_one_smul] at hj; exact .inr hj

/-- All the vertices are in a box. -/
theorem exists_box (poly : List (Vec F 2)) : ∃ R : F, ∀ v ∈ poly, |v 0| ≤ R ∧ |v 1| ≤ R := by
  induction poly with
  | nil => exact ⟨0, by simp⟩
  | cons x l ih =>
    obtain ⟨R, hR⟩ := ih
    refine ⟨max R (max |x 0| |x 1|), fun v hv => ?_⟩
    rcases List.mem_cons.1 hv with rfl | hv
    · exact ⟨le_trans (le_max_left _ _) (le_max_right _ _), le_trans (le_max_right _ _) (le_max_right _ _)⟩
    · exact ⟨le_trans (hR v hv).1 (le_max_left _ _), le_trans (hR v hv).2 (le_max_left _ _)⟩

/-- The number is zero outside of the box. -/
theorem winding_far {R : F} (hR : ∀ v ∈ poly, |v 0| ≤ R ∧ |v 1| ≤ R) {q : Vec F 2} (hq : R < |q 0| ∨ R < |q 1|) :
    windingNumber q poly = 0 := by
  rcases hq with hq | hq
  · rcases lt_abs.1 hq with h | h
    · exact winding_separated q poly ![-1, 0] fun v hv => by
        have := (abs_le.1 (hR v hv).1).2
        simp; linarith
    · exact winding_separated q poly ![1, 0] fun v hv => by
        have := (abs_le.1 (hR v hv).1).1
        simp; linarith
  · rcases lt_abs.1 hq with h | h
    · exact winding_separated q poly ![0, -1] fun v hv => by
        have := (abs_le.1 (hR v hv).2).2
        simp; linarith
    · exact winding_separated q poly ![0, 1] fun v hv => by
        have := (abs_le.1 (hR v hv).2).1
        simp; linarith

theorem not_onBorder_of_zero {q : Vec F 2} (h : windingNumber q poly = 0) : ¬ OnBorder q poly := by
  intro hb
  have := (windingNumber_eq q poly).1 hb
  rw [h] at this
  exact absurd this (by decide)

/-- A first edge, its middle and its left. -/
theorem Simple.first (hs : Simple poly) (h3 : 3 ≤ poly.length) :
    ∃ x y : Vec F 2, windingNumber x poly = windingNumber y poly + 1 ∧
      ∀ p, ¬ OnBorder p poly → Joined poly p x ∨ Joined poly p y := by
  have hab := mem_edges_of_vert (poly := poly) (by omega) 0
  have nab := edge_ne hs.1 (by omega) hab
  have hd := side_direction (u := vert poly 1 - vert poly 0) (sub_ne_zero.2 nab.symm) (σ := 1) (by norm_num)
  rw [one_mul] at hd
  obtain ⟨ε, -, ⟨-, g1⟩, g2⟩ := (hs.two_sides h3 hab (t := 1 / 2) (by norm_num) (by norm_num) rfl hd).exists
  exact ⟨_, _, g1, g2⟩

/-- The points joined are those with the same number. -/
theorem Simple.joined_iff (hs : Simple poly) (h3 : 3 ≤ poly.length) {p q : Vec F 2} (hp : ¬ OnBorder p poly)
    (hq : ¬ OnBorder q poly) : Joined poly p q ↔ windingNumber p poly = windingNumber q poly := by
  refine ⟨Joined.winding, fun h => ?_⟩
  obtain ⟨x, y, h1, h2⟩ := hs.first h3
  rcases h2 p hp with a | a <;> rcases h2 q hq with b | b
  · exact a.trans b.symm
  · have := a.winding; have := b.winding; omega
  · have := a.winding; have := b.winding; omega
  · exact a.trans b.symm

/-- The number of a point off the border is one of `0`, `1`, and of `0`, `-1`, whichever holds for all of them. -/
theorem Simple.winding_cases (hs : Simple poly) (h3 : 3 ≤ poly.length) :
    (∀ p, ¬ OnBorder p poly → windingNumber p poly = 0 ∨ windingNumber p poly = 1) ∨
    (∀ p, ¬ OnBorder p poly → windingNumber p poly = 0 ∨ windingNumber p poly = -1) := by
  obtain ⟨x, y, h1, h2⟩ := hs.first h3
  obtain ⟨R, hR⟩ := exists_box poly
  have hf : windingNumber ![|R| + 1, 0] poly = 0 := winding_far hR (.inl (by
    have := le_abs_self R
    have h0 := abs_nonneg R
    simp only [Matrix.cons_val_zero]
    rw [abs_of_pos (by linarith)]; linarith))
  rcases h2 _ (not_onBorder_of_zero hf) with h | h
  · right
    intro p hp
    have k := h.winding
    rcases h2 p hp with b | b <;> have := b.winding <;> omega
  · left
    intro p hp
    have k := h.winding
    rcases h2 p hp with b | b <;> have := b.winding <;> omega

/-- A vertex that is least in the order by the first, then the second coordinate. -/
theorem exists_lex_least : ∀ {l : List (Vec F 2)}, l ≠ [] → ∃ b ∈ l, ∀ v ∈ l, v ≠ b → LexLess b v
  | [], h => absurd rfl h
  | [x], _ => ⟨x, by simp, fun v hv hne => absurd (by simpa using hv) hne⟩
  | x :: y :: l, _ => by
    obtain ⟨b, hb, h⟩ := exists_lex_least (l := y :: l) (by simp)
    have tot : x = b ∨ LexLess x b ∨ LexLess b x := by
      unfold LexLess
      rcases lt_trichotomy (x 0) (b 0) with k | k | k
      · exact .inr (.inl (.inl k))
      · rcases lt_trichotomy (x 1) (b 1) with k' | k' | k'
        · exact .inr (.inl (.inr ⟨k, k'⟩))
        · exact .inl (vec2_ext k k')
        · exact .inr (.inr (.inr ⟨k.symm, k'⟩))
      · exact .inr (.inr (.inl k))
    have tr : ∀ {u v w : Vec F 2}, LexLess u v → LexLess v w → LexLess u w := by
      unfold LexLess
      rintro u v w (h | ⟨h, h'⟩) (k | ⟨k, k'⟩)
      · exact .inl (h.trans k)
      · exact .inl (k ▸ h)
      · exact .inl (h ▸ k)
      · exact .inr ⟨h.trans k, h'.trans k'⟩
    rcases tot with rfl | hx | hx
    · refine ⟨x, by simp, fun v hv hne => ?_⟩
      rcases List.mem_cons.1 hv with rfl | hv
      · exact absurd rfl hne
      · exact h v hv hne
    · refine ⟨x, by simp, fun v hv hne => ?_⟩
      rcases List.mem_cons.1 hv with rfl | hv
      · exact absurd rfl hne
      · by_cases e : v = b
        · rw [e]; exact hx
        · exact tr hx (h v hv e)
    · refine ⟨b, by simp only [List.mem_cons] at hb ⊢; tauto, fun v hv hne => ?_⟩
      rcases List.mem_cons.1 hv with rfl | hv
      · exact hx
      · exact h v hv hne

/-- Beside the least vertex the number is zero. -/
theorem winding_least {b : Vec F 2} (hl : ∀ v ∈ poly, v ≠ b → LexLess b v) {ε : F} (e0 : 0 < ε) :
    windingNumber (b + ε • ![-1, 0]) poly = 0 := by
  refine winding_separated _ poly ![1, 0] fun v hv => ?_
  have : b 0 ≤ v 0 := by
    by_cases h : v = b
    · rw [h]
    · rcases hl v hv h with h | h
      · exact h.le
      · exact h.1.le
  simp
  linarith

/-- From a corner to an edge: the number beside the edge. -/
theorem Simple.corner_edge (hs : Simple poly) (h3 : 3 ≤ poly.length) {N : Vec F 2 → Vec F 2} (hN : Corners poly N)
    {b c : Vec F 2} (hbc : (b, c) ∈ edges poly) {σ : F} (hσ : σ = 1 ∨ σ = -1)
    (hz : Small fun ε : F => windingNumber (b + ε • σ • N b) poly = 0) :
    (σ = 1 → ∀ p, ¬ OnBorder p poly → windingNumber p poly = 0 ∨ windingNumber p poly = -1) ∧
    (σ = -1 → ∀ p, ¬ OnBorder p poly → windingNumber p poly = 0 ∨ windingNumber p poly = 1) := by
  have nbc := edge_ne hs.1 (by omega) hbc
  have hd := side_direction (u := c - b) (sub_ne_zero.2 nbc.symm) (σ := 1) (by norm_num)
  rw [one_mul, one_smul] at hd
  have hσ2 : σ * σ = 1 := by rcases hσ with rfl | rfl <;> norm_num
  have back := hs.walk_back h3 hN hbc hσ2 (t := 1 / 2) (by norm_num) (by norm_num) rfl
    (side_direction (u := c - b) (sub_ne_zero.2 nbc.symm) hσ2)
  obtain ⟨ε, -, ⟨g1, g2⟩, ⟨-, g3⟩, g4⟩ := ((hz.and back).and
    (hs.two_sides h3 hbc (t := 1 / 2) (by norm_num) (by norm_num) rfl hd)).exists
  have w := winding_clear g2
  rw [g1] at w
  constructor
  · rintro rfl p hp
    rw [one_smul] at w
    rcases g4 p hp with h | h <;> have := h.winding <;> omega
  · rintro rfl p hp
    rw [neg_one_smul] at w
    rcases g4 p hp with h | h <;> have := h.winding <;> omega

/-- C119. The winding number of a point off the border of a simple polygon is 0 or 1 if the polygon is
counter-clockwise, and 0 or -1 if it is not. -/
theorem winding_simple (hs : Simple poly) (h3 : 3 ≤ poly.length) {p : Vec F 2} (hp : ¬ OnBorder p poly) :
    windingNumber p poly = 0 ∨
      (CounterClockwise poly ∧ windingNumber p poly = 1) ∨ (¬ CounterClockwise poly ∧ windingNumber p poly = -1) := by
  obtain ⟨N, hN⟩ := hs.corners h3
  -- the corner at the least vertex
  have corner : ∀ a b c, (a, b) ∈ edges poly → (b, c) ∈ edges poly → (∀ v ∈ poly, v ≠ b → LexLess b v) →
      (StrictLeft a b c → Small fun ε : F => windingNumber (b + ε • (-1 : F) • N b) poly = 0) ∧
      (¬ StrictLeft a b c → Small fun ε : F => windingNumber (b + ε • (1 : F) • N b) poly = 0) := by
    intro a b c hab hbc hl
    obtain ⟨n1, n2⟩ := hN a b c hab hbc
    have nab := edge_ne hs.1 (by omega) hab
    have nbc := edge_ne hs.1 (by omega) hbc
    have la := hl a (mem_of_mem_edges hab).1 nab
    have lc := hl c (mem_of_mem_edges hbc).2 nbc.symm
    have sl : StrictLeft a b c ↔ 0 < area (c - b) (a - b) := by
      unfold StrictLeft; simp only [area, Pi.sub_apply]
      constructor <;> intro h <;> linarith
    have hu : 0 ≤ (a - b) 0 := by
      rw [Pi.sub_apply]; rcases la with h | h
      · linarith
      · rw [h.1]; simp
    have hv : 0 ≤ (c - b) 0 := by
      rw [Pi.sub_apply]; rcases lc with h | h
      · linarith
      · rw [h.1]; simp
    have hu' : (a - b) 0 = 0 → 0 < (a - b) 1 := by
      simp only [Pi.sub_apply]; intro k; rcases la with h | h
      · linarith
      · linarith [h.2]
    have hv' : (c - b) 0 = 0 → 0 < (c - b) 1 := by
      simp only [Pi.sub_apply]; intro k; rcases lc with h | h
      · linarith
      · linarith [h.2]
    rw [sl]
    generalize hue : a - b = u at *
    generalize hve : c - b = v at *
    have fd : area u ![-1, 0] = u 1 := by simp [area]
    have gd : area v ![-1, 0] = v 1 := by simp [area]
    have s := area_swap u v
    have fu := area_self' u
    have gv := area_self' v
    have nu : ∀ x, area (-u) x = -area u x := area_neg_left u
    have nv : ∀ x, area (-v) x = -area v x := area_neg_left v
    have K : area v u = v 0 * u 1 - v 1 * u 0 := by simp [area]
    have fin : ∀ m : Vec F 2, (∃ w : Vec F 2, area w ![-1, 0] < 0 ∧ area w m < 0 ∧ 0 ≤ area w u ∧ 0 ≤ area w v) →
        Small fun ε : F => windingNumber (b + ε • m) poly = 0 := by
      rintro m ⟨w, w1, w2, w3, w4⟩
      have := hs.near_vertex h3 (d := ![-1, 0]) (m := m) hab hbc fun ε e0 z hz =>
        ⟨cone_avoid e0 w1 w2 (by rw [hue]; exact w3) z hz, cone_avoid e0 w1 w2 (by rw [hve]; exact w4) z hz⟩
      refine this.mono fun ε e0 h => ?_
      rw [← winding_clear h, winding_least hl e0]
    constructor
    · intro k
      rw [K] at k
      apply fin
      rw [neg_one_smul]
      by_cases c1 : 0 < u 1
      · refine ⟨-u, ?_, ?_, ?_, ?_⟩ <;> simp only [nu, area_neg_right] <;> linarith
      · have c2 : v 1 < 0 := by
          by_contra h
          nlinarith [mul_nonneg hv (neg_nonneg.2 (not_lt.1 c1)), mul_nonneg (not_lt.1 h) hu]
        refine ⟨v, ?_, ?_, ?_, ?_⟩ <;> (try simp only [area_neg_right]) <;> linarith
    · intro k
      have k := not_lt.1 k
      apply fin
      rw [one_smul]
      rcases eq_or_lt_of_le k with k0 | k0
      · exfalso
        obtain ⟨r, hr⟩ := exists_smul_of_area (e := u) (v := v) (by rw [← hue]; exact sub_ne_zero.2 nab) (by linarith)
        rw [hr, area_smul_left] at n2
        have r0 : r < 0 := by
          by_contra h
          nlinarith [mul_nonneg (not_lt.1 h) (neg_pos.2 n1).le]
        have e0 : v 0 = r * u 0 := by rw [hr]; simp
        have e1 : v 1 = r * u 1 := by rw [hr]; simp
        rcases eq_or_lt_of_le hu with h | h
        · have h1 := hu' h.symm
          have h2 := hv' (by rw [e0, ← h, mul_zero])
          nlinarith
        · nlinarith
      · rw [K] at k0
        by_cases c1 : u 1 < 0
        · exact ⟨u, by linarith, n1, fu.ge, by linarith⟩
        · have c2 : 0 < v 1 := by
            by_contra h
            nlinarith [mul_nonneg hv (not_lt.1 c1), mul_nonneg (neg_nonneg.2 (not_lt.1 h)) hu]
          refine ⟨-v, ?_, ?_, ?_, ?_⟩ <;> simp only [nv] <;> linarith
  by_cases hc : CounterClockwise poly
  · obtain ⟨a, b, c, hab, hbc, hl, ht⟩ := hc
    have := (hs.corner_edge h3 hN hbc (.inr rfl) ((corner a b c hab hbc hl).1 ht)).2 rfl p hp
    rcases this with h | h
    · exact .inl h
    · exact .inr (.inl ⟨⟨a, b, c, hab, hbc, hl, ht⟩, h⟩)
  · obtain ⟨b, hb, hl⟩ := exists_lex_least (l := poly) (by rintro rfl; simp at h3)
    obtain ⟨a, hab⟩ := exists_edge_to hb
    obtain ⟨c, hbc⟩ := exists_edge_from hb
    have := (hs.corner_edge h3 hN hbc (.inl rfl)
      ((corner a b c hab hbc hl).2 fun ht => hc ⟨a, b, c, hab, hbc, hl, ht⟩)).1 rfl p hp
    rcases this with h | h
    · exact .inl h
    · exact .inr (.inr ⟨hc, h⟩)

theorem boundary_big : boundary ≠ 0 ∧ boundary ≠ 1 ∧ boundary ≠ -1 := by decide

/-- The results of `within` for a simple polygon. -/
theorem Simple.within_eq (hs : Simple poly) (h3 : 3 ≤ poly.length) (p : Vec F 2) :
    (withinSimple p poly = .border ↔ OnBorder p poly) ∧
    (withinSimple p poly = .outside ↔ ¬ OnBorder p poly ∧ windingNumber p poly = 0) ∧
    (withinSimple p poly = .inside ↔ ¬ OnBorder p poly ∧ windingNumber p poly ≠ 0) := by
  obtain ⟨b0, b1, b2⟩ := boundary_big
  unfold withinSimple
  by_cases hp : OnBorder p poly
  · rw [(windingNumber_eq p poly).1 hp, if_neg b0, if_pos rfl]
    simp [hp]
  · by_cases h0 : windingNumber p poly = 0
    · rw [if_pos h0]; simp [hp, h0]
    · have : windingNumber p poly ≠ boundary := by
        rcases winding_simple hs h3 hp with h | ⟨-, h⟩ | ⟨-, h⟩
        · exact absurd h h0
        · rw [h]; exact b1.symm
        · rw [h]; exact b2.symm
      rw [if_neg h0, if_neg this]; simp [hp, h0]

/-- C119. Two points off the border get the same answer exactly if a chain of segments joins them without meeting the
border. -/
theorem within_joined (hs : Simple poly) (h3 : 3 ≤ poly.length) {p q : Vec F 2} (hp : ¬ OnBorder p poly)
    (hq : ¬ OnBorder q poly) : withinSimple p poly = withinSimple q poly ↔ Joined poly p q := by
  obtain ⟨-, o1, i1⟩ := hs.within_eq h3 p
  obtain ⟨-, o2, i2⟩ := hs.within_eq h3 q
  rw [hs.joined_iff h3 hp hq]
  constructor
  · intro h
    by_cases h0 : windingNumber p poly = 0
    · have := o1.2 ⟨hp, h0⟩
      rw [h, o2] at this
      rw [h0, this.2]
    · have := i1.2 ⟨hp, h0⟩
      rw [h, i2] at this
      rcases winding_simple hs h3 hp with a | ⟨a, a'⟩ | ⟨a, a'⟩ <;>
        rcases winding_simple hs h3 hq with b | ⟨b, b'⟩ | ⟨b, b'⟩ <;> first | omega | tauto
  · intro h
    by_cases h0 : windingNumber p poly = 0
    · rw [o1.2 ⟨hp, h0⟩, o2.2 ⟨hq, by rw [← h, h0]⟩]
    · rw [i1.2 ⟨hp, h0⟩, i2.2 ⟨hq, by rw [← h]; exact h0⟩]

/-- C119. Outside are the points off the border that can be joined to points arbitrarily far away. -/
theorem within_outside (hs : Simple poly) (h3 : 3 ≤ poly.length) (p : Vec F 2) :
    withinSimple p poly = .outside ↔
      ¬ OnBorder p poly ∧ ∀ R : F, ∃ q, (R < |q 0| ∨ R < |q 1|) ∧ Joined poly p q := by
  rw [(hs.within_eq h3 p).2.1]
  obtain ⟨R₀, hR₀⟩ := exists_box poly
  refine and_congr_right fun hp => ⟨fun h R => ?_, fun h => ?_⟩
  · have hb : max R R₀ < |(![|max R R₀| + 1, 0] : Vec F 2) 0| := by
      have := le_abs_self (max R R₀)
      have h0 := abs_nonneg (max R R₀)
      simp only [Matrix.cons_val_zero]
      rw [abs_of_pos (by linarith)]; linarith
    have hf := winding_far hR₀ (q := ![|max R R₀| + 1, 0]) (.inl (lt_of_le_of_lt (le_max_right _ _) hb))
    exact ⟨_, .inl (lt_of_le_of_lt (le_max_left _ _) hb),
      (hs.joined_iff h3 hp (not_onBorder_of_zero hf)).2 (by rw [h, hf])⟩
  · obtain ⟨q, hq, hj⟩ := h R₀
    rw [hj.winding, winding_far hR₀ hq]

/-- C119. Inside are the points off the border from which all points that can be reached are near. -/
theorem within_inside (hs : Simple poly) (h3 : 3 ≤ poly.length) (p : Vec F 2) :
    withinSimple p poly = .inside ↔
      ¬ OnBorder p poly ∧ ∃ R : F, ∀ q, Joined poly p q → |q 0| ≤ R ∧ |q 1| ≤ R := by
  have ho := within_outside hs h3 p
  rw [(hs.within_eq h3 p).2.1] at ho
  rw [(hs.within_eq h3 p).2.2]
  refine and_congr_right fun hp => ?_
  have : windingNumber p poly = 0 ↔ ∀ R : F, ∃ q, (R < |q 0| ∨ R < |q 1|) ∧ Joined poly p q :=
    ⟨fun h => (ho.1 ⟨hp, h⟩).2, fun h => (ho.2 ⟨hp, h⟩).2⟩
  rw [ne_eq, this]
  push Not
  constructor
  · rintro ⟨R, hR⟩
    refine ⟨R, fun q hq => ?_⟩
    have := mt (hR q) (not_not.2 hq)
    push Not at this
    exact this
  · rintro ⟨R, hR⟩
    refine ⟨R, fun q hq hj => ?_⟩
    have := hR q hj
    rcases hq with h | h
    · exact absurd this.1 (not_le.2 h)
    · exact absurd this.2 (not_le.2 h)

/-- C119. Close to each point of an edge other than its ends one side is inside and the other outside; the inside is on
the left if the polygon is counter-clockwise and on the right otherwise. -/
theorem within_sides (hs : Simple poly) (h3 : 3 ≤ poly.length) {a b d : Vec F 2} (hab : (a, b) ∈ edges poly) {t : F}
    (h0 : 0 < t) (h1 : t < 1) (hd : StrictLeft a b (a + d)) :
    ∃ δ : F, 0 < δ ∧ ∀ ε, 0 < ε → ε ≤ δ →
      (CounterClockwise poly → withinSimple (a + t • (b - a) + ε • d) poly = .inside ∧
        withinSimple (a + t • (b - a) - ε • d) poly = .outside) ∧
      (¬ CounterClockwise poly → withinSimple (a + t • (b - a) + ε • d) poly = .outside ∧
        withinSimple (a + t • (b - a) - ε • d) poly = .inside) := by
  have hd' : 0 < area (b - a) d := by
    unfold StrictLeft at hd; simpa [area] using hd
  refine (hs.jump h3 hab h0 h1 rfl hd').mono fun ε e0 ⟨⟨l, r⟩, h⟩ => ?_
  rw [smul_neg, ← sub_eq_add_neg] at r h
  obtain ⟨-, o1, i1⟩ := hs.within_eq h3 (a + t • (b - a) + ε • d)
  obtain ⟨-, o2, i2⟩ := hs.within_eq h3 (a + t • (b - a) - ε • d)
  rw [o1, i1, o2, i2]
  have k1 := winding_simple hs h3 l
  have k2 := winding_simple hs h3 r
  constructor
  · intro hc
    refine ⟨⟨l, ?_⟩, r, ?_⟩ <;> rcases k1 with a | ⟨a, a'⟩ | ⟨a, a'⟩ <;> rcases k2 with b | ⟨b, b'⟩ | ⟨b, b'⟩ <;>
      first | omega | exact absurd hc ‹_›
  · intro hc
    refine ⟨⟨l, ?_⟩, r, ?_⟩ <;> rcases k1 with a | ⟨a, a'⟩ | ⟨a, a'⟩ <;> rcases k2 with b | ⟨b, b'⟩ | ⟨b, b'⟩ <;>
      first | omega | exact absurd ‹CounterClockwise poly› hc

/-- The dart, which is not convex, meets the hypotheses; the points in its body and in its notch are not joined. -/
example : Simple dart ∧ 3 ≤ dart.length ∧ CounterClockwise dart ∧
    withinSimple ![2, 2] dart = .inside ∧ withinSimple ![2, 1/2] dart = .outside ∧
    ¬ Joined dart ![2, 2] ![2, 1/2] := by
  have h1 : withinSimple ![2, 2] dart = .inside := by decide +kernel
  have h2 : withinSimple ![2, 1/2] dart = .outside := by decide +kernel
  refine ⟨dart_simple, by decide, ⟨![2, 3], ![0, 0], ![2, 1], by decide +kernel, by decide +kernel, ?_,
    by norm_num [StrictLeft]⟩, h1, h2, fun h => ?_⟩
  · intro v hv hne
    simp only [dart, List.mem_cons, List.not_mem_nil, or_false] at hv
    rcases hv with rfl | rfl | rfl | rfl
    · exact absurd rfl hne
    all_goals norm_num [LexLess]
  · have := (within_joined dart_simple (by decide) ((within_inside dart_simple (by decide) _).1 h1).1
      ((within_outside dart_simple (by decide) _).1 h2).1).2 h
    rw [h1, h2] at this
    exact absurd this (by decide)

/-- The hypotheses of `within_sides`: an edge of the dart and its left. -/
example : ((![4, 0], ![2, 3]) : Vec ℚ 2 × Vec ℚ 2) ∈ edges dart ∧
    StrictLeft (![4, 0] : Vec ℚ 2) ![2, 3] (![4, 0] + ![-1, 0]) := by
  refine ⟨by decide +kernel, by norm_num [StrictLeft]⟩

end Actl.Geo
