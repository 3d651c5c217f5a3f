import Verif.Lemmas.JordanCorner
import Verif.Spec.Jordan
import Verif.Props.Extreme

/-!
# Walking along the border of a simple polygon
-/

namespace Actl.Geo

variable {F : Type*} [Field F] [LinearOrder F] [IsStrictOrderedRing F] {poly : List (Vec F 2)}

/-! ### Edges of a polygon with different vertices -/

theorem mem_edges_of_vert (h0 : 0 < poly.length) (k : Nat) : (vert poly k, vert poly (k + 1)) ∈ edges poly := by
  rw [edges_eq_map, List.mem_map]
  refine ⟨k % poly.length, List.mem_range.2 (Nat.mod_lt _ h0), ?_⟩
  rw [vert_mod, ← vert_mod (k % poly.length + 1), Nat.mod_add_mod, vert_mod]

theorem vert_inj (hn : poly.Nodup) (h0 : 0 < poly.length) {i j : Nat} (h : vert poly i = vert poly j) :
    i % poly.length = j % poly.length := by
  have hi := Nat.mod_lt i h0
  have hj := Nat.mod_lt j h0
  rw [vert, vert, List.getElem?_eq_getElem hi, List.getElem?_eq_getElem hj] at h
  exact (List.Nodup.getElem_inj_iff hn).1 h

theorem exists_edge_to {b : Vec F 2} (h : b ∈ poly) : ∃ a, (a, b) ∈ edges poly := by
  obtain ⟨k, hk, rfl⟩ := exists_vert h
  refine ⟨vert poly (k + poly.length - 1), ?_⟩
  have := mem_edges_of_vert (poly := poly) (by omega) (k + poly.length - 1)
  rwa [show k + poly.length - 1 + 1 = k + poly.length by omega, vert_period] at this

theorem edge_to_unique (hn : poly.Nodup) {a a' b : Vec F 2} (h : (a, b) ∈ edges poly) (h' : (a', b) ∈ edges poly) :
    a = a' := by
  obtain ⟨i, hi, e⟩ := mem_edges_vert h
  obtain ⟨j, hj, e'⟩ := mem_edges_vert h'
  simp only [Prod.mk.injEq] at e e'
  have h0 : 0 < poly.length := by omega
  have := vert_inj hn h0 (i := i + 1) (j := j + 1) (by rw [← e.2, ← e'.2])
  have : i % poly.length = j % poly.length := Nat.ModEq.add_right_cancel' 1 this
  rw [e.1, e'.1, ← vert_mod i, this, vert_mod]

theorem edge_from_unique (hn : poly.Nodup) {a b b' : Vec F 2} (h : (a, b) ∈ edges poly) (h' : (a, b') ∈ edges poly) :
    b = b' := by
  obtain ⟨i, hi, e⟩ := mem_edges_vert h
  obtain ⟨j, hj, e'⟩ := mem_edges_vert h'
  simp only [Prod.mk.injEq] at e e'
  have h0 : 0 < poly.length := by omega
  have := vert_inj hn h0 (i := i) (j := j) (by rw [← e.1, ← e'.1])
  rw [Nat.mod_eq_of_lt hi, Nat.mod_eq_of_lt hj] at this
  rw [e.2, e'.2, this]

theorem edge_ne (hn : poly.Nodup) (h2 : 2 ≤ poly.length) {a b : Vec F 2} (h : (a, b) ∈ edges poly) : a ≠ b := by
  obtain ⟨i, hi, e⟩ := mem_edges_vert h
  simp only [Prod.mk.injEq] at e
  rw [e.1, e.2]
  intro h
  have := vert_inj hn (by omega) h
  rw [Nat.mod_eq_of_lt hi] at this
  by_cases c : i + 1 < poly.length
  · rw [Nat.mod_eq_of_lt c] at this; omega
  · rw [show i + 1 = poly.length by omega, Nat.mod_self] at this; omega

theorem edge_ne_two (hn : poly.Nodup) (h3 : 3 ≤ poly.length) {a b c : Vec F 2} (h : (a, b) ∈ edges poly)
    (h' : (b, c) ∈ edges poly) : a ≠ c := by
  obtain ⟨i, hi, e⟩ := mem_edges_vert h
  obtain ⟨j, hj, e'⟩ := mem_edges_vert h'
  simp only [Prod.mk.injEq] at e e'
  rintro rfl
  have m1 := vert_inj hn (by omega) (i := i + 1) (j := j) (by rw [← e.2, ← e'.1])
  have m2 := vert_inj hn (by omega) (i := j + 1) (j := i) (by rw [← e.1, ← e'.2])
  rw [Nat.mod_eq_of_lt hj] at m1
  rw [Nat.mod_eq_of_lt hi] at m2
  by_cases c : i + 1 < poly.length
  · rw [Nat.mod_eq_of_lt c] at m1
    by_cases c' : j + 1 < poly.length
    · rw [Nat.mod_eq_of_lt c'] at m2; omega
    · rw [show j + 1 = poly.length by omega, Nat.mod_self] at m2; omega
  · rw [show i + 1 = poly.length by omega, Nat.mod_self] at m1
    by_cases c' : j + 1 < poly.length
    · rw [Nat.mod_eq_of_lt c'] at m2; omega
    · rw [show j + 1 = poly.length by omega, Nat.mod_self] at m2; omega

theorem edges_nodup (hn : poly.Nodup) : (edges poly).Nodup := by
  rw [edges_eq_map]
  refine List.Nodup.map_on ?_ List.nodup_range
  intro i hi j hj h
  have hi := List.mem_range.1 hi
  have hj := List.mem_range.1 hj
  have := vert_inj hn (by omega) (congrArg Prod.fst h)
  rwa [Nat.mod_eq_of_lt hi, Nat.mod_eq_of_lt hj] at this

/-! ### Simple polygons -/

theorem Simple.away (hs : Simple poly) {a b : Vec F 2} (hab : (a, b) ∈ edges poly) {f : Vec F 2 × Vec F 2}
    (hf : f ∈ edges poly) (hne : f ≠ (a, b)) {z : Vec F 2} (hz : OnSegment z a b) (h1 : z ≠ a) (h2 : z ≠ b) :
    ¬ OnSegment z f.1 f.2 := by
  intro h
  rcases (hs.2 _ hab _ hf hne.symm z hz h).1 with h | h
  · exact h1 h
  · exact h2 h

/-- The edges other than the two at a vertex do not contain it. -/
theorem Simple.away_vertex (hs : Simple poly) {a b c : Vec F 2} (hab : (a, b) ∈ edges poly) (hbc : (b, c) ∈ edges poly)
    {f : Vec F 2 × Vec F 2} (hf : f ∈ edges poly) (h1 : f ≠ (a, b)) (h2 : f ≠ (b, c)) : ¬ OnSegment b f.1 f.2 := by
  intro h
  rcases (hs.2 _ hab _ hf h1.symm b (onSegment_right _ _) h).2 with h | h
  · exact h2 (Prod.ext h.symm (edge_from_unique hs.1 (b := f.2) (b' := c) (a := b) (by rw [h]; exact hf) hbc))
  · exact h1 (Prod.ext (edge_to_unique hs.1 (a := f.1) (a' := a) (b := b) (by rw [h]; exact hf) hab) h.symm)

theorem onSegment_sub {z h a b : Vec F 2} {τ : F} (h0 : 0 < τ) (h1 : τ < 1) (hh : h = b + τ • (a - b)) (hab : a ≠ b)
    (hz : OnSegment z h b) : OnSegment z a b ∧ z ≠ a := by
  obtain ⟨t, t0, t1, rfl⟩ := hz
  have e : h + t • (b - h) = a + (1 - (1 - t) * τ) • (b - a) := by
    rw [hh]
    apply vec2_ext <;> simp <;> ring
  have k : (1 - t) * τ < 1 := by nlinarith
  refine ⟨⟨1 - (1 - t) * τ, by linarith, by nlinarith, e⟩, ?_⟩
  rw [e]
  intro h
  have h : (1 - (1 - t) * τ) • (b - a) = 0 := by
    have := congrArg (· - a) h
    simpa using this
  rcases smul_eq_zero.1 h with h | h
  · linarith
  · exact hab (sub_eq_zero.1 h).symm

/-- Corner directions at all vertices. -/
theorem Simple.corners (hs : Simple poly) (h3 : 3 ≤ poly.length) :
    ∃ N : Vec F 2 → Vec F 2, ∀ a b c, (a, b) ∈ edges poly → (b, c) ∈ edges poly →
      area (a - b) (N b) < 0 ∧ 0 < area (c - b) (N b) := by
  have key : ∀ b, ∃ n : Vec F 2, ∀ a c, (a, b) ∈ edges poly → (b, c) ∈ edges poly →
      area (a - b) n < 0 ∧ 0 < area (c - b) n := by
    intro b
    by_cases hx : ∃ a c, (a, b) ∈ edges poly ∧ (b, c) ∈ edges poly
    · obtain ⟨a, c, hab, hbc⟩ := hx
      have nab := edge_ne hs.1 (by omega) hab
      have nbc := edge_ne hs.1 (by omega) hbc
      have nac := edge_ne_two hs.1 h3 hab hbc
      obtain ⟨n, h1, h2⟩ := exists_corner (u := a - b) (v := c - b) (sub_ne_zero.2 nab) (sub_ne_zero.2 nbc.symm) (by
        intro t t0 e
        have hd : ((a, b) : Vec F 2 × Vec F 2) ≠ (b, c) := fun h => nab (congrArg Prod.fst h)
        rcases le_total t 1 with t1 | t1
        · have : OnSegment c a b := onSegment_symm ⟨t, t0.le, t1, by rw [← e]; simp⟩
          rcases (hs.2 _ hab _ hbc hd c this (onSegment_right _ _)).1 with h | h
          · exact nac h.symm
          · exact nbc h.symm
        · have : OnSegment a b c := ⟨t⁻¹, by positivity, inv_le_one_of_one_le₀ t1, by
            rw [e, smul_smul, inv_mul_cancel₀ t0.ne', one_smul]; simp⟩
          rcases (hs.2 _ hab _ hbc hd a (onSegment_left _ _) this).2 with h | h
          · exact nab h
          · exact nac h)
      refine ⟨n, fun a' c' ha hc => ?_⟩
      rw [edge_to_unique hs.1 ha hab, edge_from_unique hs.1 hc hbc]
      exact ⟨h1, h2⟩
    · exact ⟨0, fun a c ha hc => absurd ⟨a, c, ha, hc⟩ hx⟩
  choose N hN using key
  exact ⟨N, fun a b c ha hc => hN b a c ha hc⟩

/-- Corner directions, as given by `Simple.corners`. -/
def Corners (poly : List (Vec F 2)) (N : Vec F 2 → Vec F 2) : Prop :=
  ∀ a b c, (a, b) ∈ edges poly → (b, c) ∈ edges poly → area (a - b) (N b) < 0 ∧ 0 < area (c - b) (N b)

/-- From near a point inside an edge to near its second end. -/
theorem Simple.walk_forward (hs : Simple poly) (h3 : 3 ≤ poly.length) {N : Vec F 2 → Vec F 2} (hN : Corners poly N)
    {a b h d : Vec F 2} (hab : (a, b) ∈ edges poly) {σ t : F} (hσ : σ * σ = 1) (h0 : 0 < t) (h1 : t < 1)
    (hh : h = a + t • (b - a)) (hd : 0 < σ * area (b - a) d) :
    Small fun ε : F => Clear poly (h + ε • d) (b + ε • σ • N b) := by
  obtain ⟨c, hbc⟩ := exists_edge_from (mem_of_mem_edges hab).2
  obtain ⟨n1, n2⟩ := hN a b c hab hbc
  have nab := edge_ne hs.1 (by omega) hab
  have hh' : h = b + (1 - t) • (a - b) := by rw [hh]; apply vec2_ext <;> simp <;> ring
  have w := edge_walk (n := σ • N b) (c := c) (by linarith) hh' hd
    (by rw [area_smul_right, ← mul_assoc, hσ, one_mul]; exact n1) (by rw [area_smul_right, ← mul_assoc, hσ, one_mul]; exact n2)
  have o : Small fun ε : F => ∀ f ∈ edges poly, f ≠ (a, b) → f ≠ (b, c) →
      ∀ z, OnSegment z (h + ε • d) (b + ε • σ • N b) → ¬ OnSegment z f.1 f.2 := by
    apply Small.list
    intro f hf
    by_cases e1 : f = (a, b)
    · exact small_of_forall fun _ _ h => absurd e1 h
    by_cases e2 : f = (b, c)
    · exact small_of_forall fun _ _ _ h => absurd e2 h
    refine (tube (edge_ne hs.1 (by omega) (a := f.1) (b := f.2) hf) (x := h) (y := b) ?_ d (σ • N b)).mono
      fun ε _ g _ _ => g
    intro z hz
    obtain ⟨k1, k2⟩ := onSegment_sub (by linarith) (by linarith) hh' nab hz
    by_cases zb : z = b
    · rw [zb]; exact hs.away_vertex hab hbc hf e1 e2
    · exact hs.away hab hf e1 k1 k2 zb
  refine (w.and o).mono fun ε e0 ⟨g1, g2⟩ z hz ⟨f, hf, hfz⟩ => ?_
  by_cases e1 : f = (a, b)
  · rw [e1] at hfz; exact (g1 z hz).1 hfz
  by_cases e2 : f = (b, c)
  · rw [e2] at hfz; exact (g1 z hz).2 hfz
  exact g2 f hf e1 e2 z hz hfz

/-- From near a point inside an edge to near its first end. -/
theorem Simple.walk_back (hs : Simple poly) (h3 : 3 ≤ poly.length) {N : Vec F 2 → Vec F 2} (hN : Corners poly N)
    {a b h d : Vec F 2} (hab : (a, b) ∈ edges poly) {σ t : F} (hσ : σ * σ = 1) (h0 : 0 < t) (h1 : t < 1)
    (hh : h = a + t • (b - a)) (hd : 0 < σ * area (b - a) d) :
    Small fun ε : F => Clear poly (h + ε • d) (a + ε • σ • N a) := by
  obtain ⟨c, hca⟩ := exists_edge_to (mem_of_mem_edges hab).1
  obtain ⟨n1, n2⟩ := hN c a b hca hab
  have nab := edge_ne hs.1 (by omega) hab
  have w := edge_walk (n := σ • N a) (c := c) (σ := -σ) (a := b) (b := a) (d := d) h0 hh
    (by rw [← neg_sub b a, area_neg_left]; linarith)
    (by rw [area_smul_right, ← mul_assoc, neg_mul, hσ]; linarith)
    (by rw [area_smul_right, ← mul_assoc, neg_mul, hσ]; linarith)
  have o : Small fun ε : F => ∀ f ∈ edges poly, f ≠ (a, b) → f ≠ (c, a) →
      ∀ z, OnSegment z (h + ε • d) (a + ε • σ • N a) → ¬ OnSegment z f.1 f.2 := by
    apply Small.list
    intro f hf
    by_cases e1 : f = (a, b)
    · exact small_of_forall fun _ _ h => absurd e1 h
    by_cases e2 : f = (c, a)
    · exact small_of_forall fun _ _ _ h => absurd e2 h
    refine (tube (edge_ne hs.1 (by omega) (a := f.1) (b := f.2) hf) (x := h) (y := a) ?_ d (σ • N a)).mono
      fun ε _ g _ _ => g
    intro z hz
    obtain ⟨k1, k2⟩ := onSegment_sub h0 h1 hh nab.symm hz
    by_cases zb : z = a
    · rw [zb]; exact hs.away_vertex hca hab hf e2 e1
    · exact hs.away hab hf e1 (onSegment_symm k1) zb k2
  refine (w.and o).mono fun ε e0 ⟨g1, g2⟩ z hz ⟨f, hf, hfz⟩ => ?_
  by_cases e1 : f = (a, b)
  · rw [e1] at hfz; exact (g1 z hz).1 (onSegment_symm hfz)
  by_cases e2 : f = (c, a)
  · rw [e2] at hfz; exact (g1 z hz).2 (onSegment_symm hfz)
  exact g2 f hf e1 e2 z hz hfz

/-- Near a vertex only its two edges matter. -/
theorem Simple.near_vertex (hs : Simple poly) (h3 : 3 ≤ poly.length) {a b c d m : Vec F 2} (hab : (a, b) ∈ edges poly)
    (hbc : (b, c) ∈ edges poly) (hm : ∀ ε : F, 0 < ε → ∀ z, OnSegment z (b + ε • d) (b + ε • m) →
      ¬ OnSegment z b a ∧ ¬ OnSegment z b c) : Small fun ε : F => Clear poly (b + ε • d) (b + ε • m) := by
  have o : Small fun ε : F => ∀ f ∈ edges poly, f ≠ (a, b) → f ≠ (b, c) →
      ∀ z, OnSegment z (b + ε • d) (b + ε • m) → ¬ OnSegment z f.1 f.2 := by
    apply Small.list
    intro f hf
    by_cases e1 : f = (a, b)
    · exact small_of_forall fun _ _ h => absurd e1 h
    by_cases e2 : f = (b, c)
    · exact small_of_forall fun _ _ _ h => absurd e2 h
    refine (tube (edge_ne hs.1 (by omega) (a := f.1) (b := f.2) hf) (x := b) (y := b) ?_ d m).mono fun ε _ g _ _ => g
    rintro z ⟨t, -, -, rfl⟩
    rw [sub_self, smul_zero, add_zero]
    exact hs.away_vertex hab hbc hf e1 e2
  refine o.mono fun ε e0 g2 z hz ⟨f, hf, hfz⟩ => ?_
  by_cases e1 : f = (a, b)
  · rw [e1] at hfz; exact (hm ε e0 z hz).1 (onSegment_symm hfz)
  by_cases e2 : f = (b, c)
  · rw [e2] at hfz; exact (hm ε e0 z hz).2 hfz
  exact g2 f hf e1 e2 z hz hfz

/-- From near a vertex into one of its corners. -/
theorem Simple.walk_vertex (hs : Simple poly) (h3 : 3 ≤ poly.length) {N : Vec F 2 → Vec F 2} (hN : Corners poly N)
    {a b c d : Vec F 2} (hab : (a, b) ∈ edges poly) (hbc : (b, c) ∈ edges poly)
    (hd : ∀ t : F, 0 ≤ t → d ≠ t • (a - b)) (hd' : ∀ t : F, 0 ≤ t → d ≠ t • (c - b)) :
    ∃ σ : F, (σ = 1 ∨ σ = -1) ∧ Small fun ε : F => Clear poly (b + ε • d) (b + ε • σ • N b) := by
  obtain ⟨n1, n2⟩ := hN a b c hab hbc
  have nab := edge_ne hs.1 (by omega) hab
  have nbc := edge_ne hs.1 (by omega) hbc
  rcases vertex_walk (sub_ne_zero.2 nab) (sub_ne_zero.2 nbc.symm) hd hd' n1 n2 with h | h
  · exact ⟨1, .inl rfl, by simpa only [one_smul] using hs.near_vertex h3 hab hbc h⟩
  · exact ⟨-1, .inr rfl, by simpa only [neg_smul, one_smul] using hs.near_vertex h3 hab hbc h⟩

theorem Clear.symm {p q : Vec F 2} (h : Clear poly p q) : Clear poly q p := fun z hz => h z (onSegment_symm hz)

theorem Joined.symm {p q : Vec F 2} (h : Joined poly p q) : Joined poly q p := by
  induction h with
  | refl => exact .refl
  | tail _ h ih => exact .head h.symm ih

theorem Joined.trans {p q r : Vec F 2} (h : Joined poly p q) (h' : Joined poly q r) : Joined poly p r :=
  Relation.ReflTransGen.trans h h'

theorem Clear.joined {p q : Vec F 2} (h : Clear poly p q) : Joined poly p q := .single h

theorem Joined.winding {p q : Vec F 2} (h : Joined poly p q) : windingNumber p poly = windingNumber q poly := by
  induction h with
  | refl => rfl
  | tail _ h ih => rw [ih]; exact winding_clear h

theorem side_direction {u : Vec F 2} (hu : u ≠ 0) {σ : F} (hσ : σ * σ = 1) :
    0 < σ * area u (σ • ![-u 1, u 0]) := by
  have := inner_self_pos hu
  rw [inner2] at this
  rw [area_smul_right, ← mul_assoc, hσ, one_mul]
  simp [area]
  linarith

/-- From corner to corner along an edge. -/
theorem Simple.walk_edge (hs : Simple poly) (h3 : 3 ≤ poly.length) {N : Vec F 2 → Vec F 2} (hN : Corners poly N)
    {a b : Vec F 2} (hab : (a, b) ∈ edges poly) {σ : F} (hσ : σ * σ = 1) :
    Small fun ε : F => Joined poly (a + ε • σ • N a) (b + ε • σ • N b) := by
  have nab := edge_ne hs.1 (by omega) hab
  have hd := side_direction (u := b - a) (sub_ne_zero.2 nab.symm) hσ
  exact ((hs.walk_back h3 hN hab hσ (t := 1 / 2) (by norm_num) (by norm_num) rfl hd).and
    (hs.walk_forward h3 hN hab hσ (t := 1 / 2) (by norm_num) (by norm_num) rfl hd)).mono
    fun ε _ ⟨g1, g2⟩ => g1.symm.joined.trans g2.joined

/-- From each corner to each other on the same side. -/
theorem Simple.walk_around (hs : Simple poly) (h3 : 3 ≤ poly.length) {N : Vec F 2 → Vec F 2} (hN : Corners poly N)
    {σ : F} (hσ : σ * σ = 1) {b : Vec F 2} (hb : b ∈ poly) :
    Small fun ε : F => Joined poly (vert poly 0 + ε • σ • N (vert poly 0)) (b + ε • σ • N b) := by
  obtain ⟨k, -, rfl⟩ := exists_vert hb
  clear hb
  induction k with
  | zero => exact small_of_forall fun _ _ => .refl
  | succ k ih =>
    exact (ih.and (hs.walk_edge h3 hN (mem_edges_of_vert (by omega) k) hσ)).mono fun ε _ ⟨g1, g2⟩ => g1.trans g2

end Actl.Geo
