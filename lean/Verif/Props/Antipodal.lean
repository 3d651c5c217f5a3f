import Verif.Model.Antipodal
import Verif.Spec.Antipodal
import Verif.Lemmas.Convex
import Verif.Props.Distance
import Verif.Props.SortAngle

/-!
# Antipodal vertices and the diameter of a convex polygon

C68.
-/

namespace Actl.Geo

variable {F : Type*} [Field F] [LinearOrder F] [IsStrictOrderedRing F] {poly : List (Vec F 2)}

omit [LinearOrder F] [IsStrictOrderedRing F] in
theorem polyAt_eq {i : Nat} (h : i < poly.length) : polyAt poly i = vert poly i := by
  rw [polyAt, vert, Nat.mod_eq_of_lt h]

omit [LinearOrder F] [IsStrictOrderedRing F] in
theorem edgeFrom_eq {j : Nat} (h : j < poly.length) : edgeFrom poly j = edgeAt poly j := by
  rw [edgeFrom, edgeAt, polyAt_eq h]
  split_ifs with h1
  · rw [polyAt_eq (by omega)]
  · rw [polyAt_eq (by omega), ← vert_mod (j + 1)]
    simp only [not_not] at h1
    rw [h1, Nat.mod_self]

theorem orientation_left_iff (P Q : Vec F 2) : orientation P Q = .left ↔ 0 < area P Q := by
  have := angleLess_iff (fun x : Vec F 2 => x) P Q
  simpa only [angleLess, decide_eq_true_eq] using this

/-- The inner loop stops at the first edge that does not turn left from the edge of `i`. -/
theorem antipodalInner_spec {i : Nat} (hi : i + 1 < poly.length) : ∀ (k j : Nat) (out : List (Nat × Nat)),
    j + k = poly.length → ∃ j', j ≤ j' ∧ j' ≤ poly.length ∧
      antipodalInner poly i k j out =
        some (j', out ++ (List.range' j (min (j' + 1) poly.length - j)).map fun m => (i, m)) ∧
      (∀ m, j ≤ m → m < j' → 0 < area (edgeAt poly i) (edgeAt poly m)) ∧
      (j' < poly.length → area (edgeAt poly i) (edgeAt poly j') ≤ 0)
  | 0, j, out, h => by
    refine ⟨j, le_refl _, by omega, ?_, by omega, by omega⟩
    rw [antipodalInner, show min (j + 1) poly.length - j = 0 by omega]
    simp
  | k + 1, j, out, h => by
    have hj : j < poly.length := by omega
    rw [antipodalInner]
    simp only [if_pos hi, orientation_left_iff]
    have e : polyAt poly (i + 1) - polyAt poly i = edgeAt poly i := by
      rw [polyAt_eq hi, polyAt_eq (by omega), edgeAt]
    rw [e, edgeFrom_eq hj]
    split_ifs with hl
    · obtain ⟨j', h1, h2, h3, h4, h5⟩ := antipodalInner_spec hi k (j + 1) (out ++ [(i, j)]) (by omega)
      refine ⟨j', by omega, h2, ?_, fun m hm hm' => ?_, h5⟩
      · rw [h3, show min (j' + 1) poly.length - j = (min (j' + 1) poly.length - (j + 1)) + 1 by omega,
          List.range'_succ]
        simp
      · rcases Nat.eq_or_lt_of_le hm with rfl | hm
        · exact hl
        · exact h4 m (by omega) hm'
    · refine ⟨j, le_refl _, hj.le, ?_, by omega, fun _ => not_lt.1 hl⟩
      rw [show min (j + 1) poly.length - j = 1 by omega]
      rfl

/-- The sums of the positions of the written pairs count up. -/
def Counts (out : List (Nat × Nat)) (i j : Nat) : Prop :=
  out.map (fun p => p.1 + p.2) = List.range' 1 (i + j - 1)

/-- The state of the outer loop: what has been written, and what will be. -/
theorem antipodalOuter_spec (hc : StrictlyConvex poly) : ∀ (k i j : Nat) (out : List (Nat × Nat)),
    i + k = poly.length + 1 → (i < j ∨ j = poly.length) → j ≤ poly.length → 0 < j →
    (∀ p ∈ out, p.1 < p.2 ∧ p.2 < poly.length ∧ p.1 < i) → i ≤ poly.length →
    (j < poly.length ∧ Counts out i j ∨
      j = poly.length ∧ 0 < i ∧ i < poly.length ∧ Counts out (i - 1) j) →
    ∃ res, antipodalOuter poly k i j out = some res ∧
      (∀ p ∈ out, p ∈ res) ∧
      (∀ p ∈ res, p.1 < p.2 ∧ p.2 < poly.length) ∧ (∀ p ∈ res, p ∈ out ∨ i ≤ p.1) ∧
      (∃ m, m ≤ 2 * poly.length - 3 ∧ res.map (fun p => p.1 + p.2) = List.range' 1 m) ∧
      (∀ a b, i ≤ a → a < b → b < poly.length → j ≤ b →
        (∀ i', i ≤ i' → i' < a → area (edgeAt poly i') (edgeAt poly b) ≤ 0) →
        (∀ m, a < m → m < b → 0 < area (edgeAt poly a) (edgeAt poly m)) → (a, b) ∈ res) ∧
      (∀ a b, i ≤ a → a < b → b < poly.length → j ≤ b →
        (∀ i', i ≤ i' → i' ≤ a → area (edgeAt poly i') (edgeAt poly b) ≤ 0) → (a, b + 1) ∉ res)
  | 0, i, j, out, hk, _, _, _, _, hi, _ => by omega
  | k + 1, i, j, out, hk, hij, hj, hj0, hout, hi, hcnt => by
    have h3 := hc.1
    rw [antipodalOuter]
    split_ifs with hje
    · refine ⟨out, rfl, fun _ h => h, fun p hp => ⟨(hout p hp).1, (hout p hp).2.1⟩,
        fun p hp => Or.inl hp, ?_, by omega, by omega⟩
      rcases hcnt with hcnt | ⟨-, h0, hin, hcnt⟩
      · omega
      · exact ⟨_, by omega, hcnt⟩
    · have hi1 : i + 1 < poly.length := by omega
      obtain ⟨j', h1, h2, e, h4, h5⟩ := antipodalInner_spec hi1 (poly.length - j) j out (by omega)
      rw [e]
      simp only
      have hj' : i + 1 < j' ∨ j' = poly.length := by
        by_contra hn
        rw [not_or] at hn
        have e' : j' = i + 1 := by omega
        have := h5 (by omega)
        rw [e'] at this
        exact absurd (hc.turn i) (not_lt.2 this)
      set out' := out ++ (List.range' j (min (j' + 1) poly.length - j)).map fun m => (i, m) with hout'
      have mem' : ∀ p, p ∈ out' ↔ p ∈ out ∨ p.1 = i ∧ j ≤ p.2 ∧ p.2 ≤ j' ∧ p.2 < poly.length := by
        rintro ⟨x, y⟩
        rw [hout', List.mem_append, List.mem_map]
        refine or_congr_right ⟨?_, ?_⟩
        · rintro ⟨m, hm, e⟩
          rw [List.mem_range'_1] at hm
          obtain ⟨rfl, rfl⟩ := Prod.mk.inj e
          have := Nat.min_le_left (j' + 1) poly.length
          have := Nat.min_le_right (j' + 1) poly.length
          refine ⟨rfl, hm.1, ?_, ?_⟩ <;> simp only <;> omega
        · rintro ⟨rfl, h6, h7, h8⟩
          exact ⟨y, List.mem_range'_1.2 (by simp only at *; omega), rfl⟩
      obtain ⟨res, r1, r2, r3, r4, r5, r6, r7⟩ := antipodalOuter_spec hc k (i + 1) j' out' (by omega) hj' h2
        (by omega) (fun p hp => by
          rcases (mem' p).1 hp with hp | hp
          · have := hout p hp; omega
          · omega) (by omega) (by
          have hcnt' : Counts out i j := by
            rcases hcnt with h | h
            · exact h.2
            · omega
          have hcount : out'.map (fun p => p.1 + p.2) =
              List.range' 1 (i + j - 1 + (min (j' + 1) poly.length - j)) := by
            rw [hout', List.map_append, hcnt', List.map_map, ← List.range'_append_1,
              show 1 + (i + j - 1) = i + j by omega, ← List.map_add_range']
            rfl
          by_cases hjn : j' = poly.length
          · refine Or.inr ⟨hjn, by omega, hi1, ?_⟩
            rw [Counts, hcount, show i + j - 1 + (min (j' + 1) poly.length - j) =
              i + 1 - 1 + j' - 1 by omega]
          · refine Or.inl ⟨by omega, ?_⟩
            rw [Counts, hcount, show i + j - 1 + (min (j' + 1) poly.length - j) =
              i + 1 + j' - 1 by omega])
      refine ⟨res, r1, fun p hp => r2 p ((mem' p).2 (Or.inl hp)), r3, fun p hp => ?_, r5, ?_, ?_⟩
      · rcases r4 p hp with h | h
        · rcases (mem' p).1 h with h | h
          · exact Or.inl h
          · right; omega
        · right; omega
      · intro a b ha hab hb hjb hle hpos
        rcases Nat.eq_or_lt_of_le ha with rfl | ha'
        · apply r2
          rw [mem']
          refine Or.inr ⟨rfl, hjb, ?_, hb⟩
          by_contra hn
          rw [not_le] at hn
          have := h5 (by omega)
          exact absurd (hpos j' (by omega) hn) (not_lt.2 this)
        · refine r6 a b ha' hab hb ?_ (fun i' hi' => hle i' (by omega)) hpos
          by_contra hn
          exact absurd (h4 b hjb (by omega)) (not_lt.2 (hle i (le_refl _) ha'))
      · intro a b ha hab hb hjb hle hm
        have hj'b : j' ≤ b := by
          by_contra hn
          exact absurd (h4 b hjb (by omega)) (not_lt.2 (hle i (le_refl _) ha))
        rcases Nat.eq_or_lt_of_le ha with rfl | ha'
        · rcases r4 _ hm with h | h
          · rcases (mem' _).1 h with h | h
            · have := hout _ h; simp only at this; omega
            · simp only at h; omega
          · simp only at h; omega
        · exact r7 a b ha' hab hb hj'b (fun i' hi' => hle i' (by omega)) hm

/-- C68. The pairs written for a strictly convex polygon: positions of two vertices, the lesser one
first, no pair twice and at most `2 n - 3` of them. -/
theorem antipodalVertices_defined (hc : StrictlyConvex poly) : ∃ pairs,
    antipodalVertices poly = some pairs ∧ (∀ p ∈ pairs, p.1 < p.2 ∧ p.2 < poly.length) ∧
      pairs.Nodup ∧ pairs.length ≤ 2 * poly.length - 3 := by
  have h3 := hc.1
  obtain ⟨res, r1, -, r3, -, ⟨m, hm, r5⟩, -⟩ := antipodalOuter_spec hc (poly.length + 1) 0 1 []
    (by omega) (by omega) (by omega) (by omega) (by simp) (by omega) (Or.inl ⟨by omega, rfl⟩)
  refine ⟨res, by rw [antipodalVertices, if_neg (by omega), r1], r3, ?_, ?_⟩
  · refine List.Nodup.of_map (fun p : Nat × Nat => p.1 + p.2) ?_
    rw [r5]; exact List.nodup_range'
  · have := congrArg List.length r5
    rw [List.length_map, List.length_range'] at this
    omega

theorem antipodal_turns (hc : StrictlyConvex poly) {d : Vec F 2} (hd : d ≠ 0) {a b : Nat} (hab : a < b)
    (hb : b < poly.length) (hbt : Between d poly (vert poly a) (vert poly b)) :
    ∀ i, i < a → area (edgeAt poly i) (edgeAt poly b) ≤ 0 := by
  intro i hi
  have hnd : -d ≠ 0 := neg_ne_zero.2 hd
  have neg : ∀ v : Vec F 2, inner v (-d) = -inner v d := fun v => by
    simp only [inner2, Pi.neg_apply]; ring
  have := hc.turn_ascend hnd (a := b) (b := a + poly.length) (by omega)
    (fun v hv => by rw [neg, neg]; linarith [(hbt v hv).2])
    (fun v hv => by rw [neg, neg, vert_period]; linarith [(hbt v hv).1]) (i + poly.length)
    (by omega) (by omega)
  rw [edgeAt_period] at this
  rw [area_swap (edgeAt poly b) (edgeAt poly i)]
  rcases this with h | ⟨-, -, -, h⟩
  · linarith
  · rw [h]; simp

/-- C68. Two vertices with parallel lines through them and the polygon in between are written, unless
the lines contain the edge after the first vertex and the edge before the second. -/
theorem antipodalVertices_complete (hc : StrictlyConvex poly) {pairs : List (Nat × Nat)}
    (hp : antipodalVertices poly = some pairs) {d : Vec F 2} (hd : d ≠ 0) {a b : Nat} (hab : a < b)
    (hb : b < poly.length)
    (hbt : Between d poly (vert poly a) (vert poly b) ∨ Between d poly (vert poly b) (vert poly a))
    (hne : ¬(inner (vert poly (a + 1)) d = inner (vert poly a) d ∧
      inner (vert poly (b - 1)) d = inner (vert poly b) d)) : (a, b) ∈ pairs := by
  have h3 := hc.1
  have neg : ∀ d v : Vec F 2, inner v (-d) = -inner v d := fun d v => by
    simp only [inner2, Pi.neg_apply]; ring
  wlog hbt' : Between d poly (vert poly a) (vert poly b) generalizing d
  · refine this (neg_ne_zero.2 hd) ?_ ?_ ?_
    · rw [or_comm]
      refine hbt.imp (fun h v hv => ?_) (fun h v hv => ?_) <;> rw [neg, neg, neg] <;>
        exact ⟨neg_le_neg (h v hv).2, neg_le_neg (h v hv).1⟩
    · rw [neg, neg, neg, neg, neg_inj, neg_inj]; exact hne
    · intro v hv
      have h := (hbt.resolve_left hbt') v hv
      rw [neg, neg, neg]
      exact ⟨neg_le_neg h.2, neg_le_neg h.1⟩
  obtain ⟨res, r1, -, -, -, -, r6, -⟩ := antipodalOuter_spec hc (poly.length + 1) 0 1 []
    (by omega) (by omega) (by omega) (by omega) (by simp) (by omega) (Or.inl ⟨by omega, rfl⟩)
  rw [antipodalVertices, if_neg (by omega), r1] at hp
  obtain rfl := Option.some.inj hp
  refine r6 a b (Nat.zero_le _) hab hb (by omega) (fun i _ hi => antipodal_turns hc hd hab hb hbt' i hi)
    fun m hm hm' => ?_
  rcases hc.turn_ascend hd (by omega) (fun v hv => (hbt' v hv).1) (fun v hv => (hbt' v hv).2) m hm hm'
    with h | ⟨rfl, h1, h2, -⟩
  · exact h
  · rw [inner_edgeAt] at h1 h2
    exact absurd ⟨by linarith, by rw [Nat.add_sub_cancel]; linarith⟩ hne

/-- C68. The exception is real: if the edge after `a` and the edge before `b` are parallel, there are
parallel lines through the two vertices with the polygon in between, and the pair is not written. -/
theorem antipodalVertices_misses (hc : StrictlyConvex poly) {pairs : List (Nat × Nat)}
    (hp : antipodalVertices poly = some pairs) {a b : Nat} (hab : a < b) (hb : b + 1 < poly.length)
    (hpar : area (vert poly (a + 1) - vert poly a) (vert poly (b + 1) - vert poly b) = 0) :
    Antipodal poly (vert poly a) (vert poly (b + 1)) ∧ (a, b + 1) ∉ pairs := by
  have h3 := hc.1
  change area (edgeAt poly a) (edgeAt poly b) = 0 at hpar
  set d : Vec F 2 := ![-edgeAt poly a 1, edgeAt poly a 0] with hd'
  have hin : ∀ v : Vec F 2, inner v d = area (edgeAt poly a) v := fun v => by
    rw [inner2, hd', area]
    simp only [Matrix.cons_val_zero, Matrix.cons_val_one, Matrix.cons_val_fin_one]; ring
  have hd : d ≠ 0 := by
    intro h
    have := hc.turn a
    rw [← hin, h] at this
    simp [inner] at this
  have hb0 : inner (edgeAt poly b) d = 0 := by rw [hin, hpar]
  have neg : ∀ v : Vec F 2, inner v (-d) = -inner v d := fun v => by
    simp only [inner2, Pi.neg_apply]; ring
  have hmin : ∀ m, inner (vert poly a) d ≤ inner (vert poly m) d := by
    intro m
    have := hc.leftOrOn' a m
    rw [← hin, inner_sub_left] at this
    linarith
  have hmax : ∀ m, inner (vert poly m) d ≤ inner (vert poly (b + 1)) d := by
    intro m
    rcases le_or_gt (inner (edgeAt poly (b + 1)) d) 0 with h | h
    · exact hc.linear_max hb0.ge h m
    · exfalso
      have h1 := hc.linear_max (d := -d) (k := b) (by rw [neg, hb0, neg_zero]) (by rw [neg]; linarith) a
      have h2 := hc.left a (b + 1) (hc.vert_ne' (by omega) (by omega))
        (hc.vert_ne' (by omega) (by omega))
      rw [← hin, inner_sub_left] at h2
      rw [neg, neg] at h1
      linarith
  have hbb : inner (vert poly (b + 1)) d = inner (vert poly b) d := by
    rw [inner_edgeAt] at hb0; linarith
  have hbt : ∀ v ∈ poly, inner (vert poly a) d ≤ inner v d ∧
      inner v d ≤ inner (vert poly (b + 1)) d := by
    intro v hv
    obtain ⟨m, -, rfl⟩ := exists_vert hv
    exact ⟨hmin m, hmax m⟩
  refine ⟨⟨d, hd, hbt⟩, ?_⟩
  obtain ⟨res, r1, -, -, -, -, -, r7⟩ := antipodalOuter_spec hc (poly.length + 1) 0 1 []
    (by omega) (by omega) (by omega) (by omega) (by simp) (by omega) (Or.inl ⟨by omega, rfl⟩)
  rw [antipodalVertices, if_neg (by omega), r1] at hp
  obtain rfl := Option.some.inj hp
  refine r7 a b (Nat.zero_le _) hab (by omega) (by omega) fun i _ hi => ?_
  rcases Nat.eq_or_lt_of_le hi with rfl | hi
  · exact hpar.le
  · refine antipodal_turns hc hd hab (by omega) (fun v hv => ?_) i hi
    rw [← hbb]; exact hbt v hv

/-- C68. A polygon with two vertices: the code reads past the end. -/
theorem antipodalVertices_two_ub (p q : Vec F 2) : antipodalVertices [p, q] = none := by
  have h : orientation (q - p) (edgeFrom [p, q] 1) ≠ .left := by
    rw [Ne, orientation_left_iff]
    have : area (q - p) (edgeFrom [p, q] 1) = 0 := by
      simp [edgeFrom, polyAt, area]; ring
    rw [this]; exact lt_irrefl _
  have h' : orientation (polyAt [p, q] (0 + 1) - polyAt [p, q] 0) (edgeFrom [p, q] 1) ≠ .left := h
  simp only [antipodalVertices, List.length_cons, List.length_nil]
  simp only [antipodalOuter, antipodalInner, List.length_cons, List.length_nil, if_neg h']
  simp [antipodalInner]

/-- C68. An empty polygon: the code moves past the end. -/
theorem antipodalVertices_nil_ub : antipodalVertices ([] : List (Vec F 2)) = none := rfl

theorem foldl_max (f : Nat × Nat → F) : ∀ (pairs : List (Nat × Nat)) (r : F),
    r ≤ pairs.foldl (fun res p => if res < f p then f p else res) r ∧
      (∀ p ∈ pairs, f p ≤ pairs.foldl (fun res p => if res < f p then f p else res) r) ∧
      (pairs.foldl (fun res p => if res < f p then f p else res) r = r ∨
        ∃ p ∈ pairs, pairs.foldl (fun res p => if res < f p then f p else res) r = f p)
  | [], r => ⟨le_refl _, by simp, Or.inl rfl⟩
  | p :: ps, r => by
    rw [List.foldl_cons]
    obtain ⟨h1, h2, h3⟩ := foldl_max f ps (if r < f p then f p else r)
    have h4 : r ≤ (if r < f p then f p else r) ∧ f p ≤ (if r < f p then f p else r) := by
      split_ifs with h
      · exact ⟨h.le, le_refl _⟩
      · exact ⟨le_refl _, not_lt.1 h⟩
    refine ⟨h4.1.trans h1, fun x hx => ?_, ?_⟩
    · rcases List.mem_cons.1 hx with rfl | hx
      · exact h4.2.trans h1
      · exact h2 x hx
    · rcases h3 with h3 | ⟨x, hx, h3⟩
      · split_ifs at h3 ⊢ with h
        · exact Or.inr ⟨p, List.mem_cons_self, h3⟩
        · exact Or.inl h3
      · exact Or.inr ⟨x, List.mem_cons_of_mem _ hx, h3⟩

omit [IsStrictOrderedRing F] in
/-- Some pair of a list has the greatest distance. -/
theorem exists_farthest (l : List (Vec F 2)) (hl : l ≠ []) :
    ∃ p ∈ l, ∃ q ∈ l, ∀ u ∈ l, ∀ v ∈ l, dist2 u v ≤ dist2 p q := by
  classical
  have hne : (l.toFinset ×ˢ l.toFinset).Nonempty := by
    obtain ⟨x, hx⟩ := List.exists_mem_of_ne_nil l hl
    exact ⟨(x, x), by simp [hx]⟩
  obtain ⟨⟨p, q⟩, hpq, h⟩ := Finset.exists_max_image _ (fun x => dist2 x.1 x.2) hne
  simp only [Finset.mem_product, List.mem_toFinset] at hpq h
  exact ⟨p, hpq.1, q, hpq.2, fun u hu v hv => h (u, v) ⟨hu, hv⟩⟩

theorem farthest_between {p q : Vec F 2} (h : ∀ u ∈ poly, ∀ v ∈ poly, dist2 u v ≤ dist2 p q)
    (hp : p ∈ poly) (hq : q ∈ poly) :
    Between (q - p) poly p q ∧ ∀ v ∈ poly, inner v (q - p) = inner q (q - p) → v = q := by
  have key : ∀ v ∈ poly, inner v (q - p) ≤ inner q (q - p) - inner (v - q) (v - q) / 2 ∧
      inner p (q - p) + inner (v - p) (v - p) / 2 ≤ inner v (q - p) := by
    intro v hv
    have h1 := h p hp v hv
    have h2 := h v hv q hq
    rw [dist2_eq, dist2_eq] at h1 h2
    simp only [inner2, Pi.sub_apply] at *
    constructor
    · linarith
    · linarith
  refine ⟨fun v hv => ?_, fun v hv he => ?_⟩
  · have := inner_self_nonneg (v - q)
    have := inner_self_nonneg (v - p)
    have := key v hv
    constructor <;> linarith
  · have h1 := inner_self_nonneg (v - q)
    have h2 := key v hv
    have : inner (v - q) (v - q) = 0 := by linarith
    exact sub_eq_zero.1 ((inner_self_eq_zero _).1 this)

/-- C68. `max_distance` of a strictly convex polygon, or of a single vertex, is the greatest distance
of two vertices (missing: two vertices and no vertex, which are undefined). -/
theorem maxDistance_partial {sqrt : F → F} (hs : IsSqrt sqrt)
    (hc : StrictlyConvex poly ∨ poly.length = 1) :
    ∃ r, maxDistance sqrt poly = some r ∧ 0 ≤ r ∧
      (∃ p ∈ poly, ∃ q ∈ poly, r ^ 2 = dist2 p q) ∧ ∀ p ∈ poly, ∀ q ∈ poly, dist2 p q ≤ r ^ 2 := by
  rcases hc with hc | h1
  swap
  · obtain ⟨x, rfl⟩ := List.length_eq_one_iff.1 h1
    refine ⟨0, rfl, le_refl _, ⟨x, by simp, x, by simp, by simp [dist2]⟩, ?_⟩
    intro p hp q hq
    rw [List.mem_singleton] at hp hq
    rw [hp, hq]; simp [dist2]
  have h3 := hc.1
  obtain ⟨pairs, e, hr, -⟩ := antipodalVertices_defined hc
  rw [maxDistance, e]
  obtain ⟨f1, f2, f3⟩ := foldl_max
    (fun p => distancePoint sqrt (polyAt poly p.1) (polyAt poly p.2)) pairs 0
  refine ⟨_, rfl, f1, ?_, ?_⟩
  · rcases f3 with f3 | ⟨x, hx, f3⟩
    · have hm := vert_mem (poly := poly) (by omega) 0
      exact ⟨_, hm, _, hm, by simp only at *; rw [f3]; simp [dist2]⟩
    · have := hr x hx
      refine ⟨polyAt poly x.1, ?_, polyAt poly x.2, ?_, ?_⟩
      · rw [polyAt_eq (by omega)]; exact vert_mem (by omega) _
      · rw [polyAt_eq (by omega)]; exact vert_mem (by omega) _
      · simp only at *; rw [f3]; exact (distancePoint_correct hs _ _).2.1
  · obtain ⟨p, hp, q, hq, hpq⟩ := exists_farthest poly (by rintro rfl; simp at h3)
    suffices hres : dist2 p q ≤ (pairs.foldl (fun res p =>
        if res < distancePoint sqrt (polyAt poly p.1) (polyAt poly p.2) then
          distancePoint sqrt (polyAt poly p.1) (polyAt poly p.2) else res) 0) ^ 2 from
      fun u hu v hv => (hpq u hu v hv).trans hres
    have hne : p ≠ q := by
      rintro rfl
      have h01 := hc.vert_ne' (a := 0) (b := 1) (by omega) (by omega)
      have := hpq _ (vert_mem (by omega) 1) _ (vert_mem (by omega) 0)
      have e0 : dist2 p p = 0 := by simp [dist2]
      rw [e0, dist2_eq] at this
      exact absurd (inner_self_pos (sub_ne_zero.2 h01)) (not_lt.2 this)
    have hfin : ∀ a b : Nat, a < b → b < poly.length →
        (∀ u ∈ poly, ∀ v ∈ poly, dist2 u v ≤ dist2 (vert poly a) (vert poly b)) →
        (a, b) ∈ pairs := by
      intro a b hab hb hmax
      obtain ⟨g1, g2⟩ := farthest_between hmax (vert_mem (by omega) a) (vert_mem (by omega) b)
      refine antipodalVertices_complete hc e (d := vert poly b - vert poly a)
        (sub_ne_zero.2 (hc.vert_ne' hab (by omega))) hab hb (Or.inl g1) fun hn => ?_
      exact hc.vert_ne' (a := b - 1) (b := b) (by omega) (by omega)
        (g2 _ (vert_mem (by omega) _) hn.2).symm
    obtain ⟨a, ha, rfl⟩ := exists_vert hp
    obtain ⟨b, hb, rfl⟩ := exists_vert hq
    have hcomm : ∀ u v : Vec F 2, dist2 u v = dist2 v u := fun u v => by
      simp only [dist2, Fin.sum_univ_two]; ring
    have hle : ∀ a b : Nat, a < b → b < poly.length → (a, b) ∈ pairs →
        dist2 (vert poly a) (vert poly b) ≤ (pairs.foldl (fun res p =>
        if res < distancePoint sqrt (polyAt poly p.1) (polyAt poly p.2) then
          distancePoint sqrt (polyAt poly p.1) (polyAt poly p.2) else res) 0) ^ 2 := by
      intro a b hab hb hm
      have := f2 _ hm
      simp only at this
      rw [polyAt_eq (by omega), polyAt_eq hb] at this
      have hd := distancePoint_correct hs (vert poly a) (vert poly b)
      rw [← hd.2.1]
      exact pow_le_pow_left₀ hd.1 this 2
    rcases Nat.lt_trichotomy a b with hab | rfl | hab
    · exact hle a b hab hb (hfin a b hab hb hpq)
    · exact absurd rfl hne
    · rw [hcomm]
      exact hle b a hab ha (hfin b a hab ha fun u hu v hv => by rw [hcomm (vert poly b)]; exact hpq u hu v hv)

/-- A square, a triangle and the missing pair of the square. -/
example : antipodalVertices [![0, 0], ![1, 0], ![1, 1], (![0, 1] : Vec ℚ 2)] =
    some [(0, 1), (0, 2), (1, 2), (1, 3), (2, 3)] := by decide +kernel

example : antipodalVertices [![0, 0], ![4, 0], (![1, 3] : Vec ℚ 2)] =
    some [(0, 1), (0, 2), (1, 2)] := by decide +kernel

theorem strictlyConvex_triangle {a b c : Vec F 2} (h : StrictLeft a b c) :
    StrictlyConvex [a, b, c] := by
  refine ⟨le_refl _, fun x y rest hr p hp => ?_⟩
  obtain ⟨n, hn⟩ := hr
  have h1 : StrictLeft b c a := by unfold StrictLeft at *; linarith
  have h2 : StrictLeft c a b := by unfold StrictLeft at *; linarith
  rw [← List.rotate_mod] at hn
  have hm : n % 3 < 3 := Nat.mod_lt _ (by omega)
  have : n % [a, b, c].length = n % 3 := rfl
  rw [this] at hn
  generalize n % 3 = m at *
  obtain rfl | rfl | rfl : m = 0 ∨ m = 1 ∨ m = 2 := by omega
  all_goals
    simp [List.rotate] at hn
    obtain ⟨rfl, rfl, rfl⟩ := hn
    rw [List.mem_singleton] at hp
    subst hp
    assumption

example : ∃ r, maxDistance Real.sqrt [![0, 0], ![4, 0], (![1, 3] : Vec ℝ 2)] = some r ∧
    ∀ p ∈ [![0, 0], ![4, 0], (![1, 3] : Vec ℝ 2)],
      ∀ q ∈ [![0, 0], ![4, 0], (![1, 3] : Vec ℝ 2)], dist2 p q ≤ r ^ 2 := by
  have hc : StrictlyConvex [![0, 0], ![4, 0], (![1, 3] : Vec ℝ 2)] :=
    strictlyConvex_triangle (by simp [StrictLeft])
  obtain ⟨r, h1, -, -, h2⟩ := maxDistance_partial isSqrt_real (Or.inl hc)
  exact ⟨r, h1, h2⟩

end Actl.Geo
