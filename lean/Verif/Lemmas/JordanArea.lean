import Verif.Props.Jordan
import Mathlib.Order.CountableDenseLinearOrder
import Mathlib.Data.Finset.Max

/-!
# The sign of the area of a simple polygon

The area is cut by the horizontal lines through the vertices.  In a strip between two such lines it is the height of the
strip times the sum of the places where the edges cross the middle of the strip, with the sign of the direction of the
edge; that sum is the total length of the intervals inside the polygon.
-/

namespace Actl.Geo

variable {F : Type*} [Field F] [LinearOrder F] [IsStrictOrderedRing F] {poly : List (Vec F 2)}

/-- Places with weights such that the sum of the weights from each place on is not negative. -/
theorem weighted_pos {ι : Type*} [DecidableEq ι] (x d : ι → F) (s : Finset ι) : (∀ i ∈ s, ∀ j ∈ s, x i = x j → i = j) →
    (∀ i ∈ s, d i ≠ 0) → (∀ i ∈ s, 0 ≤ ∑ j ∈ s with x i ≤ x j, d j) → s.Nonempty → ∀ c, (∀ i ∈ s, c < x i) →
    0 < ∑ i ∈ s, d i * (x i - c) := by
  induction s using Finset.induction_on_min_value x with
  | empty => intro _ _ _ h; exact absurd h (by simp)
  | insert a s ha hle ih =>
    intro inj hd H _ c hc
    have hlt : ∀ j ∈ s, x a < x j := fun j hj => lt_of_le_of_ne (hle j hj) fun e =>
      ha (inj a (by simp) j (by simp [hj]) e ▸ hj)
    have all : 0 ≤ d a + ∑ j ∈ s, d j := by
      have := H a (by simp)
      rw [Finset.filter_true_of_mem, Finset.sum_insert ha] at this
      · exact this
      · intro j hj
        rcases Finset.mem_insert.1 hj with rfl | hj
        · exact le_rfl
        · exact hle j hj
    have ca : 0 < x a - c := sub_pos.2 (hc a (by simp))
    rw [Finset.sum_insert ha]
    by_cases hs : s.Nonempty
    · have := ih (fun i hi j hj => inj i (by simp [hi]) j (by simp [hj])) (fun i hi => hd i (by simp [hi])) (fun i hi => by
        have := H i (by simp [hi])
        rwa [Finset.filter_insert, if_neg (not_le.2 (hlt i hi))] at this) hs (x a) hlt
      have e : ∑ i ∈ s, d i * (x i - c) = ∑ i ∈ s, d i * (x i - x a) + (∑ i ∈ s, d i) * (x a - c) := by
        rw [Finset.sum_mul, ← Finset.sum_add_distrib]
        exact Finset.sum_congr rfl fun i _ => by ring
      rw [e]
      have := mul_nonneg all ca.le
      nlinarith
    · rw [Finset.not_nonempty_iff_eq_empty] at hs
      subst hs
      simp only [Finset.sum_empty, add_zero] at all ⊢
      exact mul_pos (lt_of_le_of_ne all (hd a (by simp)).symm) ca

/-- The direction in which an edge crosses the height `m`. -/
def updown (m : F) (e : Vec F 2 × Vec F 2) : F :=
  if e.1 1 < m ∧ m < e.2 1 then 1 else if e.2 1 < m ∧ m < e.1 1 then -1 else 0

/-- The place where the line of an edge has the height `m`. -/
def across (m : F) (e : Vec F 2 × Vec F 2) : F := e.1 0 + (m - e.1 1) * (e.2 0 - e.1 0) / (e.2 1 - e.1 1)

/-- Twice the area beside an upward edge, below the height `y`. -/
def belowUp (a b : Vec F 2) (y : F) : F :=
  if y ≤ a 1 then 0 else if b 1 ≤ y then (a 0 + b 0) * (b 1 - a 1)
  else (2 * a 0 + (y - a 1) * (b 0 - a 0) / (b 1 - a 1)) * (y - a 1)

/-- Twice the area beside an edge, below the height `y`, downward edges count negative. -/
def belowEdge (e : Vec F 2 × Vec F 2) (y : F) : F :=
  if e.1 1 < e.2 1 then belowUp e.1 e.2 y else if e.2 1 < e.1 1 then -belowUp e.2 e.1 y else 0

theorem belowUp_mid {a b : Vec F 2} (h : a 1 < b 1) {y : F} (h1 : a 1 ≤ y) (h2 : y ≤ b 1) :
    belowUp a b y = (2 * a 0 + (y - a 1) * (b 0 - a 0) / (b 1 - a 1)) * (y - a 1) := by
  have hne : b 1 - a 1 ≠ 0 := (sub_pos.2 h).ne'
  unfold belowUp
  by_cases c : y ≤ a 1
  · rw [if_pos c, le_antisymm c h1]; ring
  · rw [if_neg c]
    by_cases c' : b 1 ≤ y
    · rw [if_pos c', le_antisymm h2 c']; field_simp; ring
    · rw [if_neg c']

theorem belowUp_strip {a b : Vec F 2} (h : a 1 < b 1) {u v : F} (huv : u < v) (ha : ¬ (u < a 1 ∧ a 1 < v))
    (hb : ¬ (u < b 1 ∧ b 1 < v)) : belowUp a b v - belowUp a b u =
      if a 1 < (u + v) / 2 ∧ (u + v) / 2 < b 1 then 2 * (v - u) * across ((u + v) / 2) (a, b) else 0 := by
  have hne : b 1 - a 1 ≠ 0 := (sub_pos.2 h).ne'
  have ha' : a 1 ≤ u ∨ v ≤ a 1 := by
    by_contra c; rw [not_or] at c; exact ha ⟨not_le.1 c.1, not_le.1 c.2⟩
  have hb' : b 1 ≤ u ∨ v ≤ b 1 := by
    by_contra c; rw [not_or] at c; exact hb ⟨not_le.1 c.1, not_le.1 c.2⟩
  have m1 : u < (u + v) / 2 := by linarith
  have m2 : (u + v) / 2 < v := by linarith
  rcases ha' with ha' | ha'
  · rcases hb' with hb' | hb'
    · rw [if_neg (by rintro ⟨-, c⟩; linarith)]
      unfold belowUp
      rw [if_neg (by linarith), if_pos (by linarith), if_neg (by linarith), if_pos hb', sub_self]
    · rw [if_pos ⟨by linarith, by linarith⟩, belowUp_mid h (by linarith) hb', belowUp_mid h ha' (by linarith)]
      unfold across
      field_simp
      ring
  · rw [if_neg (by rintro ⟨c, -⟩; linarith)]
    unfold belowUp
    rw [if_pos ha', if_pos (by linarith), sub_self]

theorem across_swap {a b : Vec F 2} (h : a 1 ≠ b 1) (m : F) : across m (b, a) = across m (a, b) := by
  have h1 : b 1 - a 1 ≠ 0 := sub_ne_zero.2 h.symm
  have h2 : a 1 - b 1 ≠ 0 := sub_ne_zero.2 h
  unfold across
  field_simp
  ring

theorem belowEdge_strip (e : Vec F 2 × Vec F 2) {u v : F} (huv : u < v) (ha : ¬ (u < e.1 1 ∧ e.1 1 < v))
    (hb : ¬ (u < e.2 1 ∧ e.2 1 < v)) :
    belowEdge e v - belowEdge e u = 2 * (v - u) * (updown ((u + v) / 2) e * across ((u + v) / 2) e) := by
  obtain ⟨a, b⟩ := e
  simp only at ha hb
  unfold belowEdge updown
  simp only
  rcases lt_trichotomy (a 1) (b 1) with h | h | h
  · rw [if_pos h, if_pos h, belowUp_strip h huv ha hb]
    by_cases c : a 1 < (u + v) / 2 ∧ (u + v) / 2 < b 1
    · rw [if_pos c, if_pos c]; ring
    · rw [if_neg c, if_neg c, if_neg (by rintro ⟨c1, c2⟩; linarith)]; ring
  · rw [if_neg h.not_lt, if_neg h.not_gt, if_neg h.not_lt, if_neg h.not_gt, if_neg (by rintro ⟨c1, c2⟩; linarith),
      if_neg (by rintro ⟨c1, c2⟩; linarith)]
    ring
  · rw [if_neg h.not_gt, if_pos h, if_neg h.not_gt, if_pos h, neg_sub_neg, ← neg_sub, belowUp_strip h huv hb ha,
      if_neg (c := a 1 < (u + v) / 2 ∧ (u + v) / 2 < b 1) (by rintro ⟨c1, c2⟩; linarith), across_swap h.ne']
    by_cases c : b 1 < (u + v) / 2 ∧ (u + v) / 2 < a 1
    · rw [if_pos c, if_pos c]; ring
    · rw [if_neg c, if_neg c]; ring

theorem belowEdge_low (e : Vec F 2 × Vec F 2) {y : F} (h1 : y ≤ e.1 1) (h2 : y ≤ e.2 1) : belowEdge e y = 0 := by
  unfold belowEdge belowUp
  rw [if_pos h1, if_pos h2]; simp

theorem belowEdge_high (e : Vec F 2 × Vec F 2) {y : F} (h1 : e.1 1 ≤ y) (h2 : e.2 1 ≤ y) :
    belowEdge e y = (e.1 0 + e.2 0) * (e.2 1 - e.1 1) := by
  unfold belowEdge belowUp
  rcases lt_trichotomy (e.1 1) (e.2 1) with h | h | h
  · rw [if_pos h, if_neg (by linarith), if_pos h2]
  · rw [if_neg h.not_lt, if_neg h.not_gt, h]; ring
  · rw [if_neg h.not_gt, if_pos h, if_neg (by linarith), if_pos h1]; ring

theorem pairs_telescope {G : Type*} [AddCommGroup G] {α : Type*} (g : α → G) : ∀ (a : α) (l : List α) (z : α),
    ((pairs (a :: l ++ [z])).map fun e => g e.2 - g e.1).sum = g z - g a
  | a, [], z => by simp [pairs]
  | a, b :: l, z => by
    have := pairs_telescope g b l z
    simp only [List.cons_append] at this ⊢
    rw [pairs, List.map_cons, List.sum_cons, this]
    simp

/-- Sums over the edges of differences of a function of the vertices vanish. -/
theorem edges_telescope {G : Type*} [AddCommGroup G] (g : Vec F 2 → G) (poly : List (Vec F 2)) :
    ((edges poly).map fun e => g e.2 - g e.1).sum = 0 := by
  cases poly with
  | nil => simp [edges, pairs]
  | cons x rest => rw [edges_cons, pairs_telescope g, sub_self]

theorem polyArea_edges (poly : List (Vec F 2)) :
    polyArea poly = ((edges poly).map fun e => (e.1 0 + e.2 0) * (e.2 1 - e.1 1)).sum := by
  have h : polyArea poly = ((edges poly).map fun e => e.1 0 * e.2 1 - e.1 1 * e.2 0).sum := by
    rw [polyArea_eq_pairs, edges_eq_map, List.map_map]
    rfl
  have t := edges_telescope (fun v : Vec F 2 => v 0 * v 1) poly
  rw [h, ← add_zero (((edges poly).map fun e => e.1 0 * e.2 1 - e.1 1 * e.2 0).sum), ← t, ← List.sum_map_add]
  congr 1
  apply List.map_congr_left
  intro e _; ring

/-- Twice the area below the height `y`. -/
def belowAll (poly : List (Vec F 2)) (y : F) : F := ((edges poly).map fun e => belowEdge e y).sum

/-- At a height that is not one of a vertex the edges cross as often upward as downward. -/
theorem sum_updown {m : F} (hm : ∀ v ∈ poly, v 1 ≠ m) : ((edges poly).map (updown m)).sum = 0 := by
  rw [← edges_telescope (fun v : Vec F 2 => if m < v 1 then (1 : F) else 0) poly]
  congr 1
  apply List.map_congr_left
  intro e he
  obtain ⟨h1, h2⟩ := mem_of_mem_edges he
  have a := hm _ h1
  have b := hm _ h2
  unfold updown
  rcases lt_or_gt_of_ne a with a | a <;> rcases lt_or_gt_of_ne b with b | b
  · rw [if_neg (by rintro ⟨c1, c2⟩; linarith), if_neg (by rintro ⟨c1, c2⟩; linarith), if_neg (by linarith), if_neg (by linarith)]
    ring
  · rw [if_pos ⟨a, b⟩, if_pos b, if_neg (by linarith)]; ring
  · rw [if_neg (by rintro ⟨c1, c2⟩; linarith), if_pos ⟨b, a⟩, if_neg (by linarith), if_pos a]; ring
  · rw [if_neg (by rintro ⟨c1, c2⟩; linarith), if_neg (by rintro ⟨c1, c2⟩; linarith), if_pos (by linarith), if_pos (by linarith)]
    ring

/-- Which edges are crossed by the ray to the right. -/
theorem crossing_updown {e : Vec F 2 × Vec F 2} {t m : F} (h1 : e.1 1 ≠ m) (h2 : e.2 1 ≠ m)
    (ht : updown m e ≠ 0 → across m e ≠ t) :
    ((crossing (e.1 - ![t, m]) (e.2 - ![t, m]) : Int) : F) = if t < across m e then updown m e else 0 := by
  obtain ⟨a, b⟩ := e
  simp only at h1 h2
  have key : a 1 ≠ b 1 → area (a - ![t, m]) (b - ![t, m]) = (across m (a, b) - t) * (b 1 - a 1) := by
    intro h
    have : b 1 - a 1 ≠ 0 := sub_ne_zero.2 h.symm
    unfold across
    simp only [area, Pi.sub_apply, Matrix.cons_val_zero, Matrix.cons_val_one]
    field_simp
    ring
  unfold crossing
  simp only [Pi.sub_apply, Matrix.cons_val_one, Matrix.cons_val_zero, sub_neg, sub_nonneg]
  unfold updown at ht ⊢
  simp only at ht ⊢
  rcases lt_or_gt_of_ne h1 with a1 | a1 <;> rcases lt_or_gt_of_ne h2 with b1 | b1
  · rw [if_neg (by rintro ⟨c1, c2, -⟩; linarith), if_neg (by rintro ⟨c1, c2, -⟩; linarith),
      if_neg (c := a 1 < m ∧ m < b 1) (by rintro ⟨c1, c2⟩; linarith),
      if_neg (c := b 1 < m ∧ m < a 1) (by rintro ⟨c1, c2⟩; linarith)]
    simp
  · rw [key (by linarith), if_pos (c := a 1 < m ∧ m < b 1) ⟨a1, b1⟩]
    by_cases c : t < across m (a, b)
    · rw [if_pos ⟨a1, b1.le, mul_pos (sub_pos.2 c) (by linarith)⟩, if_pos c]; simp
    · rw [if_neg, if_neg, if_neg c]
      · simp
      · rintro ⟨c1, c2, -⟩; linarith
      · rintro ⟨-, -, c1⟩
        nlinarith [mul_nonneg (sub_nonneg.2 (not_lt.1 c)) (show 0 ≤ b 1 - a 1 by linarith)]
  · have hu : ¬ (a 1 < m ∧ m < b 1) := by rintro ⟨c1, c2⟩; linarith
    rw [key (by linarith), if_neg hu, if_pos (c := b 1 < m ∧ m < a 1) ⟨b1, a1⟩, if_neg (by rintro ⟨c1, c2, -⟩; linarith)]
    by_cases c : t < across m (a, b)
    · rw [if_pos ⟨a1.le, b1, mul_neg_of_pos_of_neg (sub_pos.2 c) (by linarith)⟩, if_pos c]; simp
    · rw [if_neg, if_neg c]
      · simp
      · rintro ⟨-, -, c1⟩
        nlinarith [mul_nonneg (sub_nonneg.2 (not_lt.1 c)) (show 0 ≤ a 1 - b 1 by linarith)]
  · rw [if_neg (by rintro ⟨c1, c2, -⟩; linarith), if_neg (by rintro ⟨c1, c2, -⟩; linarith),
      if_neg (c := a 1 < m ∧ m < b 1) (by rintro ⟨c1, c2⟩; linarith),
      if_neg (c := b 1 < m ∧ m < a 1) (by rintro ⟨c1, c2⟩; linarith)]
    simp

theorem across_onSegment {m : F} {e : Vec F 2 × Vec F 2} (h : updown m e ≠ 0) : OnSegment ![across m e, m] e.1 e.2 := by
  obtain ⟨a, b⟩ := e
  unfold updown at h
  simp only at h ⊢
  have hr : a 1 ≠ b 1 ∧ 0 ≤ (m - a 1) / (b 1 - a 1) ∧ (m - a 1) / (b 1 - a 1) ≤ 1 := by
    by_cases c : a 1 < m ∧ m < b 1
    · have hp : 0 < b 1 - a 1 := by linarith
      exact ⟨by linarith, div_nonneg (by linarith) hp.le, (div_le_one hp).2 (by linarith)⟩
    · rw [if_neg c] at h
      by_cases c' : b 1 < m ∧ m < a 1
      · have hp : b 1 - a 1 < 0 := by linarith
        exact ⟨by linarith, div_nonneg_of_nonpos (by linarith) hp.le, (div_le_one_of_neg hp).2 (by linarith)⟩
      · rw [if_neg c'] at h; exact absurd rfl h
  have : b 1 - a 1 ≠ 0 := sub_ne_zero.2 hr.1.symm
  refine ⟨_, hr.2.1, hr.2.2, ?_⟩
  apply vec2_ext
  · simp [across]; ring
  · simp [this]

theorem onSegment_across {t m : F} {e : Vec F 2 × Vec F 2} (h1 : e.1 1 ≠ m) (h2 : e.2 1 ≠ m)
    (h : OnSegment ![t, m] e.1 e.2) : updown m e ≠ 0 ∧ across m e = t := by
  obtain ⟨a, b⟩ := e
  obtain ⟨r, r0, r1, e⟩ := h
  have e0 := congrFun e 0
  have e1 := congrFun e 1
  simp only [Matrix.cons_val_zero, Matrix.cons_val_one, Pi.add_apply, Pi.smul_apply, Pi.sub_apply, smul_eq_mul] at e0 e1
  simp only at h1 h2
  have hne : a 1 ≠ b 1 := by
    intro h; rw [h] at e1; exact h2 (by linarith)
  have hne' : b 1 - a 1 ≠ 0 := sub_ne_zero.2 hne.symm
  have p0 : 0 < r := lt_of_le_of_ne r0 fun h => h1 (by rw [e1, ← h]; ring)
  have p1 : r < 1 := lt_of_le_of_ne r1 fun h => h2 (by rw [e1, h]; ring)
  constructor
  · unfold updown
    simp only
    rcases lt_or_gt_of_ne hne with h | h
    · rw [if_pos ⟨by nlinarith, by nlinarith⟩]; exact one_ne_zero
    · rw [if_neg (by rintro ⟨c1, c2⟩; linarith), if_pos ⟨by nlinarith, by nlinarith⟩]; exact neg_ne_zero.2 one_ne_zero
  · unfold across
    simp only
    rw [e0, e1]
    field_simp
    ring

/-- The strip above the height `u`: its area has the sign of the numbers. -/
theorem Simple.strip (hs : Simple poly) {σ : F} (hσ : ∀ p : Vec F 2, ¬ OnBorder p poly → 0 ≤ σ * (windingNumber p poly : F))
    (hσ0 : σ ≠ 0) {u v : F} (huv : u < v) (hv : ∀ w ∈ poly, ¬ (u < w 1 ∧ w 1 < v)) {e : Vec F 2 × Vec F 2}
    (he : e ∈ edges poly) (heu : updown ((u + v) / 2) e ≠ 0) :
    σ * belowAll poly u < σ * belowAll poly v := by
  set m := (u + v) / 2 with hm
  have hmv : ∀ w ∈ poly, w 1 ≠ m := by
    intro w hw h
    exact hv w hw ⟨by rw [h, hm]; linarith, by rw [h, hm]; linarith⟩
  have hme : ∀ f ∈ edges poly, f.1 1 ≠ m ∧ f.2 1 ≠ m := fun f hf =>
    ⟨hmv _ (mem_of_mem_edges hf).1, hmv _ (mem_of_mem_edges hf).2⟩
  have diff : belowAll poly v - belowAll poly u = 2 * (v - u) * ((edges poly).map fun f => updown m f * across m f).sum := by
    unfold belowAll
    rw [sub_eq_iff_eq_add, ← List.sum_map_mul_left, ← List.sum_map_add]
    congr 1
    apply List.map_congr_left
    intro f hf
    obtain ⟨h1, h2⟩ := mem_of_mem_edges hf
    rw [← belowEdge_strip f huv (hv _ h1) (hv _ h2), sub_add_cancel]
  set s := (edges poly).toFinset.filter fun f => updown m f ≠ 0 with hsdef
  have mem_s : ∀ f, f ∈ s ↔ f ∈ edges poly ∧ updown m f ≠ 0 := by intro f; simp [hsdef]
  have sum_s : ∀ g : Vec F 2 × Vec F 2 → F, (∀ f, updown m f = 0 → g f = 0) → ((edges poly).map g).sum = ∑ f ∈ s, g f := by
    intro g hg
    rw [← List.sum_toFinset g (edges_nodup hs.1)]
    exact (Finset.sum_filter_of_ne (p := fun f => updown m f ≠ 0) fun f _ hf h => hf (hg f h)).symm
  have inj : ∀ i ∈ s, ∀ j ∈ s, across m i = across m j → i = j := by
    intro i hi j hj hij
    obtain ⟨i1, i2⟩ := (mem_s i).1 hi
    obtain ⟨j1, j2⟩ := (mem_s j).1 hj
    by_contra hne
    have c1 := across_onSegment i2
    have c2 := across_onSegment j2
    rw [← hij] at c2
    rcases (hs.2 i i1 j j1 hne _ c1 c2).1 with h | h
    · exact (hme i i1).1 (by rw [← h]; rfl)
    · exact (hme i i1).2 (by rw [← h]; rfl)
  have H : ∀ i ∈ s, 0 ≤ ∑ j ∈ s with across m i ≤ across m j, σ * updown m j := by
    intro i hi
    obtain ⟨t, t1, t2⟩ := Order.exists_between_finsets ((s.filter fun j => across m j < across m i).image (across m))
      {across m i} (by
        intro x hx y hy
        obtain ⟨j, hj, rfl⟩ := Finset.mem_image.1 hx
        rw [Finset.mem_singleton.1 hy]
        exact (Finset.mem_filter.1 hj).2)
    have t2 := t2 _ (Finset.mem_singleton_self _)
    have tj : ∀ j ∈ s, (t < across m j ↔ across m i ≤ across m j) ∧ across m j ≠ t := by
      intro j hj
      rcases lt_or_ge (across m j) (across m i) with h | h
      · have := t1 _ (Finset.mem_image.2 ⟨j, Finset.mem_filter.2 ⟨hj, h⟩, rfl⟩)
        exact ⟨⟨fun k => absurd (k.trans this) (lt_irrefl _), fun k => absurd h (not_lt.2 k)⟩, this.ne⟩
      · exact ⟨⟨fun _ => h, fun _ => t2.trans_le h⟩, (t2.trans_le h).ne'⟩
    have off : ¬ OnBorder ![t, m] poly := by
      rintro ⟨f, hf, h⟩
      obtain ⟨k1, k2⟩ := onSegment_across (hme f hf).1 (hme f hf).2 h
      exact (tj f ((mem_s f).2 ⟨hf, k1⟩)).2 k2
    have w := hσ _ off
    rw [(windingNumber_eq _ poly).2 off] at w
    have : ((crossings ![t, m] (edges poly) : Int) : F) =
        ((edges poly).map fun f => if t < across m f then updown m f else 0).sum := by
      unfold crossings
      rw [← eq_intCast (Int.castRingHom F), map_list_sum, List.map_map]
      congr 1
      apply List.map_congr_left
      intro f hf
      exact crossing_updown (hme f hf).1 (hme f hf).2 fun h => (tj f ((mem_s f).2 ⟨hf, h⟩)).2
    rw [this, sum_s _ (fun f h => by rw [h, ite_self]), ← Finset.sum_filter, Finset.mul_sum] at w
    rwa [Finset.filter_congr fun j hj => (tj j hj).1] at w
  obtain ⟨c, -, hc⟩ := Order.exists_between_finsets (∅ : Finset F) (s.image (across m)) (by simp)
  have pos := weighted_pos (across m) (fun f => σ * updown m f) s inj (fun i hi => mul_ne_zero hσ0 ((mem_s i).1 hi).2) H
    ⟨e, (mem_s e).2 ⟨he, heu⟩⟩ c fun i hi => hc _ (Finset.mem_image_of_mem _ hi)
  have z : ∑ f ∈ s, updown m f = 0 := by rw [← sum_s _ (fun f h => h), sum_updown hmv]
  have e1 : ∑ i ∈ s, σ * updown m i * (across m i - c) = σ * ∑ f ∈ s, updown m f * across m f := by
    have : ∑ i ∈ s, σ * updown m i * (across m i - c) =
        σ * ∑ f ∈ s, updown m f * across m f - σ * c * ∑ f ∈ s, updown m f := by
      rw [Finset.mul_sum, Finset.mul_sum, ← Finset.sum_sub_distrib]
      exact Finset.sum_congr rfl fun i _ => by ring
    rw [this, z]; ring
  rw [e1, ← sum_s _ (fun f h => by rw [h, zero_mul])] at pos
  have : σ * belowAll poly v - σ * belowAll poly u =
      2 * (v - u) * (σ * ((edges poly).map fun f => updown m f * across m f).sum) := by
    rw [← mul_sub, diff]; ring
  have := mul_pos (show 0 < 2 * (v - u) by linarith) pos
  linarith

/-- From a vertex that is not above a height to one above it there is an edge. -/
theorem exists_edge_up {u : F} {a b : Vec F 2} (ha : a ∈ poly) (hb : b ∈ poly) (hau : a 1 ≤ u) (hbu : u < b 1) :
    ∃ e ∈ edges poly, e.1 1 ≤ u ∧ u < e.2 1 := by
  by_contra hn
  have step : ∀ k, vert poly k 1 ≤ u → vert poly (k + 1) 1 ≤ u := by
    intro k hk
    by_contra h
    exact hn ⟨_, mem_edges_of_vert (List.length_pos_of_mem ha) k, hk, not_le.1 h⟩
  obtain ⟨i, hi, rfl⟩ := exists_vert ha
  obtain ⟨j, hj, rfl⟩ := exists_vert hb
  have all : ∀ k, vert poly (i + k) 1 ≤ u := by
    intro k
    induction k with
    | zero => exact hau
    | succ k ih => exact step _ ih
  have := all (j + poly.length - i)
  rw [show i + (j + poly.length - i) = j + poly.length by omega, vert_period] at this
  exact absurd hbu (not_lt.2 this)

/-- The sign of the area of a simple polygon is the sign of the numbers. -/
theorem Simple.area_sign (hs : Simple poly) {σ : F}
    (hσ : ∀ p : Vec F 2, ¬ OnBorder p poly → 0 ≤ σ * (windingNumber p poly : F)) (hσ0 : σ ≠ 0) {a b : Vec F 2}
    (ha : a ∈ poly) (hb : b ∈ poly) (hab : a 1 < b 1) : 0 < σ * polyArea poly := by
  -- the next height
  have next : ∀ u, (∃ w ∈ poly, u < w 1) → ∃ v ∈ poly, u < v 1 ∧ ∀ w ∈ poly, ¬ (u < w 1 ∧ w 1 < v 1) := by
    rintro u ⟨w, hw, hu⟩
    have hne : (poly.toFinset.filter fun w => u < w 1).Nonempty := ⟨w, by simp [hw, hu]⟩
    obtain ⟨v, hv, hmin⟩ := Finset.exists_min_image _ (fun w : Vec F 2 => w 1) hne
    simp only [Finset.mem_filter, List.mem_toFinset] at hv hmin
    exact ⟨v, hv.1, hv.2, fun w hw h => absurd (hmin w ⟨hw, h.1⟩) (not_le.2 h.2)⟩
  have up : ∀ w ∈ poly, ∀ {v : Vec F 2}, v ∈ poly → w 1 < v 1 → (∀ x ∈ poly, ¬ (w 1 < x 1 ∧ x 1 < v 1)) →
      σ * belowAll poly (w 1) < σ * belowAll poly (v 1) := by
    intro w hw v hv hwv hx
    obtain ⟨e, he, h1, h2⟩ := exists_edge_up hw hv le_rfl hwv
    have h3 : v 1 ≤ e.2 1 := by
      by_contra h
      exact hx _ (mem_of_mem_edges he).2 ⟨h2, not_le.1 h⟩
    refine hs.strip hσ hσ0 hwv hx he ?_
    unfold updown
    rw [if_pos ⟨by linarith, by linarith⟩]
    exact one_ne_zero
  have total : ∀ y, (∀ w ∈ poly, w 1 ≤ y) → belowAll poly y = polyArea poly := by
    intro y hy
    rw [polyArea_edges, belowAll]
    congr 1
    apply List.map_congr_left
    intro e he
    exact belowEdge_high e (hy _ (mem_of_mem_edges he).1) (hy _ (mem_of_mem_edges he).2)
  have climb : ∀ n, ∀ w ∈ poly, (poly.toFinset.filter fun x => w 1 < x 1).card ≤ n →
      σ * belowAll poly (w 1) ≤ σ * polyArea poly := by
    intro n
    induction n with
    | zero =>
      intro w hw hn
      rw [total]
      intro x hx
      by_contra h
      have : x ∈ poly.toFinset.filter fun x => w 1 < x 1 := by simp [hx, not_le.1 h]
      rw [Finset.card_eq_zero.1 (Nat.le_zero.1 hn)] at this
      simp at this
    | succ n ih =>
      intro w hw hn
      by_cases h : ∃ x ∈ poly, w 1 < x 1
      · obtain ⟨v, hv, h1, h2⟩ := next _ h
        refine (up w hw hv h1 h2).le.trans (ih v hv ?_)
        have : (poly.toFinset.filter fun x => v 1 < x 1) ⊂ poly.toFinset.filter fun x => w 1 < x 1 := by
          rw [Finset.ssubset_iff_of_subset]
          · exact ⟨v, by simp [hv, h1], by simp⟩
          · intro x hx
            simp only [Finset.mem_filter, List.mem_toFinset] at hx ⊢
            exact ⟨hx.1, h1.trans hx.2⟩
        have := Finset.card_lt_card this
        omega
      · rw [total]
        intro x hx
        by_contra k
        exact h ⟨x, hx, not_le.1 k⟩
  -- the lowest vertex
  obtain ⟨l, hl, hmin⟩ := Finset.exists_min_image poly.toFinset (fun w : Vec F 2 => w 1) ⟨a, by simp [ha]⟩
  simp only [List.mem_toFinset] at hl hmin
  obtain ⟨v, hv, h1, h2⟩ := next (l 1) ⟨b, hb, (hmin a ha).trans_lt hab⟩
  have zero : belowAll poly (l 1) = 0 := by
    apply List.sum_eq_zero
    intro x hx
    obtain ⟨e, he, rfl⟩ := List.mem_map.1 hx
    exact belowEdge_low e (hmin _ (mem_of_mem_edges he).1) (hmin _ (mem_of_mem_edges he).2)
  have := up l hl hv h1 h2
  rw [zero, mul_zero] at this
  exact this.trans_le (climb _ v hv le_rfl)

end Actl.Geo
