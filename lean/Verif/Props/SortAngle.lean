import Verif.Props.WindingAngle
import Verif.Spec.SortAngle

/-!
# C66: sorting by angle

Around `(0, 0)` the points come out by increasing angle in `[0, 2π)`.  Around any other origin the
comparison ignores the origin and the result is wrong.
-/

namespace Actl.Geo

open Real

theorem angleLess_iff {F : Type*} [Field F] [LinearOrder F] [IsStrictOrderedRing F] {E : Type*}
    (toPoint : E → Vec F 2) (l r : E) :
    angleLess toPoint l r = true ↔ 0 < area (toPoint l) (toPoint r) := by
  have e : area (toPoint r) (toPoint l) = -area (toPoint l) (toPoint r) := by
    simp only [area]; ring
  rw [angleLess, decide_eq_true_eq, orientation, e, Turn.ofSign]
  split_ifs with h1 h2
  · simp only [true_iff]; linarith
  · simp only [reduceCtorEq, false_iff, not_lt]; linarith
  · simp only [reduceCtorEq, false_iff, not_lt]; linarith

/-- The upper half of the plane: `y > 0`, or `y = 0` and `x > 0`. -/
theorem fullArg_upper {v : Vec ℝ 2} (h : yCompare 0 v = true) :
    0 ≤ fullArg v ∧ fullArg v < π := by
  simp only [yCompare, Pi.zero_apply, Bool.or_eq_true, decide_eq_true_eq, Bool.and_eq_true] at h
  have h1 : 0 ≤ v 1 := by rcases h with h | h <;> linarith
  rw [fullArg, if_pos h1]
  refine ⟨Complex.arg_nonneg_iff.2 h1, lt_of_le_of_ne (Complex.arg_le_pi _) fun hp => ?_⟩
  rw [Complex.arg_eq_pi_iff] at hp
  have hp1 : v 0 < 0 := hp.1
  have hp2 : v 1 = 0 := hp.2
  rcases h with h | h <;> linarith

theorem fullArg_lower {v : Vec ℝ 2} (h0 : v ≠ 0) (h : yCompare 0 v = false) :
    π ≤ fullArg v ∧ fullArg v < 2 * π := by
  simp only [yCompare, Pi.zero_apply, Bool.or_eq_false_iff, Bool.and_eq_false_iff,
    decide_eq_false_iff_not] at h
  have hpi := Real.pi_pos
  by_cases h1 : 0 ≤ v 1
  · have hv1 : v 1 = 0 := le_antisymm (not_lt.1 h.1) h1
    have hv0 : v 0 < 0 := by
      rcases h.2 with h2 | h2
      · exact absurd hv1.symm h2
      · exact lt_of_le_of_ne (not_lt.1 h2) fun e => h0 (vec2_ext e hv1)
    rw [fullArg, if_pos h1, Complex.arg_eq_pi_iff.2 ⟨hv0, hv1⟩]
    exact ⟨le_refl _, by linarith⟩
  · rw [fullArg, if_neg h1]
    have hneg : (toComplex v).arg < 0 := by
      rw [Complex.arg_neg_iff]; exact not_le.1 h1
    have := Complex.neg_pi_lt_arg (toComplex v)
    exact ⟨by linarith, by linarith⟩

theorem sin_fullArg (u w : Vec ℝ 2) :
    area u w = ‖toComplex u‖ * ‖toComplex w‖ * sin (fullArg w - fullArg u) := by
  rw [area_sin, fullArg, fullArg]
  congr 1
  split_ifs
  · rfl
  · rw [show (toComplex w).arg - ((toComplex u).arg + 2 * π) =
      (toComplex w).arg - (toComplex u).arg - 2 * π by ring, Real.sin_sub_two_pi]
  · rw [show (toComplex w).arg + 2 * π - (toComplex u).arg =
      (toComplex w).arg - (toComplex u).arg + 2 * π by ring, Real.sin_add_two_pi]
  · rw [show (toComplex w).arg + 2 * π - ((toComplex u).arg + 2 * π) =
      (toComplex w).arg - (toComplex u).arg by ring]

/-- Two directions in one half of the plane: the turn tells which angle is smaller. -/
theorem area_pos_iff_angle {u w : Vec ℝ 2} (hu : u ≠ 0) (hw : w ≠ 0)
    (h1 : fullArg w - fullArg u < π) (h2 : fullArg u - fullArg w < π) :
    0 < area u w ↔ fullArg u < fullArg w := by
  have nu : 0 < ‖toComplex u‖ := norm_pos_iff.2 (toComplex_ne hu)
  have nw : 0 < ‖toComplex w‖ := norm_pos_iff.2 (toComplex_ne hw)
  rw [sin_fullArg, mul_pos_iff_of_pos_left (mul_pos nu nw)]
  constructor
  · intro h
    by_contra hc
    have := Real.sin_nonpos_of_nonpos_of_neg_pi_le (x := fullArg w - fullArg u) (by linarith)
      (by linarith)
    linarith
  · intro h
    exact Real.sin_pos_of_pos_of_lt_pi (by linarith) h1

variable {E : Type*}

/-- In a half of the plane the comparison is the comparison of angles. -/
theorem sort_half (alg : StdAlgorithms E) (ha : alg.Correct) (toPoint : E → Vec ℝ 2) (l : List E)
    (lo : ℝ) (h0 : ∀ x ∈ l, toPoint x ≠ 0)
    (h : ∀ x ∈ l, lo ≤ fullArg (toPoint x) ∧ fullArg (toPoint x) < lo + π) :
    (alg.sort (angleLess toPoint) l).Perm l ∧
      (alg.sort (angleLess toPoint) l).Pairwise fun a b =>
        fullArg (toPoint a) ≤ fullArg (toPoint b) := by
  have key : ∀ a ∈ l, ∀ b ∈ l, (angleLess toPoint a b = true ↔
      fullArg (toPoint a) < fullArg (toPoint b)) := by
    intro a hal b hbl
    rw [angleLess_iff]
    have ka := h a hal
    have kb := h b hbl
    exact area_pos_iff_angle (h0 a hal) (h0 b hbl) (by linarith) (by linarith)
  have key' : ∀ a ∈ l, ∀ b ∈ l, (angleLess toPoint a b = false ↔
      fullArg (toPoint b) ≤ fullArg (toPoint a)) := by
    intro a hal b hbl
    rw [← Bool.not_eq_true, key a hal b hbl, not_lt]
  have hsw : StrictWeak (angleLess toPoint) l := by
    refine ⟨fun a hal => (key' a hal a hal).2 (le_refl _), ?_, ?_⟩
    · intro a hal b hbl c hcl h1 h2
      rw [key _ hal _ hbl] at h1
      rw [key _ hbl _ hcl] at h2
      exact (key _ hal _ hcl).2 (h1.trans h2)
    · intro a hal b hbl c hcl h1 h2
      rw [key' _ hal _ hbl] at h1
      rw [key' _ hbl _ hcl] at h2
      exact (key' _ hal _ hcl).2 (h2.trans h1)
  obtain ⟨hp, hs⟩ := ha.2 _ l hsw
  refine ⟨hp, hs.imp_of_mem ?_⟩
  intro a b hal hbl hab
  exact (key' b (hp.subset hbl) a (hp.subset hal)).1 hab

/-- C66. `sort_by_angle` rearranges the points: those at `(0, 0)` come first, the others by
increasing angle in `[0, 2π)`; the comparison it passes to `std::sort` is a strict weak order. -/
theorem sortByAngle_correct (alg : StdAlgorithms E) (ha : alg.Correct) (toPoint : E → Vec ℝ 2)
    (points : List E) :
    (sortByAngle alg toPoint points).Perm points ∧
      (sortByAngle alg toPoint points).Pairwise fun a b =>
        toPoint a = 0 ∨ (toPoint b ≠ 0 ∧ fullArg (toPoint a) ≤ fullArg (toPoint b)) := by
  unfold sortByAngle
  obtain ⟨p1, p2, p3⟩ := ha.1 (fun x => degenerate (toPoint x)) points
  generalize alg.partition (fun x => degenerate (toPoint x)) points = parts at *
  obtain ⟨q1, q2, q3⟩ := ha.1 (fun x => yCompare 0 (toPoint x)) parts.2
  simp only
  generalize alg.partition (fun x => yCompare 0 (toPoint x)) parts.2 = halves at *
  have hz : ∀ x ∈ parts.1, toPoint x = 0 := by
    intro x hx
    have := (degenerate_iff _).1 (p2 x hx)
    simpa using this
  have hn : ∀ x ∈ parts.2, toPoint x ≠ 0 := by
    intro x hx h0
    have := p3 x hx
    rw [(degenerate_iff _).2 (by rw [h0])] at this
    cases this
  have hn1 : ∀ x ∈ halves.1, toPoint x ≠ 0 := fun x hx =>
    hn x (q1.subset (List.mem_append_left _ hx))
  have hn2 : ∀ x ∈ halves.2, toPoint x ≠ 0 := fun x hx =>
    hn x (q1.subset (List.mem_append_right _ hx))
  have hu : ∀ x ∈ halves.1, 0 ≤ fullArg (toPoint x) ∧ fullArg (toPoint x) < 0 + π := fun x hx => by
    rw [zero_add]; exact fullArg_upper (q2 x hx)
  have hl : ∀ x ∈ halves.2, π ≤ fullArg (toPoint x) ∧ fullArg (toPoint x) < π + π := fun x hx => by
    rw [← two_mul]; exact fullArg_lower (hn2 x hx) (q3 x hx)
  obtain ⟨s1, s2⟩ := sort_half alg ha toPoint halves.1 0 hn1 hu
  obtain ⟨t1, t2⟩ := sort_half alg ha toPoint halves.2 π hn2 hl
  generalize alg.sort (angleLess toPoint) halves.1 = us at *
  generalize alg.sort (angleLess toPoint) halves.2 = ls at *
  refine ⟨(List.Perm.append_left _ ((s1.append t1).trans q1)).trans p1, ?_⟩
  rw [List.pairwise_append, List.pairwise_append]
  refine ⟨?_, ⟨?_, ?_, ?_⟩, ?_⟩
  · exact List.pairwise_of_forall_mem_list fun a ha b _ => Or.inl (hz a ha)
  · exact s2.imp_of_mem fun _ hb h => Or.inr ⟨hn1 _ (s1.subset hb), h⟩
  · exact t2.imp_of_mem fun _ hb h => Or.inr ⟨hn2 _ (t1.subset hb), h⟩
  · intro a ha b hb
    have h1 := hu a (s1.subset ha)
    have h2 := hl b (t1.subset hb)
    exact Or.inr ⟨hn2 _ (t1.subset hb), by linarith⟩
  · intro a ha b _
    exact Or.inl (hz a ha)

/-- C66. With `(0, 0)` given as the origin the result is the same (missing: other origins, where the
result is wrong). -/
theorem sortByAngleAround_partial (alg : StdAlgorithms E) (toPoint : E → Vec ℝ 2) (points : List E) :
    sortByAngleAround alg toPoint points 0 = sortByAngle alg toPoint points := by
  have e : (fun x => isEqual 0 (toPoint x)) = fun x => degenerate (toPoint x) := by
    funext x
    rw [Bool.eq_iff_iff, isEqual_iff, degenerate_iff]
    exact eq_comm
  simp only [sortByAngleAround, sortByAngle, e]

theorem exists_small {k : ℝ} (hk : 0 < k) (M : ℝ) : ∃ ε : ℝ, 0 < ε ∧ ε * M < k := by
  refine ⟨k / (|M| + 1), by positivity, ?_⟩
  have h1 : k / (|M| + 1) * M ≤ k / (|M| + 1) * |M| :=
    mul_le_mul_of_nonneg_left (le_abs_self M) (by positivity)
  have h2 : k / (|M| + 1) * |M| < k := by
    rw [div_mul_eq_mul_div, div_lt_iff₀ (by positivity)]; linarith
  linarith

/-- Around an origin other than `(0, 0)` there are two points in the upper half whose order seen from
`(0, 0)` is the opposite one. -/
theorem exists_swapped {o : Vec ℝ 2} (ho : o ≠ 0) : ∃ u w : Vec ℝ 2,
    yCompare 0 u = true ∧ yCompare 0 w = true ∧ 0 < area u w ∧ area (o + u) (o + w) < 0 := by
  have up : ∀ {x y s : ℝ}, 0 < s → (0 < y ∨ y = 0 ∧ 0 < x) →
      yCompare (0 : Vec ℝ 2) ![s * x, s * y] = true := by
    intro x y s hs h
    simp only [yCompare, Pi.zero_apply, Matrix.cons_val_zero, Matrix.cons_val_one, Bool.or_eq_true,
      decide_eq_true_eq, Bool.and_eq_true, Matrix.cons_val_fin_one]
    rcases h with h | ⟨rfl, h⟩
    · exact Or.inl (mul_pos hs h)
    · exact Or.inr ⟨by simp, decide_eq_true (mul_pos hs h)⟩
  have main : ∀ x y x' y' : ℝ, (0 < y ∨ y = 0 ∧ 0 < x) → (0 < y' ∨ y' = 0 ∧ 0 < x') →
      0 < x * y' - y * x' → (o 0 * y' - o 1 * x' < 0 ∨ 0 < o 0 * y - o 1 * x) →
      ∃ u w : Vec ℝ 2,
        yCompare 0 u = true ∧ yCompare 0 w = true ∧ 0 < area u w ∧ area (o + u) (o + w) < 0 := by
    intro x y x' y' h1 h2 hc h
    obtain ⟨s, t, hs, ht, hst⟩ : ∃ s t : ℝ, 0 < s ∧ 0 < t ∧
        s * t * (x * y' - y * x') + t * (o 0 * y' - o 1 * x') - s * (o 0 * y - o 1 * x) < 0 := by
      rcases h with h | h
      · obtain ⟨ε, e0, e1⟩ := exists_small (neg_pos.2 h)
          ((x * y' - y * x') - (o 0 * y - o 1 * x))
        exact ⟨ε, 1, e0, one_pos, by linarith⟩
      · obtain ⟨ε, e0, e1⟩ := exists_small h ((x * y' - y * x') + (o 0 * y' - o 1 * x'))
        exact ⟨1, ε, one_pos, e0, by linarith⟩
    refine ⟨![s * x, s * y], ![t * x', t * y'], up hs h1, up ht h2, ?_, ?_⟩
    · have : area ![s * x, s * y] ![t * x', t * y'] = s * t * (x * y' - y * x') := by
        simp [area]; ring
      rw [this]; exact mul_pos (mul_pos hs ht) hc
    · have : area (o + ![s * x, s * y]) (o + ![t * x', t * y']) =
          s * t * (x * y' - y * x') + t * (o 0 * y' - o 1 * x') - s * (o 0 * y - o 1 * x) := by
        simp [area]; ring
      rw [this]; exact hst
  rcases lt_trichotomy (o 0) 0 with h0 | h0 | h0
  · exact main 1 0 0 1 (by norm_num) (by norm_num) (by norm_num) (by left; linarith)
  · rcases lt_trichotomy (o 1) 0 with h1 | h1 | h1
    · exact main 1 0 0 1 (by norm_num) (by norm_num) (by norm_num) (by right; linarith)
    · exact absurd (vec2_ext h0 h1) ho
    · exact main (-1) 1 (-2) 1 (by norm_num) (by norm_num) (by norm_num) (by right; linarith)
  · exact main 0 1 (-1) 1 (by norm_num) (by norm_num) (by norm_num) (by right; linarith)

/-- C66. For every origin other than `(0, 0)` there are two points that come out in the wrong
order, whatever correct `std::partition` and `std::sort` are used. -/
theorem sortByAngleAround_fails (alg : StdAlgorithms (Vec ℝ 2)) (ha : alg.Correct) {o : Vec ℝ 2}
    (ho : o ≠ 0) : ∃ a b : Vec ℝ 2, a ≠ o ∧ b ≠ o ∧ fullArg (a - o) < fullArg (b - o) ∧
      sortByAngleAround alg id [a, b] o = [b, a] := by
  obtain ⟨u, w, hu, hw, h1, h2⟩ := exists_swapped ho
  have ne : ∀ v : Vec ℝ 2, yCompare 0 v = true → v ≠ 0 := by
    rintro v hv rfl
    simp [yCompare] at hv
  have ha0 : o + u ≠ o := fun h => ne u hu (by simpa using h)
  have hb0 : o + w ≠ o := fun h => ne w hw (by simpa using h)
  have bu := fullArg_upper hu
  have bw := fullArg_upper hw
  refine ⟨o + u, o + w, ha0, hb0, ?_, ?_⟩
  · rw [add_sub_cancel_left, add_sub_cancel_left]
    exact (area_pos_iff_angle (ne u hu) (ne w hw) (by linarith) (by linarith)).1 h1
  have hcmp : ∀ v : Vec ℝ 2, yCompare 0 v = true → yCompare o (o + v) = true := by
    intro v hv
    simp only [yCompare, Pi.zero_apply, Bool.or_eq_true, decide_eq_true_eq, Bool.and_eq_true,
      Pi.add_apply] at hv ⊢
    rcases hv with h | h
    · left; linarith
    · right; exact ⟨by linarith [h.1], by linarith⟩
  have c1 : angleLess id (o + w) (o + u) = true := by
    rw [angleLess_iff]
    have : area (id (o + w)) (id (o + u)) = -area (o + u) (o + w) := by simp only [area, id]; ring
    rw [this]; linarith
  have c2 : angleLess id (o + u) (o + w) = false := by
    rw [← Bool.not_eq_true, angleLess_iff]
    exact not_lt.2 h2.le
  have c3 : ∀ v : Vec ℝ 2, angleLess id v v = false := by
    intro v
    rw [← Bool.not_eq_true, angleLess_iff]
    have : area (id v) (id v) = 0 := by simp only [area, id]; ring
    rw [this]; exact lt_irrefl _
  have hu' := hcmp u hu
  have hw' := hcmp w hw
  clear hcmp
  generalize o + u = a at *
  generalize o + w = b at *
  unfold sortByAngleAround
  obtain ⟨p1, p2, p3⟩ := ha.1 (fun x => isEqual o (id x)) [a, b]
  generalize alg.partition (fun x => isEqual o (id x)) [a, b] = parts at *
  obtain ⟨q1, q2, q3⟩ := ha.1 (fun x => yCompare o (id x)) parts.2
  simp only
  generalize alg.partition (fun x => yCompare o (id x)) parts.2 = halves at *
  have e1 : parts.1 = [] := by
    rw [List.eq_nil_iff_forall_not_mem]
    intro x hx
    have hx1 := (isEqual_iff _ _).1 (p2 x hx)
    have hx2 := p1.subset (List.mem_append_left _ hx)
    simp only [List.mem_cons, List.not_mem_nil, or_false] at hx2
    rcases hx2 with rfl | rfl
    · exact ha0 hx1.symm
    · exact hb0 hx1.symm
  rw [e1, List.nil_append] at p1
  have e2 : halves.2 = [] := by
    rw [List.eq_nil_iff_forall_not_mem]
    intro x hx
    have hx1 := q3 x hx
    have hx2 := p1.subset (q1.subset (List.mem_append_right _ hx))
    simp only [List.mem_cons, List.not_mem_nil, or_false] at hx2
    rcases hx2 with rfl | rfl
    · rw [id, hu'] at hx1; cases hx1
    · rw [id, hw'] at hx1; cases hx1
  rw [e2, List.append_nil] at q1
  have hp := q1.trans p1
  have hmem : ∀ x ∈ halves.1, x = a ∨ x = b := fun x hx => by simpa using hp.subset hx
  have hsw : StrictWeak (angleLess (id : Vec ℝ 2 → Vec ℝ 2)) halves.1 := by
    refine ⟨fun x _ => c3 x, ?_, ?_⟩
    · intro x hx y hy z hz
      rcases hmem x hx with rfl | rfl <;> rcases hmem y hy with rfl | rfl <;>
        rcases hmem z hz with rfl | rfl <;> simp [c1, c2, c3]
    · intro x hx y hy z hz
      rcases hmem x hx with rfl | rfl <;> rcases hmem y hy with rfl | rfl <;>
        rcases hmem z hz with rfl | rfl <;> simp [c1, c2, c3]
  obtain ⟨s1, s2⟩ := ha.2 _ halves.1 hsw
  have s3 := (ha.2 (angleLess (id : Vec ℝ 2 → Vec ℝ 2)) [] ⟨by simp, by simp, by simp⟩).1
  rw [e1, e2, List.perm_nil.1 s3, List.append_nil, List.nil_append]
  have sp := s1.trans hp
  generalize alg.sort (angleLess id) halves.1 = res at *
  have hl := sp.length_eq
  match res, hl with
  | [x, y], _ =>
    have hx := sp.subset List.mem_cons_self
    have hy := sp.subset (List.mem_cons_of_mem _ List.mem_cons_self)
    have hb' := sp.symm.subset (List.mem_cons_of_mem _ List.mem_cons_self)
    have ha' := sp.symm.subset List.mem_cons_self
    simp only [List.mem_cons, List.not_mem_nil, or_false] at hx hy hb' ha'
    have hab : a ≠ b := by rintro rfl; rw [c1] at c2; cases c2
    rcases hx with rfl | rfl
    · rcases hb' with rfl | rfl
      · exact absurd rfl hab
      · simp only [List.pairwise_cons, List.mem_singleton, forall_eq] at s2
        rw [c1] at s2
        exact absurd s2.1 (by simp)
    · rcases ha' with rfl | rfl
      · exact absurd rfl hab
      · rfl

/-! A set of algorithms that meets the specification, so the theorems are not about nothing. -/

/-- Insertion before the first element that is not less. -/
def insertBy (comp : E → E → Bool) (x : E) : List E → List E
  | [] => [x]
  | y :: ys => if comp y x then y :: insertBy comp x ys else x :: y :: ys

/-- Partition by filtering, sorting by insertion. -/
def listAlgorithms (E : Type*) : StdAlgorithms E where
  partition p l := (l.filter p, l.filter fun x => !p x)
  sort comp l := l.foldr (insertBy comp) []

theorem insertBy_perm (comp : E → E → Bool) (x : E) : ∀ l : List E,
    (insertBy comp x l).Perm (x :: l)
  | [] => List.Perm.refl _
  | y :: ys => by
    rw [insertBy]
    split_ifs
    · exact ((insertBy_perm comp x ys).cons y).trans (List.Perm.swap x y ys)
    · exact List.Perm.refl _

theorem insertBy_sorted (comp : E → E → Bool) (x : E) : ∀ l : List E, StrictWeak comp (x :: l) →
    (l.Pairwise fun a b => comp b a = false) →
    (insertBy comp x l).Pairwise fun a b => comp b a = false
  | [], _, _ => List.pairwise_singleton _ _
  | y :: ys, hw, h => by
    rw [List.pairwise_cons] at h
    have my : y ∈ x :: y :: ys := List.mem_cons_of_mem _ List.mem_cons_self
    have mx : x ∈ x :: y :: ys := List.mem_cons_self
    rw [insertBy]
    split_ifs with hc
    · rw [List.pairwise_cons]
      refine ⟨fun b hb => ?_, insertBy_sorted comp x ys ?_ h.2⟩
      · rcases List.mem_cons.1 ((insertBy_perm comp x ys).subset hb) with rfl | hb
        · by_contra hn
          have := hw.2.1 y my b mx y my hc (by simpa using hn)
          rw [hw.1 y my] at this
          cases this
        · exact h.1 b hb
      · have sub : ∀ z ∈ x :: ys, z ∈ x :: y :: ys := by
          intro z hz
          rcases List.mem_cons.1 hz with rfl | hz
          · exact mx
          · exact List.mem_cons_of_mem _ (List.mem_cons_of_mem _ hz)
        exact ⟨fun a m => hw.1 a (sub a m),
          fun a ma b mb c mc => hw.2.1 a (sub a ma) b (sub b mb) c (sub c mc),
          fun a ma b mb c mc => hw.2.2 a (sub a ma) b (sub b mb) c (sub c mc)⟩
    · rw [List.pairwise_cons, List.pairwise_cons]
      refine ⟨fun b hb => ?_, h⟩
      have hyx : comp y x = false := by simpa using hc
      rcases List.mem_cons.1 hb with rfl | hb
      · exact hyx
      · exact hw.2.2 b (List.mem_cons_of_mem _ (List.mem_cons_of_mem _ hb)) y my x mx (h.1 b hb) hyx

theorem listAlgorithms_correct (E : Type*) : (listAlgorithms E).Correct := by
  refine ⟨fun pred l => ⟨List.filter_append_perm pred l, ?_, ?_⟩, ?_⟩
  · intro x hx
    exact (List.mem_filter.1 hx).2
  · intro x hx
    simpa using (List.mem_filter.1 hx).2
  · intro comp l
    induction l with
    | nil => intro _; exact ⟨List.Perm.refl _, List.Pairwise.nil⟩
    | cons x l ih =>
      intro hw
      have hw' : StrictWeak comp l :=
        ⟨fun a m => hw.1 a (List.mem_cons_of_mem _ m),
          fun a ma b mb c mc => hw.2.1 a (List.mem_cons_of_mem _ ma) b (List.mem_cons_of_mem _ mb) c
            (List.mem_cons_of_mem _ mc),
          fun a ma b mb c mc => hw.2.2 a (List.mem_cons_of_mem _ ma) b (List.mem_cons_of_mem _ mb) c
            (List.mem_cons_of_mem _ mc)⟩
      obtain ⟨h1, h2⟩ := ih hw'
      have hp : (insertBy comp x (l.foldr (insertBy comp) [])).Perm (x :: l) :=
        (insertBy_perm comp x _).trans (h1.cons x)
      refine ⟨hp, insertBy_sorted comp x _ ?_ h2⟩
      have sub : ∀ z ∈ x :: l.foldr (insertBy comp) [], z ∈ x :: l := fun z hz =>
        (h1.cons x).subset hz
      exact ⟨fun a m => hw.1 a (sub a m),
        fun a ma b mb c mc => hw.2.1 a (sub a ma) b (sub b mb) c (sub c mc),
        fun a ma b mb c mc => hw.2.2 a (sub a ma) b (sub b mb) c (sub c mc)⟩

example : sortByAngle (listAlgorithms (Vec ℚ 2)) id
    [![0, 2], ![-1, -1], ![2, 0], ![0, 0], ![-2, 0], ![1, -1], ![1, 1]] =
      [![0, 0], ![2, 0], ![1, 1], ![0, 2], ![-2, 0], ![-1, -1], ![1, -1]] := by
  decide +kernel

example : ∃ a b : Vec ℝ 2, fullArg (a - ![1, 0]) < fullArg (b - ![1, 0]) ∧
    sortByAngleAround (listAlgorithms _) id [a, b] ![1, 0] = [b, a] := by
  obtain ⟨a, b, _, _, h⟩ := sortByAngleAround_fails _ (listAlgorithms_correct _)
    (o := ![1, 0]) (fun h => by simpa using congrFun h 0)
  exact ⟨a, b, h⟩

end Actl.Geo
