import Verif.Spec.LinePolygon
import Verif.Props.LinePolygon
import Verif.Props.Project
import Verif.Props.ToMonotone
import Mathlib.Data.ZMod.Basic

/-!
# Intersection of a line with a simple polygon

C73.
-/

namespace Actl.Geo

variable {F : Type*} [Field F] [LinearOrder F] [IsStrictOrderedRing F] {poly : List (Vec F 2)}

/-! ### Points of the line -/

theorem strictLeft_height (l : Line F 2) (p : Vec F 2) :
    StrictLeft l.start (l.start + l.vector) p ↔ 0 < height l p := by
  simp only [StrictLeft, height, area, Pi.sub_apply, Pi.add_apply]
  constructor <;> intro h <;> linarith

theorem strictRight_height (l : Line F 2) (p : Vec F 2) :
    StrictRight l.start (l.start + l.vector) p ↔ height l p < 0 := by
  simp only [StrictRight, height, area, Pi.sub_apply, Pi.add_apply]
  constructor <;> intro h <;> linarith

omit [LinearOrder F] [IsStrictOrderedRing F] in
theorem height_at (l : Line F 2) (t : F) : height l (l.at t) = 0 := by
  simp only [height, Line.at, area, Pi.sub_apply, Pi.add_apply, Pi.smul_apply, smul_eq_mul]; ring

omit [LinearOrder F] [IsStrictOrderedRing F] in
theorem at_inj {l : Line F 2} (hv : l.vector ≠ 0) {s t : F} (h : l.at s = l.at t) : s = t := by
  by_contra hne
  apply hv
  funext i
  have := congrFun h i
  simp only [Line.at, Pi.add_apply, Pi.smul_apply, smul_eq_mul, add_right_inj] at this
  have h2 : (s - t) * l.vector i = 0 := by rw [sub_mul, this, sub_self]
  exact (mul_eq_zero.1 h2).resolve_left (sub_ne_zero.2 hne)

theorem projectScalar_at {l : Line F 2} (hv : l.vector ≠ 0) (t : F) : projectScalar (l.at t) l = t := by
  have h := (projectLine_idempotent (l.at t) l hv).2 t
  exact at_inj hv h

theorem on_line {l : Line F 2} (hv : l.vector ≠ 0) {p : Vec F 2} (h : height l p = 0) :
    p = l.at (projectScalar p l) := by
  have hD := inner_self_pos hv
  have hm := projectScalar_mul p l hv
  rw [inner2, inner2] at hm
  rw [inner2] at hD
  simp only [height, area, Pi.sub_apply] at h hm
  funext i
  simp only [Line.at, Pi.add_apply, Pi.smul_apply, smul_eq_mul]
  apply mul_right_cancel₀ hD.ne'
  fin_cases i
  · simp only [Fin.zero_eta, Fin.isValue]
    linear_combination (- l.vector 1) * h - l.vector 0 * hm
  · simp only [Fin.mk_one, Fin.isValue]
    linear_combination l.vector 0 * h - l.vector 1 * hm

/-! ### One step -/

/-- The parity of the number of parameters less than `t`. -/
def parity (t : F) (ts : List F) : ZMod 2 := (ts.countP fun s => decide (s < t) : ℕ)

open Classical in
/-- 1 or 0. -/
noncomputable def ind (p : Prop) : ZMod 2 := if p then 1 else 0

theorem ind_pos {p : Prop} (h : p) : ind p = 1 := if_pos h
theorem ind_neg {p : Prop} (h : ¬ p) : ind p = 0 := if_neg h
theorem ind_congr {p q : Prop} (h : p ↔ q) : ind p = ind q := by rw [propext h]

theorem parity_nil (t : F) : parity t [] = 0 := by simp [parity]

theorem parity_single (t s : F) : parity t [s] = ind (s < t) := by
  rw [parity]
  by_cases h : s < t <;> simp [h, ind]

theorem parity_append (t : F) (a b : List F) : parity t (a ++ b) = parity t a + parity t b := by
  simp [parity]

/-- What is written at a vertex. -/
def stepAt (l : Line F 2) (poly : List (Vec F 2)) (i : Nat) : List F :=
  simpleStep l poly i (vertexOrient l poly (prevAt poly.length i)) (vertexOrient l poly i)
    (vertexOrient l poly (nextAt poly.length i))

theorem prevAt_nextAt {n i : Nat} (hi : i < n) : prevAt n (nextAt n i) = i := by
  unfold prevAt nextAt
  by_cases h : i + 1 = n
  · rw [if_pos h, if_pos rfl]; omega
  · rw [if_neg h, if_neg (by omega)]; rfl

theorem simpleLoop_eq (l : Line F 2) (poly : List (Vec F 2)) :
    ∀ (k i : Nat), i + k = poly.length →
      simpleLoop l poly k i (vertexOrient l poly (prevAt poly.length i)) (vertexOrient l poly i) =
        (List.range' i k).flatMap (stepAt l poly) := by
  intro k
  induction k with
  | zero => intro i _; rfl
  | succ k ih =>
    intro i hi
    rw [simpleLoop, List.range'_succ, List.flatMap_cons, stepAt]
    congr 1
    rcases Nat.eq_zero_or_pos k with rfl | hk
    · rfl
    · have e : nextAt poly.length i = i + 1 := by rw [nextAt, if_neg (by omega)]
      have := ih (i + 1) (by omega)
      rw [← e, prevAt_nextAt (by omega)] at this
      rw [this, e]

theorem intersectSimple_eq {l : Line F 2} (hv : l.vector ≠ 0) (h2 : 2 ≤ poly.length) :
    intersectSimple l poly = some ((List.range poly.length).flatMap (stepAt l poly)) := by
  rw [intersectSimple, if_neg (by rw [degenerate_iff]; exact hv), if_neg (by omega),
    simpleLoop_eq l poly poly.length 0 (by omega), List.range_eq_range']

theorem vertexOrient_eq (l : Line F 2) {i : Nat} (hi : i < poly.length) :
    vertexOrient l poly i = Turn.ofSign (height l (vert poly i)) := by
  rw [vertexOrient, orientation, polyAt_eq hi, height]

theorem ofSign_left (x : F) : Turn.ofSign x = .left ↔ x < 0 := by
  rw [Turn.ofSign]; split_ifs with h1 h2 <;> simp [h1]

/-- The vertex before. -/
def before (poly : List (Vec F 2)) (i : Nat) : Vec F 2 := vert poly (i + poly.length - 1)

theorem polyAt_prevAt {i : Nat} (hi : i < poly.length) : polyAt poly (prevAt poly.length i) = before poly i := by
  have hlt : prevAt poly.length i < poly.length := by rw [prevAt]; split_ifs <;> omega
  rw [polyAt_eq hlt, before, prevAt]
  split_ifs with h
  · rw [h, Nat.zero_add]
  · rw [show i + poly.length - 1 = i - 1 + poly.length by omega, vert_period]

theorem polyAt_nextAt {i : Nat} (hi : i < poly.length) :
    polyAt poly (nextAt poly.length i) = vert poly (i + 1) := by
  rw [nextAt_eq hi, polyAt_eq (Nat.mod_lt _ (by omega)), vert_mod]

theorem before_succ (h : 0 < poly.length) (i : Nat) : before poly (i + 1) = vert poly i := by
  rw [before, show i + 1 + poly.length - 1 = i + poly.length by omega, vert_period]

open Classical in
/-- The step in terms of heights. -/
theorem stepAt_eq (l : Line F 2) (hv : l.vector ≠ 0) {i : Nat} (hi : i < poly.length) :
    stepAt l poly i =
      if height l (vert poly i) = 0 then
        if (if height l (before poly i) = 0 then
            Turn.ofSign (height l (vert poly (i + 1))) =
              Turn.ofSign (inner (vert poly i - before poly i) l.vector)
          else if height l (vert poly (i + 1)) = 0 then
            Turn.ofSign (height l (before poly i)) =
              Turn.ofSign (inner (vert poly (i + 1) - vert poly i) l.vector)
          else Turn.ofSign (height l (vert poly (i + 1))) ≠ Turn.ofSign (height l (before poly i))) ∧
          Allowed l.kind (projectScalar (vert poly i) l)
        then [projectScalar (vert poly i) l] else []
      else if height l (vert poly i) * height l (vert poly (i + 1)) < 0 then
        intersectScalar l (Line.through (vert poly i) (vert poly (i + 1)) .free)
      else [] := by
  have hp : vertexOrient l poly (prevAt poly.length i) = Turn.ofSign (height l (before poly i)) := by
    rw [vertexOrient, orientation, polyAt_prevAt hi, height]
  have hn : vertexOrient l poly (nextAt poly.length i) = Turn.ofSign (height l (vert poly (i + 1))) := by
    rw [vertexOrient, orientation, polyAt_nextAt hi, height]
  rw [stepAt, simpleStep, hp, hn, vertexOrient_eq l hi, polyAt_prevAt hi, polyAt_nextAt hi, polyAt_eq hi]
  simp only [ofSign_collinear, dot_eq]
  by_cases h0 : height l (vert poly i) = 0
  · rw [if_pos h0, if_pos h0]
    have hb : (betweenEndpoints (vert poly i) l = true) ↔ Allowed l.kind (projectScalar (vert poly i) l) := by
      conv_lhs => rw [on_line hv h0]
      exact betweenEndpoints_iff l hv _
    congr 1
    rw [Bool.and_eq_true, hb]
    congr 1
    split_ifs <;> simp
  · rw [if_neg h0, if_neg h0]
    congr 1
    rw [eq_iff_iff]
    rcases lt_or_gt_of_ne h0 with h | h
    · rw [(ofSign_left _).2 h, Turn.neg, ofSign_right]
      exact ⟨fun h' => mul_neg_of_neg_of_pos h h', fun h' => by
        by_contra h''
        exact absurd (mul_nonneg_of_nonpos_of_nonpos h.le (not_lt.1 h'')) (not_le.2 h')⟩
    · rw [(ofSign_right _).2 h, Turn.neg, ofSign_left]
      exact ⟨fun h' => mul_neg_of_pos_of_neg h h', fun h' => by
        by_contra h''
        exact absurd (mul_nonneg h.le (not_lt.1 h'')) (not_le.2 h')⟩

/-! ### Parities -/

theorem ind_iff (p q : Prop) : ind (p ↔ q) = 1 + ind p + ind q := by
  by_cases hp : p <;> by_cases hq : q <;> simp [ind, hp, hq] <;> decide

theorem ind_not (p : Prop) : ind (¬ p) = 1 + ind p := by
  by_cases hp : p <;> simp [ind, hp]; decide

theorem ind_and (p q : Prop) : ind (p ∧ q) = ind p * ind q := by
  by_cases hp : p <;> by_cases hq : q <;> simp [ind, hp, hq]

theorem two_ind (x : ZMod 2) : x + x = 0 := by revert x; decide

theorem one_one (x y : ZMod 2) : 1 + x + (1 + y) = x + y := by revert x y; decide

theorem ofSign_eq_iff {x y : F} (hx : x ≠ 0) (hy : y ≠ 0) :
    Turn.ofSign x = Turn.ofSign y ↔ (0 < x ↔ 0 < y) := by
  rcases lt_or_gt_of_ne hx with h | h <;> rcases lt_or_gt_of_ne hy with h' | h'
  · rw [(ofSign_left _).2 h, (ofSign_left _).2 h']; simp [not_lt.2 h.le, not_lt.2 h'.le]
  · rw [(ofSign_left _).2 h, (ofSign_right _).2 h']; simp [not_lt.2 h.le, h']
  · rw [(ofSign_right _).2 h, (ofSign_left _).2 h']; simp [h, not_lt.2 h'.le]
  · rw [(ofSign_right _).2 h, (ofSign_right _).2 h']; simp [h, h']

/-- The difference of two points of the line along it. -/
theorem inner_along {l : Line F 2} (hv : l.vector ≠ 0) {P Q : Vec F 2} (hP : height l P = 0)
    (hQ : height l Q = 0) : inner (Q - P) l.vector =
      (projectScalar Q l - projectScalar P l) * inner l.vector l.vector := by
  conv_lhs => rw [on_line hv hP, on_line hv hQ]
  rw [Line.at, Line.at, add_sub_add_left_eq_sub, ← sub_smul, inner_smul_left]

theorem along_ne {l : Line F 2} (hv : l.vector ≠ 0) {P Q : Vec F 2} (hP : height l P = 0)
    (hQ : height l Q = 0) (hne : P ≠ Q) : projectScalar P l ≠ projectScalar Q l := by
  intro h
  apply hne
  rw [on_line hv hP, on_line hv hQ, h]

theorem inner_along_pos {l : Line F 2} (hv : l.vector ≠ 0) {P Q : Vec F 2} (hP : height l P = 0)
    (hQ : height l Q = 0) : 0 < inner (Q - P) l.vector ↔ projectScalar P l < projectScalar Q l := by
  rw [inner_along hv hP hQ, mul_pos_iff_of_pos_right (inner_self_pos hv), sub_pos]

theorem inner_along_ne {l : Line F 2} (hv : l.vector ≠ 0) {P Q : Vec F 2} (hP : height l P = 0)
    (hQ : height l Q = 0) (hne : P ≠ Q) : inner (Q - P) l.vector ≠ 0 := by
  rw [inner_along hv hP hQ]
  exact mul_ne_zero (sub_ne_zero.2 (along_ne hv hP hQ hne).symm) (inner_self_pos hv).ne'

open Classical in
/-- What an edge counts at an end on the line, if the other end is `P` and the edge goes along `d`. -/
noncomputable def weight (l : Line F 2) (P d : Vec F 2) : ZMod 2 :=
  if height l P = 0 then 1 + ind (0 < inner d l.vector) else ind (0 < height l P)

/-- The edge crosses the line before `t`, its ends not on the line. -/
def CrossesInside (l : Line F 2) (t : F) (P Q : Vec F 2) : Prop :=
  height l P * height l Q < 0 ∧ ∃ s < t, OnSegment (l.at s) P Q

/-- The parity written at a vertex. -/
theorem stepAt_parity {l : Line F 2} (hk : l.kind = .free) (hv : l.vector ≠ 0) {i : Nat}
    (hi : i < poly.length) (t : F) (h1 : before poly i ≠ vert poly i) (h2 : vert poly i ≠ vert poly (i + 1))
    (hfold : height l (before poly i) = 0 → height l (vert poly i) = 0 →
      height l (vert poly (i + 1)) = 0 →
        0 < inner (vert poly i - before poly i) (vert poly (i + 1) - vert poly i)) :
    parity t (stepAt l poly i) =
      ind (height l (vert poly i) = 0 ∧ projectScalar (vert poly i) l < t) *
        (weight l (before poly i) (vert poly i - before poly i) +
          weight l (vert poly (i + 1)) (vert poly (i + 1) - vert poly i)) +
      ind (CrossesInside l t (vert poly i) (vert poly (i + 1))) := by
  classical
  have hal : ∀ x : F, Allowed l.kind x := by intro x; rw [hk]; trivial
  rw [stepAt_eq l hv hi]
  set P := before poly i
  set Q := vert poly i
  set R := vert poly (i + 1)
  by_cases hQ : height l Q = 0
  · rw [if_pos hQ]
    have hci : ¬ CrossesInside l t Q R := by
      intro h; have := h.1; rw [hQ, zero_mul] at this; exact lt_irrefl _ this
    rw [ind_neg hci, add_zero]
    simp only [hal, and_true, hQ, true_and]
    have key : ∀ (C : Prop) [Decidable C], ind C = weight l P (Q - P) + weight l R (R - Q) →
        parity t (if C then [projectScalar Q l] else []) =
          ind (projectScalar Q l < t) * (weight l P (Q - P) + weight l R (R - Q)) := by
      intro C _ hC
      rw [← hC]
      by_cases h : C
      · rw [if_pos h, parity_single, ind_pos h, mul_one]
      · rw [if_neg h, parity_nil, ind_neg h, mul_zero]
    apply key
    unfold weight
    by_cases hP : height l P = 0
    · rw [if_pos hP, if_pos hP]
      have hn := inner_along_ne hv hP hQ h1
      by_cases hR : height l R = 0
      · rw [if_pos hR, one_one, ind_neg (by
          rw [(ofSign_collinear _).2 hR]; exact fun h => hn ((ofSign_collinear _).1 h.symm))]
        have hs := hfold hP hQ hR
        have : (0 < inner (Q - P) l.vector) ↔ (0 < inner (R - Q) l.vector) := by
          rw [inner_along_pos hv hP hQ, inner_along_pos hv hQ hR]
          have e : inner (Q - P) (R - Q) = (projectScalar Q l - projectScalar P l) *
              (projectScalar R l - projectScalar Q l) * inner l.vector l.vector := by
            conv_lhs => rw [on_line hv hP, on_line hv hQ, on_line hv hR]
            rw [Line.at, Line.at, Line.at, add_sub_add_left_eq_sub, add_sub_add_left_eq_sub, ← sub_smul,
              ← sub_smul, inner_smul_left, inner_smul_right]
            ring
          rw [e, mul_pos_iff_of_pos_right (inner_self_pos hv)] at hs
          rcases mul_pos_iff.1 hs with ⟨h3, h4⟩ | ⟨h3, h4⟩
          · exact ⟨fun _ => by linarith, fun _ => by linarith⟩
          · exact ⟨fun _ => by linarith, fun _ => by linarith⟩
        rw [ind_congr this, two_ind]
      · rw [if_neg hR, ind_congr (ofSign_eq_iff hR hn), ind_iff]
        ring
    · rw [if_neg hP, if_neg hP]
      by_cases hR : height l R = 0
      · rw [if_pos hR, if_pos hR, ind_congr (ofSign_eq_iff hP (inner_along_ne hv hQ hR h2)), ind_iff]
        ring
      · rw [if_neg hR, if_neg hR, Ne, ind_not, ind_congr (ofSign_eq_iff hR hP), ind_iff,
          show (1 : ZMod 2) + (1 + ind (0 < height l R) + ind (0 < height l P)) =
            (1 + 1) + (ind (0 < height l P) + ind (0 < height l R)) by ring,
          show (1 : ZMod 2) + 1 = 0 by decide, zero_add]
  · rw [if_neg hQ, ind_neg (fun h => hQ h.1), zero_mul, zero_add]
    by_cases hx : height l Q * height l R < 0
    · rw [if_pos hx]
      have hne : height l Q ≠ height l R := by
        intro h; rw [← h] at hx; exact absurd (mul_self_nonneg _) (not_le.2 hx)
      obtain ⟨s, e1, e2⟩ := intersectScalar_edge l Q R hne
      rw [e1, if_pos (hal s), parity_single]
      apply ind_congr
      refine ⟨fun h => ⟨hx, s, h, crossing_onSegment hne hx.le e2⟩, ?_⟩
      rintro ⟨-, s', hs', u, -, -, hu⟩
      have := e2 s'
      rw [hu] at this
      have e3 : area (R - Q) (Q + u • (R - Q) - Q) = 0 := by
        simp only [area, Pi.sub_apply, Pi.add_apply, Pi.smul_apply, smul_eq_mul]; ring
      rw [e3] at this
      have := (mul_eq_zero.1 this.symm).resolve_right (sub_ne_zero.2 hne)
      rw [← sub_eq_zero.1 this]; exact hs'
    · rw [if_neg hx, parity_nil, ind_neg (fun h => hx h.1)]

/-! ### One edge -/

omit [LinearOrder F] [IsStrictOrderedRing F] in
theorem height_segment (l : Line F 2) (P Q : Vec F 2) (u : F) :
    height l (P + u • (Q - P)) = (1 - u) * height l P + u * height l Q := by
  simp only [height, area, Pi.sub_apply, Pi.add_apply, Pi.smul_apply, smul_eq_mul]; ring

theorem meets_first {l : Line F 2} (hv : l.vector ≠ 0) {P Q : Vec F 2} {t : F} (hP : height l P = 0)
    (hQ : height l Q ≠ 0) : (∃ s < t, OnSegment (l.at s) P Q) ↔ projectScalar P l < t := by
  constructor
  · rintro ⟨s, hs, u, -, -, hu⟩
    have h := height_at l s
    rw [hu, height_segment, hP, mul_zero, zero_add] at h
    rw [(mul_eq_zero.1 h).resolve_right hQ, zero_smul, add_zero] at hu
    rw [← hu, projectScalar_at hv]; exact hs
  · intro h
    exact ⟨_, h, 0, le_rfl, zero_le_one, by rw [zero_smul, add_zero]; exact (on_line hv hP).symm⟩

theorem meets_last {l : Line F 2} (hv : l.vector ≠ 0) {P Q : Vec F 2} {t : F} (hP : height l P ≠ 0)
    (hQ : height l Q = 0) : (∃ s < t, OnSegment (l.at s) P Q) ↔ projectScalar Q l < t := by
  constructor
  · rintro ⟨s, hs, u, -, -, hu⟩
    have h := height_at l s
    rw [hu, height_segment, hQ, mul_zero, add_zero] at h
    have h1 := (mul_eq_zero.1 h).resolve_right hP
    rw [← sub_eq_zero.1 h1, one_smul, add_sub_cancel] at hu
    rw [← hu, projectScalar_at hv]; exact hs
  · intro h
    exact ⟨_, h, 1, zero_le_one, le_rfl, by rw [one_smul, add_sub_cancel]; exact (on_line hv hQ).symm⟩

theorem crossesLeft_iff {l : Line F 2} {t : F} {P Q : Vec F 2} : CrossesLeft l t (P, Q) ↔
    (0 < height l P ↔ ¬ 0 < height l Q) ∧ ∃ s < t, OnSegment (l.at s) P Q := by
  simp only [CrossesLeft, strictLeft_height]

theorem crossesRight_iff {l : Line F 2} {t : F} {P Q : Vec F 2} : CrossesRight l t (P, Q) ↔
    (height l P < 0 ↔ ¬ height l Q < 0) ∧ ∃ s < t, OnSegment (l.at s) P Q := by
  simp only [CrossesRight, strictRight_height]

theorem forward_iff {l : Line F 2} (hv : l.vector ≠ 0) {t : F} {P Q : Vec F 2} : Forward l t (P, Q) ↔
    height l P = 0 ∧ height l Q = 0 ∧ projectScalar P l < t ∧ t ≤ projectScalar Q l := by
  constructor
  · rintro ⟨s, s', h1, h2, h3, h4⟩
    simp only at h1 h2
    rw [h1, h2, projectScalar_at hv, projectScalar_at hv]
    exact ⟨height_at _ _, height_at _ _, h3, h4⟩
  · rintro ⟨h1, h2, h3, h4⟩
    exact ⟨_, _, on_line hv h1, on_line hv h2, h3, h4⟩

theorem backward_iff {l : Line F 2} (hv : l.vector ≠ 0) {t : F} {P Q : Vec F 2} : Backward l t (P, Q) ↔
    height l P = 0 ∧ height l Q = 0 ∧ projectScalar Q l < t ∧ t ≤ projectScalar P l := by
  constructor
  · rintro ⟨s, s', h1, h2, h3, h4⟩
    simp only at h1 h2
    rw [h1, h2, projectScalar_at hv, projectScalar_at hv]
    exact ⟨height_at _ _, height_at _ _, h3, h4⟩
  · rintro ⟨h1, h2, h3, h4⟩
    exact ⟨_, _, on_line hv h1, on_line hv h2, h3, h4⟩

/-- What an edge counts in all. -/
theorem edge_parity {l : Line F 2} (hv : l.vector ≠ 0) {t : F} {P Q : Vec F 2} (hne : P ≠ Q) :
    ind (height l P = 0 ∧ projectScalar P l < t) * weight l Q (Q - P) +
        ind (height l Q = 0 ∧ projectScalar Q l < t) * weight l P (Q - P) + ind (CrossesInside l t P Q) =
      ind (CrossesLeft l t (P, Q)) + ind (Backward l t (P, Q)) := by
  rw [ind_congr crossesLeft_iff, ind_congr (backward_iff hv)]
  unfold weight CrossesInside
  by_cases hP : height l P = 0 <;> by_cases hQ : height l Q = 0
  · rw [if_pos hP, if_pos hQ, hP, hQ, ind_congr (inner_along_pos hv hP hQ)]
    have := along_ne hv hP hQ hne
    simp only [true_and, lt_irrefl, not_false_eq_true, iff_true, false_and, mul_zero]
    rw [ind_neg not_false]
    rcases lt_or_gt_of_ne this with h | h
    · rw [ind_pos h, show (1 : ZMod 2) + 1 = 0 by decide, mul_zero, mul_zero,
        ind_neg (fun h' => absurd (h'.1.trans_le h'.2) (not_lt.2 h.le))]
      decide
    · rw [ind_neg (not_lt.2 h.le)]
      simp only [add_zero, mul_one, zero_add]
      by_cases h1 : projectScalar Q l < t
      · by_cases h2 : projectScalar P l < t
        · rw [ind_pos h1, ind_pos h2, ind_neg (fun h' => absurd h2 (not_lt.2 h'.2))]; decide
        · rw [ind_pos h1, ind_neg h2, ind_pos ⟨h1, not_lt.1 h2⟩]; decide
      · rw [ind_neg h1, ind_neg (fun h' => h1 (lt_trans h h')), ind_neg (fun h' => h1 h'.1)]; decide
  · rw [if_neg hQ, hP]
    simp only [true_and, lt_irrefl, false_iff, not_not, zero_mul, false_and, hQ]
    rw [ind_neg not_false, zero_mul, add_zero, add_zero, add_zero, ind_and, ind_congr (meets_first hv hP hQ), mul_comm]
  · rw [if_neg hP, hQ]
    simp only [true_and, lt_irrefl, not_false_eq_true, iff_true, mul_zero, false_and, and_false, hP]
    rw [ind_neg not_false, zero_mul, zero_add, add_zero, add_zero, ind_and, ind_congr (meets_last hv hP hQ), mul_comm]
  · simp only [hP, hQ, false_and, ind_neg not_false, zero_mul, zero_add, add_zero]
    apply ind_congr
    apply and_congr_left'
    rcases lt_or_gt_of_ne hP with h | h <;> rcases lt_or_gt_of_ne hQ with h' | h'
    · simp [not_lt.2 h.le, not_lt.2 h'.le, not_lt.2 (mul_pos_of_neg_of_neg h h').le]
    · simp [not_lt.2 h.le, h', (mul_neg_of_neg_of_pos h h')]
    · simp [h, not_lt.2 h'.le, (mul_neg_of_pos_of_neg h h')]
    · simp [h, h', not_lt.2 (mul_pos h h').le]

theorem edge_parity' {l : Line F 2} (hv : l.vector ≠ 0) {t : F} {P Q : Vec F 2} :
    ind (height l P = 0 ∧ projectScalar P l < t) + ind (height l Q = 0 ∧ projectScalar Q l < t) =
      ind (CrossesLeft l t (P, Q)) + ind (CrossesRight l t (P, Q)) + ind (Forward l t (P, Q)) +
        ind (Backward l t (P, Q)) := by
  rw [ind_congr crossesLeft_iff, ind_congr crossesRight_iff, ind_congr (backward_iff hv),
    ind_congr (forward_iff hv)]
  by_cases hP : height l P = 0 <;> by_cases hQ : height l Q = 0
  · rw [hP, hQ]
    simp only [true_and, lt_irrefl, not_false_eq_true, iff_true, false_and, ind_neg not_false, zero_add]
    by_cases h1 : projectScalar P l < t <;> by_cases h2 : projectScalar Q l < t
    · simp [ind, h1, h2, not_le.2 h1, not_le.2 h2]; decide
    · simp [ind, h1, h2, not_lt.1 h2]
    · simp [ind, h1, h2, not_lt.1 h1]
    · simp [ind, h1, h2]
  · rw [hP]
    simp only [true_and, lt_irrefl, false_iff, not_not, false_and, hQ, ind_neg not_false, add_zero]
    rw [ind_and, ind_and, ← add_mul, ind_congr (meets_first hv hP hQ)]
    rcases lt_or_gt_of_ne hQ with h | h
    · rw [ind_pos h, ind_neg (not_lt.2 h.le), zero_add, one_mul]
    · rw [ind_pos h, ind_neg (not_lt.2 h.le), add_zero, one_mul]
  · rw [hQ]
    simp only [true_and, lt_irrefl, not_false_eq_true, iff_true, false_and, hP, ind_neg not_false, add_zero,
      zero_add]
    rw [ind_and, ind_and, ← add_mul, ind_congr (meets_last hv hP hQ)]
    rcases lt_or_gt_of_ne hP with h | h
    · rw [ind_pos h, ind_neg (not_lt.2 h.le), zero_add, one_mul]
    · rw [ind_pos h, ind_neg (not_lt.2 h.le), add_zero, one_mul]
  · simp only [hP, hQ, false_and, ind_neg not_false, add_zero]
    rw [show (0 < height l P ↔ ¬ 0 < height l Q) ↔ (height l P < 0 ↔ ¬ height l Q < 0) from ?_, two_ind]
    rcases lt_or_gt_of_ne hP with h | h <;> rcases lt_or_gt_of_ne hQ with h' | h' <;>
      simp [h, h', not_lt.2 h.le, not_lt.2 h'.le]

/-! ### The whole polygon -/

theorem parity_flatMap (t : F) (f : Nat → List F) :
    ∀ n, parity t ((List.range n).flatMap f) = ∑ i ∈ Finset.range n, parity t (f i) := by
  intro n
  induction n with
  | zero => simp [parity]
  | succ n ih => rw [List.range_succ, List.flatMap_append, parity_append, ih, Finset.sum_range_succ]; simp

open Classical in
theorem count_edges (poly : List (Vec F 2)) (p : Vec F 2 × Vec F 2 → Prop) :
    (((edges poly).countP fun e => decide (p e) : ℕ) : ZMod 2) =
      ∑ i ∈ Finset.range poly.length, ind (p (vert poly i, vert poly (i + 1))) := by
  rw [edges_eq_map]
  generalize poly.length = n
  induction n with
  | zero => simp
  | succ n ih =>
    rw [List.range_succ, List.map_append, List.countP_append, Nat.cast_add, ih, Finset.sum_range_succ]
    congr 1
    by_cases h : p (vert poly n, vert poly (n + 1)) <;> simp [h, ind]

theorem sum_cyclic (g : Nat → ZMod 2) (n : Nat) (h : g n = g 0) :
    ∑ i ∈ Finset.range n, g (i + 1) = ∑ i ∈ Finset.range n, g i := by
  have h1 := Finset.sum_range_succ g n
  have h2 := Finset.sum_range_succ' g n
  rw [h1, h] at h2
  exact (add_right_cancel h2).symm

open Classical in
/-- The parity of what is written before `t`. -/
theorem intersectSimple_parity {l : Line F 2} (hk : l.kind = .free) (hv : l.vector ≠ 0)
    (h3 : 3 ≤ poly.length) (hp : ∀ e ∈ edges poly, e.1 ≠ e.2)
    (hf : ∀ a b c rest, poly ~r (a :: b :: c :: rest) → (∃ s, a = l.at s) → (∃ s, b = l.at s) →
      (∃ s, c = l.at s) → 0 < inner (b - a) (c - b)) (t : F) :
    parity t ((List.range poly.length).flatMap (stepAt l poly)) =
        ((edges poly).countP fun e => decide (CrossesLeft l t e) : ℕ) +
          ((edges poly).countP fun e => decide (Backward l t e) : ℕ) ∧
    parity t ((List.range poly.length).flatMap (stepAt l poly)) =
        ((edges poly).countP fun e => decide (CrossesRight l t e) : ℕ) +
          ((edges poly).countP fun e => decide (Forward l t e) : ℕ) := by
  have hpv : ∀ i, vert poly i ≠ vert poly (i + 1) := by
    intro i
    have hm : (vert poly (i % poly.length), vert poly (i % poly.length + 1)) ∈ edges poly := by
      rw [edges_eq_map]
      exact List.mem_map.2 ⟨_, List.mem_range.2 (Nat.mod_lt _ (by omega)), rfl⟩
    have := hp _ hm
    simp only at this
    rwa [vert_mod, ← vert_mod (i % poly.length + 1), Nat.mod_add_mod, vert_mod] at this
  have hb : ∀ i, before poly i ≠ vert poly i := by
    intro i
    have := hpv (i + poly.length - 1)
    rwa [show i + poly.length - 1 + 1 = i + poly.length by omega, vert_period] at this
  have hff : ∀ i, height l (before poly i) = 0 → height l (vert poly i) = 0 →
      height l (vert poly (i + 1)) = 0 →
        0 < inner (vert poly i - before poly i) (vert poly (i + 1) - vert poly i) := by
    intro i h1 h2 h4
    obtain ⟨rest, hr⟩ := vert_rotation h3 (i + poly.length - 1)
    rw [show i + poly.length - 1 + 1 = i + poly.length by omega,
      show i + poly.length - 1 + 2 = i + 1 + poly.length by omega, vert_period, vert_period] at hr
    exact hf _ _ _ _ hr ⟨_, on_line hv h1⟩ ⟨_, on_line hv h2⟩ ⟨_, on_line hv h4⟩
  set f := fun i => ind (height l (vert poly i) = 0 ∧ projectScalar (vert poly i) l < t) with hfd
  have first : parity t ((List.range poly.length).flatMap (stepAt l poly)) =
      ((edges poly).countP fun e => decide (CrossesLeft l t e) : ℕ) +
        ((edges poly).countP fun e => decide (Backward l t e) : ℕ) := by
    rw [parity_flatMap, count_edges, count_edges, ← Finset.sum_add_distrib,
      Finset.sum_congr rfl fun i hi => stepAt_parity hk hv (Finset.mem_range.1 hi) t (hb i) (hpv i) (hff i)]
    have e : ∀ i ∈ Finset.range poly.length,
        ind (CrossesLeft l t (vert poly i, vert poly (i + 1))) +
            ind (Backward l t (vert poly i, vert poly (i + 1))) =
          f i * weight l (vert poly (i + 1)) (vert poly (i + 1) - vert poly i) +
            f (i + 1) * weight l (before poly (i + 1)) (vert poly (i + 1) - before poly (i + 1)) +
            ind (CrossesInside l t (vert poly i) (vert poly (i + 1))) := by
      intro i _
      rw [before_succ (by omega)]
      exact (edge_parity hv (hpv i)).symm
    rw [Finset.sum_congr rfl e, Finset.sum_add_distrib, Finset.sum_add_distrib, Finset.sum_add_distrib]
    congr 1
    rw [sum_cyclic fun i => f i * weight l (before poly i) (vert poly i - before poly i)]
    · rw [← Finset.sum_add_distrib]
      exact Finset.sum_congr rfl fun i _ => by rw [mul_add, add_comm]
    · have e1 : vert poly poly.length = vert poly 0 := by rw [← vert_period 0, Nat.zero_add]
      have e2 : before poly poly.length = before poly 0 := by
        rw [before, before, show poly.length + poly.length - 1 = 0 + poly.length - 1 + poly.length by omega,
          vert_period]
      simp only [hfd, e1, e2]
  refine ⟨first, ?_⟩
  rw [first]
  have second : (0 : ZMod 2) = ∑ i ∈ Finset.range poly.length, (f i + f (i + 1)) := by
    rw [Finset.sum_add_distrib, sum_cyclic f, two_ind]
    have e1 : vert poly poly.length = vert poly 0 := by rw [← vert_period 0, Nat.zero_add]
    simp only [hfd, e1]
  rw [Finset.sum_congr rfl fun i _ => edge_parity' (P := vert poly i) (Q := vert poly (i + 1)) (t := t) hv,
    Finset.sum_add_distrib, Finset.sum_add_distrib, Finset.sum_add_distrib, ← count_edges, ← count_edges,
    ← count_edges, ← count_edges] at second
  generalize (((edges poly).countP fun e => decide (CrossesLeft l t e) : ℕ) : ZMod 2) = a at *
  generalize (((edges poly).countP fun e => decide (CrossesRight l t e) : ℕ) : ZMod 2) = b at *
  generalize (((edges poly).countP fun e => decide (Forward l t e) : ℕ) : ZMod 2) = c at *
  generalize (((edges poly).countP fun e => decide (Backward l t e) : ℕ) : ZMod 2) = d at *
  clear first
  revert a b c d
  decide

theorem odd_parity (n : Nat) : Odd n ↔ (n : ZMod 2) = 1 := by
  rw [ZMod.natCast_eq_one_iff_odd]

theorem edges_getElem (poly : List (Vec F 2)) {i : Nat} (hi : i < poly.length) :
    (edges poly)[i]? = some (vert poly i, vert poly (i + 1)) := by
  rw [edges_eq_map, List.getElem?_map, List.getElem?_range hi]; rfl

/-- The same line without ends. -/
def Line.whole (l : Line F 2) : Line F 2 := { l with kind := .free }

open Classical in
/-- A ray or segment writes those of the parameters of the whole line that belong to it. -/
theorem stepAt_whole (l : Line F 2) (hv : l.vector ≠ 0) {i : Nat} (hi : i < poly.length) :
    stepAt l poly i = (stepAt l.whole poly i).filter fun t => decide (Allowed l.kind t) := by
  rw [stepAt_eq l hv hi, stepAt_eq l.whole hv hi]
  have hh : ∀ p, height l.whole p = height l p := fun p => rfl
  have hs : ∀ p, projectScalar p l.whole = projectScalar p l := fun p => rfl
  have hal : ∀ x : F, Allowed l.whole.kind x := fun x => trivial
  simp only [hh, hs, hal, and_true]
  have hw : l.whole.vector = l.vector := rfl
  rw [hw]
  by_cases h0 : height l (vert poly i) = 0
  · rw [if_pos h0, if_pos h0]
    by_cases ha : Allowed l.kind (projectScalar (vert poly i) l)
    · simp only [ha, and_true]
      split_ifs <;> simp [ha]
    · simp only [ha, and_false, if_false]
      split_ifs <;> simp [ha]
  · rw [if_neg h0, if_neg h0]
    by_cases hx : height l (vert poly i) * height l (vert poly (i + 1)) < 0
    · rw [if_pos hx, if_pos hx]
      have hne : height l (vert poly i) ≠ height l (vert poly (i + 1)) := by
        intro h; rw [← h] at hx; exact absurd (mul_self_nonneg _) (not_le.2 hx)
      obtain ⟨s, e1, e2⟩ := intersectScalar_edge l _ _ hne
      obtain ⟨s', e1', e2'⟩ := intersectScalar_edge l.whole _ _ hne
      have hss : s = s' := by
        have h1 := e2 s
        have h2 := e2' s
        rw [sub_self, zero_mul] at h1
        have h3 : l.whole.at s = l.at s := rfl
        rw [h3, h1] at h2
        exact sub_eq_zero.1 ((mul_eq_zero.1 h2.symm).resolve_right (sub_ne_zero.2 hne))
      rw [e1, e1', if_pos (hal s'), ← hss]
      split_ifs with h <;> simp [h]
    · rw [if_neg hx, if_neg hx]; rfl

/-- What is written at a step is on the edge that starts there. -/
theorem stepAt_mem (l : Line F 2) (hv : l.vector ≠ 0) {i : Nat} (hi : i < poly.length) {s : F}
    (hs : s ∈ stepAt l poly i) : OnSegment (l.at s) (vert poly i) (vert poly (i + 1)) := by
  classical
  rw [stepAt_eq l hv hi] at hs
  by_cases h0 : height l (vert poly i) = 0
  · rw [if_pos h0] at hs
    split_ifs at hs <;> simp at hs <;>
      exact ⟨0, le_rfl, zero_le_one, by rw [hs, zero_smul, add_zero]; exact (on_line hv h0).symm⟩
  · rw [if_neg h0] at hs
    by_cases hx : height l (vert poly i) * height l (vert poly (i + 1)) < 0
    · rw [if_pos hx] at hs
      have hne : height l (vert poly i) ≠ height l (vert poly (i + 1)) := by
        intro h; rw [← h] at hx; exact absurd (mul_self_nonneg _) (not_le.2 hx)
      obtain ⟨s', e1, e2⟩ := intersectScalar_edge l _ _ hne
      rw [e1] at hs
      split_ifs at hs
      · simp at hs; rw [hs]; exact crossing_onSegment hne hx.le e2
      · simp at hs
    · rw [if_neg hx] at hs; simp at hs

open Classical in
/-- **C73.** The intersection of a line, ray or segment with a simple polygon given counter-clockwise.
There is one list of parameters for the whole line, all of them on the border, and what is written are
those that belong to the ray or segment.  The number of parameters of the list before any `t` is odd
exactly if the line just before `t` is in the polygon (inside, or along an edge with the inside on one
side): the parameters are where the line enters and leaves the polygon. -/
theorem intersectSimple_correct {l : Line F 2} (hv : l.vector ≠ 0) (h3 : 3 ≤ poly.length)
    (hs : SimpleAlong l poly) :
    ∃ ts : List F, intersectSimple l poly = some (ts.filter fun t => decide (Allowed l.kind t)) ∧
      (∀ t ∈ ts, OnBorder (l.at t) poly) ∧
      ∀ t, Odd (ts.countP fun s => decide (s < t)) ↔ InsideLeft l t poly ∨ InsideRight l t poly := by
  refine ⟨(List.range poly.length).flatMap (stepAt l.whole poly), ?_, ?_, fun t => ?_⟩
  · rw [intersectSimple_eq hv (by omega), List.filter_flatMap]
    congr 1
    apply List.flatMap_congr
    intro i hi
    exact stepAt_whole l hv (List.mem_range.1 hi)
  · intro t ht
    obtain ⟨i, hi, ht⟩ := List.mem_flatMap.1 ht
    refine ⟨(vert poly i, vert poly (i + 1)), ?_, stepAt_mem l.whole hv (List.mem_range.1 hi) ht⟩
    rw [edges_eq_map]
    exact List.mem_map.2 ⟨i, hi, rfl⟩
  · obtain ⟨p1, p2⟩ := intersectSimple_parity (poly := poly) (l := l.whole) rfl hv h3 hs.proper hs.noTurn t
    have eL : (edges poly).countP (fun e => decide (CrossesLeft l.whole t e)) =
        (edges poly).countP fun e => decide (CrossesLeft l t e) := rfl
    have eR : (edges poly).countP (fun e => decide (CrossesRight l.whole t e)) =
        (edges poly).countP fun e => decide (CrossesRight l t e) := rfl
    have eF : (edges poly).countP (fun e => decide (Forward l.whole t e)) =
        (edges poly).countP fun e => decide (Forward l t e) := rfl
    have eB : (edges poly).countP (fun e => decide (Backward l.whole t e)) =
        (edges poly).countP fun e => decide (Backward l t e) := rfl
    rw [eL, eB] at p1
    rw [eR, eF] at p2
    rw [odd_parity, ← parity.eq_1 t, InsideLeft, InsideRight, odd_parity, odd_parity]
    have none : ∀ p : Vec F 2 × Vec F 2 → Prop, (∀ e ∈ edges poly, ¬ p e) →
        (edges poly).countP (fun e => decide (p e)) = 0 := by
      intro p h
      rw [List.countP_eq_zero]
      intro e he; simpa using h e he
    by_cases hF : ∃ e ∈ edges poly, Forward l t e
    · obtain ⟨e, he, hfe⟩ := hF
      have hl := hs.forward t e he hfe
      rw [InsideLeft, odd_parity] at hl
      have hB := none (Backward l t) fun e' he' => hs.apart t e he e' he' hfe
      rw [p1, hB, hl]; simp
    · by_cases hB : ∃ e ∈ edges poly, Backward l t e
      · obtain ⟨e, he, hbe⟩ := hB
        have hr := hs.backward t e he hbe
        rw [InsideRight, odd_parity] at hr
        have hF' := none (Forward l t) fun e' he' hf => hF ⟨e', he', hf⟩
        rw [p2, hF', hr]; simp
      · have hF' := none (Forward l t) fun e' he' hf => hF ⟨e', he', hf⟩
        have hB' := none (Backward l t) fun e' he' hf => hB ⟨e', he', hf⟩
        rw [hB', Nat.cast_zero, add_zero] at p1
        rw [hF', Nat.cast_zero, add_zero] at p2
        rw [← p1, ← p2, or_self]

/-- If no vertex is on the line only the vertices have to be different. -/
theorem simpleAlong_general {l : Line F 2} (hp : ∀ e ∈ edges poly, e.1 ≠ e.2)
    (hg : ∀ p ∈ poly, ∀ t, p ≠ l.at t) : SimpleAlong l poly := by
  have hF : ∀ t, ∀ e ∈ edges poly, ¬ Forward l t e ∧ ¬ Backward l t e := by
    intro t e he
    obtain ⟨k, hk, rfl⟩ := mem_edges_vert he
    have hm := vert_mem (show 0 < poly.length by omega) k
    exact ⟨fun ⟨s, _, h, _⟩ => hg _ hm s h, fun ⟨s, _, h, _⟩ => hg _ hm s h⟩
  refine ⟨hp, fun a b c rest hr ha => ?_, fun t e he _ _ h => absurd h (hF t e he).1,
    fun t e he h => absurd h (hF t e he).1, fun t e he h => absurd h (hF t e he).2⟩
  obtain ⟨s, h⟩ := ha
  exact absurd h (hg a (hr.mem_iff.2 (by simp)) s)

/-- A strictly convex polygon meets the conditions along every line. -/
theorem simpleAlong_convex (hc : StrictlyConvex poly) {l : Line F 2} (hv : l.vector ≠ 0) :
    SimpleAlong l poly := by
  classical
  have h3 := hc.1
  -- the heights over a line through an edge
  have hh : ∀ k, height l (vert poly k) = 0 → height l (vert poly (k + 1)) = 0 → ∀ m,
      height l (vert poly m) * inner (vert poly (k + 1) - vert poly k) l.vector =
        area (edgeAt poly k) (vert poly m - vert poly k) * inner l.vector l.vector := by
    intro k h1 h2 m
    rw [inner_along hv h1 h2]
    have e : area (edgeAt poly k) (vert poly m - vert poly k) =
        (projectScalar (vert poly (k + 1)) l - projectScalar (vert poly k) l) * height l (vert poly m) := by
      rw [edgeAt, on_line hv h2, on_line hv h1, projectScalar_at hv, projectScalar_at hv]
      simp only [height, Line.at, area, Pi.sub_apply, Pi.add_apply, Pi.smul_apply, smul_eq_mul]; ring
    rw [e]; ring
  have hne : ∀ k, height l (vert poly k) = 0 → height l (vert poly (k + 1)) = 0 → ∀ m,
      vert poly m ≠ vert poly k → vert poly m ≠ vert poly (k + 1) → height l (vert poly m) ≠ 0 := by
    intro k h1 h2 m h4 h5 h6
    have := hh k h1 h2 m
    rw [h6, zero_mul] at this
    exact (mul_pos (hc.left k m h4 h5) (inner_self_pos hv)).ne this
  have hvn : ∀ k, vert poly k ≠ vert poly (k + 1) := fun k =>
    (hc.vert_ne' (show k < k + 1 by omega) (by omega)).symm
  -- an edge on the line is the only one
  have honly : ∀ k < poly.length, ∀ j < poly.length, height l (vert poly k) = 0 →
      height l (vert poly (k + 1)) = 0 → height l (vert poly j) = 0 → height l (vert poly (j + 1)) = 0 →
      j = k := by
    intro k hk j hj h1 h2 h4 h5
    by_contra hjk
    have a1 : vert poly j = vert poly (k + 1) := by
      by_contra h
      exact hne k h1 h2 j (hc.vert_ne (by rwa [Nat.mod_eq_of_lt hk, Nat.mod_eq_of_lt hj])) h h4
    have a2 : j % poly.length = (k + 1) % poly.length := by
      by_contra h; exact hc.vert_ne h a1
    have e2 : vert poly (j + 1) = vert poly (k + 2) := by
      rw [← vert_mod (j + 1), Nat.add_mod, a2, ← Nat.add_mod, vert_mod]
    refine hne k h1 h2 (j + 1) ?_ ?_ h5 <;> rw [e2]
    · exact hc.vert_ne' (by omega) (by omega)
    · exact hc.vert_ne' (by omega) (by omega)
  have hodd : ∀ (p : Vec F 2 × Vec F 2 → Prop) (j : Nat), j < poly.length →
      p (vert poly j, vert poly (j + 1)) →
      (∀ i < poly.length, i ≠ j → ¬ p (vert poly i, vert poly (i + 1))) →
      Odd ((edges poly).countP fun e => decide (p e)) := by
    intro p j hj h1 h2
    rw [odd_parity, count_edges, Finset.sum_eq_single j, ind_pos h1]
    · exact fun i hi hij => ind_neg (h2 i (Finset.mem_range.1 hi) hij)
    · intro h; exact absurd (Finset.mem_range.2 hj) h
  -- the three kinds of edges around an edge on the line
  have hpos : ∀ k, height l (vert poly k) = 0 → height l (vert poly (k + 1)) = 0 →
      ∀ m, vert poly m ≠ vert poly k → vert poly m ≠ vert poly (k + 1) →
        (0 < inner (vert poly (k + 1) - vert poly k) l.vector → 0 < height l (vert poly m)) ∧
        (inner (vert poly (k + 1) - vert poly k) l.vector < 0 → height l (vert poly m) < 0) := by
    intro k h1 h2 m h4 h5
    have e := hh k h1 h2 m
    have := mul_pos (hc.left k m h4 h5) (inner_self_pos hv)
    rw [← e] at this
    rcases mul_pos_iff.1 this with ⟨a, b⟩ | ⟨a, b⟩
    · exact ⟨fun _ => a, fun h => absurd b (not_lt.2 h.le)⟩
    · exact ⟨fun h => absurd b (not_lt.2 h.le), fun _ => a⟩
  have mod1 : ∀ i k, i < poly.length → k < poly.length → i ≠ k →
      (i + 1) % poly.length ≠ (k + 1) % poly.length := by
    intro i k hi hk h1 h2
    rw [← nextAt_eq hi, ← nextAt_eq hk] at h2
    have := congrArg (prevAt poly.length) h2
    rw [prevAt_nextAt hi, prevAt_nextAt hk] at this
    exact h1 this
  have prevlt : ∀ k, k < poly.length → prevAt poly.length k < poly.length := by
    intro k hk; rw [prevAt]; split_ifs <;> omega
  have prevnext : ∀ k, k < poly.length → (prevAt poly.length k + 1) % poly.length = k := by
    intro k hk
    unfold prevAt
    by_cases h : k = 0
    · rw [if_pos h, h, show poly.length - 1 + 1 = poly.length by omega, Nat.mod_self]
    · rw [if_neg h, show k - 1 + 1 = k by omega, Nat.mod_eq_of_lt hk]
  have vprev : ∀ k, k < poly.length → vert poly (prevAt poly.length k + 1) = vert poly k := by
    intro k hk; rw [← vert_mod (prevAt poly.length k + 1), prevnext k hk]
  have vprevne : ∀ k, k < poly.length → vert poly (prevAt poly.length k) ≠ vert poly k ∧
      vert poly (prevAt poly.length k) ≠ vert poly (k + 1) := by
    intro k hk
    have e : vert poly (prevAt poly.length k) = vert poly (k + poly.length - 1) := by
      rw [← polyAt_eq (prevlt k hk), polyAt_prevAt hk, before]
    rw [e, ← vert_period k, ← vert_period (k + 1)]
    exact ⟨(hc.vert_ne' (by omega) (by omega)).symm, (hc.vert_ne' (by omega) (by omega)).symm⟩
  -- away from the edge both ends are off the line
  have hoff : ∀ k < poly.length, ∀ i < poly.length, i ≠ k → i ≠ prevAt poly.length k →
      vert poly (i + 1) ≠ vert poly k ∧ vert poly (i + 1) ≠ vert poly (k + 1) := by
    intro k hk i hi h1 h2
    refine ⟨?_, hc.vert_ne (mod1 i k hi hk h1)⟩
    rw [← vprev k hk]
    exact hc.vert_ne (mod1 i _ hi (prevlt k hk) h2)
  have hmem : ∀ e ∈ edges poly, ∃ k < poly.length, e = (vert poly k, vert poly (k + 1)) :=
    fun e he => mem_edges_vert he
  refine ⟨?_, ?_, ?_, ?_, ?_⟩
  · intro e he
    obtain ⟨k, -, rfl⟩ := hmem e he
    exact hvn k
  · rintro a b c rest hr ⟨s1, rfl⟩ ⟨s2, rfl⟩ ⟨s3, rfl⟩
    have := hc.2 _ _ _ hr _ List.mem_cons_self
    simp only [StrictLeft, Line.at, Pi.add_apply, Pi.smul_apply, smul_eq_mul] at this
    ring_nf at this
    exact absurd this (lt_irrefl _)
  · intro t e he e' he' hf hb
    obtain ⟨k, hk, rfl⟩ := hmem e he
    obtain ⟨j, hj, rfl⟩ := hmem e' he'
    rw [forward_iff hv] at hf
    rw [backward_iff hv] at hb
    have := honly k hk j hj hf.1 hf.2.1 hb.1 hb.2.1
    rw [this] at hb
    exact absurd (hf.2.2.1.trans_le hb.2.2.2) (lt_irrefl _)
  · intro t e he hf
    obtain ⟨k, hk, rfl⟩ := hmem e he
    rw [forward_iff hv] at hf
    obtain ⟨h1, h2, h4, h5⟩ := hf
    have hd : 0 < inner (vert poly (k + 1) - vert poly k) l.vector := by
      rw [inner_along_pos hv h1 h2]; exact h4.trans_le h5
    have hp' := fun m a b => (hpos k h1 h2 m a b).1 hd
    refine hodd _ (prevAt poly.length k) (prevlt k hk) ?_ fun i hi hij => ?_
    · have hb := hp' _ (vprevne k hk).1 (vprevne k hk).2
      rw [vprev k hk, crossesLeft_iff, meets_last hv hb.ne' h1, h1]
      exact ⟨by simp [hb], h4⟩
    · by_cases hik : i = k
      · rw [hik, crossesLeft_iff, h1, h2]; simp
      · obtain ⟨o1, o2⟩ := hoff k hk i hi hik hij
        have hb := hp' _ o1 o2
        by_cases hi1 : vert poly i = vert poly (k + 1)
        · rw [hi1, crossesLeft_iff, meets_first hv h2 hb.ne']
          rintro ⟨-, h⟩
          exact absurd h (not_lt.2 h5)
        · have ha := hp' i (hc.vert_ne (by rwa [Nat.mod_eq_of_lt hi, Nat.mod_eq_of_lt hk])) hi1
          rw [crossesLeft_iff]
          simp [ha, hb]
  · intro t e he hf
    obtain ⟨k, hk, rfl⟩ := hmem e he
    rw [backward_iff hv] at hf
    obtain ⟨h1, h2, h4, h5⟩ := hf
    have hd : inner (vert poly (k + 1) - vert poly k) l.vector < 0 := by
      rw [inner_along hv h1 h2]
      exact mul_neg_of_neg_of_pos (by linarith) (inner_self_pos hv)
    have hp' := fun m a b => (hpos k h1 h2 m a b).2 hd
    have hj : (k + 1) % poly.length < poly.length := Nat.mod_lt _ (by omega)
    have ej : vert poly ((k + 1) % poly.length) = vert poly (k + 1) := vert_mod _
    have ej2 : vert poly ((k + 1) % poly.length + 1) = vert poly (k + 2) := by
      rw [← vert_mod ((k + 1) % poly.length + 1), Nat.mod_add_mod, vert_mod]
    refine hodd _ ((k + 1) % poly.length) hj ?_ fun i hi hij => ?_
    · have hb := hp' (k + 2) (hc.vert_ne' (by omega) (by omega)) (hc.vert_ne' (by omega) (by omega))
      rw [ej, ej2, crossesRight_iff, meets_first hv h2 hb.ne, h2]
      exact ⟨by simp [hb], h4⟩
    · have hi1 : vert poly i ≠ vert poly (k + 1) := hc.vert_ne (by rwa [Nat.mod_eq_of_lt hi])
      by_cases hik : i = k
      · rw [hik, crossesRight_iff, h1, h2]; simp
      · have ha := hp' i (hc.vert_ne (by rwa [Nat.mod_eq_of_lt hi, Nat.mod_eq_of_lt hk])) hi1
        by_cases hip : i = prevAt poly.length k
        · rw [hip] at ha ⊢
          rw [vprev k hk, crossesRight_iff, meets_last hv ha.ne h1]
          rintro ⟨-, h⟩
          exact absurd h (not_lt.2 h5)
        · obtain ⟨o1, o2⟩ := hoff k hk i hi hik hip
          have hb := hp' _ o1 o2
          rw [crossesRight_iff]
          simp [ha, hb]

/-- **C73.** On a strictly convex polygon the algorithm for simple polygons needs no further
condition. -/
theorem intersectSimple_convex {l : Line F 2} (hv : l.vector ≠ 0) (hc : StrictlyConvex poly) : by
    classical exact
    ∃ ts : List F, intersectSimple l poly = some (ts.filter fun t => decide (Allowed l.kind t)) ∧
      (∀ t ∈ ts, OnBorder (l.at t) poly) ∧
      ∀ t, Odd (ts.countP fun s => decide (s < t)) ↔ InsideLeft l t poly ∨ InsideRight l t poly :=
  intersectSimple_correct hv hc.1 (simpleAlong_convex hc hv)

/-- **C73.** In general position: nothing but that neighbouring vertices differ is needed. -/
theorem intersectSimple_general {l : Line F 2} (hv : l.vector ≠ 0) (h3 : 3 ≤ poly.length)
    (hp : ∀ e ∈ edges poly, e.1 ≠ e.2) (hg : ∀ p ∈ poly, ∀ t, p ≠ l.at t) : by
    classical exact
    ∃ ts : List F, intersectSimple l poly = some (ts.filter fun t => decide (Allowed l.kind t)) ∧
      (∀ t ∈ ts, OnBorder (l.at t) poly) ∧
      ∀ t, Odd (ts.countP fun s => decide (s < t)) ↔ InsideLeft l t poly ∨ InsideRight l t poly :=
  intersectSimple_correct hv h3 (simpleAlong_general hp hg)

/-- **C73.** Touching is not reported (a `TODO` of the code): if the polygon is on one side of the line,
no edge on it, nothing is written, though vertices may be on the line. -/
theorem intersectSimple_touch {l : Line F 2} (hv : l.vector ≠ 0) (h2 : 2 ≤ poly.length)
    (hside : ∀ p ∈ poly, ¬ StrictRight l.start (l.start + l.vector) p)
    (hedge : ∀ e ∈ edges poly, ∀ s s', ¬ (e.1 = l.at s ∧ e.2 = l.at s')) :
    intersectSimple l poly = some [] := by
  classical
  rw [intersectSimple_eq hv h2]
  congr 1
  rw [List.flatMap_eq_nil_iff]
  intro i hi
  have hi := List.mem_range.1 hi
  have hpos : ∀ k, 0 ≤ height l (vert poly k) := by
    intro k
    have := hside _ (vert_mem (by omega) k)
    rw [strictRight_height] at this
    exact not_lt.1 this
  have hed : ∀ k, ¬ (height l (vert poly k) = 0 ∧ height l (vert poly (k + 1)) = 0) := by
    intro k hk
    have hm : (vert poly (k % poly.length), vert poly (k % poly.length + 1)) ∈ edges poly := by
      rw [edges_eq_map]
      exact List.mem_map.2 ⟨_, List.mem_range.2 (Nat.mod_lt _ (by omega)), rfl⟩
    refine hedge _ hm _ _ ⟨on_line hv ?_, on_line hv ?_⟩
    · simp only; rw [vert_mod]; exact hk.1
    · simp only; rw [← vert_mod (k % poly.length + 1), Nat.mod_add_mod, vert_mod]; exact hk.2
  rw [stepAt_eq l hv hi]
  by_cases h0 : height l (vert poly i) = 0
  · rw [if_pos h0]
    have hb : height l (before poly i) ≠ 0 := by
      intro h
      apply hed (i + poly.length - 1)
      rw [show i + poly.length - 1 + 1 = i + poly.length by omega, vert_period]
      exact ⟨h, h0⟩
    have hn : height l (vert poly (i + 1)) ≠ 0 := fun h => hed i ⟨h0, h⟩
    have h1 := lt_of_le_of_ne (hpos (i + 1)) (Ne.symm hn)
    have h2 := lt_of_le_of_ne (hpos (i + poly.length - 1)) (Ne.symm hb)
    rw [if_neg]
    rw [if_neg hb, if_neg hn, (ofSign_right _).2 h1, before, (ofSign_right _).2 h2]
    simp
  · rw [if_neg h0, if_neg (not_lt.2 (mul_nonneg (hpos _) (hpos _)))]

/-! ### Examples -/

/-- A line through a polygon that is not convex: it enters and leaves twice. -/
example : intersectSimple ⟨![(-1 : ℚ), 2], ![1, 0], .free⟩
    [![0, 0], ![6, 0], ![6, 3], ![3, 1], ![0, 3]] = some [7, 11 / 2, 5 / 2, 1] := by decide +kernel

/-- A line along an edge of that polygon. -/
example : intersectSimple ⟨![(-1 : ℚ), 0], ![1, 0], .free⟩
    [![0, 0], ![6, 0], ![6, 3], ![3, 1], ![0, 3]] = some [1, 7] := by decide +kernel

/-- A line through an inner corner and along an edge beside it: one interval. -/
example : intersectSimple ⟨![(-1 : ℚ), 2], ![1, 0], .free⟩
    [![0, 0], ![6, 0], ![6, 2], ![4, 2], ![4, 4], ![0, 4]] = some [7, 1] := by decide +kernel

/-- A ray that starts inside. -/
example : intersectSimple ⟨![(1 : ℚ), 2], ![1, 0], .closedRay⟩
    [![0, 0], ![6, 0], ![6, 2], ![4, 2], ![4, 4], ![0, 4]] = some [5] := by decide +kernel

/-- Two corners touch the line. -/
example : intersectSimple ⟨![(-1 : ℚ), 3], ![-1, 0], .free⟩
    [![0, 0], ![6, 0], ![6, 3], ![3, 1], ![0, 3]] = some [] := by decide +kernel

/-- A triangle with an edge on the line meets the hypotheses. -/
theorem along_triangle : SimpleAlong ⟨![(-1 : ℚ), 0], ![1, 0], .free⟩ [![0, 0], ![4, 0], ![0, 3]] := by
  set l : Line ℚ 2 := ⟨![(-1 : ℚ), 0], ![1, 0], .free⟩ with hl
  have hh : ∀ x y : ℚ, height l ![x, y] = y := by
    intro x y; simp [height, area, hl]
  have hv : l.vector ≠ 0 := by
    intro h; have := congrFun h 0; simp [hl] at this
  have hs : ∀ x y : ℚ, projectScalar ![x, y] l = x + 1 := by
    intro x y
    have := projectScalar_mul ![x, y] l hv
    simpa [inner2, hl] using this
  have he : edges [![(0 : ℚ), 0], ![4, 0], ![0, 3]] =
      [(![0, 0], ![4, 0]), (![4, 0], ![0, 3]), (![0, 3], ![0, 0])] := rfl
  have hB : ∀ t, ∀ e ∈ edges [![(0 : ℚ), 0], ![4, 0], ![0, 3]], ¬ Backward l t e := by
    intro t e hm hb
    rw [he] at hm
    simp only [List.mem_cons, List.not_mem_nil, or_false] at hm
    rcases hm with rfl | rfl | rfl <;> rw [backward_iff hv, hh, hh, hs, hs] at hb
    · linarith [hb.2.2.1, hb.2.2.2]
    · exact absurd hb.2.1 (by norm_num)
    · exact absurd hb.1 (by norm_num)
  refine ⟨?_, ?_, fun t _ _ e' he' _ => hB t e' he', ?_, fun t e he h => absurd h (hB t e he)⟩
  · intro e hm
    rw [he] at hm
    simp only [List.mem_cons, List.not_mem_nil, or_false] at hm
    rcases hm with rfl | rfl | rfl
    · intro h; have := congrFun h 0; norm_num at this
    · intro h; have := congrFun h 0; norm_num at this
    · intro h; have := congrFun h 1; norm_num at this
  · rintro a b c rest hr ⟨s1, h1⟩ ⟨s2, h2⟩ ⟨s3, h3⟩
    have hlen := hr.perm.length_eq
    have hrest : rest = [] := by
      rw [← List.length_eq_zero_iff]; simpa using hlen.symm
    have hm : ![(0 : ℚ), 3] ∈ a :: b :: c :: rest := hr.mem_iff.1 (by simp)
    rw [hrest] at hm
    simp only [List.mem_cons, List.not_mem_nil, or_false] at hm
    have h0 : ∀ s, ![(0 : ℚ), 3] ≠ l.at s := by
      intro s h
      have := hh 0 3
      rw [h, height_at] at this
      norm_num at this
    rcases hm with h | h | h
    · exact absurd (h.trans h1) (h0 _)
    · exact absurd (h.trans h2) (h0 _)
    · exact absurd (h.trans h3) (h0 _)
  · intro t e hm hf
    have ht : 1 < t ∧ t ≤ 5 := by
      rw [he] at hm
      simp only [List.mem_cons, List.not_mem_nil, or_false] at hm
      rcases hm with rfl | rfl | rfl <;> rw [forward_iff hv, hh, hh, hs, hs] at hf
      · exact ⟨by linarith [hf.2.2.1], by linarith [hf.2.2.2]⟩
      · exact absurd hf.2.1 (by norm_num)
      · exact absurd hf.1 (by norm_num)
    have c1 : ¬ CrossesLeft l t (![0, 0], ![4, 0]) := by
      rw [crossesLeft_iff, hh, hh]; simp
    have c2 : ¬ CrossesLeft l t (![4, 0], ![0, 3]) := by
      rw [crossesLeft_iff, meets_first hv (hh _ _) (by rw [hh]; norm_num), hs]
      rintro ⟨-, h⟩; linarith [ht.2]
    have c3 : CrossesLeft l t (![0, 3], ![0, 0]) := by
      rw [crossesLeft_iff, meets_last hv (by rw [hh]; norm_num) (hh _ _), hs, hh, hh]
      exact ⟨by simp, by linarith [ht.1]⟩
    rw [InsideLeft, he]
    simp [c1, c2, c3]

open Classical in
example : ∃ ts : List ℚ, intersectSimple ⟨![(-1 : ℚ), 0], ![1, 0], .free⟩ [![0, 0], ![4, 0], ![0, 3]] =
      some (ts.filter fun t => decide (Allowed .free t)) ∧
    (∀ t ∈ ts, OnBorder (Line.at ⟨![(-1 : ℚ), 0], ![1, 0], .free⟩ t) [![0, 0], ![4, 0], ![0, 3]]) ∧
    ∀ t, Odd (ts.countP fun s => decide (s < t)) ↔
      InsideLeft ⟨![(-1 : ℚ), 0], ![1, 0], .free⟩ t [![0, 0], ![4, 0], ![0, 3]] ∨
      InsideRight ⟨![(-1 : ℚ), 0], ![1, 0], .free⟩ t [![0, 0], ![4, 0], ![0, 3]] :=
  intersectSimple_correct (l := ⟨![(-1 : ℚ), 0], ![1, 0], .free⟩)
    (by intro h; have := congrFun h 0; simp at this) (by simp) along_triangle

end Actl.Geo
