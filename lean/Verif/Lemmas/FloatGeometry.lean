import Verif.Model.FloatGeometry
import Verif.Spec.FloatGeometry
import Verif.Props.Hull
import Verif.Props.RealRound
import Mathlib.Tactic.Ring
import Mathlib.Tactic.Linarith
import Mathlib.Tactic.Positivity

/-! Lemmas for C125. -/

namespace Actl.Geo

variable {F : Type*} [Field F] [LinearOrder F] [IsStrictOrderedRing F]
variable {fl : F → F} {u : F}

/-! ### One rounding -/

theorem SignedRounding.zero (h : SignedRounding fl u) : fl 0 = 0 := by
  have := h.near 0
  simpa using this

theorem SignedRounding.factor (h : SignedRounding fl u) (y : F) : ∃ q, fl y = y * q ∧ |q - 1| ≤ (1 + u) ^ 1 - 1 := by
  by_cases hy : y = 0
  · exact ⟨1, by simp [hy, h.zero], by simpa using h.nonneg⟩
  · refine ⟨fl y / y, by field_simp, ?_⟩
    have := h.near y
    rw [pow_one, add_sub_cancel_left, show fl y / y - 1 = (fl y - y) / y by field_simp, abs_div, div_le_iff₀ (abs_pos.2 hy)]
    exact this

theorem SignedRounding.neg_iff (h : SignedRounding fl u) (y : F) : fl y < 0 ↔ y < 0 := by
  have h1 := abs_le.1 (h.near y)
  have h2 := h.small
  have h3 := h.nonneg
  constructor
  · intro hf
    by_contra hy
    rw [abs_of_nonneg (not_lt.1 hy)] at h1
    nlinarith
  · intro hy
    rw [abs_of_neg hy] at h1
    nlinarith

theorem SignedRounding.pos_iff (h : SignedRounding fl u) (y : F) : 0 < fl y ↔ 0 < y := by
  have h1 := abs_le.1 (h.near y)
  have h2 := h.small
  have h3 := h.nonneg
  constructor
  · intro hf
    by_contra hy
    rw [abs_of_nonpos (not_lt.1 hy)] at h1
    nlinarith
  · intro hy
    rw [abs_of_pos hy] at h1
    nlinarith

theorem ofSign_fl (h : SignedRounding fl u) (y : F) : Turn.ofSign (fl y) = Turn.ofSign y := by
  simp only [Turn.ofSign, h.neg_iff, h.pos_iff]

theorem factor_mul {u q1 q2 : F} (hu : 0 ≤ u) {k1 k2 : Nat} (h1 : |q1 - 1| ≤ (1 + u) ^ k1 - 1)
    (h2 : |q2 - 1| ≤ (1 + u) ^ k2 - 1) : |q1 * q2 - 1| ≤ (1 + u) ^ (k1 + k2) - 1 := by
  have e : q1 * q2 - 1 = (q1 - 1) * (q2 - 1) + (q1 - 1) + (q2 - 1) := by ring
  have a1 := abs_add_le ((q1 - 1) * (q2 - 1) + (q1 - 1)) (q2 - 1)
  have a2 := abs_add_le ((q1 - 1) * (q2 - 1)) (q1 - 1)
  rw [abs_mul] at a2
  have a3 : |q1 - 1| * |q2 - 1| ≤ ((1 + u) ^ k1 - 1) * ((1 + u) ^ k2 - 1) :=
    mul_le_mul h1 h2 (abs_nonneg _) ((abs_nonneg _).trans h1)
  rw [e, pow_add]
  nlinarith

/-- A product of two rounded numbers has three roundings. -/
theorem product_error (h : SignedRounding fl u) (a b : F) :
    |fl (fl a * fl b) - a * b| ≤ ((1 + u) ^ 3 - 1) * |a * b| := by
  obtain ⟨q1, e1, h1⟩ := h.factor a
  obtain ⟨q2, e2, h2⟩ := h.factor b
  obtain ⟨q3, e3, h3⟩ := h.factor (fl a * fl b)
  have := factor_mul h.nonneg (factor_mul h.nonneg h1 h2) h3
  rw [e3, e1, e2, show a * q1 * (b * q2) * q3 - a * b = (q1 * q2 * q3 - 1) * (a * b) by ring, abs_mul]
  exact mul_le_mul_of_nonneg_right this (abs_nonneg _)

/-! ### The orientation test -/

theorem orientation3R_eq (h : SignedRounding fl u) (l r o : Vec F 2) : orientation3R fl l r o =
    Turn.ofSign (fl (fl (r 0 - o 0) * fl (l 1 - o 1)) - fl (fl (r 1 - o 1) * fl (l 0 - o 0))) := by
  rw [orientation3R, areaR, ofSign_fl h]
  rfl

theorem orientation3_eq (l r o : Vec F 2) : orientation3 l r o =
    Turn.ofSign ((r 0 - o 0) * (l 1 - o 1) - (r 1 - o 1) * (l 0 - o 0)) := rfl

theorem orientation3R_clear (h : SignedRounding fl u) {l r o : Vec F 2} (hc : WellApart u l r o) :
    orientation3R fl l r o = orientation3 l r o := by
  rw [orientation3R_eq h, orientation3_eq]
  have h1 := abs_le.1 (product_error h (r 0 - o 0) (l 1 - o 1))
  have h2 := abs_le.1 (product_error h (r 1 - o 1) (l 0 - o 0))
  rw [WellApart, mul_add] at hc
  rcases lt_trichotomy ((r 0 - o 0) * (l 1 - o 1) - (r 1 - o 1) * (l 0 - o 0)) 0 with hd | hd | hd
  · rw [abs_of_neg hd] at hc
    rw [Turn.ofSign, Turn.ofSign, if_pos hd, if_pos (by linarith [h1.2, h2.1])]
  · rw [hd, abs_zero, ← mul_add] at hc
    have h3 : (1 : F) ≤ (1 + u) ^ 3 := one_le_pow₀ (by linarith [h.nonneg])
    have h4 := mul_nonneg (sub_nonneg.2 h3) (add_nonneg (abs_nonneg ((r 0 - o 0) * (l 1 - o 1))) (abs_nonneg ((r 1 - o 1) * (l 0 - o 0))))
    linarith
  · rw [abs_of_pos hd] at hc
    have hp : 0 < fl (fl (r 0 - o 0) * fl (l 1 - o 1)) - fl (fl (r 1 - o 1) * fl (l 0 - o 0)) := by linarith [h1.1, h2.2]
    rw [Turn.ofSign, Turn.ofSign, if_neg hd.le.not_gt, if_pos hd, if_neg hp.le.not_gt, if_pos hp]

theorem ofSign_zero : Turn.ofSign (0 : F) = .collinear := by simp [Turn.ofSign]

theorem orientation3R_repeated (h : SignedRounding fl u) {l r o : Vec F 2} (he : l = r ∨ r = o ∨ l = o) :
    orientation3R fl l r o = .collinear ∧ orientation3 l r o = .collinear := by
  rw [orientation3R_eq h, orientation3_eq]
  rcases he with rfl | rfl | rfl
  · constructor
    · rw [mul_comm (fl (l 1 - o 1)), sub_self, ofSign_zero]
    · rw [mul_comm (l 1 - o 1), sub_self, ofSign_zero]
  · simp [h.zero, ofSign_zero]
  · simp [h.zero, ofSign_zero]

theorem orientation3R_all (h : SignedRounding fl u) {points : List (Vec F 2)} (hc : AllWellApart u points) {l r o : Vec F 2}
    (hl : l ∈ points) (hr : r ∈ points) (ho : o ∈ points) : orientation3R fl l r o = orientation3 l r o := by
  by_cases he : l = r ∨ r = o ∨ l = o
  · obtain ⟨h1, h2⟩ := orientation3R_repeated h he
    rw [h1, h2]
  · push Not at he
    exact orientation3R_clear h (hc l hl r hr o ho he.1 he.2.1 he.2.2)

theorem grid_sub {g : F} {M : Int} {p q : Vec F 2} (hp : OnGrid g M p) (hq : OnGrid g M q) (i : Fin 2) :
    ∃ k : Int, |k| ≤ 2 * M ∧ p i - q i = k * g := by
  obtain ⟨a, ha, e1⟩ := hp i
  obtain ⟨b, hb, e2⟩ := hq i
  refine ⟨a - b, ?_, ?_⟩
  · rw [abs_le] at *
    constructor <;> linarith [ha.1, ha.2, hb.1, hb.2]
  · rw [e1, e2]
    push_cast
    ring

theorem orientation3R_grid {g : F} {M : Int} (he : Exact fl g M) {l r o : Vec F 2} (hl : OnGrid g M l)
    (hr : OnGrid g M r) (ho : OnGrid g M o) : orientation3R fl l r o = orientation3 l r o := by
  obtain ⟨a, ha, ea⟩ := grid_sub hr ho 0
  obtain ⟨b, hb, eb⟩ := grid_sub hl ho 1
  obtain ⟨c, hc, ec⟩ := grid_sub hr ho 1
  obtain ⟨d, hd, ed⟩ := grid_sub hl ho 0
  have hab : |a * b| ≤ 4 * (M * M) := by
    rw [abs_mul]
    exact (mul_le_mul ha hb (abs_nonneg _) ((abs_nonneg _).trans ha)).trans (by nlinarith)
  have hcd : |c * d| ≤ 4 * (M * M) := by
    rw [abs_mul]
    exact (mul_le_mul hc hd (abs_nonneg _) ((abs_nonneg _).trans hc)).trans (by nlinarith)
  have h4 : 0 ≤ 4 * (M * M) := (abs_nonneg _).trans hab
  have e1 : (a * g) * (b * g) = ((a * b : Int) : F) * g ^ 2 := by push_cast; ring
  have e2 : (c * g) * (d * g) = ((c * d : Int) : F) * g ^ 2 := by push_cast; ring
  have e3 : ((a * b : Int) : F) * g ^ 2 - ((c * d : Int) : F) * g ^ 2 = ((a * b - c * d : Int) : F) * g ^ 2 := by
    push_cast; ring
  have hab' := abs_le.1 hab
  have hcd' := abs_le.1 hcd
  rw [orientation3R, areaR, orientation3_eq]
  simp only [subR, Matrix.cons_val_zero, Matrix.cons_val_one]
  rw [ea, eb, ec, ed, he.unit a ha, he.unit b hb, he.unit c hc, he.unit d hd, e1, e2, he.square (a * b) (by linarith),
    he.square (c * d) (by linarith), e3, he.square (a * b - c * d) (abs_le.2 ⟨by linarith, by linarith⟩)]

/-! ### The hull -/

section hull

variable {turn : Vec F 2 → Vec F 2 → Vec F 2 → Turn}

omit [IsStrictOrderedRing F] in
theorem pointAt_some {points : List (Vec F 2)} {i : Nat} {p : Vec F 2} (h : points[i]? = some p) : pointAt points i = p := by
  simp [pointAt, h]

omit [IsStrictOrderedRing F] in
theorem popLastT_exact {S points : List (Vec F 2)} (ht : ∀ l ∈ S, ∀ r ∈ S, ∀ o ∈ S, turn l r o = orientation3 l r o)
    (h : ∀ p ∈ points, p ∈ S) {p : Vec F 2} (hp : p ∈ S) : ∀ last, last < points.length →
    popLastT turn points p last = some (popLast points p last)
  | 0, _ => rfl
  | last + 1, hl => by
    have e1 : points[last + 1]? = some points[last + 1] := List.getElem?_eq_getElem hl
    have e0 : points[last]? = some points[last] := List.getElem?_eq_getElem (by omega)
    rw [popLastT, popLast, e1, e0, Option.bind_some, Option.bind_some, pointAt_some e1, pointAt_some e0, rightTurn,
      ht _ hp _ (h _ (List.getElem_mem _)) _ (h _ (List.getElem_mem _)), popLastT_exact ht h hp last (by omega)]
    by_cases ht : orientation3 p points[last + 1] points[last] = .right <;> simp [ht]

omit [IsStrictOrderedRing F] in
theorem resortT_mem {pivot i : Nat} {points : List (Vec F 2)} {p : Vec F 2} (h : p ∈ resortT pivot i points) :
    p ∈ points := by
  unfold resortT at h
  split at h
  · rcases List.mem_append.1 h with h | h
    · exact List.mem_of_mem_take h
    · exact List.mem_of_mem_drop (List.mem_mergeSort.1 h)
  · exact h

omit [IsStrictOrderedRing F] in
theorem resortT_length (pivot i : Nat) (points : List (Vec F 2)) : (resortT pivot i points).length = points.length := by
  unfold resortT sortPointsDown
  split
  · simp; omega
  · rfl

omit [IsStrictOrderedRing F] in
theorem resortT_get {pivot i j : Nat} {points : List (Vec F 2)} (hj : j < i) (hi : i ≤ points.length) :
    (resortT pivot i points)[j]? = points[j]? := by
  unfold resortT
  split
  · rw [List.getElem?_append_left (by rw [List.length_take]; omega), List.getElem?_take_of_lt hj]
  · rfl

theorem hullLoopT_exact {S : List (Vec F 2)} (ht : ∀ l ∈ S, ∀ r ∈ S, ∀ o ∈ S, turn l r o = orientation3 l r o)
    (pivot : Nat) : ∀ (fuel i : Nat) (points : List (Vec F 2)) (last : Nat), (∀ p ∈ points, p ∈ S) →
    i + fuel = points.length → last < i →
      hullLoopT turn pivot fuel i points last = some (hullLoop pivot fuel i points last) ∧
      (∀ p ∈ (hullLoop pivot fuel i points last).1, p ∈ S) ∧
      (hullLoop pivot fuel i points last).1.length = points.length ∧ (hullLoop pivot fuel i points last).2 < points.length
  | 0, i, points, last, h, hi, hl => ⟨rfl, h, rfl, by rw [hullLoop]; simp; omega⟩
  | fuel + 1, i, points, last, h, hi, hl => by
    have hlen := resortT_length pivot i points
    have hmem : ∀ p ∈ resortT pivot i points, p ∈ S := fun p hp => h p (resortT_mem hp)
    have hget : (resortT pivot i points)[i]? = some ((resortT pivot i points)[i]'(by omega)) :=
      List.getElem?_eq_getElem (by omega)
    have hpb : (resortT pivot i points)[i]'(by omega) ∈ S := hmem _ (List.getElem_mem _)
    generalize (resortT pivot i points)[i]'(by omega) = p at hget hpb
    have hloop : hullLoop pivot (fuel + 1) i points last =
        hullLoop pivot fuel (i + 1) ((resortT pivot i points).set (popLast (resortT pivot i points) p last + 1) p)
          (popLast (resortT pivot i points) p last + 1) := by
      rw [← pointAt_some hget]
      rfl
    rw [hullLoopT, hget, Option.bind_some, popLastT_exact ht hmem hpb last (by omega), Option.bind_some, hloop]
    have hle := popLast_le (resortT pivot i points) p last
    generalize popLast (resortT pivot i points) p last = k at hle ⊢
    rw [if_pos (by omega)]
    have := hullLoopT_exact ht pivot fuel (i + 1) ((resortT pivot i points).set (k + 1) p) (k + 1) (fun q hq => by
        rcases List.mem_or_eq_of_mem_set hq with hq | rfl
        · exact hmem q hq
        · exact hpb) (by rw [List.length_set, hlen]; omega) (by omega)
    rw [List.length_set, hlen] at this
    exact this

/-- With a test that is right on the points given, the hull is the exact one. -/
theorem convexHullT_exact {points : List (Vec F 2)}
    (ht : ∀ l ∈ points, ∀ r ∈ points, ∀ o ∈ points, turn l r o = orientation3 l r o) :
    convexHullT turn points = some (convexHull points) := by
  match points, ht with
  | [], _ => rfl
  | [x], _ => rfl
  | x :: y :: rest, ht =>
    have hp2 := convexHull_pivot x y rest
    have hE := ends x y rest
    rw [convexHullT, convexHull.eq_def]
    simp only
    generalize hea : minPoint x (y :: rest) = a at *
    generalize heb : maxPoint x (y :: rest) = b at *
    generalize hP : x :: y :: rest = points at *
    have el : (points.filter fun p => !decide (turn p b a = .right)) =
        points.filter fun p => !decide (orientationLine p (Line.through a b .free) = .right) :=
      List.filter_congr fun p hp => by rw [ht p hp b hE.hb a hE.ha]; rfl
    have eu : (points.filter fun p => decide (turn p b a = .right)) =
        points.filter fun p => !!decide (orientationLine p (Line.through a b .free) = .right) :=
      List.filter_congr fun p hp => by rw [ht p hp b hE.hb a hE.ha, Bool.not_not]; rfl
    rw [el, eu, if_pos hp2]
    generalize hl : (points.filter fun p => !decide (orientationLine p (Line.through a b .free) = .right)) = low at *
    generalize hu : (points.filter fun p => !!decide (orientationLine p (Line.through a b .free) = .right)) = upp at *
    have hlen : low.length + upp.length = points.length := by
      rw [← hl, ← hu]
      exact (List.length_eq_length_filter_add _).symm
    have hmem : ∀ p ∈ sortPoints low ++ upp, p ∈ points := by
      intro p hp
      rcases List.mem_append.1 hp with hp | hp
      · have := List.mem_mergeSort.1 hp
        rw [← hl] at this
        exact List.mem_of_mem_filter this
      · rw [← hu] at hp
        exact List.mem_of_mem_filter hp
    have hlen' : (sortPoints low ++ upp).length = points.length := by
      rw [List.length_append, sortPoints, List.length_mergeSort, hlen]
    have h2 : 2 ≤ points.length := by omega
    obtain ⟨h1, h3, h4, h5⟩ := hullLoopT_exact ht low.length (points.length - 2) 2 (sortPoints low ++ upp) 1 hmem
      (by omega) (by omega)
    rw [hlen'] at h4 h5 ⊢
    rw [h1, Option.bind_some]
    generalize hullLoop low.length (points.length - 2) 2 (sortPoints low ++ upp) 1 = r at *
    obtain ⟨pts, last⟩ := r
    simp only at h3 h4 h5 ⊢
    have e0 : pts[0]? = some (pts[0]'(by omega)) := List.getElem?_eq_getElem _
    have e1 : pts[1]? = some (pts[1]'(by omega)) := List.getElem?_eq_getElem _
    rw [closeT, e0, e1, Option.bind_some, popLastT_exact ht h3 (h3 _ (List.getElem_mem _)) last (by omega), Option.bind_some,
      Option.map_some]
    simp only [pointAt_some e0, pointAt_some e1]

/-! ### The hull with any test -/

omit [IsStrictOrderedRing F] in
/-- What `pop` does: it stays within the array and stops at the first point or at a turn to the right. -/
theorem popLastT_safe (points : List (Vec F 2)) (p : Vec F 2) : ∀ last, last < points.length →
    ∃ k, popLastT turn points p last = some k ∧ k ≤ last ∧
      (∀ j, k = j + 1 → ∃ q o, points[j + 1]? = some q ∧ points[j]? = some o ∧ turn p q o = .right)
  | 0, _ => ⟨0, rfl, le_rfl, by omega⟩
  | last + 1, hl => by
    have e1 : points[last + 1]? = some points[last + 1] := List.getElem?_eq_getElem hl
    have e0 : points[last]? = some points[last] := List.getElem?_eq_getElem (by omega)
    rw [popLastT, e1, e0, Option.bind_some, Option.bind_some]
    by_cases ht : turn p points[last + 1] points[last] = .right
    · refine ⟨last + 1, by rw [if_pos ht], le_rfl, fun j hj => ?_⟩
      obtain rfl : last = j := by omega
      exact ⟨_, _, e1, e0, ht⟩
    · obtain ⟨k, h1, h2, h3⟩ := popLastT_safe points p last (by omega)
      exact ⟨k, by rw [if_neg ht, h1], by omega, h3⟩

/-- The first `last + 1` elements turn to the right, according to the test. -/
def Turning (turn : Vec F 2 → Vec F 2 → Vec F 2 → Turn) (points : List (Vec F 2)) (last : Nat) : Prop :=
  ∀ j, j + 2 ≤ last → ∃ p q o, points[j + 2]? = some p ∧ points[j + 1]? = some q ∧ points[j]? = some o ∧ turn p q o = .right

omit [IsStrictOrderedRing F] in
theorem Turning.mono {points : List (Vec F 2)} {last k : Nat} (h : Turning turn points last) (hk : k ≤ last) :
    Turning turn points k := fun j hj => h j (by omega)

omit [IsStrictOrderedRing F] in
theorem hullLoopT_safe (pivot : Nat) : ∀ (fuel i : Nat) (points : List (Vec F 2)) (last : Nat),
    i + fuel = points.length → last < i → Turning turn points last →
    ∃ pts last', hullLoopT turn pivot fuel i points last = some (pts, last') ∧ (∀ p ∈ pts, p ∈ points) ∧
      pts.length = points.length ∧ last' < points.length ∧ pts[0]? = points[0]? ∧ Turning turn pts last'
  | 0, i, points, last, hi, hl, ht => ⟨points, last, rfl, fun _ h => h, rfl, by omega, rfl, ht⟩
  | fuel + 1, i, points, last, hi, hl, ht => by
    have hlen := resortT_length pivot i points
    have hget : (resortT pivot i points)[i]? = some ((resortT pivot i points)[i]'(by omega)) :=
      List.getElem?_eq_getElem (by omega)
    have hpb : (resortT pivot i points)[i]'(by omega) ∈ points := resortT_mem (List.getElem_mem _)
    generalize (resortT pivot i points)[i]'(by omega) = p at hget hpb
    obtain ⟨k, e, hk, hp⟩ := popLastT_safe (turn := turn) (resortT pivot i points) p last (by omega)
    rw [hullLoopT, hget, Option.bind_some, e, Option.bind_some, if_pos (by omega)]
    have hold : ∀ j, j ≤ k → ((resortT pivot i points).set (k + 1) p)[j]? = points[j]? := by
      intro j hj
      rw [List.getElem?_set_ne (by omega), resortT_get (by omega) (by omega)]
    have hnew : ((resortT pivot i points).set (k + 1) p)[k + 1]? = some p := by
      rw [List.getElem?_set_self (by omega)]
    obtain ⟨pts, last', h1, h2, h3, h4, h5, h6⟩ := hullLoopT_safe pivot fuel (i + 1)
      ((resortT pivot i points).set (k + 1) p) (k + 1) (by rw [List.length_set]; omega) (by omega) (by
        intro j hj
        rcases Nat.lt_or_ge (j + 2) (k + 1) with h | h
        · obtain ⟨a, b, c, e1, e2, e3, e4⟩ := ht j (by omega)
          exact ⟨a, b, c, by rw [hold _ (by omega), e1], by rw [hold _ (by omega), e2], by rw [hold _ (by omega), e3], e4⟩
        · obtain rfl : k = j + 1 := by omega
          obtain ⟨q, o, e1, e2, e3⟩ := hp j rfl
          rw [resortT_get (by omega) (by omega)] at e1 e2
          exact ⟨p, q, o, hnew, by rw [hold _ (by omega), e1], by rw [hold _ (by omega), e2], e3⟩)
    rw [List.length_set, hlen] at h3 h4
    refine ⟨pts, last', h1, fun q hq => ?_, h3, h4, by rw [h5, hold 0 (by omega)], h6⟩
    rcases List.mem_or_eq_of_mem_set (h2 q hq) with hq | rfl
    · exact resortT_mem hq
    · exact hpb

/-- The points that the first pass works on: two or more, the smallest first. -/
theorem lowT {a b x y : Vec F 2} {rest : List (Vec F 2)} (h : Ends a b (x :: y :: rest)) (h1 : ∀ p q, turn p q p ≠ .right)
    (h2 : ∀ p q, turn q q p ≠ .right) :
    2 ≤ ((x :: y :: rest).filter fun p => !decide (turn p b a = .right)).length ∧
    ∃ L, sortPoints ((x :: y :: rest).filter fun p => !decide (turn p b a = .right)) = a :: L := by
  have ha : a ∈ (x :: y :: rest).filter fun p => !decide (turn p b a = .right) := by
    rw [List.mem_filter]
    exact ⟨h.ha, by simp [h1]⟩
  have hb : b ∈ (x :: y :: rest).filter fun p => !decide (turn p b a = .right) := by
    rw [List.mem_filter]
    exact ⟨h.hb, by simp [h2]⟩
  constructor
  · by_cases hab : a = b
    · subst hab
      have hall : ∀ p ∈ x :: y :: rest, p = a := fun p hp => key_inj.1 (le_antisymm (h.high p hp) (h.low p hp))
      rw [List.filter_eq_self.2]
      · simp
      · intro p hp
        rw [hall p hp]
        simp [h1]
    · have hsub : [a, b].Subperm ((x :: y :: rest).filter fun p => !decide (turn p b a = .right)) :=
        (List.nodup_cons.2 ⟨by simpa using hab, List.nodup_singleton _⟩).subperm (by
          intro p hp
          rcases List.mem_pair.1 hp with rfl | rfl
          exacts [ha, hb])
      exact hsub.length_le
  · have hm : a ∈ sortPoints ((x :: y :: rest).filter fun p => !decide (turn p b a = .right)) :=
      ((sortPoints_perm _).mem_iff).2 ha
    have hs := sortPoints_sorted ((x :: y :: rest).filter fun p => !decide (turn p b a = .right))
    have hall : ∀ p ∈ sortPoints ((x :: y :: rest).filter fun p => !decide (turn p b a = .right)), key a ≤ key p := fun p hp =>
      h.low p (List.mem_filter.1 (((sortPoints_perm _).mem_iff).1 hp)).1
    generalize sortPoints ((x :: y :: rest).filter fun p => !decide (turn p b a = .right)) = S at *
    match S, hm, hs, hall with
    | s :: L, hm, hs, hall =>
      refine ⟨L, ?_⟩
      rcases List.mem_cons.1 hm with rfl | hm
      · rfl
      · have := (List.pairwise_cons.1 hs).1 a hm
        rw [key_inj.1 (le_antisymm this (hall s (by simp)))]

/-- With any orientation test that gives no turn to the right for a point with itself, the code stays within the array, meets its
assertion, and returns points of the array, the smallest first, that turn to the right by the test. -/
theorem convexHullT_safe (h1 : ∀ p q, turn p q p ≠ .right) (h2 : ∀ p q, turn q q p ≠ .right) (points : List (Vec F 2)) :
    ∃ hull, convexHullT turn points = some hull ∧ (∀ p ∈ hull, p ∈ points) ∧ hull.length ≤ points.length ∧
      (points ≠ [] → ∃ a, hull.head? = some a ∧ ∀ p ∈ points, a 0 < p 0 ∨ a 0 = p 0 ∧ a 1 ≤ p 1) ∧
      (∀ j o q p, hull[j]? = some o → hull[j + 1]? = some q → (hull ++ hull.take 1)[j + 2]? = some p → turn p q o = .right) := by
  match points with
  | [] => exact ⟨[], rfl, by simp, by simp, by simp, by simp⟩
  | [x] => exact ⟨[x], rfl, by simp, by simp, fun _ => ⟨x, rfl, by simp⟩, by simp⟩
  | x :: y :: rest =>
    have hE := ends x y rest
    rw [convexHullT]
    generalize hea : minPoint x (y :: rest) = a at *
    generalize heb : maxPoint x (y :: rest) = b at *
    obtain ⟨hl2, L, hL⟩ := lowT hE h1 h2
    generalize hP : x :: y :: rest = points at *
    have h2' : 2 ≤ points.length := by rw [← hP]; simp
    rw [if_pos hl2]
    generalize hl : (points.filter fun p => !decide (turn p b a = .right)) = low at *
    generalize hu : (points.filter fun p => decide (turn p b a = .right)) = upp at *
    have hlen : low.length + upp.length = points.length := by
      rw [← hl, ← hu]
      have := List.length_eq_length_filter_add (l := points) (fun p => !decide (turn p b a = .right))
      simpa using this.symm
    have hmem : ∀ p ∈ sortPoints low ++ upp, p ∈ points := by
      intro p hp
      rcases List.mem_append.1 hp with hp | hp
      · have := List.mem_mergeSort.1 hp
        rw [← hl] at this
        exact List.mem_of_mem_filter this
      · rw [← hu] at hp
        exact List.mem_of_mem_filter hp
    have hlen' : (sortPoints low ++ upp).length = points.length := by
      rw [List.length_append, sortPoints, List.length_mergeSort, hlen]
    have hhead : (sortPoints low ++ upp)[0]? = some a := by rw [hL]; rfl
    obtain ⟨pts, last, e, hm, hln, hlast, h0, ht⟩ := hullLoopT_safe (turn := turn) low.length (points.length - 2) 2
      (sortPoints low ++ upp) 1 (by omega) (by omega) (fun j hj => by omega)
    rw [hlen'] at hln hlast
    rw [hhead] at h0
    rw [e, Option.bind_some]
    simp only
    obtain ⟨k, e1, hk, hp⟩ := popLastT_safe (turn := turn) pts a last (by omega)
    have e2 : pts[1]? = some (pts[1]'(by omega)) := List.getElem?_eq_getElem _
    rw [closeT, h0, Option.bind_some, e1, Option.bind_some, e2, Option.map_some]
    have hk1 : k ≠ 1 := by
      rintro rfl
      obtain ⟨q, o, _, h, hr⟩ := hp 0 rfl
      rw [h0] at h
      obtain rfl := Option.some.inj h
      exact h1 _ _ hr
    rw [if_neg (fun h => hk1 h.1)]
    have hkl : k + 1 ≤ pts.length := by omega
    have hget : ∀ j, j ≤ k → (pts.take (k + 1))[j]? = pts[j]? := fun j hj => List.getElem?_take_of_lt (by omega)
    have htk : (pts.take (k + 1)).length = k + 1 := by rw [List.length_take]; omega
    refine ⟨_, rfl, fun p hp => hmem p (hm p (List.mem_of_mem_take hp)), by rw [htk]; omega, fun _ => ⟨a, ?_, ?_⟩, ?_⟩
    · rw [List.head?_eq_getElem?, hget 0 (by omega), h0]
    · intro p hp
      have := hE.low p hp
      rw [key_le_iff, LexNonneg] at this
      simp only [Pi.sub_apply, sub_pos, sub_eq_zero, sub_nonneg] at this
      rcases this with h | ⟨h, h'⟩
      · exact .inl h
      · exact .inr ⟨h.symm, h'⟩
    · intro j o q p ho hq hpp
      have hj : j + 1 < k + 1 := by
        have := (List.getElem?_eq_some_iff.1 hq).1
        omega
      rw [hget _ (by omega)] at ho hq
      rcases Nat.lt_or_ge (j + 2) (k + 1) with h | h
      · rw [List.getElem?_append_left (by omega), hget _ (by omega)] at hpp
        obtain ⟨p', q', o', f1, f2, f3, f4⟩ := ht j (by omega)
        rw [hpp] at f1; rw [hq] at f2; rw [ho] at f3
        cases f1; cases f2; cases f3
        exact f4
      · obtain rfl : k = j + 1 := by omega
        rw [List.getElem?_append_right (by omega), htk, Nat.sub_self, List.take_take, List.getElem?_take_of_lt (by simp), h0] at hpp
        obtain ⟨q', o', f1, f2, f3⟩ := hp j rfl
        rw [hq] at f1; rw [ho] at f2
        cases f1; cases f2; cases hpp
        exact f3

/-! ### The other functions -/

omit [IsStrictOrderedRing F] in
theorem withinTriangleT_exact {p a b c : Vec F 2}
    (ht : ∀ l ∈ [p, a, b, c], ∀ r ∈ [p, a, b, c], ∀ o ∈ [p, a, b, c], turn l r o = orientation3 l r o) :
    withinTriangleT turn p a b c = withinTriangle p a b c := by
  unfold withinTriangleT withinTriangle
  rw [ht p (by simp) b (by simp) a (by simp), ht p (by simp) c (by simp) b (by simp), ht p (by simp) a (by simp) c (by simp)]

omit [IsStrictOrderedRing F] in
theorem windStepT_exact {p a b : Vec F 2} (ht : turn p b a = orientation3 p b a) : windStepT turn p a b = windStep p a b := by
  unfold windStepT windStep
  rw [ht]

omit [IsStrictOrderedRing F] in
theorem cyclicAt_mem {poly : List (Vec F 2)} {i k : Int} (hi : 0 ≤ i) (hl : i < poly.length) (hk : -1 ≤ k ∧ k ≤ 1) :
    cyclicAt poly i k ∈ poly := by
  have hr : 0 ≤ cyclicAdd poly.length i k ∧ cyclicAdd poly.length i k < poly.length := by
    unfold cyclicAdd
    repeat' split
    all_goals omega
  have e : poly[(cyclicAdd poly.length i k).toNat]? =
      some (poly[(cyclicAdd poly.length i k).toNat]'(by omega)) := List.getElem?_eq_getElem _
  rw [cyclicAt, e]
  exact List.getElem_mem _

omit [IsStrictOrderedRing F] in
theorem windLoopT_exact {p : Vec F 2} {poly : List (Vec F 2)} (ht : ∀ r ∈ poly, ∀ o ∈ poly, turn p r o = orientation3 p r o) :
    ∀ (n : Nat) (i res : Int), 0 ≤ i → i < poly.length → windLoopT turn p poly n i res = windLoop p poly n i res
  | 0, _, _, _, _ => rfl
  | n + 1, i, res, hi, hl => by
    rw [windLoopT, windLoop, windStepT_exact (ht _ (cyclicAt_mem hi hl (by omega)) _ (cyclicAt_mem hi hl (by omega)))]
    cases windStep p (cyclicAt poly i 0) (cyclicAt poly i 1) with
    | none => rfl
    | some d =>
      have : 0 ≤ cyclicNext poly.length i ∧ cyclicNext poly.length i < poly.length := by
        unfold cyclicNext
        split <;> omega
      exact windLoopT_exact ht n _ _ this.1 this.2

omit [IsStrictOrderedRing F] in
theorem windingNumberT_exact {p : Vec F 2} {poly : List (Vec F 2)}
    (ht : ∀ r ∈ poly, ∀ o ∈ poly, turn p r o = orientation3 p r o) : windingNumberT turn p poly = windingNumber p poly := by
  match poly, ht with
  | [], _ => rfl
  | [v], _ => rfl
  | v :: v' :: vs, ht => exact windLoopT_exact ht _ 0 0 le_rfl (by simp; omega)

end hull

/-! ### The area of a polygon -/

/-- One more term: the sum gets one more rounding, the term three. -/
theorem area_step (h : SignedRounding fl u) {res S T x y : F} {k : Nat} (hT : 0 ≤ T) (hST : |S| ≤ T) (hk : 2 ≤ k)
    (hr : |res - S| ≤ ((1 + u) ^ k - 1) * T) :
    |fl (res + fl (x * fl y)) - (S + x * y)| ≤ ((1 + u) ^ (k + 1) - 1) * (T + |x * y|) ∧ |S + x * y| ≤ T + |x * y| := by
  have hu := h.nonneg
  obtain ⟨q1, e1, h1⟩ := h.factor y
  obtain ⟨q2, e2, h2⟩ := h.factor (x * fl y)
  have h12 := factor_mul hu h1 h2
  have et : fl (x * fl y) = x * y * (q1 * q2) := by rw [e2, e1]; ring
  have h3 : |fl (x * fl y) - x * y| ≤ ((1 + u) ^ k - 1) * |x * y| := by
    rw [et, show x * y * (q1 * q2) - x * y = (q1 * q2 - 1) * (x * y) by ring, abs_mul]
    refine mul_le_mul_of_nonneg_right (h12.trans ?_) (abs_nonneg _)
    have : (1 + u) ^ (1 + 1) ≤ (1 + u) ^ k := pow_le_pow_right₀ (by linarith) hk
    linarith
  have hs : |S + x * y| ≤ T + |x * y| := (abs_add_le _ _).trans (by linarith)
  refine ⟨?_, hs⟩
  have h4 := h.near (res + fl (x * fl y))
  have h5 : |res + fl (x * fl y) - (S + x * y)| ≤ ((1 + u) ^ k - 1) * (T + |x * y|) := by
    have := abs_add_le (res - S) (fl (x * fl y) - x * y)
    rw [show res - S + (fl (x * fl y) - x * y) = res + fl (x * fl y) - (S + x * y) by ring] at this
    rw [mul_add]
    linarith
  have h6 : |res + fl (x * fl y)| ≤ (1 + u) ^ k * (T + |x * y|) := by
    have := abs_add_le (res + fl (x * fl y) - (S + x * y)) (S + x * y)
    rw [sub_add_cancel] at this
    linarith
  have h7 := abs_add_le (fl (res + fl (x * fl y)) - (res + fl (x * fl y))) (res + fl (x * fl y) - (S + x * y))
  rw [sub_add_sub_cancel] at h7
  have h8 := mul_le_mul_of_nonneg_left h6 hu
  rw [pow_succ]
  linarith

theorem polyAreaLoopR_error (h : SignedRounding fl u) (poly : List (Vec F 2)) : ∀ (n i k : Nat) (res S T : F),
    i + n = poly.length → 0 ≤ T → |S| ≤ T → 2 ≤ k → |res - S| ≤ ((1 + u) ^ k - 1) * T →
    |polyAreaLoopR fl poly n (i % poly.length : Nat) res - (S + ∑ j ∈ Finset.range n,
      vert poly (i + j) 0 * (vert poly (i + j + 1) 1 - vert poly (i + j + poly.length - 1) 1))| ≤
      ((1 + u) ^ (k + n) - 1) * (T + ∑ j ∈ Finset.range n,
      |vert poly (i + j) 0 * (vert poly (i + j + 1) 1 - vert poly (i + j + poly.length - 1) 1)|)
  | 0, i, k, res, S, T, hi, hT, hS, hk, hr => by simpa [polyAreaLoopR] using hr
  | n + 1, i, k, res, S, T, hn, hT, hS, hk, hr => by
    have hi : i < poly.length := by omega
    have e : cyclicNext (poly.length : Int) (i : Int) = ((i + 1) % poly.length : Nat) := by
      rw [cyclicNext_eq (by omega) (by omega)]; simp
    rw [polyAreaLoopR, Nat.mod_eq_of_lt hi, cyclicAt_zero poly hi, cyclicAt_one poly hi, cyclicAt_neg_one poly hi, e]
    obtain ⟨s1, s2⟩ := area_step h (x := vert poly i 0) (y := vert poly (i + 1) 1 - vert poly (i + poly.length - 1) 1) hT hS hk hr
    have := polyAreaLoopR_error h poly n (i + 1) (k + 1) _ _ _ (by omega)
      (add_nonneg hT (abs_nonneg (vert poly i 0 * (vert poly (i + 1) 1 - vert poly (i + poly.length - 1) 1)))) s2 (by omega) s1
    rw [Finset.sum_range_succ', Finset.sum_range_succ']
    simp only [add_zero]
    simp only [show ∀ j, i + 1 + j = i + (j + 1) from fun j => by omega] at this
    rw [show k + (n + 1) = k + 1 + n by omega]
    convert this using 2
    · ring
    · ring

theorem polyAreaLoopR_grid {g : F} {M : Int} (poly : List (Vec F 2)) (hg : ∀ v ∈ poly, OnGrid g M v)
    (h1 : ∀ k : Int, |k| ≤ 2 * M → fl (k * g) = k * g)
    (h2 : ∀ k : Int, |k| ≤ 2 * poly.length * (M * M) → fl (k * g ^ 2) = k * g ^ 2) : ∀ (n : Nat) (i c : Int),
    0 ≤ i → i < poly.length → |c| + 2 * n * (M * M) ≤ 2 * poly.length * (M * M) →
    polyAreaLoopR fl poly n i (c * g ^ 2) = polyAreaLoop poly n i (c * g ^ 2)
  | 0, _, _, _, _, _ => rfl
  | n + 1, i, c, hi, hl, hc => by
    obtain ⟨a, ha, ea⟩ := hg _ (cyclicAt_mem hi hl (k := 0) (by omega)) 0
    obtain ⟨b, hb, eb⟩ := grid_sub (hg _ (cyclicAt_mem hi hl (k := 1) (by omega))) (hg _ (cyclicAt_mem hi hl (k := -1) (by omega))) 1
    have hM : 0 ≤ M * M := mul_self_nonneg M
    have hab : |a * b| ≤ 2 * (M * M) := by
      rw [abs_mul]
      exact (mul_le_mul ha hb (abs_nonneg _) ((abs_nonneg _).trans ha)).trans (by nlinarith)
    have hcab : |c + a * b| ≤ |c| + 2 * (M * M) := (abs_add_le _ _).trans (by linarith)
    have hn : 0 ≤ 2 * (n : Int) * (M * M) := by positivity
    push_cast at hc
    rw [polyAreaLoopR, polyAreaLoop, ea, eb, h1 b hb, show (a * g) * (b * g) = ((a * b : Int) : F) * g ^ 2 by push_cast; ring,
      h2 (a * b) (by linarith [abs_nonneg c]),
      show (c : F) * g ^ 2 + ((a * b : Int) : F) * g ^ 2 = ((c + a * b : Int) : F) * g ^ 2 by push_cast; ring,
      h2 (c + a * b) (by linarith)]
    have : 0 ≤ cyclicNext poly.length i ∧ cyclicNext poly.length i < poly.length := by
      unfold cyclicNext
      split <;> omega
    exact polyAreaLoopR_grid poly hg h1 h2 n _ _ this.1 this.2 (by linarith)

/-! ### Binary rounding -/

theorem roundSigned_signed {prec : Nat} (hp : 0 < prec) : SignedRounding (roundSigned prec) ((2 : ℚ) ^ prec)⁻¹ := by
  have hr := IntText.roundBinary_rounding hp
  refine ⟨hr.nonneg, hr.small, fun y => ?_⟩
  unfold roundSigned
  split
  · rename_i hy
    have := hr.near (-y) (by linarith)
    rw [abs_of_neg hy, show -IntText.roundBinary prec (-y) - y = -(IntText.roundBinary prec (-y) - -y) by ring, abs_neg]
    exact this
  · rename_i hy
    rw [abs_of_nonneg (not_lt.1 hy)]
    exact hr.near y (not_lt.1 hy)

theorem log_mul_zpow (x : ℚ) (hx : 0 < x) (e : Int) : Int.log 2 (x * 2 ^ e) = Int.log 2 x + e := by
  have hp : (0 : ℚ) < 2 ^ e := zpow_pos (by norm_num) e
  have h1 := Int.zpow_log_le_self (b := 2) (by norm_num) hx
  have h2 := Int.lt_zpow_succ_log_self (b := 2) (by norm_num) x
  apply le_antisymm
  · rw [← Int.lt_add_one_iff, Int.lt_zpow_iff_log_lt (by norm_num) (by positivity) |>.symm]
    push_cast at h2 ⊢
    rw [show Int.log 2 x + e + 1 = Int.log 2 x + 1 + e by ring, zpow_add₀ (by norm_num)]
    exact mul_lt_mul_of_pos_right h2 hp
  · rw [← Int.zpow_le_iff_le_log (by norm_num) (by positivity)]
    push_cast at h1 ⊢
    rw [zpow_add₀ (by norm_num)]
    exact mul_le_mul_of_nonneg_right h1 hp.le

theorem roundBinary_scale (prec : Nat) {x : ℚ} (hx : 0 ≤ x) (e : Int) :
    IntText.roundBinary prec (x * 2 ^ e) = IntText.roundBinary prec x * 2 ^ e := by
  rcases hx.lt_or_eq with hx | rfl
  · have hp : (0 : ℚ) < 2 ^ e := zpow_pos (by norm_num) e
    unfold IntText.roundBinary
    simp only
    rw [log_mul_zpow x hx, show Int.log 2 x + e + 1 - (prec : Int) = Int.log 2 x + 1 - prec + e by ring, zpow_add₀ (by norm_num),
      mul_div_mul_right _ _ hp.ne', mul_assoc]
  · simp [IntText.roundBinary]

theorem roundSigned_int {prec : Nat} (hp : 0 < prec) {k : Int} (hk : |k| ≤ 2 ^ prec) (e : Int) :
    roundSigned prec (k * 2 ^ e) = k * 2 ^ e := by
  have h2 : (0 : ℚ) < 2 ^ e := zpow_pos (by norm_num) e
  have key : ∀ n : Nat, n ≤ 2 ^ prec → IntText.roundBinary prec ((n : ℚ) * 2 ^ e) = n * 2 ^ e := fun n hn => by
    rw [roundBinary_scale prec (by positivity), IntText.roundBinary_nat hp hn]
  unfold roundSigned
  split
  · rename_i hneg
    have hk0 : k < 0 := by
      by_contra h
      have : (0 : ℚ) ≤ k := by exact_mod_cast not_lt.1 h
      exact absurd hneg (not_lt.2 (by positivity))
    obtain ⟨n, rfl⟩ : ∃ n : Nat, k = -n := ⟨k.toNat + (-k).toNat, by omega⟩
    rw [abs_neg, Nat.abs_cast] at hk
    have := key n (by exact_mod_cast hk)
    push_cast
    rw [neg_mul, neg_neg, this]
  · rename_i hneg
    have hk0 : 0 ≤ k := by
      by_contra h
      have : (k : ℚ) < 0 := by exact_mod_cast not_le.1 h
      exact hneg (mul_neg_of_neg_of_pos this h2)
    obtain ⟨n, rfl⟩ := Int.eq_ofNat_of_zero_le hk0
    rw [Nat.abs_cast] at hk
    exact_mod_cast key n (by exact_mod_cast hk)

theorem roundSigned_exact {prec : Nat} (hp : 0 < prec) {M : Int} (hM : 8 * (M * M) ≤ 2 ^ prec) (hM' : 2 * M ≤ 2 ^ prec) (e : Int) :
    Exact (roundSigned prec) (2 ^ e) M where
  unit k hk := roundSigned_int hp (hk.trans hM') e
  square k hk := by
    have := roundSigned_int hp (hk.trans hM) (e * 2)
    rw [zpow_mul] at this
    exact_mod_cast this

end Actl.Geo
