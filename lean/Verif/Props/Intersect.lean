import Verif.Model.Intersect
import Verif.Props.Project
import Mathlib.Data.Prod.Lex
import Mathlib.Tactic.Abel

/-!
# C55: intersection of planar lines, rays and segments

Lines that are not parallel are handled exactly.  Parallel ones are recognised; for two lines on one
carrier the output is the common part, except that a closed end that touches an open end is reported
as a common point.  A degenerate second line is not tested for lying on the first.
-/

namespace Actl.Geo

variable {F : Type*} [Field F] [LinearOrder F] [IsStrictOrderedRing F]

/-! ### Lines that are not parallel -/

theorem lineTest_iff (k : LineKind) (num den : F) (hd : 0 < den) :
    lineTest k num den = true ↔ Allowed k (num / den) := by
  have h0 : ¬ num < 0 ↔ 0 ≤ num / den := by
    rw [not_lt, le_div_iff₀ hd, zero_mul]
  have h1 : 0 < num ↔ 0 < num / den := by rw [lt_div_iff₀ hd, zero_mul]
  have h2 : ¬ den < num ↔ num / den ≤ 1 := by rw [not_lt, div_le_one hd]
  have h3 : num < den ↔ num / den < 1 := by rw [div_lt_one hd]
  cases k <;>
    simp [lineTest, endpointTest, LineKind.first, LineKind.last, LineKind.val, combine,
      Endpoint.val, Endpoint.ofVal, Allowed, ← h0, ← h1, ← h2, ← h3]

theorem crossTest_iff (l r : Line F 2) (t a b : F) (ht : t ≠ 0) :
    crossTest l r t a b = true ↔ Allowed l.kind (a / t) ∧ Allowed r.kind (b / t) := by
  unfold crossTest
  split
  · next h =>
    rw [Bool.and_eq_true, lineTest_iff _ _ _ (neg_pos.2 h), lineTest_iff _ _ _ (neg_pos.2 h),
      neg_div_neg_eq, neg_div_neg_eq]
  · next h =>
    have : 0 < t := lt_of_le_of_ne (not_lt.1 h) ht.symm
    rw [Bool.and_eq_true, lineTest_iff _ _ _ this, lineTest_iff _ _ _ this]

/-- Two lines that are not parallel meet in one point of their carriers. -/
theorem carriers_meet (l r : Line F 2) (h : area r.vector l.vector ≠ 0) (t s : F) :
    l.start + t • l.vector = r.start + s • r.vector ↔
      t = area (l.start - r.start) r.vector / area r.vector l.vector ∧
        s = area (l.start - r.start) l.vector / area r.vector l.vector := by
  rw [eq_div_iff h, eq_div_iff h]
  simp only [area, Pi.sub_apply] at h ⊢
  constructor
  · intro e
    have e0 : l.start 0 + t * l.vector 0 = r.start 0 + s * r.vector 0 := by
      simpa using congrFun e 0
    have e1 : l.start 1 + t * l.vector 1 = r.start 1 + s * r.vector 1 := by
      simpa using congrFun e 1
    constructor
    · linear_combination r.vector 0 * e1 - r.vector 1 * e0
    · linear_combination l.vector 0 * e1 - l.vector 1 * e0
  · rintro ⟨e0, e1⟩
    apply vec2_ext
    · simp only [Pi.add_apply, Pi.smul_apply, smul_eq_mul]
      apply mul_right_cancel₀ h
      linear_combination l.vector 0 * e0 - r.vector 0 * e1
    · simp only [Pi.add_apply, Pi.smul_apply, smul_eq_mul]
      apply mul_right_cancel₀ h
      linear_combination l.vector 1 * e0 - r.vector 1 * e1

/-- C55. For two lines, rays or segments of any kinds that are not parallel, the scalar version
outputs a parameter exactly when there is a common point; the point at that parameter is then the
only common point. -/
theorem intersectScalar_correct (l r : Line F 2) (h : area r.vector l.vector ≠ 0) :
    (intersectScalar l r = [] ∧ ∀ p, ¬ (On p l ∧ On p r)) ∨
      ∃ t, intersectScalar l r = [t] ∧ ∀ p, On p l ∧ On p r ↔ p = l.at t := by
  set t := area (l.start - r.start) r.vector / area r.vector l.vector with htd
  set s := area (l.start - r.start) l.vector / area r.vector l.vector with hsd
  have hmeet : l.start + t • l.vector = r.start + s • r.vector :=
    (carriers_meet l r h t s).2 ⟨rfl, rfl⟩
  have hboth : ∀ p, On p l ∧ On p r ↔
      p = l.at t ∧ Allowed l.kind t ∧ Allowed r.kind s := by
    intro p
    constructor
    · rintro ⟨⟨t', ht', hp⟩, ⟨s', hs', hp'⟩⟩
      obtain ⟨e1, e2⟩ := (carriers_meet l r h t' s').1 (hp.symm.trans hp')
      rw [← htd] at e1
      rw [← hsd] at e2
      subst e1; subst e2
      exact ⟨hp, ht', hs'⟩
    · rintro ⟨rfl, ht, hs⟩
      exact ⟨⟨t, ht, rfl⟩, ⟨s, hs, hmeet⟩⟩
  have hc := crossTest_iff l r (area r.vector l.vector) (area (l.start - r.start) r.vector)
    (area (l.start - r.start) l.vector) h
  rw [← htd, ← hsd] at hc
  unfold intersectScalar
  simp only [h, if_false]
  by_cases hx : crossTest l r (area r.vector l.vector) (area (l.start - r.start) r.vector)
      (area (l.start - r.start) l.vector) = true
  · right
    refine ⟨t, by simp [hx, htd], fun p => ?_⟩
    rw [hboth]
    exact and_iff_left (hc.1 hx)
  · left
    refine ⟨by simp [hx], fun p hp => hx (hc.2 ((hboth p).1 hp).2)⟩

/-- C55. The same for the version that outputs points (lines in general position). -/
theorem intersectGeneral_correct (l r : Line F 2) (h : area r.vector l.vector ≠ 0) :
    (intersectGeneral l r = [] ∧ ∀ p, ¬ (On p l ∧ On p r)) ∨
      ∃ q, intersectGeneral l r = [q] ∧ ∀ p, On p l ∧ On p r ↔ p = q := by
  rcases intersectScalar_correct l r h with ⟨h1, h2⟩ | ⟨t, h1, h2⟩
  · left; exact ⟨by rw [intersectGeneral, h1]; rfl, h2⟩
  · right; exact ⟨l.at t, by rw [intersectGeneral, h1]; rfl, h2⟩

/-- C55. The same for the general version, which outputs a common point as a degenerate closed
segment: the only point on the output is the only common point. -/
theorem intersect_correct (l r : Line F 2) (h : area r.vector l.vector ≠ 0) :
    (intersect l r = [] ∧ ∀ p, ¬ (On p l ∧ On p r)) ∨
      ∃ q, intersect l r = [{ start := q, vector := 0, kind := .closedSegment }] ∧
        ∀ p, On p l ∧ On p r ↔ p = q := by
  have e : intersect l r = (intersectScalar l r).map
      fun t => { start := l.at t, vector := 0, kind := .closedSegment } := by
    unfold intersect intersectScalar
    simp only [h, if_false]
    split <;> rfl
  rcases intersectScalar_correct l r h with ⟨h1, h2⟩ | ⟨t, h1, h2⟩
  · left; exact ⟨by rw [e, h1]; rfl, h2⟩
  · right; exact ⟨l.at t, by rw [e, h1]; rfl, h2⟩

example : let l : Line ℚ 2 := ⟨![0, 0], ![2, 2], .openSegment⟩
    let r : Line ℚ 2 := ⟨![0, 2], ![2, -2], .closedRay⟩
    area r.vector l.vector ≠ 0 ∧ intersectScalar l r = [1 / 2] := by
  refine ⟨by simp [area]; norm_num, ?_⟩
  simp [intersectScalar, area, crossTest, lineTest, endpointTest, LineKind.first, LineKind.last,
    LineKind.val, combine, Endpoint.val, Endpoint.ofVal]
  norm_num

/-! ### Parallel lines -/

/-- C55. Parallel lines: the scalar and the general-position version output nothing. -/
theorem intersectScalar_parallel (l r : Line F 2) (h : area r.vector l.vector = 0) :
    intersectScalar l r = [] ∧ intersectGeneral l r = [] := by
  have : intersectScalar l r = [] := by simp [intersectScalar, h]
  exact ⟨this, by rw [intersectGeneral, this]; rfl⟩

/-- C55. Parallel lines with different carriers: nothing is output, and there is no common point. -/
theorem intersect_parallel_apart (l r : Line F 2) (h : area r.vector l.vector = 0)
    (h' : area (l.start - r.start) r.vector ≠ 0) :
    intersect l r = [] ∧ ∀ p, ¬ (On p l ∧ On p r) := by
  refine ⟨by simp [intersect, h, h'], ?_⟩
  rintro p ⟨⟨t, _, e⟩, ⟨s, _, e'⟩⟩
  apply h'
  have e0 : l.start 0 + t * l.vector 0 = r.start 0 + s * r.vector 0 := by
    simpa using congrFun (e.symm.trans e') 0
  have e1 : l.start 1 + t * l.vector 1 = r.start 1 + s * r.vector 1 := by
    simpa using congrFun (e.symm.trans e') 1
  simp only [area, Pi.sub_apply] at h ⊢
  linear_combination r.vector 1 * e0 - r.vector 0 * e1 + t * h

/-- Points of the plane ordered lexicographically. -/
def key (p : Vec F 2) : F ×ₗ F := toLex (p 0, p 1)

omit [IsStrictOrderedRing F] in
theorem key_lt {p q : Vec F 2} : key p < key q ↔ p 0 < q 0 ∨ p 0 = q 0 ∧ p 1 < q 1 := by
  rw [key, key, Prod.Lex.toLex_lt_toLex]

omit [IsStrictOrderedRing F] in
theorem key_inj {p q : Vec F 2} : key p = key q ↔ p = q := by
  constructor
  · intro h
    have := toLex.injective h
    simp only [Prod.mk.injEq] at this
    exact vec2_ext this.1 this.2
  · rintro rfl; rfl

omit [IsStrictOrderedRing F] in
theorem less_iff (p q : Vec F 2) : less p q = true ↔ key p < key q := by
  rw [key_lt, less]
  simp only [List.ofFn_succ, List.ofFn_zero, lexLess]
  rcases lt_trichotomy (p 0) (q 0) with h | h | h
  · simp [h]
  · simp only [h, lt_irrefl, if_false, Fin.succ_zero_eq_one, true_and, false_or]
    by_cases h1 : p 1 < q 1
    · simp [h1]
    · simp [h1]
  · simp [h, not_lt.2 h.le, h.ne']

omit [IsStrictOrderedRing F] in
theorem less_false (p q : Vec F 2) : less p q = false ↔ key q ≤ key p := by
  rw [← Bool.not_eq_true, less_iff, not_lt]

/-- Positions along a vector that is positive in the lexicographic order. -/
theorem key_along {s v : Vec F 2} (hv : key 0 < key v) (t u : F) :
    key (s + t • v) < key (s + u • v) ↔ t < u := by
  have mono : ∀ t u : F, t < u → key (s + t • v) < key (s + u • v) := by
    intro t u h
    rw [key_lt] at hv ⊢
    simp only [Pi.zero_apply, Pi.add_apply, Pi.smul_apply, smul_eq_mul, add_lt_add_iff_left,
      add_right_inj] at hv ⊢
    rcases hv with hv | ⟨h0, hv⟩
    · left; exact mul_lt_mul_of_pos_right h hv
    · right; rw [← h0]; exact ⟨by simp, mul_lt_mul_of_pos_right h hv⟩
  refine ⟨fun h => ?_, mono t u⟩
  by_contra hc
  rcases eq_or_lt_of_le (not_lt.1 hc) with e | e
  · rw [e] at h; exact lt_irrefl _ h
  · exact lt_asymm h (mono _ _ e)

theorem key_along_neg {s v : Vec F 2} (hv : key v < key 0) (t u : F) :
    key (s + t • v) < key (s + u • v) ↔ u < t := by
  have hv' : key 0 < key (-v) := by
    rw [key_lt] at hv ⊢
    simpa using hv
  have := key_along (s := s) hv' (-t) (-u)
  simp only [neg_smul, smul_neg, neg_neg] at this
  rw [this, neg_lt_neg_iff]

theorem key_along_le {s v : Vec F 2} (hv : key 0 < key v) (t u : F) :
    key (s + t • v) ≤ key (s + u • v) ↔ t ≤ u := by
  rw [← not_lt, key_along hv, not_lt]

theorem key_along_neg_le {s v : Vec F 2} (hv : key v < key 0) (t u : F) :
    key (s + t • v) ≤ key (s + u • v) ↔ u ≤ t := by
  rw [← not_lt, key_along_neg hv, not_lt]

/-- `p` is not below the end. -/
def LowerOk (e : End F) (p : Vec F 2) : Prop :=
  match e.2 with
  | .free => True
  | .closed => key e.1 ≤ key p
  | .opened => key e.1 < key p

/-- `p` is not above the end. -/
def UpperOk (e : End F) (p : Vec F 2) : Prop :=
  match e.2 with
  | .free => True
  | .closed => key p ≤ key e.1
  | .opened => key p < key e.1

/-- The point is on the whole line that carries `l`. -/
def Carrier (l : Line F 2) (p : Vec F 2) : Prop := ∃ t : F, p = l.start + t • l.vector

theorem getPoint_pos {l : Line F 2} (h : key 0 < key l.vector) :
    getPoint l true = (l.start, l.kind.first) ∧ getPoint l false = (l.stop, l.kind.last) := by
  have : less 0 l.vector = true := (less_iff _ _).2 h
  simp [getPoint, this]

theorem getPoint_neg {l : Line F 2} (h : key l.vector < key 0) :
    getPoint l true = (l.stop, l.kind.last) ∧ getPoint l false = (l.start, l.kind.first) := by
  have : less 0 l.vector = false := (less_false _ _).2 h.le
  simp [getPoint, this]

theorem vector_sign {l : Line F 2} (h : l.vector ≠ 0) :
    key 0 < key l.vector ∨ key l.vector < key 0 :=
  lt_or_gt_of_ne fun e => h (key_inj.1 e).symm

/-- A line is the part of its carrier between its two ends in the lexicographic order. -/
theorem on_iff_interval {l : Line F 2} (hv : l.vector ≠ 0) (p : Vec F 2) :
    On p l ↔ Carrier l p ∧ LowerOk (getPoint l true) p ∧ UpperOk (getPoint l false) p := by
  suffices h : ∀ t : F, p = l.start + t • l.vector →
      (Allowed l.kind t ↔ LowerOk (getPoint l true) p ∧ UpperOk (getPoint l false) p) by
    constructor
    · rintro ⟨t, ht, hp⟩; exact ⟨⟨t, hp⟩, (h t hp).1 ht⟩
    · rintro ⟨⟨t, hp⟩, hb⟩; exact ⟨t, (h t hp).2 hb, hp⟩
  rintro t rfl
  have hs : l.start = l.start + (0 : F) • l.vector := by simp
  have he : l.stop = l.start + (1 : F) • l.vector := by simp [Line.stop]
  rcases vector_sign hv with h | h
  · obtain ⟨e1, e2⟩ := getPoint_pos h
    have a1 : key l.start < key (l.start + t • l.vector) ↔ 0 < t := by
      conv_lhs => rw [hs]
      simpa using key_along (s := l.start) h 0 t
    have a2 : key l.start ≤ key (l.start + t • l.vector) ↔ 0 ≤ t := by
      simpa using key_along_le (s := l.start) h 0 t
    have a3 : key (l.start + t • l.vector) < key l.stop ↔ t < 1 := by
      rw [he]; exact key_along h t 1
    have a4 : key (l.start + t • l.vector) ≤ key l.stop ↔ t ≤ 1 := by
      rw [he]; exact key_along_le h t 1
    rw [e1, e2]
    cases hk : l.kind <;>
      simp [LowerOk, UpperOk, LineKind.first, LineKind.last, LineKind.val, combine, Endpoint.val,
        Endpoint.ofVal, Allowed, a1, a2, a3, a4]
  · obtain ⟨e1, e2⟩ := getPoint_neg h
    have a1 : key (l.start + t • l.vector) < key l.start ↔ 0 < t := by
      simpa using key_along_neg (s := l.start) h t 0
    have a2 : key (l.start + t • l.vector) ≤ key l.start ↔ 0 ≤ t := by
      simpa using key_along_neg_le (s := l.start) h t 0
    have a3 : key l.stop < key (l.start + t • l.vector) ↔ t < 1 := by
      rw [he]; exact key_along_neg h 1 t
    have a4 : key l.stop ≤ key (l.start + t • l.vector) ↔ t ≤ 1 := by
      rw [he]; exact key_along_neg_le h 1 t
    rw [e1, e2]
    cases hk : l.kind <;>
      simp [LowerOk, UpperOk, LineKind.first, LineKind.last, LineKind.val, combine, Endpoint.val,
        Endpoint.ofVal, Allowed, a1, a2, a3, a4] <;> exact and_comm

theorem maxEndpoint_lower (a b : End F) (p : Vec F 2) :
    LowerOk (maxEndpoint a b true) p ↔ LowerOk a p ∧ LowerOk b p := by
  obtain ⟨x, ka⟩ := a
  obtain ⟨y, kb⟩ := b
  have hxy := less_iff x y
  have hyx := less_iff y x
  rcases lt_trichotomy (key x) (key y) with h | h | h
  · have h1 : less x y = true := hxy.2 h
    have h2 : less y x = false := (less_false _ _).2 h.le
    cases ka <;> cases kb <;> simp [maxEndpoint, LowerOk, h1, h2]
    all_goals intro hp
    · exact (h.trans_le hp).le
    · exact (h.trans hp).le
    · exact h.trans_le hp
    · exact h.trans hp
  · have h1 : less x y = false := (less_false _ _).2 h.ge
    have h2 : less y x = false := (less_false _ _).2 h.le
    cases ka <;> cases kb <;> simp [maxEndpoint, LowerOk, h1, h2, h, Endpoint.val]
    all_goals exact fun hp => hp.le
  · have h1 : less x y = false := (less_false _ _).2 h.le
    have h2 : less y x = true := hyx.2 h
    cases ka <;> cases kb <;> simp [maxEndpoint, LowerOk, h1, h2]
    all_goals intro hp
    · exact (h.trans_le hp).le
    · exact h.trans_le hp
    · exact (h.trans hp).le
    · exact h.trans hp

theorem maxEndpoint_upper (a b : End F) (p : Vec F 2) :
    UpperOk (maxEndpoint a b false) p ↔ UpperOk a p ∧ UpperOk b p := by
  obtain ⟨x, ka⟩ := a
  obtain ⟨y, kb⟩ := b
  have hxy := less_iff x y
  have hyx := less_iff y x
  rcases lt_trichotomy (key x) (key y) with h | h | h
  · have h1 : less x y = true := hxy.2 h
    have h2 : less y x = false := (less_false _ _).2 h.le
    cases ka <;> cases kb <;> simp [maxEndpoint, UpperOk, h1, h2]
    all_goals intro hp
    · exact (hp.trans_lt h).le
    · exact hp.trans_lt h
    · exact (hp.trans h).le
    · exact hp.trans h
  · have h1 : less x y = false := (less_false _ _).2 h.ge
    have h2 : less y x = false := (less_false _ _).2 h.le
    cases ka <;> cases kb <;> simp [maxEndpoint, UpperOk, h1, h2, h, Endpoint.val]
    all_goals exact fun hp => hp.le
  · have h1 : less x y = false := (less_false _ _).2 h.le
    have h2 : less y x = true := hyx.2 h
    cases ka <;> cases kb <;> simp [maxEndpoint, UpperOk, h1, h2]
    all_goals intro hp
    · exact (hp.trans_lt h).le
    · exact (hp.trans h).le
    · exact hp.trans_lt h
    · exact hp.trans h

/-- The chosen end is one of the two. -/
theorem maxEndpoint_mem (a b : End F) (s : Bool) :
    maxEndpoint a b s = a ∨ maxEndpoint a b s = b := by
  unfold maxEndpoint
  split_ifs <;> simp

/-- Facts on the two ends chosen, for the three cases of kinds in which no test is made or the test
does not look at the points. -/
theorem ends_ordered {l r : Line F 2} (hl : key (getPoint l true).1 < key (getPoint l false).1)
    (hr : key (getPoint r true).1 < key (getPoint r false).1)
    (h : (maxEndpoint (getPoint l true) (getPoint r true) true).2 = .free ∨
      (maxEndpoint (getPoint l false) (getPoint r false) false).2 = .free) :
    key (maxEndpoint (getPoint l true) (getPoint r true) true).1 <
      key (maxEndpoint (getPoint l false) (getPoint r false) false).1 := by
  generalize getPoint l true = a at *
  generalize getPoint l false = b at *
  generalize getPoint r true = c at *
  generalize getPoint r false = d at *
  obtain ⟨a, ka⟩ := a
  obtain ⟨b, kb⟩ := b
  obtain ⟨c, kc⟩ := c
  obtain ⟨d, kd⟩ := d
  simp only at hl hr
  have hac : less a c = true ∧ key a < key c ∨ less a c = false ∧ key c ≤ key a := by
    rcases lt_or_ge (key a) (key c) with h | h
    · exact Or.inl ⟨(less_iff _ _).2 h, h⟩
    · exact Or.inr ⟨(less_false _ _).2 h, h⟩
  have hbd : less b d = true ∧ key b < key d ∨ less b d = false ∧ key d ≤ key b := by
    rcases lt_or_ge (key b) (key d) with h | h
    · exact Or.inl ⟨(less_iff _ _).2 h, h⟩
    · exact Or.inr ⟨(less_false _ _).2 h, h⟩
  unfold maxEndpoint at h ⊢
  rcases hac with ⟨e1, h1⟩ | ⟨e1, h1⟩ <;> rcases hbd with ⟨e2, h2⟩ | ⟨e2, h2⟩ <;>
    cases ka <;> cases kb <;> cases kc <;> cases kd <;>
    simp [e1, e2] at h ⊢
  all_goals
    first
    | exact hl
    | exact hr
    | exact hl.trans h2
    | exact h1.trans hr
    | exact h1.trans_lt hl
    | exact hr.trans_le h2
    | exact (hl.trans_le (le_of_lt h2))
    | (split_ifs at h ⊢ <;> first
        | exact hl
        | exact hr
        | exact hl.trans h2
        | exact h1.trans hr
        | exact h1.trans_lt hl
        | exact hr.trans_le h2
        | simp at h)
    | skip

theorem getPoint_lt {l : Line F 2} (hv : l.vector ≠ 0) :
    key (getPoint l true).1 < key (getPoint l false).1 := by
  have he : l.stop = l.start + (1 : F) • l.vector := by simp [Line.stop]
  rcases vector_sign hv with h | h
  · obtain ⟨e1, e2⟩ := getPoint_pos h
    rw [e1, e2, he]
    simpa using key_along (s := l.start) h 0 1
  · obtain ⟨e1, e2⟩ := getPoint_neg h
    rw [e1, e2, he]
    simpa using key_along_neg (s := l.start) h 1 0

theorem getPoint_carrier (l : Line F 2) (s : Bool) : Carrier l (getPoint l s).1 := by
  unfold getPoint
  split
  · exact ⟨0, by simp⟩
  · exact ⟨1, by simp [Line.stop]⟩

/-- Two points of a carrier span it. -/
theorem carrier_span {l : Line F 2} (hv : l.vector ≠ 0) {a b : Vec F 2} (ha : Carrier l a)
    (hb : Carrier l b) (hab : a ≠ b) (p : Vec F 2) :
    Carrier l p ↔ ∃ t : F, p = a + t • (b - a) := by
  obtain ⟨x, rfl⟩ := ha
  obtain ⟨y, rfl⟩ := hb
  have hxy : y - x ≠ 0 := fun h => hab (by rw [sub_eq_zero.1 h])
  have e : l.start + y • l.vector - (l.start + x • l.vector) = (y - x) • l.vector := by
    rw [sub_smul]; abel
  rw [e]
  constructor
  · rintro ⟨t, rfl⟩
    refine ⟨(t - x) / (y - x), ?_⟩
    rw [smul_smul, div_mul_cancel₀ _ hxy, sub_smul]; abel
  · rintro ⟨t, rfl⟩
    refine ⟨x + t * (y - x), ?_⟩
    rw [smul_smul, add_smul, add_assoc]

/-- Parallel lines with the first point of one on the other have one carrier. -/
theorem carrier_eq {l r : Line F 2} (hl : l.vector ≠ 0) (hr : r.vector ≠ 0)
    (h : area r.vector l.vector = 0) (h' : area (l.start - r.start) r.vector = 0) (p : Vec F 2) :
    Carrier l p ↔ Carrier r p := by
  obtain ⟨c, hc⟩ := (area_eq_zero_iff (u := l.vector) hr).1 h
  have h'' : area r.vector (l.start - r.start) = 0 := by
    have := (area_antisymm (l.start - r.start) r.vector).1
    rw [h'] at this; linear_combination this
  obtain ⟨d, hd⟩ := (area_eq_zero_iff hr).1 h''
  have hs : l.start = r.start + d • r.vector := by rw [← hd]; abel
  have hc0 : c ≠ 0 := by rintro rfl; rw [zero_smul] at hc; exact hl hc
  unfold Carrier
  rw [hs, hc]
  constructor
  · rintro ⟨t, rfl⟩
    exact ⟨d + t * c, by rw [smul_smul, add_smul, add_assoc]⟩
  · rintro ⟨t, rfl⟩
    exact ⟨(t - d) / c, by rw [smul_smul, div_mul_cancel₀ _ hc0, sub_smul]; abel⟩

/-- A line made from two ordered ends is the part of the carrier between them. -/
theorem makeAnyLine_interval {l : Line F 2} (hv : l.vector ≠ 0) (a b : End F)
    (ha : Carrier l a.1) (hb : Carrier l b.1) (hab : key a.1 < key b.1) :
    ∃ m, makeAnyLine a.1 a.2 b.1 b.2 = some m ∧
      ∀ p, On p m ↔ Carrier l p ∧ LowerOk a p ∧ UpperOk b p := by
  obtain ⟨a, ka⟩ := a
  obtain ⟨b, kb⟩ := b
  simp only at ha hb hab ⊢
  have hne : a ≠ b := fun e => by rw [e] at hab; exact lt_irrefl _ hab
  have hpos : key 0 < key (b - a) := by
    rw [key_lt] at hab ⊢
    simp only [Pi.zero_apply, Pi.sub_apply, sub_pos]
    exact hab.imp id fun h => ⟨by rw [h.1, sub_self], h.2⟩
  have hneg : key (a - b) < key 0 := by
    rw [key_lt] at hab ⊢
    simp only [Pi.zero_apply, Pi.sub_apply, sub_neg]
    exact hab.imp id fun h => ⟨by rw [h.1, sub_self], h.2⟩
  by_cases hk : ka.val < kb.val
  · obtain ⟨k, hk1, hk2, hk3⟩ := (kind_roundtrip kb ka).2 hk.le
    refine ⟨Line.through b a k, by rw [makeAnyLine, if_pos hk, hk1]; rfl, fun p => ?_⟩
    have hm : (Line.through b a k).vector ≠ 0 := sub_ne_zero.2 hne
    obtain ⟨g1, g2⟩ := getPoint_neg (l := Line.through b a k) hneg
    rw [on_iff_interval hm, g1, g2]
    have hs : (Line.through b a k).stop = a := by simp [Line.through, Line.stop]
    rw [hs]
    have e1 : (Line.through b a k).kind.first = kb := hk2
    have e2 : (Line.through b a k).kind.last = ka := hk3
    rw [e1, e2, carrier_span hv hb ha hne.symm]
    rfl
  · obtain ⟨k, hk1, hk2, hk3⟩ := (kind_roundtrip ka kb).2 (not_lt.1 hk)
    refine ⟨Line.through a b k, by rw [makeAnyLine, if_neg hk, hk1]; rfl, fun p => ?_⟩
    have hm : (Line.through a b k).vector ≠ 0 := sub_ne_zero.2 hne.symm
    obtain ⟨g1, g2⟩ := getPoint_pos (l := Line.through a b k) hpos
    rw [on_iff_interval hm, g1, g2]
    have hs : (Line.through a b k).stop = b := by simp [Line.through, Line.stop]
    rw [hs]
    have e1 : (Line.through a b k).kind.first = ka := hk2
    have e2 : (Line.through a b k).kind.last = kb := hk3
    rw [e1, e2, carrier_span hv ha hb hne]
    rfl

/-- C55, two non-degenerate lines, rays or segments on one carrier. Either nothing is output and
there is no common point; or one line is output and it consists of exactly the common points; or a
half-open segment of length zero is output although there is no common point.  (Missing for the
full claim: the last case, in which the code is wrong, see `intersect_touch_fails`, and degenerate
arguments, see `intersect_degenerate_fails`.) -/
theorem intersect_coincident_partial (l r : Line F 2) (hl : l.vector ≠ 0) (hr : r.vector ≠ 0)
    (h : area r.vector l.vector = 0) (h' : area (l.start - r.start) r.vector = 0) :
    (intersect l r = [] ∧ ∀ p, ¬ (On p l ∧ On p r)) ∨
      (∃ m, intersect l r = [m] ∧ ∀ p, On p m ↔ On p l ∧ On p r) ∨
      (∃ m, intersect l r = [m] ∧ m.vector = 0 ∧ m.kind = .halfOpenSegment ∧
        ∀ p, ¬ (On p l ∧ On p r)) := by
  have hint : intersect l r = commonLine l r := by simp [intersect, h, h']
  rw [hint]
  unfold commonLine
  set la := maxEndpoint (getPoint l true) (getPoint r true) true with hla
  set lb := maxEndpoint (getPoint l false) (getPoint r false) false with hlb
  have hboth : ∀ p, On p l ∧ On p r ↔ Carrier l p ∧ LowerOk la p ∧ UpperOk lb p := by
    intro p
    rw [hla, hlb, maxEndpoint_lower, maxEndpoint_upper, on_iff_interval hl, on_iff_interval hr,
      ← carrier_eq hl hr h h' p]
    tauto
  have hca : Carrier l la.1 := by
    rcases maxEndpoint_mem (getPoint l true) (getPoint r true) true with e | e
    · rw [hla, e]; exact getPoint_carrier l true
    · rw [hla, e, carrier_eq hl hr h h']; exact getPoint_carrier r true
  have hcb : Carrier l lb.1 := by
    rcases maxEndpoint_mem (getPoint l false) (getPoint r false) false with e | e
    · rw [hlb, e]; exact getPoint_carrier l false
    · rw [hlb, e, carrier_eq hl hr h h']; exact getPoint_carrier r false
  have hord := ends_ordered (getPoint_lt hl) (getPoint_lt hr)
  rw [← hla, ← hlb] at hord
  clear_value la lb
  rcases lt_trichotomy (key la.1) (key lb.1) with hlt | heq | hgt
  · right; left
    have ht : endpointTestPoint la.2 la.1 lb.1 = true := by
      unfold endpointTestPoint
      split
      · rfl
      · rw [Bool.not_eq_true', less_false]; exact hlt.le
      · rw [less_iff]; exact hlt
    obtain ⟨m, hm, hon⟩ := makeAnyLine_interval hl la lb hca hcb hlt
    refine ⟨m, by simp only [ht, if_true, hm, Option.toList_some], fun p => ?_⟩
    rw [hon, hboth]
  · have hpt : la.1 = lb.1 := key_inj.1 heq
    obtain ⟨a, ka⟩ := la
    obtain ⟨b, kb⟩ := lb
    simp only at hpt heq hord hca
    subst hpt
    have hf : ka ≠ .free ∧ kb ≠ .free := by
      constructor <;> intro e
      · exact absurd (hord (Or.inl e)) (lt_irrefl _)
      · exact absurd (hord (Or.inr e)) (lt_irrefl _)
    have hirr : less a a = false := (less_false _ _).2 (le_refl _)
    cases ka with
    | free => exact absurd rfl hf.1
    | opened =>
      left
      refine ⟨by simp [endpointTestPoint, hirr], fun p hp => ?_⟩
      obtain ⟨_, h1, h2⟩ := (hboth p).1 hp
      cases kb with
      | free => exact absurd rfl hf.2
      | closed => exact absurd (lt_of_lt_of_le h1 h2) (lt_irrefl _)
      | opened => exact absurd (lt_trans h1 h2) (lt_irrefl _)
    | closed =>
      cases kb with
      | free => exact absurd rfl hf.2
      | closed =>
        right; left
        have e : makeAnyLine a .closed a .closed = some (Line.through a a .closedSegment) := rfl
        refine ⟨Line.through a a .closedSegment, by simp [endpointTestPoint, hirr, e],
          fun p => ?_⟩
        rw [on_degenerate p _ (sub_self a), hboth]
        constructor
        · rintro rfl; exact ⟨hca, le_refl _, le_refl _⟩
        · rintro ⟨_, h1, h2⟩; exact (key_inj.1 (le_antisymm h1 h2)).symm
      | opened =>
        right; right
        have e : makeAnyLine a .closed a .opened = some (Line.through a a .halfOpenSegment) := rfl
        refine ⟨Line.through a a .halfOpenSegment, by simp [endpointTestPoint, hirr, e],
          sub_self a, rfl, fun p hp => ?_⟩
        obtain ⟨_, h1, h2⟩ := (hboth p).1 hp
        exact absurd (lt_of_le_of_lt h1 h2) (lt_irrefl _)
  · left
    have hf : la.2 ≠ .free ∧ lb.2 ≠ .free := by
      constructor <;> intro e
      · exact absurd (hord (Or.inl e)) (not_lt.2 hgt.le)
      · exact absurd (hord (Or.inr e)) (not_lt.2 hgt.le)
    have ht : endpointTestPoint la.2 la.1 lb.1 = false := by
      unfold endpointTestPoint
      split
      · next e => exact absurd e hf.1
      · rw [Bool.not_eq_false', less_iff]; exact hgt
      · rw [less_false]; exact hgt.le
    refine ⟨by simp [ht], fun p hp => ?_⟩
    obtain ⟨_, h1, h2⟩ := (hboth p).1 hp
    have h1' : key la.1 ≤ key p := by
      unfold LowerOk at h1
      split at h1
      · next e => exact absurd e hf.1
      · exact h1
      · exact h1.le
    have h2' : key p ≤ key lb.1 := by
      unfold UpperOk at h2
      split at h2
      · next e => exact absurd e hf.2
      · exact h2
      · exact h2.le
    exact absurd (h1'.trans h2') (not_le.2 hgt)

example : let l : Line ℚ 2 := ⟨![0, 0], ![2, 2], .closedRay⟩
    let r : Line ℚ 2 := ⟨![3, 3], ![-1, -1], .openRay⟩
    l.vector ≠ 0 ∧ r.vector ≠ 0 ∧ area r.vector l.vector = 0 ∧
      area (l.start - r.start) r.vector = 0 := by
  refine ⟨fun h => ?_, fun h => ?_, ?_, ?_⟩
  · have := congrFun h 0; norm_num at this
  · have := congrFun h 0; norm_num at this
  · simp [area]
  · simp [area]

theorem kind_ends : LineKind.free.first = .free ∧ LineKind.free.last = .free ∧
    LineKind.closedSegment.first = .closed ∧ LineKind.closedSegment.last = .closed ∧
    LineKind.openSegment.first = .opened ∧ LineKind.openSegment.last = .opened := by decide

/-- C55 is false for parallel segments that touch: an open segment ending where a closed segment
starts has no point in common with it, and a line is output all the same (for every such pair along
a direction that increases in the lexicographic order). -/
theorem intersect_touch_fails (a u : Vec F 2) (hu : less 0 u = true) :
    let l : Line F 2 := { start := a - u, vector := u, kind := .openSegment }
    let r : Line F 2 := { start := a, vector := u, kind := .closedSegment }
    intersect l r = [Line.through a a .halfOpenSegment] ∧ crossesLines l r = true ∧
      ∀ p, ¬ (On p l ∧ On p r) := by
  intro l r
  have hk := (less_iff _ _).1 hu
  have h1 : less (a - u) a = true := by
    rw [less_iff]
    have := (key_along (s := a) hk (-1) 0).2 (by norm_num)
    simpa [sub_eq_add_neg] using this
  have h2 : less a (a + u) = true := by
    rw [less_iff]
    have := (key_along (s := a) hk 0 1).2 (by norm_num)
    simpa using this
  have hirr : less a a = false := (less_false _ _).2 (le_refl _)
  have gl := getPoint_pos (l := l) hk
  have gr := getPoint_pos (l := r) hk
  have hls : l.stop = a := by simp [l, Line.stop]
  obtain ⟨_, _, k1, k2, k3, k4⟩ := kind_ends
  have e1 : getPoint l true = (a - u, .opened) := by rw [gl.1]; simp [l, k3]
  have e2 : getPoint l false = (a, .opened) := by rw [gl.2, hls]; simp [l, k4]
  have e3 : getPoint r true = (a, .closed) := by rw [gr.1]; simp [r, k1]
  have e4 : getPoint r false = (a + u, .closed) := by rw [gr.2]; simp [r, k2, Line.stop]
  have hm : makeAnyLine a .closed a .opened = some (Line.through a a .halfOpenSegment) := rfl
  have hc : commonLine l r = [Line.through a a .halfOpenSegment] := by
    simp [commonLine, e1, e2, e3, e4, maxEndpoint, h1, h2, endpointTestPoint, hirr, hm]
  have ht : area r.vector l.vector = 0 := by show area u u = 0; simp only [area]; ring
  have hv : area (l.start - r.start) r.vector = 0 := by
    show area (a - u - a) u = 0
    simp only [area, Pi.sub_apply]; ring
  have hi : intersect l r = [Line.through a a .halfOpenSegment] := by
    simp [intersect, ht, hv, hc]
  refine ⟨hi, by simp [crossesLines, hi], ?_⟩
  rintro p ⟨hp1, hp2⟩
  have hu0 : u ≠ 0 := by rintro rfl; exact lt_irrefl _ hk
  have b1 := ((on_iff_interval (l := l) hu0 p).1 hp1).2.2
  have b2 := ((on_iff_interval (l := r) hu0 p).1 hp2).2.1
  rw [e2] at b1
  rw [e3] at b2
  exact absurd (lt_of_le_of_lt b2 b1) (lt_irrefl _)

example : less 0 (![1, 0] : Vec ℚ 2) = true := by decide +kernel

/-- C55 is false for a degenerate second line: for every full line and every point `q` whatsoever,
intersecting the line with the closed segment from `q` to `q` outputs `q`, also when `q` is not on
the line. -/
theorem intersect_degenerate_fails (a v q : Vec F 2) :
    let l : Line F 2 := { start := a, vector := v, kind := .free }
    let r : Line F 2 := { start := q, vector := 0, kind := .closedSegment }
    intersect l r = [Line.through q q .closedSegment] ∧
      (¬ On q l → ∀ p, ¬ (On p l ∧ On p r)) := by
  intro l r
  have ht : area r.vector l.vector = 0 := by show area 0 v = 0; simp [area]
  have hv : area (l.start - r.start) r.vector = 0 := by
    show area (a - q) 0 = 0; simp [area]
  have hirr : less q q = false := (less_false _ _).2 (le_refl _)
  have hl : ∀ s, (getPoint l s).2 = .free := by
    intro s; unfold getPoint; split
    · simp [l, kind_ends]
    · simp [l, kind_ends]
  have hr : ∀ s, getPoint r s = (q, .closed) := by
    intro s; unfold getPoint
    split
    · simp [r, kind_ends]
    · simp [r, kind_ends, Line.stop]
  have hc : commonLine l r = [Line.through q q .closedSegment] := by
    have hm : makeAnyLine q .closed q .closed = some (Line.through q q .closedSegment) := rfl
    simp [commonLine, maxEndpoint, hl, hr, endpointTestPoint, hirr, hm]
  refine ⟨by simp [intersect, ht, hv, hc], ?_⟩
  rintro hq p ⟨hp1, hp2⟩
  rw [on_degenerate p r rfl] at hp2
  rw [hp2] at hp1
  exact hq hp1

/-- `crosses(line, line)`: for lines that are not parallel, true exactly when there is a common
point. -/
theorem crossesLines_correct (l r : Line F 2) (h : area r.vector l.vector ≠ 0) :
    crossesLines l r = true ↔ ∃ p, On p l ∧ On p r := by
  rcases intersect_correct l r h with ⟨h1, h2⟩ | ⟨q, h1, h2⟩
  · constructor
    · intro hc; simp [crossesLines, h1] at hc
    · rintro ⟨p, hp⟩; exact absurd hp (h2 p)
  · simp only [crossesLines, h1, List.isEmpty_cons, Bool.not_false, true_iff]
    exact ⟨q, (h2 q).2 rfl⟩

/-- `circumcenter` of three points that are not on one line: the point with equal distances to the
three.  For three points on one line nothing is computed (the result is not initialised). -/
theorem circumcenter_correct (a b c : Vec F 2) :
    (polyArea [a, b, c] ≠ 0 →
      ∃ o, circumcenter a b c = some o ∧ dist2 o a = dist2 o b ∧ dist2 o a = dist2 o c) ∧
      (polyArea [a, b, c] = 0 → circumcenter a b c = none) := by
  set l : Line F 2 := { start := a + b, vector := perpendicular (a - b), kind := .free } with hl
  set r : Line F 2 := { start := a + c, vector := perpendicular (a - c), kind := .free } with hr
  have hd : area r.vector l.vector = -polyArea [a, b, c] := by
    rw [polyArea_triangle]
    simp only [hl, hr, area, perpendicular, Matrix.cons_val_zero, Matrix.cons_val_one,
      Pi.sub_apply]
    ring
  have hcc : circumcenter a b c =
      ((intersectGeneral l r).getLast?).map fun res => fun i => res i / 2 := rfl
  constructor
  · intro h
    have hne : area r.vector l.vector ≠ 0 := by rw [hd]; exact neg_ne_zero.2 h
    rcases intersectGeneral_correct l r hne with ⟨_, h2⟩ | ⟨q, h1, h2⟩
    · exfalso
      have hm := (carriers_meet l r hne _ _).2 ⟨rfl, rfl⟩
      exact h2 _ ⟨⟨_, trivial, rfl⟩, ⟨_, trivial, hm⟩⟩
    · refine ⟨fun i => q i / 2, by rw [hcc, h1]; rfl, ?_⟩
      obtain ⟨⟨t, _, ht⟩, ⟨s, _, hs⟩⟩ := (h2 q).2 rfl
      have t0 : q 0 = a 0 + b 0 + t * (-(a 1 - b 1)) := by
        simpa [hl, perpendicular] using congrFun ht 0
      have t1 : q 1 = a 1 + b 1 + t * (a 0 - b 0) := by
        simpa [hl, perpendicular] using congrFun ht 1
      have s0 : q 0 = a 0 + c 0 + s * (-(a 1 - c 1)) := by
        simpa [hr, perpendicular] using congrFun hs 0
      have s1 : q 1 = a 1 + c 1 + s * (a 0 - c 0) := by
        simpa [hr, perpendicular] using congrFun hs 1
      constructor
      · simp only [dist2, Fin.sum_univ_two]
        linear_combination (b 0 - a 0) * t0 + (b 1 - a 1) * t1
      · simp only [dist2, Fin.sum_univ_two]
        linear_combination (c 0 - a 0) * s0 + (c 1 - a 1) * s1
  · intro h
    have h0 : area r.vector l.vector = 0 := by rw [hd, h, neg_zero]
    rw [hcc, (intersectScalar_parallel l r h0).2]; rfl

end Actl.Geo
