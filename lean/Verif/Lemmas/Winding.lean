import Verif.Model.Winding
import Verif.Spec.Winding
import Verif.Lemmas.Geometry
import Verif.Props.WithinLine

/-! Lemmas on edges of polygons and on the winding loop. -/

namespace Actl.Geo

/-! ### Pairs -/

section Pairs

variable {α : Type*}

theorem pairs_length : ∀ l : List α, (pairs l).length = l.length - 1
  | [] => rfl
  | [_] => rfl
  | _ :: b :: rest => by simp [pairs, pairs_length (b :: rest)]

theorem pairs_getElem? : ∀ (l : List α) (j : Nat),
    (pairs l)[j]? = (l[j]?).bind fun a => (l[j + 1]?).map fun b => (a, b)
  | [], j => by simp [pairs]
  | [a], j => by cases j <;> simp [pairs]
  | a :: b :: rest, 0 => by simp [pairs]
  | a :: b :: rest, j + 1 => by
    rw [pairs, List.getElem?_cons_succ, pairs_getElem? (b :: rest) j]
    simp

theorem pairs_append (l : List α) (b : α) (r : List α) :
    pairs (l ++ b :: r) = pairs (l ++ [b]) ++ pairs (b :: r) := by
  induction l with
  | nil => simp [pairs]
  | cons a l ih =>
    cases l with
    | nil => simp [pairs]
    | cons c l => simpa [pairs] using ih

theorem mem_pairs : ∀ {l : List α} {a b : α},
    (a, b) ∈ pairs l ↔ ∃ l₁ l₂, l = l₁ ++ a :: b :: l₂
  | [], a, b => by simp [pairs]
  | [x], a, b => by
    simp only [pairs, List.not_mem_nil, false_iff]
    rintro ⟨l₁, l₂, e⟩
    have := congrArg List.length e
    simp at this; omega
  | x :: y :: rest, a, b => by
    rw [pairs, List.mem_cons, mem_pairs]
    constructor
    · rintro (e | ⟨l₁, l₂, e⟩)
      · obtain ⟨rfl, rfl⟩ := Prod.mk.inj e
        exact ⟨[], rest, rfl⟩
      · exact ⟨x :: l₁, l₂, by rw [e]; rfl⟩
    · rintro ⟨l₁, l₂, e⟩
      cases l₁ with
      | nil =>
        simp only [List.nil_append, List.cons.injEq] at e
        exact .inl (by rw [e.1, e.2.1])
      | cons z l₁ =>
        simp only [List.cons_append, List.cons.injEq] at e
        exact .inr ⟨l₁, l₂, e.2⟩

theorem pairs_reverse (l : List α) : pairs l.reverse = ((pairs l).map Prod.swap).reverse := by
  induction l with
  | nil => rfl
  | cons a l ih =>
    cases l with
    | nil => rfl
    | cons b l =>
      rw [List.reverse_cons, List.reverse_cons, List.append_assoc, List.singleton_append,
        pairs_append, ← List.reverse_cons, ih, pairs]
      simp [pairs]

end Pairs

section Edges

variable {F : Type*} [Field F] [LinearOrder F]

theorem edges_cons (a : Vec F 2) (rest : List (Vec F 2)) :
    edges (a :: rest) = pairs (a :: rest ++ [a]) := by simp [edges]

theorem edges_length (poly : List (Vec F 2)) : (edges poly).length = poly.length := by
  cases poly with
  | nil => rfl
  | cons a rest => rw [edges_cons, pairs_length]; simp

/-- The edges of a rotated polygon are the rotated edges. -/
theorem edges_rotate_one (a : Vec F 2) (rest : List (Vec F 2)) :
    edges (rest ++ [a]) = (edges (a :: rest)).rotate 1 := by
  cases rest with
  | nil => simp [edges, pairs]
  | cons b rest =>
    rw [edges_cons, show b :: rest ++ [a] = b :: (rest ++ [a]) from rfl, edges_cons,
      show b :: (rest ++ [a]) ++ [b] = (b :: rest) ++ a :: [b] by simp, pairs_append]
    simp [pairs]

theorem edges_rotate (poly : List (Vec F 2)) (k : Nat) :
    edges (poly.rotate k) = (edges poly).rotate k := by
  induction k with
  | zero => simp
  | succ k ih =>
    rw [← List.rotate_rotate, ← List.rotate_rotate, ← ih]
    generalize poly.rotate k = q
    cases q with
    | nil => simp [edges, pairs]
    | cons a rest => rw [List.rotate_cons_succ, List.rotate_zero, edges_rotate_one]

theorem mem_edges_rotated {poly poly' : List (Vec F 2)} (h : poly ~r poly')
    {e : Vec F 2 × Vec F 2} : e ∈ edges poly ↔ e ∈ edges poly' := by
  obtain ⟨k, rfl⟩ := h
  rw [edges_rotate, List.mem_rotate]

/-- Each edge starts some rotation of the polygon. -/
theorem exists_rotation {poly : List (Vec F 2)} (h2 : 2 ≤ poly.length) {a b : Vec F 2}
    (h : (a, b) ∈ edges poly) : ∃ rest, poly ~r (a :: b :: rest) := by
  cases poly with
  | nil => simp at h2
  | cons x rest =>
    rw [edges_cons, mem_pairs] at h
    obtain ⟨l₁, l₂, e⟩ := h
    rcases List.eq_nil_or_concat l₂ with rfl | ⟨l₃, z, rfl⟩
    · -- the closing edge
      have e1 : x :: rest ++ [x] = (l₁ ++ [a]) ++ [b] := by rw [e]; simp
      obtain ⟨e2, e3⟩ := List.append_inj' e1 rfl
      obtain rfl : x = b := by simpa using e3
      cases l₁ with
      | nil => simp at e2; simp [e2] at h2
      | cons y l₁ =>
        simp only [List.cons_append, List.cons.injEq] at e2
        obtain ⟨rfl, rfl⟩ := e2
        refine ⟨l₁, ?_⟩
        refine ⟨l₁.length + 1, ?_⟩
        rw [show x :: (l₁ ++ [a]) = (x :: l₁) ++ [a] by simp,
          show l₁.length + 1 = (x :: l₁).length by simp, List.rotate_append_length_eq]
        simp
    · have e1 : x :: rest ++ [x] = (l₁ ++ a :: b :: l₃) ++ [z] := by rw [e]; simp
      obtain ⟨e2, -⟩ := List.append_inj' e1 rfl
      refine ⟨l₃ ++ l₁, l₁.length, ?_⟩
      rw [e2, List.rotate_append_length_eq]
      simp

/-- The first edge of a rotation is an edge. -/
theorem mem_edges_of_rotation {poly rest : List (Vec F 2)} {a b : Vec F 2}
    (h : poly ~r (a :: b :: rest)) : (a, b) ∈ edges poly := by
  rw [mem_edges_rotated h, edges_cons]
  simp [pairs]

theorem mem_of_mem_edges {poly : List (Vec F 2)} {e : Vec F 2 × Vec F 2} (h : e ∈ edges poly) :
    e.1 ∈ poly ∧ e.2 ∈ poly := by
  cases poly with
  | nil => simp [edges, pairs] at h
  | cons x rest =>
    obtain ⟨a, b⟩ := e
    rw [edges_cons, mem_pairs] at h
    obtain ⟨l₁, l₂, e⟩ := h
    have ha : a ∈ x :: rest ++ [x] := by rw [e]; simp
    have hb : b ∈ x :: rest ++ [x] := by rw [e]; simp
    simp only [List.cons_append, List.mem_cons, List.mem_append, List.not_mem_nil, or_false] at ha hb
    exact ⟨by simp only [List.mem_cons]; tauto, by simp only [List.mem_cons]; tauto⟩

/-- Each vertex starts an edge. -/
theorem exists_edge_from {poly : List (Vec F 2)} {a : Vec F 2} (h : a ∈ poly) :
    ∃ b, (a, b) ∈ edges poly := by
  obtain ⟨l₁, l₂, rfl⟩ := List.append_of_mem h
  have hr : (l₁ ++ a :: l₂) ~r (a :: (l₂ ++ l₁)) :=
    ⟨l₁.length, by rw [List.rotate_append_length_eq]; simp⟩
  cases hl : l₂ ++ l₁ with
  | nil => refine ⟨a, ?_⟩; rw [mem_edges_rotated hr, hl, edges_cons]; simp [pairs]
  | cons b rest => exact ⟨b, mem_edges_of_rotation (rest := rest) (hl ▸ hr)⟩

theorem edges_eq_map (poly : List (Vec F 2)) :
    edges poly = (List.range poly.length).map fun j => (vert poly j, vert poly (j + 1)) := by
  apply List.ext_getElem?
  intro j
  cases poly with
  | nil => simp [edges, pairs]
  | cons a rest =>
    rw [edges_cons, pairs_getElem?, List.getElem?_map]
    by_cases hj : j < rest.length + 1
    · rw [List.getElem?_range (by simpa using hj)]
      have e1 : (a :: rest ++ [a])[j]? = some (vert (a :: rest) j) := by
        rw [vert, Nat.mod_eq_of_lt (by simpa using hj),
          List.getElem?_append_left (by simpa using hj),
          List.getElem?_eq_getElem (by simpa using hj)]; rfl
      have e2 : (a :: rest ++ [a])[j + 1]? = some (vert (a :: rest) (j + 1)) := by
        rw [vert]
        by_cases h : j + 1 < rest.length + 1
        · rw [Nat.mod_eq_of_lt (by simpa using h), List.getElem?_append_left (by simpa using h),
            List.getElem?_eq_getElem (by simpa using h)]; rfl
        · have : j + 1 = (a :: rest).length := by simp; omega
          rw [this, Nat.mod_self, List.getElem?_append_right (le_refl _)]
          simp
      rw [e1, e2]; rfl
    · rw [List.getElem?_eq_none (l := a :: rest ++ [a]) (i := j + 1) (by simp; omega),
        List.getElem?_eq_none (l := List.range _) (by simp; omega)]
      cases (a :: rest ++ [a])[j]? <;> rfl

end Edges

section Loop

variable {F : Type*} [Field F] [LinearOrder F]

/-- The winding loop over the list of edges. -/
def windFold (p : Vec F 2) : List (Vec F 2 × Vec F 2) → Int → Int
  | [], res => res
  | e :: es, res =>
    match windStep p e.1 e.2 with
    | none => boundary
    | some d => windFold p es (res + d)

theorem windLoop_eq (p : Vec F 2) (poly : List (Vec F 2)) (n : Nat) : ∀ (i : Nat) (res : Int),
    i + n = poly.length →
    windLoop p poly n (i % poly.length : Nat) res = windFold p
      ((List.range n).map fun j => (vert poly (i + j), vert poly (i + j + 1))) res := by
  induction n with
  | zero => intro i res _; rfl
  | succ n ih =>
    intro i res h
    have hi : i < poly.length := by omega
    rw [windLoop, Nat.mod_eq_of_lt hi, cyclicAt_zero poly hi, cyclicAt_one poly hi,
      List.range_succ_eq_map, List.map_cons, windFold]
    simp only [add_zero]
    cases windStep p (vert poly i) (vert poly (i + 1)) with
    | none => rfl
    | some d =>
      have e : cyclicNext (poly.length : Int) (i : Int) = ((i + 1) % poly.length : Nat) := by
        rw [cyclicNext_eq (by omega) (by omega)]; simp
      simp only
      rw [e, ih (i + 1) _ (by omega), List.map_map]
      congr 1
      apply List.map_congr_left
      intro j _
      simp only [Function.comp, Nat.succ_eq_add_one]
      rw [show i + 1 + j = i + (j + 1) by omega]

theorem windLoop_edges (p : Vec F 2) (poly : List (Vec F 2)) :
    windLoop p poly poly.length 0 0 = windFold p (edges poly) 0 := by
  have := windLoop_eq p poly poly.length 0 0 (by omega)
  rw [Nat.zero_mod] at this
  simp only [zero_add] at this
  rw [edges_eq_map]
  exact_mod_cast this

end Loop

section Step

variable {F : Type*} [Field F] [LinearOrder F] [IsStrictOrderedRing F]

/-- The contribution of an edge, seen from the point: `1` or `-1` when it crosses the horizontal ray to
the right. -/
def crossing (u w : Vec F 2) : Int :=
  if u 1 < 0 ∧ 0 ≤ w 1 ∧ 0 < area u w then 1
  else if 0 ≤ u 1 ∧ w 1 < 0 ∧ area u w < 0 then -1
  else 0

theorem crossing_swap (u w : Vec F 2) : crossing w u = -crossing u w := by
  have h : area w u = -area u w := by simp only [area]; ring
  unfold crossing
  rw [h]
  simp only [neg_pos, neg_lt_zero]
  split_ifs <;> first | rfl | (exfalso; simp_all; done) | (exfalso; rename_i a b; exact absurd b.1 (not_lt.2 a.2.1)) | (exfalso; tauto)

/-- When the loop stops at an edge. -/
def Stops (u w : Vec F 2) : Prop :=
  u = 0 ∨ (u 1 = 0 ∧ w 1 = 0 ∧ (u 0 ≤ 0 ∧ 0 ≤ w 0 ∨ w 0 ≤ 0 ∧ 0 ≤ u 0)) ∨
    ((u 1 < 0 ∧ 0 ≤ w 1 ∨ 0 ≤ u 1 ∧ w 1 < 0) ∧ area u w = 0)

theorem orientation3_val (p a b : Vec F 2) :
    orientation3 p b a = Turn.ofSign (area (a - p) (b - p)) := by
  unfold orientation3 orientation
  congr 1
  simp only [area, Pi.sub_apply]; ring

theorem ofSign_right' (x : F) : Turn.ofSign x = .right ↔ 0 < x := by
  unfold Turn.ofSign
  rcases lt_trichotomy x 0 with h | h | h
  · simp [h, not_lt.2 h.le]
  · subst h; simp
  · simp [h, not_lt.2 h.le]

open Classical in
theorem windStep_eq (p a b : Vec F 2) :
    windStep p a b = if Stops (a - p) (b - p) then none else some (crossing (a - p) (b - p)) := by
  unfold windStep
  have hz : a - p = 0 ↔ p = a := by rw [sub_eq_zero, eq_comm]
  by_cases h0 : p = a
  · rw [if_pos ((isEqual_iff _ _).2 h0), if_pos (.inl (hz.2 h0))]
  rw [if_neg (by rw [isEqual_iff]; exact h0)]
  have hu : ¬ (a - p = 0) := by rwa [hz]
  generalize hU : a - p = u at *
  generalize hW : b - p = w at *
  have e0 : a 0 = p 0 + u 0 := by rw [← hU]; simp
  have e1 : a 1 = p 1 + u 1 := by rw [← hU]; simp
  have f0 : b 0 = p 0 + w 0 := by rw [← hW]; simp
  have f1 : b 1 = p 1 + w 1 := by rw [← hW]; simp
  by_cases hh : a 1 = p 1 ∧ b 1 = p 1
  · rw [if_pos hh]
    have u1 : u 1 = 0 := by linarith [hh.1]
    have w1 : w 1 = 0 := by linarith [hh.2]
    have hc : crossing u w = 0 := by
      simp [crossing, u1, w1]
    rw [hc]
    have hs : Stops u w ↔ (u 0 ≤ 0 ∧ 0 ≤ w 0 ∨ w 0 ≤ 0 ∧ 0 ≤ u 0) := by
      simp [Stops, hu, u1, w1]
    simp only [hs]
    by_cases hl : a 0 < b 0
    · rw [if_pos hl]
      have : (¬ p 0 < a 0 ∧ ¬ b 0 < p 0) ↔ (u 0 ≤ 0 ∧ 0 ≤ w 0 ∨ w 0 ≤ 0 ∧ 0 ≤ u 0) := by
        rw [not_lt, not_lt]
        constructor
        · rintro ⟨x, y⟩; exact .inl ⟨by linarith, by linarith⟩
        · rintro (⟨x, y⟩ | ⟨x, y⟩)
          · exact ⟨by linarith, by linarith⟩
          · linarith
      simp only [this]
    · rw [if_neg hl]
      have : (¬ p 0 < b 0 ∧ ¬ a 0 < p 0) ↔ (u 0 ≤ 0 ∧ 0 ≤ w 0 ∨ w 0 ≤ 0 ∧ 0 ≤ u 0) := by
        rw [not_lt, not_lt]
        rw [not_lt] at hl
        constructor
        · rintro ⟨x, y⟩; exact .inr ⟨by linarith, by linarith⟩
        · rintro (⟨x, y⟩ | ⟨x, y⟩)
          · exact ⟨by linarith, by linarith⟩
          · exact ⟨by linarith, by linarith⟩
      simp only [this]
  · rw [if_neg hh]
    have hh' : ¬ (u 1 = 0 ∧ w 1 = 0) := fun ⟨x, y⟩ => hh ⟨by linarith, by linarith⟩
    have hs : Stops u w ↔ ((u 1 < 0 ∧ 0 ≤ w 1 ∨ 0 ≤ u 1 ∧ w 1 < 0) ∧ area u w = 0) := by
      unfold Stops
      constructor
      · rintro (h | ⟨x, y, -⟩ | h)
        · exact absurd h hu
        · exact absurd ⟨x, y⟩ hh'
        · exact h
      · exact fun h => .inr (.inr h)
    have g1 : a 1 < p 1 ↔ u 1 < 0 := by rw [e1]; constructor <;> intro h <;> linarith
    have g2 : b 1 < p 1 ↔ w 1 < 0 := by rw [f1]; constructor <;> intro h <;> linarith
    simp only [hs, g1, g2, orientation3_val, hU, hW, ofSign_collinear, ofSign_right']
    by_cases hu1 : u 1 < 0 <;> by_cases hw1 : w 1 < 0
    · simp [crossing, hu1, hw1, not_le.2 hw1, not_le.2 hu1]
    · have hw1' := not_lt.1 hw1
      rcases lt_trichotomy (area u w) 0 with h | h | h
      · simp [crossing, hu1, hw1, hw1', h, h.ne, not_lt.2 h.le, not_le.2 hu1]
      · simp [crossing, hu1, hw1, hw1', h]
      · simp [crossing, hu1, hw1, hw1', h, h.ne', not_lt.2 h.le, not_le.2 hu1]
    · have hu1' := not_lt.1 hu1
      rcases lt_trichotomy (area u w) 0 with h | h | h
      · simp [crossing, hu1, hw1, hu1', h, h.ne, not_lt.2 h.le]
      · simp [crossing, hu1, hw1, hu1', h]
      · simp [crossing, hu1, hw1, hu1', h, h.ne', not_lt.2 h.le]
    · simp [crossing, hu1, hw1]

/-- The loop stops only if the point is on the edge. -/
theorem Stops.onSegment {p a b : Vec F 2} (h : Stops (a - p) (b - p)) : OnSegment p a b := by
  generalize hU : a - p = u at *
  generalize hW : b - p = w at *
  have e0 : a 0 = p 0 + u 0 := by rw [← hU]; simp
  have e1 : a 1 = p 1 + u 1 := by rw [← hU]; simp
  have f0 : b 0 = p 0 + w 0 := by rw [← hW]; simp
  have f1 : b 1 = p 1 + w 1 := by rw [← hW]; simp
  -- enough: a convex combination of `u` and `w` is zero
  have key : ∀ x y : F, 0 ≤ x → 0 ≤ y → 0 < x + y → x * u 0 + y * w 0 = 0 → x * u 1 + y * w 1 = 0 →
      OnSegment p a b := by
    intro x y hx hy hxy h0 h1
    refine ⟨y / (x + y), div_nonneg hy hxy.le, (div_le_one hxy).2 (by linarith), vec2_ext ?_ ?_⟩
    · simp only [Pi.add_apply, Pi.smul_apply, Pi.sub_apply, smul_eq_mul, e0, f0]
      field_simp
      linear_combination -h0
    · simp only [Pi.add_apply, Pi.smul_apply, Pi.sub_apply, smul_eq_mul, e1, f1]
      field_simp
      linear_combination -h1
  rcases h with h | ⟨hu, hw, h⟩ | ⟨h, ha⟩
  · exact key 1 0 zero_le_one le_rfl (by simp) (by simp [h]) (by simp [h])
  · by_cases hz : u 0 = 0
    · exact key 1 0 zero_le_one le_rfl (by simp) (by simp [hz]) (by simp [hu])
    · rcases h with ⟨x, y⟩ | ⟨x, y⟩
      · have : u 0 < 0 := lt_of_le_of_ne x hz
        exact key (w 0) (-u 0) y (by linarith) (by linarith) (by ring) (by rw [hu, hw]; ring)
      · have : 0 < u 0 := lt_of_le_of_ne y (Ne.symm hz)
        exact key (-w 0) (u 0) (by linarith) y (by linarith) (by ring) (by rw [hu, hw]; ring)
  · simp only [area] at ha
    rcases h with ⟨x, y⟩ | ⟨x, y⟩
    · exact key (w 1) (-u 1) y (by linarith) (by linarith) (by linear_combination ha) (by ring)
    · exact key (-w 1) (u 1) (by linarith) x (by linarith) (by linear_combination -ha) (by ring)

/-- If the point is on the edge then the loop stops, unless the point is the end of the edge. -/
theorem OnSegment.stops {p a b : Vec F 2} (h : OnSegment p a b) : Stops (a - p) (b - p) ∨ p = b := by
  obtain ⟨t, h0, h1, e⟩ := h
  by_cases ht : t = 1
  · subst ht; right; rw [e]; simp
  have ht1 : t < 1 := lt_of_le_of_ne h1 ht
  left
  have a0 : (a - p) 0 = -t * (b 0 - a 0) := by rw [e]; simp
  have a1 : (a - p) 1 = -t * (b 1 - a 1) := by rw [e]; simp
  have b0 : (b - p) 0 = (1 - t) * (b 0 - a 0) := by rw [e]; simp; ring
  have b1 : (b - p) 1 = (1 - t) * (b 1 - a 1) := by rw [e]; simp; ring
  have har : area (a - p) (b - p) = 0 := by simp only [area, a0, a1, b0, b1]; ring
  by_cases hz : t = 0
  · left; apply vec2_ext <;> simp [e, hz]
  have ht0 : 0 < t := lt_of_le_of_ne h0 (Ne.symm hz)
  right
  rcases lt_trichotomy (b 1 - a 1) 0 with hy | hy | hy
  · right
    refine ⟨.inr ⟨?_, ?_⟩, har⟩
    · rw [a1]; nlinarith
    · rw [b1]; nlinarith
  · left
    refine ⟨by rw [a1, hy, mul_zero], by rw [b1, hy, mul_zero], ?_⟩
    rw [a0, b0]
    rcases le_total 0 (b 0 - a 0) with hx | hx
    · left; exact ⟨by nlinarith, by nlinarith⟩
    · right; exact ⟨by nlinarith, by nlinarith⟩
  · right
    refine ⟨.inl ⟨?_, ?_⟩, har⟩
    · rw [a1]; nlinarith
    · rw [b1]; nlinarith

/-- The sum of the contributions of the edges. -/
def crossings (p : Vec F 2) (l : List (Vec F 2 × Vec F 2)) : Int :=
  (l.map fun e => crossing (e.1 - p) (e.2 - p)).sum

theorem windFold_eq (p : Vec F 2) : ∀ (l : List (Vec F 2 × Vec F 2)) (res : Int),
    (∀ e ∈ l, ¬ Stops (e.1 - p) (e.2 - p)) → windFold p l res = res + crossings p l
  | [], res, _ => by simp [windFold, crossings]
  | e :: es, res, h => by
    rw [windFold, windStep_eq, if_neg (h e (by simp))]
    simp only
    rw [windFold_eq p es _ fun x hx => h x (List.mem_cons_of_mem _ hx)]
    simp [crossings, add_assoc]

theorem windFold_stop (p : Vec F 2) : ∀ (l : List (Vec F 2 × Vec F 2)) (res : Int),
    (∃ e ∈ l, Stops (e.1 - p) (e.2 - p)) → windFold p l res = boundary
  | [], res, h => by obtain ⟨e, he, -⟩ := h; simp at he
  | e :: es, res, h => by
    rw [windFold, windStep_eq]
    by_cases hs : Stops (e.1 - p) (e.2 - p)
    · rw [if_pos hs]
    · rw [if_neg hs]
      simp only
      apply windFold_stop
      obtain ⟨x, hx, hxs⟩ := h
      rcases List.mem_cons.1 hx with rfl | hx
      · exact absurd hxs hs
      · exact ⟨x, hx, hxs⟩

theorem onBorder_iff (p : Vec F 2) (poly : List (Vec F 2)) :
    OnBorder p poly ↔ ∃ e ∈ edges poly, Stops (e.1 - p) (e.2 - p) := by
  constructor
  · rintro ⟨⟨a, b⟩, he, h⟩
    rcases h.stops with h | h
    · exact ⟨_, he, h⟩
    · obtain ⟨c, hc⟩ := exists_edge_from (mem_of_mem_edges he).2
      refine ⟨_, hc, .inl ?_⟩
      simp only at h
      simp [h]
  · rintro ⟨e, he, h⟩
    exact ⟨e, he, h.onSegment⟩

theorem windingNumber_eq (p : Vec F 2) (poly : List (Vec F 2)) :
    (OnBorder p poly → windingNumber p poly = boundary) ∧
      (¬ OnBorder p poly → windingNumber p poly = crossings p (edges poly)) := by
  rw [onBorder_iff]
  match poly with
  | [] => simp [edges, pairs, windingNumber, crossings]
  | [v] =>
    have hs : Stops (v - p) (v - p) ↔ p = v := by
      constructor
      · intro h
        obtain ⟨t, -, -, e⟩ := h.onSegment
        rw [e]; simp
      · rintro rfl; exact .inl (by simp)
    have he : edges [v] = [(v, v)] := rfl
    have hc : crossing (v - p) (v - p) = 0 := by
      have : area (v - p) (v - p) = 0 := by simp only [area]; ring
      simp [crossing, this]
    simp only [he, List.mem_singleton, exists_eq_left, hs, windingNumber, crossings, List.map_cons,
      List.map_nil, List.sum_cons, List.sum_nil, hc]
    constructor
    · intro h; rw [if_pos ((isEqual_iff _ _).2 h)]
    · intro h; rw [if_neg (by rwa [isEqual_iff])]; rfl
  | a :: b :: rest =>
    rw [windingNumber]
    · rw [windLoop_edges]
      constructor
      · exact windFold_stop _ _ _
      · intro h
        rw [windFold_eq, zero_add]
        intro e he hs
        exact h ⟨e, he, hs⟩
    · simp
    · simp

theorem crossing_abs (u w : Vec F 2) : |crossing u w| ≤ 1 := by
  unfold crossing; split_ifs <;> simp

theorem crossings_abs (p : Vec F 2) (l : List (Vec F 2 × Vec F 2)) :
    |crossings p l| ≤ l.length := by
  induction l with
  | nil => simp [crossings]
  | cons e l ih =>
    have h1 := crossing_abs (e.1 - p) (e.2 - p)
    have : crossings p (e :: l) = crossing (e.1 - p) (e.2 - p) + crossings p l := by
      simp [crossings]
    rw [this]
    refine (abs_add_le _ _).trans ?_
    simp only [List.length_cons]
    push_cast
    linarith

end Step

end Actl.Geo
