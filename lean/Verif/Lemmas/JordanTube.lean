import Verif.Lemmas.Jordan
import Verif.Lemmas.Convex

/-!
# Segments moved a little
-/

namespace Actl.Geo

variable {F : Type*} [Field F] [LinearOrder F] [IsStrictOrderedRing F]

/-! ### Small numbers -/

/-- True of all small positive numbers. -/
def Small (P : F → Prop) : Prop := ∃ δ : F, 0 < δ ∧ ∀ ε, 0 < ε → ε ≤ δ → P ε

theorem Small.mono {P Q : F → Prop} (h : Small P) (hpq : ∀ ε, 0 < ε → P ε → Q ε) : Small Q :=
  let ⟨δ, h0, h1⟩ := h
  ⟨δ, h0, fun ε e0 e1 => hpq ε e0 (h1 ε e0 e1)⟩

theorem Small.and {P Q : F → Prop} (h : Small P) (h' : Small Q) : Small fun ε => P ε ∧ Q ε := by
  obtain ⟨δ, h0, h1⟩ := h
  obtain ⟨δ', h0', h1'⟩ := h'
  exact ⟨min δ δ', lt_min h0 h0', fun ε e0 e1 =>
    ⟨h1 ε e0 (le_trans e1 (min_le_left _ _)), h1' ε e0 (le_trans e1 (min_le_right _ _))⟩⟩

theorem small_of_forall {P : F → Prop} (h : ∀ ε, 0 < ε → P ε) : Small P := ⟨1, zero_lt_one, fun ε e0 _ => h ε e0⟩

theorem Small.list {α : Type*} {P : α → F → Prop} : ∀ {l : List α}, (∀ e ∈ l, Small (P e)) →
    Small fun ε => ∀ e ∈ l, P e ε
  | [], _ => small_of_forall fun _ _ => by simp
  | x :: l, h => by
    have ih : Small fun ε => ∀ e ∈ l, P e ε := Small.list fun e he => h e (by simp [he])
    refine ((h x (by simp)).and ih).mono fun ε _ ⟨a, b⟩ e he => ?_
    rcases List.mem_cons.1 he with rfl | he
    · exact a
    · exact b e he

theorem Small.exists {P : F → Prop} (h : Small P) : ∃ ε, 0 < ε ∧ P ε :=
  let ⟨δ, h0, h1⟩ := h
  ⟨δ, h0, h1 δ h0 le_rfl⟩

theorem small_lt {a b : F} (k : F) (h : a < b) : Small fun ε => a + ε * k < b := by
  have h1 : 0 < |k| + 1 := by positivity
  refine ⟨(b - a) / (|k| + 1), div_pos (by linarith) h1, fun ε e0 e1 => ?_⟩
  have h2 : ε * (|k| + 1) ≤ b - a := (le_div_iff₀ h1).1 e1
  nlinarith [le_abs_self k]

theorem small_le {a : F} (h : 0 < a) : Small fun ε : F => ε ≤ a := ⟨a, h, fun _ _ e => e⟩

/-! ### Linear functions on segments -/

theorem area_onSegment (u : Vec F 2) {x p q : Vec F 2} (h : OnSegment x p q) :
    ∃ t : F, 0 ≤ t ∧ t ≤ 1 ∧ area u x = (1 - t) * area u p + t * area u q := by
  obtain ⟨t, h0, h1, rfl⟩ := h
  refine ⟨t, h0, h1, ?_⟩
  simp only [area, Pi.add_apply, Pi.smul_apply, Pi.sub_apply, smul_eq_mul]; ring

theorem area_lt_onSegment {u x p q : Vec F 2} {γ : F} (h : OnSegment x p q) (hp : area u p < γ) (hq : area u q < γ) :
    area u x < γ := by
  obtain ⟨t, h0, h1, e⟩ := area_onSegment u h
  rw [e]
  rcases eq_or_lt_of_le h0 with rfl | h0
  · simpa using hp
  · nlinarith [mul_nonneg (sub_nonneg.2 h1) (sub_nonneg.2 hp.le), mul_pos h0 (sub_pos.2 hq)]

theorem area_le_onSegment {u x p q : Vec F 2} {γ : F} (h : OnSegment x p q) (hp : area u p ≤ γ) (hq : area u q ≤ γ) :
    area u x ≤ γ := by
  obtain ⟨t, h0, h1, e⟩ := area_onSegment u h
  rw [e]
  nlinarith [mul_nonneg (sub_nonneg.2 h1) (sub_nonneg.2 hp), mul_nonneg h0 (sub_nonneg.2 hq)]

theorem area_neg_left (u v : Vec F 2) : area (-u) v = -area u v := by simp only [area, Pi.neg_apply]; ring

theorem area_neg_right (u v : Vec F 2) : area u (-v) = -area u v := by simp only [area, Pi.neg_apply]; ring

theorem area_add_right (u v w : Vec F 2) : area u (v + w) = area u v + area u w := by
  simp only [area, Pi.add_apply]; ring

theorem area_sub_right (u v w : Vec F 2) : area u (v - w) = area u v - area u w := by
  simp only [area, Pi.sub_apply]; ring

theorem area_smul_right (u : Vec F 2) (t : F) (v : Vec F 2) : area u (t • v) = t * area u v := by
  simp only [area, Pi.smul_apply, smul_eq_mul]; ring

theorem area_smul_left (u : Vec F 2) (t : F) (v : Vec F 2) : area (t • u) v = t * area u v := by
  simp only [area, Pi.smul_apply, smul_eq_mul]; ring

/-- Two segments on different sides of a line have no common point. -/
theorem disjoint_of_area {u x y a b z : Vec F 2} {γ : F} (hx : area u x < γ) (hy : area u y < γ)
    (ha : γ ≤ area u a) (hb : γ ≤ area u b) (h : OnSegment z x y) : ¬ OnSegment z a b := by
  intro h'
  have h1 := area_lt_onSegment h hx hy
  have h2 := area_le_onSegment (u := -u) (γ := -γ) h' (by rw [area_neg_left]; linarith) (by rw [area_neg_left]; linarith)
  rw [area_neg_left] at h2
  linarith

theorem exists_smul_of_area {e v : Vec F 2} (he : e ≠ 0) (h : area e v = 0) : ∃ t : F, v = t • e := by
  have hp := inner_self_pos he
  refine ⟨inner e v / inner e e, ?_⟩
  rw [inner2] at hp ⊢
  rw [inner2]
  simp only [area] at h
  apply vec2_ext <;> simp only [Pi.smul_apply, smul_eq_mul] <;> rw [div_mul_eq_mul_div, eq_div_iff hp.ne'] <;>
    linear_combination (norm := ring_nf)
  · linear_combination (-e 1) * h
  · linear_combination (e 0) * h

theorem unit_ratio {a b : F} (h : a * b ≤ 0) (h0 : a - b ≠ 0) : 0 ≤ a / (a - b) ∧ a / (a - b) ≤ 1 := by
  have hp : 0 < (a - b) * (a - b) := mul_self_pos.2 h0
  have e : a / (a - b) = a * (a - b) / ((a - b) * (a - b)) := by field_simp
  rw [e]
  exact ⟨div_nonneg (by nlinarith [mul_self_nonneg a]) hp.le,
    (div_le_one hp).2 (by nlinarith [mul_self_nonneg b])⟩

/-- Segments without a common point are separated by a line. -/
theorem exists_separating {x y a b : Vec F 2} (hab : a ≠ b)
    (h : ∀ z, OnSegment z x y → ¬ OnSegment z a b) :
    ∃ (u : Vec F 2) (γ : F), area u x < γ ∧ area u y < γ ∧ γ < area u a ∧ γ < area u b := by
  have mk : ∀ u : Vec F 2, area u x < area u a → area u x < area u b → area u y < area u a → area u y < area u b →
      ∃ (u : Vec F 2) (γ : F), area u x < γ ∧ area u y < γ ∧ γ < area u a ∧ γ < area u b := by
    intro u h1 h2 h3 h4
    obtain ⟨γ, g1, g2⟩ := exists_between (max_lt (lt_min h1 h2) (lt_min h3 h4))
    exact ⟨u, γ, (max_lt_iff.1 g1).1, (max_lt_iff.1 g1).2, (lt_min_iff.1 g2).1, (lt_min_iff.1 g2).2⟩
  generalize hD1 : area (y - x) (a - x) = D1
  generalize hD2 : area (y - x) (b - x) = D2
  generalize hA1 : area (b - a) (x - a) = A1
  generalize hA2 : area (b - a) (y - a) = A2
  have hyx : area (y - x) y = area (y - x) x := by simp only [area, Pi.sub_apply]; ring
  have hba : area (b - a) b = area (b - a) a := by simp only [area, Pi.sub_apply]; ring
  rw [area_sub_right] at hD1 hD2 hA1 hA2
  by_cases c1 : 0 < D1 ∧ 0 < D2
  · exact mk (y - x) (by linarith) (by linarith) (by linarith) (by linarith)
  by_cases c2 : D1 < 0 ∧ D2 < 0
  · apply mk (-(y - x)) <;> simp only [area_neg_left] <;> linarith
  by_cases c3 : 0 < A1 ∧ 0 < A2
  · apply mk (-(b - a)) <;> simp only [area_neg_left] <;> linarith
  by_cases c4 : A1 < 0 ∧ A2 < 0
  · exact mk (b - a) (by linarith) (by linarith) (by linarith) (by linarith)
  have hD : D1 * D2 ≤ 0 := by
    rcases lt_trichotomy D1 0 with p | p | p
    · exact mul_nonpos_of_nonpos_of_nonneg p.le (not_lt.1 fun q => c2 ⟨p, q⟩)
    · rw [p, zero_mul]
    · exact mul_nonpos_of_nonneg_of_nonpos p.le (not_lt.1 fun q => c1 ⟨p, q⟩)
  have hA : A1 * A2 ≤ 0 := by
    rcases lt_trichotomy A1 0 with p | p | p
    · exact mul_nonpos_of_nonpos_of_nonneg p.le (not_lt.1 fun q => c4 ⟨p, q⟩)
    · rw [p, zero_mul]
    · exact mul_nonpos_of_nonneg_of_nonpos p.le (not_lt.1 fun q => c3 ⟨p, q⟩)
  have hk : A1 - A2 = -(D1 - D2) := by
    rw [← hA1, ← hA2, ← hD1, ← hD2]; simp only [area, Pi.sub_apply]; ring
  by_cases k0 : A1 - A2 = 0
  · have a0 : A1 = 0 := by
      have : A1 * A1 ≤ 0 := by rwa [← sub_eq_zero.1 k0] at hA
      exact mul_self_eq_zero.1 (le_antisymm this (mul_self_nonneg _))
    have a0' : A2 = 0 := by rw [← sub_eq_zero.1 k0, a0]
    have he : b - a ≠ 0 := sub_ne_zero.2 hab.symm
    obtain ⟨α, hα⟩ := exists_smul_of_area he (v := x - a) (by rw [area_sub_right, hA1, a0])
    obtain ⟨β, hβ⟩ := exists_smul_of_area he (v := y - a) (by rw [area_sub_right, hA2, a0'])
    have hx : x = a + α • (b - a) := by rw [← hα]; simp
    have hy : y = a + β • (b - a) := by rw [← hβ]; simp
    have hin := inner_self_pos he
    have hα' := h x (onSegment_left _ _)
    have hβ' := h y (onSegment_right _ _)
    rw [inner2] at hin
    -- the coordinate along the line
    have hu : ∀ t : F, area ![(b - a) 1, -(b - a) 0] (a + t • (b - a)) = area ![(b - a) 1, -(b - a) 0] a +
        t * ((b - a) 0 * (b - a) 0 + (b - a) 1 * (b - a) 1) := by
      intro t
      simp [area]; ring
    have hb : b = a + (1 : F) • (b - a) := by simp
    have ub := hu 1
    rw [← hb] at ub
    have ux := hu α
    have uy := hu β
    rw [← hx] at ux
    rw [← hy] at uy
    have nx : α < 0 ∨ 1 < α := by
      by_contra hc
      push Not at hc
      exact hα' ⟨α, hc.1, hc.2, hx⟩
    have ny : β < 0 ∨ 1 < β := by
      by_contra hc
      push Not at hc
      exact hβ' ⟨β, hc.1, hc.2, hy⟩
    rcases nx with nx | nx <;> rcases ny with ny | ny
    · have m1 := mul_neg_of_neg_of_pos nx hin
      have m2 := mul_neg_of_neg_of_pos ny hin
      apply mk ![(b - a) 1, -(b - a) 0] <;> linarith only [ub, ux, uy, m1, m2, hin]
    · exfalso
      refine h a ⟨(0 - α) / (β - α), div_nonneg (by linarith) (by linarith),
        (div_le_one (by linarith)).2 (by linarith), ?_⟩ (onSegment_left _ _)
      have : β - α ≠ 0 := by intro h; linarith
      rw [hx, hy]
      apply vec2_ext <;> simp <;> field_simp <;> ring
    · exfalso
      refine h a ⟨(0 - α) / (β - α), div_nonneg_of_nonpos (by linarith) (by linarith),
        (div_le_one_of_neg (by linarith)).2 (by linarith), ?_⟩ (onSegment_left _ _)
      have : β - α ≠ 0 := by intro h; linarith
      rw [hx, hy]
      apply vec2_ext <;> simp <;> field_simp <;> ring
    · have m1 := (lt_mul_iff_one_lt_left hin).2 nx
      have m2 := (lt_mul_iff_one_lt_left hin).2 ny
      apply mk (-![(b - a) 1, -(b - a) 0]) <;> simp only [area_neg_left] <;> linarith only [ub, ux, uy, m1, m2, hin]
  · exfalso
    have k1 : D1 - D2 ≠ 0 := by intro h; apply k0; rw [hk, h, neg_zero]
    obtain ⟨t0, t1⟩ := unit_ratio hA k0
    obtain ⟨s0, s1⟩ := unit_ratio hD k1
    refine h (x + (A1 / (A1 - A2)) • (y - x)) ⟨_, t0, t1, rfl⟩ ⟨_, s0, s1, ?_⟩
    have e1 : D1 / (D1 - D2) = -D1 / (A1 - A2) := by rw [hk, neg_div_neg_eq]
    rw [e1]
    apply vec2_ext <;> simp only [Pi.add_apply, Pi.smul_apply, Pi.sub_apply, smul_eq_mul] <;> field_simp <;>
      rw [← hA1, ← hA2, ← hD1] <;> simp only [area, Pi.sub_apply] <;> ring

/-- Segments without a common point have none after a small move of one of them. -/
theorem tube {x y a b : Vec F 2} (hab : a ≠ b) (h : ∀ z, OnSegment z x y → ¬ OnSegment z a b) (d d' : Vec F 2) :
    Small fun ε : F => ∀ z, OnSegment z (x + ε • d) (y + ε • d') → ¬ OnSegment z a b := by
  obtain ⟨u, γ, h1, h2, h3, h4⟩ := exists_separating hab h
  refine ((small_lt (area u d) h1).and (small_lt (area u d') h2)).mono fun ε e0 ⟨g1, g2⟩ z hz => ?_
  refine disjoint_of_area (u := u) (γ := γ) ?_ ?_ h3.le h4.le hz
  · rwa [area_add_right, area_smul_right]
  · rwa [area_add_right, area_smul_right]

end Actl.Geo
