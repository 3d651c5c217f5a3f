import Verif.Lemmas.JordanTube

/-!
# Walking along an edge and around a corner of a polygon
-/

namespace Actl.Geo

variable {F : Type*} [Field F] [LinearOrder F] [IsStrictOrderedRing F]

/-- A direction into the left side of a corner. -/
theorem exists_corner {u v : Vec F 2} (hu : u ≠ 0) (hv : v ≠ 0) (h : ∀ t : F, 0 < t → v ≠ t • u) :
    ∃ n : Vec F 2, area u n < 0 ∧ 0 < area v n := by
  have s := area_swap u v
  rcases lt_trichotomy (area v u) 0 with k | k | k
  · refine ⟨-(u + v), ?_, ?_⟩ <;> rw [area_neg_right, area_add_right, area_self'] <;> linarith
  · have : area u v = 0 := by linarith
    obtain ⟨t, rfl⟩ := exists_smul_of_area hu this
    have ht : t < 0 := by
      rcases lt_trichotomy t 0 with t0 | t0 | t0
      · exact t0
      · exact absurd (by rw [t0, zero_smul]) hv
      · exact absurd rfl (h t t0)
    have hp := inner_self_pos hu
    rw [inner2] at hp
    have e : area u ![u 1, -u 0] = -(u 0 * u 0 + u 1 * u 1) := by simp [area]; ring
    refine ⟨![u 1, -u 0], by rw [e]; linarith, ?_⟩
    rw [area_smul_left, e]
    nlinarith
  · refine ⟨u + v, ?_, ?_⟩ <;> rw [area_add_right, area_self'] <;> linarith

/-- From a point of an edge to an end of it, on one side of the border (`σ`: left or right). -/
theorem edge_walk {a b c h d n : Vec F 2} {σ τ : F} (hτ : 0 < τ) (hh : h = b + τ • (a - b))
    (hd : 0 < σ * area (b - a) d) (hn : σ * area (a - b) n < 0) (hn' : 0 < σ * area (c - b) n) :
    Small fun ε : F => ∀ z, OnSegment z (h + ε • d) (b + ε • n) → ¬ OnSegment z a b ∧ ¬ OnSegment z b c := by
  have e1 : area (b - a) n = -area (a - b) n := by rw [← area_neg_left, neg_sub]
  have e2 : area (b - a) b = area (b - a) a := by simp only [area, Pi.sub_apply]; ring
  have e3 : area (b - a) h = area (b - a) a := by
    rw [hh]; simp only [area, Pi.sub_apply, Pi.add_apply, Pi.smul_apply, smul_eq_mul]; ring
  have e4 : area (c - b) c = area (c - b) b := by simp only [area, Pi.sub_apply]; ring
  have e5 : area (b - a) c = area (b - a) b + area (b - a) (c - b) := by rw [area_sub_right]; ring
  have e6 : area (c - b) h = area (c - b) b + τ * area (b - a) (c - b) := by
    rw [hh]; simp only [area, Pi.sub_apply, Pi.add_apply, Pi.smul_apply, smul_eq_mul]; ring
  have own : ∀ ε : F, 0 < ε → area (-(σ • (b - a))) (h + ε • d) < area (-(σ • (b - a))) a ∧
      area (-(σ • (b - a))) (b + ε • n) < area (-(σ • (b - a))) a := by
    intro ε e0
    simp only [area_neg_left, area_smul_left, area_add_right, area_smul_right, e1, e2, e3]
    constructor <;> nlinarith [mul_pos e0 hd, mul_pos e0 (neg_pos.2 hn)]
  by_cases k : σ * area (b - a) (c - b) ≤ 0
  · refine small_of_forall fun ε e0 z hz => ⟨?_, ?_⟩
    · refine disjoint_of_area (own ε e0).1 (own ε e0).2 le_rfl ?_ hz
      simp only [area_neg_left, area_smul_left, e2]; exact le_rfl
    · refine disjoint_of_area (own ε e0).1 (own ε e0).2 ?_ ?_ hz
      · simp only [area_neg_left, area_smul_left, e2]; exact le_rfl
      · simp only [area_neg_left, area_smul_left, e5, e2, mul_add]; linarith
  · have k := not_le.1 k
    have h1 : area (-(σ • (c - b))) h < area (-(σ • (c - b))) b := by
      simp only [area_neg_left, area_smul_left, e6, mul_add]
      nlinarith [mul_pos hτ k]
    refine (small_lt (area (-(σ • (c - b))) d) h1).mono fun ε e0 hε z hz => ⟨?_, ?_⟩
    · refine disjoint_of_area (own ε e0).1 (own ε e0).2 le_rfl ?_ hz
      simp only [area_neg_left, area_smul_left, e2]; exact le_rfl
    · refine disjoint_of_area (u := -(σ • (c - b))) (γ := area (-(σ • (c - b))) b) ?_ ?_ le_rfl ?_ hz
      · rwa [area_add_right, area_smul_right]
      · simp only [area_neg_left, area_smul_left, area_add_right, area_smul_right]
        nlinarith [mul_pos e0 hn']
      · simp only [area_neg_left, area_smul_left, e4]; exact le_rfl

theorem cone_avoid {w b d m p : Vec F 2} {ε : F} (e0 : 0 < ε) (hd : area w d < 0) (hm : area w m < 0)
    (hp : 0 ≤ area w (p - b)) : ∀ z, OnSegment z (b + ε • d) (b + ε • m) → ¬ OnSegment z b p := by
  intro z hz
  refine disjoint_of_area (u := w) (γ := area w b) ?_ ?_ le_rfl ?_ hz
  · rw [area_add_right, area_smul_right]; nlinarith
  · rw [area_add_right, area_smul_right]; nlinarith
  · rw [area_sub_right] at hp; linarith

/-- Near a corner each direction off the border can be turned to one of the sides. -/
theorem vertex_walk {a b c d n : Vec F 2} (ha : a - b ≠ 0) (hc : c - b ≠ 0)
    (hd : ∀ t : F, 0 ≤ t → d ≠ t • (a - b)) (hd' : ∀ t : F, 0 ≤ t → d ≠ t • (c - b))
    (hn : area (a - b) n < 0) (hn' : 0 < area (c - b) n) :
    (∀ ε : F, 0 < ε → ∀ z, OnSegment z (b + ε • d) (b + ε • n) → ¬ OnSegment z b a ∧ ¬ OnSegment z b c) ∨
    (∀ ε : F, 0 < ε → ∀ z, OnSegment z (b + ε • d) (b + ε • -n) → ¬ OnSegment z b a ∧ ¬ OnSegment z b c) := by
  generalize hu : a - b = u at *
  generalize hv : c - b = v at *
  have s := area_swap u v
  have fu := area_self' u
  have gv := area_self' v
  have f0 : area u d = 0 → ∃ t : F, t < 0 ∧ d = t • u := by
    intro h
    obtain ⟨t, e⟩ := exists_smul_of_area ha h
    exact ⟨t, not_le.1 fun h => hd t h e, e⟩
  have g0 : area v d = 0 → ∃ t : F, t < 0 ∧ d = t • v := by
    intro h
    obtain ⟨t, e⟩ := exists_smul_of_area hc h
    exact ⟨t, not_le.1 fun h => hd' t h e, e⟩
  -- the four ways
  have way : ∀ (m w w' : Vec F 2), area w d < 0 → area w m < 0 → 0 ≤ area w u → area w' d < 0 → area w' m < 0 →
      0 ≤ area w' v → ∀ ε : F, 0 < ε → ∀ z, OnSegment z (b + ε • d) (b + ε • m) → ¬ OnSegment z b a ∧ ¬ OnSegment z b c :=
    fun m w w' h1 h2 h3 h4 h5 h6 ε e0 z hz =>
      ⟨cone_avoid e0 h1 h2 (by rw [hu]; exact h3) z hz, cone_avoid e0 h4 h5 (by rw [hv]; exact h6) z hz⟩
  have nu : area (-u) d = -area u d := area_neg_left _ _
  have nv : area (-v) d = -area v d := area_neg_left _ _
  have nu1 : area (-u) n = -area u n := area_neg_left _ _
  have nv1 : area (-v) n = -area v n := area_neg_left _ _
  have nu2 : area (-u) (-n) = area u n := by rw [area_neg_left, area_neg_right, neg_neg]
  have nv2 : area v (-n) = -area v n := area_neg_right _ _
  have nu3 : area (-u) u = 0 := by rw [area_neg_left, fu, neg_zero]
  have nv3 : area (-v) v = 0 := by rw [area_neg_left, gv, neg_zero]
  have nu4 : area (-u) v = -area u v := area_neg_left _ _
  have nv4 : area (-v) u = -area v u := area_neg_left _ _
  rcases lt_trichotomy (area v u) 0 with k | k | k
  · by_cases c1 : area u d < 0
    · exact .inl (way n u u c1 hn fu.ge c1 hn (by linarith))
    by_cases c2 : 0 < area v d
    · exact .inl (way n (-v) (-v) (by linarith) (by linarith) (by linarith) (by linarith) (by linarith) nv3.ge)
    have c1 := not_lt.1 c1
    have c2 := not_lt.1 c2
    have c1 : 0 < area u d := by
      refine lt_of_le_of_ne c1 fun h => ?_
      obtain ⟨t, t0, rfl⟩ := f0 h.symm
      rw [area_smul_right] at c2
      nlinarith
    have c2 : area v d < 0 := by
      refine lt_of_le_of_ne c2 fun h => ?_
      obtain ⟨t, t0, rfl⟩ := g0 h
      rw [area_smul_right] at c1
      nlinarith
    exact .inr (way (-n) (-u) v (by linarith) (by linarith) nu3.ge c2 (by linarith) gv.ge)
  · by_cases c1 : area u d < 0
    · exact .inl (way n u u c1 hn fu.ge c1 hn (by linarith))
    by_cases c2 : 0 < area u d
    · exact .inr (way (-n) (-u) (-u) (by linarith) (by linarith) nu3.ge (by linarith) (by linarith) (by linarith))
    exfalso
    have h0 : area u d = 0 := le_antisymm (not_lt.1 c2) (not_lt.1 c1)
    obtain ⟨t, t0, e⟩ := f0 h0
    obtain ⟨r, er⟩ := exists_smul_of_area ha (v := v) (by linarith)
    rw [er, area_smul_left] at hn'
    have r0 : r < 0 := by
      by_contra h
      nlinarith [mul_nonneg (not_lt.1 h) (neg_pos.2 hn).le]
    refine hd' (t / r) (div_nonneg_of_nonpos t0.le r0.le) ?_
    rw [e, er, smul_smul, div_mul_cancel₀ _ r0.ne]
  · by_cases c0 : area u d < 0 ∧ 0 < area v d
    · exact .inl (way n u (-v) c0.1 hn fu.ge (by linarith) (by linarith) nv3.ge)
    by_cases c1 : 0 < area u d
    · exact .inr (way (-n) (-u) (-u) (by linarith) (by linarith) nu3.ge (by linarith) (by linarith) (by linarith))
    by_cases c2 : area v d < 0
    · exact .inr (way (-n) v v c2 (by linarith) k.le c2 (by linarith) gv.ge)
    exfalso
    have c1 := not_lt.1 c1
    have c2 := not_lt.1 c2
    rcases eq_or_lt_of_le c1 with h | h
    · obtain ⟨t, t0, rfl⟩ := f0 h
      rw [area_smul_right] at c2
      nlinarith
    rcases eq_or_lt_of_le c2 with h' | h'
    · obtain ⟨t, t0, rfl⟩ := g0 h'.symm
      rw [area_smul_right] at c1
      nlinarith
    · exact c0 ⟨h, h'⟩

end Actl.Geo
