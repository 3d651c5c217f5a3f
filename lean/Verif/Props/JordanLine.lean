import Verif.Lemmas.JordanLine

/-!
# C73: a line and any simple polygon

* `intersectSimple_simple`: the conditions of `intersectSimple_correct` hold for every simple polygon given
  counter-clockwise.
* `intersectSimple_within`: what is written are the parameters where the line changes between inside and outside.
-/

namespace Actl.Geo

variable {F : Type*} [Field F] [LinearOrder F] [IsStrictOrderedRing F] {poly : List (Vec F 2)}

open Classical in
/-- Just beside the line: odd numbers and the even-odd rule. -/
theorem inside_parity {l : Line F 2} (hv : l.vector ≠ 0) {τ t : F} {σ : F} (hσ : σ = 1 ∨ σ = -1)
    (hx : ∀ f ∈ edges poly, (0 < σ * height l f.1 ↔ ¬ 0 < σ * height l f.2) →
      ∀ x, OnSegment (l.at x) f.1 f.2 → (x < τ ↔ x < t) ∧ x ≠ τ)
    (hoff : Small fun ε : F => ¬ OnBorder (l.at τ + ε • σ • normal l) poly) :
    Small fun ε : F => (σ = 1 → (InsideLeft l t poly ↔ windingNumber (l.at τ + ε • σ • normal l) poly % 2 = 1)) ∧
      (σ = -1 → (InsideRight l t poly ↔ windingNumber (l.at τ + ε • σ • normal l) poly % 2 = 1)) := by
  have hσ2 : σ * σ = 1 := by rcases hσ with rfl | rfl <;> norm_num
  refine (winding_parity hv hσ2 hx hoff).mono fun ε _ h => ?_
  rw [h]
  constructor
  · rintro rfl
    have e : (edges poly).countP (fun f => decide (CrossesLeft l t f)) = (edges poly).countP fun f =>
        decide ((0 < 1 * height l f.1 ↔ ¬ 0 < 1 * height l f.2) ∧ ∃ s < t, OnSegment (l.at s) f.1 f.2) := by
      apply List.countP_congr
      intro f _
      rw [decide_eq_true_iff, decide_eq_true_iff, crossesLeft_iff, one_mul, one_mul]
    rw [InsideLeft, e, Nat.odd_iff]
    omega
  · rintro rfl
    have e : (edges poly).countP (fun f => decide (CrossesRight l t f)) = (edges poly).countP fun f =>
        decide ((0 < -1 * height l f.1 ↔ ¬ 0 < -1 * height l f.2) ∧ ∃ s < t, OnSegment (l.at s) f.1 f.2) := by
      apply List.countP_congr
      intro f _
      rw [decide_eq_true_iff, decide_eq_true_iff, crossesRight_iff, neg_one_mul, neg_one_mul, neg_pos, neg_pos]
    rw [InsideRight, e, Nat.odd_iff]
    omega

theorem Simple.mod_two (hs : Simple poly) (h3 : 3 ≤ poly.length) {p : Vec F 2} (hp : ¬ OnBorder p poly) :
    windingNumber p poly % 2 = 1 ↔ withinSimple p poly = .inside := by
  rw [(hs.within_eq h3 p).2.2]
  rcases winding_simple hs h3 hp with h | ⟨-, h⟩ | ⟨-, h⟩ <;> rw [h] <;> simp [hp]

/-- Off the border the even-odd rule on both sides of the line is `within`. -/
theorem Simple.inside_iff (hs : Simple poly) (h3 : 3 ≤ poly.length) {l : Line F 2} (hv : l.vector ≠ 0) {t : F}
    (ht : ¬ OnBorder (l.at t) poly) :
    (InsideLeft l t poly ↔ withinSimple (l.at t) poly = .inside) ∧
    (InsideRight l t poly ↔ withinSimple (l.at t) poly = .inside) := by
  have clear : ∀ d : Vec F 2, Small fun ε : F => Clear poly (l.at t) (l.at t + ε • d) := by
    intro d
    have : Small fun ε : F => ∀ f ∈ edges poly, ∀ z, OnSegment z (l.at t + ε • 0) (l.at t + ε • d) →
        ¬ OnSegment z f.1 f.2 := by
      apply Small.list
      intro f hf
      refine tube (edge_ne hs.1 (by omega) (a := f.1) (b := f.2) hf) ?_ 0 d
      rintro z ⟨r, -, -, rfl⟩ h
      rw [sub_self, smul_zero, add_zero] at h
      exact ht ⟨f, hf, h⟩
    refine this.mono fun ε _ h z hz ⟨f, hf, hfz⟩ => ?_
    rw [smul_zero, add_zero] at h
    exact h f hf z hz hfz
  have side : ∀ σ : F, (σ = 1 ∨ σ = -1) →
      (σ = 1 → (InsideLeft l t poly ↔ withinSimple (l.at t) poly = .inside)) ∧
      (σ = -1 → (InsideRight l t poly ↔ withinSimple (l.at t) poly = .inside)) := by
    intro σ hσ
    have c := clear (σ • normal l)
    obtain ⟨ε, e0, g1, g2⟩ := ((inside_parity (τ := t) (t := t) hv hσ
      (fun f hf _ x hx => ⟨Iff.rfl, fun e => ht ⟨f, hf, e ▸ hx⟩⟩)
      (c.mono fun ε _ h => h _ (onSegment_right _ _))).and c).exists
    rw [← winding_clear g2, hs.mod_two h3 ht] at g1
    exact g1
  exact ⟨(side 1 (.inl rfl)).1 rfl, (side (-1) (.inr rfl)).2 rfl⟩

/-- Every simple polygon given counter-clockwise meets the conditions along every line. -/
theorem simpleAlong_simple (hs : Simple poly) (h3 : 3 ≤ poly.length) (hc : CounterClockwise poly) {l : Line F 2}
    (hv : l.vector ≠ 0) : SimpleAlong l poly := by
  have hK := inner_self_pos hv
  -- a point strictly between the ends of an edge on the line
  have inner_pt : ∀ {a b : Vec F 2} {s s' τ : F}, a = l.at s → b = l.at s' → s ≠ s' → 0 < (τ - s) / (s' - s) →
      (τ - s) / (s' - s) < 1 → l.at τ = a + ((τ - s) / (s' - s)) • (b - a) := by
    rintro a b s s' τ rfl rfl hne _ _
    have : s' - s ≠ 0 := sub_ne_zero.2 hne.symm
    simp only [Line.at]
    rw [add_sub_add_left_eq_sub, ← sub_smul, smul_smul, div_mul_cancel₀ _ this, add_assoc, ← add_smul]
    congr 2; ring
  -- an edge of the line, passed strictly before `t`
  have beside : ∀ (σ : F), (σ = 1 ∨ σ = -1) → ∀ {a b : Vec F 2} {s s' τ t : F}, (a, b) ∈ edges poly → a = l.at s →
      b = l.at s' → s ≠ s' → 0 < (τ - s) / (s' - s) → (τ - s) / (s' - s) < 1 → 0 < σ * (s' - s) → τ < t →
      (∀ x, τ ≤ x → x < t → 0 < (x - s) / (s' - s) ∧ (x - s) / (s' - s) < 1) →
      (σ = 1 → InsideLeft l t poly) ∧ (σ = -1 → InsideRight l t poly) := by
    intro σ hσ a b s s' τ t hab ha hb hne p0 p1 hσs hτ hin
    have hd : 0 < area (b - a) (σ • normal l) := by
      have e : b - a = (s' - s) • l.vector := by
        rw [ha, hb, Line.at, Line.at, add_sub_add_left_eq_sub, sub_smul]
      rw [e, area_smul_left, area_smul_right, area_normal]
      have : (s' - s) * (σ * inner l.vector l.vector) = (σ * (s' - s)) * inner l.vector l.vector := by ring
      rw [this]; exact mul_pos hσs hK
    have hj := hs.jump h3 hab p0 p1 (inner_pt ha hb hne p0 p1) hd
    have hx : ∀ f ∈ edges poly, (0 < σ * height l f.1 ↔ ¬ 0 < σ * height l f.2) →
        ∀ x, OnSegment (l.at x) f.1 f.2 → (x < τ ↔ x < t) ∧ x ≠ τ := by
      intro f hf hcr x hxf
      have hfe : f ≠ (a, b) := by
        rintro rfl
        rw [show height l (a, b).1 = 0 from by rw [ha]; exact height_at l s,
          show height l (a, b).2 = 0 from by rw [hb]; exact height_at l s'] at hcr
        simp at hcr
      have no : ¬ (τ ≤ x ∧ x < t) := by
        rintro ⟨h1, h2⟩
        obtain ⟨q0, q1⟩ := hin x h1 h2
        have hp := inner_pt ha hb hne q0 q1
        have hne' : b - a ≠ 0 := sub_ne_zero.2 (edge_ne hs.1 (by omega) hab).symm
        refine hs.away hab hf hfe ⟨_, q0.le, q1.le, hp⟩ ?_ ?_ hxf
        · intro e
          rw [hp] at e
          have : ((x - s) / (s' - s)) • (b - a) = 0 := by simpa using e
          rcases smul_eq_zero.1 this with e | e
          · exact q0.ne' e
          · exact hne' e
        · intro e
          rw [hp] at e
          have : (1 - (x - s) / (s' - s)) • (b - a) = 0 := by
            rw [sub_smul, one_smul, sub_eq_zero]
            have := congrArg (· - a) e
            simpa using this.symm
          rcases smul_eq_zero.1 this with e | e
          · linarith
          · exact hne' e
      refine ⟨⟨fun h => h.trans hτ, fun h => ?_⟩, fun e => no ⟨e.ge, e ▸ hτ⟩⟩
      by_contra hn
      exact no ⟨not_lt.1 hn, h⟩
    obtain ⟨ε, e0, g1, ⟨l1, l2⟩, g2⟩ := ((inside_parity hv hσ hx (hj.mono fun ε _ h => h.1.1)).and hj).exists
    have w1 : windingNumber (l.at τ + ε • σ • normal l) poly = 1 := by
      rcases winding_simple hs h3 l1 with h | ⟨-, h⟩ | ⟨h, -⟩
      · rcases winding_simple hs h3 l2 with k | ⟨-, k⟩ | ⟨k, -⟩
        · omega
        · omega
        · exact absurd hc k
      · exact h
      · exact absurd hc h
    rw [w1] at g1
    exact ⟨fun h => (g1.1 h).2 rfl, fun h => (g1.2 h).2 rfl⟩
  refine ⟨fun e he => edge_ne hs.1 (by omega) (a := e.1) (b := e.2) he, ?_, ?_, ?_, ?_⟩
  · rintro a b c rest hr ⟨s, ha⟩ ⟨s', hb⟩ ⟨s'', hc'⟩
    have hab := mem_edges_of_rotation hr
    have hbc : (b, c) ∈ edges poly := by
      rw [mem_edges_rotated hr, edges_cons]; simp [pairs]
    obtain ⟨N, hN⟩ := hs.corners h3
    obtain ⟨n1, n2⟩ := hN a b c hab hbc
    have e1 : a - b = (s - s') • l.vector := by
      rw [ha, hb, Line.at, Line.at, add_sub_add_left_eq_sub, sub_smul]
    have e1' : b - a = (s' - s) • l.vector := by
      rw [ha, hb, Line.at, Line.at, add_sub_add_left_eq_sub, sub_smul]
    have e2 : c - b = (s'' - s') • l.vector := by
      rw [hc', hb, Line.at, Line.at, add_sub_add_left_eq_sub, sub_smul]
    rw [e1, area_smul_left] at n1
    rw [e2, area_smul_left] at n2
    rw [e1', e2, inner_smul_left, inner_smul_right]
    have h : 0 < ((s' - s) * (s'' - s')) * (area l.vector (N b) * area l.vector (N b)) := by
      nlinarith [mul_pos (neg_pos.2 n1) n2]
    have hk : 0 < (s' - s) * (s'' - s') := by
      by_contra hn
      nlinarith [mul_nonneg (neg_nonneg.2 (not_lt.1 hn)) (mul_self_nonneg (area l.vector (N b)))]
    nlinarith [mul_pos hk hK]
  · rintro t e he e' he' ⟨s, s', h1, h2, h3', h4⟩ ⟨r, r', k1, k2, k3, k4⟩
    have hne : e ≠ e' := by
      rintro rfl
      have := at_inj hv (h1.symm.trans k1)
      have := at_inj hv (h2.symm.trans k2)
      linarith
    obtain ⟨x, x1, x2⟩ := exists_between (max_lt h3' k3)
    obtain ⟨x1, x1'⟩ := max_lt_iff.1 x1
    have hpos : (0:F) < s' - s := by linarith
    have hneg : r' - r < 0 := by linarith
    have p := inner_pt (τ := x) h1 h2 (by linarith : s < s').ne (div_pos (by linarith) hpos)
      ((div_lt_one hpos).2 (by linarith))
    have p' := inner_pt (τ := x) k1 k2 (by linarith : r' < r).ne' (div_pos_of_neg_of_neg (by linarith) hneg)
      ((div_lt_one_of_neg hneg).2 (by linarith))
    have q := hs.2 e he e' he' hne (l.at x) ⟨_, (div_pos (by linarith) hpos).le, ((div_lt_one hpos).2 (by linarith)).le, p⟩
      ⟨_, (div_pos_of_neg_of_neg (by linarith) hneg).le, ((div_lt_one_of_neg hneg).2 (by linarith)).le, p'⟩
    rcases q.1 with q | q
    · rw [h1] at q; have := at_inj hv q; linarith
    · rw [h2] at q; have := at_inj hv q; linarith
  · rintro t ⟨a, b⟩ he ⟨s, s', h1, h2, h3', h4⟩
    have hpos : (0:F) < s' - s := by linarith
    obtain ⟨τ, t1, t2⟩ := exists_between h3'
    exact (beside 1 (.inl rfl) (τ := τ) he h1 h2 (by linarith : s < s').ne (div_pos (by linarith) hpos)
      ((div_lt_one hpos).2 (by linarith)) (by linarith) t2 fun x hx hx' => ⟨div_pos (by linarith) hpos,
        (div_lt_one hpos).2 (by linarith)⟩).1 rfl
  · rintro t ⟨a, b⟩ he ⟨s, s', h1, h2, h3', h4⟩
    have hneg : s' - s < 0 := by linarith
    obtain ⟨τ, t1, t2⟩ := exists_between h3'
    exact (beside (-1) (.inr rfl) (τ := τ) he h1 h2 (by linarith : s' < s).ne' (div_pos_of_neg_of_neg (by linarith) hneg)
      ((div_lt_one_of_neg hneg).2 (by linarith)) (by linarith) t2 fun x hx hx' => ⟨div_pos_of_neg_of_neg (by linarith) hneg,
        (div_lt_one_of_neg hneg).2 (by linarith)⟩).2 rfl

open Classical in
/-- **C73.** The intersection of a line, ray or segment with any simple polygon given counter-clockwise, as in
`intersectSimple_correct`. -/
theorem intersectSimple_simple {l : Line F 2} (hv : l.vector ≠ 0) (hs : Simple poly) (h3 : 3 ≤ poly.length)
    (hc : CounterClockwise poly) :
    ∃ ts : List F, intersectSimple l poly = some (ts.filter fun t => decide (Allowed l.kind t)) ∧
      (∀ t ∈ ts, OnBorder (l.at t) poly) ∧
      ∀ t, Odd (ts.countP fun s => decide (s < t)) ↔ InsideLeft l t poly ∨ InsideRight l t poly :=
  intersectSimple_correct hv h3 (simpleAlong_simple hs h3 hc hv)

open Classical in
/-- **C73.** The parameters written separate the inside from the outside: there is one list of parameters for the whole
line, what is written are those of the ray or segment, and a point of the line off the border is inside (in the sense of
`within`) exactly if an odd number of them comes before it. -/
theorem intersectSimple_within {l : Line F 2} (hv : l.vector ≠ 0) (hs : Simple poly) (h3 : 3 ≤ poly.length)
    (hc : CounterClockwise poly) :
    ∃ ts : List F, intersectSimple l poly = some (ts.filter fun t => decide (Allowed l.kind t)) ∧
      (∀ t ∈ ts, OnBorder (l.at t) poly) ∧
      ∀ t, ¬ OnBorder (l.at t) poly →
        (withinSimple (l.at t) poly = .inside ↔ Odd (ts.countP fun s => decide (s < t))) := by
  obtain ⟨ts, h1, h2, h4⟩ := intersectSimple_simple hv hs h3 hc
  refine ⟨ts, h1, h2, fun t ht => ?_⟩
  obtain ⟨a, b⟩ := hs.inside_iff h3 hv ht
  rw [h4, a, b, or_self]

/-- The dart, along the line of its upper right edge and along a line through its notch. -/
example : intersectSimple (⟨![4, 0], ![-2, 3], .free⟩ : Line ℚ 2) dart = some [0, 1] ∧
    intersectSimple (⟨![0, 1/2], ![1, 0], .free⟩ : Line ℚ 2) dart = some [1, 3, 11/3, 1/3] := by
  decide +kernel

end Actl.Geo
