import Verif.Lemmas.JordanWalk

/-!
# The two sides of a simple polygon
-/

namespace Actl.Geo

variable {F : Type*} [Field F] [LinearOrder F] [IsStrictOrderedRing F] {poly : List (Vec F 2)}

/-! ### The first border point on a ray -/

/-- No number from zero on has the property, or a first one has it. -/
def FirstOrNone (P : F → Prop) : Prop :=
  (∀ t, 0 ≤ t → ¬ P t) ∨ ∃ t₀, 0 < t₀ ∧ P t₀ ∧ ∀ t, 0 ≤ t → t < t₀ → ¬ P t

theorem FirstOrNone.list {α : Type*} {P : α → F → Prop} : ∀ {l : List α}, (∀ e ∈ l, FirstOrNone (P e)) →
    FirstOrNone fun t => ∃ e ∈ l, P e t
  | [], _ => .inl fun t _ ⟨e, he, _⟩ => by simp at he
  | x :: l, h => by
    have ih : FirstOrNone fun t => ∃ e ∈ l, P e t := FirstOrNone.list fun e he => h e (by simp [he])
    have split : ∀ t, ¬ P x t → (¬ ∃ e ∈ l, P e t) → ¬ ∃ e ∈ x :: l, P e t := by
      rintro t h1 h2 ⟨e, he, hp⟩
      rcases List.mem_cons.1 he with rfl | he
      · exact h1 hp
      · exact h2 ⟨e, he, hp⟩
    rcases h x (by simp) with h1 | ⟨t₁, p1, q1, r1⟩ <;> rcases ih with h2 | ⟨t₂, p2, ⟨e2, m2, q2⟩, r2⟩
    · exact .inl fun t t0 => split t (h1 t t0) (h2 t t0)
    · exact .inr ⟨t₂, p2, ⟨e2, by simp [m2], q2⟩, fun t t0 lt => split t (h1 t t0) (r2 t t0 lt)⟩
    · exact .inr ⟨t₁, p1, ⟨x, by simp, q1⟩, fun t t0 lt => split t (r1 t t0 lt) (h2 t t0)⟩
    · rcases le_total t₁ t₂ with le | le
      · exact .inr ⟨t₁, p1, ⟨x, by simp, q1⟩, fun t t0 lt => split t (r1 t t0 lt) (r2 t t0 (lt_of_lt_of_le lt le))⟩
      · exact .inr ⟨t₂, p2, ⟨e2, by simp [m2], q2⟩, fun t t0 lt =>
          split t (r1 t t0 (lt_of_lt_of_le lt le)) (r2 t t0 lt)⟩

theorem area_line_zero {x a b : Vec F 2} (h : OnSegment x a b) : area (b - a) (x - a) = 0 := by
  obtain ⟨t, -, -, rfl⟩ := h
  simp only [area, Pi.sub_apply, Pi.add_apply, Pi.smul_apply, smul_eq_mul]; ring

theorem first_edge {p d a b : Vec F 2} (hab : a ≠ b) (hp : ¬ OnSegment p a b) :
    FirstOrNone fun t : F => OnSegment (p + t • d) a b := by
  by_cases hx : ∀ t : F, 0 ≤ t → ¬ OnSegment (p + t • d) a b
  · exact .inl hx
  push Not at hx
  obtain ⟨t₁, t0, ht⟩ := hx
  have t0' : 0 < t₁ := by
    refine lt_of_le_of_ne t0 fun h => hp ?_
    rw [← h, zero_smul, add_zero] at ht
    exact ht
  have ar : ∀ t : F, area (b - a) (p + t • d - a) = area (b - a) (p - a) + t * area (b - a) d := by
    intro t; simp only [area, Pi.sub_apply, Pi.add_apply, Pi.smul_apply, smul_eq_mul]; ring
  have z1 := area_line_zero ht
  rw [ar] at z1
  right
  by_cases hd : area (b - a) d = 0
  · rw [hd, mul_zero, add_zero] at z1
    have he : b - a ≠ 0 := sub_ne_zero.2 hab.symm
    obtain ⟨π, hπ⟩ := exists_smul_of_area he z1
    obtain ⟨δ, rfl⟩ := exists_smul_of_area he hd
    have hpe : p = a + π • (b - a) := by rw [← hπ]; simp
    have on : ∀ t : F, OnSegment (p + t • δ • (b - a)) a b ↔ 0 ≤ π + t * δ ∧ π + t * δ ≤ 1 := by
      intro t
      have e : p + t • δ • (b - a) = a + (π + t * δ) • (b - a) := by
        rw [hpe, smul_smul, add_smul, add_assoc]
      rw [e]
      constructor
      · rintro ⟨s, s0, s1, e⟩
        have e : (π + t * δ) • (b - a) = s • (b - a) := add_left_cancel e
        have := smul_left_injective F he e
        rw [this]; exact ⟨s0, s1⟩
      · exact fun h => ⟨_, h.1, h.2, rfl⟩
    have h1 := (on t₁).1 ht
    have np : π < 0 ∨ 1 < π := by
      by_contra hc
      push Not at hc
      exact hp ⟨π, hc.1, hc.2, hpe⟩
    rcases np with np | np
    · have hδ : 0 < δ := by
        by_contra h
        nlinarith [mul_nonneg t0 (neg_nonneg.2 (not_lt.1 h))]
      refine ⟨-π / δ, div_pos (by linarith) hδ, (on _).2 ?_, fun t _ lt h => ?_⟩
      · rw [div_mul_cancel₀ _ hδ.ne']
        constructor <;> linarith
      · have := (lt_div_iff₀ hδ).1 lt
        have := ((on t).1 h).1
        linarith
    · have hδ : δ < 0 := by
        by_contra h
        nlinarith [mul_nonneg t0 (not_lt.1 h)]
      refine ⟨(1 - π) / δ, div_pos_of_neg_of_neg (by linarith) hδ, (on _).2 ?_, fun t _ lt h => ?_⟩
      · rw [div_mul_cancel₀ _ hδ.ne]
        constructor <;> linarith
      · have := (lt_div_iff_of_neg hδ).1 lt
        have := ((on t).1 h).2
        linarith
  · refine ⟨t₁, t0', ht, fun t _ lt h => ?_⟩
    have z2 := area_line_zero h
    rw [ar] at z2
    have : (t₁ - t) * area (b - a) d = 0 := by linarith
    rcases mul_eq_zero.1 this with h | h
    · linarith
    · exact hd h

/-- Each point off the border can be joined to each corner on one of the sides. -/
theorem Simple.reach (hs : Simple poly) (h3 : 3 ≤ poly.length) {N : Vec F 2 → Vec F 2} (hN : Corners poly N)
    {p : Vec F 2} (hp : ¬ OnBorder p poly) :
    ∃ σ : F, (σ = 1 ∨ σ = -1) ∧ Small fun ε : F => Joined poly p (vert poly 0 + ε • σ • N (vert poly 0)) := by
  suffices h : ∃ σ : F, (σ = 1 ∨ σ = -1) ∧ ∃ b ∈ poly, Small fun ε : F => Joined poly p (b + ε • σ • N b) by
    obtain ⟨σ, hσ, b, hb, h⟩ := h
    refine ⟨σ, hσ, (h.and (hs.walk_around h3 hN (σ := σ) ?_ hb)).mono fun ε _ ⟨g1, g2⟩ => g1.trans g2.symm⟩
    rcases hσ with rfl | rfl <;> norm_num
  have hm : vert poly 0 ∈ poly := vert_mem (by omega) 0
  generalize hd : vert poly 0 - p = d
  have hfirst : FirstOrNone fun t : F => ∃ e ∈ edges poly, OnSegment (p + t • d) e.1 e.2 := by
    apply FirstOrNone.list
    intro e he
    exact first_edge (edge_ne hs.1 (by omega) (a := e.1) (b := e.2) he) fun h => hp ⟨e, he, h⟩
  rcases hfirst with hfirst | ⟨t₀, t0, ⟨⟨a, b⟩, hab, ht⟩, hlt⟩
  · exfalso
    obtain ⟨c, hc⟩ := exists_edge_from hm
    refine hfirst 1 zero_le_one ⟨_, hc, ?_⟩
    rw [← hd, one_smul, add_sub_cancel]
    exact onSegment_left _ _
  generalize hh : p + t₀ • d = h at ht
  have off : ∀ ε : F, 0 < ε → ε ≤ t₀ → ¬ OnBorder (h + ε • -d) poly := by
    rintro ε e0 e1 ⟨e, he, ho⟩
    refine hlt (t₀ - ε) (by linarith) (by linarith) ⟨e, he, ?_⟩
    have : p + (t₀ - ε) • d = h + ε • -d := by
      rw [← hh]; apply vec2_ext <;> simp <;> ring
    rw [this]; exact ho
  have go : Small fun ε : F => Clear poly p (h + ε • -d) := by
    refine (small_le t0).mono fun ε e0 e1 => ?_
    rintro z ⟨s, s0, s1, rfl⟩ ⟨e, he, ho⟩
    refine hlt (s * (t₀ - ε)) (mul_nonneg s0 (by linarith)) (by nlinarith) ⟨e, he, ?_⟩
    have : p + (s * (t₀ - ε)) • d = p + s • (h + ε • -d - p) := by
      rw [← hh]; apply vec2_ext <;> simp <;> ring
    rw [this]; exact ho
  have d0 : d ≠ 0 := by
    intro e
    rw [e, smul_zero, add_zero] at hh
    exact hp ⟨_, hab, hh ▸ ht⟩
  -- a segment of the border leaving `h` does not go along `-d`
  have noseg : ∀ c c', ((c, c') ∈ edges poly ∨ (c', c) ∈ edges poly) → ∀ s : F, OnSegment (c + s • (c' - c)) c c' →
      h = c + s • (c' - c) → ∀ k : F, -d = k • (c' - c) →
      (0 < s ∨ 0 ≤ k) → (s < 1 ∨ k ≤ 0) → False := by
    rintro c c' hc s ⟨s', s0, s1, es⟩ hs' k hk k1 k2
    have ne : c' - c ≠ 0 := by
      intro e; rw [e, smul_zero] at hk; exact d0 (neg_eq_zero.1 hk)
    have := smul_left_injective F ne (add_left_cancel es)
    rw [← this] at s0 s1
    have sm1 : Small fun ε : F => 0 ≤ s + ε * k := by
      rcases k1 with k1 | k1
      · exact (small_lt (-k) (show -s < 0 by linarith)).mono fun ε _ h => by linarith
      · exact small_of_forall fun ε e0 => by nlinarith
    have sm2 : Small fun ε : F => s + ε * k ≤ 1 := by
      rcases k2 with k2 | k2
      · exact (small_lt k k2).mono fun ε _ h => h.le
      · exact small_of_forall fun ε e0 => by nlinarith
    obtain ⟨ε, e0, ⟨g1, g2⟩, g3⟩ := ((sm1.and sm2).and (small_le t0)).exists
    have on : OnSegment (h + ε • -d) c c' := ⟨_, g1, g2, by
      rw [hs', hk]; apply vec2_ext <;> simp <;> ring⟩
    rcases hc with hc | hc
    · exact off ε e0 g3 ⟨_, hc, on⟩
    · exact off ε e0 g3 ⟨_, hc, onSegment_symm on⟩
  have vertex : ∀ a' c', (a', h) ∈ edges poly → (h, c') ∈ edges poly →
      ∃ σ : F, (σ = 1 ∨ σ = -1) ∧ ∃ b ∈ poly, Small fun ε : F => Joined poly p (b + ε • σ • N b) := by
    intro a' c' ha hc
    obtain ⟨σ, hσ, hw⟩ := hs.walk_vertex h3 hN (d := -d) ha hc
      (fun t t0 e => noseg h a' (.inr ha) 0 (by simpa using onSegment_left h a') (by simp) t e (.inr t0) (.inl one_pos))
      (fun t t0 e => noseg h c' (.inl hc) 0 (by simpa using onSegment_left h c') (by simp) t e (.inr t0) (.inl one_pos))
    exact ⟨σ, hσ, h, (mem_of_mem_edges hc).1, (go.and hw).mono fun ε _ ⟨g1, g2⟩ => g1.joined.trans g2.joined⟩
  obtain ⟨t, s0, s1, e⟩ := ht
  by_cases c0 : t = 0
  · rw [c0, zero_smul, add_zero] at e
    subst e
    obtain ⟨a', ha⟩ := exists_edge_to (mem_of_mem_edges hab).1
    exact vertex a' b ha hab
  by_cases c1 : t = 1
  · rw [c1, one_smul, add_sub_cancel] at e
    subst e
    obtain ⟨c', hc⟩ := exists_edge_from (mem_of_mem_edges hab).2
    exact vertex a c' hab hc
  have s0 : 0 < t := lt_of_le_of_ne s0 (Ne.symm c0)
  have s1 : t < 1 := lt_of_le_of_ne s1 c1
  have nd : area (b - a) (-d) ≠ 0 := by
    intro hz
    obtain ⟨k, hk⟩ := exists_smul_of_area (sub_ne_zero.2 (edge_ne hs.1 (by omega) hab).symm) hz
    exact noseg a b (.inl hab) t ⟨t, s0.le, s1.le, rfl⟩ e k hk (.inl s0) (.inl s1)
  have side : ∀ σ : F, (σ = 1 ∨ σ = -1) → 0 < σ * area (b - a) (-d) →
      ∃ σ : F, (σ = 1 ∨ σ = -1) ∧ ∃ b ∈ poly, Small fun ε : F => Joined poly p (b + ε • σ • N b) := by
    intro σ hσ h0
    have := hs.walk_forward h3 hN hab (σ := σ) (by rcases hσ with rfl | rfl <;> norm_num) s0 s1 e h0
    exact ⟨σ, hσ, b, (mem_of_mem_edges hab).2, (go.and this).mono fun ε _ ⟨g1, g2⟩ => g1.joined.trans g2.joined⟩
  rcases lt_or_gt_of_ne nd with h | h
  · exact side (-1) (.inr rfl) (by linarith)
  · exact side 1 (.inl rfl) (by linarith)

theorem sum_map_single {α : Type*} {g : α → Int} {x : α} : ∀ {l : List α}, l.Nodup → x ∈ l →
    (∀ y ∈ l, y ≠ x → g y = 0) → (l.map g).sum = g x
  | y :: l, hn, hx, h => by
    obtain ⟨n1, n2⟩ := List.nodup_cons.1 hn
    rw [List.map_cons, List.sum_cons]
    rcases List.mem_cons.1 hx with rfl | hx
    · rw [List.sum_eq_zero, add_zero]
      intro k hk
      obtain ⟨z, hz, rfl⟩ := List.mem_map.1 hk
      exact h z (by simp [hz]) fun e => n1 (e ▸ hz)
    · rw [h y (by simp) (fun e => n1 (e ▸ hx)), zero_add,
        sum_map_single n2 hx fun z hz hne => h z (by simp [hz]) hne]

/-- The number is larger by one on the left of an edge than on its right. -/
theorem Simple.jump (hs : Simple poly) (h3 : 3 ≤ poly.length) {a b h d : Vec F 2} (hab : (a, b) ∈ edges poly) {t : F}
    (h0 : 0 < t) (h1 : t < 1) (hh : h = a + t • (b - a)) (hd : 0 < area (b - a) d) :
    Small fun ε : F => (¬ OnBorder (h + ε • d) poly ∧ ¬ OnBorder (h + ε • -d) poly) ∧
      windingNumber (h + ε • d) poly = windingNumber (h + ε • -d) poly + 1 := by
  have nab := edge_ne hs.1 (by omega) hab
  have hne : b - a ≠ 0 := sub_ne_zero.2 nab.symm
  have ha : h ≠ a := by
    rw [hh]; intro e
    have : t • (b - a) = 0 := by simpa using e
    rcases smul_eq_zero.1 this with e | e
    · exact h0.ne' e
    · exact hne e
  have hb : h ≠ b := by
    rw [hh]; intro e
    have : (1 - t) • (b - a) = 0 := by
      rw [sub_smul, one_smul, sub_eq_zero]
      have := congrArg (· - a) e
      simpa using this.symm
    rcases smul_eq_zero.1 this with e | e
    · linarith
    · exact hne e
  have on : OnSegment h a b := ⟨t, h0.le, h1.le, hh⟩
  have o : Small fun ε : F => ∀ f ∈ edges poly, f ≠ (a, b) →
      ∀ z, OnSegment z (h + ε • -d) (h + ε • d) → ¬ OnSegment z f.1 f.2 := by
    apply Small.list
    intro f hf
    by_cases e1 : f = (a, b)
    · exact small_of_forall fun _ _ h => absurd e1 h
    refine (tube (edge_ne hs.1 (by omega) (a := f.1) (b := f.2) hf) (x := h) (y := h) ?_ (-d) d).mono fun ε _ g _ => g
    rintro z ⟨t, -, -, rfl⟩
    rw [sub_self, smul_zero, add_zero]
    exact hs.away hab hf e1 on ha hb
  have near : Small fun ε : F => hit (h + ε • d - (h + ε • -d)) (a - (h + ε • -d)) (b - (h + ε • -d)) = -1 := by
    refine small_of_forall fun ε e0 => ?_
    have hp := mul_pos e0 hd
    simp only [area, Pi.sub_apply] at hp hd
    have q1 : area (a - (h + ε • -d)) (b - (h + ε • -d)) < 0 := by
      rw [hh]; simp only [area, Pi.sub_apply, Pi.add_apply, Pi.smul_apply, Pi.neg_apply, smul_eq_mul]
      nlinarith
    have q2 : 0 < area (a - (h + ε • -d) - (h + ε • d - (h + ε • -d))) (b - (h + ε • -d) - (h + ε • d - (h + ε • -d))) := by
      rw [hh]; simp only [area, Pi.sub_apply, Pi.add_apply, Pi.smul_apply, Pi.neg_apply, smul_eq_mul]
      nlinarith
    have q3 : 0 < area (h + ε • d - (h + ε • -d)) (a - (h + ε • -d)) := by
      have e : area (h + ε • d - (h + ε • -d)) (a - (h + ε • -d)) =
          2 * t * (ε * ((b 0 - a 0) * d 1 - (b 1 - a 1) * d 0)) := by
        rw [hh]; simp only [area, Pi.sub_apply, Pi.add_apply, Pi.smul_apply, Pi.neg_apply, smul_eq_mul]
        ring
      rw [e]; positivity
    have q4 : area (h + ε • d - (h + ε • -d)) (b - (h + ε • -d)) < 0 := by
      have e : area (h + ε • d - (h + ε • -d)) (b - (h + ε • -d)) =
          -(2 * (1 - t) * (ε * ((b 0 - a 0) * d 1 - (b 1 - a 1) * d 0))) := by
        rw [hh]; simp only [area, Pi.sub_apply, Pi.add_apply, Pi.smul_apply, Pi.neg_apply, smul_eq_mul]
        ring
      rw [e]
      have : 0 < 1 - t := by linarith
      exact neg_neg_of_pos (by positivity)
    rw [hit, if_neg (fun c => absurd c.1 (not_lt.2 q1.le)), if_pos ⟨q1, q2, q3, q4⟩]
  have offline : ∀ ε : F, ε ≠ 0 → ¬ OnSegment (h + ε • d) a b := by
    intro ε e0 h'
    have := area_line_zero h'
    have e : area (b - a) (h + ε • d - a) = ε * area (b - a) d := by
      rw [hh]; simp only [area, Pi.sub_apply, Pi.add_apply, Pi.smul_apply, smul_eq_mul]; ring
    rw [e] at this
    rcases mul_eq_zero.1 this with h | h
    · exact e0 h
    · exact hd.ne' h
  refine (o.and near).mono fun ε e0 ⟨g1, g2⟩ => ?_
  have l : ¬ OnBorder (h + ε • d) poly := by
    rintro ⟨f, hf, hz⟩
    by_cases e1 : f = (a, b)
    · rw [e1] at hz; exact offline ε e0.ne' hz
    · exact g1 f hf e1 _ (onSegment_right _ _) hz
  have r : ¬ OnBorder (h + ε • -d) poly := by
    rintro ⟨f, hf, hz⟩
    by_cases e1 : f = (a, b)
    · rw [e1, smul_neg, ← neg_smul] at hz; exact offline (-ε) (neg_ne_zero.2 e0.ne') hz
    · exact g1 f hf e1 _ (onSegment_left _ _) hz
  refine ⟨⟨l, r⟩, ?_⟩
  have hv : ∀ v ∈ poly, ¬ OnSegment v (h + ε • -d) (h + ε • d) := by
    intro v hv hz
    obtain ⟨y, hy⟩ := exists_edge_from hv
    obtain ⟨x, hx⟩ := exists_edge_to hv
    by_cases e1 : (v, y) = (a, b)
    · refine g1 (x, v) hx (fun e => ?_) v hz (onSegment_right _ _)
      have k1 : v = a := congrArg Prod.fst e1
      have k2 : v = b := congrArg Prod.snd e
      exact nab (k1.symm.trans k2)
    · exact g1 (v, y) hy e1 v hz (onSegment_left _ _)
  have df := winding_diff r l hv
  have sum : ((edges poly).map fun e => hit (h + ε • d - (h + ε • -d)) (e.1 - (h + ε • -d)) (e.2 - (h + ε • -d))).sum = -1 := by
    rw [sum_map_single (edges_nodup hs.1) hab]
    · exact g2
    · intro f hf hne
      by_contra h0
      obtain ⟨t', s', t0, t1, s0, s1, e1⟩ := hit_common h0
      refine g1 f hf hne (h + ε • -d + t' • (h + ε • d - (h + ε • -d))) ⟨t', t0.le, t1.le, rfl⟩ ⟨s', s0.le, s1.le, ?_⟩
      rw [e1]
      apply vec2_ext <;> simp <;> ring
  rw [sum] at df
  linarith

end Actl.Geo
