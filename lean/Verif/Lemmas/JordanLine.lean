import Verif.Props.Jordan
import Verif.Props.LineSimple

/-!
# Crossing a simple polygon along a line
-/

namespace Actl.Geo

variable {F : Type*} [Field F] [LinearOrder F] [IsStrictOrderedRing F] {poly : List (Vec F 2)}

theorem hit_ne_zero_iff {d u w : Vec F 2} : hit d u w ≠ 0 ↔
    area u w * area (u - d) (w - d) < 0 ∧ area d u * area d w < 0 := by
  have hdiff : area u w - area (u - d) (w - d) = area d w - area d u := by
    simp only [area, Pi.sub_apply]; ring
  unfold hit
  constructor
  · intro h
    by_cases a : 0 < area u w ∧ area (u - d) (w - d) < 0 ∧ area d u < 0 ∧ 0 < area d w
    · exact ⟨mul_neg_of_pos_of_neg a.1 a.2.1, mul_neg_of_neg_of_pos a.2.2.1 a.2.2.2⟩
    rw [if_neg a] at h
    by_cases b : area u w < 0 ∧ 0 < area (u - d) (w - d) ∧ 0 < area d u ∧ area d w < 0
    · exact ⟨mul_neg_of_neg_of_pos b.1 b.2.1, mul_neg_of_pos_of_neg b.2.2.1 b.2.2.2⟩
    · rw [if_neg b] at h; exact absurd rfl h
  · rintro ⟨h1, h2⟩
    rcases mul_neg_iff.1 h1 with ⟨p, q⟩ | ⟨p, q⟩ <;> rcases mul_neg_iff.1 h2 with ⟨r, s⟩ | ⟨r, s⟩
    · linarith
    · rw [if_pos ⟨p, q, r, s⟩]; decide
    · rw [if_neg (fun c => absurd c.1 (not_lt.2 p.le)), if_pos ⟨p, q, r, s⟩]; decide
    · linarith

theorem small_mul_neg {a b : F} (h : a * b < 0) (k m : F) : Small fun ε : F => (a + ε * k) * (b + ε * m) < 0 := by
  rcases mul_neg_iff.1 h with ⟨p, q⟩ | ⟨p, q⟩
  · exact ((small_lt (-k) (show -a < 0 by linarith)).and (small_lt m q)).mono fun ε _ ⟨g1, g2⟩ =>
      mul_neg_of_pos_of_neg (by linarith) g2
  · exact ((small_lt k p).and (small_lt (-m) (show -b < 0 by linarith))).mono fun ε _ ⟨g1, g2⟩ =>
      mul_neg_of_neg_of_pos g1 (by linarith)

theorem small_mul_pos {a b : F} (h : 0 < a * b) (k m : F) : Small fun ε : F => 0 < (a + ε * k) * (b + ε * m) := by
  have := small_mul_neg (a := -a) (b := b) (by linarith) (-k) m
  exact this.mono fun ε _ h => by nlinarith

/-- The normal to the left of a line. -/
def normal (l : Line F 2) : Vec F 2 := ![-l.vector 1, l.vector 0]

theorem area_normal (l : Line F 2) : area l.vector (normal l) = inner l.vector l.vector := by
  rw [inner2]; simp [area, normal]

/-- Which edges are crossed by the parallel close to the line, from far back up to the parameter `τ`. -/
theorem hit_parallel {l : Line F 2} (hv : l.vector ≠ 0) {A B : Vec F 2} {σ τ M t : F} (hσ : σ * σ = 1)
    (hM : 0 < τ + M) (hb : ∀ x, OnSegment (l.at x) A B → -M < x)
    (hx : (0 < σ * height l A ↔ ¬ 0 < σ * height l B) → ∀ x, OnSegment (l.at x) A B → (x < τ ↔ x < t) ∧ x ≠ τ) :
    Small fun ε : F => hit (l.at (-M) + ε • σ • normal l - (l.at τ + ε • σ • normal l))
        (A - (l.at τ + ε • σ • normal l)) (B - (l.at τ + ε • σ • normal l)) ≠ 0 ↔
      (0 < σ * height l A ↔ ¬ 0 < σ * height l B) ∧ ∃ s < t, OnSegment (l.at s) A B := by
  have hK := inner_self_pos hv
  have hN := area_normal l
  generalize inner l.vector l.vector = K at hK hN
  -- heights over the parallel
  have hh : ∀ (ε : F) (C : Vec F 2), area (l.at (-M) + ε • σ • normal l - (l.at τ + ε • σ • normal l))
      (C - (l.at τ + ε • σ • normal l)) = -(τ + M) * (height l C - ε * (σ * K)) := by
    intro ε C
    rw [← hN]
    simp only [height, Line.at, area, Pi.sub_apply, Pi.add_apply, Pi.smul_apply, smul_eq_mul]; ring
  have hprod : ∀ ε : F, area (l.at (-M) + ε • σ • normal l - (l.at τ + ε • σ • normal l))
      (A - (l.at τ + ε • σ • normal l)) * area (l.at (-M) + ε • σ • normal l - (l.at τ + ε • σ • normal l))
      (B - (l.at τ + ε • σ • normal l)) =
      (τ + M) * (τ + M) * ((σ * height l A + ε * -K) * (σ * height l B + ε * -K)) := by
    intro ε
    rw [hh, hh]
    linear_combination (-(τ + M)^2 * (height l A * height l B) + 2 * 0 + (τ + M)^2 * ε^2 * K^2) * hσ
  have hMM : 0 < (τ + M) * (τ + M) := mul_pos hM hM
  simp only [hit_ne_zero_iff, hprod]
  by_cases hc : 0 < σ * height l A ↔ ¬ 0 < σ * height l B
  · -- the edge changes sides
    have hne : height l B - height l A ≠ 0 := by
      intro e
      have : height l B = height l A := by linarith
      rw [this] at hc; tauto
    have hne' : height l A - height l B ≠ 0 := by intro e; apply hne; linarith
    have hAB : (σ * height l A) * (σ * height l B) ≤ 0 := by
      by_cases c : 0 < σ * height l A
      · exact mul_nonpos_of_nonneg_of_nonpos c.le (not_lt.1 (hc.1 c))
      · have c' : 0 < σ * height l B := by by_contra h; exact c (hc.2 h)
        exact mul_nonpos_of_nonpos_of_nonneg (not_lt.1 c) c'.le
    have hAB' : height l A * height l B ≤ 0 := by
      have e : (σ * height l A) * (σ * height l B) = σ * σ * (height l A * height l B) := by ring
      rw [e, hσ, one_mul] at hAB
      exact hAB
    obtain ⟨r0, r1⟩ := unit_ratio hAB' hne'
    generalize hr : height l A / (height l A - height l B) = r at r0 r1
    have hrm : r * (height l A - height l B) = height l A := by rw [← hr, div_mul_cancel₀ _ hne']
    have h0 : height l (A + r • (B - A)) = 0 := by rw [height_segment]; linarith
    obtain ⟨s₀, hs₀⟩ : ∃ s₀, A + r • (B - A) = l.at s₀ := ⟨_, on_line hv h0⟩
    have on : OnSegment (l.at s₀) A B := ⟨r, r0, r1, hs₀.symm⟩
    have uniq : ∀ x, OnSegment (l.at x) A B → x = s₀ := by
      rintro x ⟨r', -, -, e⟩
      have h := height_at l x
      rw [e, height_segment] at h
      have : r' = r := by
        apply mul_right_cancel₀ hne'
        rw [hrm]; linarith
      rw [this, hs₀] at e
      exact at_inj hv e
    obtain ⟨k1, k2⟩ := hx hc s₀ on
    have k3 := hb s₀ on
    -- the sides of the edge
    have hg : ∀ (x : F) (y : Vec F 2), area (A - (l.at x + y)) (B - (l.at x + y)) =
        (s₀ - x) * (height l B - height l A) - area y (B - A) := by
      intro x y
      have e0 := congrFun hs₀ 0
      have e1 := congrFun hs₀ 1
      simp only [Line.at, Pi.add_apply, Pi.smul_apply, Pi.sub_apply, smul_eq_mul] at e0 e1
      simp only [height, Line.at, area, Pi.sub_apply, Pi.add_apply, Pi.smul_apply, smul_eq_mul]
      linear_combination (B 1 - A 1) * e0 - (B 0 - A 0) * e1
    have hP : ∀ ε : F, area (A - (l.at τ + ε • σ • normal l)) (B - (l.at τ + ε • σ • normal l)) =
        (s₀ - τ) * (height l B - height l A) + ε * -(σ * area (normal l) (B - A)) := by
      intro ε; rw [hg, area_smul_left, area_smul_left]; ring
    have hQ : ∀ ε : F, area (A - (l.at τ + ε • σ • normal l) -
          (l.at (-M) + ε • σ • normal l - (l.at τ + ε • σ • normal l)))
        (B - (l.at τ + ε • σ • normal l) - (l.at (-M) + ε • σ • normal l - (l.at τ + ε • σ • normal l))) =
        (s₀ - -M) * (height l B - height l A) + ε * -(σ * area (normal l) (B - A)) := by
      intro ε; rw [sub_sub_sub_cancel_right, sub_sub_sub_cancel_right] <;> skip
      rw [hg, area_smul_left, area_smul_left]; ring
    simp only [hP, hQ]
    have hgt : (∃ s < t, OnSegment (l.at s) A B) ↔ s₀ < τ := by
      constructor
      · rintro ⟨s, hs, h⟩
        rw [uniq s h] at hs
        exact k1.2 hs
      · intro h
        exact ⟨s₀, k1.1 h, on⟩
    rw [hgt]
    have hkk : 0 < (height l B - height l A) * (height l B - height l A) := mul_self_pos.2 hne
    have side : Small fun ε : F => (σ * height l A + ε * -K) * (σ * height l B + ε * -K) < 0 := by
      by_cases c : 0 < σ * height l A
      · have c' := not_lt.1 (hc.1 c)
        exact (small_lt K (show -(σ * height l A) < 0 by linarith)).mono fun ε e0 g =>
          mul_neg_of_pos_of_neg (by linarith) (by nlinarith)
      · have c' : 0 < σ * height l B := by by_contra h; exact c (hc.2 h)
        have c := not_lt.1 c
        exact (small_lt K (show -(σ * height l B) < 0 by linarith)).mono fun ε e0 g =>
          mul_neg_of_neg_of_pos (by nlinarith) (by linarith)
    by_cases c : s₀ < τ
    · have neg : (s₀ - τ) * (height l B - height l A) * ((s₀ - -M) * (height l B - height l A)) < 0 := by
        have e : (s₀ - τ) * (height l B - height l A) * ((s₀ - -M) * (height l B - height l A)) =
          ((s₀ - τ) * (s₀ - -M)) * ((height l B - height l A) * (height l B - height l A)) := by ring
        rw [e]
        exact mul_neg_of_neg_of_pos (mul_neg_of_neg_of_pos (by linarith) (by linarith)) hkk
      refine (side.and (small_mul_neg neg (-(σ * area (normal l) (B - A))) (-(σ * area (normal l) (B - A))))).mono fun ε _ ⟨g1, g2⟩ => ?_
      exact ⟨fun _ => ⟨hc, c⟩, fun _ => ⟨g2, mul_neg_of_pos_of_neg hMM g1⟩⟩
    · have pos : 0 < (s₀ - τ) * (height l B - height l A) * ((s₀ - -M) * (height l B - height l A)) := by
        have e : (s₀ - τ) * (height l B - height l A) * ((s₀ - -M) * (height l B - height l A)) =
          ((s₀ - τ) * (s₀ - -M)) * ((height l B - height l A) * (height l B - height l A)) := by ring
        have : τ < s₀ := lt_of_le_of_ne (not_lt.1 c) (Ne.symm k2)
        rw [e]
        exact mul_pos (mul_pos (by linarith) (by linarith)) hkk
      refine (small_mul_pos pos (-(σ * area (normal l) (B - A))) (-(σ * area (normal l) (B - A)))).mono fun ε _ g2 => ?_
      exact ⟨fun h => absurd h.1 (not_lt.2 g2.le), fun h => absurd h.2 c⟩
  · -- both ends on the same side
    have pos : Small fun ε : F => 0 < (σ * height l A + ε * -K) * (σ * height l B + ε * -K) := by
      by_cases c : 0 < σ * height l A
      · have c' : 0 < σ * height l B := by by_contra h; exact hc ⟨fun _ => h, fun _ => c⟩
        exact small_mul_pos (mul_pos c c') _ _
      · have c' : ¬ 0 < σ * height l B := by
          intro h; exact hc ⟨fun h' => absurd h' c, fun h' => absurd h h'⟩
        have c := not_lt.1 c
        have c' := not_lt.1 c'
        exact small_of_forall fun ε e0 => mul_pos_of_neg_of_neg (by nlinarith) (by nlinarith)
    refine pos.mono fun ε _ g => ?_
    exact ⟨fun h => absurd h.2 (not_lt.2 (mul_pos hMM g).le), fun h => absurd h.1 hc⟩

theorem hit_cases (d u w : Vec F 2) : hit d u w = 0 ∨ hit d u w = 1 ∨ hit d u w = -1 := by
  unfold hit
  split_ifs <;> simp

theorem odd_sum_iff {α : Type*} {g : α → Int} {P : α → Prop} [DecidablePred P] : ∀ {l : List α},
    (∀ e ∈ l, g e = 0 ∨ g e = 1 ∨ g e = -1) → (∀ e ∈ l, g e ≠ 0 ↔ P e) →
    (l.map g).sum % 2 = ((l.countP fun e => decide (P e) : Nat) : Int) % 2
  | [], _, _ => by simp
  | x :: l, h1, h2 => by
    have ih := odd_sum_iff (l := l) (fun e he => h1 e (by simp [he])) (fun e he => h2 e (by simp [he]))
    have k1 := h1 x (by simp)
    have k2 := h2 x (by simp)
    rw [List.map_cons, List.sum_cons, List.countP_cons]
    by_cases hp : P x
    · have := k2.2 hp
      rw [if_pos (decide_eq_true hp)]
      push_cast
      omega
    · have : g x = 0 := by by_contra h; exact hp (k2.1 h)
      rw [if_neg (by simpa using hp), this]
      push_cast
      omega

theorem exists_back (l : Line F 2) (hv : l.vector ≠ 0) (τ : F) : ∀ poly : List (Vec F 2), ∃ M : F, 0 < τ + M ∧
    ∀ v ∈ poly, -M * inner l.vector l.vector < inner (v - l.start) l.vector
  | [] => ⟨1 - τ, by linarith, by simp⟩
  | x :: rest => by
    obtain ⟨M, h0, h1⟩ := exists_back l hv τ rest
    have hK := inner_self_pos hv
    have key : ∀ M' v, M ≤ M' → -M * inner l.vector l.vector < inner (v - l.start) l.vector →
        -M' * inner l.vector l.vector < inner (v - l.start) l.vector := by
      intro M' v hm h
      nlinarith
    refine ⟨max M (-inner (x - l.start) l.vector / inner l.vector l.vector + 1),
      lt_of_lt_of_le h0 (by linarith [le_max_left M (-inner (x - l.start) l.vector / inner l.vector l.vector + 1)]), ?_⟩
    intro v hv'
    rcases List.mem_cons.1 hv' with rfl | hv'
    · have hm := le_max_right M (-inner (v - l.start) l.vector / inner l.vector l.vector + 1)
      have e : (-inner (v - l.start) l.vector / inner l.vector l.vector + 1) * inner l.vector l.vector =
          -inner (v - l.start) l.vector + inner l.vector l.vector := by
        rw [add_mul, div_mul_cancel₀ _ hK.ne', one_mul]
      nlinarith [mul_le_mul_of_nonneg_right hm hK.le]
    · exact key _ _ (le_max_left _ _) (h1 v hv')

open Classical in
/-- The number just beside the line is odd exactly if the parallel crosses an odd number of edges before. -/
theorem winding_parity {l : Line F 2} (hv : l.vector ≠ 0) {σ τ t : F} (hσ : σ * σ = 1)
    (hx : ∀ f ∈ edges poly, (0 < σ * height l f.1 ↔ ¬ 0 < σ * height l f.2) →
      ∀ x, OnSegment (l.at x) f.1 f.2 → (x < τ ↔ x < t) ∧ x ≠ τ)
    (hoff : Small fun ε : F => ¬ OnBorder (l.at τ + ε • σ • normal l) poly) :
    Small fun ε : F => windingNumber (l.at τ + ε • σ • normal l) poly % 2 = (((edges poly).countP fun f =>
      decide ((0 < σ * height l f.1 ↔ ¬ 0 < σ * height l f.2) ∧ ∃ s < t, OnSegment (l.at s) f.1 f.2) : Nat) : Int) % 2 := by
  obtain ⟨M, hM, hb⟩ := exists_back l hv τ poly
  have hK := inner_self_pos hv
  have hits : Small fun ε : F => ∀ f ∈ edges poly, hit (l.at (-M) + ε • σ • normal l - (l.at τ + ε • σ • normal l))
        (f.1 - (l.at τ + ε • σ • normal l)) (f.2 - (l.at τ + ε • σ • normal l)) ≠ 0 ↔
      (0 < σ * height l f.1 ↔ ¬ 0 < σ * height l f.2) ∧ ∃ s < t, OnSegment (l.at s) f.1 f.2 := by
    apply Small.list
    intro f hf
    refine hit_parallel hv hσ hM ?_ (hx f hf)
    rintro x ⟨r, r0, r1, e⟩
    have h1 := hb _ (mem_of_mem_edges hf).1
    have h2 := hb _ (mem_of_mem_edges hf).2
    have ex : inner (l.at x - l.start) l.vector = x * inner l.vector l.vector := by
      rw [Line.at, add_sub_cancel_left, inner_smul_left]
    have ex' : inner (l.at x - l.start) l.vector =
        (1 - r) * inner (f.1 - l.start) l.vector + r * inner (f.2 - l.start) l.vector := by
      rw [e]; simp only [inner2, Pi.sub_apply, Pi.add_apply, Pi.smul_apply, smul_eq_mul]; ring
    have : -M * inner l.vector l.vector < x * inner l.vector l.vector := by
      rw [← ex, ex']
      rcases eq_or_lt_of_le r0 with rfl | r0
      · linarith
      · nlinarith [mul_nonneg (sub_nonneg.2 r1) (sub_nonneg.2 h1.le), mul_pos r0 (sub_pos.2 h2)]
    exact lt_of_mul_lt_mul_right this hK.le
  have verts : Small fun ε : F => ∀ v ∈ poly, σ * height l v ≠ ε * inner l.vector l.vector := by
    apply Small.list
    intro v _
    by_cases c : 0 < σ * height l v
    · exact (small_lt (inner l.vector l.vector) (show 0 < σ * height l v from c)).mono fun ε _ h e => by linarith
    · exact small_of_forall fun ε e0 e => c (by rw [e]; exact mul_pos e0 hK)
  refine ((hits.and verts).and hoff).mono fun ε e0 ⟨⟨g1, g2⟩, g3⟩ => ?_
  have hQ : windingNumber (l.at (-M) + ε • σ • normal l) poly = 0 := by
    refine winding_separated _ poly l.vector fun v hv' => ?_
    have := hb v hv'
    rw [inner2, inner2] at this
    simp [Line.at, normal] at this ⊢
    nlinarith
  have hvx : ∀ v ∈ poly, ¬ OnSegment v (l.at τ + ε • σ • normal l) (l.at (-M) + ε • σ • normal l) := by
    rintro v hv' ⟨r, -, -, e⟩
    apply g2 v hv'
    rw [e, inner2]
    simp only [height, Line.at, normal, area, Pi.sub_apply, Pi.add_apply, Pi.smul_apply, smul_eq_mul,
      Matrix.cons_val_zero, Matrix.cons_val_one]
    linear_combination (ε * (l.vector 0 * l.vector 0 + l.vector 1 * l.vector 1)) * hσ
  have df := winding_diff g3 (not_onBorder_of_zero hQ) hvx
  rw [hQ, sub_zero] at df
  rw [df]
  exact odd_sum_iff (fun f _ => hit_cases _ _ _) g1

end Actl.Geo
