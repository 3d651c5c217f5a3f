import Verif.Spec.SimplePolygon
import Verif.Props.Monotone

/-!
# C63: point in a simple monotone polygon

In a simple polygon the two chains do not cross, so if the lower chain starts below the upper one, it stays
below it: the search is right for every point. The proof follows both chains from left to right.
-/

namespace Actl.Geo

variable {F : Type*} [Field F] [LinearOrder F] [IsStrictOrderedRing F]

/-- The side of the point with respect to the directed line: positive on the left. -/
def sideOf (x y p : Vec F 2) : F := (y 0 - x 0) * (p 1 - x 1) - (y 1 - x 1) * (p 0 - x 0)

/-- The height of the line at the position. -/
def heightAt (x y : Vec F 2) (t : F) : F := x 1 + (y 1 - x 1) * (t - x 0) / (y 0 - x 0)

theorem Spans.coord {x y p : Vec F 2} (h : Spans x y p) : x 0 ≤ p 0 ∧ p 0 ≤ y 0 := by
  obtain ⟨h1, h2⟩ := h
  unfold LexLess at h1 h2
  push Not at h1 h2
  exact ⟨h1.1, h2.1⟩

theorem Spans.vertical {x y p : Vec F 2} (h : Spans x y p) (he : ¬ x 0 < y 0) : sideOf x y p = 0 := by
  have := h.coord
  have e1 : y 0 - x 0 = 0 := by have := not_lt.1 he; linarith
  have e2 : p 0 - x 0 = 0 := by linarith
  rw [sideOf, e1, e2]; ring

theorem sideOf_eq {x y p : Vec F 2} (h : x 0 < y 0) :
    sideOf x y p = (y 0 - x 0) * (p 1 - heightAt x y (p 0)) := by
  have : y 0 - x 0 ≠ 0 := by linarith
  unfold sideOf heightAt
  field_simp
  ring

theorem sideOf_neg {x y p : Vec F 2} (h : x 0 < y 0) : sideOf x y p < 0 ↔ p 1 < heightAt x y (p 0) := by
  have : 0 < y 0 - x 0 := by linarith
  rw [sideOf_eq h, mul_neg_iff]
  constructor
  · rintro (⟨-, h⟩ | ⟨h, -⟩) <;> linarith
  · intro h; exact .inl ⟨this, by linarith⟩

theorem sideOf_pos {x y p : Vec F 2} (h : x 0 < y 0) : 0 < sideOf x y p ↔ heightAt x y (p 0) < p 1 := by
  have : 0 < y 0 - x 0 := by linarith
  rw [sideOf_eq h, mul_pos_iff]
  constructor
  · rintro (⟨-, h⟩ | ⟨h, -⟩) <;> linarith
  · intro h; exact .inl ⟨this, by linarith⟩

theorem heightAt_left (x y : Vec F 2) : heightAt x y (x 0) = x 1 := by simp [heightAt]

theorem onSegment_height {x y : Vec F 2} (h : x 0 < y 0) {t : F} (h0 : x 0 ≤ t) (h1 : t ≤ y 0) :
    OnSegment ![t, heightAt x y t] x y := by
  have hd : 0 < y 0 - x 0 := by linarith
  refine ⟨(t - x 0) / (y 0 - x 0), div_nonneg (by linarith) hd.le, (div_le_one hd).2 (by linarith),
    vec2_ext ?_ ?_⟩
  · simp
    field_simp
    ring
  · simp [heightAt]
    field_simp

/-- Two segments, one below the other at one position and above it at the next one, have a common point
between. -/
theorem segments_cross {x y z w : Vec F 2} {s t : F} (hx : x 0 < y 0) (hz : z 0 < w 0)
    (s1 : x 0 ≤ s) (s2 : z 0 ≤ s) (t1 : t ≤ y 0) (t2 : t ≤ w 0) (hst : s ≤ t)
    (hs : (heightAt x y s < heightAt z w s ∧ heightAt z w t < heightAt x y t)) :
    ∃ q, OnSegment q x y ∧ OnSegment q z w ∧ s < q 0 ∧ q 0 < t := by
  obtain ⟨hs, ht⟩ := hs
  have hd : y 0 - x 0 ≠ 0 := by linarith
  have hd' : w 0 - z 0 ≠ 0 := by linarith
  have hst : s < t := lt_of_le_of_ne hst (by rintro rfl; exact absurd hs (not_lt.2 ht.le))
  obtain ⟨A, hA⟩ : ∃ A, A = heightAt z w s - heightAt x y s := ⟨_, rfl⟩
  obtain ⟨B, hB⟩ : ∃ B, B = heightAt x y t - heightAt z w t := ⟨_, rfl⟩
  have pA : 0 < A := by linarith
  have pB : 0 < B := by linarith
  have pAB : 0 < A + B := by linarith
  obtain ⟨c, hc⟩ : ∃ c, c = s + (t - s) * (A / (A + B)) := ⟨_, rfl⟩
  have q0 : 0 < A / (A + B) := div_pos pA pAB
  have q1 : A / (A + B) < 1 := (div_lt_one pAB).2 (by linarith)
  have c1 : s < c := by rw [hc]; nlinarith
  have c2 : c < t := by rw [hc]; nlinarith
  -- the height is affine
  have aff : ∀ u v : Vec F 2, heightAt u v c
      = heightAt u v s + (heightAt u v t - heightAt u v s) * (A / (A + B)) := by
    intro u v
    rw [hc]
    unfold heightAt
    ring
  have heq : heightAt x y c = heightAt z w c := by
    rw [aff x y, aff z w]
    have h1 : A / (A + B) * (A + B) = A := div_mul_cancel₀ _ pAB.ne'
    have h2 : heightAt x y t - heightAt z w t + (heightAt z w s - heightAt x y s) = A + B := by
      rw [hA, hB]; ring
    have h3 : (heightAt x y t - heightAt x y s - (heightAt z w t - heightAt z w s)) * (A / (A + B)) = A := by
      rw [show heightAt x y t - heightAt x y s - (heightAt z w t - heightAt z w s) = A + B by
        rw [← h2]; ring, mul_comm]
      exact h1
    have h4 : heightAt x y s - heightAt z w s = -A := by rw [hA]; ring
    linear_combination h3 + h4
  refine ⟨![c, heightAt x y c], onSegment_height hx (by linarith) (by linarith), ?_, by simpa using c1,
    by simpa using c2⟩
  rw [heq]
  exact onSegment_height hz (by linarith) (by linarith)

theorem spans_iff {x y p : Vec F 2} : Spans x y p ↔ key x ≤ key p ∧ key p ≤ key y := by
  unfold Spans; rw [not_lexLess, not_lexLess]

theorem key_lt_of_coord {p q : Vec F 2} (h : p 0 < q 0) : key p < key q := lexLess_iff.1 (.inl h)

theorem onSegment_of_side {x y p : Vec F 2} (h : Spans x y p) (h0 : sideOf x y p = 0) : OnSegment p x y := by
  obtain ⟨h1, h2⟩ := spans_iff.1 h
  refine onSegment_of_area h1 h2 ?_
  unfold sideOf at h0
  simp only [area, Pi.sub_apply]
  linear_combination h0

/-- The next edge of the lower chain starts below the edge of the upper chain. -/
theorem cross_lower {y y' z w p : Vec F 2} (hs : sideOf z w y < 0) (h1 : Spans z w y) (h2 : Spans z w p)
    (h3 : Spans y y' p) (h4 : sideOf y y' p ≤ 0) (h5 : 0 ≤ sideOf z w p)
    (h6 : sideOf y y' p < 0 ∨ 0 < sideOf z w p) :
    ∃ q, OnSegment q y y' ∧ OnSegment q z w ∧ key y < key q ∧ key q < key p := by
  have hz : z 0 < w 0 := by
    by_contra h
    rw [h1.vertical h] at hs
    exact lt_irrefl _ hs
  have b1 := (sideOf_neg hz).1 hs
  have b2 : heightAt z w (p 0) ≤ p 1 :=
    not_lt.1 fun h => absurd ((sideOf_neg hz).2 h) (not_lt.2 h5)
  by_cases hy : y 0 < y' 0
  · have b3 : p 1 ≤ heightAt y y' (p 0) :=
      not_lt.1 fun h => absurd ((sideOf_pos hy).2 h) (not_lt.2 h4)
    have b4 : heightAt z w (p 0) < heightAt y y' (p 0) := by
      rcases h6 with h | h
      · have := (sideOf_neg hy).1 h; linarith
      · have := (sideOf_pos hz).1 h; linarith
    obtain ⟨q, q1, q2, q3, q4⟩ := segments_cross hy hz le_rfl h1.coord.1 h3.coord.2 h2.coord.2 h3.coord.1
      ⟨by rw [heightAt_left]; exact b1, b4⟩
    exact ⟨q, q1, q2, key_lt_of_coord q3, key_lt_of_coord q4⟩
  · have e : p 0 = y 0 := by linarith [h3.coord.1, h3.coord.2, not_lt.1 hy]
    rw [h3.vertical hy] at h6
    have b3 := (sideOf_pos hz).1 (h6.resolve_left (lt_irrefl _))
    rw [e] at b3
    have hk : key y < key ![y 0, heightAt z w (y 0)] := lexLess_iff.1 (.inr ⟨by simp, by simpa using b1⟩)
    have hk' : key ![y 0, heightAt z w (y 0)] < key p := lexLess_iff.1 (.inr ⟨by simp [e], by simpa using b3⟩)
    refine ⟨![y 0, heightAt z w (y 0)], ?_, onSegment_height hz h1.coord.1 h1.coord.2, hk, hk'⟩
    have sp : Spans y y' ![y 0, heightAt z w (y 0)] :=
      spans_iff.2 ⟨hk.le, hk'.le.trans (spans_iff.1 h3).2⟩
    exact onSegment_of_side sp (sp.vertical hy)

/-- The next edge of the upper chain starts above the edge of the lower chain. -/
theorem cross_upper {x y w w' p : Vec F 2} (hs : 0 < sideOf x y w) (h1 : Spans x y w) (h2 : Spans x y p)
    (h3 : Spans w w' p) (h4 : sideOf x y p ≤ 0) (h5 : 0 ≤ sideOf w w' p)
    (h6 : sideOf x y p < 0 ∨ 0 < sideOf w w' p) :
    ∃ q, OnSegment q x y ∧ OnSegment q w w' ∧ key w < key q ∧ key q < key p := by
  have hx : x 0 < y 0 := by
    by_contra h
    rw [h1.vertical h] at hs
    exact lt_irrefl _ hs
  have b1 := (sideOf_pos hx).1 hs
  have b2 : p 1 ≤ heightAt x y (p 0) :=
    not_lt.1 fun h => absurd ((sideOf_pos hx).2 h) (not_lt.2 h4)
  by_cases hw : w 0 < w' 0
  · have b3 : heightAt w w' (p 0) ≤ p 1 :=
      not_lt.1 fun h => absurd ((sideOf_neg hw).2 h) (not_lt.2 h5)
    have b4 : heightAt w w' (p 0) < heightAt x y (p 0) := by
      rcases h6 with h | h
      · have := (sideOf_neg hx).1 h; linarith
      · have := (sideOf_pos hw).1 h; linarith
    obtain ⟨q, q1, q2, q3, q4⟩ := segments_cross hx hw h1.coord.1 le_rfl h2.coord.2 h3.coord.2 h3.coord.1
      ⟨by rw [heightAt_left]; exact b1, b4⟩
    exact ⟨q, q1, q2, key_lt_of_coord q3, key_lt_of_coord q4⟩
  · exfalso
    have hc := h3.coord
    have e : p 0 = w 0 := by linarith [not_lt.1 hw]
    have h7 : w 1 ≤ p 1 := by
      by_contra h
      exact h3.1 (.inr ⟨e, not_le.1 h⟩)
    rw [e] at b2
    linarith

/-- The relation of two edges: a point below the first one is below the second one. -/
def EdgeBelow (x y z w : Vec F 2) : Prop :=
  ∀ p, Spans x y p → Spans z w p →
    (sideOf x y p ≤ 0 → sideOf z w p ≤ 0) ∧ (sideOf x y p < 0 → sideOf z w p < 0)

theorem edgeBelow_of {x y z w : Vec F 2} (h : ∀ p, Spans x y p → Spans z w p → sideOf x y p ≤ 0 →
    0 ≤ sideOf z w p → (sideOf x y p < 0 ∨ 0 < sideOf z w p) → False) : EdgeBelow x y z w := by
  intro p h1 h2
  exact ⟨fun h3 => not_lt.1 fun h4 => h p h1 h2 h3 h4.le (.inr h4),
    fun h3 => not_le.1 fun h4 => h p h1 h2 h3.le h4 (.inl h3)⟩

/-- At the common left end the chains start with a left turn. -/
theorem start_below {a y w : Vec F 2} (ht : StrictLeft a y w) : EdgeBelow a y a w := by
  refine edgeBelow_of fun p h1 h2 h3 hn h5 => ?_
  unfold StrictLeft at ht
  have hp := h1.coord
  have hp' := h2.coord
  have key : (p 0 - a 0) * ((y 0 - a 0) * (w 1 - a 1) - (y 1 - a 1) * (w 0 - a 0))
      + (y 0 - a 0) * sideOf a w p - (w 0 - a 0) * sideOf a y p = 0 := by
    unfold sideOf; ring
  have k1 := mul_nonneg (sub_nonneg.2 hp.1) ht.le
  have k2 : 0 ≤ (y 0 - a 0) * sideOf a w p := mul_nonneg (by linarith) hn
  have k3 : 0 ≤ (w 0 - a 0) * -sideOf a y p := mul_nonneg (by linarith) (by linarith)
  have k4 : (p 0 - a 0) * ((y 0 - a 0) * (w 1 - a 1) - (y 1 - a 1) * (w 0 - a 0)) = 0 := by linarith
  have k5 : p 0 - a 0 = 0 := by
    rcases mul_eq_zero.1 k4 with h | h
    · exact h
    · exact absurd h ht.ne'
  have h6 : a 1 ≤ p 1 := by
    by_contra h
    exact h1.1 (.inr ⟨by linarith, not_le.1 h⟩)
  rcases h5 with h5 | h5
  · have : 0 ≤ sideOf a y p := by
      unfold sideOf
      rw [k5]
      have : 0 ≤ (y 0 - a 0) * (p 1 - a 1) := mul_nonneg (by linarith) (by linarith)
      linarith
    linarith
  · have k6 : (y 0 - a 0) * sideOf a w p = 0 := by linarith
    have k7 : y 0 - a 0 = 0 := by
      rcases mul_eq_zero.1 k6 with h | h
      · exact h
      · exact absurd h h5.ne'
    have h7 : p 1 ≤ y 1 := by
      by_contra h
      exact h1.2 (.inr ⟨by linarith, not_le.1 h⟩)
    rw [k7] at ht
    have : 0 ≤ (y 1 - a 1) * (w 0 - a 0) := mul_nonneg (by linarith) (by linarith)
    linarith

theorem sideOf_right (x y : Vec F 2) : sideOf x y y = 0 := by unfold sideOf; ring

theorem mem_pairs_mem {α : Type*} {c : List α} {x y : α} (h : (x, y) ∈ pairs c) : x ∈ c ∧ y ∈ c := by
  obtain ⟨l₁, l₂, e⟩ := mem_pairs.1 h
  rw [e]; simp

/-- Following both chains: two ascending chains with the same right end, with no other common point after
the start. -/
theorem chains_below (a m : Vec F 2) : ∀ (n : Nat) (L U : List (Vec F 2)) (x y z w : Vec F 2),
    L.length + U.length ≤ n → (x :: y :: L).Pairwise LexLess → (z :: w :: U).Pairwise LexLess →
    (x :: y :: L).getLast? = some m → (z :: w :: U).getLast? = some m →
    key a < key y → key a < key w → key z < key y → key x < key w →
    (∀ e ∈ pairs (x :: y :: L), ∀ f ∈ pairs (z :: w :: U), ∀ q, OnSegment q e.1 e.2 →
      OnSegment q f.1 f.2 → q = a ∨ q = m) →
    EdgeBelow x y z w →
    ∀ e ∈ pairs (x :: y :: L), ∀ f ∈ pairs (z :: w :: U), EdgeBelow e.1 e.2 f.1 f.2 := by
  intro n
  induction n with
  | zero =>
    intro L U x y z w hn _ _ _ _ _ _ _ _ _ hg e he f hf
    obtain rfl : L = [] := List.length_eq_zero_iff.1 (by omega)
    obtain rfl : U = [] := List.length_eq_zero_iff.1 (by omega)
    simp only [pairs, List.mem_singleton] at he hf
    subst he hf
    exact hg
  | succ n ih =>
    intro L U x y z w hn hL hU mL mU ay aw zy xw hq hg e he f hf
    have hmem : ∀ {c : List (Vec F 2)} {v : Vec F 2}, (v :: c).Pairwise LexLess →
        (v :: c).getLast? = some m → key v = key m ∧ c = [] ∨ key v < key m ∧ c ≠ [] := by
      intro c v hc hm
      cases c with
      | nil => simp at hm; exact .inl ⟨by rw [hm], rfl⟩
      | cons v' c' =>
        refine .inr ⟨lexLess_iff.1 ((List.pairwise_cons.1 hc).1 m ?_), by simp⟩
        rw [List.getLast?_cons_cons] at hm
        exact List.mem_of_getLast? hm
    have hL' := (List.pairwise_cons.1 hL).2
    have hU' := (List.pairwise_cons.1 hU).2
    have xy : key x < key y := lexLess_iff.1 ((List.pairwise_cons.1 hL).1 y (by simp))
    have zw : key z < key w := lexLess_iff.1 ((List.pairwise_cons.1 hU).1 w (by simp))
    have later : ∀ {c : List (Vec F 2)} {v : Vec F 2}, (v :: c).Pairwise LexLess →
        ∀ u ∈ v :: c, key v ≤ key u := by
      intro c v hc u hu
      rcases List.mem_cons.1 hu with rfl | hu
      · exact le_rfl
      · exact (lexLess_iff.1 ((List.pairwise_cons.1 hc).1 u hu)).le
    have mL' : (y :: L).getLast? = some m := by rwa [List.getLast?_cons_cons] at mL
    have mU' : (w :: U).getLast? = some m := by rwa [List.getLast?_cons_cons] at mU
    have hin1 : (x, y) ∈ pairs (x :: y :: L) := by rw [pairs]; exact List.mem_cons_self
    have hin2 : (z, w) ∈ pairs (z :: w :: U) := by rw [pairs]; exact List.mem_cons_self
    rcases lt_trichotomy (key y) (key w) with hyw | hyw | hyw
    · -- the lower chain goes on
      have ym : key y < key m := by
        rcases hmem hU' mU' with ⟨h, -⟩ | ⟨h, -⟩
        · rw [← h]; exact hyw
        · exact hyw.trans h
      cases L with
      | nil => simp at mL'; rw [mL'] at ym; exact absurd ym (lt_irrefl _)
      | cons y' L =>
        have sp : Spans z w y := spans_iff.2 ⟨zy.le, hyw.le⟩
        have hne : sideOf z w y ≠ 0 := fun h => by
          rcases hq _ hin1 _ hin2 y ⟨1, zero_le_one, le_rfl, by simp⟩ (onSegment_of_side sp h) with h | h
          · exact absurd (congrArg key h) ay.ne'
          · exact absurd (congrArg key h) ym.ne
        have hlt : sideOf z w y < 0 := lt_of_le_of_ne
          ((hg y (spans_iff.2 ⟨xy.le, le_rfl⟩) sp).1 (sideOf_right x y).le) hne
        have hin3 : (y, y') ∈ pairs (x :: y :: y' :: L) := by
          rw [pairs, pairs]; exact List.mem_cons_of_mem _ List.mem_cons_self
        have hg' : EdgeBelow y y' z w := by
          refine edgeBelow_of fun p h1 h2 h3 h4 h5 => ?_
          obtain ⟨q, q1, q2, q3, q4⟩ := cross_lower hlt sp h2 h1 h3 h4 h5
          rcases hq _ hin3 _ hin2 q q1 q2 with h | h
          · rw [h] at q3; exact absurd q3 ay.not_gt
          · have : key p ≤ key m := (spans_iff.1 h2).2.trans (by
              rcases hmem hU' mU' with ⟨h, -⟩ | ⟨h, -⟩
              · exact h.le
              · exact h.le)
            rw [h] at q4; exact absurd q4 this.not_gt
        have yy' : key y < key y' := lexLess_iff.1 ((List.pairwise_cons.1 hL').1 y' (by simp))
        rw [pairs, List.mem_cons] at he
        rcases he with rfl | he
        · rw [pairs, List.mem_cons] at hf
          rcases hf with rfl | hf
          · exact hg
          · intro p h1 h2
            have h3 := later hU' f.1 (mem_pairs_mem hf).1
            have h4 := (spans_iff.1 h1).2
            have h5 := (spans_iff.1 h2).1
            exact absurd (hyw.trans_le (h3.trans h5)) h4.not_gt
        · exact ih L U y y' z w (by simp at hn; omega) hL' hU mL' mU (ay.trans yy') aw (zy.trans yy') hyw
            (fun e he f hf => hq e (by rw [pairs]; exact List.mem_cons_of_mem _ he) f hf) hg' e he f hf
    · -- both chains end
      have hy : y = w := key_inj.1 hyw
      have hm : y = m := by
        rcases hq _ hin1 _ hin2 y ⟨1, zero_le_one, le_rfl, by simp⟩ ⟨1, zero_le_one, le_rfl, by simp [hy]⟩
          with h | h
        · exact absurd (congrArg key h) ay.ne'
        · exact h
      have e1 : L = [] := by
        rcases hmem hL' mL' with ⟨-, h⟩ | ⟨h, -⟩
        · exact h
        · rw [hm] at h; exact absurd h (lt_irrefl _)
      have e2 : U = [] := by
        rcases hmem hU' mU' with ⟨-, h⟩ | ⟨h, -⟩
        · exact h
        · rw [← hy, hm] at h; exact absurd h (lt_irrefl _)
      subst e1 e2
      simp only [pairs, List.mem_singleton] at he hf
      subst he hf
      exact hg
    · -- the upper chain goes on
      have wm : key w < key m := by
        rcases hmem hL' mL' with ⟨h, -⟩ | ⟨h, -⟩
        · rw [← h]; exact hyw
        · exact hyw.trans h
      cases U with
      | nil => simp at mU'; rw [mU'] at wm; exact absurd wm (lt_irrefl _)
      | cons w' U =>
        have sp : Spans x y w := spans_iff.2 ⟨xw.le, hyw.le⟩
        have hne : sideOf x y w ≠ 0 := fun h => by
          rcases hq _ hin1 _ hin2 w (onSegment_of_side sp h) ⟨1, zero_le_one, le_rfl, by simp⟩ with h | h
          · exact absurd (congrArg key h) aw.ne'
          · exact absurd (congrArg key h) wm.ne
        have hlt : 0 < sideOf x y w := lt_of_le_of_ne (not_lt.1 fun h => by
          have := (hg w sp (spans_iff.2 ⟨zw.le, le_rfl⟩)).2 h
          rw [sideOf_right] at this
          exact lt_irrefl _ this) hne.symm
        have hin3 : (w, w') ∈ pairs (z :: w :: w' :: U) := by
          rw [pairs, pairs]; exact List.mem_cons_of_mem _ List.mem_cons_self
        have hg' : EdgeBelow x y w w' := by
          refine edgeBelow_of fun p h1 h2 h3 h4 h5 => ?_
          obtain ⟨q, q1, q2, q3, q4⟩ := cross_upper hlt sp h1 h2 h3 h4 h5
          rcases hq _ hin1 _ hin3 q q1 q2 with h | h
          · rw [h] at q3; exact absurd q3 aw.not_gt
          · have : key p ≤ key m := (spans_iff.1 h1).2.trans (by
              rcases hmem hL' mL' with ⟨h, -⟩ | ⟨h, -⟩
              · exact h.le
              · exact h.le)
            rw [h] at q4; exact absurd q4 this.not_gt
        have ww' : key w < key w' := lexLess_iff.1 ((List.pairwise_cons.1 hU').1 w' (by simp))
        rw [pairs, List.mem_cons] at hf
        rcases hf with rfl | hf
        · rw [pairs, List.mem_cons] at he
          rcases he with rfl | he
          · exact hg
          · intro p h1 h2
            have h3 := later hL' e.1 (mem_pairs_mem he).1
            have h4 := (spans_iff.1 h2).2
            have h5 := (spans_iff.1 h1).1
            exact absurd (hyw.trans_le (h3.trans h5)) h4.not_gt
        · exact ih L U x y w w' (by simp at hn; omega) hL hU' mL mU' ay (aw.trans ww') hyw (xw.trans ww')
            (fun e he f hf => hq e he f (by rw [pairs]; exact List.mem_cons_of_mem _ hf)) hg' e he f hf

/-- In a simple monotone polygon that turns to the left at its first vertex the lower chain is nowhere
above the upper one. -/
theorem Simple.notInverted {poly : List (Vec F 2)} {right : Nat} (hs : Simple poly)
    (hmono : Monotone poly right) (ht : LeftTurnAtFirst poly) (p : Vec F 2) :
    NotInverted poly right p := by
  obtain ⟨a, l, m, u, rfl, rfl, h1, h2⟩ := hmono
  obtain ⟨a', b, c, e1, e2, e3, hl⟩ := ht
  obtain ⟨hnd, hs⟩ := hs
  have hrev : pairs (m :: u ++ [a]) = ((pairs (a :: u.reverse ++ [m])).map Prod.swap).reverse := by
    rw [← pairs_reverse]; simp
  have hsw : ∀ {z w : Vec F 2}, (z, w) ∈ pairs (m :: u ++ [a]) ↔
      (w, z) ∈ pairs (a :: u.reverse ++ [m]) := by
    intro z w
    rw [hrev, List.mem_reverse, List.mem_map]
    constructor
    · rintro ⟨⟨w', z'⟩, hq, e⟩
      obtain ⟨rfl, rfl⟩ := Prod.mk.inj e
      exact hq
    · intro h
      exact ⟨(w, z), h, rfl⟩
  obtain rfl : a = a' := by simpa using e1
  -- the first edges
  obtain ⟨L, hL⟩ : ∃ L, l ++ [m] = b :: L := by
    cases l with
    | nil => simp at e2; exact ⟨[], by simp [e2]⟩
    | cons v l => simp at e2; exact ⟨l ++ [m], by simp [e2]⟩
  obtain ⟨U, hU⟩ : ∃ U, u.reverse ++ [m] = c :: U := by
    rcases List.eq_nil_or_concat u with rfl | ⟨u', v, rfl⟩
    · rw [List.getLast?_concat] at e3
      exact ⟨[], by simp [Option.some.inj e3]⟩
    · rw [show a :: l ++ m :: u'.concat v = (a :: l ++ m :: u') ++ [v] by simp, List.getLast?_concat] at e3
      exact ⟨u'.reverse ++ [m], by simp [Option.some.inj e3]⟩
  have key_lt : ∀ {v w : Vec F 2} {c : List (Vec F 2)}, (v :: w :: c).Pairwise LexLess → key v < key w :=
    fun h => lexLess_iff.1 ((List.pairwise_cons.1 h).1 _ (by simp))
  have hq : ∀ e ∈ pairs (a :: l ++ [m]), ∀ f ∈ pairs (a :: u.reverse ++ [m]), ∀ q, OnSegment q e.1 e.2 →
      OnSegment q f.1 f.2 → q = a ∨ q = m := by
    intro e he f hf q q1 q2
    have hin : e ∈ edges (a :: l ++ m :: u) := by
      rw [edges_split a m l u, (lowerEdges_eq a m l u).1]; exact List.mem_append_left _ he
    have hf' : (f.2, f.1) ∈ pairs (m :: u ++ [a]) := hsw.2 hf
    have hin' : (f.2, f.1) ∈ edges (a :: l ++ m :: u) := by
      rw [edges_split a m l u, (lowerEdges_eq a m l u).2]; exact List.mem_append_right _ hf'
    have hne : e ≠ (f.2, f.1) := by
      rintro rfl
      obtain ⟨l₁, l₂, r⟩ := mem_pairs.1 he
      obtain ⟨l₃, l₄, r'⟩ := mem_pairs.1 hf
      rw [r] at h1
      rw [r'] at h2
      have k1 := key_lt (List.pairwise_append.1 h1).2.1
      have k2 := key_lt (List.pairwise_append.1 h2).2.1
      exact absurd k1 k2.not_gt
    obtain ⟨r1, r2⟩ := hs e hin _ hin' hne q q1 (onSegment_symm q2)
    have m1 : q ∈ a :: l ++ [m] := by
      rcases r1 with rfl | rfl
      · exact (mem_pairs_mem he).1
      · exact (mem_pairs_mem he).2
    have m2 : q ∈ a :: u.reverse ++ [m] := by
      rcases r2 with rfl | rfl
      · exact (mem_pairs_mem hf).2
      · exact (mem_pairs_mem hf).1
    simp only [List.cons_append, List.mem_cons, List.mem_append, List.not_mem_nil, or_false,
      List.mem_reverse] at m1 m2
    rcases m1 with h | h | h
    · exact .inl h
    · rcases m2 with h' | h' | h'
      · exact .inl h'
      · exfalso
        have hnd' := (List.nodup_cons.1 (by simpa using hnd : (a :: (l ++ m :: u)).Nodup)).2
        exact (List.nodup_append.1 hnd').2.2 q h q (List.mem_cons_of_mem _ h') rfl
      · exact .inr h'
    · exact .inr h
  have h1' : (a :: b :: L).Pairwise LexLess := by rw [← hL]; exact h1
  have h2' : (a :: c :: U).Pairwise LexLess := by rw [← hU]; exact h2
  have lastL : (a :: b :: L).getLast? = some m := by
    rw [← hL, ← List.cons_append, List.getLast?_concat]
  have lastU : (a :: c :: U).getLast? = some m := by
    rw [← hU, ← List.cons_append, List.getLast?_concat]
  rintro ⟨x, y⟩ he ⟨w, z⟩ hf sp sp' hr
  rw [(lowerEdges_eq a m l u).1] at he
  rw [(lowerEdges_eq a m l u).2, hsw] at hf
  have := chains_below a m _ L U a b a c le_rfl h1' h2' lastL lastU (key_lt h1') (key_lt h2')
    (key_lt h1') (key_lt h2') (by rw [← hL, ← hU]; exact hq) (start_below hl)
    (x, y) (by rw [← hL]; exact he) (z, w) (by rw [← hU]; exact hf) p sp sp'
  have h3 := this.2 hr
  unfold StrictLeft
  unfold sideOf at h3
  simp only at h3 ⊢
  linarith

/-- C63. In a simple monotone polygon with the first vertex at the left and a left turn there, the search
by bisection gives for every point the classification by the winding number. -/
theorem withinMonotone_simple (p : Vec F 2) (poly : List (Vec F 2)) (right : Nat)
    (hs : Simple poly) (hmono : Monotone poly right) (ht : LeftTurnAtFirst poly) :
    withinMonotone p poly right = some (withinSimple p poly) :=
  withinMonotone_eq p poly right hmono (hs.notInverted hmono ht p)

/-- A dart, not convex: the vertex (2, 1) is a reflex one. -/
def dart : List (Vec ℚ 2) := [![0, 0], ![2, 1], ![4, 0], ![2, 3]]

theorem dart_simple : Simple dart := by
  refine ⟨by decide +kernel, ?_⟩
  intro e he f hf hne q h1 h2
  have hedges : edges dart = [(![0, 0], ![2, 1]), (![2, 1], ![4, 0]), (![4, 0], ![2, 3]),
    (![2, 3], ![0, 0])] := rfl
  rw [hedges] at he hf
  obtain ⟨t, t0, t1, ht⟩ := h1
  obtain ⟨s, s0, s1, hs⟩ := h2
  have ht0 := congrFun ht 0
  have ht1 := congrFun ht 1
  have hs0 := congrFun hs 0
  have hs1 := congrFun hs 1
  simp only [List.mem_cons, List.not_mem_nil, or_false] at he hf
  rcases he with rfl | rfl | rfl | rfl <;> rcases hf with rfl | rfl | rfl | rfl <;>
    simp only [ne_eq, not_true_eq_false] at hne <;>
    simp at ht0 ht1 hs0 hs1 ⊢ <;>
    first
    | (exfalso; linarith)
    | exact ⟨.inl (vec2_ext (by simp; linarith) (by simp; linarith)),
        .inl (vec2_ext (by simp; linarith) (by simp; linarith))⟩
    | exact ⟨.inl (vec2_ext (by simp; linarith) (by simp; linarith)),
        .inr (vec2_ext (by simp; linarith) (by simp; linarith))⟩
    | exact ⟨.inr (vec2_ext (by simp; linarith) (by simp; linarith)),
        .inl (vec2_ext (by simp; linarith) (by simp; linarith))⟩
    | exact ⟨.inr (vec2_ext (by simp; linarith) (by simp; linarith)),
        .inr (vec2_ext (by simp; linarith) (by simp; linarith))⟩

/-- The hypotheses are met by a polygon that is not convex, and the search finds the notch. -/
example : Simple dart ∧ Monotone dart 2 ∧ LeftTurnAtFirst dart ∧ ¬ StrictlyConvex dart ∧
    withinMonotone ![2, 1/2] dart 2 = some .outside ∧ withinMonotone ![2, 2] dart 2 = some .inside := by
  refine ⟨dart_simple, ?_, ⟨![0, 0], ![2, 1], ![2, 3], rfl, rfl, rfl, by norm_num [StrictLeft]⟩,
    ?_, by decide +kernel, by decide +kernel⟩
  · exact ⟨![0, 0], [![2, 1]], ![4, 0], [![2, 3]], rfl, rfl, by norm_num [LexLess],
      by norm_num [LexLess]⟩
  · intro h
    have := h.2 ![0, 0] ![2, 1] [![4, 0], ![2, 3]] (List.IsRotated.refl _) ![4, 0] (by simp)
    norm_num [StrictLeft] at this

end Actl.Geo
