import Verif.Model.Monotone
import Verif.Spec.Monotone
import Verif.Props.Winding
import Verif.Lemmas.Hull
import Verif.Lemmas.HullParts

/-! Lemmas on monotone polygons: a vertical ray instead of a horizontal one, location of the edge. -/

namespace Actl.Geo

variable {F : Type*} [Field F] [LinearOrder F] [IsStrictOrderedRing F]

theorem lexLess_iff {p q : Vec F 2} : LexLess p q ↔ key p < key q := key_lt.symm

theorem not_lexLess {p q : Vec F 2} : ¬ LexLess p q ↔ key q ≤ key p := by rw [lexLess_iff, not_lt]

/-! ### The ray downwards -/

/-- The vector points to the left, or straight down. -/
def Before (u : Vec F 2) : Prop := u 0 < 0 ∨ u 0 = 0 ∧ u 1 < 0

theorem before_iff {p v : Vec F 2} : Before (v - p) ↔ key v < key p := by
  rw [key_lt, Before]
  simp only [Pi.sub_apply, sub_neg, sub_eq_zero]

open Classical in
/-- The contribution of an edge, seen from the point: `1` or `-1` when it crosses the ray downwards. -/
noncomputable def crossingV (u w : Vec F 2) : Int :=
  if Before u ∧ ¬ Before w ∧ 0 < area u w then 1
  else if ¬ Before u ∧ Before w ∧ area u w < 0 then -1
  else 0

theorem crossingV_swap (u w : Vec F 2) : crossingV w u = -crossingV u w := by
  have h : area w u = -area u w := by simp only [area]; ring
  unfold crossingV
  rw [h]
  by_cases h1 : Before u <;> by_cases h2 : Before w <;> 
    simp only [h1, h2, not_true_eq_false, not_false_eq_true, true_and, false_and, if_false,
      neg_pos, neg_lt_zero] <;>
    first | rfl | (split_ifs <;> rfl)

open Classical in
/-- The vector points into the quadrant between the two rays. -/
noncomputable def quad (u : Vec F 2) : Int := if 0 < u 0 ∧ u 1 < 0 then 1 else 0

theorem crossingV_eq {u w : Vec F 2} (h : ¬ Stops u w) (h0 : w ≠ 0) :
    crossingV u w = crossing u w + quad w - quad u := by
  have hu : u ≠ 0 := fun e => h (.inl e)
  unfold crossingV crossing quad
  have hne : ∀ v : Vec F 2, v ≠ 0 → v 0 ≠ 0 ∨ v 1 ≠ 0 := by
    intro v hv
    by_contra hc
    push Not at hc
    exact hv (vec2_ext hc.1 hc.2)
  -- the position of a vector: one of the half-open quadrants
  have hpos : ∀ v : Vec F 2, v ≠ 0 →
      (Before v ∧ v 1 < 0 ∧ v 0 ≤ 0 ∧ ¬ 0 ≤ v 1 ∧ ¬ 0 < v 0) ∨
      (Before v ∧ 0 ≤ v 1 ∧ v 0 < 0 ∧ ¬ v 1 < 0 ∧ ¬ 0 < v 0) ∨
      (¬ Before v ∧ v 1 < 0 ∧ 0 < v 0 ∧ ¬ 0 ≤ v 1 ∧ 0 < v 0) ∨
      (¬ Before v ∧ 0 ≤ v 1 ∧ 0 ≤ v 0 ∧ ¬ v 1 < 0 ∧ True) := by
    intro v hv
    have := hne v hv
    unfold Before
    rcases lt_trichotomy (v 0) 0 with a | a | a <;> rcases lt_trichotomy (v 1) 0 with b | b | b <;>
      simp_all [le_of_lt, not_lt_of_gt, ne_of_gt, ne_of_lt]
  have hstop : (u 1 < 0 ∧ 0 ≤ w 1 ∨ 0 ≤ u 1 ∧ w 1 < 0) → area u w ≠ 0 :=
    fun hh ha => h (.inr (.inr ⟨hh, ha⟩))
  have ea : area u w = u 0 * w 1 - u 1 * w 0 := rfl
  rcases hpos u hu with ⟨a1, a2, a3, a4, a5⟩ | ⟨a1, a2, a3, a4, a5⟩ | ⟨a1, a2, a3, a4, a5⟩ |
      ⟨a1, a2, a3, a4, a5⟩ <;>
    rcases hpos w h0 with ⟨b1, b2, b3, b4, b5⟩ | ⟨b1, b2, b3, b4, b5⟩ | ⟨b1, b2, b3, b4, b5⟩ |
      ⟨b1, b2, b3, b4, b5⟩ <;>
    rcases lt_trichotomy (area u w) 0 with c | c | c <;>
    (have c' := c
     first | have c'' := lt_asymm c | have c'' := lt_irrefl (0 : F)
     simp only [a1, a2, a4, a5, b1, b2, b4, b5, c, c'', true_and, and_true, and_false, false_and,
       if_true, if_false, not_true_eq_false, not_false_eq_true, lt_irrefl] <;>
     first
     | rfl
     | (exfalso; exact hstop (.inl ⟨a2, b2⟩) c')
     | (exfalso; exact hstop (.inr ⟨a2, b2⟩) c')
     | (exfalso; rw [ea] at c'; nlinarith))

/-- The sum of the contributions for the ray downwards. -/
noncomputable def crossingsV (p : Vec F 2) (l : List (Vec F 2 × Vec F 2)) : Int :=
  (l.map fun e => crossingV (e.1 - p) (e.2 - p)).sum

theorem crossingsV_cons (p : Vec F 2) (e : Vec F 2 × Vec F 2) (l : List (Vec F 2 × Vec F 2)) :
    crossingsV p (e :: l) = crossingV (e.1 - p) (e.2 - p) + crossingsV p l := by simp [crossingsV]

theorem crossingsV_append (p : Vec F 2) (l l' : List (Vec F 2 × Vec F 2)) :
    crossingsV p (l ++ l') = crossingsV p l + crossingsV p l' := by simp [crossingsV]

theorem crossingsV_swap (p : Vec F 2) (l : List (Vec F 2 × Vec F 2)) :
    crossingsV p (l.map Prod.swap).reverse = -crossingsV p l := by
  induction l with
  | nil => simp [crossingsV]
  | cons e l ih =>
    rw [List.map_cons, List.reverse_cons, crossingsV_append, ih, crossingsV_cons, crossingsV_cons,
      Prod.fst_swap, Prod.snd_swap, crossingV_swap]
    simp [crossingsV]

/-- The two rays count the same. -/
theorem crossingsV_edges {p : Vec F 2} {poly : List (Vec F 2)} (h : ¬ OnBorder p poly) :
    crossingsV p (edges poly) = windingNumber p poly := by
  rw [(windingNumber_eq p poly).2 h]
  have hv : ∀ v ∈ poly, v - p ≠ 0 := by
    intro v hv h0
    obtain ⟨w, hw⟩ := exists_edge_from hv
    exact h ⟨(v, w), hw, 0, le_rfl, zero_le_one, by simp [sub_eq_zero.1 h0]⟩
  have hm : crossingsV p (edges poly) = ((edges poly).map fun e =>
      crossing (e.1 - p) (e.2 - p) + (quad (e.2 - p) - quad (e.1 - p))).sum := by
    unfold crossingsV
    congr 1
    apply List.map_congr_left
    intro e he
    rw [crossingV_eq (fun hs => h ⟨e, he, hs.onSegment⟩) (hv _ (mem_of_mem_edges he).2)]
    ring
  have hadd : ∀ (f g : Vec F 2 × Vec F 2 → Int) (l : List (Vec F 2 × Vec F 2)),
      (l.map fun e => f e + g e).sum = (l.map f).sum + (l.map g).sum := by
    intro f g l
    induction l with
    | nil => simp
    | cons e l ih => simp only [List.map_cons, List.sum_cons, ih]; ring
  rw [hm, hadd]
  have h0 : ((edges poly).map fun e => quad (e.2 - p) - quad (e.1 - p)).sum = 0 := by
    cases poly with
    | nil => simp [edges, pairs]
    | cons a rest => rw [edges_cons, sum_pairs_telescope fun v => quad (v - p)]; simp
  rw [h0, add_zero]
  rfl

/-! ### Finding the edge -/

/-- What the search along an ascending chain finds. -/
theorem locate (p m : Vec F 2) : ∀ (l : List (Vec F 2)) (a : Vec F 2),
    (a :: l ++ [m]).Pairwise LexLess → key a ≤ key p → key p ≤ key m →
    ∃ x y, (a :: l)[lowerBound l p]? = some x ∧ (l ++ [m])[lowerBound l p]? = some y ∧
      (x, y) ∈ pairs (a :: l ++ [m]) ∧ key x ≤ key p ∧ key p ≤ key y ∧
      (key a < key p → crossingsV p (pairs (a :: l ++ [m])) = crossingV (x - p) (y - p)) := by
  have hrest : ∀ (l : List (Vec F 2)) (a : Vec F 2), (a :: l ++ [m]).Pairwise LexLess →
      key p ≤ key a → crossingsV p (pairs (a :: l ++ [m])) = 0 := by
    intro l a hp ha
    apply List.sum_eq_zero
    intro x hx
    obtain ⟨e, he, rfl⟩ := List.mem_map.1 hx
    have hall : ∀ v ∈ a :: l ++ [m], ¬ Before (v - p) := by
      intro v hv
      rw [before_iff, not_lt]
      rcases List.mem_cons.1 hv with rfl | hv
      · exact ha
      · exact ha.trans (lexLess_iff.1 ((List.pairwise_cons.1 hp).1 v hv)).le
    obtain ⟨u, w⟩ := e
    obtain ⟨l₁, l₂, el⟩ := mem_pairs.1 he
    have h1 := hall u (by rw [el]; simp)
    have h2 := hall w (by rw [el]; simp)
    simp [crossingV, h1, h2]
  intro l
  induction l with
  | nil =>
    intro a hp ha hm
    refine ⟨a, m, by simp [lowerBound], by simp [lowerBound], by simp [pairs], ha, hm, fun _ => ?_⟩
    simp [pairs, crossingsV]
  | cons b l ih =>
    intro a hp ha hm
    have hp' : (b :: l ++ [m]).Pairwise LexLess := (List.pairwise_cons.1 hp).2
    by_cases hb : less b p = true
    · have hb' := (less_iff b p).1 hb
      obtain ⟨x, y, h1, h2, h3, h4, h5, h6⟩ := ih b hp' hb'.le hm
      have hk : lowerBound (b :: l) p = lowerBound l p + 1 := by
        simp [lowerBound, List.takeWhile_cons, hb]
      refine ⟨x, y, ?_, ?_, ?_, h4, h5, fun ha' => ?_⟩
      · rw [hk, List.getElem?_cons_succ]; exact h1
      · rw [hk, List.cons_append, List.getElem?_cons_succ]; exact h2
      · simp only [List.cons_append, pairs] at h3 ⊢
        exact List.mem_cons_of_mem _ h3
      · simp only [List.cons_append, pairs] at h6 ⊢
        rw [crossingsV_cons, h6 hb']
        have k1 : Before (a - p) := before_iff.2 ha'
        have k2 : Before (b - p) := before_iff.2 hb'
        simp [crossingV, k1, k2]
    · have hb0 : less b p = false := by simpa using hb
      have hb' := (less_false b p).1 hb0
      have hk : lowerBound (b :: l) p = 0 := by simp [lowerBound, List.takeWhile_cons, hb0]
      refine ⟨a, b, by rw [hk]; rfl, by rw [hk]; rfl, by simp [pairs], ha, hb', fun _ => ?_⟩
      have := hrest l b hp' hb'
      simp only [List.cons_append, pairs] at this ⊢
      rw [crossingsV_cons, this, add_zero]

end Actl.Geo
