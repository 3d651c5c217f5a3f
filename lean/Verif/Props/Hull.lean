import Verif.Lemmas.HullParts

/-!
# C57: the convex hull

* `convexHull_partial`: for every point set that is not on one line, the result consists of input
  points, is a strictly convex polygon (counter-clockwise, at least three vertices) and contains
  every input point.
* `convexHull_collinear_fails`: for every point set on one line (of two points or more) the code
  returns one point only, the smallest; with two different points the hull is lost.
* `convexHull_pivot`: the assertion of the code (`2 <= pivot`) always holds.

What is missing from the full claim is the case of collinear points, where the code is wrong.
-/

namespace Actl.Geo

variable {F : Type*} [Field F] [LinearOrder F] [IsStrictOrderedRing F]

theorem comp_iff (a b p : Vec F 2) :
    (!decide (orientationLine p (Line.through a b .free) = .right)) = true ↔ det3 a b p ≤ 0 := by
  rw [Bool.not_eq_true', decide_eq_false_iff_not, orientationLine, orientation, ofSign_right,
    not_lt]
  rfl

theorem comp_false (a b p : Vec F 2) :
    (!!decide (orientationLine p (Line.through a b .free) = .right)) = true ↔ 0 < det3 a b p := by
  rw [Bool.not_not, decide_eq_true_iff, orientationLine, orientation, ofSign_right]
  rfl

/-- The lexicographic minimum and maximum are the ends of the chord. -/
structure Ends (a b : Vec F 2) (points : List (Vec F 2)) : Prop where
  ha : a ∈ points
  hb : b ∈ points
  low : ∀ p ∈ points, key a ≤ key p
  high : ∀ p ∈ points, key p ≤ key b

theorem ends (x y : Vec F 2) (rest : List (Vec F 2)) :
    Ends (minPoint x (y :: rest)) (maxPoint x (y :: rest)) (x :: y :: rest) :=
  ⟨(minPoint_spec _ _).1, (maxPoint_spec _ _).1, (minPoint_spec _ _).2, (maxPoint_spec _ _).2⟩

/-- At least two points are on the first side. -/
theorem lower_length {a b x y : Vec F 2} {rest : List (Vec F 2)} (h : Ends a b (x :: y :: rest)) :
    2 ≤ ((x :: y :: rest).filter fun p =>
      !decide (orientationLine p (Line.through a b .free) = .right)).length := by
  by_cases hab : a = b
  · subst hab
    rw [List.filter_eq_self.2]
    · simp
    · intro p _
      rw [comp_iff]; simp
  · have hsub : [a, b].Subperm ((x :: y :: rest).filter fun p =>
      !decide (orientationLine p (Line.through a b .free) = .right)) := by
      apply List.subperm_of_subset (by simp [hab])
      intro p hp
      rw [List.mem_filter, comp_iff]
      simp only [List.mem_cons, List.not_mem_nil, or_false] at hp
      rcases hp with rfl | rfl
      · exact ⟨h.ha, by simp⟩
      · exact ⟨h.hb, by simp⟩
    exact hsub.length_le

/-- The first side sorted starts with the minimum. -/
theorem sorted_head {a b : Vec F 2} {points : List (Vec F 2)} (h : Ends a b points) :
    ∃ L, sortPoints (points.filter fun p =>
      !decide (orientationLine p (Line.through a b .free) = .right)) = a :: L := by
  have hm : a ∈ sortPoints (points.filter fun p =>
      !decide (orientationLine p (Line.through a b .free) = .right)) := by
    rw [(sortPoints_perm _).mem_iff, List.mem_filter, comp_iff]
    exact ⟨h.ha, by simp⟩
  have hs := sortPoints_sorted (points.filter fun p =>
      !decide (orientationLine p (Line.through a b .free) = .right))
  have hall : ∀ p ∈ sortPoints (points.filter fun p =>
      !decide (orientationLine p (Line.through a b .free) = .right)), key a ≤ key p := by
    intro p hp
    rw [(sortPoints_perm _).mem_iff, List.mem_filter] at hp
    exact h.low p hp.1
  generalize sortPoints (points.filter fun p =>
      !decide (orientationLine p (Line.through a b .free) = .right)) = S at hm hs hall
  cases S with
  | nil => simp at hm
  | cons z S =>
    refine ⟨S, ?_⟩
    have h1 := hall z (by simp)
    have h2 : key z ≤ key a := by
      rcases List.mem_cons.1 hm with rfl | hm
      · exact le_rfl
      · exact (List.pairwise_cons.1 hs).1 a hm
    rw [key_inj.1 (le_antisymm h1 h2)]

/-- After the last `pop` the chain never has exactly two points. -/
theorem popLast_ne_one (points : List (Vec F 2)) : ∀ last,
    popLast points (pointAt points 0) last ≠ 1
  | 0 => by simp [popLast]
  | last + 1 => by
    rw [popLast]
    split
    · rename_i h
      intro e
      have : last = 0 := by omega
      subst this
      rw [rightTurn_iff] at h
      simp at h
    · exact popLast_ne_one points last

theorem getLast?_popStack (q : Vec F 2) {st : List (Vec F 2)} (h : st ≠ []) :
    (popStack q st).getLast? = st.getLast? := by
  obtain ⟨X, t, Y, e1, e2, -, -⟩ := popStack_spec q st h
  rw [e2, e1, List.getLast?_append]
  cases hh : (t :: Y).getLast? with
  | none => simp at hh
  | some z => rfl

theorem getLast?_foldl_push : ∀ (U st : List (Vec F 2)), st ≠ [] →
    (U.foldl push st).getLast? = st.getLast?
  | [], _, _ => rfl
  | q :: U, st, h => by
    rw [List.foldl_cons, getLast?_foldl_push U _ (by simp [push]), push,
      ← getLast?_popStack q h]
    cases hh : popStack q st with
    | nil => exact absurd hh (popStack_ne_nil q h)
    | cons z zs => rfl

/-- The code on a stack: the sorted first side, the second side sorted downwards, one more `pop`. -/
theorem convexHull_stack {a b x y : Vec F 2} {rest L : List (Vec F 2)}
    (ha : a = minPoint x (y :: rest)) (hb : b = maxPoint x (y :: rest))
    (hL : sortPoints ((x :: y :: rest).filter fun p =>
      !decide (orientationLine p (Line.through a b .free) = .right)) = a :: L) :
    convexHull (x :: y :: rest) = (popStack a ((L ++ sortPointsDown ((x :: y :: rest).filter
      fun p => !!decide (orientationLine p (Line.through a b .free) = .right))).foldl push
        [a])).reverse := by
  have hE := ends x y rest
  rw [← ha, ← hb] at hE
  have hlen := lower_length hE
  rw [convexHull]
  simp only [← ha, ← hb]
  have hlow : ((x :: y :: rest).filter fun p =>
      !decide (orientationLine p (Line.through a b .free) = .right)).length = L.length + 1 := by
    rw [← (sortPoints_perm _).length_eq, hL]; rfl
  rw [hL, hlow]
  rw [hlow] at hlen
  generalize (x :: y :: rest).filter (fun p =>
    !!decide (orientationLine p (Line.through a b .free) = .right)) = U
  obtain ⟨l1, L', rfl⟩ : ∃ l1 L', L = l1 :: L' := by
    cases L with
    | nil => simp at hlen
    | cons l1 L' => exact ⟨l1, L', rfl⟩
  set S := a :: l1 :: L' ++ U with hS
  have hSlen : S.length = L'.length + 2 + U.length := by simp [hS]; omega
  have hloop := hullLoop_before (l1 :: L').length.succ (S.length - 2) 2 S 1 (by simp)
    (by rw [hSlen]; simp) (by omega) (by omega)
  have hll := hullLoop_length (l1 :: L').length.succ (S.length - 2) 2 S 1
  have hla := hullLoop_last (l1 :: L').length.succ (S.length - 2) 2 S 1 (by omega)
  rw [show (l1 :: L').length + 1 = (l1 :: L').length.succ from rfl]
  generalize hullLoop (l1 :: L').length.succ (S.length - 2) 2 S 1 = r at *
  have h2 : stackOf S 1 = push [a] l1 := by simp [stackOf, hS, push, popStack]
  have h3 : (S.drop 2).take ((l1 :: L').length.succ - 2) = L' := by
    simp [hS]
  have h4 : S.drop (l1 :: L').length.succ = U := by
    simp [hS]
  rw [h2, h3, h4] at hloop
  have h5 : (L' ++ sortPointsDown U).foldl push (push [a] l1) =
      (l1 :: L' ++ sortPointsDown U).foldl push [a] := rfl
  rw [h5] at hloop
  have hr : r.2 < r.1.length := by omega
  have h6 : pointAt r.1 0 = a := by
    have e := getLast?_foldl_push (l1 :: L' ++ sortPointsDown U) [a] (by simp)
    rw [← hloop, stackOf, List.getLast?_reverse, List.head?_take] at e
    simp only [Nat.add_eq_zero_iff, one_ne_zero, and_false, if_false] at e
    rw [pointAt, ← List.head?_eq_getElem?, e]
    rfl
  have h7 := popLast_ne_one r.1 r.2
  rw [if_neg (fun h => h7 h.1), ← hloop, h6, ← popLast_stack _ _ _ hr, stackOf,
    List.reverse_reverse]

/-! ## The collinear case -/

theorem popStack_collinear (q : Vec F 2) : ∀ (st : List (Vec F 2)) (z : Vec F 2),
    st.getLast? = some z → (∀ t ∈ st, ∀ s ∈ st, det3 s t q ≤ 0) → popStack q st = [z]
  | [], z, h, _ => by simp at h
  | [t], z, h, _ => by simpa [popStack] using h
  | t :: s :: rest, z, h, hc => by
    have : ¬ rightTurn q t s = true := by
      rw [rightTurn_iff, not_lt]; exact hc t (by simp) s (by simp)
    rw [popStack, if_neg this]
    exact popStack_collinear q (s :: rest) z (by rw [← h, List.getLast?_cons_cons])
      fun t ht s hs => hc t (List.mem_cons_of_mem _ ht) s (List.mem_cons_of_mem _ hs)

theorem foldl_push_collinear {P : List (Vec F 2)} (hP : AllCollinear P) :
    ∀ (U st : List (Vec F 2)) (z : Vec F 2), st.getLast? = some z → (∀ p ∈ U, p ∈ P) →
      (∀ p ∈ st, p ∈ P) → ∀ p ∈ U.foldl push st, p ∈ P
  | [], _, _, _, _, h => h
  | q :: U, st, z, h1, h2, h3 => by
    have hz : z ∈ P := h3 z (List.mem_of_getLast? h1)
    have e := popStack_collinear q st z h1 fun t ht s hs => by
      exact (hP s (h3 s hs) t (h3 t ht) q (h2 q (by simp))).le
    rw [List.foldl_cons, push, e]
    refine foldl_push_collinear hP U _ z (by simp) (fun p hp => h2 p (List.mem_cons_of_mem _ hp)) ?_
    intro p hp
    simp only [List.mem_cons, List.not_mem_nil, or_false] at hp
    rcases hp with rfl | rfl
    · exact h2 p (by simp)
    · exact hz

/-- The code is wrong on every collinear input of two points or more: it returns the smallest point
only. -/
theorem convexHull_collinear {points : List (Vec F 2)} (h2 : 2 ≤ points.length)
    (hc : AllCollinear points) :
    ∃ a ∈ points, (∀ p ∈ points, key a ≤ key p) ∧ convexHull points = [a] := by
  match points, h2 with
  | x :: y :: rest, _ =>
    have hE := ends x y rest
    obtain ⟨L, hL⟩ := sorted_head hE
    refine ⟨_, hE.ha, hE.low, ?_⟩
    rw [convexHull_stack rfl rfl hL]
    generalize minPoint x (y :: rest) = a at *
    generalize maxPoint x (y :: rest) = b at *
    generalize hU : sortPointsDown ((x :: y :: rest).filter
      fun p => !!decide (orientationLine p (Line.through a b .free) = .right)) = U
    have hUm : ∀ p ∈ U, p ∈ x :: y :: rest := by
      intro p hp
      rw [← hU, (sortPointsDown_perm _).mem_iff] at hp
      exact (List.mem_filter.1 hp).1
    have hLm : ∀ p ∈ L, p ∈ x :: y :: rest := by
      intro p hp
      have : p ∈ a :: L := List.mem_cons_of_mem _ hp
      rw [← hL, (sortPoints_perm _).mem_iff] at this
      exact (List.mem_filter.1 this).1
    have hm := foldl_push_collinear hc (L ++ U) [a] a (by simp) (by
      intro p hp
      rcases List.mem_append.1 hp with hp | hp
      · exact hLm p hp
      · exact hUm p hp) (by
      intro p hp
      rw [List.mem_singleton.1 hp]; exact hE.ha)
    have hl := getLast?_foldl_push (L ++ U) [a] (by simp)
    rw [popStack_collinear a _ a (by rw [hl]; rfl) (fun t ht s hs => by
      exact (hc s (hm s hs) t (hm t ht) a hE.ha).le)]
    rfl

/-- **Counterexample for every collinear set**: with two different points on one line, some input
point is not in the result: no point of it lies beyond, and the result is a single point. -/
theorem convexHull_collinear_fails {points : List (Vec F 2)} (hc : AllCollinear points)
    {p q : Vec F 2} (hp : p ∈ points) (hq : q ∈ points) (hpq : p ≠ q) :
    ∃ a ∈ points, convexHull points = [a] ∧ (p ≠ a ∨ q ≠ a) := by
  have h2 : 2 ≤ points.length := by
    have hs : [p, q].Subperm points := List.subperm_of_subset (by simp [hpq]) (by
      intro z hz
      simp only [List.mem_cons, List.not_mem_nil, or_false] at hz
      rcases hz with rfl | rfl <;> assumption)
    exact hs.length_le
  obtain ⟨a, ha, -, e⟩ := convexHull_collinear h2 hc
  refine ⟨a, ha, e, ?_⟩
  by_contra h
  push Not at h
  exact hpq (h.1.trans h.2.symm)

/-! ## The general case -/

/-- The turn at the maximum, strict for the other reason. -/
theorem turn_at_max' {a b s p : Vec F 2} (hab : key a < key b) (hsb : key s ≤ key b)
    (hpb : key p < key b) (hs : det3 a b s < 0) (hp : 0 ≤ det3 a b p) : 0 < det3 s b p := by
  rw [key_lt_iff] at hab hpb
  rw [key_le_iff] at hsb
  have h1 : 0 ≤ area (b - p) (b - a) := by
    have : det3 a b p = area (b - p) (b - a) := by simp [det3, area]; ring
    rwa [this] at hp
  have h2 : 0 < area (b - a) (b - s) := by
    have : area (b - a) (b - s) = -det3 a b s := by simp [det3, area]; ring
    rw [this]; linarith
  have := area_trans_left hpb hab hsb h1 h2
  have e : det3 s b p = area (b - p) (b - s) := by simp [det3, area]; ring
  rwa [e]

/-- A chain of two different ends has no repeated neighbours. -/
theorem Chain.step_lt {base : Vec F 2} {st done} (h : Chain base st done)
    (hne : ∀ t Y, st = t :: Y → t ≠ base) {X t s Y} (e : st = X ++ t :: s :: Y) :
    key s < key t := by
  have hs := h.sorted
  rw [e] at hs
  have hle : key s ≤ key t :=
    (List.pairwise_cons.1 (List.pairwise_append.1 hs).2.1).1 s (by simp)
  refine hle.lt_of_ne fun he => ?_
  have he := key_inj.1 he
  subst he
  cases X with
  | cons x X =>
    have := h.convex (x :: X) s s Y e x (by simp)
    simp at this
  | nil =>
    cases Y with
    | nil =>
      have hb := h.bottom
      rw [e] at hb
      have : s = base := by simpa using hb
      exact hne s [s] e this
    | cons r Y =>
      have := h.convex [s] s r Y e s (by simp)
      simp at this

/-- Strictly decreasing towards the bottom. -/
theorem Chain.lt_below {base : Vec F 2} {st done} (h : Chain base st done)
    (hne : ∀ t Y, st = t :: Y → t ≠ base) {X t Y} (e : st = X ++ t :: Y) {p : Vec F 2}
    (hp : p ∈ Y) : key p < key t := by
  cases Y with
  | nil => simp at hp
  | cons s Y =>
    have hst := h.step_lt hne e
    rcases List.mem_cons.1 hp with rfl | hp
    · exact hst
    · have hs := h.sorted
      rw [e] at hs
      have h1 := (List.pairwise_append.1 hs).2.1
      exact lt_of_le_of_lt ((List.pairwise_cons.1 (List.pairwise_cons.1 h1).2).1 p hp) hst

/-- The points below an edge are strictly on its left too. -/
theorem Chain.strict_below {base : Vec F 2} {st done} (h : Chain base st done)
    (hne : ∀ t Y, st = t :: Y → t ≠ base) {X t s Y} (e : st = X ++ t :: s :: Y) {p : Vec F 2}
    (hp : p ∈ Y) : 0 < det3 s t p := by
  cases Y with
  | nil => simp at hp
  | cons r Y =>
    have e' : st = (X ++ [t]) ++ s :: r :: Y := by rw [e]; simp
    refine behind_strict (h.step_lt hne e').le (h.lt_below hne e' hp) (h.step_lt hne e).le
      (h.cover _ s r Y e' p (h.sub p ?_)) (h.convex _ s r Y e' t (by simp))
    rw [e]
    simp only [List.mem_append, List.mem_cons]
    exact .inr (.inr (.inr (List.mem_cons.1 hp)))

/-- The strict form of `between_left`. -/
theorem between_strict {a b s t p : Vec F 2} (hab : key a < key b) (hst : key s < key t)
    (hap : key a ≤ key p) (hpb : key p ≤ key b) (ha : 0 ≤ det3 s t a) (hb : 0 ≤ det3 s t b)
    (hp : 0 < det3 a b p) : 0 < det3 s t p := by
  rw [key_le_iff] at hap hpb
  rw [key_lt_iff] at hab hst
  rcases le_total 0 (area (t - s) (b - a)) with h | h
  · have := area_trans_left hst hab hap h hp
    have e : det3 s t p = area (t - s) (p - a) + det3 s t a := by simp [det3, area]; ring
    rw [e]; linarith
  · have h1 : 0 ≤ area (b - a) (t - s) := by
      have : area (b - a) (t - s) = -area (t - s) (b - a) := by simp [area]; ring
      rw [this]; linarith
    have h2 : 0 < area (b - p) (b - a) := by
      have : det3 a b p = area (b - p) (b - a) := by simp [det3, area]; ring
      rwa [this] at hp
    have := area_trans_right hpb hab hst h2 h1
    have e : det3 s t p = area (b - p) (t - s) + det3 s t b := by simp [det3, area]; ring
    rw [e]; linarith

omit [Field F] [LinearOrder F] [IsStrictOrderedRing F] in
/-- The first edge of a rotation is an edge of the list or the closing one. -/
theorem rotated_edge {h : List (Vec F 2)} {c d : Vec F 2} {rest : List (Vec F 2)}
    (hr : h ~r (c :: d :: rest)) :
    (∃ P Q, h = P ++ c :: d :: Q ∧ rest = Q ++ P) ∨ h = d :: (rest ++ [c]) := by
  obtain ⟨n, hn, e⟩ := List.isRotated_iff_mod.1 hr
  rw [List.rotate_eq_drop_append_take hn] at e
  have eh : h = h.take n ++ h.drop n := (List.take_append_drop n h).symm
  generalize h.take n = P at e eh
  generalize h.drop n = Q at e eh
  subst eh
  match Q, e with
  | [], e =>
    left
    simp only [List.nil_append] at e
    exact ⟨[], rest, by simp [e], by simp⟩
  | [q], e =>
    right
    simp only [List.cons_append, List.nil_append, List.cons.injEq] at e
    obtain ⟨rfl, rfl⟩ := e
    rfl
  | q :: q' :: Q, e =>
    left
    simp only [List.cons_append, List.cons.injEq] at e
    obtain ⟨rfl, rfl, rfl⟩ := e
    exact ⟨P, Q, rfl, rfl⟩

omit [Field F] [LinearOrder F] [IsStrictOrderedRing F] in
/-- An edge of two lists joined at `b` is an edge of one of them. -/
theorem edge_join {b d c : Vec F 2} {R : List (Vec F 2)} : ∀ (X Q P : List (Vec F 2)),
    X ++ b :: R = Q ++ d :: c :: P →
    (∃ W, X ++ [b] = Q ++ d :: c :: W ∧ P = W ++ R) ∨
      (∃ Q', b :: R = Q' ++ d :: c :: P ∧ Q = X ++ Q')
  | [], Q, P, e => .inr ⟨Q, e, rfl⟩
  | x :: X, [], P, e => by
    left
    obtain ⟨rfl, e'⟩ := List.cons.inj e
    cases X with
    | nil =>
      obtain ⟨rfl, rfl⟩ := List.cons.inj e'
      exact ⟨[], rfl, rfl⟩
    | cons y X =>
      obtain ⟨rfl, rfl⟩ := List.cons.inj e'
      exact ⟨X ++ [b], rfl, by simp⟩
  | x :: X, q :: Q, P, e => by
    obtain ⟨rfl, e'⟩ := List.cons.inj e
    rcases edge_join X Q P e' with ⟨W, h1, h2⟩ | ⟨Q', h1, h2⟩
    · exact .inl ⟨W, by rw [List.cons_append, h1]; rfl, h2⟩
    · exact .inr ⟨Q', h1, by rw [h2]; rfl⟩

/-- What is known of the two chains; `G` is the returned hull, last vertex first. -/
theorem hull_of_chains {a b : Vec F 2} {R X L U : List (Vec F 2)} (hab : key a < key b)
    (hC1 : Chain a (b :: R) L) (hC2 : Chain (-b) ((a :: X ++ [b]).map Neg.neg)
      ((a :: (U ++ [b])).map Neg.neg))
    (hL : ∀ p ∈ L, det3 a b p ≤ 0) (hU : ∀ p ∈ U, 0 < det3 a b p) (hX : ∀ p ∈ X, p ∈ U)
    (hLb : ∀ p ∈ L, key p ≤ key b) (hUb : ∀ p ∈ U, key a ≤ key p ∧ key p ≤ key b)
    (hne : X = [] → ∃ s r R', R = s :: r :: R') :
    StrictlyConvex (X ++ b :: R).reverse ∧ TurnsLeft (X ++ b :: R).reverse ∧
      ∀ p, p ∈ L ∨ p ∈ U → InPolygon p (X ++ b :: R).reverse := by
  have hne1 : ∀ t Y, b :: R = t :: Y → t ≠ a := by
    intro t Y e
    obtain ⟨rfl, -⟩ := List.cons.inj e
    rintro rfl; exact lt_irrefl _ hab
  have hstep := fun {X t s Y} (e : b :: R = X ++ t :: s :: Y) => hC1.step_lt hne1 e
  have haL : a ∈ L := hC1.sub a (List.mem_of_getLast? hC1.bottom)
  have hbL : b ∈ L := hC1.sub b (by simp)
  -- the lower chain ends with `s1, a`
  obtain ⟨Y, s1, eR⟩ : ∃ Y s1, b :: R = Y ++ [s1, a] := by
    have hb := hC1.bottom
    obtain ⟨Z, eZ⟩ := List.getLast?_eq_some_iff.1 hb
    rcases List.eq_nil_or_concat Z with h | ⟨Y, s1, h⟩
    · rw [h] at eZ
      obtain ⟨rfl, -⟩ := List.cons.inj eZ
      exact absurd hab (lt_irrefl _)
    · exact ⟨Y, s1, by rw [eZ, h]; simp⟩
  have hs1 : s1 ∈ L := hC1.sub s1 (by rw [eR]; simp)
  have has1 : key a < key s1 := hstep eR
  -- facts of the upper chain on the points themselves
  have up_convex : ∀ Z t s W, a :: X ++ [b] = Z ++ t :: s :: W → ∀ p ∈ Z, 0 < det3 s t p := by
    intro Z t s W e p hp
    have := hC2.convex (Z.map Neg.neg) (-t) (-s) (W.map Neg.neg) (by rw [e]; simp) (-p)
      (List.mem_map_of_mem hp)
    rwa [det3_neg] at this
  have up_cover : ∀ Z t s W, a :: X ++ [b] = Z ++ t :: s :: W → ∀ p, p = a ∨ p ∈ U ∨ p = b →
      0 ≤ det3 s t p := by
    intro Z t s W e p hp
    have := hC2.cover (Z.map Neg.neg) (-t) (-s) (W.map Neg.neg) (by rw [e]; simp) (-p)
      (List.mem_map_of_mem (by
        rcases hp with rfl | hp | rfl
        · simp
        · simp [hp]
        · simp))
    rwa [det3_neg] at this
  have up_sorted : ∀ Z t s W, a :: X ++ [b] = Z ++ t :: s :: W → key t ≤ key s := by
    intro Z t s W e
    have hs := hC2.sorted
    rw [e] at hs
    simp only [List.map_append, List.map_cons] at hs
    have := (List.pairwise_cons.1 (List.pairwise_append.1 hs).2.1).1 (-s) (by simp)
    exact key_neg_le.1 this
  -- the turn at `b`
  have turn_b : ∀ x l', a :: X = l' ++ [x] → ∀ s R', R = s :: R' → 0 < det3 s b x := by
    intro x l' ex s R' es
    have hsb : key s < key b := hstep (X := []) (by rw [es]; rfl)
    have hsL : s ∈ L := hC1.sub s (by rw [es]; simp)
    cases X with
    | nil =>
      have : x = a := by
        cases l' with
        | nil => exact (List.cons.inj ex).1.symm
        | cons w l' =>
          have := (List.cons.inj ex).2
          simp at this
      subst this
      obtain ⟨s', r, R'', e'⟩ := hne rfl
      have e3 := es.symm.trans e'
      obtain ⟨rfl, rfl⟩ := List.cons.inj e3
      subst es
      have hrs : key r < key s := hstep (X := [b]) rfl
      refine behind_strict hrs.le (lt_of_le_of_lt (hC1.low r (hC1.sub r (by simp))) hrs) hsb.le
        (hC1.cover [b] s r R'' rfl x haL) (hC1.convex [b] s r R'' rfl b (by simp))
    | cons w X =>
      have hx : x ∈ U := by
        apply hX
        cases l' with
        | nil => simp at ex
        | cons v l' =>
          have := (List.cons.inj ex).2
          rw [this]; simp
      exact turn_at_max hab hsb (hUb x hx).2 (hL s hsL) (hU x hx)
  -- the turn at `a`
  have turn_a : ∀ w W, X ++ b :: R = w :: W → 0 < det3 w a s1 := by
    intro w W ew
    cases X with
    | nil =>
      obtain ⟨rfl, rfl⟩ := List.cons.inj ew
      obtain ⟨s', r, R'', e'⟩ := hne rfl
      subst e'
      cases Y with
      | nil => simp at eR
      | cons y Y =>
        have : y = b := (List.cons.inj eR).1.symm
        subst this
        rw [det3_rot]
        exact hC1.convex (y :: Y) s1 a [] eR y (by simp)
    | cons x X =>
      obtain ⟨rfl, -⟩ := List.cons.inj ew
      have hw := hX x (by simp)
      have := turn_at_max' (a := -b) (b := -a) (s := -x) (p := -s1) (key_neg_lt.2 hab)
        (key_neg_le.2 (hUb x hw).1) (key_neg_lt.2 has1)
        (by rw [det3_neg, det3_swap]; linarith [hU x hw])
        (by rw [det3_neg, det3_swap]; linarith [hL s1 hs1])
      rwa [det3_neg] at this
  -- all turns
  have turns : Trip (fun x y z => 0 < det3 z y x) (s1 :: a :: X ++ b :: R) := by
    have t1 : Trip (fun x y z => 0 < det3 z y x) (b :: R) := by
      intro Z x y z W e
      exact hC1.convex (Z ++ [x]) y z W (by rw [e]; simp) x (by simp)
    have t2 : Trip (fun x y z => 0 < det3 z y x) (a :: X ++ [b]) := by
      intro Z x y z W e
      exact up_convex (Z ++ [x]) y z W (by rw [e]; simp) x (by simp)
    refine Trip.cons (Trip.join t1 (a :: X) t2 turn_b) ?_
    intro y z W e
    obtain ⟨rfl, e'⟩ := List.cons.inj e
    exact turn_a z W e'
  -- all edges
  have edges : ∀ p, p ∈ L ∨ p ∈ U → Pair (fun x y => 0 ≤ det3 y x p) (a :: X ++ b :: R) := by
    intro p hp
    have e1 : Pair (fun x y => 0 ≤ det3 y x p) (b :: R) := by
      intro Z x y W e
      rcases hp with hp | hp
      · exact hC1.cover Z x y W e p hp
      · exact between_left hab (hstep e).le (hUb p hp).1 (hUb p hp).2 (hC1.cover Z x y W e a haL)
          (hC1.cover Z x y W e b hbL) (hU p hp).le
    have e2 : Pair (fun x y => 0 ≤ det3 y x p) (a :: X ++ [b]) := by
      intro Z x y W e
      rcases hp with hp | hp
      · have := between_left (a := -b) (b := -a) (s := -y) (t := -x) (p := -p)
          (key_neg_lt.2 hab) (key_neg_le.2 (up_sorted Z x y W e)) (key_neg_le.2 (hLb p hp))
          (key_neg_le.2 (hC1.low p hp))
          (by rw [det3_neg]; exact up_cover Z x y W e b (.inr (.inr rfl)))
          (by rw [det3_neg]; exact up_cover Z x y W e a (.inl rfl))
          (by rw [det3_neg, det3_swap]; linarith [hL p hp])
        rwa [det3_neg] at this
      · exact up_cover Z x y W e p (.inr (.inl hp))
    exact Pair.join e1 (a :: X) e2
  -- the hull starts with `a, s1`
  have hH : (X ++ b :: R).reverse = a :: s1 :: (Y.reverse ++ X.reverse) := by
    rw [eR]; simp
  have take2 : (X ++ b :: R).reverse ++ (X ++ b :: R).reverse.take 2 =
      (s1 :: a :: X ++ b :: R).reverse := by
    rw [show (X ++ b :: R).reverse.take 2 = [a, s1] by rw [hH]; rfl]; simp
  have take1 : (X ++ b :: R).reverse ++ (X ++ b :: R).reverse.take 1 =
      (a :: X ++ b :: R).reverse := by
    rw [show (X ++ b :: R).reverse.take 1 = [a] by rw [hH]; rfl]; simp
  -- the points strictly inside the lower chain are strictly below the chord
  have hYX : ∀ p ∈ R, p ≠ a → det3 a b p < 0 := by
    intro p hp hpa
    obtain ⟨A, B, e⟩ := List.append_of_mem hp
    cases B with
    | nil =>
      have hb := hC1.bottom
      rw [e] at hb
      have : p = a := by
        rw [show b :: (A ++ [p]) = (b :: A) ++ [p] from rfl, List.getLast?_append] at hb
        simpa using hb
      exact absurd this hpa
    | cons r B =>
      have e' : b :: R = (b :: A) ++ p :: r :: B := by rw [e]; rfl
      have hpL : p ∈ L := hC1.sub p (List.mem_cons_of_mem _ hp)
      have h1 : key a < key p := (hC1.low p hpL).lt_of_ne fun h => hpa (key_inj.1 h).symm
      have e3 : det3 a b p = -det3 p b a := by simp [det3, area]; ring
      have e4 : 0 < det3 p b a :=
        behind_strict (hstep e').le h1 (hLb p hpL) (hC1.cover _ p r B e' a haL)
          (hC1.convex _ p r B e' b (by simp))
      rw [e3]; linarith
  have hne2 : ∀ t Y, (a :: X ++ [b]).map Neg.neg = t :: Y → t ≠ -b := by
    intro t Y e
    obtain ⟨rfl, -⟩ := List.cons.inj e
    intro h
    have := neg_injective h
    subst this; exact lt_irrefl _ hab
  have up_step : ∀ Z t s W, a :: X ++ [b] = Z ++ t :: s :: W → key t < key s := by
    intro Z t s W e
    exact key_neg_lt.1 (hC2.step_lt hne2 (X := Z.map Neg.neg) (Y := W.map Neg.neg)
      (by rw [e]; simp))
  -- lower edges
  have low_strict : ∀ Z t s W, b :: R = Z ++ t :: s :: W → ∀ p, p ∈ Z ∨ p ∈ W ∨ p ∈ X →
      0 < det3 s t p := by
    intro Z t s W e p hp
    rcases hp with hp | hp | hp
    · exact hC1.convex Z t s W e p hp
    · exact hC1.strict_below hne1 e hp
    · have hu := hX p hp
      exact between_strict hab (hstep e) (hUb p hu).1 (hUb p hu).2 (hC1.cover Z t s W e a haL)
        (hC1.cover Z t s W e b hbL) (hU p hu)
  -- upper edges
  have up_strict : ∀ Z t s W, a :: X ++ [b] = Z ++ t :: s :: W → ∀ p,
      p ∈ Z ∨ p ∈ W ∨ (p ∈ R ∧ p ≠ a) → 0 < det3 s t p := by
    intro Z t s W e p hp
    rcases hp with hp | hp | ⟨hp, hpa⟩
    · exact up_convex Z t s W e p hp
    · have := hC2.strict_below hne2 (X := Z.map Neg.neg) (t := -t) (s := -s) (Y := W.map Neg.neg)
        (by rw [e]; simp) (List.mem_map_of_mem hp)
      rwa [det3_neg] at this
    · have hpL : p ∈ L := hC1.sub p (List.mem_cons_of_mem _ hp)
      have := between_strict (a := -b) (b := -a) (s := -s) (t := -t) (p := -p)
        (key_neg_lt.2 hab) (key_neg_lt.2 (up_step Z t s W e)) (key_neg_le.2 (hLb p hpL))
        (key_neg_le.2 (hC1.low p hpL))
        (by rw [det3_neg]; exact up_cover Z t s W e b (.inr (.inr rfl)))
        (by rw [det3_neg]; exact up_cover Z t s W e a (.inl rfl))
        (by rw [det3_neg, det3_swap]; linarith [hYX p hp hpa])
      rwa [det3_neg] at this
  -- every edge
  have hconv : ∀ c d rest, (X ++ b :: R).reverse ~r (c :: d :: rest) →
      ∀ p ∈ rest, StrictLeft c d p := by
    intro c d rest hr p hp
    rw [strictLeft_iff]
    rcases rotated_edge hr with ⟨P, Q, e, rfl⟩ | e
    · have e' : X ++ b :: R = Q.reverse ++ d :: c :: P.reverse := by
        have := congrArg List.reverse e
        simpa using this
      have hp' : p ∈ Q.reverse ∨ p ∈ P.reverse := by simpa using hp
      rcases edge_join X _ _ e' with ⟨W, h1, h2⟩ | ⟨Q', h1, h2⟩
      · have h1' : a :: X ++ [b] = (a :: Q.reverse) ++ d :: c :: W := by
          rw [List.cons_append, h1]; rfl
        apply up_strict _ d c W h1'
        rcases hp' with hp' | hp'
        · exact .inl (List.mem_cons_of_mem _ hp')
        · rw [h2] at hp'
          rcases List.mem_append.1 hp' with hp' | hp'
          · exact .inr (.inl hp')
          · by_cases hpa : p = a
            · exact .inl (by simp [hpa])
            · exact .inr (.inr ⟨hp', hpa⟩)
      · apply low_strict Q' d c _ h1
        rw [h2] at hp'
        rcases hp' with hp' | hp'
        · rcases List.mem_append.1 hp' with hp' | hp'
          · exact .inr (.inr hp')
          · exact .inl hp'
        · exact .inr (.inl hp')
    · rw [hH] at e
      have hda : d = a := (List.cons.inj e).1.symm
      subst hda
      have e' : X ++ b :: R = c :: (rest.reverse ++ [d]) := by
        have := congrArg List.reverse (hH.trans e)
        simpa using this
      cases X with
      | nil =>
        obtain ⟨rfl, rfl⟩ := List.cons.inj e'
        refine up_strict [] d b [] rfl p (.inr (.inr ⟨by simp [hp], ?_⟩))
        rintro rfl
        -- the base is not repeated
        obtain ⟨A, B, eA⟩ := List.append_of_mem (List.mem_reverse.2 hp)
        have := hC1.lt_below hne1 (X := b :: A) (t := p) (Y := B ++ [p])
          (by rw [eA]; simp) (p := p) (by simp)
        exact lt_irrefl _ this
      | cons x X =>
        obtain ⟨rfl, e''⟩ := List.cons.inj e'
        have hpm : p ∈ X ++ [b] ∨ (p ∈ R ∧ p ≠ d) := by
          have hR' : ∃ R', R = R' ++ [d] := by
            obtain ⟨Z, eZ⟩ := List.getLast?_eq_some_iff.1 hC1.bottom
            cases Z with
            | nil =>
              obtain ⟨rfl, -⟩ := List.cons.inj eZ
              exact absurd hab (lt_irrefl _)
            | cons z Z => exact ⟨Z, (List.cons.inj eZ).2⟩
          obtain ⟨R', rfl⟩ := hR'
          have : X ++ b :: R' = rest.reverse := by
            have : (X ++ b :: R') ++ [d] = rest.reverse ++ [d] := by rw [← e'']; simp
            exact List.append_cancel_right this
          have hp' : p ∈ X ++ b :: R' := by rw [this]; simpa using hp
          rcases List.mem_append.1 hp' with h | h
          · exact .inl (List.mem_append_left _ h)
          · rcases List.mem_cons.1 h with rfl | h
            · exact .inl (by simp)
            · refine .inr ⟨List.mem_append_left _ h, ?_⟩
              rintro rfl
              obtain ⟨A, B, eA⟩ := List.append_of_mem h
              have := hC1.lt_below hne1 (X := b :: A) (t := p) (Y := B ++ [p])
                (by rw [eA]; simp) (p := p) (by simp)
              exact lt_irrefl _ this
        exact up_strict [] d x (X ++ [b]) rfl p (.inr hpm)
  refine ⟨⟨?_, hconv⟩, ?_, ?_⟩
  · have hR : 1 ≤ R.length := by
      have := congrArg List.length eR
      simp at this; omega
    cases X with
    | nil =>
      obtain ⟨s, r, R', rfl⟩ := hne rfl
      simp
    | cons x X => simp; omega
  · rw [TurnsLeft, take2, leftTurns_iff]
    intro Z x y z W e
    rw [strictLeft_iff]
    apply turns W.reverse z y x Z.reverse
    have := congrArg List.reverse e
    simpa using this
  · intro p hp
    rw [InPolygon, take1, leftOfChain_iff]
    intro Z x y W e
    rw [leftOrOn_iff]
    apply edges p hp W.reverse y x Z.reverse
    have := congrArg List.reverse e
    simpa using this

/-- A point of a triangle is in the convex hull of its vertices. -/
theorem inHull_triangle {h : List (Vec F 2)} {a b c p : Vec F 2} (ha : a ∈ h) (hb : b ∈ h)
    (hc : c ∈ h) (h0 : 0 < det3 a b c) (h1 : 0 ≤ det3 a b p) (h2 : 0 ≤ det3 b c p)
    (h3 : 0 ≤ det3 c a p) : InHull h p := by
  have hsum : det3 a b p + det3 b c p + det3 c a p = det3 a b c := by
    simp [det3, area]; ring
  rcases (add_nonneg h1 h3).lt_or_eq with hpos | hz
  · -- the point `q` of the side `b c` on the line from `a` through `p`
    have hq : InHull h fun i => b i + det3 a b p / (det3 a b p + det3 c a p) * (c i - b i) :=
      .segment (.vertex hb) (.vertex hc) (div_nonneg h1 hpos.le)
        ((div_le_one hpos).2 (by linarith))
    have := InHull.segment (t := (det3 a b p + det3 c a p) / det3 a b c) (.vertex ha) hq
      (div_nonneg hpos.le h0.le) ((div_le_one h0).2 (by linarith))
    have e : p = fun i => a i + (det3 a b p + det3 c a p) / det3 a b c *
        (b i + det3 a b p / (det3 a b p + det3 c a p) * (c i - b i) - a i) := by
      have hd : det3 a b c ≠ 0 := h0.ne'
      have hd' : det3 a b p + det3 c a p ≠ 0 := hpos.ne'
      apply vec2_ext
      · show p 0 = _
        field_simp
        simp only [det3, area, Pi.sub_apply]
        ring
      · show p 1 = _
        field_simp
        simp only [det3, area, Pi.sub_apply]
        ring
    rw [e]; exact this
  · have k1 : det3 a b p = 0 := by linarith
    have k2 : det3 c a p = 0 := by linarith
    have : p = a := by
      have hd : det3 a b c ≠ 0 := h0.ne'
      simp only [det3, area, Pi.sub_apply] at k1 k2 hd
      have e0 : (p 0 - a 0) = 0 := by
        have : (p 0 - a 0) * ((b 0 - a 0) * (c 1 - a 1) - (b 1 - a 1) * (c 0 - a 0)) = 0 := by
          linear_combination (c 0 - a 0) * k1 + (b 0 - a 0) * k2
        exact (mul_eq_zero.1 this).resolve_right hd
      have e1 : (p 1 - a 1) = 0 := by
        have : (p 1 - a 1) * ((b 0 - a 0) * (c 1 - a 1) - (b 1 - a 1) * (c 0 - a 0)) = 0 := by
          linear_combination (c 1 - a 1) * k1 + (b 1 - a 1) * k2
        exact (mul_eq_zero.1 this).resolve_right hd
      exact vec2_ext (sub_eq_zero.1 e0) (sub_eq_zero.1 e1)
    rw [this]; exact .vertex ha

/-- The fan of triangles at the first vertex. -/
theorem inHull_fan {h : List (Vec F 2)} {o p : Vec F 2} (ho : o ∈ h) :
    ∀ (l : List (Vec F 2)) (a b : Vec F 2), (∀ q ∈ a :: b :: l, q ∈ h) →
      Pair (fun c d => 0 < det3 c d o) (a :: b :: l) → 0 ≤ det3 o a p →
      LeftOfChain p (a :: b :: l ++ [o]) → InHull h p
  | l, a, b, hm, hs, h0, hl => by
    have hl' := (leftOfChain_iff p _).1 hl
    have hab : 0 ≤ det3 a b p := hl' [] a b (l ++ [o]) rfl
    have tri : 0 ≤ det3 b o p → InHull h p := fun hb =>
      inHull_triangle ho (hm a (by simp)) (hm b (by simp))
        (by rw [det3_rot]; exact hs [] a b l rfl) h0 hab hb
    rcases le_total 0 (det3 b o p) with hb | hb
    · exact tri hb
    · match l, hm, hs, hl' with
      | [], _, _, hl' => exact tri (hl' [a] b o [] rfl)
      | c :: l, hm, hs, hl' =>
        refine inHull_fan ho l b c (fun q hq => hm q (List.mem_cons_of_mem _ hq)) ?_
          (by rw [det3_swap]; linarith) ((leftOfChain_iff p _).2 ?_)
        · intro X x y Y e; exact hs (a :: X) x y Y (by rw [e]; rfl)
        · intro X x y Y e
          exact hl' (a :: X) x y Y (by
            have : a :: (b :: c :: l ++ [o]) = a :: (X ++ x :: y :: Y) := by rw [e]
            simpa using this)

/-- A point on the left of all edges of a strictly convex polygon is in the convex hull of the
vertices: `InPolygon` says what it should. -/
theorem inHull_of_inPolygon {h : List (Vec F 2)} {p : Vec F 2} (hc : StrictlyConvex h)
    (hp : InPolygon p h) : InHull h p := by
  match h, hc, hp with
  | o :: a :: b :: l, hc, hp =>
    have hp' : LeftOfChain p (o :: a :: b :: l ++ [o]) := by simpa [InPolygon] using hp
    have hl := (leftOfChain_iff p _).1 hp'
    refine inHull_fan (by simp) l a b (fun q hq => List.mem_cons_of_mem _ hq) ?_
      (hl [] o a (b :: l ++ [o]) rfl) ((leftOfChain_iff p _).2 fun X x y Y e => ?_)
    · intro X x y Y e
      refine hc.2 x y (Y ++ o :: X) ?_ o (by simp)
      rw [e]
      have : (o :: X) ++ (x :: y :: Y) ~r (x :: y :: Y) ++ (o :: X) := List.isRotated_append
      simpa using this
    · exact hl (o :: X) x y Y (by
        have : o :: (a :: b :: l ++ [o]) = o :: (X ++ x :: y :: Y) := by rw [e]
        simpa using this)
  | [], hc, _ => exact absurd hc.1 (by simp)
  | [_], hc, _ => exact absurd hc.1 (by simp)
  | [_, _], hc, _ => exact absurd hc.1 (by simp)

/-- The two sides of the chord, and the chains the algorithm builds on them. -/
theorem convexHull_convex {points : List (Vec F 2)} (hnc : ¬ AllCollinear points) :
    (∀ p ∈ convexHull points, p ∈ points) ∧ StrictlyConvex (convexHull points) ∧
      TurnsLeft (convexHull points) ∧ ∀ p ∈ points, InPolygon p (convexHull points) := by
  match points with
  | [] => exact absurd (by intro a ha; simp at ha) hnc
  | [x] =>
    exact absurd (by
      intro a ha b hb c hc
      rw [List.mem_singleton.1 ha, List.mem_singleton.1 hb, List.mem_singleton.1 hc]; ring) hnc
  | x :: y :: rest =>
    have hE := ends x y rest
    obtain ⟨L', hL'⟩ := sorted_head hE
    rw [convexHull_stack rfl rfl hL']
    generalize minPoint x (y :: rest) = a at *
    generalize maxPoint x (y :: rest) = b at *
    generalize x :: y :: rest = points at *
    generalize hU' : sortPointsDown (points.filter
      fun p => !!decide (orientationLine p (Line.through a b .free) = .right)) = U
    have hUm : ∀ p, p ∈ U ↔ p ∈ points ∧ 0 < det3 a b p := by
      intro p
      rw [← hU', (sortPointsDown_perm _).mem_iff, List.mem_filter, comp_false]
    have hLm : ∀ p, p ∈ a :: L' ↔ p ∈ points ∧ det3 a b p ≤ 0 := by
      intro p
      rw [← hL', (sortPoints_perm _).mem_iff, List.mem_filter, comp_iff]
    have hUs : U.Pairwise fun p q => key q ≤ key p := hU' ▸ sortPointsDown_sorted _
    have hLs : (a :: L').Pairwise fun p q => key p ≤ key q := hL' ▸ sortPoints_sorted _
    -- the ends differ
    have hab : key a < key b := by
      refine (hE.low b hE.hb).lt_of_ne fun e => hnc ?_
      have e := key_inj.1 e
      subst e
      have : ∀ p ∈ points, p = a := fun p hp =>
        key_inj.1 (le_antisymm (hE.high p hp) (hE.low p hp))
      intro u hu v hv w hw
      rw [this u hu, this v hv, this w hw]; ring
    -- some point is off the chord
    have hoff : ∃ p ∈ points, det3 a b p ≠ 0 := by
      by_contra h
      push Not at h
      apply hnc
      intro u hu v hv w hw
      have h1 := h u hu
      have h2 := h v hv
      have h3 := h w hw
      have hne : b - a ≠ 0 := by
        intro e
        rw [sub_eq_zero] at e
        rw [e] at hab; exact lt_irrefl _ hab
      show area (v - u) (w - u) = 0
      have k1 : area (b - a) (v - u) = 0 := by
        have : area (b - a) (v - u) = det3 a b v - det3 a b u := by simp [det3, area]; ring
        rw [this, h2, h1, sub_zero]
      have k2 : area (b - a) (w - u) = 0 := by
        have : area (b - a) (w - u) = det3 a b w - det3 a b u := by simp [det3, area]; ring
        rw [this, h3, h1, sub_zero]
      have k3 : area (v - u) (w - u) • (b - a) = 0 := by
        have : area (v - u) (w - u) • (b - a) =
            area (b - a) (w - u) • (v - u) - area (b - a) (v - u) • (w - u) := by
          apply vec2_ext <;> simp [area] <;> ring
        rw [this, k1, k2]; simp
      exact (smul_vec_eq_zero.1 k3).resolve_right hne
    -- the lower chain
    have hC := Chain.run L' (chain_single a) (by
      intro p hp q hq
      rw [List.mem_singleton.1 hp]
      exact (List.pairwise_cons.1 hLs).1 q hq) (List.pairwise_cons.1 hLs).2
    have hLm' : ∀ p, p ∈ L'.reverse ++ [a] ↔ p ∈ points ∧ det3 a b p ≤ 0 := by
      intro p
      rw [← hLm]; simp [or_comm]
    have hbL : b ∈ L'.reverse ++ [a] := (hLm' b).2 ⟨hE.hb, by simp⟩
    obtain ⟨R, hR⟩ : ∃ R, L'.foldl push [a] = b :: R := by
      cases hst : L'.foldl push [a] with
      | nil => exact absurd hst hC.ne_nil
      | cons t R =>
        refine ⟨R, ?_⟩
        have h1 := hC.high t R hst b hbL
        have h2 := hE.high t ((hLm' t).1 (hC.sub t (by rw [hst]; simp))).1
        rw [key_inj.1 (le_antisymm h1 h2)]
    rw [hR] at hC
    have hne1 : ∀ t Y, b :: R = t :: Y → t ≠ a := by
      intro t Y e
      obtain ⟨rfl, -⟩ := List.cons.inj e
      rintro rfl; exact lt_irrefl _ hab
    -- the upper points never pop `b`
    have hturn : ∀ p ∈ U, ∀ s R', R = s :: R' → 0 < det3 s b p := by
      intro p hp s R' es
      have hsb : key s < key b := hC.step_lt (X := []) hne1 (by rw [es]; rfl)
      exact turn_at_max hab hsb (hE.high p ((hUm p).1 hp).1)
        ((hLm' s).1 (hC.sub s (by rw [es]; simp))).2 ((hUm p).1 hp).2
    obtain ⟨X, f1, f2, f3⟩ := foldl_push_below b R U [] hturn
    simp only [List.nil_append] at f1 f2
    -- the upper chain, on the opposite points, with `a` at its end
    have hC2 : Chain (-b) ((push (X ++ [b]) a).map Neg.neg) ((a :: (U.reverse ++ [b])).map Neg.neg) := by
      have c1 := Chain.run (base := -b) (U.map Neg.neg) (chain_single (-b)) (by
        intro p hp q hq
        rw [List.mem_singleton.1 hp]
        obtain ⟨z, hz, rfl⟩ := List.mem_map.1 hq
        exact key_neg_le.2 (hE.high z ((hUm z).1 hz).1)) (by
        rw [List.pairwise_map]
        exact hUs.imp fun h => key_neg_le.2 h)
      have e : [(-b : Vec F 2)] = [b].map Neg.neg := rfl
      rw [e, foldl_push_neg, f1] at c1
      have c2 := c1.push (q := -a) (by
        intro p hp
        have : ∃ z ∈ points, p = -z := by
          rcases List.mem_append.1 hp with hp | hp
          · obtain ⟨z, hz, rfl⟩ := List.mem_map.1 (List.mem_reverse.1 hp)
            exact ⟨z, ((hUm z).1 hz).1, rfl⟩
          · exact ⟨b, hE.hb, by simpa using hp⟩
        obtain ⟨z, hz, rfl⟩ := this
        exact key_neg_le.2 (hE.low z hz))
      rw [push, popStack_neg] at c2
      simpa [push] using c2
    obtain ⟨Z, X', g1, g2⟩ := popStack_over a b X
    rw [push, g2] at hC2
    have hX'U : ∀ p ∈ X', p ∈ U := fun p hp =>
      (f3 p (by rw [g1]; exact List.mem_append_right _ hp)).resolve_left (by simp)
    -- if the upper part is empty, all other points are below
    have hXU : X' = [] → U = [] := by
      intro e
      subst e
      rw [List.eq_nil_iff_forall_not_mem]
      intro p hp
      have := hC2.cover [] (-a) (-b) [] (by simp) (-p) (List.mem_map_of_mem (by simp [hp]))
      rw [det3_neg, det3_swap] at this
      have := ((hUm p).1 hp).2
      linarith
    have hne : X' = [] → ∃ s r R', R = s :: r :: R' := by
      intro e
      have hUe := hXU e
      obtain ⟨p, hp, hpo⟩ := hoff
      have hp0 : det3 a b p ≤ 0 := by
        by_contra h
        have : p ∈ U := (hUm p).2 ⟨hp, not_le.1 h⟩
        rw [hUe] at this; simp at this
      match R, hC with
      | [], hC =>
        have : b = a := by simpa using hC.bottom
        rw [this] at hab
        exact absurd hab (lt_irrefl _)
      | [s], hC =>
        have : s = a := by simpa using hC.bottom
        subst this
        have := hC.cover [] b s [] rfl p ((hLm' p).2 ⟨hp, hp0⟩)
        exact absurd (le_antisymm hp0 this) hpo
      | s :: r :: R', _ => exact ⟨s, r, R', rfl⟩
    -- the last `pop` does not touch the lower chain
    have hfinal : popStack a (X ++ b :: R) = X' ++ b :: R := by
      rw [popStack_below a b R X, g2]
      · simp
      · by_cases e : X' = []
        · left
          intro s R' es
          obtain ⟨s', r, R'', e'⟩ := hne e
          obtain ⟨rfl, rfl⟩ := List.cons.inj (es.symm.trans e')
          subst es
          have hrs : key r < key s := hC.step_lt hne1 (X := [b]) rfl
          have hsb : key s < key b := hC.step_lt hne1 (X := []) rfl
          exact behind_strict hrs.le (lt_of_le_of_lt (hC.low r (hC.sub r (by simp))) hrs) hsb.le
            (hC.cover [b] s r R'' rfl a (by simp)) (hC.convex [b] s r R'' rfl b (by simp))
        · right
          rw [g2]
          intro h
          apply e
          have := congrArg List.length h
          simpa using this
    rw [List.foldl_append, hR, f2, hfinal]
    have hmain := hull_of_chains (U := U.reverse) hab hC (by simpa using hC2)
      (fun p hp => ((hLm' p).1 hp).2) (fun p hp => ((hUm p).1 (List.mem_reverse.1 hp)).2)
      (fun p hp => List.mem_reverse.2 (hX'U p hp)) (fun p hp => hE.high p ((hLm' p).1 hp).1)
      (fun p hp => by
        have := ((hUm p).1 (List.mem_reverse.1 hp)).1
        exact ⟨hE.low p this, hE.high p this⟩) hne
    refine ⟨?_, hmain.1, hmain.2.1, ?_⟩
    · intro p hp
      rcases List.mem_append.1 (List.mem_reverse.1 hp) with hp | hp
      · exact ((hUm p).1 (hX'U p hp)).1
      · exact ((hLm' p).1 (hC.sub p hp)).1
    · intro p hp
      apply hmain.2.2
      rcases le_or_gt (det3 a b p) 0 with h | h
      · exact .inl ((hLm' p).2 ⟨hp, h⟩)
      · exact .inr (List.mem_reverse.2 ((hUm p).2 ⟨hp, h⟩))

/-- **Main theorem.**  For every point set not on one line: the returned points are input points;
they are the vertices of a strictly convex polygon listed once counter-clockwise, so all turns are
strict left turns; every input point is on the left of (or on) all edges, and is in the convex hull
of the returned points. -/
theorem convexHull_partial {points : List (Vec F 2)} (hnc : ¬ AllCollinear points) :
    (∀ p ∈ convexHull points, p ∈ points) ∧ StrictlyConvex (convexHull points) ∧
      TurnsLeft (convexHull points) ∧
      ∀ p ∈ points, InPolygon p (convexHull points) ∧ InHull (convexHull points) p := by
  obtain ⟨h1, h2, h3, h4⟩ := convexHull_convex hnc
  exact ⟨h1, h2, h3, fun p hp => ⟨h4 p hp, inHull_of_inPolygon h2 (h4 p hp)⟩⟩

/-- A set of fewer than two points is its own hull. -/
theorem convexHull_small {points : List (Vec F 2)} (h : points.length < 2) :
    convexHull points = points := by
  match points, h with
  | [], _ => rfl
  | [_], _ => rfl

/-- The assertion of the code, `2 <= pivot`, holds for every input of two points or more. -/
theorem convexHull_pivot (x y : Vec F 2) (rest : List (Vec F 2)) :
    2 ≤ ((x :: y :: rest).filter fun p => !decide (orientationLine p
      (Line.through (minPoint x (y :: rest)) (maxPoint x (y :: rest)) .free) = .right)).length :=
  lower_length (ends x y rest)

/-! ## Concrete cases -/

/-- A square with its centre, a midpoint of a side and a repeated corner. -/
def hullExample : List (Vec ℚ 2) :=
  [![1, 1], ![0, 0], ![2, 2], ![1, 0], ![2, 0], ![0, 2], ![0, 0]]

example : ¬ AllCollinear hullExample := by
  intro h
  have := h ![0, 0] (by simp [hullExample]) ![2, 0] (by simp [hullExample]) ![0, 2]
    (by simp [hullExample])
  norm_num at this

example : AllCollinear ([![0, 0], ![1, 1], ![3, 3]] : List (Vec ℚ 2)) := by
  intro a ha b hb c hc
  simp only [List.mem_cons, List.not_mem_nil, or_false] at ha hb hc
  rcases ha with rfl | rfl | rfl <;> rcases hb with rfl | rfl | rfl <;>
    rcases hc with rfl | rfl | rfl <;> norm_num

end Actl.Geo
