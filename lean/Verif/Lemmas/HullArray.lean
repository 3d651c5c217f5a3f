import Verif.Lemmas.Hull

/-!
# The array of the monotone chain refines a stack

`points[0 .. last]` is the stack (bottom first), the positions from `i` on are the points still to
be processed.
-/

namespace Actl.Geo

variable {F : Type*} [Field F] [LinearOrder F] [IsStrictOrderedRing F]

/-- The stack kept in the array, top first. -/
def stackOf (points : List (Vec F 2)) (last : Nat) : List (Vec F 2) :=
  (points.take (last + 1)).reverse

theorem pointAt_eq {points : List (Vec F 2)} {i : Nat} (h : i < points.length) :
    pointAt points i = points[i] := by
  simp [pointAt, List.getElem?_eq_getElem h]

theorem stackOf_succ {points : List (Vec F 2)} {last : Nat} (h : last + 1 < points.length) :
    stackOf points (last + 1) = pointAt points (last + 1) :: stackOf points last := by
  rw [stackOf, stackOf, List.take_add_one, List.reverse_append, List.getElem?_eq_getElem h,
    pointAt_eq h]
  rfl

theorem stackOf_zero {points : List (Vec F 2)} (h : 0 < points.length) :
    stackOf points 0 = [pointAt points 0] := by
  cases points with
  | nil => simp at h
  | cons x xs => simp [stackOf, pointAt]

theorem stackOf_cons {points : List (Vec F 2)} {last : Nat} (h : last < points.length) :
    ∃ rest, stackOf points last = pointAt points last :: rest := by
  cases last with
  | zero => exact ⟨[], stackOf_zero h⟩
  | succ k => exact ⟨_, stackOf_succ h⟩

theorem popLast_le (points : List (Vec F 2)) (p : Vec F 2) : ∀ last, popLast points p last ≤ last
  | 0 => le_rfl
  | last + 1 => by
    rw [popLast]
    split
    · exact le_rfl
    · exact (popLast_le points p last).trans (Nat.le_succ _)

theorem popLast_stack (points : List (Vec F 2)) (p : Vec F 2) : ∀ last, last < points.length →
    stackOf points (popLast points p last) = popStack p (stackOf points last)
  | 0, h => by rw [popLast, stackOf_zero h]; rfl
  | last + 1, h => by
    obtain ⟨rest, e⟩ := stackOf_cons (points := points) (last := last) (by omega)
    rw [popLast]
    by_cases c : rightTurn p (pointAt points (last + 1)) (pointAt points last) = true
    · rw [if_pos c, stackOf_succ h, e, popStack, if_pos c]
    · rw [if_neg c, popLast_stack points p last (by omega), stackOf_succ h, e, popStack, if_neg c]

theorem stackOf_set {points : List (Vec F 2)} {last : Nat} (p : Vec F 2)
    (h : last + 1 < points.length) :
    stackOf (points.set (last + 1) p) (last + 1) = p :: stackOf points last := by
  rw [stackOf_succ (by simpa using h), pointAt_eq (by simpa using h)]
  simp [stackOf, List.take_set, List.set_eq_of_length_le]

theorem hullLoop_length (pivot : Nat) : ∀ (fuel i : Nat) (points : List (Vec F 2)) (last : Nat),
    (hullLoop pivot fuel i points last).1.length = points.length
  | 0, _, _, _ => rfl
  | fuel + 1, i, points, last => by
    rw [hullLoop]
    rw [hullLoop_length]
    split
    · simp only [List.length_set, List.length_append, List.length_take, sortPointsDown,
        List.length_mergeSort, List.length_drop]
      omega
    · simp

theorem hullLoop_last (pivot : Nat) : ∀ (fuel i : Nat) (points : List (Vec F 2)) (last : Nat),
    last < i → (hullLoop pivot fuel i points last).2 < i + fuel
  | 0, _, _, _, h => h
  | fuel + 1, i, points, last, h => by
    rw [hullLoop]
    refine lt_of_lt_of_le (hullLoop_last pivot fuel (i + 1) _ _ ?_) (by omega)
    have := popLast_le (if i = pivot then points.take i ++ sortPointsDown (points.drop i)
      else points) (pointAt (if i = pivot then points.take i ++ sortPointsDown (points.drop i)
      else points) i) last
    omega

/-- One iteration without a sort. -/
theorem hullLoop_step {pivot fuel i last : Nat} {points : List (Vec F 2)} (hi : i < points.length)
    (hl : last < i) (hp : i ≠ pivot) :
    ∃ points' last', hullLoop pivot (fuel + 1) i points last =
        hullLoop pivot fuel (i + 1) points' last' ∧ last' < i + 1 ∧
      points'.length = points.length ∧ points'.drop (i + 1) = points.drop (i + 1) ∧
      stackOf points' last' = push (stackOf points last) points[i] := by
  have hle := popLast_le points (pointAt points i) last
  refine ⟨points.set (popLast points (pointAt points i) last + 1) (pointAt points i),
    popLast points (pointAt points i) last + 1, ?_, by omega, by simp, ?_, ?_⟩
  · rw [hullLoop]; simp [hp]
  · rw [List.drop_set_of_lt (by omega)]
  · rw [stackOf_set _ (by omega), popLast_stack _ _ _ (by omega), push, pointAt_eq hi]

theorem hullLoop_after (pivot : Nat) : ∀ (fuel i : Nat) (points : List (Vec F 2)) (last : Nat),
    pivot < i → last < i → i + fuel = points.length →
    stackOf (hullLoop pivot fuel i points last).1 (hullLoop pivot fuel i points last).2 =
      (points.drop i).foldl push (stackOf points last)
  | 0, i, points, last, _, _, h => by
    rw [hullLoop, List.drop_of_length_le (by omega)]; rfl
  | fuel + 1, i, points, last, h1, h2, h3 => by
    have hi : i < points.length := by omega
    obtain ⟨points', last', e, hl, hlen, hd, hs⟩ :=
      hullLoop_step (fuel := fuel) hi h2 (by omega : i ≠ pivot)
    rw [e, hullLoop_after pivot fuel (i + 1) points' last' (by omega) hl (by omega), hd, hs,
      List.drop_eq_getElem_cons hi, List.foldl_cons]

theorem hullLoop_before (pivot : Nat) : ∀ (fuel i : Nat) (points : List (Vec F 2)) (last : Nat),
    i ≤ pivot → pivot ≤ points.length → last < i → i + fuel = points.length →
    stackOf (hullLoop pivot fuel i points last).1 (hullLoop pivot fuel i points last).2 =
      ((points.drop i).take (pivot - i) ++ sortPointsDown (points.drop pivot)).foldl push
        (stackOf points last)
  | 0, i, points, last, h1, h2, h3, h4 => by
    have : pivot = points.length := by omega
    subst this
    rw [hullLoop, List.drop_of_length_le (by omega), List.drop_of_length_le (le_refl _)]
    simp [sortPointsDown]
  | fuel + 1, i, points, last, h1, h2, h3, h4 => by
    have hi : i < points.length := by omega
    rcases h1.lt_or_eq with h1 | h1
    · obtain ⟨points', last', e, hl, hlen, hd, hs⟩ :=
        hullLoop_step (fuel := fuel) hi h3 (by omega : i ≠ pivot)
      have hd' : points'.drop pivot = points.drop pivot := by
        have := congrArg (List.drop (pivot - (i + 1))) hd
        simpa [List.drop_drop, show i + 1 + (pivot - (i + 1)) = pivot by omega] using this
      rw [e, hullLoop_before pivot fuel (i + 1) points' last' (by omega) (by omega) hl (by omega),
        hd, hs, hd', List.drop_eq_getElem_cons hi,
        show pivot - i = (pivot - (i + 1)) + 1 by omega, List.take_succ_cons, List.cons_append,
        List.foldl_cons]
    · subst h1
      have hlen : (points.take i ++ sortPointsDown (points.drop i)).length = points.length := by
        simp only [List.length_append, List.length_take, sortPointsDown, List.length_mergeSort,
          List.length_drop]
        omega
      have hdrop : (points.take i ++ sortPointsDown (points.drop i)).drop i =
          sortPointsDown (points.drop i) := by
        rw [List.drop_append_of_le_length (by simp; omega)]
        simp
      have hstack : stackOf (points.take i ++ sortPointsDown (points.drop i)) last =
          stackOf points last := by
        rw [stackOf, stackOf, List.take_append_of_le_length (by simp; omega), List.take_take,
          min_eq_left (by omega)]
      have hsort : hullLoop i (fuel + 1) i points last =
          hullLoop i fuel (i + 1)
            ((points.take i ++ sortPointsDown (points.drop i)).set
              (popLast (points.take i ++ sortPointsDown (points.drop i))
                (pointAt (points.take i ++ sortPointsDown (points.drop i)) i) last + 1)
              (pointAt (points.take i ++ sortPointsDown (points.drop i)) i))
            (popLast (points.take i ++ sortPointsDown (points.drop i))
              (pointAt (points.take i ++ sortPointsDown (points.drop i)) i) last + 1) := by
        rw [hullLoop]; simp
      generalize points.take i ++ sortPointsDown (points.drop i) = q at *
      have hle := popLast_le q (pointAt q i) last
      have hi' : i < q.length := by omega
      rw [hsort, hullLoop_after i fuel (i + 1) _ _ (by omega) (by omega) (by simp; omega),
        List.drop_set_of_lt (by omega), stackOf_set _ (by omega), popLast_stack _ _ _ (by omega),
        hstack, ← hdrop, List.drop_eq_getElem_cons hi', pointAt_eq hi', Nat.sub_self,
        List.take_zero, List.nil_append, List.foldl_cons, push]

end Actl.Geo
