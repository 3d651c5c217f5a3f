import Verif.Lemmas.HullArray
import Mathlib.Data.List.Perm.Subperm

/-!
# The two chains of the monotone chain algorithm
-/

namespace Actl.Geo

variable {F : Type*} [Field F] [LinearOrder F] [IsStrictOrderedRing F]

/-! ## Extreme points and sorting -/

theorem minPoint_spec : ∀ (l : List (Vec F 2)) (x : Vec F 2),
    minPoint x l ∈ x :: l ∧ ∀ p ∈ x :: l, key (minPoint x l) ≤ key p
  | [], x => by simp [minPoint]
  | y :: ys, x => by
    rw [minPoint]
    cases h : less y x with
    | true =>
      have h' := (less_iff _ _).1 h
      obtain ⟨h1, h2⟩ := minPoint_spec ys y
      simp only [if_true]
      refine ⟨List.mem_cons_of_mem _ h1, ?_⟩
      intro p hp
      rcases List.mem_cons.1 hp with rfl | hp
      · exact (h2 y (by simp)).trans h'.le
      · exact h2 p hp
    | false =>
      have h' := (less_false _ _).1 h
      obtain ⟨h1, h2⟩ := minPoint_spec ys x
      simp only [Bool.false_eq_true, if_false]
      refine ⟨?_, ?_⟩
      · rcases List.mem_cons.1 h1 with h1 | h1
        · rw [h1]; simp
        · exact List.mem_cons_of_mem _ (List.mem_cons_of_mem _ h1)
      · intro p hp
        rcases List.mem_cons.1 hp with rfl | hp
        · exact h2 p (by simp)
        · rcases List.mem_cons.1 hp with rfl | hp
          · exact (h2 x (by simp)).trans h'
          · exact h2 p (List.mem_cons_of_mem _ hp)

theorem maxPoint_spec : ∀ (l : List (Vec F 2)) (x : Vec F 2),
    maxPoint x l ∈ x :: l ∧ ∀ p ∈ x :: l, key p ≤ key (maxPoint x l)
  | [], x => by simp [maxPoint]
  | y :: ys, x => by
    rw [maxPoint]
    cases h : less y x with
    | false =>
      have h' := (less_false _ _).1 h
      obtain ⟨h1, h2⟩ := maxPoint_spec ys y
      simp only [Bool.false_eq_true, if_false]
      refine ⟨List.mem_cons_of_mem _ h1, ?_⟩
      intro p hp
      rcases List.mem_cons.1 hp with rfl | hp
      · exact h'.trans (h2 y (by simp))
      · exact h2 p hp
    | true =>
      have h' := (less_iff _ _).1 h
      obtain ⟨h1, h2⟩ := maxPoint_spec ys x
      simp only [if_true]
      refine ⟨?_, ?_⟩
      · rcases List.mem_cons.1 h1 with h1 | h1
        · rw [h1]; simp
        · exact List.mem_cons_of_mem _ (List.mem_cons_of_mem _ h1)
      · intro p hp
        rcases List.mem_cons.1 hp with rfl | hp
        · exact h2 p (by simp)
        · rcases List.mem_cons.1 hp with rfl | hp
          · exact h'.le.trans (h2 x (by simp))
          · exact h2 p (List.mem_cons_of_mem _ hp)

theorem sortPoints_perm (l : List (Vec F 2)) : (sortPoints l).Perm l := List.mergeSort_perm _ _
theorem sortPointsDown_perm (l : List (Vec F 2)) : (sortPointsDown l).Perm l :=
  List.mergeSort_perm _ _

theorem not_less_iff (p q : Vec F 2) : (!less q p) = true ↔ key p ≤ key q := by
  rw [Bool.not_eq_true', less_false]

theorem sortPoints_sorted (l : List (Vec F 2)) :
    (sortPoints l).Pairwise fun p q => key p ≤ key q := by
  have := List.pairwise_mergeSort (le := fun p q : Vec F 2 => !less q p)
    (fun a b c h1 h2 => by rw [not_less_iff] at *; exact h1.trans h2)
    (fun a b => by
      rcases le_total (key a) (key b) with h | h
      · simp [(not_less_iff a b).2 h]
      · simp [(not_less_iff b a).2 h]) l
  exact this.imp fun h => (not_less_iff _ _).1 h

theorem sortPointsDown_sorted (l : List (Vec F 2)) :
    (sortPointsDown l).Pairwise fun p q => key q ≤ key p := by
  have := List.pairwise_mergeSort (le := fun p q : Vec F 2 => !less p q)
    (fun a b c h1 h2 => by rw [not_less_iff] at *; exact h2.trans h1)
    (fun a b => by
      rcases le_total (key a) (key b) with h | h
      · simp [(not_less_iff a b).2 h]
      · simp [(not_less_iff b a).2 h]) l
  exact this.imp fun h => (not_less_iff _ _).1 h

/-! ## Simulation on a stack with more below, and by the opposite points -/

/-- Popping stops at `b` when `p` turns there, or before it. -/
theorem popStack_below (p b : Vec F 2) (R : List (Vec F 2)) : ∀ X : List (Vec F 2),
    ((∀ s R', R = s :: R' → 0 < det3 s b p) ∨ popStack p (X ++ [b]) ≠ [b]) →
    popStack p (X ++ b :: R) = popStack p (X ++ [b]) ++ R
  | [], h => by
    cases R with
    | nil => simp
    | cons s R' =>
      rcases h with h | h
      · have := (rightTurn_iff p b s).2 (h s R' rfl)
        simp [popStack, this]
      · simp [popStack] at h
  | [x], h => by
    by_cases c : rightTurn p x b = true
    · simp [popStack, c]
    · have := popStack_below p b R [] (by
        rcases h with h | h
        · exact .inl h
        · simp [popStack, c] at h)
      simp only [List.nil_append] at this
      simp only [List.cons_append, List.nil_append, popStack, c]
      simpa [popStack] using this
  | x :: y :: X, h => by
    by_cases c : rightTurn p x y = true
    · simp [popStack, c]
    · have := popStack_below p b R (y :: X) (by
        rcases h with h | h
        · exact .inl h
        · right; simpa [popStack, c] using h)
      simpa [popStack, c] using this

/-- Popping a stack over `b` leaves a stack over `b`. -/
theorem popStack_over (p b : Vec F 2) : ∀ X : List (Vec F 2),
    ∃ Z X', X = Z ++ X' ∧ popStack p (X ++ [b]) = X' ++ [b]
  | [] => ⟨[], [], rfl, rfl⟩
  | [x] => by
    by_cases c : rightTurn p x b = true
    · exact ⟨[], [x], rfl, by simp [popStack, c]⟩
    · exact ⟨[x], [], rfl, by simp [popStack, c]⟩
  | x :: y :: X => by
    by_cases c : rightTurn p x y = true
    · exact ⟨[], x :: y :: X, rfl, by simp [popStack, c]⟩
    · obtain ⟨Z, X', e1, e2⟩ := popStack_over p b (y :: X)
      exact ⟨x :: Z, X', by rw [e1]; rfl, by simpa [popStack, c] using e2⟩

/-- The loop on a stack with `b` at the top, all of whose points turn at `b`. -/
theorem foldl_push_below (b : Vec F 2) (R : List (Vec F 2)) : ∀ (U X : List (Vec F 2)),
    (∀ p ∈ U, ∀ s R', R = s :: R' → 0 < det3 s b p) →
    ∃ X', U.foldl push (X ++ [b]) = X' ++ [b] ∧ U.foldl push (X ++ b :: R) = X' ++ b :: R ∧
      ∀ p ∈ X', p ∈ X ∨ p ∈ U
  | [], X, _ => ⟨X, rfl, rfl, fun _ h => .inl h⟩
  | q :: U, X, h => by
    obtain ⟨Z, X1, e1, e2⟩ := popStack_over q b X
    have e3 := popStack_below q b R X (.inl (h q (by simp)))
    rw [e2] at e3
    obtain ⟨X', f1, f2, f3⟩ := foldl_push_below b R U (q :: X1) fun p hp =>
      h p (List.mem_cons_of_mem _ hp)
    refine ⟨X', ?_, ?_, ?_⟩
    · rw [List.foldl_cons, push, e2]; exact f1
    · rw [List.foldl_cons, push, e3]; simpa using f2
    · intro p hp
      rcases f3 p hp with h' | h'
      · rcases List.mem_cons.1 h' with rfl | h'
        · exact .inr (by simp)
        · exact .inl (by rw [e1]; exact List.mem_append_right _ h')
      · exact .inr (List.mem_cons_of_mem _ h')

theorem rightTurn_neg (p q o : Vec F 2) : rightTurn (-p) (-q) (-o) = rightTurn p q o := by
  rw [Bool.eq_iff_iff, rightTurn_iff, rightTurn_iff, det3_neg]

theorem popStack_neg (p : Vec F 2) : ∀ st : List (Vec F 2),
    popStack (-p) (st.map Neg.neg) = (popStack p st).map Neg.neg
  | [] => rfl
  | [t] => rfl
  | t :: s :: rest => by
    have ih := popStack_neg p (s :: rest)
    simp only [List.map_cons] at ih ⊢
    rw [popStack, popStack, rightTurn_neg]
    split
    · rfl
    · exact ih

theorem foldl_push_neg : ∀ (U st : List (Vec F 2)),
    (U.map Neg.neg).foldl push (st.map Neg.neg) = (U.foldl push st).map Neg.neg
  | [], _ => rfl
  | q :: U, st => by
    rw [List.map_cons, List.foldl_cons, List.foldl_cons, push, popStack_neg, ← foldl_push_neg]
    rfl

/-! ## Lists of turns and edges -/

theorem leftTurns_iff : ∀ l : List (Vec F 2), LeftTurns l ↔
    ∀ X a b c Y, l = X ++ a :: b :: c :: Y → StrictLeft a b c
  | [] => by simp [LeftTurns]
  | [a] => by
    simp only [LeftTurns, true_iff]
    intro X b c d Y e; have := congrArg List.length e; simp at this; omega
  | [a, b] => by
    simp only [LeftTurns, true_iff]
    intro X b c d Y e; have := congrArg List.length e; simp at this; omega
  | a :: b :: c :: rest => by
    rw [LeftTurns, leftTurns_iff (b :: c :: rest)]
    constructor
    · rintro ⟨h1, h2⟩ X a' b' c' Y e
      cases X with
      | nil =>
        simp only [List.nil_append, List.cons.injEq] at e
        obtain ⟨rfl, rfl, rfl, -⟩ := e; exact h1
      | cons x X => exact h2 X a' b' c' Y (List.cons.inj e).2
    · intro h
      exact ⟨h [] a b c rest rfl, fun X a' b' c' Y e => h (a :: X) a' b' c' Y (by rw [e]; rfl)⟩

theorem leftOfChain_iff (p : Vec F 2) : ∀ l : List (Vec F 2), LeftOfChain p l ↔
    ∀ X a b Y, l = X ++ a :: b :: Y → LeftOrOn a b p
  | [] => by simp [LeftOfChain]
  | [a] => by
    simp only [LeftOfChain, true_iff]
    intro X b c Y e; have := congrArg List.length e; simp at this; omega
  | a :: b :: rest => by
    rw [LeftOfChain, leftOfChain_iff p (b :: rest)]
    constructor
    · rintro ⟨h1, h2⟩ X a' b' Y e
      cases X with
      | nil =>
        simp only [List.nil_append, List.cons.injEq] at e
        obtain ⟨rfl, rfl, -⟩ := e; exact h1
      | cons x X => exact h2 X a' b' Y (List.cons.inj e).2
    · intro h
      exact ⟨h [] a b rest rfl, fun X a' b' Y e => h (a :: X) a' b' Y (by rw [e]; rfl)⟩

/-- Property of the consecutive triples of a list. -/
def Trip (P : Vec F 2 → Vec F 2 → Vec F 2 → Prop) (l : List (Vec F 2)) : Prop :=
  ∀ X a b c Y, l = X ++ a :: b :: c :: Y → P a b c

/-- Property of the consecutive pairs of a list. -/
def Pair (P : Vec F 2 → Vec F 2 → Prop) (l : List (Vec F 2)) : Prop :=
  ∀ X a b Y, l = X ++ a :: b :: Y → P a b

omit [Field F] [LinearOrder F] [IsStrictOrderedRing F] in
theorem Trip.cons {P : Vec F 2 → Vec F 2 → Vec F 2 → Prop} {x : Vec F 2} {l : List (Vec F 2)}
    (h : Trip P l) (hx : ∀ y z W, l = y :: z :: W → P x y z) : Trip P (x :: l) := by
  intro X a b c Y e
  cases X with
  | nil =>
    obtain ⟨rfl, e'⟩ := List.cons.inj e
    exact hx _ _ _ e'
  | cons w X => exact h X a b c Y (List.cons.inj e).2

omit [Field F] [LinearOrder F] [IsStrictOrderedRing F] in
/-- Two lists joined at `b`. -/
theorem Trip.join {P : Vec F 2 → Vec F 2 → Vec F 2 → Prop} {b : Vec F 2} {R : List (Vec F 2)}
    (hR : Trip P (b :: R)) : ∀ l : List (Vec F 2), Trip P (l ++ [b]) →
    (∀ x l', l = l' ++ [x] → ∀ s R', R = s :: R' → P x b s) → Trip P (l ++ b :: R)
  | [], _, _ => hR
  | x :: l, h, hb => by
    refine Trip.cons (Trip.join hR l ?_ ?_) ?_
    · intro X a b' c Y e
      exact h (x :: X) a b' c Y (by rw [List.cons_append, e]; rfl)
    · intro y l' e; exact hb y (x :: l') (by rw [e]; rfl)
    · intro y z W e
      cases l with
      | nil =>
        obtain ⟨rfl, rfl⟩ := List.cons.inj e
        exact hb x [] rfl z W rfl
      | cons y' l =>
        obtain ⟨rfl, e'⟩ := List.cons.inj e
        cases l with
        | nil =>
          obtain ⟨rfl, -⟩ := List.cons.inj e'
          exact h [] x _ _ [] rfl
        | cons z' l =>
          obtain ⟨rfl, -⟩ := List.cons.inj e'
          exact h [] x _ _ (l ++ [b]) rfl

omit [Field F] [LinearOrder F] [IsStrictOrderedRing F] in
theorem Pair.join {P : Vec F 2 → Vec F 2 → Prop} {b : Vec F 2} {R : List (Vec F 2)}
    (hR : Pair P (b :: R)) : ∀ l : List (Vec F 2), Pair P (l ++ [b]) → Pair P (l ++ b :: R)
  | [], _ => hR
  | x :: l, h => by
    have ih := Pair.join hR l (by
      intro X a b' Y e
      exact h (x :: X) a b' Y (by rw [List.cons_append, e]; rfl))
    intro X a c Y e
    cases X with
    | nil =>
      obtain ⟨rfl, e'⟩ := List.cons.inj e
      cases l with
      | nil =>
        obtain ⟨rfl, -⟩ := List.cons.inj e'
        exact h [] x _ [] rfl
      | cons y l =>
        obtain ⟨rfl, -⟩ := List.cons.inj e'
        exact h [] x _ (l ++ [b]) rfl
    | cons w X => exact ih X a c Y (List.cons.inj e).2

end Actl.Geo
