import Verif.Spec.Iterators
import Verif.Lemmas.Ints

/-!
C75 (random access iterators over integers, members of ranges), C76 (linked list iterators), C77 (limited
input).
-/

namespace Actl.Iterators

open Actl.Ints

/-! ### Integer iterators -/

theorem has_mono {w w' : Nat} (h : w ≤ w') {x : Int} (hx : (⟨true, w⟩ : IntT).Has x) :
    (⟨true, w'⟩ : IntT).Has x := by
  unfold IntT.Has IntT.lo IntT.hi at hx ⊢
  have : (2 : Int) ^ (w - 1) ≤ 2 ^ (w' - 1) := pow_le_pow_right₀ (by decide) (by omega)
  simp only [if_true] at hx ⊢
  omega

theorem promote_width (t : IntT) : 32 ≤ t.promote.width := by
  unfold IntT.promote; split
  · simp
  · omega

theorem common_signed {a b : IntT} (ha : a.promote.signed = true) (hb : b.promote.signed = true) :
    common a b = ⟨true, max a.promote.width b.promote.width⟩ := by
  unfold common; rw [if_pos (by rw [ha, hb]), ha]

theorem promote_eq {t : IntT} (h : t.promote.signed = true) : t.promote = ⟨true, t.promote.width⟩ := by
  rw [← h]

theorem promote_promote (t : IntT) : t.promote.promote = t.promote :=
  promote_wide _ (promote_width t)

theorem common_has_left {a b : IntT} (ha : a.promote.signed = true) (hb : b.promote.signed = true)
    {x : Int} (hx : a.promote.Has x) : (common a b).Has x := by
  rw [common_signed ha hb]
  rw [promote_eq ha] at hx
  exact has_mono (le_max_left _ _) hx

theorem common_has_right {a b : IntT} (ha : a.promote.signed = true) (hb : b.promote.signed = true)
    {x : Int} (hx : b.promote.Has x) : (common a b).Has x := by
  rw [common_signed ha hb]
  rw [promote_eq hb] at hx
  exact has_mono (le_max_right _ _) hx

theorem common_width {a b : IntT} (ha : a.promote.signed = true) (hb : b.promote.signed = true) :
    32 ≤ (common a b).width := by
  rw [common_signed ha hb]
  exact le_trans (promote_width a) (le_max_left _ _)

theorem common_self {a b : IntT} (ha : a.promote.signed = true) (hb : b.promote.signed = true) :
    (common a b).promote = common a b := promote_wide _ (common_width ha hb)

theorem arith_signed {t : IntT} (h : t.signed = true) (x : Int) :
    t.arith x = if t.Has x then some x else none := by
  unfold IntT.arith; rw [if_pos h]

/-- `+=`: exact, or undefined if the offset or the sum overflows. -/
theorem advance_signed {T S D : IntT} (hT : T.promote.signed = true) (hS : S.promote.signed = true)
    (hD : D.promote.signed = true) (wT : 0 < T.width) (wS : 0 < S.width) (wD : 0 < D.width)
    {step v k : Int} (hv : T.Has v) (hs : S.Has step) (hk : D.Has k) :
    advance T S D step v k =
      if (common D S).Has (k * step) ∧ (common T (common D S)).Has (v + k * step) then
        some (T.cast (v + k * step)) else none := by
  have hP : (common D S).promote.signed = true := by
    rw [common_self hD hS, common_signed hD hS]
  have hPs : (common D S).signed = true := by rw [common_signed hD hS]
  have hQs : (common T (common D S)).signed = true := by rw [common_signed hT hP]
  have wP : 0 < (common D S).width := by have := common_width hD hS; omega
  have wQ : 0 < (common T (common D S)).width := by have := common_width hT hP; omega
  unfold advance
  simp only
  rw [cast_of_has _ k (common_has_left hD hS (promote_has D wD k hk).1) wP,
    cast_of_has _ step (common_has_right hD hS (promote_has S wS step hs).1) wP, arith_signed hPs]
  by_cases h1 : (common D S).Has (k * step)
  · rw [if_pos h1]
    simp only
    have h1' : (common T (common D S)).Has (k * step) := by
      apply common_has_right hT hP
      rw [common_self hD hS]; exact h1
    rw [cast_of_has _ _ h1' wQ, cast_of_has _ v (common_has_left hT hP (promote_has T wT v hv).1) wQ,
      arith_signed hQs]
    by_cases h2 : (common T (common D S)).Has (v + k * step)
    · rw [if_pos h2, if_pos ⟨h1, h2⟩]
    · rw [if_neg h2, if_neg fun h => h2 h.2]
  · rw [if_neg h1, if_neg fun h => h1 h.1]

/-- **C75** `it += k` and `it + k` for signed types (and types shorter than `int`), for steps of both
signs: from the element with index `i` to the one with index `i + k`. -/
theorem advance_correct {T S D : IntT} (hT : T.promote.signed = true) (hS : S.promote.signed = true)
    (hD : D.promote.signed = true) (wT : 0 < T.width) (wS : 0 < S.width) (wD : 0 < D.width)
    {first step i k : Int} (hs : S.Has step) (hk : D.Has k) (h1 : T.Has (first + i * step))
    (h2 : T.Has (first + (i + k) * step)) (h3 : (common D S).Has (k * step)) :
    advance T S D step (first + i * step) k = some (first + (i + k) * step) := by
  have hP : (common D S).promote.signed = true := by
    rw [common_self hD hS, common_signed hD hS]
  rw [advance_signed hT hS hD wT wS wD h1 hs hk]
  have e : first + i * step + k * step = first + (i + k) * step := by ring
  rw [e, if_pos ⟨h3, common_has_left hT hP (promote_has T wT _ h2).1⟩, cast_of_has _ _ h2 wT]

/-- **C75** `it -= k` and `it - k`: to the element with index `i - k`. -/
theorem retreat_correct {T S D : IntT} (hT : T.promote.signed = true) (hS : S.promote.signed = true)
    (hD : D.promote.signed = true) (wT : 0 < T.width) (wS : 0 < S.width)
    {first step i k : Int} (hs : S.Has step) (hk : D.promote.Has (-k)) (h1 : T.Has (first + i * step))
    (h2 : T.Has (first + (i - k) * step)) (h3 : (common D S).Has (-k * step)) :
    retreat T S D step (first + i * step) k = some (first + (i - k) * step) := by
  unfold retreat
  have wD : 0 < D.promote.width := by have := promote_width D; omega
  rw [arith_of_has _ wD _ hk]
  simp only
  have e : common D.promote S = common D S := by
    rw [common_signed (by rw [promote_promote]; exact hD) hS, common_signed hD hS, promote_promote]
  have := advance_correct (D := D.promote) (first := first) (i := i) (k := -k) hT hS
    (by rw [promote_promote]; exact hD) wT wS wD hs hk h1 (by rwa [← sub_eq_add_neg]) (by rwa [e])
  rw [this, ← sub_eq_add_neg]

/-- **C75** `++` and `--`: to the next and to the previous element, whenever it has a value of the type. -/
theorem step_correct {T S : IntT} (hT : T.promote.signed = true) (hS : S.promote.signed = true)
    (wT : 0 < T.width) (wS : 0 < S.width) {first step i : Int} (hs : S.Has step)
    (h1 : T.Has (first + i * step)) :
    (T.Has (first + (i + 1) * step) →
      advance T S ⟨true, 32⟩ step (first + i * step) 1 = some (first + (i + 1) * step)) ∧
    (T.Has (first + (i - 1) * step) → (common S S).Has (-step) →
      advance T S ⟨true, 32⟩ step (first + i * step) (-1) = some (first + (i - 1) * step)) := by
  have hD : (⟨true, 32⟩ : IntT).promote.signed = true := by decide
  have hss : ∀ x, S.promote.Has x → (common ⟨true, 32⟩ S).Has x := fun x hx => common_has_right hD hS hx
  have e : common S S = S.promote := by
    rw [common_signed hS hS, max_self, ← promote_eq hS]
  refine ⟨fun h2 => ?_, fun h2 h3 => ?_⟩
  · exact advance_correct hT hS hD wT wS (by decide) hs (by decide) h1 h2
      (hss _ (by rw [one_mul]; exact (promote_has S wS _ hs).1))
  · rw [e] at h3
    have := advance_correct (first := first) (i := i) (k := -1) hT hS hD wT wS (by decide) hs (by decide) h1
      (by rwa [← sub_eq_add_neg]) (hss _ (by rw [neg_one_mul]; exact h3))
    rw [this, ← sub_eq_add_neg]

/-- **C75** The difference of two iterators is the difference of the indices, and the order of the
iterators is the order of the indices, also for a negative step. -/
theorem compareIter_correct {T S : IntT} (hT : T.promote.signed = true) (hS : S.promote.signed = true)
    (wS : 0 < S.width) {first step i j : Int} (hs : S.Has step)
    (h0 : step ≠ 0) (h1 : T.promote.Has ((first + i * step) - (first + j * step)))
    (h2 : (common T S).Has (i - j)) :
    difference T S step (first + i * step) (first + j * step) = some (i - j) ∧
    compareIter T S step (first + i * step) (first + j * step) = some (compare i j) := by
  have wT : 0 < T.promote.width := by have := promote_width T; omega
  have wQ : 0 < (common T S).width := by have := common_width hT hS; omega
  have ed : first + i * step - (first + j * step) = (i - j) * step := by ring
  have hd : difference T S step (first + i * step) (first + j * step) = some (i - j) := by
    unfold difference
    rw [arith_of_has _ wT _ h1]
    simp only
    rw [cast_of_has _ _ (common_has_left hT hS h1) wQ,
      cast_of_has _ _ (common_has_right hT hS (promote_has S wS _ hs).1) wQ, if_neg h0, ed,
      if_neg (by rw [Int.mul_tmod_left]; simp), Int.mul_tdiv_cancel _ h0, arith_of_has _ wQ _ h2]
  refine ⟨hd, ?_⟩
  unfold compareIter
  rw [hd]
  simp only [Option.some.injEq]
  rcases lt_trichotomy i j with h | h | h
  · rw [compare_lt_iff_lt.2 h, compare_lt_iff_lt]; omega
  · rw [compare_eq_iff_eq.2 h, compare_eq_iff_eq]; omega
  · rw [compare_gt_iff_gt.2 h, compare_gt_iff_gt]; omega

/-- **C75** (negation) For unsigned types of at least 32 bits `<` is never true: of two different
iterators each one is greater than the other. -/
theorem compareIter_unsigned_fails {w : Nat} (hw : 32 ≤ w) {l r : Int} (hl : (⟨false, w⟩ : IntT).Has l)
    (hr : (⟨false, w⟩ : IntT).Has r) (h : l ≠ r) :
    compareIter ⟨false, w⟩ ⟨true, 32⟩ 1 l r = some .gt ∧
    compareIter ⟨false, w⟩ ⟨true, 32⟩ 1 r l = some .gt := by
  have key : ∀ l r : Int, (⟨false, w⟩ : IntT).Has l → (⟨false, w⟩ : IntT).Has r → l ≠ r →
      compareIter ⟨false, w⟩ ⟨true, 32⟩ 1 l r = some .gt := by
    intro l r hl hr h
    have e : (⟨false, w⟩ : IntT).promote = ⟨false, w⟩ := promote_wide _ hw
    have ec : common ⟨false, w⟩ ⟨true, 32⟩ = ⟨false, w⟩ := by
      unfold common
      rw [e, show (⟨true, 32⟩ : IntT).promote = ⟨true, 32⟩ from by decide]
      simp [hw]
    have hp : (1 : Int) < 2 ^ w := by
      have : (2 : Int) ^ 1 ≤ 2 ^ w := pow_le_pow_right₀ (by decide) (by omega)
      omega
    have hc : ∀ x, (⟨false, w⟩ : IntT).cast x = x % 2 ^ w := fun x => by simp [IntT.cast, IntT.lo]
    unfold compareIter difference
    rw [e, ec]
    simp only [IntT.arith, Bool.false_eq_true, if_false, hc]
    rw [Int.emod_eq_of_lt (a := 1) (by omega) hp]
    simp only [one_ne_zero, if_false, Int.tmod_one, ne_eq, not_true_eq_false, Int.tdiv_one, Int.emod_emod]
    simp only [Option.some.injEq]
    rw [compare_gt_iff_gt]
    unfold IntT.Has IntT.lo IntT.hi at hl hr
    simp only [Bool.false_eq_true, if_false] at hl hr
    have h0 : (l - r) % 2 ^ w ≠ 0 := by
      intro h0
      obtain ⟨c, hc⟩ := Int.dvd_of_emod_eq_zero h0
      have hlt : -(2 ^ w : Int) < 2 ^ w * c ∧ (2 ^ w : Int) * c < 2 ^ w := by omega
      have : c = 0 := by
        rcases lt_trichotomy c 0 with hc0 | hc0 | hc0
        · nlinarith
        · exact hc0
        · nlinarith
      rw [this, mul_zero] at hc
      omega
    have := Int.emod_nonneg (l - r) (show (2 : Int) ^ w ≠ 0 by omega)
    omega
  exact ⟨key l r hl hr h, key r l hr hl (Ne.symm h)⟩

/-- **C75** (negation) Going back by an unsigned offset shorter than the type, `it - 1u` for 64 bits, is
wrong for every iterator and every offset except 0. -/
theorem retreat_unsigned_offset_fails {T : IntT} {d : Nat} (hd : 32 ≤ d) (hT : d < T.width) {v k : Int}
    (hk : 0 < k) (hk' : k < 2 ^ d) (hv : T.Has v) (hvk : T.Has (v - k)) :
    retreat T ⟨true, 32⟩ ⟨false, d⟩ 1 v k ≠ some (v - k) := by
  have e : (⟨false, d⟩ : IntT).promote = ⟨false, d⟩ := promote_wide _ hd
  have eT : T.promote = T := promote_wide _ (by omega)
  have ec : common ⟨false, d⟩ ⟨true, 32⟩ = ⟨false, d⟩ := by
    unfold common
    rw [e, show (⟨true, 32⟩ : IntT).promote = ⟨true, 32⟩ from by decide]
    simp [hd]
  have ecT : common T ⟨false, d⟩ = T := by
    unfold common
    rw [e, eT]
    cases hs : T.signed with
    | true => simp [hs]; omega
    | false =>
      simp only [if_true]
      rw [max_eq_left (by omega)]
      cases T; simp_all
  have hp : (1 : Int) < 2 ^ d := by
    have : (2 : Int) ^ 1 ≤ 2 ^ d := pow_le_pow_right₀ (by decide) (by omega)
    omega
  have hdw : (2 : Int) ^ d < 2 ^ T.width := pow_lt_pow_right₀ (by decide) hT
  have hc : ∀ x, (⟨false, d⟩ : IntT).cast x = x % 2 ^ d := fun x => by simp [IntT.cast, IntT.lo]
  have hneg : -k % 2 ^ d = 2 ^ d - k := by
    rw [show -k = (2 ^ d - k) + 2 ^ d * (-1) by ring, Int.add_mul_emod_self_left,
      Int.emod_eq_of_lt (by omega) (by omega)]
  have hsmall : (2 ^ d - k) % 2 ^ d = 2 ^ d - k := Int.emod_eq_of_lt (by omega) (by omega)
  unfold retreat advance
  rw [e]
  simp only [IntT.arith, Bool.false_eq_true, if_false, hc, hneg, ec, hsmall]
  rw [Int.emod_eq_of_lt (a := 1) (by omega) hp, mul_one, hsmall, ecT]
  have hh : T.Has (2 ^ d - k) := by
    unfold IntT.Has IntT.lo IntT.hi
    have : (2 : Int) ^ d ≤ 2 ^ (T.width - 1) := pow_le_pow_right₀ (by decide) (by omega)
    have : (0 : Int) < 2 ^ (T.width - 1) := by positivity
    cases T.signed
    · simp only [Bool.false_eq_true, if_false]; omega
    · simp only [if_true]; omega
  rw [cast_of_has _ _ hh (by omega), cast_of_has _ _ hv (by omega)]
  intro h
  cases hs : T.signed with
  | true =>
    rw [hs] at h
    simp only [if_true] at h
    by_cases hq : T.Has (v + (2 ^ d - k))
    · rw [if_pos hq] at h
      simp only [Option.some.injEq] at h
      rw [cast_of_has _ _ hq (by omega)] at h
      omega
    · rw [if_neg hq] at h; simp at h
  | false =>
    rw [hs] at h
    simp only [Bool.false_eq_true, if_false, Option.some.injEq] at h
    unfold IntT.cast IntT.lo at h
    rw [hs] at h
    simp only [Bool.false_eq_true, if_false, sub_zero, add_zero, Int.emod_emod] at h
    unfold IntT.Has IntT.lo IntT.hi at hvk
    rw [hs] at hvk
    simp only [Bool.false_eq_true, if_false] at hvk
    rw [show v + (2 ^ d - k) = (v - k) + 2 ^ d by ring] at h
    by_cases hlt : v - k + 2 ^ d < 2 ^ T.width
    · rw [Int.emod_eq_of_lt (by omega) hlt] at h; omega
    · rw [show v - k + 2 ^ d = (v - k + 2 ^ d - 2 ^ T.width) + 2 ^ T.width * 1 by ring,
        Int.add_mul_emod_self_left, Int.emod_eq_of_lt (by omega) (by omega)] at h
      omega

/-! ### Members of ranges -/

/-- No object is at or above the next address. -/
def Mem.Ok (m : Mem) : Prop := ∀ a, m.fresh ≤ a → m.cells a = none

/-- **C75** For a range of pointers into an array, `front()`, `back()` and `[i]` are the first element,
the last one, and the one with index `i`. -/
theorem pointer_range_members (m : Mem) (hm : m.Ok) (xs : List Int) (b : Nat) (hne : xs ≠ [])
    (hx : ∀ i (h : i < xs.length), m.cells (b + i) = some xs[i]) :
    readRef (front .pointer m b (b + xs.length)) = xs.head? ∧
    readRef (back .pointer m b (b + xs.length)) = xs.getLast? ∧
    ∀ i, readRef (rangeIndex .pointer m b (b + xs.length) i) = xs[i]? := by
  have hpos : 0 < xs.length := List.length_pos_iff.2 hne
  have hfresh : ∀ i, i < xs.length → b + i ≠ m.fresh := by
    intro i hi e
    have := hm (b + i) (by omega)
    rw [hx i hi] at this
    simp at this
  refine ⟨?_, ?_, fun i => ?_⟩
  · unfold front
    rw [if_neg (by omega)]
    have h1 := hfresh 0 hpos
    rw [Nat.add_zero] at h1
    simp only [Mem.create, Mem.destroy, deref, readRef, h1, if_false]
    have := hx 0 hpos
    rw [Nat.add_zero] at this
    rw [this, List.head?_eq_getElem?, List.getElem?_eq_getElem hpos]
  · unfold back
    rw [if_neg (by omega)]
    have h1 := hfresh (xs.length - 1) (by omega)
    rw [show b + xs.length - 1 = b + (xs.length - 1) by omega]
    simp only [Mem.create, Mem.destroy, deref, readRef, h1, if_false]
    have := hx (xs.length - 1) (by omega)
    rw [this, List.getLast?_eq_getElem?,
      List.getElem?_eq_getElem]
  · unfold rangeIndex
    by_cases hi : i < xs.length
    · rw [if_pos (by omega)]
      simp only [readRef]
      rw [hx i hi, List.getElem?_eq_getElem hi]
    · rw [if_neg (by omega), List.getElem?_eq_none (by omega)]
      rfl

/-- **C75** (negation) `front()`, `back()` and `[i]` of an integer range return a reference to a member of
an iterator that does not exist any more, for every range and index. -/
theorem integer_range_members_dangle (m : Mem) (b e i : Nat) (hi : i < e - b) :
    (∃ r, front .integer m b e = some r ∧ readRef (some r) = none) ∧
    (∃ r, back .integer m b e = some r ∧ readRef (some r) = none) ∧
    (∃ r, rangeIndex .integer m b e i = some r ∧ readRef (some r) = none) ∧
    readRef (some (iterIndex .integer m b i)) = none := by
  refine ⟨⟨_, by unfold front; rw [if_neg (by omega)], ?_⟩, ⟨_, by unfold back; rw [if_neg (by omega)], ?_⟩,
    ⟨_, by unfold rangeIndex; rw [if_pos hi], ?_⟩, ?_⟩ <;>
  simp [readRef, Mem.create, Mem.destroy, deref, iterIndex]

/-- Indices 1 and 4 of 10, 7, 4, 1, -2 as 16-bit integers. -/
example : advance ⟨true, 16⟩ ⟨true, 32⟩ ⟨true, 64⟩ (-3) 7 3 = some (-2) ∧
    retreat ⟨true, 16⟩ ⟨true, 32⟩ ⟨true, 64⟩ (-3) (-2) 3 = some 7 ∧
    difference ⟨true, 16⟩ ⟨true, 32⟩ (-3) (-2) 7 = some 3 ∧
    compareIter ⟨true, 16⟩ ⟨true, 32⟩ (-3) 7 (-2) = some .lt := by decide +kernel

/-- Unsigned values 3 and 5: each is greater. -/
example : compareIter ⟨false, 32⟩ ⟨true, 32⟩ 1 3 5 = some .gt ∧
    compareIter ⟨false, 32⟩ ⟨true, 32⟩ 1 5 3 = some .gt := by decide +kernel

/-- `it - 1u` at 10, for a 64-bit type. -/
example : retreat ⟨true, 64⟩ ⟨true, 32⟩ ⟨false, 32⟩ 1 10 1 = some 4294967305 := by decide +kernel

/-! ### Linked lists -/

variable {α : Type}

/-- **C76** Iterating from the first node of a list to the null iterator visits the values of the list in
order. -/
theorem walkNodes_correct (h : Heap α) (as : List Nat) (vs : List α) (hl : IsList h as vs) :
    walkNodes h (as.length + 1) (as.headD 0) 0 = some vs := by
  induction as generalizing vs with
  | nil =>
    cases vs with
    | nil => simp [walkNodes]
    | cons v vs => exact hl.elim
  | cons a as ih =>
    cases vs with
    | nil => exact hl.elim
    | cons v vs =>
      obtain ⟨ha, ⟨p, hp⟩, hl⟩ := hl
      rw [List.length_cons, List.headD_cons, walkNodes, if_neg ha]
      simp only [nodeValue, nodeNext, if_neg ha, hp]
      rw [ih vs hl]

theorem IsList.node {h : Heap α} {as : List Nat} {vs : List α} (hl : IsList h as vs) {i a : Nat}
    (hi : as[i]? = some a) : a ≠ 0 ∧ ∃ n, h a = some n ∧ n.next = (as.drop (i + 1)).headD 0 := by
  induction as generalizing vs i with
  | nil => simp at hi
  | cons b as ih =>
    cases vs with
    | nil => exact hl.elim
    | cons v vs =>
      obtain ⟨hb, ⟨p, hp⟩, hl⟩ := hl
      cases i with
      | zero =>
        simp only [List.getElem?_cons_zero, Option.some.injEq] at hi
        subst hi
        exact ⟨hb, _, hp, by simp⟩
      | succ i =>
        rw [List.getElem?_cons_succ] at hi
        simpa using ih hl hi

/-- **C76** In a doubly linked list, going back by `k` from the node with index `i` gives the one with
index `i - k`. -/
theorem backNodes_correct (h : Heap α) (as : List Nat) (vs : List α) (hl : IsList h as vs)
    (hb : BackLinked h as) (k i : Nat) (hk : k ≤ i) (hi : i < as.length) :
    backNodes h k as[i] = as[i - k]? := by
  induction k generalizing i with
  | zero => simp [backNodes, List.getElem?_eq_getElem hi]
  | succ k ih =>
    obtain ⟨j, rfl⟩ : ∃ j, i = j + 1 := ⟨i - 1, by omega⟩
    obtain ⟨h0, n, hn, -⟩ := hl.node (List.getElem?_eq_getElem hi)
    have hp := hb j as[j] as[j + 1] n (List.getElem?_eq_getElem (by omega)) (List.getElem?_eq_getElem hi) hn
    rw [backNodes]
    simp only [nodePrev, if_neg h0, hn, hp]
    rw [ih j (by omega) (by omega), Nat.add_sub_add_right]

/-- **C76** `--` after `++` is the same iterator, except after the last node. -/
theorem next_prev (h : Heap α) (as : List Nat) (vs : List α) (hl : IsList h as vs) (hb : BackLinked h as)
    (i : Nat) (hi : i + 1 < as.length) :
    (nodeNext h (as[i]'(by omega))).bind (nodePrev h) = some (as[i]'(by omega)) := by
  obtain ⟨h0, n, hn, hx⟩ := hl.node (List.getElem?_eq_getElem (show i < as.length by omega))
  obtain ⟨h0', n', hn', -⟩ := hl.node (List.getElem?_eq_getElem hi)
  have hp := hb i _ _ n' (List.getElem?_eq_getElem (show i < as.length by omega))
    (List.getElem?_eq_getElem hi) hn'
  have hx' : n.next = as[i + 1] := by
    rw [hx, List.drop_eq_getElem_cons hi]; rfl
  simp only [nodeNext, if_neg h0, hn, Option.bind_some, hx', nodePrev, if_neg h0', hn', hp]

/-- **C76** (negation) `--` after the last `++` fails its assertion: the end of a list cannot be
decremented, although the iterator is declared bidirectional. -/
theorem end_prev_fails (h : Heap α) (as : List Nat) (vs : List α) (hl : IsList h as vs) (hne : as ≠ []) :
    nodeNext h (as.getLast hne) = some 0 ∧ nodePrev h 0 = none := by
  have hpos : 0 < as.length := List.length_pos_iff.2 hne
  have hi : as[as.length - 1]? = some (as.getLast hne) := by
    rw [List.getLast_eq_getElem, List.getElem?_eq_getElem (by omega)]
  obtain ⟨h0, n, hn, hx⟩ := hl.node hi
  refine ⟨?_, by simp [nodePrev]⟩
  rw [show as.length - 1 + 1 = as.length by omega, List.drop_length] at hx
  simp only [nodeNext, if_neg h0, hn, hx, List.headD_nil]

/-- A list of three nodes at 5, 2 and 9. -/
def demo : Heap Char := fun a =>
  if a = 5 then some ⟨'a', 2, 0⟩ else if a = 2 then some ⟨'b', 9, 5⟩ else if a = 9 then some ⟨'c', 0, 2⟩
  else none

example : IsList demo [5, 2, 9] ['a', 'b', 'c'] :=
  ⟨by decide, ⟨0, rfl⟩, by decide, ⟨5, rfl⟩, by decide, ⟨2, rfl⟩, trivial⟩

example : walkNodes demo 4 5 0 = some ['a', 'b', 'c'] ∧ backNodes demo 2 9 = some 5 := by decide +kernel

/-! ### Limited input -/

theorem drain_eq (n : Nat) (stream : List α) :
    (limited stream (n + 1 : Nat)).drain (n + 2) = some (stream.take (n + 1), stream.drop (n + 1)) := by
  induction n generalizing stream with
  | zero =>
    cases stream with
    | nil => simp [limited, Limited.drain]
    | cons x xs => simp [limited, Limited.drain, Limited.inc]
  | succ n ih =>
    cases stream with
    | nil => simp [limited, Limited.drain]
    | cons x xs =>
      have e := ih xs
      unfold limited at e ⊢
      rw [Limited.drain]
      have hinc : Limited.inc ⟨(x :: xs).head?, (x :: xs).tail, ((n + 1 + 1 : Nat) : Int)⟩ =
          some ⟨xs.head?, xs.tail, ((n + 1 : Nat) : Int)⟩ := by
        unfold Limited.inc
        simp only [List.head?_cons, List.tail_cons]
        rw [if_neg (by omega), if_pos (by omega)]
        simp
      rw [hinc]
      simp only [List.head?_cons]
      rw [e]
      simp

/-- **C77** A positive limit gives that many first elements of the stream (all of them if it is shorter),
and takes nothing more from the stream. -/
theorem limited_correct (n : Nat) (hn : 0 < n) (stream : List α) :
    (limited stream n).drain (n + 1) = some (stream.take n, stream.drop n) := by
  obtain ⟨m, rfl⟩ : ∃ m, n = m + 1 := ⟨n - 1, by omega⟩
  exact drain_eq m stream

/-- **C77** (negation) A limit of zero is not an empty range: for every stream that is not empty the range is
not at its end, an element has been taken from the stream, and the first increment fails its assertion. -/
theorem limited_zero_fails (x : α) (xs : List α) (fuel : Nat) :
    (limited (x :: xs) 0).base = some x ∧ (limited (x :: xs) 0).rest = xs ∧
    (limited (x :: xs) 0).drain fuel = none := by
  refine ⟨rfl, rfl, ?_⟩
  cases fuel <;> simp [Limited.drain, limited, Limited.inc]

example : (limited [4, 5, 6, 7] 2).drain 3 = some ([4, 5], [6, 7]) := by decide +kernel

end Actl.Iterators
