import Verif.Model.Ranges
import Verif.Spec.Ranges
import Verif.Lemmas.Ints
import Mathlib.Tactic.Linarith
import Mathlib.Tactic.Ring

/-!
C35 (integer ranges), C36 (cyclic iterators), C37 (filtered ranges), C38 (lexicographical
comparison).
-/

namespace Actl.Ranges

open Actl.Ints

/-! ### Integer ranges -/

theorem walk_of_steps (T : IntT) (step : Int) (f : Nat → Int) (n : Nat)
    (hn : ∀ k, k < n → next T step (f k) = some (f (k + 1))) (hne : ∀ k, k < n → f k ≠ f n) :
    walk T step (n + 1) (f 0) (f n) = some ((List.range n).map f) := by
  induction n generalizing f with
  | zero => simp [walk]
  | succ n ih =>
    rw [walk, if_neg (hne 0 (by omega)), hn 0 (by omega)]
    have := ih (fun k => f (k + 1)) (fun k hk => hn (k + 1) (by omega)) (fun k hk => hne (k + 1) (by omega))
    simp only [Nat.zero_add] at this ⊢
    rw [this]
    simp only [List.range_succ_eq_map, List.map_cons, List.map_map]
    rfl

theorem next_of_has (T : IntT) (hT : 0 < T.width) (step v : Int) (h : T.Has (v + step)) :
    next T step v = some (v + step) := by
  unfold next
  rw [arith_promote T hT _ h]
  simp only
  rw [cast_of_has T _ h hT]

theorem walk_linear (T : IntT) (hT : 0 < T.width) (first step : Int) (hs : step ≠ 0) (n : Nat)
    (hh : ∀ k : Nat, 0 < k → k ≤ n → T.Has (first + step * k)) :
    walk T step (n + 1) first (first + step * n) = some (progression first step n) := by
  have := walk_of_steps T step (fun k => first + step * k) n ?_ ?_
  · simpa [progression] using this
  · intro k hk
    have := hh (k + 1) (by omega) (by omega)
    push_cast at this ⊢
    rw [show first + step * ((k : Int) + 1) = first + step * k + step by ring] at this ⊢
    rw [next_of_has T hT _ _ this]
  · intro k hk he
    have : step * ((n : Int) - k) = 0 := by linarith
    rcases Int.mul_eq_zero.mp this with h | h
    · exact hs h
    · omega

theorem isCount_unique {first last step : Int} {n m : Nat} (hn : IsCount first last step n)
    (hm : IsCount first last step m) : n = m := by
  rcases Nat.lt_trichotomy n m with h | h | h
  · exact absurd ((hn n).mpr ((hm n).mp h)) (by omega)
  · exact h
  · exact absurd ((hm m).mpr ((hn m).mp h)) (by omega)

theorem isCount_pos (first last step : Int) (n : Nat) (hs : 0 < step) :
    IsCount first last step n ↔
      (n = 0 ∧ last ≤ first) ∨ (0 < n ∧ first + step * (n - 1) < last ∧ last ≤ first + step * n) := by
  unfold IsCount Before
  simp only [if_pos hs]
  constructor
  · intro h
    rcases Nat.eq_zero_or_pos n with h0 | h0
    · left
      refine ⟨h0, ?_⟩
      have := (not_congr (h 0)).mp (by omega)
      simpa using this
    · right
      have h1 := (h (n - 1)).mp (by omega)
      have h2 := (not_congr (h n)).mp (by omega)
      rw [Nat.cast_sub (by omega)] at h1
      push_cast at h1
      exact ⟨h0, h1, by omega⟩
  · intro h k
    rcases h with ⟨h0, h1⟩ | ⟨h0, h1, h2⟩
    · subst h0
      have : 0 ≤ step * (k : Int) := by positivity
      constructor
      · intro h; omega
      · intro h; omega
    · constructor
      · intro hk
        have : step * (k : Int) ≤ step * (n - 1) := mul_le_mul_of_nonneg_left (by omega) (by omega)
        omega
      · intro hk
        by_contra hge
        have : step * (n : Int) ≤ step * k := mul_le_mul_of_nonneg_left (by omega) (by omega)
        omega

theorem isCount_neg (first last step : Int) (n : Nat) (hs : step < 0) :
    IsCount first last step n ↔
      (n = 0 ∧ first < last) ∨ (0 < n ∧ last ≤ first + step * (n - 1) ∧ first + step * n < last) := by
  unfold IsCount Before
  simp only [if_neg (show ¬ 0 < step by omega)]
  constructor
  · intro h
    rcases Nat.eq_zero_or_pos n with h0 | h0
    · left
      refine ⟨h0, ?_⟩
      have := (not_congr (h 0)).mp (by omega)
      simpa using this
    · right
      have h1 := (h (n - 1)).mp (by omega)
      have h2 := (not_congr (h n)).mp (by omega)
      rw [Nat.cast_sub (by omega)] at h1
      push_cast at h1
      exact ⟨h0, h1, by omega⟩
  · intro h k
    rcases h with ⟨h0, h1⟩ | ⟨h0, h1, h2⟩
    · subst h0
      have : step * (k : Int) ≤ 0 := mul_nonpos_of_nonpos_of_nonneg (by omega) (by omega)
      constructor
      · intro h; omega
      · intro h; omega
    · constructor
      · intro hk
        have : step * ((n : Int) - 1) ≤ step * k := mul_le_mul_of_nonpos_left (by omega) (by omega)
        omega
      · intro hk
        by_contra hge
        have : step * (k : Int) ≤ step * n := mul_le_mul_of_nonpos_left (by omega) (by omega)
        omega

theorem has_between (T : IntT) {a b x : Int} (ha : T.Has a) (hb : T.Has b) (h1 : a ≤ x) (h2 : x ≤ b) :
    T.Has x := ⟨by have := ha.1; omega, by have := hb.2; omega⟩

/-- **C35** `irange(first, last)` of every integer type and all bounds: iteration gives
`first, first + 1, ...` below `last`, without undefined behaviour. -/
theorem irange_correct (T : IntT) (hT : 0 < T.width) (first last : Int) (hf : T.Has first)
    (hl : T.Has last) : ∃ n, IsCount first last 1 n ∧
      walk T 1 (n + 1) (irange first last).1 (irange first last).2 = some (progression first 1 n) := by
  unfold irange
  by_cases h : first ≥ last
  · refine ⟨0, (isCount_pos _ _ _ _ (by decide)).mpr (Or.inl ⟨rfl, h⟩), ?_⟩
    rw [if_pos h]; simp [walk, progression]
  · obtain ⟨n, hn⟩ : ∃ n : Nat, last = first + n := ⟨(last - first).toNat, by omega⟩
    refine ⟨n, (isCount_pos _ _ _ _ (by decide)).mpr (Or.inr ⟨by omega, by omega, by omega⟩), ?_⟩
    rw [if_neg h]
    have := walk_linear T hT first 1 (by decide) n (fun k hk hkn => has_between T hf hl (by omega) (by omega))
    rw [show first + 1 * (n : Int) = last by omega] at this
    exact this

/-- **C35** Its `size()` is the number of elements, provided the difference of the bounds is
representable in the promoted type (always for unsigned and narrow types). -/
theorem irange_size (T : IntT) (hT : 1 < T.width) (first last : Int) (n : Nat)
    (hn : IsCount first last 1 n) (hd : T.promote.Has n) : size T 1 (irange first last) = some (n : Int) := by
  have hw : 1 < T.promote.width := by
    unfold IntT.promote
    split
    · decide
    · exact hT
  have h1 : T.promote.cast 1 = 1 := by
    apply cast_of_has _ _ _ (by omega)
    unfold IntT.Has IntT.lo IntT.hi
    have : (2 : Int) ^ 1 ≤ 2 ^ (T.promote.width - 1) := pow_le_pow_right₀ (by decide) (by omega)
    have : (2 : Int) ^ 1 ≤ 2 ^ (T.promote.width) := pow_le_pow_right₀ (by decide) (by omega)
    split <;> constructor <;> omega
  have he : (irange first last).2 - (irange first last).1 = n := by
    unfold irange
    rcases (isCount_pos _ _ _ _ (by decide)).mp hn with ⟨h0, h2⟩ | ⟨h0, h2, h3⟩
    · rw [if_pos h2]; simp [h0]
    · rw [if_neg (by omega)]; simp only; omega
  unfold size
  rw [he, arith_of_has _ (by omega) _ hd]
  simp only
  rw [h1, Int.tdiv_one, arith_of_has _ (by omega) _ hd]
  simp only
  rw [cast_of_has]
  · unfold IntT.Has IntT.lo IntT.hi at hd ⊢
    have : (2 : Int) ^ (T.promote.width - 1) ≤ 2 ^ (T.promote.width) := pow_le_pow_right₀ (by decide) (by omega)
    refine ⟨by simp, ?_⟩
    split at hd <;> simp <;> omega
  · simp only; omega

example : walk ⟨true, 8⟩ 1 300 (irange (-128) 127).1 (irange (-128) 127).2 = some (progression (-128) 1 255) ∧
    size ⟨true, 8⟩ 1 (irange (-128) 127) = some 255 ∧
    walk ⟨false, 32⟩ 1 9 (irange 3 7).1 (irange 3 7).2 = some [3, 4, 5, 6] := by decide +kernel

/-- **C35** (limit) The size of a signed range longer than the type is undefined. -/
theorem irange_size_ub (w : Nat) (hw : 32 ≤ w) (first last : Int) (h : 2 ^ (w - 1) ≤ last - first) :
    size ⟨true, w⟩ 1 (irange first last) = none := by
  have hp : (0 : Int) < 2 ^ (w - 1) := by positivity
  unfold size irange
  rw [promote_wide ⟨true, w⟩ hw, if_neg (by omega)]
  simp only [IntT.arith, if_true]
  rw [if_neg]
  unfold IntT.Has IntT.hi
  simp only [if_true]
  omega

example : size ⟨true, 32⟩ 1 (irange (-2147483648) 1) = none := by decide

/-- **C35** `drange(first, last)` of signed types: iteration gives `first, first - 1, ...` down to
`last`, and the right size, except that it is undefined for the lowest `last` (if not empty). -/
theorem drange_signed (w : Nat) (hw : 32 ≤ w) (first last : Int) (hf : (⟨true, w⟩ : IntT).Has first)
    (hl : (⟨true, w⟩ : IntT).Has last) (n : Nat) (hn : IsCount first last (-1) n) :
    (last = -2 ^ (w - 1) ∧ 0 < n ∧ drange ⟨true, w⟩ first last = none) ∨
    ((last = -2 ^ (w - 1) → n = 0) ∧ ∃ r, drange ⟨true, w⟩ first last = some r ∧
      walk ⟨true, w⟩ (-1) (n + 1) r.1 r.2 = some (progression first (-1) n) ∧
      ((⟨true, w⟩ : IntT).Has (-(n : Int)) → (⟨true, w⟩ : IntT).Has n →
        size ⟨true, w⟩ (-1) r = some n)) := by
  have hp : (2 : Int) ^ 31 ≤ 2 ^ (w - 1) := pow_le_pow_right₀ (by decide) (by omega)
  have hpr := promote_wide ⟨true, w⟩ hw
  have hsz : ∀ e, e - first = -(n : Int) → (⟨true, w⟩ : IntT).Has (-(n : Int)) → (⟨true, w⟩ : IntT).Has n →
      size ⟨true, w⟩ (-1) (first, e) = some (n : Int) := by
    intro e he h1 h2
    unfold size
    simp only
    rw [hpr, he, arith_of_has _ (by simp; omega) _ h1]
    simp only
    rw [cast_of_has _ (-1) _ (by simp; omega), Int.tdiv_neg, Int.tdiv_one, neg_neg,
      arith_of_has _ (by simp; omega) _ h2]
    · simp only
      rw [cast_of_has _ _ _ (by simp; omega)]
      unfold IntT.Has IntT.lo IntT.hi at h2 ⊢
      have : (2 : Int) ^ (w - 1) ≤ 2 ^ w := pow_le_pow_right₀ (by decide) (by omega)
      simp at h2 ⊢
      omega
    · unfold IntT.Has IntT.lo IntT.hi; simp; omega
  unfold drange
  by_cases h : first < last
  · right
    have h0 : n = 0 := by
      rcases (isCount_neg _ _ _ _ (by decide)).mp hn with ⟨h0, h2⟩ | ⟨h0, h2, h3⟩
      · exact h0
      · omega
    refine ⟨fun _ => h0, (first, first), by rw [if_pos h], by simp [walk, progression, h0], hsz first (by simp [h0])⟩
  · rw [if_neg h]
    have hpos : 0 < n ∧ first - last + 1 = n := by
      rcases (isCount_neg _ _ _ _ (by decide)).mp hn with ⟨h0, h2⟩ | ⟨h0, h2, h3⟩
      · omega
      · exact ⟨h0, by omega⟩
    by_cases hm : last = -2 ^ (w - 1)
    · left
      refine ⟨hm, hpos.1, ?_⟩
      simp only [IntT.arith, if_true]
      rw [if_neg]
      unfold IntT.Has IntT.lo; simp only [if_true]; omega
    · right
      have hlh : (⟨true, w⟩ : IntT).Has (last - 1) := by
        unfold IntT.Has IntT.lo IntT.hi at hl ⊢; simp only [if_true] at hl ⊢; omega
      refine ⟨fun e => absurd e hm, (first, last - 1), by rw [arith_of_has _ (by simp; omega) _ hlh], ?_, hsz _ (by omega)⟩
      have := walk_linear ⟨true, w⟩ (by simp; omega) first (-1) (by decide) n
        (fun k hk hkn => has_between _ hlh hf (by omega) (by omega))
      rw [show first + -1 * (n : Int) = last - 1 by omega] at this
      exact this

theorem next_unsigned (w : Nat) (hw : 32 ≤ w) (step v : Int) :
    next ⟨false, w⟩ step v = some ((v + step) % 2 ^ w) := by
  unfold next
  rw [promote_wide ⟨false, w⟩ hw]
  simp [IntT.arith, IntT.cast, IntT.lo]

/-- **C35** `drange(first, last)` of unsigned types: iteration is right for all bounds, zero
included, except for the range of all the values of the type. -/
theorem drange_unsigned (w : Nat) (hw : 32 ≤ w) (first last : Int) (hf : (⟨false, w⟩ : IntT).Has first)
    (hl : (⟨false, w⟩ : IntT).Has last) (hall : ¬ (first = 2 ^ w - 1 ∧ last = 0)) (n : Nat)
    (hn : IsCount first last (-1) n) :
    ∃ r, drange ⟨false, w⟩ first last = some r ∧
      walk ⟨false, w⟩ (-1) (n + 1) r.1 r.2 = some (progression first (-1) n) := by
  unfold IntT.Has IntT.lo IntT.hi at hf hl
  simp only [Bool.false_eq_true, if_false] at hf hl
  unfold drange
  by_cases h : first < last
  · have h0 : n = 0 := by
      rcases (isCount_neg _ _ _ _ (by decide)).mp hn with ⟨h0, h2⟩ | ⟨h0, h2, h3⟩
      · exact h0
      · omega
    exact ⟨(first, first), by rw [if_pos h], by simp [walk, progression, h0]⟩
  · have hpos : 0 < n ∧ first - last + 1 = n := by
      rcases (isCount_neg _ _ _ _ (by decide)).mp hn with ⟨h0, h2⟩ | ⟨h0, h2, h3⟩
      · omega
      · exact ⟨h0, by omega⟩
    refine ⟨(first, (last - 1) % 2 ^ w), by rw [if_neg h]; simp [IntT.arith, IntT.cast, IntT.lo], ?_⟩
    have hw' := walk_of_steps ⟨false, w⟩ (-1) (fun k => (first + -1 * k) % 2 ^ w) n
      (fun k hk => by
        rw [next_unsigned w hw]
        push_cast
        rw [Int.emod_add_emod]
        congr 2; ring)
      (fun k hk he => by
        have h1 : (first + -1 * (k : Int)) % 2 ^ w = first - k := by
          rw [Int.emod_eq_of_lt (by omega) (by omega)]; ring
        rw [h1, show first + -1 * (n : Int) = last - 1 by omega] at he
        by_cases hz : last = 0
        · subst hz
          rw [show ((0 : Int) - 1) % 2 ^ w = 2 ^ w - 1 by
            rw [← Int.add_emod_right, Int.emod_eq_of_lt (by omega) (by omega)]; ring] at he
          omega
        · rw [Int.emod_eq_of_lt (by omega) (by omega)] at he
          omega)
    simp only [Nat.cast_zero, mul_zero, add_zero] at hw'
    rw [Int.emod_eq_of_lt hf.1 hf.2, show first + -1 * (n : Int) = last - 1 by omega] at hw'
    rw [hw']
    congr 1
    apply List.map_congr_left
    intro k hk
    rw [List.mem_range] at hk
    rw [Int.emod_eq_of_lt (by omega) (by omega)]

/-- **C35** (negation) The decreasing range of all the values of an unsigned type is empty. -/
theorem drange_unsigned_all_fails (w : Nat) (hw : 32 ≤ w) :
    drange ⟨false, w⟩ (2 ^ w - 1) 0 = some (2 ^ w - 1, 2 ^ w - 1) := by
  have hp : (2 : Int) ^ 32 ≤ 2 ^ w := pow_le_pow_right₀ (by decide) (by omega)
  unfold drange
  rw [if_neg (by omega)]
  simp only [IntT.arith, IntT.cast, IntT.lo, Bool.false_eq_true, if_false, sub_zero, add_zero]
  rw [show ((0 : Int) - 1) % 2 ^ w = 2 ^ w - 1 by
    rw [← Int.add_emod_right, Int.emod_eq_of_lt (by omega) (by omega)]; ring]

/-- **C35** (negation) But the `size()` of a decreasing range of an unsigned type with more than one
element is always reported as 0. -/
theorem drange_unsigned_size_fails (w : Nat) (hw : 32 ≤ w) (first last : Int)
    (hf : (⟨false, w⟩ : IntT).Has first) (hl : (⟨false, w⟩ : IntT).Has last) (h : last < first) :
    ∃ r, drange ⟨false, w⟩ first last = some r ∧ size ⟨false, w⟩ (-1) r = some 0 := by
  unfold IntT.Has IntT.lo IntT.hi at hf hl
  simp only [Bool.false_eq_true, if_false] at hf hl
  refine ⟨(first, (last - 1) % 2 ^ w), by unfold drange; rw [if_neg (by omega)]; simp [IntT.arith, IntT.cast, IntT.lo], ?_⟩
  unfold size
  rw [promote_wide ⟨false, w⟩ hw]
  simp only [IntT.arith, IntT.cast, IntT.lo, Bool.false_eq_true, if_false, sub_zero, add_zero]
  have h1 : ((last - 1) % 2 ^ w - first) % 2 ^ w = 2 ^ w - 1 - (first - last) := by
    rw [Int.emod_sub_emod, ← Int.add_emod_right, Int.emod_eq_of_lt (by omega) (by omega)]; ring
  have h2 : (-1 : Int) % 2 ^ w = 2 ^ w - 1 := by
    rw [← Int.add_emod_right, Int.emod_eq_of_lt (by omega) (by omega)]; ring
  rw [h1, h2, Int.tdiv_eq_zero_of_lt (by omega) (by omega)]
  simp

example : (drange ⟨false, 32⟩ 5 0).bind (fun r => walk ⟨false, 32⟩ (-1) 10 r.1 r.2) = some [5, 4, 3, 2, 1, 0] ∧
    (drange ⟨false, 32⟩ 5 0).bind (size ⟨false, 32⟩ (-1)) = some 0 ∧
    (drange ⟨true, 32⟩ 5 0).bind (size ⟨true, 32⟩ (-1)) = some 6 := by decide

/-- The quotient in `irange` with a step counts the elements. -/
theorem quotient_eq (first last step : Int) (n : Nat) (hs : step ≠ 0) (hn : IsCount first last step n)
    (hpos : 0 < n) : (last - first - (if step > 0 then 1 else 0)).tdiv step + 1 = n := by
  rcases Int.lt_or_gt_of_ne hs with h | h
  · rw [if_neg (by omega)]
    rcases (isCount_neg _ _ _ _ h).mp hn with ⟨h0, h2⟩ | ⟨h0, h2, h3⟩
    · omega
    · have hd : last - first ≤ 0 := by
        have : step * ((n : Int) - 1) ≤ 0 := mul_nonpos_of_nonpos_of_nonneg (by omega) (by omega)
        omega
      have he : (last - first - 0).tdiv step = (first - last) / (-step) := by
        rw [show last - first - 0 = -(first - last) by ring, Int.neg_tdiv,
          show step = -(-step) by ring, Int.tdiv_neg, neg_neg, neg_neg, Int.tdiv_eq_ediv_of_nonneg (by omega)]
      rw [he]
      have : (first - last) / (-step) = (n : Int) - 1 := by
        rw [Int.ediv_eq_iff_of_pos (by omega)]
        constructor
        · nlinarith
        · nlinarith
      omega
  · rw [if_pos h]
    rcases (isCount_pos _ _ _ _ h).mp hn with ⟨h0, h2⟩ | ⟨h0, h2, h3⟩
    · omega
    · have hd : 0 ≤ last - first - 1 := by
        have : 0 ≤ step * ((n : Int) - 1) := mul_nonneg (by omega) (by omega)
        omega
      rw [Int.tdiv_eq_ediv_of_nonneg hd]
      have : (last - first - 1) / step = (n : Int) - 1 := by
        rw [Int.ediv_eq_iff_of_pos h]
        constructor
        · nlinarith
        · nlinarith
      omega

/-- **C35** `irange(first, last, step)` of signed types, for steps of both signs: undefined exactly if
one of the difference of the bounds, the number of elements, the length of the range and the value
after the last element is not representable; otherwise iteration and size are right. -/
theorem irangeStep_signed (w : Nat) (hw : 32 ≤ w) (first last step : Int) (hf : (⟨true, w⟩ : IntT).Has first)
    (hst : (⟨true, w⟩ : IntT).Has step) (hs : step ≠ 0) (n : Nat) (hn : IsCount first last step n)
    (hpos : 0 < n) :
    let T : IntT := ⟨true, w⟩
    if T.Has (last - first) ∧ T.Has n ∧ T.Has (step * n) ∧ T.Has (first + step * n) then
      ∃ r, irangeStep T first last step = some r ∧
        walk T step (n + 1) r.1 r.2 = some (progression first step n) ∧ size T step r = some (n : Int)
    else irangeStep T first last step = none := by
  intro T
  have hTw : 0 < T.width := by show 0 < w; omega
  have hp : (2 : Int) ^ 31 ≤ 2 ^ (w - 1) := pow_le_pow_right₀ (by decide) (by omega)
  have hc : T.cast step = step := cast_of_has T _ hst hTw
  have hq := quotient_eq first last step n hs hn hpos
  have hcond : ¬ (if step > 0 then first ≥ last else first < last) := by
    have := (hn 0).mp hpos
    unfold Before at this
    simp only [Nat.cast_zero, mul_zero, add_zero] at this
    split at this <;> split <;> omega
  have harith : ∀ x, T.arith x = if T.Has x then some x else none := fun x => by
    show (if true = true then _ else _) = _; rw [if_pos rfl]
  have hasIff : ∀ x, T.Has x ↔ -2 ^ (w - 1) ≤ x ∧ x < 2 ^ (w - 1) := fun x => by
    unfold IntT.Has IntT.lo IntT.hi; simp [T]
  have hd1 : T.Has (last - first) → T.Has (last - first - (if step > 0 then 1 else 0)) := by
    have := (hn 0).mp hpos
    unfold Before at this
    simp only [Nat.cast_zero, mul_zero, add_zero] at this
    rw [hasIff, hasIff]
    split at this <;> split <;> omega
  have hqn : (last - first - (if step > 0 then 1 else 0)).tdiv step = (n : Int) - 1 := by omega
  split
  · rename_i h
    obtain ⟨h1, h2, h3, h4⟩ := h
    have h2' : T.Has ((n : Int) - 1) := by rw [hasIff] at h2 ⊢; omega
    refine ⟨(first, first + step * n), ?_, ?_, ?_⟩
    · unfold irangeStep
      rw [if_neg hcond, arith_of_has T hTw _ h1]
      simp only
      rw [arith_of_has T hTw _ (hd1 h1)]
      simp only
      rw [hc, hqn, arith_of_has T hTw _ h2']
      simp only
      rw [sub_add_cancel, arith_of_has T hTw _ h2]
      simp only
      rw [arith_of_has T hTw _ h3]
      simp only
      rw [arith_of_has T hTw _ h4]
    · apply walk_linear T hTw _ _ hs
      intro k hk hkn
      rcases Int.lt_or_gt_of_ne hs with h | h
      · have e1 : step * (n : Int) ≤ step * k := mul_le_mul_of_nonpos_left (by omega) (by omega)
        have e2 : step * (k : Int) ≤ 0 := mul_nonpos_of_nonpos_of_nonneg (by omega) (by omega)
        exact has_between T h4 hf (by omega) (by omega)
      · have e1 : step * (k : Int) ≤ step * n := mul_le_mul_of_nonneg_left (by omega) (by omega)
        have e2 : 0 ≤ step * (k : Int) := mul_nonneg (by omega) (by omega)
        exact has_between T hf h4 (by omega) (by omega)
    · unfold size
      rw [promote_wide T hw]
      simp only
      rw [add_sub_cancel_left, arith_of_has T hTw _ h3]
      simp only
      rw [hc, Int.mul_tdiv_cancel_left _ hs, arith_of_has T hTw _ h2]
      simp only
      rw [cast_of_has ⟨false, T.width⟩ _ _ hTw]
      rw [hasIff] at h2
      have : (2 : Int) ^ (w - 1) ≤ 2 ^ w := pow_le_pow_right₀ (by decide) (by omega)
      unfold IntT.Has IntT.lo IntT.hi
      simp only [Bool.false_eq_true, if_false]
      exact ⟨by omega, by show (n : Int) < 2 ^ w; omega⟩
  · rename_i h
    unfold irangeStep
    rw [if_neg hcond, harith]
    by_cases h1 : T.Has (last - first)
    · rw [if_pos h1]
      simp only
      rw [arith_of_has T hTw _ (hd1 h1)]
      simp only
      rw [hc, hqn, harith]
      by_cases h2' : T.Has ((n : Int) - 1)
      · rw [if_pos h2']
        simp only
        rw [sub_add_cancel, harith]
        by_cases h2 : T.Has n
        · rw [if_pos h2]
          simp only
          rw [harith]
          by_cases h3 : T.Has (step * n)
          · rw [if_pos h3]
            simp only
            rw [harith, if_neg (fun h4 => h ⟨h1, h2, h3, h4⟩)]
          · rw [if_neg h3]
        · rw [if_neg h2]
      · rw [if_neg h2']
    · rw [if_neg h1]

/-- **C35** An empty progression gives an empty range, of all types and for all steps. -/
theorem irangeStep_empty (T : IntT) (first last step : Int) (hs : step ≠ 0)
    (hn : IsCount first last step 0) : irangeStep T first last step = some (first, first) := by
  have := (not_congr (hn 0)).mp (by omega)
  unfold Before at this
  simp only [Nat.cast_zero, mul_zero, add_zero] at this
  unfold irangeStep
  rw [if_pos]
  split at this <;> split <;> omega

example : (irangeStep ⟨true, 32⟩ 1 10 3).bind (fun r => walk ⟨true, 32⟩ 3 10 r.1 r.2) = some [1, 4, 7] ∧
    (irangeStep ⟨true, 32⟩ 1 11 3).bind (fun r => walk ⟨true, 32⟩ 3 10 r.1 r.2) = some [1, 4, 7, 10] ∧
    (irangeStep ⟨true, 32⟩ 10 1 (-3)).bind (fun r => walk ⟨true, 32⟩ (-3) 10 r.1 r.2) = some [10, 7, 4, 1] ∧
    (irangeStep ⟨true, 32⟩ 10 1 (-3)).bind (size ⟨true, 32⟩ (-3)) = some 4 ∧
    irangeStep ⟨true, 32⟩ 2000000000 2147483647 1000000000 = none := by decide

/-- **C35** `irange(first, last, step)` of unsigned types with a positive step: right, unless the
length of the range is exactly 2^width; then it is empty. -/
theorem irangeStep_unsigned (w : Nat) (hw : 32 ≤ w) (first last step : Int)
    (hf : (⟨false, w⟩ : IntT).Has first) (hl : (⟨false, w⟩ : IntT).Has last)
    (hst : (⟨false, w⟩ : IntT).Has step) (hs : 0 < step) (n : Nat) (hn : IsCount first last step n)
    (hpos : 0 < n) :
    ∃ r, irangeStep ⟨false, w⟩ first last step = some r ∧
      if step * n = 2 ^ w then r.1 = r.2
      else walk ⟨false, w⟩ step (n + 1) r.1 r.2 = some (progression first step n) ∧
        (size ⟨false, w⟩ step r = some (n : Int) ↔ step * n < 2 ^ w) := by
  have hm : ∀ x, (⟨false, w⟩ : IntT).arith x = some (x % 2 ^ w) := fun x => by
    simp [IntT.arith, IntT.cast, IntT.lo]
  have hcm : ∀ x, (⟨false, w⟩ : IntT).cast x = x % 2 ^ w := fun x => by simp [IntT.cast, IntT.lo]
  have hp : (2 : Int) ^ 32 ≤ 2 ^ w := pow_le_pow_right₀ (by decide) (by omega)
  have hq := quotient_eq first last step n (by omega) hn hpos
  rw [if_pos hs] at hq
  have hb : first + step * (n - 1) < last ∧ last ≤ first + step * n := by
    rcases (isCount_pos _ _ _ _ hs).mp hn with ⟨h0, h2⟩ | ⟨h0, h2, h3⟩
    · omega
    · exact ⟨h2, h3⟩
  unfold IntT.Has IntT.lo IntT.hi at hf hl hst
  simp only [Bool.false_eq_true, if_false] at hf hl hst
  have hfl : first < last := by
    have : 0 ≤ step * ((n : Int) - 1) := mul_nonneg (by omega) (by omega)
    omega
  have hexp : step * ((n : Int) - 1) = step * n - step := by ring
  have hnle : (n : Int) < 2 ^ w := by
    have : (n : Int) - 1 ≤ step * (n - 1) := le_mul_of_one_le_left (by omega) (by omega)
    omega
  have hr : irangeStep ⟨false, w⟩ first last step = some (first, (first + step * n) % 2 ^ w) := by
    unfold irangeStep
    rw [if_neg (by rw [if_pos hs]; omega)]
    simp only [hm, hcm, if_pos hs]
    rw [Int.emod_eq_of_lt (a := last - first) (by omega) (by omega),
      Int.emod_eq_of_lt (a := last - first - 1) (by omega) (by omega),
      Int.emod_eq_of_lt hst.1 hst.2, show (last - first - 1).tdiv step = (n : Int) - 1 by omega,
      Int.emod_eq_of_lt (a := (n : Int) - 1) (by omega) (by omega), sub_add_cancel,
      Int.emod_eq_of_lt (a := (n : Int)) (by omega) (by omega), Int.add_emod_emod]
  refine ⟨_, hr, ?_⟩
  by_cases hfull : step * (n : Int) = 2 ^ w
  · rw [if_pos hfull]
    simp only
    rw [hfull, Int.add_emod_right, Int.emod_eq_of_lt hf.1 hf.2]
  · rw [if_neg hfull]
    refine ⟨?_, ?_⟩
    · have hle : ∀ k : Nat, k < n → step * (k : Int) ≤ step * n - step := by
        intro k hk
        have : step * (k : Int) ≤ step * (n - 1) := mul_le_mul_of_nonneg_left (by omega) (by omega)
        omega
      have hge : ∀ k : Nat, 0 ≤ step * (k : Int) := fun k => mul_nonneg (by omega) (by omega)
      have hsmall : ∀ k : Nat, k < n → (first + step * (k : Int)) % 2 ^ w = first + step * k := by
        intro k hk
        have := hle k hk
        have := hge k
        rw [Int.emod_eq_of_lt (by omega) (by omega)]
      have hw' := walk_of_steps ⟨false, w⟩ step (fun k => (first + step * k) % 2 ^ w) n
        (fun k hk => by
          rw [next_unsigned w hw]
          push_cast
          rw [Int.emod_add_emod]
          congr 2; ring)
        (fun k hk he => by
          rw [hsmall k hk] at he
          have e1 := hle k hk
          have e2 := hge k
          have hlo : 0 ≤ first + step * (n : Int) := by omega
          by_cases hov : first + step * (n : Int) < 2 ^ w
          · rw [Int.emod_eq_of_lt hlo hov] at he
            omega
          · rw [← Int.sub_emod_right, Int.emod_eq_of_lt (by omega) (by omega)] at he
            -- the end lies one turn after the element `k`
            have hk0 : k = 0 := by
              by_contra hk0
              have : step * 1 ≤ step * (k : Int) := mul_le_mul_of_nonneg_left (by omega) (by omega)
              omega
            subst hk0
            simp at he
            omega)
      simp only [Nat.cast_zero, mul_zero, add_zero] at hw'
      rw [Int.emod_eq_of_lt hf.1 hf.2] at hw'
      rw [hw']
      congr 1
      apply List.map_congr_left
      intro k hk
      exact hsmall k (List.mem_range.mp hk)
    · unfold size
      rw [promote_wide ⟨false, w⟩ hw]
      simp only [hm, hcm]
      rw [Int.emod_sub_emod, add_sub_cancel_left, Int.emod_eq_of_lt hst.1 hst.2]
      have hnn : 0 ≤ step * (n : Int) := mul_nonneg (by omega) (by omega)
      constructor
      · intro h
        by_contra hge
        have hlt2 : step * (n : Int) - 2 ^ w < step * n - step := by omega
        rw [show step * (n : Int) % 2 ^ w = step * n - 2 ^ w by
          rw [← Int.sub_emod_right, Int.emod_eq_of_lt (by omega) (by omega)]] at h
        rw [Int.tdiv_eq_ediv_of_nonneg (by omega)] at h
        have hlt : (step * (n : Int) - 2 ^ w) / step < n := by
          rw [Int.ediv_lt_iff_lt_mul hs, mul_comm]; omega
        have hge0 : 0 ≤ (step * (n : Int) - 2 ^ w) / step := Int.ediv_nonneg (by omega) (by omega)
        rw [Int.emod_eq_of_lt (a := (step * (n : Int) - 2 ^ w) / step) (by omega) (by omega),
          Int.emod_eq_of_lt (a := (step * (n : Int) - 2 ^ w) / step) (by omega) (by omega)] at h
        injection h with h
        omega
      · intro h
        rw [Int.emod_eq_of_lt hnn h, Int.mul_tdiv_cancel_left _ (by omega),
          Int.emod_eq_of_lt (a := (n : Int)) (by omega) hnle, Int.emod_eq_of_lt (a := (n : Int)) (by omega) hnle]

example : (irangeStep ⟨false, 32⟩ 1 10 3).bind (fun r => walk ⟨false, 32⟩ 3 10 r.1 r.2) = some [1, 4, 7] ∧
    irangeStep ⟨false, 32⟩ 0 (2 ^ 32 - 1) 2 = some (0, 0) := by decide

/-- **C35** (negation) For unsigned types and a negative step, the range has at most two
elements according to its bounds, whatever the distance. -/
theorem irangeStep_unsigned_negative_fails (w : Nat) (hw : 32 ≤ w) (first last step : Int)
    (hf : (⟨false, w⟩ : IntT).Has first) (hl : (⟨false, w⟩ : IntT).Has last) (hs : step < 0)
    (hs2 : -2 ^ (w - 1) < step) (h : last ≤ first) :
    irangeStep ⟨false, w⟩ first last step =
      some (first, (first + step * (if last < first ∧ first - last ≤ -step then 2 else 1)) % 2 ^ w) := by
  have hm : ∀ x, (⟨false, w⟩ : IntT).arith x = some (x % 2 ^ w) := fun x => by
    simp [IntT.arith, IntT.cast, IntT.lo]
  have hcm : ∀ x, (⟨false, w⟩ : IntT).cast x = x % 2 ^ w := fun x => by simp [IntT.cast, IntT.lo]
  have hp : (2 : Int) ^ 32 ≤ 2 ^ w := pow_le_pow_right₀ (by decide) (by omega)
  have hp2 : (2 : Int) ^ w = 2 * 2 ^ (w - 1) := by
    obtain ⟨m, rfl⟩ : ∃ m, w = m + 1 := ⟨w - 1, by omega⟩
    rw [Nat.add_sub_cancel, pow_succ]; ring
  unfold IntT.Has IntT.lo IntT.hi at hf hl
  simp only [Bool.false_eq_true, if_false] at hf hl
  unfold irangeStep
  rw [if_neg (by rw [if_neg (by omega)]; omega)]
  simp only [hm, hcm, if_neg (show ¬ step > 0 by omega), sub_zero, Int.emod_emod]
  have hsm : step % 2 ^ w = 2 ^ w + step := by
    rw [← Int.add_emod_right, Int.emod_eq_of_lt (by omega) (by omega)]; ring
  rw [hsm]
  rcases Int.lt_or_eq_of_le h with hlt | heq
  · have hdm : (last - first) % 2 ^ w = 2 ^ w - (first - last) := by
      rw [← Int.add_emod_right, Int.emod_eq_of_lt (by omega) (by omega)]; ring
    rw [hdm, Int.tdiv_eq_ediv_of_nonneg (by omega)]
    by_cases hle : first - last ≤ -step
    · rw [if_pos ⟨hlt, hle⟩]
      have : (2 ^ w - (first - last)) / (2 ^ w + step) = 1 := by
        rw [Int.ediv_eq_iff_of_pos (by omega)]; constructor <;> omega
      rw [this, Int.emod_eq_of_lt (a := 1) (by omega) (by omega), show (1 : Int) + 1 = 2 by rfl,
        Int.emod_eq_of_lt (a := 2) (by omega) (by omega), Int.add_emod_emod]
    · rw [if_neg (by omega)]
      have : (2 ^ w - (first - last)) / (2 ^ w + step) = 0 := by
        rw [Int.ediv_eq_iff_of_pos (by omega)]; constructor <;> omega
      rw [this]
      simp only [Int.zero_emod, zero_add]
      rw [Int.emod_eq_of_lt (a := 1) (by omega) (by omega), Int.add_emod_emod]
  · subst heq
    rw [if_neg (by omega)]
    simp only [sub_self, Int.zero_emod, Int.zero_tdiv, zero_add]
    rw [Int.emod_eq_of_lt (a := 1) (by omega) (by omega), Int.add_emod_emod]

example : (irangeStep ⟨false, 32⟩ 10 1 (-3)).bind (fun r => walk ⟨false, 32⟩ (-3) 10 r.1 r.2) = some [10] := by
  decide

/-! ### Cyclic iterators -/

/-- The displacement of a move. -/
def Move.by : Move → Int
  | .inc => 1
  | .dec => -1
  | .add k => k
  | .sub k => -k

theorem cyclicMove_eq (n pos : Int) (h0 : 0 ≤ pos) (h1 : pos < n) (m : Move) (hm : |m.by| < n) :
    cyclicMove n pos m = some ((pos + m.by) % n) := by
  rw [abs_lt] at hm
  have key : ∀ k : Int, -n < k → k < n → cyclicAdd n pos k = some ((pos + k) % n) := by
    intro k hk1 hk2
    unfold cyclicAdd shift
    split
    · split
      · rw [if_pos (by omega), ← Int.sub_emod_right, Int.emod_eq_of_lt (by omega) (by omega)]
        congr 1; ring
      · rw [if_pos (by omega), Int.emod_eq_of_lt (by omega) (by omega)]
        congr 1; ring
    · split
      · rw [if_pos (by omega), ← Int.add_emod_right, Int.emod_eq_of_lt (by omega) (by omega)]
        congr 1; ring
      · rw [if_pos (by omega), Int.emod_eq_of_lt (by omega) (by omega)]
        congr 1; ring
  cases m with
  | inc =>
    simp only [cyclicMove, Move.by, shift]
    rw [if_pos (by omega)]
    simp only
    split
    · rename_i h; rw [h, Int.emod_self]
    · rw [Int.emod_eq_of_lt (by omega) (by omega)]
  | dec =>
    simp only [cyclicMove, Move.by, shift]
    split
    · rename_i h
      rw [if_pos (by omega), h, ← Int.add_emod_right, Int.emod_eq_of_lt (by omega) (by omega)]
      congr 1; ring
    · rw [if_pos (by omega), Int.emod_eq_of_lt (by omega) (by omega)]
  | add k => exact key k (by simpa [Move.by] using hm.1) (by simpa [Move.by] using hm.2)
  | sub k =>
    have h1 : -n < -k := hm.1
    have h2 : -k < n := hm.2
    exact key (-k) h1 h2

/-- **C36** After any sequence of `++`, `--`, `+=`, `-=` (by less than the size) the iterator
designates the start index plus the net displacement modulo the size, inside the range. -/
theorem cyclic_moves (n pos : Int) (h0 : 0 ≤ pos) (h1 : pos < n) (ms : List Move)
    (hm : ∀ m ∈ ms, |m.by| < n ∨ m = .inc ∨ m = .dec) :
    cyclicMoves n pos ms = some ((pos + (ms.map Move.by).sum) % n) ∧
      0 ≤ (pos + (ms.map Move.by).sum) % n ∧ (pos + (ms.map Move.by).sum) % n < n := by
  refine ⟨?_, Int.emod_nonneg _ (by omega), Int.emod_lt_of_pos _ (by omega)⟩
  induction ms generalizing pos with
  | nil => simp [cyclicMoves, Int.emod_eq_of_lt h0 h1]
  | cons m ms ih =>
    have hmove : cyclicMove n pos m = some ((pos + m.by) % n) := by
      by_cases hn : n = 1
      · subst hn
        obtain rfl : pos = 0 := by omega
        rcases hm m List.mem_cons_self with h | h | h
        · exact cyclicMove_eq 1 0 h0 h1 m h
        · subst h; decide
        · subst h; decide
      · apply cyclicMove_eq n pos h0 h1
        rcases hm m List.mem_cons_self with h | h | h
        · exact h
        · subst h; show |(1 : Int)| < n; rw [abs_lt]; omega
        · subst h; show |(-1 : Int)| < n; rw [abs_lt]; omega
    simp only [cyclicMoves, hmove]
    rw [ih _ (Int.emod_nonneg _ (by omega)) (Int.emod_lt_of_pos _ (by omega))
      (fun m' h => hm m' (List.mem_cons_of_mem _ h))]
    rw [Int.emod_add_emod, List.map_cons, List.sum_cons, add_assoc]

example : cyclicMoves 5 3 [.inc, .inc, .inc, .sub 4, .dec, .add 3] = some 4 := by decide

/-- **C36** The constructor wraps the end position. -/
theorem cyclicInit_eq (n pos : Int) (hn : 0 < n) (h0 : 0 ≤ pos) (h1 : pos ≤ n) : cyclicInit n pos = pos % n := by
  unfold cyclicInit
  split
  · rename_i h; rw [h, Int.emod_self]
  · rw [Int.emod_eq_of_lt h0 (by omega)]

/-- **C36** The difference of two iterators is the distance going forwards, so that adding it gives
back the left iterator. -/
theorem cyclicDiff_eq (n l r : Int) (hl0 : 0 ≤ l) (hl : l < n) (hr0 : 0 ≤ r) (hr : r < n) :
    cyclicDiff n l r = (l - r) % n ∧ cyclicAdd n r (cyclicDiff n l r) = some l := by
  have he : cyclicDiff n l r = (l - r) % n := by
    unfold cyclicDiff
    split
    · rw [Int.emod_eq_of_lt (by omega) (by omega)]
    · rw [← Int.add_emod_right, Int.emod_eq_of_lt (by omega) (by omega)]
  refine ⟨he, ?_⟩
  have h0 : 0 ≤ (l - r) % n := Int.emod_nonneg _ (by omega)
  have h1 : (l - r) % n < n := Int.emod_lt_of_pos _ (by omega)
  have := cyclicMove_eq n r hr0 hr (.add ((l - r) % n)) (by show |(l - r) % n| < n; rw [abs_lt]; omega)
  rw [he]
  simp only [cyclicMove, Move.by] at this
  rw [this, Int.add_emod_emod, add_sub_cancel, Int.emod_eq_of_lt hl0 hl]

/-- (limit) The ordering of iterators derived from the difference never finds one before the
other. -/
theorem cyclic_never_less (n l r : Int) (hl0 : 0 ≤ l) (hl : l < n) (hr0 : 0 ≤ r) (hr : r < n) :
    ¬ cyclicDiff n l r < 0 := by
  rw [(cyclicDiff_eq n l r hl0 hl hr0 hr).1]
  have : 0 ≤ (l - r) % n := Int.emod_nonneg _ (by omega)
  omega

example : cyclicDiff 5 1 3 = 3 ∧ cyclicAdd 5 3 3 = some 1 ∧ cyclicInit 5 5 = 0 := by decide

/-! ### Filtered ranges -/

section Filtered

variable {α : Type}

theorem findNext_spec (p : α → Bool) (b xs : List α) :
    ∃ skipped, (∀ y ∈ skipped, p y = false) ∧ (findNext p b xs).1 = skipped.reverse ++ b ∧
      xs = skipped ++ (findNext p b xs).2 ∧ (∀ x t, (findNext p b xs).2 = x :: t → p x = true) := by
  induction xs generalizing b with
  | nil => exact ⟨[], by simp, by simp [findNext], by simp [findNext], by simp [findNext]⟩
  | cons y ys ih =>
    rw [findNext]
    by_cases hy : p y = true
    · rw [if_neg (by simp [hy])]
      refine ⟨[], by simp, by simp, by simp, ?_⟩
      intro x t h
      injection h with h _
      rw [← h]; exact hy
    · rw [if_pos (by simp [hy])]
      obtain ⟨sk, h1, h2, h3, h4⟩ := ih (y :: b)
      refine ⟨y :: sk, ?_, by rw [h2]; simp, by rw [List.cons_append, ← h3], h4⟩
      intro z hz
      rcases List.mem_cons.mp hz with rfl | hz
      · simpa using hy
      · exact h1 z hz

theorem findNext_filter (p : α → Bool) (b xs : List α) : (findNext p b xs).2.filter p = xs.filter p := by
  obtain ⟨sk, h1, h2, h3, h4⟩ := findNext_spec p b xs
  conv_rhs => rw [h3]
  have : sk.filter p = [] := List.filter_eq_nil_iff.mpr (fun y hy => by simp [h1 y hy])
  rw [List.filter_append, this, List.nil_append]

theorem findNext_length (p : α → Bool) (b xs : List α) : (findNext p b xs).2.length ≤ xs.length := by
  obtain ⟨sk, h1, h2, h3, h4⟩ := findNext_spec p b xs
  have := congrArg List.length h3
  rw [List.length_append] at this
  omega

theorem fwalk_from (p : α → Bool) (fuel : Nat) (b xs : List α) (e : List α × List α) (he : e.2 = [])
    (hfuel : xs.length < fuel) : fwalk p fuel (findNext p b xs) e = some (xs.filter p) := by
  induction fuel generalizing b xs with
  | zero => omega
  | succ fuel ih =>
    rw [fwalk, he]
    rw [← findNext_filter p b xs]
    have hlen := findNext_length p b xs
    obtain ⟨sk, h1, h2, h3, h4⟩ := findNext_spec p b xs
    cases hx : findNext p b xs with
    | mk b' t =>
      rw [hx] at h4 hlen
      cases t with
      | nil => simp
      | cons x t =>
        simp only [List.length_cons, List.length_nil] at hlen ⊢
        rw [if_neg (by omega)]
        simp only [finc]
        rw [ih (x :: b') t (by omega)]
        rw [List.filter_cons, if_pos (h4 x t rfl)]

/-- **C37** Iterating a filtered range visits exactly the elements satisfying the predicate, in
order. -/
theorem filtered_forward (p : α → Bool) (xs : List α) :
    fwalk p (xs.length + 1) (fbegin p xs) (fend p xs) = some (xs.filter p) :=
  fwalk_from p _ [] xs _ (by simp [fend, findNext]) (by omega)

theorem fdec_spec (p : α → Bool) (before xs : List α) :
    (∀ y ∈ before, p y = false) ∨
    ∃ sk x b, before = sk ++ x :: b ∧ (∀ y ∈ sk, p y = false) ∧ p x = true ∧
      fdec p before xs = some (b, x :: (sk.reverse ++ xs)) := by
  induction before generalizing xs with
  | nil => left; simp
  | cons y ys ih =>
    by_cases hy : p y = true
    · right
      exact ⟨[], y, ys, rfl, by simp, hy, by rw [fdec, if_neg (by simp [hy])]; rfl⟩
    · rcases ih (y :: xs) with h | ⟨sk, x, b, h1, h2, h3, h4⟩
      · left
        intro z hz
        rcases List.mem_cons.mp hz with rfl | hz
        · simpa using hy
        · exact h z hz
      · right
        refine ⟨y :: sk, x, b, by rw [h1]; rfl, ?_, h3, ?_⟩
        · intro z hz
          rcases List.mem_cons.mp hz with rfl | hz
          · simpa using hy
          · exact h2 z hz
        · rw [fdec, if_pos (by simp [hy]), h4]; simp

theorem fwalkBack_from (p : α → Bool) (fuel : Nat) (before xs all : List α) (b : List α × List α)
    (hall : all = before.reverse ++ xs) (hb : b = fbegin p all)
    (hx : xs.length ≤ b.2.length) (hfuel : before.length < fuel) :
    fwalkBack p fuel (before, xs) b = some (before.filter p) := by
  induction fuel generalizing before xs with
  | zero => omega
  | succ fuel ih =>
    obtain ⟨sk0, g1, g2, g3, g4⟩ := findNext_spec p [] all
    change b = findNext p [] all at hb
    rw [← hb] at g2 g3 g4
    rw [fwalkBack]
    have hsplit : before.reverse ++ xs = sk0 ++ b.2 := by rw [← hall, ← g3]
    by_cases hlen : xs.length = b.2.length
    · rw [if_pos hlen]
      have := (List.append_inj' hsplit hlen).1
      have hnone : before.filter p = [] := by
        rw [List.filter_eq_nil_iff]
        intro y hy
        have : y ∈ sk0 := by rw [← this]; simpa using hy
        simp [g1 y this]
      rw [hnone]
    · rw [if_neg hlen]
      -- the element at `begin` lies before this position and satisfies the predicate
      obtain ⟨z, t, hzt⟩ : ∃ z t, b.2 = z :: t := by
        cases h : b.2 with
        | nil => rw [h] at hx hlen; simp at hx hlen; exact absurd hx hlen
        | cons z t => exact ⟨z, t, rfl⟩
      have hpz := g4 z t hzt
      rcases fdec_spec p before xs with h | ⟨sk, x, b', h1, h2, h3, h4⟩
      · exfalso
        rw [hzt] at hsplit hx hlen
        have hlt : sk0.length < before.reverse.length := by
          have := congrArg List.length hsplit
          simp only [List.length_append, List.length_cons] at this hx hlen
          omega
        have hz : z ∈ before.reverse := by
          have : (before.reverse ++ xs)[sk0.length]? = some z := by rw [hsplit]; simp
          rw [List.getElem?_append_left hlt] at this
          exact List.mem_of_getElem? this
        have := h z (by simpa using hz)
        rw [hpz] at this
        cases this
      · simp only [h4]
        rw [ih b' (x :: (sk.reverse ++ xs)) (by rw [hall, h1]; simp)]
        · simp only
          have : sk.filter p = [] := List.filter_eq_nil_iff.mpr (fun y hy => by simp [h2 y hy])
          rw [h1, List.filter_append, this, List.nil_append, List.filter_cons, if_pos h3]
        · -- `x` satisfies the predicate, so it is not among the elements skipped by `begin`
          by_contra hlt
          have e1 : b'.reverse ++ (x :: (sk.reverse ++ xs)) = sk0 ++ b.2 := by
            rw [← hsplit, h1]; simp
          have hlt2 : b'.reverse.length < sk0.length := by
            have := congrArg List.length e1
            simp only [List.length_append] at this
            omega
          have hxs : x ∈ sk0 := by
            have : (sk0 ++ b.2)[b'.reverse.length]? = some x := by rw [← e1]; simp
            rw [List.getElem?_append_left hlt2] at this
            exact List.mem_of_getElem? this
          have := g1 x hxs
          rw [h3] at this
          cases this
        · rw [h1] at hfuel
          simp only [List.length_append, List.length_cons] at hfuel
          omega

/-- **C37** Going back from the end visits the same elements in reverse order. -/
theorem filtered_backward (p : α → Bool) (xs : List α) :
    fwalkBack p (xs.length + 1) (fend p xs) (fbegin p xs) = some (xs.filter p).reverse := by
  have he : fend p xs = (xs.reverse, []) := by simp [fend, findNext]
  rw [he, fwalkBack_from p _ xs.reverse [] xs (fbegin p xs) (by simp) rfl (by simp) (by simp),
    List.filter_reverse]

example : let p : Nat → Bool := fun x => x % 2 == 0
    fwalk p 8 (fbegin p [1, 2, 4, 5, 7, 8, 9]) (fend p [1, 2, 4, 5, 7, 8, 9]) = some [2, 4, 8] ∧
    fwalkBack p 8 (fend p [1, 2, 4, 5, 7, 8, 9]) (fbegin p [1, 2, 4, 5, 7, 8, 9]) = some [8, 4, 2] := by decide

end Filtered

/-! ### Comparison -/

section Compare

variable {α : Type} {op : α → α → Int}

theorem op_self (h : IsOrder op) (x : α) : op x x = 0 := (h.eq x x).mpr rfl

/-- **C38** The comparison is zero exactly for equal ranges. -/
theorem lexRange_eq_zero (h : IsOrder op) (xs ys : List α) : lexRange op xs ys = 0 ↔ xs = ys := by
  induction xs generalizing ys with
  | nil => cases ys <;> simp [lexRange]
  | cons x xs ih =>
    cases ys with
    | nil => simp [lexRange]
    | cons y ys =>
      rw [lexRange]
      by_cases he : op x y = 0
      · rw [if_neg (by simpa using he), ih, (h.eq x y).mp he]
        simp
      · rw [if_pos he]
        constructor
        · intro h'; exact absurd h' he
        · intro h'
          injection h' with h' _
          exact absurd ((h.eq x y).mpr h') he

/-- **C38** The comparison is negative exactly when the first range has the smaller element at the
first difference or *the second range is a proper prefix of the first*. -/
theorem lexRange_neg (h : IsOrder op) (xs ys : List α) :
    lexRange op xs ys < 0 ↔
      (∃ x t, xs = ys ++ x :: t) ∨
        ∃ p x y s t, xs = p ++ x :: s ∧ ys = p ++ y :: t ∧ op x y < 0 := by
  induction xs generalizing ys with
  | nil =>
    constructor
    · intro hlt
      cases ys <;> simp [lexRange] at hlt
    · rintro (⟨x, t, h1⟩ | ⟨p, x, y, s, t, h1, h2, h3⟩)
      · simp at h1
      · simp at h1
  | cons a xs ih =>
    cases ys with
    | nil =>
      constructor
      · intro _; left; exact ⟨a, xs, rfl⟩
      · intro _; simp [lexRange]
    | cons b ys =>
      rw [lexRange]
      by_cases he : op a b = 0
      · have hab := (h.eq a b).mp he
        subst hab
        rw [if_neg (by simpa using he), ih]
        constructor
        · rintro (⟨x, t, h1⟩ | ⟨p, x, y, s, t, h1, h2, h3⟩)
          · left; exact ⟨x, t, by rw [h1]; rfl⟩
          · right; exact ⟨a :: p, x, y, s, t, by rw [h1]; rfl, by rw [h2]; rfl, h3⟩
        · rintro (⟨x, t, h1⟩ | ⟨p, x, y, s, t, h1, h2, h3⟩)
          · left
            injection h1 with _ h1
            exact ⟨x, t, h1⟩
          · cases p with
            | nil =>
              injection h1 with h1 _
              injection h2 with h2 _
              rw [← h1, ← h2, op_self h] at h3
              omega
            | cons q p =>
              injection h1 with _ h1
              injection h2 with _ h2
              right; exact ⟨p, x, y, s, t, h1, h2, h3⟩
      · rw [if_pos he]
        constructor
        · intro hlt; right; exact ⟨[], a, b, xs, ys, rfl, rfl, hlt⟩
        · rintro (⟨x, t, h1⟩ | ⟨p, x, y, s, t, h1, h2, h3⟩)
          · injection h1 with h1 _
            exact absurd ((h.eq a b).mpr h1) he
          · cases p with
            | nil =>
              injection h1 with h1 _
              injection h2 with h2 _
              rw [h1, h2]; exact h3
            | cons q p =>
              injection h1 with h1 _
              injection h2 with h2 _
              exact absurd ((h.eq a b).mpr (h1.trans h2.symm)) he

/-- **C38** Comparison is antisymmetric. -/
theorem lexRange_swap (h : IsOrder op) (xs ys : List α) : lexRange op xs ys < 0 ↔ 0 < lexRange op ys xs := by
  induction xs generalizing ys with
  | nil => cases ys <;> simp [lexRange]
  | cons x xs ih =>
    cases ys with
    | nil => simp [lexRange]
    | cons y ys =>
      rw [lexRange, lexRange]
      by_cases he : x = y
      · subst he
        rw [if_neg (by simp [op_self h]), if_neg (by simp [op_self h])]
        exact ih ys
      · rw [if_pos (fun e => he ((h.eq _ _).mp e)), if_pos (fun e => he ((h.eq _ _).mp e).symm)]
        exact h.swap x y

/-- **C38** Comparison is transitive. -/
theorem lexRange_trans (h : IsOrder op) (xs ys zs : List α) (h1 : lexRange op xs ys < 0)
    (h2 : lexRange op ys zs < 0) : lexRange op xs zs < 0 := by
  induction xs generalizing ys zs with
  | nil => cases ys <;> simp [lexRange] at h1
  | cons x xs ih =>
    cases ys with
    | nil => cases zs <;> simp [lexRange] at h2
    | cons y ys =>
      cases zs with
      | nil => simp [lexRange]
      | cons z zs =>
        rw [lexRange] at h1 h2 ⊢
        by_cases hxy : x = y
        · subst hxy
          rw [if_neg (by simp [op_self h])] at h1
          by_cases hxz : x = z
          · subst hxz
            rw [if_neg (by simp [op_self h])] at h2 ⊢
            exact ih _ _ h1 h2
          · have hne : op x z ≠ 0 := fun e => hxz ((h.eq _ _).mp e)
            rw [if_pos hne] at h2 ⊢
            exact h2
        · rw [if_pos (fun e => hxy ((h.eq _ _).mp e))] at h1
          have hlt : op x z < 0 := by
            by_cases hyz : y = z
            · subst hyz; exact h1
            · rw [if_pos (fun e => hyz ((h.eq _ _).mp e))] at h2
              exact h.trans _ _ _ h1 h2
          rw [if_pos (by omega)]
          exact hlt

/-- **C38** (negation) Every proper prefix of a range compares greater than the range, not less. -/
theorem lexRange_prefix_fails (h : IsOrder op) (xs : List α) (y : α) (t : List α) :
    0 < lexRange op xs (xs ++ y :: t) ∧ lessRange op xs (xs ++ y :: t) = false ∧
      lessRange op (xs ++ y :: t) xs = true := by
  have h1 : lexRange op (xs ++ y :: t) xs < 0 := (lexRange_neg h _ _).mpr (Or.inl ⟨y, t, rfl⟩)
  have h2 := (lexRange_swap h _ _).mp h1
  refine ⟨h2, ?_, ?_⟩
  · unfold lessRange; rw [decide_eq_false_iff_not]; omega
  · unfold lessRange; rw [decide_eq_true_eq]; exact h1

/-- **C38** For ranges of the same length the comparison is the lexicographical one. -/
theorem lexRange_same_length (h : IsOrder op) (xs ys : List α) (hl : xs.length = ys.length) :
    lessRange op xs ys = true ↔ LexLt (fun x y => op x y < 0) xs ys := by
  unfold lessRange LexLt
  rw [decide_eq_true_eq, lexRange_neg h]
  constructor
  · rintro (⟨x, t, h1⟩ | h1)
    · rw [h1] at hl; simp at hl
    · exact Or.inr h1
  · rintro (⟨x, t, h1⟩ | h1)
    · rw [h1] at hl; simp at hl
    · exact Or.inr h1

/-- **C38** Equality of ranges agrees with the comparison. -/
theorem equalRange_iff (h : IsOrder op) (xs ys : List α) :
    equalRange (fun x y => decide (op x y = 0)) xs ys = true ↔ lexRange op xs ys = 0 := by
  rw [lexRange_eq_zero h]
  induction xs generalizing ys with
  | nil => cases ys <;> simp [equalRange]
  | cons x xs ih =>
    cases ys with
    | nil => simp [equalRange]
    | cons y ys =>
      rw [equalRange]
      by_cases he : op x y = 0
      · rw [if_neg (by simp [he]), ih, (h.eq x y).mp he]; simp
      · rw [if_pos (by simp [he])]
        constructor
        · intro h'; cases h'
        · intro h'
          injection h' with h' _
          exact absurd ((h.eq x y).mpr h') he

/-- The comparison of integers, `(l > r) - (l < r)`. -/
def cmpInt (x y : Int) : Int := (if x > y then 1 else 0) - (if x < y then 1 else 0)

theorem cmpInt_isOrder : IsOrder cmpInt := by
  refine ⟨fun x y => ?_, fun x y => ?_, fun x y z => ?_⟩
  · unfold cmpInt; split <;> split <;> omega
  · unfold cmpInt; split <;> split <;> omega
  · unfold cmpInt; intro h1 h2; split at h1 <;> split at h1 <;> split at h2 <;> split at h2 <;> split <;> split <;> omega

example : lexRange cmpInt [1, 2, 3] [1, 3] = -1 ∧ lexRange cmpInt [1, 2] [1, 2, 0] = 1 ∧
    lessRange cmpInt [2, 1] [2, 1, 5] = false := by decide

/-! Tuples: position `i` holds a value of the type `β i`. -/

theorem lexTuple_find (f : Nat → Int) (k n : Nat) :
    (∀ i, i < n → f (k + i) = 0) ∧ lexTuple ((List.range' k n).map f) = 0 ∨
    ∃ i, i < n ∧ (∀ j, j < i → f (k + j) = 0) ∧ f (k + i) ≠ 0 ∧
      lexTuple ((List.range' k n).map f) = f (k + i) := by
  induction n generalizing k with
  | zero => left; exact ⟨by omega, rfl⟩
  | succ n ih =>
    have hcons : lexTuple ((List.range' k (n + 1)).map f) =
        if f k = 0 then lexTuple ((List.range' (k + 1) n).map f) else f k := by
      rw [List.range'_succ, List.map_cons]
      cases hx : (List.range' (k + 1) n).map f with
      | nil =>
        simp only [lexTuple]
        split
        · assumption
        · rfl
      | cons a t => simp only [lexTuple]
    rw [hcons]
    by_cases h0 : f k = 0
    · rw [if_pos h0]
      rcases ih (k + 1) with ⟨h1, h2⟩ | ⟨i, hi, h1, h2, h3⟩
      · left
        refine ⟨fun i hi => ?_, h2⟩
        cases i with
        | zero => exact h0
        | succ i => have := h1 i (by omega); rwa [show k + 1 + i = k + (i + 1) by omega] at this
      · right
        refine ⟨i + 1, by omega, fun j hj => ?_, ?_, ?_⟩
        · cases j with
          | zero => exact h0
          | succ j => have := h1 j (by omega); rwa [show k + 1 + j = k + (j + 1) by omega] at this
        · rwa [show k + 1 + i = k + (i + 1) by omega] at h2
        · rw [h3]; congr 1; omega
    · right
      rw [if_neg h0]
      exact ⟨0, by omega, by omega, by simpa using h0, by simp⟩

theorem lexTuple_first (f : Nat → Int) (n : Nat) :
    (∀ i, i < n → f i = 0) ∧ lexTuple ((List.range' 0 n).map f) = 0 ∨
    ∃ i, i < n ∧ (∀ j, j < i → f j = 0) ∧ f i ≠ 0 ∧ lexTuple ((List.range' 0 n).map f) = f i := by
  simpa only [Nat.zero_add] using lexTuple_find f 0 n

variable {β : Nat → Type}

/-- The results of comparing two tuples of size `n` at every position. -/
def tupleCmp (cmp : ∀ i, β i → β i → Int) (n : Nat) (l r : ∀ i, β i) : Int :=
  lexTuple ((List.range' 0 n).map (fun i => cmp i (l i) (r i)))

/-- **C38** Tuples: the comparison is zero exactly for equal tuples, negative exactly if the first has
the smaller element at the first difference. -/
theorem tuple_compare (cmp : ∀ i, β i → β i → Int) (h : ∀ i, IsOrder (cmp i)) (n : Nat) (l r : ∀ i, β i) :
    (tupleCmp cmp n l r = 0 ↔ ∀ i, i < n → l i = r i) ∧
    (tupleCmp cmp n l r < 0 ↔ ∃ i, i < n ∧ (∀ j, j < i → l j = r j) ∧ cmp i (l i) (r i) < 0) := by
  unfold tupleCmp
  rcases lexTuple_first (fun i => cmp i (l i) (r i)) n with ⟨h1, h2⟩ | ⟨i, hi, h1, h2, h3⟩
  · rw [h2]
    refine ⟨⟨fun _ i hi => ((h i).eq _ _).mp (h1 i hi), fun _ => rfl⟩, ⟨fun hlt => absurd hlt (by omega), ?_⟩⟩
    rintro ⟨i, hi, _, hlt⟩
    have := h1 i hi
    omega
  · rw [h3]
    refine ⟨⟨fun e => absurd e h2, fun e => ((h i).eq _ _).mpr (e i hi)⟩, ⟨fun hlt => ?_, ?_⟩⟩
    · exact ⟨i, hi, fun j hj => ((h j).eq _ _).mp (h1 j hj), hlt⟩
    · rintro ⟨k, hk, hke, hklt⟩
      rcases Nat.lt_trichotomy i k with hik | hik | hik
      · exact absurd (((h i).eq _ _).mpr (hke i hik)) h2
      · subst hik; exact hklt
      · have := h1 k hik
        omega

/-- **C38** Tuples: antisymmetric and transitive. -/
theorem tuple_compare_order (cmp : ∀ i, β i → β i → Int) (h : ∀ i, IsOrder (cmp i)) (n : Nat)
    (l r s : ∀ i, β i) :
    (tupleCmp cmp n l r < 0 ↔ 0 < tupleCmp cmp n r l) ∧
    (tupleCmp cmp n l r < 0 → tupleCmp cmp n r s < 0 → tupleCmp cmp n l s < 0) := by
  have key : ∀ a b : ∀ i, β i, tupleCmp cmp n a b < 0 → 0 < tupleCmp cmp n b a := by
    intro a b hab
    obtain ⟨i, hi, he, hlt⟩ := (tuple_compare cmp h n a b).2.mp hab
    unfold tupleCmp
    rcases lexTuple_first (fun i => cmp i (b i) (a i)) n with ⟨h1, h2⟩ | ⟨k, hk, h1, h2, h3⟩
    · have := h1 i hi
      have := ((h i).swap _ _).mp hlt
      omega
    · rw [h3]
      rcases Nat.lt_trichotomy i k with hik | hik | hik
      · have := h1 i hik
        have := ((h i).swap _ _).mp hlt
        omega
      · subst hik; exact ((h i).swap _ _).mp hlt
      · exact absurd (((h k).eq _ _).mpr (he k hik).symm) h2
  constructor
  · refine ⟨key l r, fun hpos => ?_⟩
    by_contra hge
    rcases Int.lt_or_eq_of_le (show 0 ≤ tupleCmp cmp n l r by omega) with hgt | heq
    · -- swapping twice
      rcases lexTuple_first (fun i => cmp i (r i) (l i)) n with ⟨h1, h2⟩ | ⟨k, hk, h1, h2, h3⟩
      · unfold tupleCmp at hpos; omega
      · have hc : 0 < cmp k (r k) (l k) := by unfold tupleCmp at hpos; rwa [h3] at hpos
        have : tupleCmp cmp n l r < 0 := (tuple_compare cmp h n l r).2.mpr
          ⟨k, hk, fun j hj => (((h j).eq _ _).mp (h1 j hj)).symm, ((h k).swap _ _).mpr hc⟩
        omega
    · have := (tuple_compare cmp h n l r).1.mp heq.symm
      have := (tuple_compare cmp h n r l).1.mpr (fun i hi => (this i hi).symm)
      omega
  · intro h1 h2
    obtain ⟨i, hi, hie, hilt⟩ := (tuple_compare cmp h n l r).2.mp h1
    obtain ⟨j, hj, hje, hjlt⟩ := (tuple_compare cmp h n r s).2.mp h2
    apply (tuple_compare cmp h n l s).2.mpr
    rcases Nat.lt_trichotomy i j with hij | hij | hij
    · exact ⟨i, hi, fun k hk => (hie k hk).trans (hje k (by omega)), by rw [← hje i hij]; exact hilt⟩
    · subst hij
      exact ⟨i, hi, fun k hk => (hie k hk).trans (hje k hk), (h i).trans _ _ _ hilt hjlt⟩
    · exact ⟨j, hj, fun k hk => (hie k (by omega)).trans (hje k hk), by rw [hie j hij]; exact hjlt⟩

/-- **C38** Equality of tuples agrees with the comparison. -/
theorem equalTuple_iff (cmp : ∀ i, β i → β i → Int) (h : ∀ i, IsOrder (cmp i)) (n : Nat) (l r : ∀ i, β i) :
    equalTuple ((List.range n).map (fun i => decide (cmp i (l i) (r i) = 0))) = true ↔
      tupleCmp cmp n l r = 0 := by
  rw [(tuple_compare cmp h n l r).1]
  have key : ∀ bs : List Bool, equalTuple bs = true ↔ ∀ b ∈ bs, b = true := by
    intro bs
    induction bs with
    | nil => simp [equalTuple]
    | cons b bs ih => simp [equalTuple, ih]
  rw [key]
  simp only [List.mem_map, List.mem_range, forall_exists_index, and_imp, forall_apply_eq_imp_iff₂,
    decide_eq_true_eq]
  exact forall_congr' fun i => imp_congr_right fun _ => (h i).eq _ _

example : tupleCmp (β := fun _ => Int) (fun _ => cmpInt) 3 (fun i => [4, 5, 6][i]!) (fun i => [4, 7, 0][i]!) = -1 := by
  decide

end Compare

end Actl.Ranges
