import Verif.Props.Iterators

/-!
C75 for unsigned types of 32 bits and more: moving is right for steps of both signs, the difference is right where it
is not negative, and never negative; `<` is never true.
-/

namespace Actl.Iterators

open Actl.Ints

theorem unsigned_cast (w : Nat) (x : Int) : (⟨false, w⟩ : IntT).cast x = x % 2 ^ w := by simp [IntT.cast, IntT.lo]

theorem unsigned_has {w : Nat} {x : Int} : (⟨false, w⟩ : IntT).Has x ↔ 0 ≤ x ∧ x < 2 ^ w := by
  simp [IntT.Has, IntT.lo, IntT.hi]

/-- **C75** `it += k`, `it + k` for unsigned types: from the element with index `i` to the one with index `i + k`, whatever the
signs of the step and of the offset. -/
theorem advance_unsigned {w : Nat} (hw : 32 ≤ w) {S D : IntT} (hS : S.promote.signed = true)
    (hD : D.promote.signed = true) (wS : 0 < S.width) (wD : 0 < D.width) {first step i k : Int} (hs : S.Has step)
    (hk : D.Has k) (h1 : (⟨false, w⟩ : IntT).Has (first + i * step)) (h2 : (⟨false, w⟩ : IntT).Has (first + (i + k) * step))
    (h3 : (common D S).Has (k * step)) :
    advance ⟨false, w⟩ S D step (first + i * step) k = some (first + (i + k) * step) := by
  have hPp : (common D S).promote = common D S := common_self hD hS
  have hPs : (common D S).signed = true := by rw [common_signed hD hS]
  have wP : 32 ≤ (common D S).width := common_width hD hS
  have e : first + i * step + k * step = first + (i + k) * step := by ring
  unfold advance
  simp only
  rw [cast_of_has _ k (common_has_left hD hS (promote_has D wD k hk).1) (by omega),
    cast_of_has _ step (common_has_right hD hS (promote_has S wS step hs).1) (by omega), arith_signed hPs, if_pos h3]
  simp only
  generalize common D S = P at hPp hPs wP h3
  have hTp : (⟨false, w⟩ : IntT).promote = ⟨false, w⟩ := promote_wide _ hw
  obtain ⟨ps, pw⟩ := P
  simp only at hPs wP
  subst hPs
  by_cases hle : pw ≤ w
  · have hQ : common ⟨false, w⟩ ⟨true, pw⟩ = ⟨false, w⟩ := by
      unfold common
      rw [hPp, hTp]
      simp [hle]
    rw [hQ]
    simp only [IntT.arith, Bool.false_eq_true, if_false, unsigned_cast, Option.some.injEq]
    rw [← Int.add_emod, Int.emod_emod, e]
    obtain ⟨a, b⟩ := unsigned_has.mp h2
    exact Int.emod_eq_of_lt a b
  · have hQ : common ⟨false, w⟩ ⟨true, pw⟩ = ⟨true, pw⟩ := by
      unfold common
      rw [hPp, hTp]
      simp [hle]
    have up : ∀ {x : Int}, (⟨false, w⟩ : IntT).Has x → (⟨true, pw⟩ : IntT).Has x := by
      intro x hx
      obtain ⟨a, b⟩ := unsigned_has.mp hx
      have : (2 : Int) ^ w ≤ 2 ^ (pw - 1) := pow_le_pow_right₀ (by decide) (by omega)
      unfold IntT.Has IntT.lo IntT.hi
      simp only [if_true]
      omega
    rw [hQ, cast_of_has _ _ (up h1) (by simp; omega), cast_of_has _ _ h3 (by simp; omega), e]
    simp only [IntT.arith, if_true, if_pos (up h2)]
    rw [cast_of_has _ _ h2 (by simp; omega)]

/-- **C75** `it -= k`, `it - k` for unsigned types and signed offsets. -/
theorem retreat_unsigned {w : Nat} (hw : 32 ≤ w) {S D : IntT} (hS : S.promote.signed = true)
    (hD : D.promote.signed = true) (wS : 0 < S.width) {first step i k : Int} (hs : S.Has step)
    (hk : D.promote.Has (-k)) (h1 : (⟨false, w⟩ : IntT).Has (first + i * step))
    (h2 : (⟨false, w⟩ : IntT).Has (first + (i - k) * step)) (h3 : (common D S).Has (-k * step)) :
    retreat ⟨false, w⟩ S D step (first + i * step) k = some (first + (i - k) * step) := by
  unfold retreat
  have wD : 0 < D.promote.width := by have := promote_width D; omega
  rw [arith_of_has _ wD _ hk]
  simp only
  have e : common D.promote S = common D S := by
    rw [common_signed (by rw [promote_promote]; exact hD) hS, common_signed hD hS, promote_promote]
  have := advance_unsigned (D := D.promote) (first := first) (i := i) (k := -k) hw hS
    (by rw [promote_promote]; exact hD) wS wD hs hk h1 (by rwa [← sub_eq_add_neg]) (by rwa [e])
  rw [this, ← sub_eq_add_neg]

/-- **C75** `++` and `--` for unsigned types. -/
theorem step_unsigned {w : Nat} (hw : 32 ≤ w) {S : IntT} (hS : S.promote.signed = true) (wS : 0 < S.width)
    {first step i : Int} (hs : S.Has step) (h1 : (⟨false, w⟩ : IntT).Has (first + i * step)) :
    ((⟨false, w⟩ : IntT).Has (first + (i + 1) * step) →
      advance ⟨false, w⟩ S ⟨true, 32⟩ step (first + i * step) 1 = some (first + (i + 1) * step)) ∧
    ((⟨false, w⟩ : IntT).Has (first + (i - 1) * step) → (common S S).Has (-step) →
      advance ⟨false, w⟩ S ⟨true, 32⟩ step (first + i * step) (-1) = some (first + (i - 1) * step)) := by
  have hD : (⟨true, 32⟩ : IntT).promote.signed = true := by decide
  have hss : ∀ x, S.promote.Has x → (common ⟨true, 32⟩ S).Has x := fun x hx => common_has_right hD hS hx
  have e : common S S = S.promote := by
    rw [common_signed hS hS, max_self, ← promote_eq hS]
  refine ⟨fun h2 => ?_, fun h2 h3 => ?_⟩
  · exact advance_unsigned hw hS hD wS (by decide) hs (by decide) h1 h2
      (hss _ (by rw [one_mul]; exact (promote_has S wS _ hs).1))
  · rw [e] at h3
    have := advance_unsigned (first := first) (i := i) (k := -1) hw hS hD wS (by decide) hs (by decide) h1
      (by rwa [← sub_eq_add_neg]) (hss _ (by rw [neg_one_mul]; exact h3))
    rw [this, ← sub_eq_add_neg]

/-- Down from 10 by 3 in `unsigned` and back. -/
example : advance ⟨false, 32⟩ ⟨true, 32⟩ ⟨true, 32⟩ (-3) (10 + 1 * (-3)) 2 = some (10 + (1 + 2) * (-3)) ∧
    retreat ⟨false, 32⟩ ⟨true, 32⟩ ⟨true, 32⟩ (-3) (10 + 3 * (-3)) 2 = some (10 + (3 - 2) * (-3)) ∧
    advance ⟨false, 32⟩ ⟨true, 64⟩ ⟨true, 32⟩ (-3) (10 + 1 * (-3)) 2 = some (10 + (1 + 2) * (-3)) :=
  ⟨advance_unsigned (by decide) (by decide) (by decide) (by decide) (by decide) (by decide) (by decide) (by decide)
      (by decide) (by decide),
    retreat_unsigned (by decide) (by decide) (by decide) (by decide) (by decide) (by decide) (by decide) (by decide)
      (by decide),
    advance_unsigned (by decide) (by decide) (by decide) (by decide) (by decide) (by decide) (by decide) (by decide)
      (by decide) (by decide)⟩

/-- **C75** For unsigned types the difference of two iterators is the difference of the indices if the step is positive and the
first iterator is not before the second. -/
theorem difference_unsigned {w : Nat} (hw : 32 ≤ w) {S : IntT} (hS : S.promote.signed = true) (hSw : S.promote.width ≤ w)
    {first step i j : Int} (h0 : 0 < step) (hij : j ≤ i) (hs : step < 2 ^ w)
    (h1 : (⟨false, w⟩ : IntT).Has (first + i * step)) (h2 : (⟨false, w⟩ : IntT).Has (first + j * step)) :
    difference ⟨false, w⟩ S step (first + i * step) (first + j * step) = some (i - j) := by
  have hTp : (⟨false, w⟩ : IntT).promote = ⟨false, w⟩ := promote_wide _ hw
  have hQ : common ⟨false, w⟩ S = ⟨false, w⟩ := by
    unfold common
    rw [hTp, hS]
    simp [hSw]
  obtain ⟨a1, b1⟩ := unsigned_has.mp h1
  obtain ⟨a2, b2⟩ := unsigned_has.mp h2
  have ed : first + i * step - (first + j * step) = (i - j) * step := by ring
  have hnn : 0 ≤ (i - j) * step := mul_nonneg (by omega) (by omega)
  have hd : ((i - j) * step) % 2 ^ w = (i - j) * step := Int.emod_eq_of_lt hnn (by omega)
  have hq : i - j ≤ (i - j) * step := by nlinarith
  unfold difference
  rw [hTp, hQ]
  simp only [IntT.arith, Bool.false_eq_true, if_false, unsigned_cast]
  rw [ed, hd, hd, Int.emod_eq_of_lt (by omega) hs, if_neg (by omega), if_neg (by rw [Int.mul_tmod_left]; simp),
    Int.mul_tdiv_cancel _ (by omega), Int.emod_eq_of_lt (by omega) (by omega)]

example : difference ⟨false, 64⟩ ⟨true, 32⟩ 3 (7 + 5 * 3) (7 + 2 * 3) = some (5 - 2) :=
  difference_unsigned (by decide) (by decide) (by decide) (by decide) (by decide) (by decide) (by decide) (by decide)

/-- **C75** (negation) For unsigned types, whatever the step, the difference is never negative, so it is wrong whenever the first
iterator is before the second, and `<` is never true. -/
theorem difference_unsigned_fails {w : Nat} (hw : 32 ≤ w) {S : IntT} (hS : S.promote.width ≤ w) (step l r : Int) :
    (∀ d, d < 0 → difference ⟨false, w⟩ S step l r ≠ some d) ∧ compareIter ⟨false, w⟩ S step l r ≠ some .lt := by
  have hTp : (⟨false, w⟩ : IntT).promote = ⟨false, w⟩ := promote_wide _ hw
  have hQ : common ⟨false, w⟩ S = ⟨false, w⟩ := by
    unfold common
    rw [hTp]
    cases h : S.promote.signed with
    | true => simp [hS]
    | false => simp [hS]
  have key : ∀ d, difference ⟨false, w⟩ S step l r = some d → 0 ≤ d := by
    intro d h
    unfold difference at h
    rw [hTp, hQ] at h
    simp only [IntT.arith, Bool.false_eq_true, if_false, unsigned_cast] at h
    by_cases a : step % 2 ^ w = 0
    · rw [if_pos a] at h; simp at h
    · rw [if_neg a] at h
      split at h
      · simp at h
      · simp only [Option.some.injEq] at h
        rw [← h]
        exact Int.emod_nonneg _ (by positivity)
  refine ⟨fun d hd h => absurd (key d h) (by omega), fun h => ?_⟩
  unfold compareIter at h
  cases hd : difference ⟨false, w⟩ S step l r with
  | none => rw [hd] at h; simp at h
  | some d =>
    rw [hd] at h
    simp only [Option.some.injEq] at h
    have := key d hd
    rw [compare_lt_iff_lt] at h
    omega

end Actl.Iterators
