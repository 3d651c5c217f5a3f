import Verif.Model.Compare
import Mathlib.Tactic.Abel
import Mathlib.Tactic.Linarith
import Mathlib.Algebra.Order.Group.Int
import Mathlib.Algebra.Order.Ring.Int

/-!
C09: tolerant comparison.
-/

namespace Actl.Compare

variable {α : Type} [AddCommGroup α] [LinearOrder α] [IsOrderedAddMonoid α]

theorem isEqual_eq (eps l r : α) :
    isEqual eps l r = true ↔ l - r ≤ eps ∧ r - l ≤ eps := by
  unfold isEqual
  rw [decide_eq_true_eq, abs_le, neg_le, neg_sub]
  exact and_comm

theorem isLess_eq (eps l r : α) : isLess eps l r = true ↔ eps < r - l := by
  unfold isLess; rw [decide_eq_true_eq]

/-- **C09**: exactly one of less, equal, greater. -/
theorem trichotomy {eps : α} (heps : 0 ≤ eps) (l r : α) :
    (isLess eps l r = true ∧ isEqual eps l r = false ∧ isGreater eps l r = false) ∨
    (isLess eps l r = false ∧ isEqual eps l r = true ∧ isGreater eps l r = false) ∨
    (isLess eps l r = false ∧ isEqual eps l r = false ∧ isGreater eps l r = true) := by
  simp only [Bool.eq_false_iff, ne_eq, isGreater, isLess_eq, isEqual_eq, not_and, not_le, not_lt]
  by_cases h1 : eps < r - l
  · left
    refine ⟨h1, fun _ => h1, ?_⟩
    have : l - r ≤ 0 := by
      rw [← neg_sub]
      exact neg_nonpos.mpr (heps.trans h1.le)
    exact this.trans heps
  · by_cases h2 : eps < l - r
    · right; right
      exact ⟨not_lt.mp h1, fun h => absurd h2 (not_lt.mpr h), h2⟩
    · right; left
      exact ⟨not_lt.mp h1, ⟨not_lt.mp h2, not_lt.mp h1⟩, not_lt.mp h2⟩

/-- **C09**: equality is reflexive and symmetric. -/
theorem isEqual_refl {eps : α} (heps : 0 ≤ eps) (x : α) : isEqual eps x x = true := by
  rw [isEqual_eq]; simp [heps]

theorem isEqual_symm (eps l r : α) : isEqual eps l r = isEqual eps r l := by
  rw [Bool.eq_iff_iff, isEqual_eq, isEqual_eq, and_comm]

/-- **C09**: less is irreflexive and transitive (a strict order). -/
theorem isLess_irrefl {eps : α} (heps : 0 ≤ eps) (x : α) : isLess eps x x = false := by
  rw [Bool.eq_false_iff, ne_eq, isLess_eq]; simp [heps]

theorem isLess_trans {eps : α} (heps : 0 ≤ eps) {x y z : α} (hxy : isLess eps x y = true)
    (hyz : isLess eps y z = true) : isLess eps x z = true := by
  rw [isLess_eq] at *
  have : z - x = (y - x) + (z - y) := by abel
  rw [this]
  exact lt_of_lt_of_le hxy (le_add_of_nonneg_right (heps.trans hyz.le))

/-- **C09**: less implies the mathematical order, and is implied by it beyond the tolerance. -/
theorem isLess_sound {eps : α} (heps : 0 ≤ eps) {x y : α} (h : isLess eps x y = true) : x < y := by
  rw [isLess_eq] at h
  exact sub_pos.mp (lt_of_le_of_lt heps h)

/-- **C09**: the derived comparisons. -/
theorem isLessOrEqual_iff {eps : α} (heps : 0 ≤ eps) (l r : α) :
    isLessOrEqual eps l r = true ↔ isLess eps l r = true ∨ isEqual eps l r = true := by
  unfold isLessOrEqual
  rcases trichotomy heps l r with ⟨a, b, c⟩ | ⟨a, b, c⟩ | ⟨a, b, c⟩ <;> simp [a, b, c]

theorem isGreaterOrEqual_iff {eps : α} (heps : 0 ≤ eps) (l r : α) :
    isGreaterOrEqual eps l r = true ↔ isGreater eps l r = true ∨ isEqual eps l r = true := by
  unfold isGreaterOrEqual
  rcases trichotomy heps l r with ⟨a, b, c⟩ | ⟨a, b, c⟩ | ⟨a, b, c⟩ <;> simp [a, b, c]

/-- **C09**: the three-way comparison agrees with the predicates, and takes no other value. -/
theorem compare3way_iff {eps : α} (heps : 0 ≤ eps) (l r : α) :
    (compare3way eps l r = -1 ↔ isLess eps l r = true) ∧
    (compare3way eps l r = 0 ↔ isEqual eps l r = true) ∧
    (compare3way eps l r = 1 ↔ isGreater eps l r = true) ∧
    (compare3way eps l r = -1 ∨ compare3way eps l r = 0 ∨ compare3way eps l r = 1) := by
  unfold compare3way
  rcases trichotomy heps l r with ⟨a, b, c⟩ | ⟨a, b, c⟩ | ⟨a, b, c⟩ <;> simp [a, b, c]

/-- **C09**: swapping the arguments flips the sign. -/
theorem compare3way_antisymm (eps l r : α) : compare3way eps r l = -compare3way eps l r := by
  unfold compare3way isGreater
  cases isLess eps l r <;> cases isLess eps r l <;> rfl

/-- **C09**: without tolerance this is the ordinary comparison. -/
theorem compare3way_exact (l r : α) :
    (compare3way 0 l r < 0 ↔ l < r) ∧ (compare3way 0 l r = 0 ↔ l = r) ∧
    (0 < compare3way 0 l r ↔ r < l) := by
  have h := compare3way_iff (le_refl (0 : α)) l r
  have hl : isLess 0 l r = true ↔ l < r := by rw [isLess_eq]; exact sub_pos
  have hg : isGreater 0 l r = true ↔ r < l := by unfold isGreater; rw [isLess_eq]; exact sub_pos
  have he : isEqual 0 l r = true ↔ l = r := by
    rw [isEqual_eq, sub_nonpos, sub_nonpos]
    exact ⟨fun h => le_antisymm h.1 h.2, fun h => by subst h; exact ⟨le_refl _, le_refl _⟩⟩
  rw [← hl, ← he, ← hg]
  obtain ⟨h1, h2, h3, h4⟩ := h
  rw [← h1, ← h2, ← h3]
  omega

/-- **C09**: the sign of a number, with tolerance. -/
theorem sgn_iff {eps : α} (heps : 0 ≤ eps) (x : α) :
    (sgn eps x = 1 ↔ eps < x) ∧ (sgn eps x = -1 ↔ x < -eps) ∧ (sgn eps x = 0 ↔ |x| ≤ eps) := by
  obtain ⟨h1, h2, h3, -⟩ := compare3way_iff heps x 0
  unfold sgn
  refine ⟨?_, ?_, ?_⟩
  · rw [h3]; unfold isGreater; rw [isLess_eq, sub_zero]
  · rw [h1, isLess_eq, zero_sub, lt_neg]
  · rw [h2]; unfold isEqual; rw [decide_eq_true_eq, sub_zero]

/-- **C09**: `min`/`max` return one of the arguments, within the tolerance of the true one. -/
theorem max_min_spec {eps : α} (heps : 0 ≤ eps) (l r : α) :
    (max' eps l r = l ∨ max' eps l r = r) ∧ (min' eps l r = l ∨ min' eps l r = r) ∧
    max l r - max' eps l r ≤ eps ∧ min' eps l r - min l r ≤ eps := by
  unfold max' min'
  have hl := isLess_eq eps l r
  have hr := isLess_eq eps r l
  refine ⟨by split <;> simp, by split <;> simp, ?_, ?_⟩
  · split
    · rename_i h
      have := isLess_sound heps h
      rw [max_eq_right this.le]; simpa using heps
    · rename_i h
      rw [hl, not_lt] at h
      rcases le_total l r with h' | h'
      · rw [max_eq_right h']; exact h
      · rw [max_eq_left h']; simpa using heps
  · split
    · rename_i h
      have := isLess_sound heps h
      rw [min_eq_right this.le]; simpa using heps
    · rename_i h
      rw [hr, not_lt] at h
      rcases le_total l r with h' | h'
      · rw [min_eq_left h']; simpa using heps
      · rw [min_eq_right h']; exact h

/-- **C09**, tolerant equality is not transitive (as for any tolerance): stated so that nobody
relies on it. -/
theorem isEqual_not_trans :
    ∃ eps x y z : Int, 0 ≤ eps ∧ isEqual eps x y = true ∧ isEqual eps y z = true ∧
      isEqual eps x z = false := ⟨1, 0, 1, 2, by decide, by decide, by decide, by decide⟩

/-- **C09 fails for unsigned operands** of every width: the subtraction wraps, so two values are
reported less than each other, in both directions, exactly when their distance around the circle
exceeds the tolerance. -/
theorem unsigned_not_trichotomy {w : Nat} (eps l r : BitVec w) :
    (isLessU eps l r = true ∧ isLessU eps r l = true) ↔
      (eps.toNat : Int) < ((r.toNat : Int) - l.toNat) % 2 ^ w ∧
      (eps.toNat : Int) < ((l.toNat : Int) - r.toNat) % 2 ^ w := by
  have key : ∀ a b : BitVec w,
      ((a - b).toNat : Int) = ((a.toNat : Int) - b.toNat) % 2 ^ w := by
    intro a b
    rw [BitVec.toNat_sub]
    have ha := a.isLt
    have hb := b.isLt
    push_cast
    rw [show (((2 ^ w - b.toNat : Nat) : Int)) = 2 ^ w - b.toNat by
      rw [Nat.cast_sub hb.le]; push_cast; rfl]
    rw [show (2 ^ w - (b.toNat : Int) + a.toNat) = (a.toNat - b.toNat) + 2 ^ w by omega,
      Int.add_emod_right]
  unfold isLessU
  rw [decide_eq_true_eq, decide_eq_true_eq, BitVec.lt_def, BitVec.lt_def, ← key, ← key]
  omega

/-- **C09 fails for unsigned operands** of every width: with tolerance zero *any* two distinct
values are less than each other. -/
theorem unsigned_zero_tolerance {w : Nat} {l r : BitVec w} (h : l ≠ r) :
    isLessU 0 l r = true ∧ isLessU 0 r l = true := by
  have key : ∀ {a b : BitVec w}, a ≠ b → isLessU 0 b a = true := by
    intro a b hab
    unfold isLessU
    rw [decide_eq_true_eq, BitVec.lt_def]
    have : (a - b).toNat ≠ 0 := by
      intro h0
      apply hab
      have : a - b = 0#w := BitVec.eq_of_toNat_eq (by simpa using h0)
      have h2 : a - b + b = b := by rw [this]; simp
      rwa [BitVec.sub_add_cancel] at h2
    simp only [BitVec.ofNat_eq_ofNat, BitVec.toNat_ofNat, Nat.zero_mod]
    omega
  exact ⟨key (Ne.symm h), key h⟩

/-- **C09 fails for unsigned operands** of every width: tolerant equality is not symmetric; a value
equals every smaller one within the tolerance, and none of these equals it back unless the tolerance
reaches around the whole circle. -/
theorem unsigned_isEqual_not_symm {w : Nat} {eps l r : BitVec w} (h : l.toNat < r.toNat)
    (hle : r.toNat - l.toNat ≤ eps.toNat) (hwrap : eps.toNat + (r.toNat - l.toNat) < 2 ^ w) :
    isEqualU eps r l = true ∧ isEqualU eps l r = false := by
  have hl := l.isLt
  have hr := r.isLt
  unfold isEqualU
  rw [decide_eq_true_eq, decide_eq_false_iff_not, BitVec.le_def, BitVec.le_def, BitVec.toNat_sub,
    BitVec.toNat_sub]
  rw [show 2 ^ w - l.toNat + r.toNat = (r.toNat - l.toNat) + 2 ^ w by omega, Nat.add_mod_right,
    Nat.mod_eq_of_lt (by omega : r.toNat - l.toNat < 2 ^ w),
    Nat.mod_eq_of_lt (by omega : 2 ^ w - r.toNat + l.toNat < 2 ^ w)]
  omega

example : isLessU 1#32 3#32 5#32 = true ∧ isLessU 1#32 5#32 3#32 = true :=
  (unsigned_not_trichotomy _ _ _).mpr (by decide)
example : isEqualU 1#32 4#32 3#32 = true ∧ isEqualU 1#32 3#32 4#32 = false :=
  unsigned_isEqual_not_symm (by decide) (by decide) (by decide)

/-! Concrete cases. -/
example : compare3way (2 : Int) 10 13 = -1 ∧ compare3way (2 : Int) 10 12 = 0 ∧
    compare3way (2 : Int) 10 7 = 1 := by decide
example : isLess (2 : Int) 0 3 = true ∧ isLess (2 : Int) 3 6 = true ∧ isLess (2 : Int) 0 6 = true := by
  decide

end Actl.Compare
