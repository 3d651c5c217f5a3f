import Verif.Model.Adjusted

/-!
C18: width adjustment.
-/

namespace Actl.Adjusted

open Actl.Text

theorem writeRepeat_eq (c : Byte) (n : Nat) : writeRepeat c n = List.replicate n c := by
  induction n with
  | zero => rfl
  | succ n ih => rw [writeRepeat, ih, List.replicate_succ]

/-- **C18** The content is unchanged, surrounded by `l` and `r` fill characters; the total length
is the larger of the width and the content length; the padding is on the requested side(s), and
centering puts the odd character right (`center`) or left (`center_right`). -/
theorem writeAdjusted_correct (width : Nat) (a : AdjustTo) (fill : Byte) (x : List Byte) :
    ∃ l r, writeAdjusted width a fill x = List.replicate l fill ++ x ++ List.replicate r fill ∧
      l + x.length + r = max width x.length ∧
      (writeAdjusted width a fill x).length = max width x.length ∧
      (a = .left → l = 0) ∧ (a = .right → r = 0) ∧
      (a = .center → r = l ∨ r = l + 1) ∧ (a = .centerRight → l = r ∨ l = r + 1) := by
  refine ⟨(adjustment width a x.length).1, (adjustment width a x.length).2, ?_, ?_, ?_, ?_⟩
  · simp [writeAdjusted, writeRepeat_eq]
  · unfold adjustment
    split
    · simp; omega
    · cases a <;> simp [AdjustTo.value] <;> omega
  · simp only [writeAdjusted, writeRepeat_eq, List.length_append, List.length_replicate]
    unfold adjustment
    split
    · simp; omega
    · cases a <;> simp [AdjustTo.value] <;> omega
  · unfold adjustment
    split
    · simp
    · cases a <;> simp [AdjustTo.value] <;> omega

example : writeAdjusted 6 .center (lit '*') (bytes "abc") = bytes "*abc**" := by decide +kernel
example : writeAdjusted 6 .centerRight (lit '*') (bytes "abc") = bytes "**abc*" := by decide +kernel
example : writeAdjusted 2 .right (lit '*') (bytes "abc") = bytes "abc" := by decide +kernel

/-- **C18** On a memory device with enough room the padding is written at the cursor and nothing
else changes. -/
theorem repeatMemory_fits (data : List Byte) (pos : Nat) (c : Byte) (count : Nat)
    (h : pos + count ≤ data.length) :
    repeatMemory data pos c count =
      some (data.take pos ++ List.replicate count c ++ data.drop (pos + count), pos + count) := by
  unfold repeatMemory
  rw [if_pos (by omega)]

example : repeatMemory (bytes "abcdef") 1 (lit '-') 3 = some (bytes "a---ef", 4) := by decide +kernel

/-- **C18** (negation) On a memory device, padding that does not fit divides by zero, for every
content, cursor and count. -/
theorem repeatMemory_ub (data : List Byte) (pos : Nat) (c : Byte) (count : Nat)
    (hp : pos ≤ data.length) (h : data.length < pos + count) :
    repeatMemory data pos c count = none := by
  unfold repeatMemory
  rw [if_neg (by omega)]
  simp only
  rw [if_pos]
  simp only [List.length_append, List.length_take, List.length_replicate, List.length_drop]
  omega

example : repeatMemory (bytes "abc") 1 (lit '-') 3 = none := by decide +kernel

end Actl.Adjusted
