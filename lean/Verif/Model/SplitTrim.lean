/-!
Model of `string/split.hpp` and `string/trim.hpp`; characters are of an arbitrary type.
-/

namespace Actl.SplitTrim

variable {α : Type}

/-- One iteration of the loop of `split`, `split.hpp:22-28`.  The vector of strings is given by
its last element `cur` and the elements before it. -/
def splitStep (isDelimiter : α → Bool) (removeEmpty : Bool) (st : List (List α) × List α) (c : α) :
    List (List α) × List α :=
  let (done, cur) := st
  if !isDelimiter c then (done, cur ++ [c])
  else if !removeEmpty || !cur.isEmpty then (done ++ [cur], [])
  else (done, cur)

/-- `split`, `split.hpp:18-32`. -/
def split (isDelimiter : α → Bool) (removeEmpty : Bool) (line : List α) : List (List α) :=
  let (done, cur) := line.foldl (splitStep isDelimiter removeEmpty) ([], [])
  if (removeEmpty || done.length + 1 == 1) && cur.isEmpty then done else done ++ [cur]

/-- First loop of `trim`, `trim.hpp:20`; the range `[l, r)` is given by its elements. -/
def trimLeft (skip : α → Bool) : List α → List α
  | [] => []
  | c :: s => if skip c then trimLeft skip s else c :: s

/-- Second loop of `trim`, `trim.hpp:21`: `r[-1]` is the last element of the range. -/
def trimRight (skip : α → Bool) (s : List α) : List α :=
  match h : s.getLast? with
  | none => s
  | some c => if skip c then trimRight skip s.dropLast else s
termination_by s.length
decreasing_by
  have : s ≠ [] := by intro e; simp [e] at h
  have : 0 < s.length := List.length_pos_iff.mpr this
  simp; omega

/-- `trim`, `trim.hpp:14-23`. -/
def trim (skipLeft skipRight : α → Bool) (s : List α) : List α :=
  trimRight skipRight (trimLeft skipLeft s)

end Actl.SplitTrim
