import Verif.Model.SplitTrim
import Verif.Model.Text
import Mathlib.Data.List.DropRight
import Mathlib.Data.List.TakeWhile
import Mathlib.Data.List.Induction

/-!
C25, C26: `split` and `trim`.  The specification is the standard library's `List.splitOnP`
(the fields between delimiters, empty ones included), `dropWhile`, and plain list facts.
-/

namespace Actl.SplitTrim

variable {α : Type}

theorem split_fold_keep (d : α → Bool) (line : List α) (done : List (List α)) (cur : List α) :
    let r := line.foldl (splitStep d false) (done, cur)
    r.1 ++ [r.2] = done ++ (line.splitOnP d).modifyHead (cur ++ ·) := by
  induction line generalizing done cur with
  | nil => simp
  | cons c line ih =>
    simp only [List.foldl_cons, splitStep]
    rw [List.splitOnP_cons]
    by_cases hc : d c = true
    · simp only [hc, Bool.not_true, Bool.false_eq_true, if_false, Bool.not_false, Bool.true_or, if_true]
      rw [ih]
      simp
      cases h : line.splitOnP d with
      | nil => exact absurd h (List.splitOnP_ne_nil _ _)
      | cons a l => simp
    · simp only [hc, Bool.not_false, if_true, Bool.false_eq_true, if_false]
      rw [ih]
      cases h : line.splitOnP d with
      | nil => exact absurd h (List.splitOnP_ne_nil _ _)
      | cons a l => simp

theorem split_fold_remove (d : α → Bool) (line : List α) (done : List (List α)) (cur : List α) :
    let r := line.foldl (splitStep d true) (done, cur)
    r.1 ++ [r.2].filter (!·.isEmpty) =
      done ++ ((line.splitOnP d).modifyHead (cur ++ ·)).filter (!·.isEmpty) := by
  induction line generalizing done cur with
  | nil => simp
  | cons c line ih =>
    simp only [List.foldl_cons, splitStep]
    rw [List.splitOnP_cons]
    have hid : ∀ l : List (List α), l.modifyHead (([] : List α) ++ ·) = l := by
      intro l; cases l <;> simp
    by_cases hc : d c = true
    · simp only [hc, Bool.not_true, Bool.false_eq_true, if_false, Bool.false_or, if_true,
        List.modifyHead_cons, List.append_nil]
      cases cur with
      | nil => simp only [List.isEmpty_nil, Bool.not_true, Bool.false_eq_true, if_false]; rw [ih, hid]; simp
      | cons a cur =>
        simp only [List.isEmpty_cons, Bool.not_false, if_true]
        rw [ih, hid]
        simp
    · simp only [hc, Bool.not_false, if_true, Bool.false_eq_true, if_false]
      rw [ih]
      cases h : line.splitOnP d with
      | nil => exact absurd h (List.splitOnP_ne_nil _ _)
      | cons a l => simp

/-- **C25** With empty parts removed (the default), the result is the list of the non-empty
fields between delimiters, i.e. of the maximal runs of non-delimiters, in order. -/
theorem split_remove (d : α → Bool) (line : List α) :
    split d true line = (line.splitOnP d).filter (fun p => !p.isEmpty) := by
  have h := split_fold_remove d line [] []
  simp only [List.nil_append] at h
  have hid : ∀ l : List (List α), l.modifyHead (fun x => x) = l := by
    intro l; cases l <;> simp
  rw [hid] at h
  rw [← h]
  unfold split
  simp only [Bool.true_or, Bool.true_and]
  split
  · rename_i hc; simp [hc]
  · rename_i hc; simp [hc]

/-- **C25** Keeping empty parts, the result is the list of all fields; only the empty line gives
no field at all. -/
theorem split_keep (d : α → Bool) (line : List α) :
    split d false line = if line = [] then [] else line.splitOnP d := by
  have h := split_fold_keep d line [] []
  simp only [List.nil_append] at h
  have hid : ∀ l : List (List α), l.modifyHead (fun x => x) = l := by
    intro l; cases l <;> simp
  rw [hid] at h
  unfold split
  by_cases hl : line = []
  · subst hl; simp
  · rw [if_neg hl, ← h]
    simp only [Bool.false_or]
    split
    · rename_i hc
      exfalso
      simp only [Bool.and_eq_true, beq_iff_eq, List.isEmpty_iff] at hc
      have hd : (line.foldl (splitStep d false) ([], [])).1 = [] :=
        List.length_eq_zero_iff.mp (by omega)
      rw [hd, hc.2] at h
      cases line with
      | nil => exact hl rfl
      | cons c line =>
        rw [List.splitOnP_cons] at h
        split at h
        · simp at h
        · cases hs : line.splitOnP d with
          | nil => exact absurd hs (List.splitOnP_ne_nil _ _)
          | cons a l => rw [hs] at h; simp at h
    · rfl

/-- **C25** No part contains a delimiter, and with empty parts removed no part is empty. -/
theorem split_parts (d : α → Bool) (removeEmpty : Bool) (line : List α) :
    ∀ p ∈ split d removeEmpty line, (∀ c ∈ p, d c = false) ∧ (removeEmpty = true → p ≠ []) := by
  have key : ∀ line : List α, ∀ p ∈ line.splitOnP d, ∀ c ∈ p, d c = false := by
    intro line
    induction line with
    | nil => simp
    | cons a line ih =>
      rw [List.splitOnP_cons]
      by_cases ha : d a = true
      · rw [if_pos ha]
        intro p hp
        rcases List.mem_cons.mp hp with rfl | hp
        · simp
        · exact ih p hp
      · rw [if_neg ha]
        cases hs : line.splitOnP d with
        | nil => simp
        | cons b l =>
          rw [hs] at ih
          intro p hp
          simp only [List.modifyHead_cons, List.mem_cons] at hp
          rcases hp with rfl | hp
          · intro c hc
            rcases List.mem_cons.mp hc with rfl | hc
            · simpa using ha
            · exact ih b (by simp) c hc
          · exact ih p (by simp [hp])
  cases removeEmpty with
  | true =>
    rw [split_remove]
    intro p hp
    rw [List.mem_filter] at hp
    exact ⟨key line p hp.1, fun _ => by simpa using hp.2⟩
  | false =>
    rw [split_keep]
    intro p hp
    split at hp
    · simp at hp
    · exact ⟨key line p hp, by simp⟩

example : split (· == 0) true [0, 1, 2, 0, 0, 3, 0] = [[1, 2], [3]] := by decide
example : split (· == 0) false [0, 1, 2, 0, 0, 3, 0] = [[], [1, 2], [], [3], []] := by decide

/-! ### trim -/

theorem trimLeft_eq (p : α → Bool) (s : List α) : trimLeft p s = s.dropWhile p := by
  induction s with
  | nil => rfl
  | cons c s ih => simp only [trimLeft, List.dropWhile_cons, ih]

theorem trimRight_eq (p : α → Bool) (s : List α) : trimRight p s = s.rdropWhile p := by
  induction s using List.reverseRecOn with
  | nil => unfold trimRight; simp
  | append_singleton s c ih =>
    unfold trimRight
    split
    · rename_i h; simp at h
    · rename_i c' h
      simp only [List.getLast?_append, List.getLast?_singleton, Option.some_or, Option.some.injEq] at h
      subst h
      by_cases hp : p c = true
      · rw [if_pos hp, List.dropLast_concat, ih, List.rdropWhile_concat_pos _ _ _ hp]
      · rw [if_neg hp, List.rdropWhile_concat_neg _ _ _ hp]

/-- **C26** The result is the string without a prefix of characters to skip on the left and a
suffix of characters to skip on the right, and it is empty or neither starts nor ends with a
character to skip: the longest such prefix and suffix are removed and nothing else. -/
theorem trim_correct (pl pr : α → Bool) (s : List α) :
    ∃ a b, s = a ++ trim pl pr s ++ b ∧ (∀ c ∈ a, pl c = true) ∧ (∀ c ∈ b, pr c = true) ∧
      (∀ c, (trim pl pr s).head? = some c → pl c = false) ∧
      (∀ c, (trim pl pr s).getLast? = some c → pr c = false) := by
  unfold trim
  rw [trimLeft_eq, trimRight_eq]
  refine ⟨s.takeWhile pl, (s.dropWhile pl).rtakeWhile pr, ?_, ?_, ?_, ?_, ?_⟩
  · have h2 : s.dropWhile pl = (s.dropWhile pl).rdropWhile pr ++ (s.dropWhile pl).rtakeWhile pr :=
      (List.rdropWhile_append_rtakeWhile ..).symm
    conv => lhs; rw [← List.takeWhile_append_dropWhile (p := pl) (l := s), h2]
    simp
  · exact fun c hc => List.mem_takeWhile_imp hc
  · exact fun c hc => List.mem_rtakeWhile_imp hc
  · intro c hc
    have hpre : (s.dropWhile pl).rdropWhile pr <+: s.dropWhile pl := List.rdropWhile_prefix ..
    have hh : (s.dropWhile pl).head? = some c := by
      obtain ⟨t, ht⟩ := hpre
      rw [← ht, List.head?_append, hc]
      rfl
    have := List.head?_dropWhile_not pl s
    rw [hh] at this
    simpa using this
  · intro c hc
    have hne : (s.dropWhile pl).rdropWhile pr ≠ [] := by intro e; simp [e] at hc
    have := List.rdropWhile_last_not pr (s.dropWhile pl) hne
    rw [List.getLast?_eq_some_getLast hne] at hc
    injection hc with hc
    rw [← hc]
    simpa using this

/-- **C26** Trimming twice is trimming once. -/
theorem trim_idempotent (pl pr : α → Bool) (s : List α) :
    trim pl pr (trim pl pr s) = trim pl pr s := by
  obtain ⟨-, -, -, -, -, h1, h2⟩ := trim_correct pl pr s
  generalize trim pl pr s = t at *
  unfold trim
  have e1 : t.dropWhile pl = t := by
    cases t with
    | nil => rfl
    | cons c t => simp [h1 c rfl]
  rw [trimLeft_eq, trimRight_eq, e1]
  by_cases ht : t = []
  · subst ht; rfl
  · rw [List.rdropWhile_eq_self_iff]
    intro hl
    have := h2 _ (List.getLast?_eq_some_getLast hl)
    simp [this]

open Actl.Text in
example : trim isSpace isSpace (bytes " \t a b\n ") = bytes "a b" := by decide +kernel

end Actl.SplitTrim
