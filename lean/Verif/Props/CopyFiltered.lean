import Verif.Model.CopyFiltered

/-!
C145: copying a filtered range, also over the vector that it filters.
-/

namespace Actl.CopyFiltered

variable {α : Type}

theorem seek_spec (p : α → Bool) (mem : List α) :
    ∀ (fuel i : Nat), i ≤ mem.length → mem.length - i ≤ fuel →
      i ≤ seek p mem fuel i ∧ seek p mem fuel i ≤ mem.length ∧
      (mem.drop (seek p mem fuel i)).filter p = (mem.drop i).filter p ∧
      (∀ x, mem[seek p mem fuel i]? = some x → p x = true) := by
  intro fuel
  induction fuel with
  | zero =>
    intro i h1 h2
    refine ⟨Nat.le_refl _, h1, rfl, ?_⟩
    intro x hx
    have hlen : mem.length ≤ i := by omega
    simp only [seek] at hx
    rw [List.getElem?_eq_none hlen] at hx
    cases hx
  | succ fuel ih =>
    intro i h1 h2
    rw [seek]
    cases hx : mem[i]? with
    | none =>
      refine ⟨Nat.le_refl _, h1, rfl, ?_⟩
      intro x h
      simp only at h
      rw [hx] at h; cases h
    | some x =>
      have hi : i < mem.length := (List.getElem?_eq_some_iff.mp hx).1
      have hxi : mem[i] = x := (List.getElem?_eq_some_iff.mp hx).2
      by_cases hp : p x = true
      · simp only [hp, Bool.not_true, Bool.false_eq_true, if_false]
        refine ⟨Nat.le_refl _, h1, trivial, ?_⟩
        intro y hy
        rw [hx] at hy
        cases hy
        exact hp
      · have hp' : p x = false := by simpa using hp
        simp only [hp', Bool.not_false, if_true]
        obtain ⟨g1, g2, g3, g4⟩ := ih (i + 1) (by omega) (by omega)
        refine ⟨by omega, g2, ?_, g4⟩
        rw [g3, List.drop_eq_getElem_cons hi, List.filter_cons, hxi, if_neg hp]

/-- The loop on a vector whose part from the reader on is untouched, the writer not being before the reader. -/
theorem copyIn_spec (p : α → Bool) :
    ∀ (fuel : Nat) (mem : List α) (i t : Nat), i ≤ mem.length → t ≤ i → (∀ x, mem[i]? = some x → p x = true) →
      mem.length - i < fuel →
      copyIn p fuel mem i t = some (mem.take t ++ (mem.drop i).filter p ++ mem.drop (t + ((mem.drop i).filter p).length),
        t + ((mem.drop i).filter p).length) := by
  intro fuel
  induction fuel with
  | zero => intro mem i t _ _ _ h; omega
  | succ fuel ih =>
    intro mem i t hi hti hp hf
    rw [copyIn]
    by_cases he : i = mem.length
    · rw [if_pos he]
      have : mem.drop i = [] := List.drop_of_length_le (by omega)
      rw [this]
      simp
    · rw [if_neg he]
      have hi' : i < mem.length := by omega
      rw [List.getElem?_eq_getElem hi']
      simp only
      rw [if_pos (by omega)]
      have hpx : p mem[i] = true := hp _ (List.getElem?_eq_getElem hi')
      have hlen : (mem.set t mem[i]).length = mem.length := List.length_set
      have hdrop : ∀ k, t < k → (mem.set t mem[i]).drop k = mem.drop k := fun k hk => List.drop_set_of_lt hk
      obtain ⟨g1, g2, g3, g4⟩ := seek_spec p (mem.set t mem[i]) (mem.set t mem[i]).length (i + 1) (by omega) (by omega)
      rw [ih _ _ (t + 1) g2 (by omega) g4 (by omega), g3, hdrop (i + 1) (by omega), hdrop _ (by omega)]
      have htake : (mem.set t mem[i]).take (t + 1) = mem.take t ++ [mem[i]] := by
        rw [List.take_set, List.take_add_one, List.getElem?_eq_getElem (by omega)]
        rw [Option.toList_some, List.set_append_right (h := by simp; omega)]
        simp [Nat.min_eq_left (show t ≤ mem.length by omega)]
      rw [htake, List.drop_eq_getElem_cons hi', List.filter_cons, if_pos hpx]
      simp only [List.length_cons, List.append_assoc, List.cons_append, List.nil_append]
      rw [show t + 1 + ((mem.drop (i + 1)).filter p).length = t + (((mem.drop (i + 1)).filter p).length + 1) from by omega]

/-- **C145** Copying the elements that satisfy a predicate, from the position `a` of a vector on, to a position of the same vector that is not behind the first of
them is right although the vector changes under the filtered range: the copies stand at the target in their order, all other elements are as before, and the
position behind the last copy is returned.  (`a = t = 0` is the first half of the erase-remove idiom.) -/
theorem copy_filtered_in_place (p : α → Bool) (mem : List α) (a t : Nat) (ha : a ≤ mem.length)
    (ht : t ≤ a + ((mem.drop a).takeWhile fun x => !p x).length) :
    copyFiltered p mem a t =
      some (mem.take t ++ (mem.drop a).filter p ++ mem.drop (t + ((mem.drop a).filter p).length),
        t + ((mem.drop a).filter p).length) := by
  obtain ⟨g1, g2, g3, g4⟩ := seek_spec p mem mem.length a ha (by omega)
  have hs : seek p mem mem.length a = a + ((mem.drop a).takeWhile fun x => !p x).length := by
    have key : ∀ (fuel i : Nat), i ≤ mem.length → mem.length - i ≤ fuel →
        seek p mem fuel i = i + ((mem.drop i).takeWhile fun x => !p x).length := by
      intro fuel
      induction fuel with
      | zero =>
        intro i h1 h2
        rw [List.drop_of_length_le (by omega)]
        simp [seek]
      | succ fuel ih =>
        intro i h1 h2
        rw [seek]
        by_cases hi : i < mem.length
        · rw [List.getElem?_eq_getElem hi, List.drop_eq_getElem_cons hi, List.takeWhile_cons]
          simp only
          by_cases hp : p mem[i] = true
          · simp [hp]
          · simp only [hp, Bool.not_false, if_true]
            rw [ih (i + 1) (by omega) (by omega), List.length_cons]
            omega
        · rw [List.getElem?_eq_none (by omega), List.drop_of_length_le (by omega)]
          simp
    exact key mem.length a ha (by omega)
  unfold copyFiltered
  rw [copyIn_spec p _ mem _ t g2 (by omega) g4 (by omega), g3]

/-- **C145** With `erase` from the returned position on, the vector is exactly the list of the elements that satisfy the predicate. -/
theorem erase_remove (p : α → Bool) (mem : List α) :
    ∃ mem' k, copyFiltered p mem 0 0 = some (mem', k) ∧ mem'.take k = mem.filter p := by
  have := copy_filtered_in_place p mem 0 0 (Nat.zero_le _) (Nat.zero_le _)
  simp only [List.drop_zero, List.take_zero, List.nil_append, Nat.zero_add] at this
  exact ⟨_, _, this, by simp⟩

/-- **C145**, the negation for a target behind the first element that satisfies the predicate: if it is the next position, the copy finds its own copies and runs over the end of the
vector, whatever the vector contains. -/
theorem copy_filtered_next_fails (p : α → Bool) (mem : List α) (a : Nat) (ha : a < mem.length) (hp : p mem[a] = true) :
    copyFiltered p mem a (a + 1) = none := by
  have key : ∀ (fuel : Nat) (mem : List α) (i : Nat) (hi : i < mem.length), p mem[i] = true → copyIn p fuel mem i (i + 1) = none := by
    intro fuel
    induction fuel with
    | zero => intro mem i _ _; rfl
    | succ fuel ih =>
      intro mem i hi hpi
      rw [copyIn, if_neg (by omega), List.getElem?_eq_getElem hi]
      simp only
      by_cases hn : i + 1 < mem.length
      · rw [if_pos hn]
        have hset : (mem.set (i + 1) mem[i])[i + 1]'(by simpa using hn) = mem[i] := by simp
        have hseek : seek p (mem.set (i + 1) mem[i]) (mem.set (i + 1) mem[i]).length (i + 1) = i + 1 := by
          have hl : (mem.set (i + 1) mem[i]).length = (mem.length - 1) + 1 := by rw [List.length_set]; omega
          rw [hl, seek, List.getElem?_eq_getElem (by simpa using hn), hset]
          simp [hpi]
        rw [hseek]
        exact ih _ (i + 1) (by simpa using hn) (by rw [hset]; exact hpi)
      · rw [if_neg hn]
  have hseek : seek p mem mem.length a = a := by
    have hl : mem.length = (mem.length - 1) + 1 := by omega
    rw [hl, seek, List.getElem?_eq_getElem ha]
    simp [hp]
  unfold copyFiltered
  rw [hseek]
  exact key _ mem a ha hp

/-- **C145** To another vector: defined exactly if the elements fit behind the target, which they then replace. -/
theorem copy_filtered_to (p : α → Bool) (src dst : List α) (t : Nat) (ht : t ≤ dst.length) :
    copyFilteredTo p src dst t =
      if t + (src.filter p).length ≤ dst.length then
        some (dst.take t ++ src.filter p ++ dst.drop (t + (src.filter p).length), t + (src.filter p).length)
      else none := by
  have key : ∀ (fuel : Nat) (dst : List α) (i t : Nat), i ≤ src.length → t ≤ dst.length → (∀ x, src[i]? = some x → p x = true) →
      src.length - i < fuel →
      copyOut p src fuel dst i t =
        if t + ((src.drop i).filter p).length ≤ dst.length then
          some (dst.take t ++ (src.drop i).filter p ++ dst.drop (t + ((src.drop i).filter p).length),
            t + ((src.drop i).filter p).length)
        else none := by
    intro fuel
    induction fuel with
    | zero => intro dst i t _ _ _ h; omega
    | succ fuel ih =>
      intro dst i t hi ht hp hf
      rw [copyOut]
      by_cases he : i = src.length
      · rw [if_pos he]
        have : src.drop i = [] := List.drop_of_length_le (by omega)
        rw [this]
        simp [ht]
      · rw [if_neg he]
        have hi' : i < src.length := by omega
        rw [List.getElem?_eq_getElem hi']
        simp only
        have hpx : p src[i] = true := hp _ (List.getElem?_eq_getElem hi')
        have hcons : (src.drop i).filter p = src[i] :: (src.drop (i + 1)).filter p := by
          rw [List.drop_eq_getElem_cons hi', List.filter_cons, if_pos hpx]
        by_cases htl : t < dst.length
        · rw [if_pos htl]
          obtain ⟨g1, g2, g3, g4⟩ := seek_spec p src src.length (i + 1) (by omega) (by omega)
          rw [ih _ _ (t + 1) g2 (by rw [List.length_set]; omega) g4 (by omega), g3, hcons, List.length_set, List.length_cons]
          rw [show t + 1 + ((src.drop (i + 1)).filter p).length = t + (((src.drop (i + 1)).filter p).length + 1) from by omega]
          have htake : (dst.set t src[i]).take (t + 1) = dst.take t ++ [src[i]] := by
            rw [List.take_set, List.take_add_one, List.getElem?_eq_getElem htl]
            rw [Option.toList_some, List.set_append_right (h := by simp; omega)]
            simp [Nat.min_eq_left ht]
          rw [htake, List.drop_set_of_lt (by omega)]
          simp only [List.append_assoc, List.cons_append, List.nil_append]
        · rw [if_neg htl, hcons, List.length_cons, if_neg (by omega)]
  obtain ⟨g1, g2, g3, g4⟩ := seek_spec p src src.length 0 (Nat.zero_le _) (by omega)
  unfold copyFilteredTo
  rw [key _ dst _ t g2 ht g4 (by omega), g3, List.drop_zero]

/-! Concrete cases: the even numbers. -/

example : copyFiltered (fun x : Nat => x % 2 == 0) [1, 2, 3, 4, 6, 7] 0 0 = some ([2, 4, 6, 4, 6, 7], 3) := by decide
example : (1 : Nat) ≤ 0 + (([1, 2, 3, 4, 6, 7].drop 0).takeWhile fun x : Nat => !(x % 2 == 0)).length ∧
    copyFiltered (fun x : Nat => x % 2 == 0) [1, 2, 3, 4, 6, 7] 0 1 = some ([1, 2, 4, 6, 6, 7], 4) := by decide
example : copyFiltered (fun x : Nat => x % 2 == 0) [1, 2, 3, 5] 1 2 = none :=
  copy_filtered_next_fails (fun x : Nat => x % 2 == 0) [1, 2, 3, 5] 1 (by decide) (by decide)
example : copyFilteredTo (fun x : Nat => x % 2 == 0) [1, 2, 3, 4] [9, 9, 9, 9] 1 = some ([9, 2, 4, 9], 3) ∧
    copyFilteredTo (fun x : Nat => x % 2 == 0) [1, 2, 3, 4] [9] 0 = none := by decide

end Actl.CopyFiltered
