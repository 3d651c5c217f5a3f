import Verif.Model.TypeArray

/-!
C74: metafunctions on arrays of types.  The statements use only `List` operations of Lean's library.
-/

namespace Actl.TypeArray

variable {T : Type}

theorem wsub_le {a b : Nat} (ha : a < 2 ^ 64) (h : b ≤ a) : wsub a b = a - b := by
  unfold wsub; omega

theorem wsub_gt {a b : Nat} (hb : b < 2 ^ 64) (h : a < b) : wsub a b = a + 2 ^ 64 - b := by
  unfold wsub; omega

theorem exists_cons {ts : List T} (h : 1 ≤ ts.length) : ∃ a ts', ts = a :: ts' := by
  cases ts with
  | nil => simp at h
  | cons a ts => exact ⟨a, ts, rfl⟩

theorem exists_cons4 {ts : List T} (h : 4 ≤ ts.length) : ∃ a b c d ts', ts = a :: b :: c :: d :: ts' := by
  obtain ⟨a, ts, rfl⟩ := exists_cons (ts := ts) (by omega)
  simp only [List.length_cons] at h
  obtain ⟨b, ts, rfl⟩ := exists_cons (ts := ts) (by omega)
  simp only [List.length_cons] at h
  obtain ⟨c, ts, rfl⟩ := exists_cons (ts := ts) (by omega)
  simp only [List.length_cons] at h
  obtain ⟨d, ts, rfl⟩ := exists_cons (ts := ts) (by omega)
  exact ⟨a, b, c, d, ts, rfl⟩

theorem typeAtSmall_eq (ts : List T) (i : Nat) (hi : i < 8) : typeAtSmall ts i = ts[i]? := by
  rcases ts with _ | ⟨_, _ | ⟨_, _ | ⟨_, _ | ⟨_, _ | ⟨_, _ | ⟨_, _ | ⟨_, _ | ⟨_, ts⟩⟩⟩⟩⟩⟩⟩⟩ <;>
    rcases i with _ | _ | _ | _ | _ | _ | _ | _ | i <;> first | rfl | omega

theorem typeAt_big (a b c d e f g h : T) (ts : List T) {i : Nat} (hi : ¬ i < 8) :
    typeAt (a :: b :: c :: d :: e :: f :: g :: h :: ts) i = typeAt ts (wsub i 8) := by
  rw [typeAt.eq_def, if_neg hi]

theorem typeAt_short {ts : List T} (hs : ts.length < 8) {i : Nat} (hi : ¬ i < 8) : typeAt ts i = none := by
  rw [typeAt.eq_def, if_neg hi]
  rcases ts with _ | ⟨_, _ | ⟨_, _ | ⟨_, _ | ⟨_, _ | ⟨_, _ | ⟨_, _ | ⟨_, _ | ⟨_, ts⟩⟩⟩⟩⟩⟩⟩⟩ <;>
    first | rfl | (simp only [List.length_cons] at hs; omega)

/-- **C74** `at_t` is the type at the index, and is ill-formed exactly for an index past the end. -/
theorem typeAt_correct (ts : List T) (i : Nat) (h : i < 2 ^ 64) : typeAt ts i = ts[i]? := by
  by_cases hi : i < 8
  · rw [typeAt.eq_def, if_pos hi, typeAtSmall_eq ts i hi]
  · by_cases hs : ts.length < 8
    · rw [typeAt_short hs hi, List.getElem?_eq_none (by omega)]
    · obtain ⟨a, b, c, d, ts', rfl⟩ := exists_cons4 (ts := ts) (by omega)
      obtain ⟨e, f, g, h, ts, rfl⟩ := exists_cons4 (ts := ts') (by simp only [List.length_cons] at hs; omega)
      · rw [typeAt_big _ _ _ _ _ _ _ _ _ hi, wsub_le (by omega) (by omega),
          typeAt_correct ts (i - 8) (by omega)]
        obtain ⟨j, rfl⟩ : ∃ j, i = j + 8 := ⟨i - 8, by omega⟩
        simp
termination_by ts.length

/-- **C74** `concat_t` is the concatenation of all its arguments, in order. -/
theorem typesConcat_correct (l : List (List T)) : typesConcat l = l.flatten := by
  induction l using typesConcat.induct with
  | case1 ts => simp [typesConcat]
  | case2 => simp [typesConcat]
  | case3 ts us rest ih => rw [typesConcat, ih]; simp

theorem slicePrefix_big (a b c d : T) (ts : List T) {n : Nat} (hn : 4 ≤ n) :
    slicePrefix (a :: b :: c :: d :: ts) n =
      (slicePrefix ts (wsub n 4)).bind fun r => some (typesConcat [[a, b, c, d], r]) := by
  rw [slicePrefix.eq_def, if_neg (by omega), if_neg (by omega), if_neg (by omega), if_neg (by omega)]

theorem slicePrefix_short {ts : List T} {n : Nat} (hs : ts.length < 4) :
    slicePrefix ts n = if n ≤ ts.length then some (ts.take n) else none := by
  rw [slicePrefix.eq_def]
  rcases n with _ | _ | _ | _ | n
  · simp
  all_goals
    rcases ts with _ | ⟨_, _ | ⟨_, _ | ⟨_, _ | ⟨_, ts⟩⟩⟩⟩ <;>
      first | rfl | (simp only [List.length_cons] at hs; omega) | simp

theorem slicePrefix_eq (ts : List T) (n : Nat) (h : n < 2 ^ 64) :
    slicePrefix ts n = if n ≤ ts.length then some (ts.take n) else none := by
  by_cases hs : ts.length < 4
  · exact slicePrefix_short hs
  · obtain ⟨a, b, c, d, ts, rfl⟩ := exists_cons4 (ts := ts) (by omega)
    · by_cases hn : 4 ≤ n
      · rw [slicePrefix_big _ _ _ _ _ hn, wsub_le h hn, slicePrefix_eq ts (n - 4) (by omega)]
        obtain ⟨j, rfl⟩ : ∃ j, n = j + 4 := ⟨n - 4, by omega⟩
        by_cases h : j ≤ ts.length
        · simp [h, typesConcat_correct]
        · simp [h]
      · rw [slicePrefix.eq_def]
        rcases n with _ | _ | _ | _ | n
        · simp
        · simp
        · simp
        · simp
        · omega
termination_by ts.length

theorem slice_step {ts : List T} {k last : Nat} (hk' : k < 2 ^ 64) (pre : List T)
    (hpre : pre.length = k) (hl : last < 2 ^ 64) (hn : (pre ++ ts).length < 2 ^ 64) (first : Nat) :
    (if first ≤ wsub last k ∧ wsub last k ≤ ts.length then
        some ((ts.drop first).take (wsub last k - first)) else none) =
      if first + k ≤ last ∧ last ≤ (pre ++ ts).length then
        some (((pre ++ ts).drop (first + k)).take (last - (first + k))) else none := by
  rw [List.length_append] at *
  by_cases h : k ≤ last
  · rw [wsub_le hl h]
    have e : (pre ++ ts).drop (first + k) = ts.drop first := by
      rw [Nat.add_comm, ← List.drop_drop, ← hpre, List.drop_left]
    rw [e]
    by_cases h1 : first + k ≤ last ∧ last ≤ pre.length + ts.length
    · rw [if_pos h1, if_pos (by omega), show last - k - first = last - (first + k) by omega]
    · rw [if_neg h1, if_neg (by omega)]
  · rw [wsub_gt hk' (by omega), if_neg (by omega), if_neg (by omega)]

theorem typesSlice_short {ts : List T} {first last : Nat} (h : ts.length < first) (h4 : ts.length < 4) :
    typesSlice ts first last = none := by
  rw [typesSlice.eq_def]
  rcases first with _ | _ | _ | _ | n
  · omega
  all_goals
    rcases ts with _ | ⟨_, _ | ⟨_, _ | ⟨_, _ | ⟨_, ts⟩⟩⟩⟩ <;>
      first | (simp only [List.length_cons, List.length_nil] at h h4; omega) | rfl

theorem wsub_lt (a b : Nat) : wsub a b < 2 ^ 64 := Nat.mod_lt _ (Nat.pow_pos (by omega))

theorem typesSlice_zero (ts : List T) (last : Nat) : typesSlice ts 0 last = slicePrefix ts last := by
  rw [typesSlice.eq_def, if_pos rfl]

theorem typesSlice_one (a : T) (ts : List T) (last : Nat) :
    typesSlice (a :: ts) 1 last = slicePrefix ts (wsub last 1) := by
  rw [typesSlice.eq_def, if_neg (by omega), if_pos rfl]

theorem typesSlice_two (a b : T) (ts : List T) (last : Nat) :
    typesSlice (a :: b :: ts) 2 last = slicePrefix ts (wsub last 2) := by
  rw [typesSlice.eq_def, if_neg (by omega), if_neg (by omega), if_pos rfl]

theorem typesSlice_three (a b c : T) (ts : List T) (last : Nat) :
    typesSlice (a :: b :: c :: ts) 3 last = slicePrefix ts (wsub last 3) := by
  rw [typesSlice.eq_def, if_neg (by omega), if_neg (by omega), if_neg (by omega), if_pos rfl]

theorem typesSlice_big (a b c d : T) (ts : List T) {first : Nat} (last : Nat) (h : 4 ≤ first) :
    typesSlice (a :: b :: c :: d :: ts) first last = typesSlice ts (wsub first 4) (wsub last 4) := by
  rw [typesSlice.eq_def, if_neg (by omega), if_neg (by omega), if_neg (by omega), if_neg (by omega)]

/-- The claim about one slice. -/
def SliceOk (ts : List T) (first last : Nat) : Prop :=
  typesSlice ts first last =
    if first ≤ last ∧ last ≤ ts.length then some ((ts.drop first).take (last - first)) else none

theorem sliceOk_prefix {ts pre : List T} {last : Nat} (hk : pre.length < 2 ^ 64) (hl : last < 2 ^ 64)
    (hn : (pre ++ ts).length < 2 ^ 64)
    (h : typesSlice (pre ++ ts) pre.length last = slicePrefix ts (wsub last pre.length)) :
    SliceOk (pre ++ ts) pre.length last := by
  have := slice_step (ts := ts) (last := last) hk pre rfl hl hn 0
  unfold SliceOk
  rw [h, slicePrefix_eq _ _ (wsub_lt _ _)]
  rw [Nat.zero_add] at this
  rw [← this]
  generalize wsub last pre.length = w
  by_cases hw : w ≤ ts.length
  · rw [if_pos hw, if_pos ⟨Nat.zero_le _, hw⟩, List.drop_zero, Nat.sub_zero]
  · rw [if_neg hw, if_neg fun h => hw h.2]

theorem typesSlice_eq (n : Nat) : ∀ (ts : List T) (first last : Nat), ts.length ≤ n →
    ts.length < 2 ^ 64 → first < 2 ^ 64 → last < 2 ^ 64 → SliceOk ts first last := by
  induction n using Nat.strongRecOn with
  | ind n ih =>
    intro ts first last hle h hf hl
    by_cases hs : ts.length < first ∧ ts.length < 4
    · unfold SliceOk
      rw [typesSlice_short hs.1 hs.2, if_neg (by omega)]
    by_cases h0 : first = 0
    · subst h0
      have e : wsub last 0 = last := by rw [wsub_le hl (Nat.zero_le _), Nat.sub_zero]
      exact sliceOk_prefix (pre := []) (Nat.pow_pos (by omega)) hl h (by
        rw [List.length_nil, e]; exact typesSlice_zero _ _)
    obtain ⟨a, ts, rfl⟩ := exists_cons (ts := ts) (by omega)
    by_cases h1 : first = 1
    · subst h1
      exact sliceOk_prefix (pre := [a]) hf hl h (typesSlice_one _ _ _)
    simp only [List.length_cons] at hs
    obtain ⟨b, ts, rfl⟩ := exists_cons (ts := ts) (by omega)
    by_cases h2 : first = 2
    · subst h2
      exact sliceOk_prefix (pre := [a, b]) hf hl h (typesSlice_two _ _ _ _)
    simp only [List.length_cons] at hs
    obtain ⟨c, ts, rfl⟩ := exists_cons (ts := ts) (by omega)
    by_cases h3 : first = 3
    · subst h3
      exact sliceOk_prefix (pre := [a, b, c]) hf hl h (typesSlice_three _ _ _ _ _)
    simp only [List.length_cons] at hs
    obtain ⟨d, ts, rfl⟩ := exists_cons (ts := ts) (by omega)
    simp only [List.length_cons] at hle
    have hlen : ts.length < 2 ^ 64 := by simp only [List.length_cons] at h; omega
    have h4 := slice_step (ts := ts) (k := 4) (last := last) (by omega) [a, b, c, d] rfl hl
      (by simpa using h) (first - 4)
    have e := ih ts.length (by omega) ts (first - 4) (wsub last 4) (Nat.le_refl _) hlen (by omega) (wsub_lt _ _)
    unfold SliceOk at e ⊢
    rw [typesSlice_big _ _ _ _ _ _ (by omega), wsub_le hf (by omega), e, h4,
      Nat.sub_add_cancel (by omega)]
    simp only [List.cons_append, List.nil_append]

/-- **C74** `slice_t` is well-formed exactly for `First ≤ Last ≤ length`, and is then the types with an
index from `First` up to but not including `Last`. -/
theorem typesSlice_correct (ts : List T) (first last : Nat) (h : ts.length < 2 ^ 64)
    (hf : first < 2 ^ 64) (hl : last < 2 ^ 64) (r : List T) :
    typesSlice ts first last = some r ↔
      first ≤ last ∧ last ≤ ts.length ∧ r.length = last - first ∧
        ∀ i < last - first, r[i]? = ts[first + i]? := by
  rw [typesSlice_eq ts.length ts first last (Nat.le_refl _) h hf hl]
  by_cases hc : first ≤ last ∧ last ≤ ts.length
  · rw [if_pos hc]
    constructor
    · intro e
      have e := Option.some.inj e
      subst e
      refine ⟨hc.1, hc.2, by simp; omega, fun i hi => ?_⟩
      rw [List.getElem?_take_of_lt hi, List.getElem?_drop]
    · rintro ⟨h1, h2, h3, h4⟩
      refine congrArg some (List.ext_getElem? fun i => ?_)
      by_cases hi : i < last - first
      · rw [h4 i hi, List.getElem?_take_of_lt hi, List.getElem?_drop]
      · rw [List.getElem?_eq_none (by simp; omega), List.getElem?_eq_none (by omega)]
  · rw [if_neg hc]
    simp only [reduceCtorEq, false_iff]
    rintro ⟨h1, h2, _⟩
    exact hc ⟨h1, h2⟩

/-- **C74** `prefix_t` is well-formed exactly for a length up to the length of the array, and is then
that many first types. -/
theorem typesPrefix_correct (ts : List T) (n : Nat) (hn : n < 2 ^ 64) :
    typesPrefix ts n = if n ≤ ts.length then some (ts.take n) else none := by
  rw [typesPrefix, typesSlice.eq_def, if_pos rfl, slicePrefix_eq ts n hn]

/-- **C74** `suffix_t` is well-formed exactly for a length up to the length of the array, and is then
that many last types. -/
theorem typesSuffix_correct (ts : List T) (n : Nat) (h : ts.length < 2 ^ 64) (hn : n < 2 ^ 64) :
    typesSuffix ts n = if n ≤ ts.length then some (ts.drop (ts.length - n)) else none := by
  unfold typesSuffix
  rw [typesSlice_eq ts.length ts (wsub ts.length n) ts.length (Nat.le_refl _) h (wsub_lt _ _) h]
  by_cases hc : n ≤ ts.length
  · rw [if_pos hc, wsub_le h hc, if_pos (by omega)]
    rw [List.take_of_length_le (by simp)]
  · rw [if_neg hc, wsub_gt hn (by omega), if_neg (by omega)]

/-- **C74** A prefix and the remaining suffix, concatenated, are the array again. -/
theorem typesConcat_prefix_suffix (ts : List T) (n : Nat) (hn : n ≤ ts.length) (h : ts.length < 2 ^ 64) :
    ∃ p s, typesPrefix ts n = some p ∧ typesSuffix ts (ts.length - n) = some s ∧
      typesConcat [p, s] = ts := by
  refine ⟨ts.take n, ts.drop n, ?_, ?_, ?_⟩
  · rw [typesPrefix_correct _ _ (by omega), if_pos hn]
  · rw [typesSuffix_correct ts _ h (by omega), if_pos (by omega),
      show ts.length - (ts.length - n) = n by omega]
  · simp [typesConcat_correct]

example : typeAt [10, 11, 12, 13, 14, 15, 16, 17, 18, 19] 9 = some 19 := by decide +kernel

example : typesSlice [10, 11, 12, 13, 14, 15, 16, 17, 18, 19] 3 9 = some [13, 14, 15, 16, 17, 18] := by
  rw [typesSlice_eq 10 _ _ _ (by simp) (by simp) (by simp) (by simp)]; rfl

/-- Indices in the wrong order: the subtraction wraps, and the instantiation fails. -/
example : typesSlice [10, 11, 12, 13, 14, 15] 5 2 = none := by
  rw [typesSlice_eq 10 _ _ _ (by simp) (by simp) (by simp) (by simp)]; rfl

example : typesSuffix [10, 11, 12] 4 = none := by
  rw [typesSuffix_correct _ _ (by simp) (by simp)]; rfl

example : typesConcat [[1, 2], [], [3], [4, 5]] = [1, 2, 3, 4, 5] := by
  rw [typesConcat_correct]; rfl

end Actl.TypeArray
