import Verif.Model.Till
import Verif.Props.Devices
import Verif.Props.Text
import Mathlib.Data.List.TakeWhile

/-!
C23: reading up to a terminator; skipping.
-/

namespace Actl.Till

open Actl.Text Actl.Device

/-- The characters before the first terminator. -/
def word (t : Byte → Bool) (s : List Byte) : List Byte := s.takeWhile (fun c => !t c)

/-! ### Unbuffered -/

/-- **C23** (unbuffered) Reads the characters before the first terminator, at most `size`; the
terminator itself is consumed if the span was not filled. -/
theorem readTillGet_correct (t : Byte → Bool) (size : Nat) (s : List Byte) :
    ∃ d, readTillGet t size ⟨s, false⟩ = ((word t s).take size, d) ∧
      (size ≤ (word t s).length → d = ⟨s.drop size, false⟩) ∧
      ((word t s).length < size → (word t s).length < s.length →
        d = ⟨s.drop ((word t s).length + 1), false⟩) ∧
      ((word t s).length < size → word t s = s → d = ⟨[], true⟩) := by
  induction size generalizing s with
  | zero => exact ⟨_, by simp [readTillGet], fun _ => rfl, by omega, by omega⟩
  | succ size ih =>
    cases s with
    | nil => exact ⟨⟨[], true⟩, by simp [readTillGet, FileDev.get, word], by simp [word], by simp [word], by simp⟩
    | cons c cs =>
      by_cases hc : t c = true
      · have hw : word t (c :: cs) = [] := by simp [word, hc]
        refine ⟨⟨cs, false⟩, by simp [readTillGet, FileDev.get, hc, hw], by simp [hw], by simp [hw], by simp [hw]⟩
      · have hw : word t (c :: cs) = c :: word t cs := by simp [word, hc]
        obtain ⟨d, h1, h2, h3, h4⟩ := ih cs
        refine ⟨d, ?_, ?_, ?_, ?_⟩
        · simp [readTillGet, FileDev.get, hc, h1, hw]
        · rw [hw]; intro h; simpa using h2 (by simpa using h)
        · rw [hw]; intro h h'; simpa using h3 (by simpa using h) (by simpa using h')
        · rw [hw]; intro h h'; exact h4 (by simpa using h) (by simpa using h')

example : readTillGet isSpace 10 ⟨bytes "ab cd", false⟩ = (bytes "ab", ⟨bytes "cd", false⟩) := by
  decide +kernel

/-! ### Buffered -/

theorem scan_eq (t : Byte → Bool) (k : Nat) (s : List Byte) : scan t k s = (word t s).take k := by
  induction k generalizing s with
  | zero => simp [scan]
  | succ k ih =>
    cases s with
    | nil => simp [scan, word]
    | cons c cs =>
      by_cases hc : t c = true
      · simp [scan, word, hc]
      · simp only [scan, hc, Bool.false_eq_true, if_false, ih]
        simp [word, hc]

theorem word_append (t : Byte → Bool) (a b : List Byte) :
    word t (a ++ b) = if word t a = a then a ++ word t b else word t a := by
  induction a with
  | nil => simp [word]
  | cons c cs ih =>
    by_cases hc : t c = true
    · simp [word, hc]
    · have h1 : ∀ l, word t (c :: l) = c :: word t l := by intro l; simp [word, hc]
      rw [List.cons_append, h1, h1, ih]
      by_cases h : word t cs = cs
      · simp [h]
      · simp [h]

theorem word_length_le (t : Byte → Bool) (s : List Byte) : (word t s).length ≤ s.length :=
  (List.takeWhile_prefix _).length_le

theorem word_eq_of_length (t : Byte → Bool) (s : List Byte) (h : (word t s).length = s.length) :
    word t s = s := (List.takeWhile_prefix _).eq_of_length h

/-- **C23** (buffered) However the data are split into chunks, `read_till` stores the characters
before the first terminator, at most `size`, and leaves the device exactly after them: the
terminator is *not* consumed. -/
theorem readTillBuf_correct (t : Byte → Bool) (chunks : List (List Byte)) :
    ∀ (size i fuel : Nat), (∀ s ∈ chunks, s ≠ []) → i ≤ size → chunks.length < fuel →
    ∃ d, readTillBuf t size fuel i chunks = some ((word t chunks.flatten).take (size - i), d) ∧
      d.flatten = chunks.flatten.drop (min (size - i) (word t chunks.flatten).length) ∧
      (∀ s ∈ d, s ≠ []) := by
  induction chunks with
  | nil =>
    intro size i fuel _ hi hf
    obtain ⟨fuel, rfl⟩ : ∃ f, fuel = f + 1 := ⟨fuel - 1, by omega⟩
    refine ⟨[], ?_, by simp [word], by simp⟩
    simp [readTillBuf, inputBuffer, scan_eq, word, moveChunks]
  | cons s rest ih =>
    intro size i fuel hne hi hf
    obtain ⟨fuel, rfl⟩ : ∃ f, fuel = f + 1 := ⟨fuel - 1, by omega⟩
    simp only [List.length_cons] at hf
    have hs : s ≠ [] := hne s (by simp)
    have hsl := List.length_pos_iff.mpr hs
    have hse : s.isEmpty = false := by simpa using hs
    have hwl := word_length_le t s
    have hgl : ((word t s).take (size - i)).length = min (size - i) (word t s).length := by simp
    have hfl : (s :: rest).flatten = s ++ rest.flatten := rfl
    simp only [readTillBuf, inputBuffer, scan_eq, hse, hgl, Bool.or_false]
    rw [show i + min (size - i) (word t s).length - min (size - i) (word t s).length = i by omega]
    have hmove : ∀ n, n ≤ s.length → (moveChunks n (s :: rest)).flatten = (s ++ rest.flatten).drop n ∧
        ∀ x ∈ moveChunks n (s :: rest), x ≠ [] := by
      intro n hn
      simp only [moveChunks]
      split
      · rename_i h
        refine ⟨by rw [h, List.drop_left], fun x hx => hne x (List.mem_cons_of_mem _ hx)⟩
      · rename_i h
        refine ⟨by rw [List.flatten_cons, List.drop_append_of_le_length hn], fun x hx => ?_⟩
        rcases List.mem_cons.mp hx with rfl | hx
        · intro h0
          have := congrArg List.length h0
          simp at this
          omega
        · exact hne x (List.mem_cons_of_mem _ hx)
    by_cases hstop : i + min (size - i) (word t s).length = size ∨
        min (size - i) (word t s).length ≠ min s.length (size - i)
    · rw [if_pos (by simpa using hstop)]
      have hres : (word t (s ++ rest.flatten)).take (size - i) = (word t s).take (size - i) ∧
          min (size - i) (word t (s ++ rest.flatten)).length = min (size - i) (word t s).length := by
        rw [word_append]
        split
        · rename_i h
          rw [h] at hstop ⊢
          have : size - i ≤ s.length := by omega
          refine ⟨List.take_append_of_le_length this, ?_⟩
          simp only [List.length_append]; omega
        · exact ⟨rfl, rfl⟩
      have := hmove (min (size - i) (word t s).length) (by omega)
      refine ⟨_, ?_, ?_, this.2⟩
      · rw [hfl, hres.1]
      · rw [hfl, hres.2]; exact this.1
    · rw [if_neg (by simpa using hstop)]
      have hw : word t s = s := word_eq_of_length t s (by omega)
      rw [hw] at hstop ⊢
      have hmin : min (size - i) s.length = s.length := by omega
      rw [hmin]
      have hmv : moveChunks s.length (s :: rest) = rest := by simp [moveChunks]
      rw [hmv]
      obtain ⟨d, h1, h2, h3⟩ := ih size (i + s.length) fuel
        (fun x hx => hne x (List.mem_cons_of_mem _ hx)) (by omega) (by omega)
      refine ⟨d, ?_, ?_, h3⟩
      · rw [h1, hfl, word_append, if_pos hw, List.take_append]
        simp only [Nat.sub_add_eq]
      · rw [h2, hfl, word_append, if_pos hw, List.length_append,
          show min (size - i) (s.length + (word t rest.flatten).length) =
            s.length + min (size - (i + s.length)) (word t rest.flatten).length by omega,
          ← List.drop_drop, List.drop_left]

example : readTillBuf isSpace 10 5 0 [bytes "a", bytes "bc", bytes "d e"] =
    some (bytes "abcd", [bytes " e"]) := by decide +kernel

/-! ### Strings -/

/-- **C23** Reading into a string through chunks gives all the characters before the first
terminator, whatever the capacity of the string and the splitting. -/
theorem readString_chunks (t : Byte → Bool) (capacity : Nat) (chunks : List (List Byte))
    (hne : ∀ s ∈ chunks, s ≠ []) {fuel f : Nat} (hfuel : chunks.flatten.length < fuel)
    (hf : chunks.flatten.length < f) :
    ∃ d, readString (fun n d => readTillBuf t n f 0 d) fuel [] (firstLength capacity) chunks =
        some (word t chunks.flatten, d) ∧
      d.flatten = chunks.flatten.drop (word t chunks.flatten).length := by
  have hlen : ∀ (l : List (List Byte)), (∀ s ∈ l, s ≠ []) → l.length ≤ l.flatten.length := by
    intro l
    induction l with
    | nil => simp
    | cons s l ih =>
      intro h
      have h1 := ih (fun x hx => h x (List.mem_cons_of_mem _ hx))
      have h2 := List.length_pos_iff.mpr (h s (by simp))
      simp only [List.length_cons, List.flatten_cons, List.length_append]; omega
  have key : ∀ (fuel : Nat) (chunks : List (List Byte)) (acc : List Byte) (length : Nat),
      (∀ s ∈ chunks, s ≠ []) → 0 < length → chunks.flatten.length < fuel → chunks.flatten.length < f →
      ∃ d, readString (fun n d => readTillBuf t n f 0 d) fuel acc length chunks =
          some (acc ++ word t chunks.flatten, d) ∧
        d.flatten = chunks.flatten.drop (word t chunks.flatten).length := by
    intro fuel
    induction fuel with
    | zero => intro _ _ _ _ _ h; omega
    | succ fuel ih =>
      intro chunks acc length hne hl hfu hf
      obtain ⟨d, h1, h2, h3⟩ := readTillBuf_correct t chunks length 0 f hne (by omega)
        (by have := hlen chunks hne; omega)
      simp only [Nat.sub_zero] at h1 h2
      have hwl := word_length_le t chunks.flatten
      simp only [readString, h1, List.length_take]
      by_cases hlt : (word t chunks.flatten).length < length
      · rw [if_pos (by omega)]
        refine ⟨d, by rw [List.take_of_length_le (by omega)], ?_⟩
        rw [h2]; congr 1; omega
      · rw [if_neg (by omega)]
        rw [Nat.min_eq_left (by omega)] at h2
        have hdl : d.flatten.length = chunks.flatten.length - length := by rw [h2]; simp
        obtain ⟨d', g1, g2⟩ := ih d (acc ++ (word t chunks.flatten).take length) (acc.length + length)
          h3 (by omega) (by omega) (by omega)
        have hsplit : word t chunks.flatten = (word t chunks.flatten).take length ++ word t d.flatten := by
          have htk : chunks.flatten.take length = (word t chunks.flatten).take length := by
            have hp : word t chunks.flatten <+: chunks.flatten := List.takeWhile_prefix _
            obtain ⟨u, hu⟩ := hp
            conv_lhs => rw [← hu]
            rw [List.take_append_of_le_length (by omega)]
          have hww : word t ((word t chunks.flatten).take length) = (word t chunks.flatten).take length := by
            unfold word
            rw [List.takeWhile_eq_self_iff]
            intro x hx
            exact List.mem_takeWhile_imp (p := fun c => !t c) (List.mem_of_mem_take hx)
          conv_lhs => rw [← List.take_append_drop length chunks.flatten, htk, word_append, if_pos hww]
          rw [h2]
        refine ⟨d', ?_, ?_⟩
        · rw [g1, List.append_assoc, ← hsplit]
        · have hl2 := congrArg List.length hsplit
          simp only [List.length_append, List.length_take] at hl2
          rw [g2, h2, List.drop_drop]
          rw [h2] at hl2
          congr 1
          omega
  obtain ⟨d, h1, h2⟩ := key fuel chunks [] (firstLength capacity) hne
    (by unfold firstLength; omega) hfuel hf
  exact ⟨d, by simpa using h1, h2⟩

/-- **C23** The same from an unbuffered device; afterwards the terminator is consumed, too. -/
theorem readString_file (t : Byte → Bool) (capacity : Nat) (s : List Byte) {fuel : Nat}
    (hfuel : s.length < fuel) :
    readString (fun n d => some (readTillGet t n d)) fuel [] (firstLength capacity) ⟨s, false⟩ =
      some (word t s, ⟨s.drop ((word t s).length + 1), decide (word t s = s)⟩) := by
  have key : ∀ (fuel : Nat) (s acc : List Byte) (length : Nat), 0 < length → s.length < fuel →
      readString (fun n d => some (readTillGet t n d)) fuel acc length ⟨s, false⟩ =
        some (acc ++ word t s, ⟨s.drop ((word t s).length + 1), decide (word t s = s)⟩) := by
    intro fuel
    induction fuel with
    | zero => intro _ _ _ _ h; omega
    | succ fuel ih =>
      intro s acc length hl hfu
      obtain ⟨d, h1, h2, h3, h4⟩ := readTillGet_correct t length s
      have hwl := word_length_le t s
      simp only [readString, h1, List.length_take]
      by_cases hlt : (word t s).length < length
      · rw [if_pos (by omega), List.take_of_length_le (by omega)]
        by_cases hall : word t s = s
        · rw [h4 hlt hall, hall, List.drop_eq_nil_of_le (by omega)]; simp
        · have : (word t s).length < s.length := by
            rcases Nat.lt_or_ge (word t s).length s.length with h | h
            · exact h
            · exact absurd (word_eq_of_length t s (by omega)) hall
          rw [h3 hlt this]; simp [hall]
      · rw [if_neg (by omega), h2 (by omega), ih _ _ _ (by omega) (by simp; omega)]
        have htk : s.take length = (word t s).take length := by
          have hp : word t s <+: s := List.takeWhile_prefix _
          obtain ⟨u, hu⟩ := hp
          conv_lhs => rw [← hu]
          rw [List.take_append_of_le_length (by omega)]
        have hww : word t ((word t s).take length) = (word t s).take length := by
          unfold word
          rw [List.takeWhile_eq_self_iff]
          intro x hx
          exact List.mem_takeWhile_imp (p := fun c => !t c) (List.mem_of_mem_take hx)
        have hsplit : word t s = (word t s).take length ++ word t (s.drop length) := by
          conv_lhs => rw [← List.take_append_drop length s, htk, word_append, if_pos hww]
        have hl2 := congrArg List.length hsplit
        simp only [List.length_append, List.length_take] at hl2
        rw [List.append_assoc, ← hsplit, List.drop_drop]
        have hiff : (word t (s.drop length) = s.drop length) ↔ word t s = s := by
          constructor
          · intro h
            rw [hsplit, h, ← htk, List.take_append_drop]
          · intro h
            apply word_eq_of_length
            have := congrArg List.length h
            simp only [List.length_drop]
            omega
        simp only [hiff, Option.some.injEq, Prod.mk.injEq, FileDev.mk.injEq, true_and, and_true]
        congr 1
        omega
  simpa using key fuel s [] (firstLength capacity) (by unfold firstLength; omega) hfuel

/-- **C23** Round trip: a string without whitespace, followed by whitespace or the end, is read
back, from any chunks. -/
theorem readString_roundtrip (x rest : List Byte) (hx : ∀ c ∈ x, isSpace c = false)
    (hr : rest = [] ∨ ∃ c cs, rest = c :: cs ∧ isSpace c = true) (capacity : Nat)
    (chunks : List (List Byte)) (hne : ∀ s ∈ chunks, s ≠ []) (hc : chunks.flatten = x ++ rest)
    {fuel : Nat} (hf : (x ++ rest).length < fuel) :
    ∃ d, readString (fun n d => readTillBuf isSpace n fuel 0 d) fuel [] (firstLength capacity) chunks =
        some (x, d) ∧ d.flatten = rest := by
  have hw : word isSpace (x ++ rest) = x := by
    have hx' : word isSpace x = x := by
      unfold word
      rw [List.takeWhile_eq_self_iff]
      intro c hc
      simp [hx c hc]
    rw [word_append, if_pos hx']
    rcases hr with rfl | ⟨c, cs, rfl, h⟩
    · simp [word]
    · simp [word, h]
  obtain ⟨d, h1, h2⟩ := readString_chunks isSpace capacity chunks hne (fuel := fuel) (f := fuel)
    (by rw [hc]; exact hf) (by rw [hc]; exact hf)
  rw [hc, hw] at h1 h2
  exact ⟨d, h1, by simpa using h2⟩

example : readString (fun n d => readTillBuf isSpace n 50 0 d) 50 [] (firstLength 0)
    [bytes "abcdefghijklmnopqrstuvwxyz", bytes "0123456789 tail"] =
    some (bytes "abcdefghijklmnopqrstuvwxyz0123456789", [bytes " tail"]) := by decide +kernel

/-! ### Skipping -/

/-- **C23** Skipping moves over exactly the longest prefix of accepted characters, if the predicate
rejects the null character. -/
theorem skip_correct (p : Byte → Bool) (h0 : p 0#8 = false) (data : List Byte) (pos : Nat)
    (hp : pos ≤ data.length) {fuel : Nat} (hf : data.length - pos < fuel) :
    skip p fuel ⟨data, pos⟩ =
      some ⟨data, ((pos + ((data.drop pos).takeWhile p).length : Nat) : Int)⟩ := by
  induction fuel generalizing pos with
  | zero => omega
  | succ fuel ih =>
    have heof : Mem.eof ⟨data, pos⟩ = false := by simp [Mem.eof, hp]
    simp only [skip, heof, Bool.false_eq_true, if_false]
    by_cases hlt : pos < data.length
    · have hpk : Mem.peek ⟨data, pos⟩ = some data[pos] := by simp [Mem.peek, hlt]
      rw [hpk, List.drop_eq_getElem_cons hlt]
      simp only
      by_cases hc : p data[pos] = true
      · rw [if_pos hc, List.takeWhile_cons_of_pos hc]
        have hm : Mem.move ⟨data, (pos : Int)⟩ 1 = ⟨data, ((pos + 1 : Nat) : Int)⟩ := by simp [Mem.move]
        rw [hm, ih (pos + 1) (by omega) (by omega)]
        simp only [List.length_cons, Option.some.injEq, Mem.mk.injEq, true_and]
        omega
      · rw [if_neg hc, List.takeWhile_cons_of_neg hc]; simp
    · have hpk : Mem.peek ⟨data, pos⟩ = some 0#8 := by simp [Mem.peek, hlt]
      rw [hpk, List.drop_eq_nil_of_le (by omega)]
      simp [h0]

/-- Whitespace is such a predicate, and so is any non-null character. -/
theorem space_rejects_null : isSpace 0#8 = false := by decide +kernel

example : skip isSpace 9 ⟨bytes "  \t x", 0⟩ = some ⟨bytes "  \t x", 4⟩ := by decide +kernel

/-- **C23** (negation) Given as a string literal, the set of skipped characters contains the null
character, so that skipping at the end of any data overruns it: the device then reports the end
of data and the next non-empty `read` accesses memory beyond the span. -/
theorem skip_cstr_overruns (s data : List Byte) (hl : data.length < 2 ^ 62) {k : Nat} (hk : 0 < k)
    (hk' : k < 2 ^ 63) {fuel : Nat} (hf : 2 ≤ fuel) :
    ∃ m, skip (Pred.cstr s).test fuel ⟨data, data.length⟩ = some m ∧ m.eof = true ∧ m.read k = none := by
  obtain ⟨fuel, rfl⟩ : ∃ f, fuel = f + 2 := ⟨fuel - 2, by omega⟩
  refine ⟨⟨data, (data.length : Int) + 1⟩, ?_, by simp [Mem.eof], ?_⟩
  · have h0 : (Pred.cstr s).test 0#8 = true := by simp [Pred.test]
    simp [skip, Mem.eof, Mem.peek, h0, Mem.move]
  · have := mem_read_past_ub hl hk hk'
    simp only [Mem.run, Mem.step, Mem.get, Mem.peek, Int.lt_irrefl, if_false] at this
    cases h : Mem.read ⟨data, (data.length : Int) + 1⟩ k with
    | none => rfl
    | some r => rw [h] at this; simp at this

/-- The predicates themselves. -/
theorem pred_char (p c : Byte) : (Pred.char p).test c = true ↔ c = p := by
  simp only [Pred.test, beq_iff_eq]
  exact eq_comm

theorem pred_cstr (s : List Byte) (c : Byte) : (Pred.cstr s).test c = true ↔ c ∈ s ∨ c = 0#8 := by
  simp [Pred.test]

end Actl.Till
