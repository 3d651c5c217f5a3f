import Verif.Model.Escaped
import Verif.Spec.Escaped
import Verif.Props.Text

/-!
C17: escaped strings.
-/

namespace Actl.Escaped

open Actl.Text

/-- Everything needed about one character, checked for all 256 values. -/
theorem char_table (c : Byte) :
    (escape c = 0#8 → c ≠ lit '"' ∧ c ≠ lit '\'' ∧ c ≠ lit '\\') ∧
    (escape c ≠ 0#8 → escapeMeaning.lookup (escape c) = some c) :=
  of_decide_eq_true (forall_byte (p := fun c => decide (
    (escape c = 0#8 → c ≠ lit '"' ∧ c ≠ lit '\'' ∧ c ≠ lit '\\') ∧
    (escape c ≠ 0#8 → escapeMeaning.lookup (escape c) = some c))) (by decide +kernel) c)

theorem readLiteral_close (q : Byte) (s : List Byte) : readLiteral q (q :: s) = some ([], s) := by
  cases s <;> simp [readLiteral]

theorem readLiteral_plain (q c : Byte) (s : List Byte) (h : c ≠ q) (h' : c ≠ lit '\\')
    {vs r : List Byte} (hs : readLiteral q s = some (vs, r)) :
    readLiteral q (c :: s) = some (c :: vs, r) := by
  cases s with
  | nil => simp [readLiteral] at hs
  | cons d s => rw [readLiteral]; simp [h, h', hs]

theorem readLiteral_escape (q e v : Byte) (s : List Byte) (h : lit '\\' ≠ q)
    (he : escapeMeaning.lookup e = some v) {vs r : List Byte} (hs : readLiteral q s = some (vs, r)) :
    readLiteral q (lit '\\' :: e :: s) = some (v :: vs, r) := by
  rw [readLiteral]; simp [h, he, hs]

theorem readLiteral_writeEscaped (q : Byte) (hq : q = lit '"' ∨ q = lit '\'') (s rest : List Byte) :
    readLiteral q (writeEscaped s ++ q :: rest) = some (s, rest) := by
  have hqb : lit '\\' ≠ q := by rcases hq with rfl | rfl <;> decide
  induction s with
  | nil => exact readLiteral_close q rest
  | cons c s ih =>
    obtain ⟨h1, h2⟩ := char_table c
    simp only [writeEscaped]
    by_cases he : escape c = 0#8
    · obtain ⟨n1, n2, n3⟩ := h1 he
      have hcq : c ≠ q := by rcases hq with rfl | rfl <;> assumption
      simp only [he, ne_eq, not_true_eq_false, if_false, List.cons_append, List.nil_append]
      exact readLiteral_plain q c _ hcq n3 ih
    · simp only [he, ne_eq, not_false_eq_true, if_true, List.cons_append, List.nil_append]
      exact readLiteral_escape q _ c _ hqb (h2 he) ih

/-- **C17** A reader of string literals gets the original string back from the escaped text, and
nothing of what follows the literal, whatever the string contains. -/
theorem encodeString_decodes (s rest : List Byte) :
    ∃ body, encodeString s ++ rest = lit '"' :: body ∧ readLiteral (lit '"') body = some (s, rest) := by
  refine ⟨writeEscaped s ++ lit '"' :: rest, by simp [encodeString], ?_⟩
  exact readLiteral_writeEscaped _ (Or.inl rfl) s rest

/-- **C17** The same for a single character. -/
theorem encodeChar_decodes (c : Byte) (rest : List Byte) :
    ∃ body, encodeChar c ++ rest = lit '\'' :: body ∧ readLiteral (lit '\'') body = some ([c], rest) := by
  refine ⟨writeEscaped [c] ++ lit '\'' :: rest, by simp [encodeChar], ?_⟩
  exact readLiteral_writeEscaped _ (Or.inr rfl) [c] rest

/-- **C17** Different strings have different escaped texts, even as beginnings of longer texts. -/
theorem encodeString_injective (s t r₁ r₂ : List Byte)
    (h : encodeString s ++ r₁ = encodeString t ++ r₂) : s = t ∧ r₁ = r₂ := by
  obtain ⟨b1, e1, d1⟩ := encodeString_decodes s r₁
  obtain ⟨b2, e2, d2⟩ := encodeString_decodes t r₂
  rw [e1, e2] at h
  injection h with _ h
  subst h
  rw [d1] at d2
  simpa using d2

/-- **C17** The text between the quotes is a sequence of units, one per character of the string:
an ordinary character that is none of NUL, `\a \b \t \n \v \f \r`, quotes and backslash, or a
backslash followed by one of `0abtnvfr"'\`. -/
theorem writeEscaped_units (s : List Byte) :
    ∃ units : List (List Byte), writeEscaped s = units.flatten ∧ units.length = s.length ∧
      ∀ u ∈ units,
        (∃ c, u = [c] ∧ c ≠ 0#8 ∧ ¬ (7 ≤ c.toNat ∧ c.toNat ≤ 13) ∧ c ≠ lit '"' ∧ c ≠ lit '\'' ∧
          c ≠ lit '\\') ∨
        (∃ e ∈ bytes "0abtnvfr\"'\\", u = [lit '\\', e]) := by
  induction s with
  | nil => exact ⟨[], rfl, rfl, by simp⟩
  | cons c s ih =>
    obtain ⟨units, h1, h2, h3⟩ := ih
    refine ⟨(if escape c ≠ 0#8 then [lit '\\', escape c] else [c]) :: units, ?_, by simp [h2], ?_⟩
    · simp only [writeEscaped, List.flatten_cons, h1]
    · intro u hu
      rcases List.mem_cons.mp hu with rfl | hu
      · by_cases he : escape c = 0#8
        · left
          refine ⟨c, by simp [he], ?_⟩
          have := of_decide_eq_true (forall_byte (p := fun c => decide (escape c = 0#8 →
            c ≠ 0#8 ∧ ¬ (7 ≤ c.toNat ∧ c.toNat ≤ 13) ∧ c ≠ lit '"' ∧ c ≠ lit '\'' ∧ c ≠ lit '\\'))
            (by decide +kernel) c)
          exact this he
        · right
          refine ⟨escape c, ?_, by simp [he]⟩
          have := of_decide_eq_true (forall_byte (p := fun c => decide (escape c ≠ 0#8 →
            escape c ∈ bytes "0abtnvfr\"'\\")) (by decide +kernel) c)
          exact this he
      · exact h3 u hu

example : encodeString (bytes "a\"b\n\\") = bytes "\"a\\\"b\\n\\\\\"" := by decide +kernel

/-- **C17** (negation of one part) Strings of control characters other than NUL and `\a \b \t \n \v \f \r`,
such as ESC (27), SOH (1) and DEL (127), are written raw, whatever they are. -/
theorem control_characters_raw (s : List Byte)
    (h : ∀ c ∈ s, (c.toNat < 32 ∨ c.toNat = 127) ∧ c.toNat ≠ 0 ∧ ¬ (7 ≤ c.toNat ∧ c.toNat ≤ 13)) :
    writeEscaped s = s := by
  induction s with
  | nil => rfl
  | cons c s ih =>
    have := of_decide_eq_true (forall_byte (p := fun c => decide
      ((c.toNat < 32 ∨ c.toNat = 127) ∧ c.toNat ≠ 0 ∧ ¬ (7 ≤ c.toNat ∧ c.toNat ≤ 13) → escape c = 0#8))
      (by decide +kernel) c) (h c (by simp))
    simp only [writeEscaped, this, ne_eq, not_true_eq_false, if_false]
    rw [ih fun d hd => h d (by simp [hd])]
    rfl

example : writeEscaped [27#8, 1#8, 127#8] = [27#8, 1#8, 127#8] := control_characters_raw _ (by decide)

end Actl.Escaped
