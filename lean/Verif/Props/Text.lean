import Verif.Model.Text

/-!
C27: character classes agree with the C locale on all 256 character values.
The classes are given by the list of their members.
-/

namespace Actl.Text

def cDigits : List Byte := bytes "0123456789"
def cLower : List Byte := bytes "abcdefghijklmnopqrstuvwxyz"
def cUpper : List Byte := bytes "ABCDEFGHIJKLMNOPQRSTUVWXYZ"
/-- space, form feed, line feed, carriage return, horizontal tab, vertical tab -/
def cSpace : List Byte := [0x20#8, 0x0c#8, 0x0a#8, 0x0d#8, 0x09#8, 0x0b#8]

/-- A statement about all bytes, checked value by value. -/
theorem forall_byte {p : Byte → Bool} (h : ∀ n : Fin 256, p (BitVec.ofFin n) = true) (c : Byte) :
    p c = true := h c.toFin

/-- **C27** -/
theorem isDigit_iff (c : Byte) : isDigit c = true ↔ c ∈ cDigits := by
  have := forall_byte (p := fun c => isDigit c == cDigits.contains c) (by decide +kernel) c
  rw [beq_iff_eq.mp this, List.contains_iff_mem]

/-- **C27** -/
theorem isLower_iff (c : Byte) : isLower c = true ↔ c ∈ cLower := by
  have := forall_byte (p := fun c => isLower c == cLower.contains c) (by decide +kernel) c
  rw [beq_iff_eq.mp this, List.contains_iff_mem]

/-- **C27** -/
theorem isUpper_iff (c : Byte) : isUpper c = true ↔ c ∈ cUpper := by
  have := forall_byte (p := fun c => isUpper c == cUpper.contains c) (by decide +kernel) c
  rw [beq_iff_eq.mp this, List.contains_iff_mem]

/-- **C27** -/
theorem isAlpha_iff (c : Byte) : isAlpha c = true ↔ c ∈ cLower ∨ c ∈ cUpper := by
  have := forall_byte (p := fun c => isAlpha c == (cLower.contains c || cUpper.contains c))
    (by decide +kernel) c
  rw [beq_iff_eq.mp this, Bool.or_eq_true, List.contains_iff_mem, List.contains_iff_mem]

/-- **C27** -/
theorem isAlphanumeric_iff (c : Byte) :
    isAlphanumeric c = true ↔ c ∈ cLower ∨ c ∈ cUpper ∨ c ∈ cDigits := by
  unfold isAlphanumeric
  rw [Bool.or_eq_true, isAlpha_iff, isDigit_iff, or_assoc]

/-- **C27** -/
theorem isSpace_iff (c : Byte) : isSpace c = true ↔ c ∈ cSpace := by
  have := forall_byte (p := fun c => isSpace c == cSpace.contains c) (by decide +kernel) c
  rw [beq_iff_eq.mp this, List.contains_iff_mem]

/-- **C27**: the classes are disjoint, and no byte with the high bit set (a negative `char`)
belongs to any. -/
theorem classes_disjoint (c : Byte) :
    (isAlpha c && isDigit c) = false ∧ (isAlphanumeric c && isSpace c) = false ∧
    (isLower c && isUpper c) = false ∧
    (c.msb = true → isAlphanumeric c = false ∧ isSpace c = false) := by
  have h := forall_byte (p := fun c => (isAlpha c && isDigit c) == false &&
    (isAlphanumeric c && isSpace c) == false && (isLower c && isUpper c) == false &&
    (!c.msb || (isAlphanumeric c == false && isSpace c == false))) (by decide +kernel) c
  simp only [Bool.and_eq_true, beq_iff_eq, Bool.or_eq_true, Bool.not_eq_true'] at h
  obtain ⟨⟨⟨h1, h2⟩, h3⟩, h4⟩ := h
  refine ⟨h1, h2, h3, fun hm => ?_⟩
  rcases h4 with h4 | h4
  · rw [hm] at h4; exact absurd h4 (by decide)
  · exact h4

example : isAlpha (lit 'q') = true ∧ isAlpha (lit '[') = false ∧ isSpace (lit '\n') = true ∧
    isDigit 0xb0#8 = false := by decide

end Actl.Text
