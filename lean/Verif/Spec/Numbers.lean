import Verif.Model.Numbers
import Mathlib.Order.WithBot

/-!
What the numbers of the built-in types stand for, and what is known of rounding.
-/

namespace Actl.Numbers

/-- The numbers with minus and plus infinity. -/
abbrev Ext := WithBot (WithTop ℚ)

/-- A rational number among them. -/
def ofRat (x : ℚ) : Ext := ((x : WithTop ℚ) : WithBot (WithTop ℚ))

/-- What a floating point value stands for; nothing for NaN. -/
def FVal.value : FVal → Option Ext
  | .nan => none
  | .inf true => some ⊥
  | .inf false => some ⊤
  | .fin x => some (ofRat x)

/-- What a number of a built-in type stands for. -/
def Num.value : Num → Option Ext
  | .int e => some (ofRat e.val)
  | .float _ v => v.value

/-- The nearest number of `p` binary digits, for every `p`, by any rule for ties that does not prefer a sign. -/
structure Nearest (round : Nat → ℚ → ℚ) : Prop where
  mono : ∀ p, 0 < p → Monotone (round p)
  neg : ∀ p, 0 < p → ∀ x, round p (-x) = -round p x
  near : ∀ p, 0 < p → ∀ x, |round p x - x| ≤ ((2 : ℚ) ^ p)⁻¹ * |x|
  has : ∀ p, 0 < p → ∀ k e : Int, |k| ≤ 2 ^ p → round p (k * 2 ^ e) = k * 2 ^ e
  wider : ∀ p q, 0 < p → p ≤ q → ∀ x, round q (round p x) = round p x

/-- The type has the value.  Floating point types have the powers of two up to `2 ^ 64`, integer types at most 64 bits. -/
def Num.Ok (round : Nat → ℚ → ℚ) : Num → Prop
  | .int e => 0 < e.ty.bits ∧ e.ty.bits ≤ 64 ∧
      (if e.ty.signed then -(2 ^ (e.ty.bits - 1)) ≤ e.val ∧ e.val < 2 ^ (e.ty.bits - 1) else 0 ≤ e.val ∧ e.val < 2 ^ e.ty.bits)
  | .float t v => 0 < t.prec ∧ 2 ^ 64 ≤ t.limit ∧ ∀ x, v = .fin x → round t.prec x = x ∧ |x| ≤ t.limit

/-- An integer type keeps its values when it is compared with the other: both are signed or both unsigned after the promotion to
`int`, or the signed one has more bits. -/
def SameSign (s t : Equality.IntTy) : Prop :=
  let signed (u : Equality.IntTy) := u.signed = true ∨ u.bits < 32
  let width (u : Equality.IntTy) := max u.bits 32
  (signed s ↔ signed t) ∨ (signed s ∧ width t < width s) ∨ (signed t ∧ width s < width t)

/-- Both sides keep their values when they are converted to the common type. -/
def Comparable : Num → Num → Prop
  | .int a, .int b => SameSign a.ty b.ty ∨ (0 ≤ a.val ∧ 0 ≤ b.val)
  | .int a, .float t _ => |a.val| ≤ 2 ^ t.prec
  | .float t _, .int b => |b.val| ≤ 2 ^ t.prec
  | .float _ _, .float _ _ => True

/-- The number of the type `t` with this value. -/
def float (t : FloatTy) (x : ℚ) : Num := .float t (.fin x)

end Actl.Numbers
