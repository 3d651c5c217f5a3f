import Verif.Model.Modular

/-!
Specification side of the modular arithmetic: which rings are legal, arithmetic
expressions over residues with their mathematical value.
-/

namespace Actl.Modular

/-- `R` represents the integers modulo `M`: `0 < M ≤ 2^w`, the modulus is stored
reduced to a word, a modulus that does not fit (`M = 2^w`) is only possible for a
static ring, and the word is either at most 32 bits wide or at least 64
(the widths of `uint8_t`, `uint16_t`, `uint32_t`, `uint64_t`). -/
structure Represents (R : Ring) (M : Nat) : Prop where
  pos : 0 < M
  le : M ≤ 2 ^ R.w
  stored : R.mod = M % 2 ^ R.w
  static : M = 2 ^ R.w → R.isStatic = true
  width : R.w ≤ 32 ∨ 64 ≤ R.w

/-- Arithmetic expressions a user can build with `+`, `-`, `*`, unary `-`. -/
inductive Expr where
  | lit (x : Nat)
  | add (a b : Expr)
  | sub (a b : Expr)
  | mul (a b : Expr)
  | neg (a : Expr)

/-- All literals are residues. -/
def Expr.Wf (M : Nat) : Expr → Prop
  | .lit x => x < M
  | .add a b | .sub a b | .mul a b => a.Wf M ∧ b.Wf M
  | .neg a => a.Wf M

/-- The mathematical (integer) value. -/
def Expr.value : Expr → Int
  | .lit x => x
  | .add a b => a.value + b.value
  | .sub a b => a.value - b.value
  | .mul a b => a.value * b.value
  | .neg a => - a.value

/-- Evaluation with the library's operations. -/
def Expr.eval (R : Ring) : Expr → Option Nat
  | .lit x => some x
  | .add a b => do return modAdd R (← a.eval R) (← b.eval R)
  | .sub a b => do return modSub R (← a.eval R) (← b.eval R)
  | .mul a b => do modMul R (← a.eval R) (← b.eval R)
  | .neg a => do return modNeg R (← a.eval R)

end Actl.Modular
