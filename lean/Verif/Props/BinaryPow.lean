import Verif.Lemmas.BinaryPow

/-!
C01: `binary_pow` is exponentiation, in every monoid.
-/

namespace Actl.BinaryPow

section
variable {α : Type _} {mul : α → α → α} {one : α}
  (assoc : ∀ a b c, mul (mul a b) c = mul a (mul b c))
  (one_mul : ∀ a, mul one a = a) (mul_one : ∀ a, mul a one = a)

include assoc one_mul mul_one

/-- **C01.** In every monoid (associative `mul`, two-sided unit `one`; not
necessarily commutative) `binary_pow(x, n)` is the product of `n` copies of `x`,
for every `n`. -/
theorem binaryPow_eq_nfold (x : α) (n : Nat) :
    binaryPow mul one x n = nfold mul one x n := by
  unfold binaryPow
  split
  · rename_i h; subst h; rfl
  · rw [loop_eq assoc one_mul mul_one _ _ _ (by omega), one_mul]

end

/-- Specialisation: on natural numbers, `binary_pow(x, n) = x ^ n`. -/
theorem binaryPow_nat (x n : Nat) : binaryPow (· * ·) 1 x n = x ^ n := by
  rw [binaryPow_eq_nfold (fun a b c => Nat.mul_assoc a b c) Nat.one_mul Nat.mul_one]
  induction n with
  | zero => rfl
  | succ n ih => simp [nfold, ih, Nat.pow_succ]

/-- Specialisation to wrapping unsigned arithmetic: `binary_pow` on `w`-bit words is
`x ^ n` modulo `2 ^ w`. -/
theorem binaryPow_bitVec {w : Nat} (x : BitVec w) (n : Nat) :
    (binaryPow (· * ·) 1#w x n).toNat = x.toNat ^ n % 2 ^ w := by
  rw [binaryPow_eq_nfold (fun a b c => BitVec.mul_assoc a b c) (fun a => BitVec.one_mul a)
    (fun a => BitVec.mul_one a)]
  induction n with
  | zero => simp [nfold]
  | succ n ih => simp [nfold, ih, Nat.pow_succ]

/-- A non-commutative instance: strings under concatenation. -/
example : binaryPow (· ++ ·) [] ['a', 'b'] 3 = ['a', 'b', 'a', 'b', 'a', 'b'] := by
  rw [binaryPow_eq_nfold (fun a b c => List.append_assoc a b c) (by simp) (by simp)]
  rfl

end Actl.BinaryPow
