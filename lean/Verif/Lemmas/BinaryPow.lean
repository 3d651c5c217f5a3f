import Verif.Spec.BinaryPow

set_option linter.unusedSectionVars false

namespace Actl.BinaryPow

section
variable {α : Type _} {mul : α → α → α} {one : α}
  (assoc : ∀ a b c, mul (mul a b) c = mul a (mul b c))
  (one_mul : ∀ a, mul one a = a) (mul_one : ∀ a, mul a one = a)

include assoc one_mul mul_one

theorem nfold_add (x : α) (m n : Nat) :
    nfold mul one x (m + n) = mul (nfold mul one x m) (nfold mul one x n) := by
  induction n with
  | zero => simp [nfold, mul_one]
  | succ n ih => rw [← Nat.add_assoc]; simp [nfold, ih, assoc]

theorem nfold_square (x : α) (n : Nat) :
    nfold mul one (mul x x) n = nfold mul one x (2 * n) := by
  induction n with
  | zero => rfl
  | succ n ih => rw [Nat.mul_succ]; simp [nfold, ih, assoc]

theorem loop_eq (res value : α) (power : Nat) (h : 0 < power) :
    loop mul res value power = mul res (nfold mul one value power) := by
  induction power using Nat.strongRecOn generalizing res value with
  | ind power ih =>
    unfold loop
    split
    · rename_i h1
      rw [ih (power / 2) (by omega) _ _ (by omega), nfold_square assoc one_mul mul_one]
      split
      · rename_i h2
        have hp : power = 1 + 2 * (power / 2) := by omega
        rw [assoc]
        congr 1
        conv => rhs; rw [hp, nfold_add assoc one_mul mul_one]
        simp [nfold, one_mul]
      · have hp : power = 2 * (power / 2) := by omega
        rw [← hp]
    · have hp : power = 1 := by omega
      subst hp
      simp [nfold, one_mul]

end

end Actl.BinaryPow
