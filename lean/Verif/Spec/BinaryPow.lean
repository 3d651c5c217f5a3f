import Verif.Model.BinaryPow

namespace Actl.BinaryPow

/-- Specification: the product of `n` copies of `x`, `one * x * ... * x`. -/
def nfold {α : Type _} (mul : α → α → α) (one x : α) : Nat → α
  | 0 => one
  | n + 1 => mul (nfold mul one x n) x

end Actl.BinaryPow
