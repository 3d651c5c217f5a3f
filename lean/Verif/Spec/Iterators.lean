import Verif.Model.Iterators

/-!
Specification of linked lists in memory (C76).
-/

namespace Actl.Iterators

variable {α : Type}

/-- The nodes at the addresses `as`, in this order, are linked by their next pointers, up to the null
pointer, and hold the values `vs`. -/
def IsList (h : Heap α) : List Nat → List α → Prop
  | [], [] => True
  | a :: as, v :: vs => a ≠ 0 ∧ (∃ p, h a = some ⟨v, as.headD 0, p⟩) ∧ IsList h as vs
  | _, _ => False

/-- The previous pointers link the same nodes backwards. -/
def BackLinked (h : Heap α) (as : List Nat) : Prop :=
  ∀ i a b n, as[i]? = some a → as[i + 1]? = some b → h b = some n → n.prev = a

end Actl.Iterators
