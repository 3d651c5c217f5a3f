import Verif.Model.SortAngle

/-!
# What the standard algorithms promise
-/

namespace Actl.Geo

/-- The comparison is a strict weak order on the elements of the list. -/
def StrictWeak {E : Type*} (comp : E → E → Bool) (l : List E) : Prop :=
  (∀ a ∈ l, comp a a = false) ∧
    (∀ a ∈ l, ∀ b ∈ l, ∀ c ∈ l, comp a b = true → comp b c = true → comp a c = true) ∧
    ∀ a ∈ l, ∀ b ∈ l, ∀ c ∈ l, comp a b = false → comp b c = false → comp a c = false

/-- `std::partition` rearranges the range into the elements that satisfy the predicate and those
that do not; `std::sort` sorts it, provided that the comparison is a strict weak order on it.
Nothing is promised otherwise. -/
def StdAlgorithms.Correct {E : Type*} (alg : StdAlgorithms E) : Prop :=
  (∀ pred l, ((alg.partition pred l).1 ++ (alg.partition pred l).2).Perm l ∧
    (∀ x ∈ (alg.partition pred l).1, pred x = true) ∧
    ∀ x ∈ (alg.partition pred l).2, pred x = false) ∧
  ∀ comp l, StrictWeak comp l →
    (alg.sort comp l).Perm l ∧ (alg.sort comp l).Pairwise fun a b => comp b a = false

end Actl.Geo
