import Verif.Model.BinaryAssoc
import Verif.Spec.Binary

/-! Which values are objects, and what can be read back. -/

namespace Actl.BinaryAssoc

/-- In order of a comparison: strictly for unique containers. -/
def Sorted {α : Type} (unique : Bool) (less : α → α → Bool) (xs : List α) : Prop :=
  xs.Pairwise fun x y => if unique then less x y = true else less y x = false

/-- Containers have less than `2^64` elements, sets and maps are sorted. -/
def WF (less : Less) : (t : Ty) → Val t → Prop
  | .base t, x => Binary.WF t x
  | .pair a b, x => WF less a x.1 ∧ WF less b x.2
  | .vec t, x => List.length x < 2 ^ 64 ∧ ∀ y ∈ (show List (Val t) from x), WF less t y
  | .set u t, x => List.length x < 2 ^ 64 ∧ Sorted u (less.elem t) x ∧ ∀ y ∈ (show List (Val t) from x), WF less t y
  | .map u k t, x => List.length x < 2 ^ 64 ∧ Sorted u (fun a b => less.key k a.1 b.1) x ∧
      ∀ y ∈ (show List (Binary.Val k × Val t) from x), Binary.WF k y.1 ∧ WF less t y.2

/-- Objects to read into: containers filled by insertion are empty. -/
def Ready : (t : Ty) → Val t → Prop
  | .base t, x => Binary.WF t x ∧ Binary.NoSeq t x
  | .pair a b, x => Ready a x.1 ∧ Ready b x.2
  | .vec t, x => ∀ y ∈ (show List (Val t) from x), Ready t y
  | .set _ t, x => x = ([] : List (Val t))
  | .map _ k t, x => x = ([] : List (Binary.Val k × Val t))

/-- All numbers in the key are zero. -/
def Zero : (k : Binary.Ty) → Binary.Val k → Prop
  | .unit, _ => True
  | .arith n, x => x = (0 : BitVec (8 * n))
  | .pair a b, x => Zero a x.1 ∧ Zero b x.2
  | .array _ t, x => ∀ y ∈ (show List (Binary.Val t) from x), Zero t y
  | .vec t, x => x = ([] : List (Binary.Val t))
  | .seq t, x => x = ([] : List (Binary.Val t))

/-- All keys of maps are zero. -/
def ZeroKeys : (t : Ty) → Val t → Prop
  | .base _, _ => True
  | .pair a b, x => ZeroKeys a x.1 ∧ ZeroKeys b x.2
  | .vec t, x => ∀ y ∈ (show List (Val t) from x), ZeroKeys t y
  | .set _ t, x => ∀ y ∈ (show List (Val t) from x), ZeroKeys t y
  | .map _ k t, x => ∀ y ∈ (show List (Binary.Val k × Val t) from x), Zero k y.1 ∧ ZeroKeys t y.2

/-- A type without maps. -/
def NoMap : Ty → Prop
  | .base _ => True
  | .pair a b => NoMap a ∧ NoMap b
  | .vec t => NoMap t
  | .set _ t => NoMap t
  | .map _ _ _ => False

end Actl.BinaryAssoc
