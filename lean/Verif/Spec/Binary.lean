import Verif.Model.Binary

/-!
Which values are objects, and which objects a value may be read into.
-/

namespace Actl.Binary

/-- Arrays have their length, containers less than `2^64` elements. -/
def WF : (t : Ty) → Val t → Prop
  | .unit, _ => True
  | .arith _, _ => True
  | .pair a b, x => WF a x.1 ∧ WF b x.2
  | .array n t, x => List.length x = n ∧ ∀ y ∈ (show List (Val t) from x), WF t y
  | .vec t, x => List.length x < 2 ^ 64 ∧ ∀ y ∈ (show List (Val t) from x), WF t y
  | .seq t, x => List.length x < 2 ^ 64 ∧ ∀ y ∈ (show List (Val t) from x), WF t y

/-- No non-empty container without random access anywhere inside. -/
def NoSeq : (t : Ty) → Val t → Prop
  | .unit, _ => True
  | .arith _, _ => True
  | .pair a b, x => NoSeq a x.1 ∧ NoSeq b x.2
  | .array _ t, x => ∀ y ∈ (show List (Val t) from x), NoSeq t y
  | .vec t, x => ∀ y ∈ (show List (Val t) from x), NoSeq t y
  | .seq t, x => x = ([] : List (Val t))

end Actl.Binary
