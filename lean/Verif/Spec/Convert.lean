import Verif.Model.Convert

/-!
# What a conversion should preserve

The numbers of a value in order, and the type.
-/

namespace Actl.Convert

mutual

/-- The numbers in a value, from left to right. -/
def leaves : Val → List Int
  | .num n => [n]
  | .seq l => leavesAll l

/-- The numbers in several values. -/
def leavesAll : List Val → List Int
  | [] => []
  | v :: vs => leaves v ++ leavesAll vs

end

mutual

/-- The value has the type. -/
def Has : Ty → Val → Prop
  | .num, .num _ => True
  | .const c, .num n => n = c
  | .tuple ts, .seq l => HasAll ts l
  | .arr t n, .seq l => l.length = n ∧ ∀ v ∈ l, Has t v
  | .vec t, .seq l => ∀ v ∈ l, Has t v
  | _, _ => False

/-- The values have the types, one by one. -/
def HasAll : List Ty → List Val → Prop
  | [], [] => True
  | t :: ts, v :: vs => Has t v ∧ HasAll ts vs
  | _, _ => False

end

mutual

/-- There is no vector in the type. -/
def NoVec : Ty → Prop
  | .num | .const _ => True
  | .tuple l => NoVecAll l
  | .arr t _ => NoVec t
  | .vec _ => False

/-- There is no vector in the types. -/
def NoVecAll : List Ty → Prop
  | [] => True
  | t :: ts => NoVec t ∧ NoVecAll ts

end

mutual

/-- There are no vectors inside vectors. -/
def Flat : Ty → Prop
  | .num | .const _ => True
  | .tuple l => FlatAll l
  | .arr t _ => Flat t
  | .vec t => NoVec t

/-- There are no vectors inside vectors. -/
def FlatAll : List Ty → Prop
  | [] => True
  | t :: ts => Flat t ∧ FlatAll ts

end

mutual

/-- There is no empty tuple in the type. -/
def Filled : Ty → Prop
  | .num | .const _ => True
  | .tuple l => l ≠ [] ∧ FilledAll l
  | .arr t _ => Filled t
  | .vec t => Filled t

/-- There is no empty tuple in the types. -/
def FilledAll : List Ty → Prop
  | [] => True
  | t :: ts => Filled t ∧ FilledAll ts

end

end Actl.Convert
