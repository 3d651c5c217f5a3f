import Verif.Model.Composite

/-! What comparisons of ranges and tuples should say, in terms of the numbers in them. -/

namespace Actl.Composite

open Actl.Expr (Ty Val Term)

/-- The numbers are equal, or with a tolerance differ by at most that much. -/
def Near : Option Rat → Rat → Rat → Prop
  | none, a, b => a = b
  | some eps, a, b => |a - b| ≤ eps

mutual

/-- The same structure, and near numbers at every position. -/
def Close (tol : Option Rat) : Data → Data → Prop
  | .num a, .num b => Near tol a.num b.num
  | .range xs, .range ys => CloseAll tol xs ys
  | .tuple xs, .tuple ys => CloseAll tol xs ys
  | _, _ => False

@[inherit_doc Close] def CloseAll (tol : Option Rat) : List Data → List Data → Prop
  | [], [] => True
  | x :: xs, y :: ys => Close tol x y ∧ CloseAll tol xs ys
  | _, _ => False

end

mutual

/-- -1, 0 or 1: the first different numbers decide; a proper prefix compares as `p`, which is -1 in a
dictionary. -/
def order (p : Int) : Data → Data → Int
  | .num a, .num b => if a.num < b.num then -1 else if a.num = b.num then 0 else 1
  | .range xs, .range ys => orderAll p xs ys
  | .tuple xs, .tuple ys => orderAll p xs ys
  | _, _ => 0

@[inherit_doc order] def orderAll (p : Int) : List Data → List Data → Int
  | [], [] => 0
  | [], _ :: _ => p
  | _ :: _, [] => -p
  | x :: xs, y :: ys => if order p x y = 0 then orderAll p xs ys else order p x y

end

mutual

/-- The value is of this type. -/
def HasShape : Data → Shape → Prop
  | .num v, .scalar t => v.ty = t
  | .range xs, .range e => HasShapeAll xs e
  | .tuple xs, .tuple es => HaveShapes xs es
  | _, _ => False

/-- All values are of this type. -/
def HasShapeAll : List Data → Shape → Prop
  | [], _ => True
  | x :: xs, e => HasShape x e ∧ HasShapeAll xs e

/-- The values are of these types. -/
def HaveShapes : List Data → List Shape → Prop
  | [], [] => True
  | x :: xs, e :: es => HasShape x e ∧ HaveShapes xs es
  | _, _ => False

end

mutual

/-- Types that can be compared: arithmetic types, and ranges and tuples of such; `ok` is asked of the sizes of the
tuples. -/
def Comparable (ok : Nat → Prop) : Shape → Shape → Prop
  | .scalar a, .scalar b => a.arithmetic = true ∧ b.arithmetic = true
  | .range a, .range b => Comparable ok a b
  | .tuple as, .tuple bs => ok as.length ∧ ComparableAll ok as bs
  | _, _ => False

@[inherit_doc Comparable] def ComparableAll (ok : Nat → Prop) : List Shape → List Shape → Prop
  | [], [] => True
  | a :: as, b :: bs => Comparable ok a b ∧ ComparableAll ok as bs
  | _, _ => False

end

mutual

/-- Ranges at the same position have the same size. -/
def SameSizes : Data → Data → Prop
  | .num _, .num _ => True
  | .range xs, .range ys => SameSizesAll xs ys
  | .tuple xs, .tuple ys => SameSizesAll xs ys
  | _, _ => False

@[inherit_doc SameSizes] def SameSizesAll : List Data → List Data → Prop
  | [], [] => True
  | x :: xs, y :: ys => SameSizes x y ∧ SameSizesAll xs ys
  | _, _ => False

end

/-- Two ranges or two tuples. -/
def Sequences : Shape → Shape → Prop
  | .range _, .range _ => True
  | .tuple _, .tuple _ => True
  | _, _ => False

/-- The call compiles and evaluates to the value. -/
def Calls (t : CTerm) (ps : List Rat) (x y : Data × Shape) (v : Val) : Prop :=
  ∃ n₀, ∀ n, n₀ ≤ n → call n t ps x y = some v

end Actl.Composite
