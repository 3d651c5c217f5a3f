import Verif.Model.LineObjects
import Verif.Spec.Geometry
import Mathlib.Data.Rat.Cast.Order

/-!
# What an object of a type of lines stands for

A set of points with rational coordinates; independent of how the object was made.
-/

namespace Actl.Geo

open Ints (IntT)

variable {n m : Nat}

/-- The points of a line, ray or segment that is kept as an object. -/
def LineObj.Points (o : LineObj n) (p : Vec ℚ n) : Prop :=
  ∃ k : LineKind, o.kind = k.val ∧ ∃ t : ℚ, Allowed k t ∧ ∀ i, p i = o.start i + t * o.vector i

/-- The parameter is allowed by the kind of the end at 0. -/
def LowerEnd {F : Type*} [Zero F] [LinearOrder F] : Endpoint → F → Prop
  | .free, _ => True
  | .closed, t => 0 ≤ t
  | .opened, t => 0 < t

/-- The parameter is allowed by the kind of the end at 1. -/
def UpperEnd {F : Type*} [One F] [LinearOrder F] : Endpoint → F → Prop
  | .free, _ => True
  | .closed, t => t ≤ 1
  | .opened, t => t < 1

/-- The points of the line through `a` and `b` from `a` on and up to `b`, where an end that is `free` does not bound it, a `closed`
end belongs to it and an `open` one does not. -/
def BetweenEnds (a : Vec Int n) (ka : Endpoint) (b : Vec Int n) (kb : Endpoint) (p : Vec ℚ n) : Prop :=
  ∃ t : ℚ, LowerEnd ka t ∧ UpperEnd kb t ∧ ∀ i, p i = a i + t * ((b i : ℚ) - a i)

/-- The number of bits of an integer type that C++ has with `int` of 32 bits. -/
def Builtin (t : IntT) : Prop := (8 ≤ t.width ∧ t.width ≤ 16) ∨ 32 ≤ t.width

/-- What a variable is meant to hold: two points and a kind. -/
structure Figure (n : Nat) where
  a : Vec Int n
  b : Vec Int n
  kind : LineKind

/-- The points of the figure. -/
def Figure.Points (f : Figure n) (p : Vec ℚ n) : Prop :=
  ∃ t : ℚ, Allowed f.kind t ∧ ∀ i, p i = f.a i + t * ((f.b i : ℚ) - f.a i)

/-- A type of coordinates has the first point and the difference of the two. -/
def Figure.Fits (f : Figure n) (t : IntT) : Prop := ∀ i, t.Has (f.a i) ∧ t.Has (f.b i - f.a i)

/-- A type of lines has lines of this kind. -/
def Admits : KindTy → LineKind → Prop
  | .fixed k, k' => k = k'
  | .any, _ => True

/-- The kind that a new line without given kind has. -/
def initialKind : KindTy → LineKind
  | .fixed k => k
  | .any => .free

/-- What a statement is meant to do to the variables, provided that the types have the values. -/
inductive Means (ty : Fin m → LineTy) (g : Fin m → Figure n) : LineOp m n → (Fin m → Figure n) → Prop
  | points (i : Fin m) (ta : IntT) (a : Vec Int n) (tb : IntT) (b : Vec Int n) (kind : Option LineKind)
      (hk : Admits (ty i).kind (kind.getD (initialKind (ty i).kind)))
      (hf : Figure.Fits ⟨a, b, kind.getD (initialKind (ty i).kind)⟩ (ty i).coord)
      (hd : ∀ i, (arithTy tb ta).Has (a i) ∧ (arithTy tb ta).Has (b i) ∧ (arithTy tb ta).Has (b i - a i)) :
      Means ty g (.make i ta a tb b (kind.map LineKind.val) false)
        (Function.update g i ⟨a, b, kind.getD (initialKind (ty i).kind)⟩)
  | vector (i : Fin m) (ta : IntT) (a : Vec Int n) (tb : IntT) (v : Vec Int n) (kind : Option LineKind)
      (hk : Admits (ty i).kind (kind.getD (initialKind (ty i).kind)))
      (hf : Figure.Fits ⟨a, fun j => a j + v j, kind.getD (initialKind (ty i).kind)⟩ (ty i).coord) :
      Means ty g (.make i ta a tb v (kind.map LineKind.val) true)
        (Function.update g i ⟨a, fun j => a j + v j, kind.getD (initialKind (ty i).kind)⟩)
  | copy (i j : Fin m) (hk : Admits (ty i).kind (g j).kind) (hf : (g j).Fits (ty i).coord) :
      Means ty g (.assign i j) (Function.update g i (g j))

/-- What several statements are meant to do. -/
inductive MeansAll (ty : Fin m → LineTy) : (Fin m → Figure n) → List (LineOp m n) → (Fin m → Figure n) → Prop
  | nil (g : Fin m → Figure n) : MeansAll ty g [] g
  | cons {g g' g'' : Fin m → Figure n} {op : LineOp m n} {ops : List (LineOp m n)} (h : Means ty g op g')
      (hs : MeansAll ty g' ops g'') : MeansAll ty g (op :: ops) g''

end Actl.Geo
