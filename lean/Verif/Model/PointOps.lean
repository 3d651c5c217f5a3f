import Verif.Model.Geometry

/-!
# Operators of points that change a point in place

Model of `point.hpp` 72-76, 106-145 and 200-209, exact scalars.  An operand that the code takes by reference is either a value
of its own or (part of) the point that is changed; it is read anew in each step of the loop, as in the code.
-/

namespace Actl.Geo

variable {F : Type*} {n : Nat}

/-- `detail::apply(op, output, points...)`, `point.hpp` 106-113: the coordinates are changed one after the other. -/
def applyInPlace (step : Vec F n → Fin n → F) (l : Vec F n) : Vec F n :=
  (List.finRange n).foldl (fun v i => Function.update v i (step v i)) l

/-- The right operand `point<TR, N> const& r`: another point or the point that is changed. -/
inductive PointArg (F : Type*) (n : Nat)
  | other (r : Vec F n)
  | self

/-- Reading the operand while the point has the value `v`. -/
def PointArg.read : PointArg F n → Vec F n → Vec F n
  | .other r, _ => r
  | .self, v => v

/-- The factor `TR const& factor`: a number of its own or a coordinate of the point that is changed. -/
inductive ScalarArg (F : Type*) (n : Nat)
  | value (x : F)
  | coordinate (k : Fin n)

/-- Reading the factor while the point has the value `v`. -/
def ScalarArg.read : ScalarArg F n → Vec F n → F
  | .value x, _ => x
  | .coordinate k, v => v k

/-- `operator+=`, `point.hpp` 127-130. -/
def addAssign [Add F] (l : Vec F n) (r : PointArg F n) : Vec F n := applyInPlace (fun v i => v i + r.read v i) l

/-- `operator-=`, `point.hpp` 132-135. -/
def subAssign [Sub F] (l : Vec F n) (r : PointArg F n) : Vec F n := applyInPlace (fun v i => v i - r.read v i) l

/-- `operator*=`, `point.hpp` 137-140. -/
def mulAssign [Mul F] (l : Vec F n) (f : ScalarArg F n) : Vec F n := applyInPlace (fun v i => v i * f.read v) l

/-- `operator/=`, `point.hpp` 142-145.  `none`: division by zero in some step. -/
def divAssign [Div F] [Zero F] [DecidableEq F] (l : Vec F n) (f : ScalarArg F n) : Option (Vec F n) :=
  (List.finRange n).foldlM (fun v i => if f.read v = 0 then none else some (Function.update v i (v i / f.read v))) l

/-- `div` of a point and a scalar, `point.hpp` 200-209, into a new point.  `none`: the assertion fails. -/
def divPoint [Div F] [Zero F] [DecidableEq F] (l : Vec F n) (f : F) : Option (Vec F n) :=
  if f = 0 then none else some fun i => l i / f

/-- `swap` of two different points, `point.hpp` 72-76. -/
def swapPoints (l r : Vec F n) : Vec F n × Vec F n :=
  (List.finRange n).foldl (fun v i => (Function.update v.1 i (v.2 i), Function.update v.2 i (v.1 i))) (l, r)

/-- `swap` of a point with itself, `point.hpp` 72-76: `std::swap` of each coordinate with itself. -/
def swapSelf (l : Vec F n) : Vec F n := applyInPlace (fun v i => v i) l

end Actl.Geo
