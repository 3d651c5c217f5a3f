import Verif.Model.Geometry

/-!
# Winding number, point in a simple polygon

Model of `algorithm/polygon/winding_number.hpp` and `algorithm/within/simple_polygon.hpp`, exact
arithmetic as in `Model/Geometry.lean`.  The counter is an unbounded integer (the code uses `int`,
which overflows only for polygons of more than `2^31` vertices).
-/

namespace Actl.Geo

variable {F : Type*} [Mul F] [Sub F] [Zero F] [LinearOrder F]

/-- `std::numeric_limits<int>::max()`, `winding_number.hpp` 23. -/
def boundary : Int := 2 ^ 31 - 1

/-- The body of the loop, `winding_number.hpp` 31-54, for the vertices `a = *i` and `b = *j`: `none`
when it returns `boundary`, otherwise what is added to `res`. -/
def windStep (p a b : Vec F 2) : Option Int :=
  if isEqual p a then none
  else if a 1 = p 1 ∧ b 1 = p 1 then
    if a 0 < b 0 then
      if ¬ p 0 < a 0 ∧ ¬ b 0 < p 0 then none else some 0
    else
      if ¬ p 0 < b 0 ∧ ¬ a 0 < p 0 then none else some 0
  else
    let below := decide (a 1 < p 1)
    if below ≠ decide (b 1 < p 1) then
      let orient := orientation3 p b a
      if orient = .collinear then none
      else if below = decide (orient = .right) then some (if below then 1 else -1)
      else some 0
    else some 0

/-- The loop, `winding_number.hpp` 30-56: `n` steps are left, the cyclic iterator is at `i`. -/
def windLoop (p : Vec F 2) (poly : List (Vec F 2)) : Nat → Int → Int → Int
  | 0, _, res => res
  | n + 1, i, res =>
    match windStep p (cyclicAt poly i 0) (cyclicAt poly i 1) with
    | none => boundary
    | some d => windLoop p poly n (cyclicNext poly.length i) (res + d)

/-- `winding_number`, `winding_number.hpp` 19-57. -/
def windingNumber (p : Vec F 2) (poly : List (Vec F 2)) : Int :=
  match poly with
  | [] => 0
  | [v] => if isEqual p v then boundary else 0
  | _ => windLoop p poly poly.length 0 0

/-- `within(point, simple_polygon)`, `within/simple_polygon.hpp` 15-27. -/
def withinSimple (p : Vec F 2) (poly : List (Vec F 2)) : Within :=
  if windingNumber p poly = 0 then .outside
  else if windingNumber p poly = boundary then .border
  else .inside

end Actl.Geo
