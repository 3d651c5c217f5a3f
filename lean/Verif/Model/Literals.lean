/-!
Model of `numeric/constant_literals.hpp`: what the compiler computes for a literal such as
`0x1'F_c`.  The template parameter pack `Chars...` is a list of characters; "fails to compile"
is `none`.
-/

namespace Actl.Literals

/-- `numeric/constant_literals.hpp:17-25`, `digit_to_value<C>`.  For any other character no
branch returns, so the function is ill-formed in a constant expression: `none`. -/
def digitToValue (c : Char) : Option Nat :=
  if 'a' ≤ c ∧ c ≤ 'f' then some (c.toNat - 'a'.toNat + 10)
  else if 'A' ≤ c ∧ c ≤ 'F' then some (c.toNat - 'A'.toNat + 10)
  else if '0' ≤ c ∧ c ≤ '9' then some (c.toNat - '0'.toNat)
  else none

/-- `numeric/constant_literals.hpp:27-40`, `filter_digits`: separators are dropped, every other
character is converted and appended.  `acc` is the `integer_sequence` built so far. -/
def filterDigits (acc : List Nat) : List Char → Option (List Nat)
  | [] => some acc
  | '\'' :: cs => filterDigits acc cs
  | c :: cs => match digitToValue c with
    | some d => filterDigits (acc ++ [d]) cs
    | none => none

/-- `numeric/constant_literals.hpp:49-65`, the partial specializations of `to_number`: base and
remaining characters.  The most specialized one wins, whatever the order of declaration. -/
def toNumber : List Char → Nat × List Char
  | '0' :: 'X' :: cs => (16, cs)
  | '0' :: 'x' :: cs => (16, cs)
  | '0' :: 'b' :: cs => (2, cs)
  | '0' :: 'B' :: cs => (2, cs)
  | '0' :: cs => (8, cs)
  | cs => (10, cs)

/-- `numeric/constant_literals.hpp:72-85`, `fold`: both `static_assert`s, then the recursion.
`maxU` is `numeric_limits<U>::max()`. -/
def fold (maxU base : Nat) : Nat → List Nat → Option Nat
  | x, [] => some x
  | x, d :: ds =>
    if d < base then
      if x ≤ (maxU - d) / base then fold maxU base (d + base * x) ds else none
    else none

/-- `numeric/constant_literals.hpp:67-89` and `95-117`: `T{fold<0>(digits)}` where `T{…}` is a
narrowing error when the value exceeds `numeric_limits<T>::max()`, here `maxT`. -/
def literal (maxT maxU : Nat) (cs : List Char) : Option Nat :=
  let (base, rest) := toNumber cs
  match filterDigits [] rest with
  | none => none
  | some ds => match fold maxU base 0 ds with
    | none => none
    | some v => if v ≤ maxT then some v else none

end Actl.Literals
