import Verif.Model.IntParse
import Verif.Model.RealWrite

/-!
Model of the input of real numbers: `io/format/text/parser/{uint_unchecked,float_unchecked}.hpp`.

The values of the floating point type are elements of a field, with exact arithmetic.
-/

namespace Actl.IntText

open Actl.Text

variable {F : Type} [Field F]

/-- The loop of `uint_unchecked_parser::parse_impl`, `uint_unchecked.hpp:23-32`, for 64 bits: number
of consumed characters and `x` afterwards. -/
def uncheckedLoop (base : Nat) : Nat → List Byte → Nat × Nat
  | x, [] => (0, x)
  | x, c :: s =>
    let d := toDigit 64 base c
    if ¬ d < base then (0, x)
    else
      let (n, r) := uncheckedLoop base ((x * base + d) % 2 ^ 64) s
      (n + 1, r)

/-- `max_length`, `float_unchecked.hpp:40-45`. -/
def maxLength (base : Nat) : Nat := digitCount (2 ^ 64 - 1) base - 1

/-- `parse_int`, `float_unchecked.hpp:30-35`: the value and the number of digits. -/
def parseDigits (base : Nat) (s : List Byte) : Nat × Nat :=
  let (n, x) := uncheckedLoop base 0 (if s.length ≤ maxLength base then s else s.take (maxLength base))
  (x, n)

inductive FloatState | empty | sign | integral | point
deriving DecidableEq, Repr

/-- `float_unchecked_parser`, `float_unchecked.hpp:18-28`; `base` and `max_length` are constant and
not part of the state. -/
structure FloatSt (F : Type) where
  state : FloatState
  negate : Bool
  x : F
  power : F

/-- A freshly constructed parser. -/
def FloatSt.init : FloatSt F := ⟨.empty, false, 0, 1⟩

/-- `case states::point`, `float_unchecked.hpp:77-86`; `i` is the position, `s` the rest of the text.
The first argument bounds the number of iterations. -/
def pointLoop (base : Nat) : Nat → FloatSt F → Nat → List Byte → Nat × FloatSt F
  | 0, st, i, _ => (i, st)
  | k + 1, st, i, s =>
    if s = [] then (i, st)
    else
      let (p, length) := parseDigits base s
      if length = 0 then (i, st)
      else
        let power := st.power / (basePower base length : Nat)
        pointLoop base k { st with power := power, x := st.x + p * power } (i + length) (s.drop length)

/-- `case states::integral`, `float_unchecked.hpp:63-76`, falling through to the next case. -/
def integralLoop (base : Nat) : Nat → FloatSt F → Nat → List Byte → Nat × FloatSt F
  | 0, st, i, _ => (i, st)
  | k + 1, st, i, s =>
    if s = [] then (i, st)
    else
      let (p, length) := parseDigits base s
      if length = 0 then
        if s.head? = some (lit '.') then
          pointLoop base (s.tail.length + 1) { st with state := .point } (i + 1) s.tail
        else (i, st)
      else
        integralLoop base k { st with x := st.x * (basePower base length : Nat) + p } (i + length)
          (s.drop length)

/-- `case states::sign`, `float_unchecked.hpp:55-62`, falling through to the next case. -/
def signStep (base : Nat) (st : FloatSt F) (i : Nat) (s : List Byte) : Nat × FloatSt F :=
  let (p, length) := parseDigits base s
  if length = 0 then (i, st)
  else
    integralLoop base (s.length + 1) { st with x := p, state := .integral } (i + length)
      (s.drop length)

/-- `float_unchecked_parser::parse`, `float_unchecked.hpp:47-88`. -/
def floatParse (base : Nat) (st : FloatSt F) (s : List Byte) : Option (Nat × FloatSt F) :=
  match st.state with
  | .empty =>
    match signParse true st.negate s with
    | none => none
    | some (i, negate) =>
      let st := { st with negate := negate, state := .sign }
      if i = s.length then some (i, st) else some (signStep base st i (s.drop i))
  | .sign => some (signStep base st 0 s)
  | .integral => some (integralLoop base (s.length + 1) st 0 s)
  | .point => some (pointLoop base (s.length + 1) st 0 s)

/-- `float_unchecked_parser::ready`, `float_unchecked.hpp:90-92`. -/
def floatReady (st : FloatSt F) : Bool :=
  decide (st.state ≠ .empty) && decide (st.state ≠ .sign)

/-- `float_unchecked_parser::value`, `float_unchecked.hpp:94-96`, with `sign.hpp:38-39`. -/
def floatValue (st : FloatSt F) : F := if st.negate then -st.x else st.x

/-- Reading a real number (`parser_executor::operator()` with `make_parser`,
`io/format/text/parser/arithmetic.hpp:29-32`; base 0 is replaced by 10, `float_unchecked.hpp:39`):
consumed characters and the value stored, if any. -/
def readReal (base : Nat) (chunks : List (List Byte)) : Option (Nat × Option F) :=
  match Parser.exec (floatParse (if base = 0 then 10 else base)) .init chunks with
  | none => none
  | some (n, st) => some (n, if floatReady st then some (floatValue st) else none)

end Actl.IntText
