import Verif.Model.RealParse

/-!
Model of the input of real numbers with rounding: `io/format/text/parser/float_unchecked.hpp`, as in
`Verif.Model.RealParse`, but every operation of the floating point type, and every conversion of an integer to it, is
followed by a rounding `fl`.  Overflow to infinity and numbers too close to zero are not modelled: `fl` is any
function.
-/

namespace Actl.IntText

open Actl.Text

variable {F : Type} [Field F]

/-- `case states::point`, `float_unchecked.hpp:77-86`; `i` is the position, `s` the rest of the text.  `power /= ...`
and `x += p * power` convert the integers.  The third argument bounds the number of iterations. -/
def pointLoopR (fl : F → F) (base : Nat) : Nat → FloatSt F → Nat → List Byte → Nat × FloatSt F
  | 0, st, i, _ => (i, st)
  | k + 1, st, i, s =>
    if s = [] then (i, st)
    else
      let (p, length) := parseDigits base s
      if length = 0 then (i, st)
      else
        let power := fl (st.power / fl (basePower base length : Nat))
        pointLoopR fl base k { st with power := power, x := fl (st.x + fl (fl p * power)) } (i + length)
          (s.drop length)

/-- `case states::integral`, `float_unchecked.hpp:63-76`, falling through to the next case;
`x * binary_pow(base, length) + p` converts both integers. -/
def integralLoopR (fl : F → F) (base : Nat) : Nat → FloatSt F → Nat → List Byte → Nat × FloatSt F
  | 0, st, i, _ => (i, st)
  | k + 1, st, i, s =>
    if s = [] then (i, st)
    else
      let (p, length) := parseDigits base s
      if length = 0 then
        if s.head? = some (lit '.') then
          pointLoopR fl base (s.tail.length + 1) { st with state := .point } (i + 1) s.tail
        else (i, st)
      else
        integralLoopR fl base k { st with x := fl (fl (st.x * fl (basePower base length : Nat)) + fl p) }
          (i + length) (s.drop length)

/-- `case states::sign`, `float_unchecked.hpp:55-62`, falling through to the next case. -/
def signStepR (fl : F → F) (base : Nat) (st : FloatSt F) (i : Nat) (s : List Byte) : Nat × FloatSt F :=
  let (p, length) := parseDigits base s
  if length = 0 then (i, st)
  else
    integralLoopR fl base (s.length + 1) { st with x := fl p, state := .integral } (i + length) (s.drop length)

/-- `float_unchecked_parser::parse`, `float_unchecked.hpp:47-88`. -/
def floatParseR (fl : F → F) (base : Nat) (st : FloatSt F) (s : List Byte) : Option (Nat × FloatSt F) :=
  match st.state with
  | .empty =>
    match signParse true st.negate s with
    | none => none
    | some (i, negate) =>
      let st := { st with negate := negate, state := .sign }
      if i = s.length then some (i, st) else some (signStepR fl base st i (s.drop i))
  | .sign => some (signStepR fl base st 0 s)
  | .integral => some (integralLoopR fl base (s.length + 1) st 0 s)
  | .point => some (pointLoopR fl base (s.length + 1) st 0 s)

/-- Reading a real number (`parser_executor::operator()` with `make_parser`,
`io/format/text/parser/arithmetic.hpp:29-32`; base 0 is replaced by 10, `float_unchecked.hpp:39`): consumed characters
and the value stored, if any. -/
def readRealR (fl : F → F) (base : Nat) (chunks : List (List Byte)) : Option (Nat × Option F) :=
  match Parser.exec (floatParseR fl (if base = 0 then 10 else base)) .init chunks with
  | none => none
  | some (n, st) => some (n, if floatReady st then some (floatValue st) else none)

end Actl.IntText
