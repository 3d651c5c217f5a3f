import Verif.Model.Text

/-!
Model of the incremental parser driver, `io/core/parser_executor.hpp`, and of
`const_data_parser`, `io/core/const_data_parser.hpp`.

A parser is a function `σ → List Byte → Option (Nat × σ)`: the member function `parse(s)` on a
state of type `σ`, giving the number of consumed characters and the new state; `none` is
undefined behaviour (`s[0]` on an empty span).
-/

namespace Actl.Parser

open Actl.Text

/-- `while (parsed_available_data(id, parser)) {}`, `parser_executor.hpp:14-22,30`.  The device
is given by the sequence of its input buffers: after a buffer has been consumed completely the
next call of `input_buffer()` returns the next one; at the end of data it returns an empty one.
The result is the total number of characters consumed and the final parser state. -/
def exec {σ : Type} (parse : σ → List Byte → Option (Nat × σ)) :
    σ → List (List Byte) → Option (Nat × σ)
  | st, [] => some (0, st)
  | st, s :: rest =>
    if s.isEmpty then some (0, st)                       -- s.empty()
    else match parse st s with
      | none => none
      | some (offset, st') =>
        if offset = s.length then                        -- offset == s.size()
          match exec parse st' rest with
          | none => none
          | some (n, st'') => some (offset + n, st'')
        else some (offset, st')

/-- Length of the common prefix: `mismatch(pending, s).second - s.begin()`. -/
def matching : List Byte → List Byte → Nat
  | p :: ps, c :: cs => if p = c then 1 + matching ps cs else 0
  | _, _ => 0

/-- `const_data_parser::parse`, `const_data_parser.hpp:17-22`; the state is `pending`. -/
def constParse (pending : List Byte) (s : List Byte) : Option (Nat × List Byte) :=
  let m := matching pending s
  some (m, pending.drop m)

/-- `const_data_parser::ready`, `const_data_parser.hpp:24-26`. -/
def constReady (pending : List Byte) : Bool := pending.isEmpty

/-! ### Booleans -/

/-- `true_s`, `false_s`, `io/format/text/arithmetic/boolean.hpp:14-15`. -/
def trueS : List Byte := bytes "true"
def falseS : List Byte := bytes "false"

/-- `encode(fmt, bool)`, `io/format/text/arithmetic/boolean.hpp:20-28`. -/
def encodeBool (alpha : Bool) (x : Bool) : List Byte :=
  if alpha then (if x then trueS else falseS) else [if x then lit '1' else lit '0']

/-- `boolean_parser`, `io/format/text/parser/boolean.hpp:14-19`: `started` is
`state == states::suffix`; `x` is uninitialized until then (`none`). -/
structure BoolSt where
  x : Option Bool
  started : Bool
  suffix : List Byte
deriving DecidableEq, Repr

/-- A freshly constructed `boolean_parser`. -/
def BoolSt.init : BoolSt := ⟨none, false, []⟩

/-- `boolean_parser::parse`, `boolean.hpp:24-40`. -/
def boolParse (alpha : Bool) (st : BoolSt) (s : List Byte) : Option (Nat × BoolSt) :=
  if st.started = false then
    match s with
    | [] => none
    | c :: _ =>
      if alpha then
        let x := c == lit 't'
        match constParse (if x then trueS else falseS) s with
        | none => none
        | some (n, suf) => some (n, ⟨some x, true, suf⟩)
      else
        let x := c == lit '1'
        let ok := x || c == lit '0'
        if ok then some (1, ⟨some x, true, st.suffix⟩) else some (0, { st with x := some x })
  else
    match constParse st.suffix s with
    | none => none
    | some (n, suf) => some (n, { st with suffix := suf })

/-- `boolean_parser::ready`, `boolean.hpp:42-44`. -/
def boolReady (st : BoolSt) : Bool := constReady st.suffix && st.started

/-- Reading a `bool` (`parser_executor::operator()`, `parser_executor.hpp:29-35`, with
`make_parser`, `io/format/text/parser/arithmetic.hpp:19-21`): consumed characters and the value
stored, if any. -/
def readBool (alpha : Bool) (chunks : List (List Byte)) : Option (Nat × Option Bool) :=
  match exec (boolParse alpha) .init chunks with
  | none => none
  | some (n, st) => some (n, if boolReady st then st.x else none)

/-- Reading constant data (`parser_executor<void, const_data_parser>`,
`io/argument/const_byte_span.hpp`): consumed characters and success. -/
def readConst (data : List Byte) (chunks : List (List Byte)) : Option (Nat × Bool) :=
  match exec constParse data chunks with
  | none => none
  | some (n, st) => some (n, constReady st)

end Actl.Parser
