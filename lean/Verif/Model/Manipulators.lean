import Verif.Model.Bits

/-!
Model of manipulators among the arguments of `write` and `read`: `io/core/manipulator.hpp`,
`io/core/read_write.hpp:50-66`, `io/io.hpp:35-53`, `io/format/composed_format.hpp:54-58`,
`io/format/text/text.hpp:98-145`, `io/format/text/settings/base.hpp`,
`io/format/text/decorator/spaced.hpp:77-80`, `io/format/text/decorator/indented.hpp:45-50`.

`none` is a call that does not compile.  Flags of the text format are those of `Verif/Model/Bits.lean`.
-/

namespace Actl.Manipulators

open Actl.Bits

/-- Formats, as far as manipulators are concerned. -/
inductive Fmt
  /-- `text`, `text.hpp:48-79`: flags, base and precision. -/
  | text (flags : FlagT) (base : Nat) (precision : Nat)
  /-- `text_static`, `text.hpp:29-46`: all settings are template arguments. -/
  | textStatic (flags : FlagT) (base : Nat) (precision : Nat)
  /-- `spaced`, `spaced.hpp:17-38`: the member `separate`. -/
  | spaced (separate : Bool)
  /-- `indented`, `indented.hpp:14-23`: the members `level` (`size_t`) and `indent`. -/
  | indented (level : BitVec 64) (indent : Bool)
  /-- A format without flags and without an overload of `manipulate`: `binary`, `skipws`, `unit_flush`,
  `escaped`, `braced`, `adjusted`. -/
  | other
  /-- `first >>= second`, `composed_format.hpp:16-29`. -/
  | composed (first second : Fmt)
  deriving DecidableEq

/-- Manipulators. -/
inductive Man
  /-- `setf<Flag, Value>` and `setg<Group, Flag>`, `text.hpp:98-131`. -/
  | flags (m : Bits.Manip)
  /-- `base_t`: `decimal`, `hex`, `octal`, `detect_base`, `base.hpp:15-41`. -/
  | base (b : Nat)
  /-- `change_level<Deeper>`, `manipulator.hpp:19-22`. -/
  | level (deeper : Bool)
  deriving DecidableEq

/-- `manipulate(fmt, m)`.  Overload resolution:
* of a composed format and a flag, `composed_format.hpp:54` is more specialized in the first parameter and
  `text.hpp:134,142` in the second one, so that the call is ambiguous;
* of another format and a flag, `text.hpp:134-145` is more specialized than `manipulator.hpp:17`, and calls
  the member `setf`, which only `text` has;
* of `base_t` there is only `manipulator.hpp:17`, which does nothing, and `composed_format.hpp:54-58`;
* of `change_level` there are those of `spaced` and `indented` in addition. -/
def manipulate : Fmt → Man → Option Fmt
  | .composed _ _, .flags _ => none
  | .composed a b, m => (manipulate a m).bind fun a' => (manipulate b m).map fun b' => .composed a' b'
  | .text fl b p, .flags m => some (.text (Bits.manipulate fl m) b p)
  | _, .flags _ => none
  | .spaced _, .level deeper => some (.spaced (!deeper))
  | .indented level indent, .level deeper =>
    some (.indented (if deeper then level + 1 else level - 1) (indent || deeper))
  | f, .level _ => some f
  | f, .base _ => some f

/-- An argument of `write` or `read`: a manipulator, or a value together with whether writing (reading) it
succeeds. -/
inductive Arg
  | man (m : Man)
  | value (ok : Bool)
  deriving DecidableEq

/-- `write(od, fmt, args...)` and `read(id, fmt, args...)`, `io.hpp:35-38,45-48`, with `arg_resolver` for
manipulators, `read_write.hpp:53-66`: the format afterwards, the formats the values were written with, and
the result.  Simplified: writing a value leaves the format alone (what `spaced` and `indented` remember of a
value is the subject of C59 and C78). -/
def run (f : Fmt) : List Arg → Option (Fmt × List Fmt × Bool)
  | [] => some (f, [], true)
  | .man m :: args => (manipulate f m).bind fun f' => run f' args
  | .value ok :: args =>
    if ok then (run f args).map fun r => (r.1, f :: r.2.1, r.2.2)
    -- the fold expression stops; the remaining arguments still have to compile
    else (run f args).map fun _ => (f, [f], false)

/-- Several calls `write(od, args...)` to a `formatted` device, `formatted.hpp:13-24`: the format is part of
the device, `io.hpp:40-43`. -/
def calls (f : Fmt) : List (List Arg) → Option (Fmt × List Fmt)
  | [] => some (f, [])
  | c :: cs => (run f c).bind fun r => (calls r.1 cs).map fun s => (s.1, r.2.1 ++ s.2)

/-- `nested_scope_guard`, `manipulator.hpp:24-35`: the format before and after the guarded code. -/
def guarded (f : Fmt) (body : Fmt → Option Fmt) : Option Fmt :=
  (manipulate f (.level true)).bind fun g => (body g).bind fun h => manipulate h (.level false)

end Actl.Manipulators
