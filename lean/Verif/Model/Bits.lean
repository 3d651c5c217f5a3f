/-!
Model of `numeric/bit/operation.hpp` and of the flag word of the text format
(`io/format/text/text.hpp`, `io/format/text/settings/flags.hpp`).

Words are `BitVec w`, for every width `w` (in C++: an unsigned type not subject to integral
promotion).  Shift amounts are natural numbers; a shift by `w` or more is undefined behaviour in
C++ (the theorems that need it assume `i < w`).
-/

namespace Actl.Bits

variable {w : Nat}

/-- `numeric/bit/operation.hpp:14-18`, `bit<T>(i)`. -/
def bit (i : Nat) : BitVec w := 1#w <<< i

/-- `numeric/bit/operation.hpp:20-24`, `has_bit`. -/
def hasBit (x : BitVec w) (i : Nat) : Bool := (x >>> i &&& 1#w) != 0#w

/-- `numeric/bit/operation.hpp:26-29`, `has_bits`. -/
def hasBits (x bits : BitVec w) : Bool := (x &&& bits) == bits

/-- `numeric/bit/operation.hpp:31-34`, `clear_bits`. -/
def clearBits (x bits : BitVec w) : BitVec w := x &&& ~~~bits

/-- `numeric/bit/operation.hpp:36-39`, `clear_bit`. -/
def clearBit (x : BitVec w) (i : Nat) : BitVec w := clearBits x (bit i)

/-- `numeric/bit/operation.hpp:41-44`, `set_bits`: takes `x` by non-const reference but only
returns the new value, `x` itself is not written. -/
def setBits (x mask bits : BitVec w) : BitVec w := clearBits x mask ||| (bits &&& mask)

/-- `flag_t`, `io/format/text/settings/flags.hpp:13`. -/
abbrev FlagT := BitVec 32

/-- The flags of `io/format/text/settings/flags.hpp:17-26`. -/
inductive Flag
  | boolalpha | uppercase | showbase | showpos | showpoint | fixed | scientific | hexfloat
deriving DecidableEq, Repr

/-- The enumerators of `io/format/text/settings/flags.hpp:17-26`. -/
def Flag.word : Flag → FlagT
  | .boolalpha => 1 <<< 0
  | .uppercase => 1 <<< 1
  | .showbase => 1 <<< 2
  | .showpos => 1 <<< 3
  | .showpoint => 1 <<< 4
  | .fixed => 1 <<< 5
  | .scientific => 1 <<< 6
  | .hexfloat => 1 <<< 7

/-- `group_bits[groups::floatfield]`, `io/format/text/settings/flags.hpp:32-36`. -/
def floatfield : FlagT := Flag.fixed.word ||| Flag.scientific.word ||| Flag.hexfloat.word

/-- `text::getf`, `io/format/text/text.hpp:60-62`. -/
def getf (flags : FlagT) (f : Flag) : Bool := hasBits flags f.word

/-- `text::setf(flag)`, `io/format/text/text.hpp:64-66`. -/
def setf (flags : FlagT) (f : Flag) : FlagT := flags ||| f.word

/-- `text::unsetf`, `io/format/text/text.hpp:68-70`. -/
def unsetf (flags : FlagT) (f : Flag) : FlagT := clearBits flags f.word

/-- `text::setf(flag, groups::floatfield)`, `io/format/text/text.hpp:72-74`; `flag` is a word
because `defaultfloat` passes `0` (`io/format/text/text.hpp:125-128`). -/
def setGroup (flags flag : FlagT) : FlagT := setBits flags floatfield flag

/-- The manipulators of `io/format/text/text.hpp:108-145`. -/
inductive Manip
  | set (f : Flag) | unset (f : Flag) | group (f : Option Flag)
deriving DecidableEq, Repr

/-- `manipulate`, `io/format/text/text.hpp:134-145`. -/
def manipulate (flags : FlagT) : Manip → FlagT
  | .set f => setf flags f
  | .unset f => unsetf flags f
  | .group none => setGroup flags 0
  | .group (some f) => setGroup flags f.word

end Actl.Bits
