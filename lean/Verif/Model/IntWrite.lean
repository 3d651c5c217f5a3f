import Verif.Model.Text

/-!
Model of integer output, `io/format/text/arithmetic/integer_write.hpp` and
`io/format/text/arithmetic/detail/{uitoa,digit_count}.hpp`.

An integer type is given by its width `w` in bits and its signedness.  A signed type narrower
than `int` does not compile (`~static_cast<UInt>(x) + UInt{1}` has type `int`, so `uitoa`'s
template argument deduction fails): for signed types `w ≥ 32` is meant.
-/

namespace Actl.IntText

open Actl.Text

/-- The format settings the code reads: `fmt.base` and three flags. -/
structure Fmt where
  base : Nat
  showbase : Bool
  showpos : Bool
  uppercase : Bool
deriving Repr, DecidableEq

/-- `digit_count(x, base)`, `io/format/text/arithmetic/detail/digit_count.hpp:13-16`.
(For `base ≤ 1` the C++ recursion does not end; here it is cut off.) -/
def digitCount (x base : Nat) : Nat :=
  if h : x = 0 ∨ base ≤ 1 then 0 else 1 + digitCount (x / base) base
termination_by x
decreasing_by exact Nat.div_lt_self (by omega) (by omega)

/-- `*--last = c` in a buffer of `cap` chars of which the last `out.length` are written;
`none`: the write would be before the start of the buffer. -/
def push (cap : Nat) (c : Byte) (out : List Byte) : Option (List Byte) :=
  if out.length < cap then some (c :: out) else none

/-- First branch's digit character, `uitoa.hpp:19-21`: `static_cast<Char>('0' + digit)`. -/
def digitChar10 (d : Nat) : Byte := lit '0' + BitVec.ofNat 8 d

/-- Second branch's digit character, `uitoa.hpp:28-33`. -/
def digitChar36 (upper : Bool) (d : Nat) : Byte :=
  if d < 10 then lit '0' + BitVec.ofNat 8 d
  else (if upper then lit 'A' else lit 'a') + BitVec.ofNat 8 (d - 10)

/-- The `do … while` loops of `uitoa.hpp:18-22` and `29-34`, parametrized by the digit
character function. -/
def digitLoop (cap base : Nat) (ch : Nat → Byte) (x : Nat) (out : List Byte) :
    Option (List Byte) :=
  if h : base ≤ 1 then none   -- the C++ loop does not end
  else match push cap (ch (x % base)) out with
    | none => none
    | some out' => if x / base = 0 then some out' else digitLoop cap base ch (x / base) out'
termination_by x
decreasing_by
  rename_i h2
  exact Nat.div_lt_self (Nat.pos_of_ne_zero (fun h0 => h2 (by simp [h0]))) (by omega)

/-- `uitoa`, `uitoa.hpp:13-41` (`ShowBase = true`). -/
def uitoa (cap : Nat) (f : Fmt) (x base : Nat) (out : List Byte) : Option (List Byte) :=
  if base ≤ 10 then
    let showBase := f.showbase && x != 0 && base == 8
    match digitLoop cap base digitChar10 x out with
    | none => none
    | some out => if showBase then push cap (lit '0') out else some out
  else
    let showBase := f.showbase && x != 0 && base == 16
    let a := if f.uppercase then lit 'A' else lit 'a'
    match digitLoop cap base (digitChar36 f.uppercase) x out with
    | none => none
    | some out =>
      if showBase then
        match push cap (a - lit 'a' + lit 'x') out with
        | none => none
        | some out => push cap (lit '0') out
      else some out

/-- `int_string::set_start` and the conversion to `cspan<char>`
(`integer_write.hpp:21-36`): the size is stored in one signed `char` and read back. -/
def stored (out : List Byte) : Option (List Byte) :=
  let size := (BitVec.ofNat 8 out.length).toInt
  if size = out.length then some out else none

/-- `encode(fmt, x)`, `integer_write.hpp:49-75`: the text for the value `x` of an integer type
of width `w`.  `none`: a write outside of the buffer of `1 + digit_count(max, 2)` chars, or a
size that does not survive its storage. -/
def encode (w : Nat) (signed : Bool) (f : Fmt) (x : Int) : Option (List Byte) :=
  let base := if f.base = 0 then 10 else f.base
  let cap := 1 + digitCount (2 ^ w - 1) 2
  let ux : Nat := (x % 2 ^ w).toNat                 -- static_cast<UInt>(x)
  let res :=
    if signed then
      if x < 0 then
        -- ~static_cast<UInt>(x) + UInt{1}
        match uitoa cap f (((2 ^ w - 1 - ux) + 1) % 2 ^ w) base [] with
        | none => none
        | some out => push cap (lit '-') out
      else
        match uitoa cap f ux base [] with
        | none => none
        | some out => if f.showpos then push cap (lit '+') out else some out
    else uitoa cap f ux base []
  match res with
  | none => none
  | some out => stored out

end Actl.IntText
